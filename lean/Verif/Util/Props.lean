import Verif.Util.Model
import Mathlib.Data.List.Perm.Basic
import Mathlib.Data.List.Range
import Mathlib.Data.List.Sort
import Mathlib.Data.List.Nodup
import Mathlib.Data.List.Dedup
import Mathlib.Algebra.BigOperators.Group.List.Basic
import Mathlib.Tactic.Ring
import Mathlib.Tactic.Linarith
/-!
# C24, C36, C37
-/
namespace Ceres.Util

/-! ## C24 -/

/-- Inverse used in the proof. -/
def upperToLinear (n i j : Nat) : Nat :=
  if n % 2 = 1 then
    if 2 * i < n then n * i + j else n * (n - i) + (j - i)
  else
    if 2 * i < n then (n + 1) * i + (j + 1) else (n + 1) * (n - 1 - i) + (j - i)

theorem linearToUpper_valid (n k : Nat) (hk : 2 * k < n * (n + 1)) :
    (linearToUpper k n).1 ≤ (linearToUpper k n).2 ∧ (linearToUpper k n).2 < n ∧
    upperToLinear n (linearToUpper k n).1 (linearToUpper k n).2 = k := by
  unfold linearToUpper
  by_cases hodd : n % 2 = 1
  · simp only [hodd, if_true]
    have hn : 0 < n := by omega
    have hdm := Nat.div_add_mod k n
    have hml := Nat.mod_lt k hn
    obtain ⟨h, hh⟩ : ∃ h, n = 2 * h + 1 := ⟨n / 2, by omega⟩
    have hi0 : k / n ≤ h := by
      rw [← Nat.lt_succ_iff, Nat.div_lt_iff_lt_mul hn]
      have : n * (n + 1) = 2 * (h.succ * n) := by rw [hh, Nat.succ_eq_add_one]; ring
      omega
    generalize k / n = i0 at *
    generalize k % n = j0 at *
    by_cases hc : j0 ≥ i0
    · rw [if_pos hc]
      refine ⟨hc, hml, ?_⟩
      simp only [upperToLinear, hodd, if_true]
      rw [if_pos (by omega)]
      omega
    · simp only [hc, if_false]
      refine ⟨by omega, by omega, ?_⟩
      simp only [upperToLinear, hodd, if_true]
      rw [if_neg (by omega)]
      have h1 : n - (n - i0) = i0 := by omega
      have h2 : n - i0 + j0 - (n - i0) = j0 := by omega
      rw [h1, h2]; omega
  · simp only [hodd, if_false]
    have hdm := Nat.div_add_mod k (n + 1)
    have hml := Nat.mod_lt k (Nat.succ_pos n)
    obtain ⟨h, hh⟩ : ∃ h, n = 2 * h := ⟨n / 2, by omega⟩
    have hi0 : k / (n + 1) < h := by
      rw [Nat.div_lt_iff_lt_mul (show 0 < n + 1 by omega)]
      have : n * (n + 1) = 2 * (h * (n + 1)) := by rw [hh]; ring
      omega
    simp only [Nat.succ_eq_add_one] at hml
    generalize k / (n + 1) = i0 at *
    generalize k % (n + 1) = j0 at *
    by_cases hc : j0 > i0
    · simp only [hc, if_true]
      refine ⟨by omega, by omega, ?_⟩
      simp only [upperToLinear, hodd, if_false]
      rw [if_pos (by omega)]
      have : j0 - 1 + 1 = j0 := by omega
      rw [this]; omega
    · simp only [hc, if_false]
      refine ⟨by omega, by omega, ?_⟩
      simp only [upperToLinear, hodd, if_false]
      rw [if_neg (by omega)]
      have h1 : n - 1 - (n - 1 - i0) = i0 := by omega
      have h2 : n - 1 - i0 + j0 - (n - 1 - i0) = j0 := by omega
      rw [h1, h2]; omega

theorem upperToLinear_valid (n i j : Nat) (hij : i ≤ j) (hj : j < n) :
    2 * upperToLinear n i j < n * (n + 1) ∧
    linearToUpper (upperToLinear n i j) n = (i, j) := by
  have hdiv : ∀ w q r : Nat, r < w → (w * q + r) / w = q ∧ (w * q + r) % w = r := by
    intro w q r hr
    constructor
    · rw [Nat.mul_add_div (by omega), Nat.div_eq_of_lt hr, Nat.add_zero]
    · rw [Nat.mul_add_mod, Nat.mod_eq_of_lt hr]
  unfold upperToLinear
  by_cases hodd : n % 2 = 1
  · obtain ⟨h, hh⟩ : ∃ h, n = 2 * h + 1 := ⟨n / 2, by omega⟩
    have hN : n * (n + 1) = 2 * (n * h) + 2 * n := by rw [hh]; ring
    simp only [hodd, if_true]
    by_cases hc : 2 * i < n
    · simp only [hc, if_true]
      have hmul : n * i ≤ n * h := Nat.mul_le_mul_left _ (by omega)
      refine ⟨by omega, ?_⟩
      obtain ⟨e1, e2⟩ := hdiv n i j hj
      simp only [linearToUpper, hodd, if_true, e1, e2]
      rw [if_pos hij]
    · simp only [hc, if_false]
      have hmul : n * (n - i) ≤ n * h := Nat.mul_le_mul_left _ (by omega)
      refine ⟨by omega, ?_⟩
      obtain ⟨e1, e2⟩ := hdiv n (n - i) (j - i) (by omega)
      simp only [linearToUpper, hodd, if_true, e1, e2]
      rw [if_neg (by omega)]
      ext <;> simp only <;> omega
  · obtain ⟨h, hh⟩ : ∃ h, n = 2 * h := ⟨n / 2, by omega⟩
    have hN : n * (n + 1) = 2 * ((n + 1) * h) := by rw [hh]; ring
    have hh1 : 1 ≤ h := by omega
    have hsplit : (n + 1) * h = (n + 1) * (h - 1) + (n + 1) := by
      obtain ⟨m, rfl⟩ : ∃ m, h = m + 1 := ⟨h - 1, by omega⟩
      simp only [Nat.add_sub_cancel]; ring
    simp only [hodd, if_false]
    by_cases hc : 2 * i < n
    · simp only [hc, if_true]
      have hmul : (n + 1) * i ≤ (n + 1) * (h - 1) := Nat.mul_le_mul_left _ (by omega)
      refine ⟨by omega, ?_⟩
      obtain ⟨e1, e2⟩ := hdiv (n + 1) i (j + 1) (by omega)
      simp only [linearToUpper, hodd, if_false, e1, e2]
      rw [if_pos (by omega)]
      ext <;> simp only <;> omega
    · simp only [hc, if_false]
      have hmul : (n + 1) * (n - 1 - i) ≤ (n + 1) * (h - 1) := Nat.mul_le_mul_left _ (by omega)
      refine ⟨by omega, ?_⟩
      obtain ⟨e1, e2⟩ := hdiv (n + 1) (n - 1 - i) (j - i) (by omega)
      simp only [linearToUpper, hodd, if_false, e1, e2]
      rw [if_neg (by omega)]
      ext <;> simp only <;> omega

/-- **C24.**  For every `n`, `LinearIndexToUpperTriangularIndex` maps `0 ≤ k < n(n+1)/2`
one-to-one onto the pairs `i ≤ j < n`. -/
theorem linearToUpper_bijection (n : Nat) :
    (∀ k, 2 * k < n * (n + 1) →
      (linearToUpper k n).1 ≤ (linearToUpper k n).2 ∧ (linearToUpper k n).2 < n) ∧
    (∀ k k', 2 * k < n * (n + 1) → 2 * k' < n * (n + 1) →
      linearToUpper k n = linearToUpper k' n → k = k') ∧
    (∀ i j, i ≤ j → j < n → ∃ k, 2 * k < n * (n + 1) ∧ linearToUpper k n = (i, j)) := by
  refine ⟨fun k hk => ?_, fun k k' hk hk' h => ?_, fun i j hij hj => ?_⟩
  · have := linearToUpper_valid n k hk
    exact ⟨this.1, this.2.1⟩
  · rw [← (linearToUpper_valid n k hk).2.2, ← (linearToUpper_valid n k' hk').2.2, h]
  · exact ⟨_, upperToLinear_valid n i j hij hj⟩

example : 2 * 7 < 4 * 5 ∧ linearToUpper 7 4 = (1, 1) ∧ linearToUpper 9 4 = (1, 3) := by decide

/-! ## C37 -/

theorem mem_uniq (l : List Int) (x : Int) : x ∈ uniq l ↔ x ∈ l := by
  fun_induction uniq l with
  | case1 => rfl
  | case2 => rfl
  | case3 a l ih => rw [ih]; simp
  | case4 a b l h ih => simp only [List.mem_cons, ih]

theorem uniq_sorted (l : List Int) (h : l.Pairwise (· ≤ ·)) : (uniq l).Pairwise (· < ·) := by
  fun_induction uniq l with
  | case1 => simp
  | case2 => simp
  | case3 a l ih => exact ih (List.pairwise_cons.1 h).2
  | case4 a b l hab ih =>
    obtain ⟨h1, h2⟩ := List.pairwise_cons.1 h
    refine List.pairwise_cons.2 ⟨?_, ih h2⟩
    intro y hy
    rw [mem_uniq] at hy
    have hb : a ≤ b := h1 b (by simp)
    rcases List.mem_cons.1 hy with rfl | hy
    · omega
    · have := (List.pairwise_cons.1 h2).1 y hy
      omega

theorem lowerBound_lt {u : List Int} (hu : u.Pairwise (· < ·)) {x y : Int} (hx : x ∈ u)
    (hxy : x < y) : lowerBound u x < lowerBound u y := by
  induction u with
  | nil => simp at hx
  | cons a u ih =>
    obtain ⟨h1, h2⟩ := List.pairwise_cons.1 hu
    simp only [lowerBound]
    rcases List.mem_cons.1 hx with rfl | hx'
    · simp [hxy]
    · have hax := h1 x hx'
      rw [if_pos hax, if_pos (by omega)]
      have := ih h2 hx'
      omega

theorem lowerBound_getElem {u : List Int} (hu : u.Pairwise (· < ·)) (i : Nat) (hi : i < u.length) :
    lowerBound u u[i] = i := by
  induction u generalizing i with
  | nil => simp at hi
  | cons a u ih =>
    obtain ⟨h1, h2⟩ := List.pairwise_cons.1 hu
    cases i with
    | zero => simp [lowerBound]
    | succ i =>
      have hi' : i < u.length := by simpa using hi
      simp only [lowerBound, List.getElem_cons_succ]
      rw [if_pos (h1 _ (List.getElem_mem hi')), ih h2 i hi']

/-- **C37.**  `MapValuesToContiguousRange` keeps the length, preserves equality and order of
all pairs of entries, and its values are exactly `0, …, k-1` where `k` is the number of
distinct input values. -/
theorem mapToContiguous_spec (a : List Int) :
    (mapToContiguous a).length = a.length ∧
    (∀ i j (hi : i < a.length) (hj : j < a.length) (hi' : i < (mapToContiguous a).length)
      (hj' : j < (mapToContiguous a).length),
      (a[i] < a[j] ↔ (mapToContiguous a)[i] < (mapToContiguous a)[j]) ∧
      (a[i] = a[j] ↔ (mapToContiguous a)[i] = (mapToContiguous a)[j])) ∧
    (∀ v, v ∈ mapToContiguous a ↔ v < a.dedup.length) := by
  set u := uniq (a.mergeSort (fun x y => decide (x ≤ y))) with hu
  have hmem : ∀ x, x ∈ u ↔ x ∈ a := by
    intro x
    rw [hu, mem_uniq]
    exact (List.mergeSort_perm a _).mem_iff
  have hsorted : u.Pairwise (· < ·) := by
    rw [hu]
    apply uniq_sorted
    have := List.pairwise_mergeSort (le := fun x y : Int => decide (x ≤ y))
      (by intro a b c; simp only [decide_eq_true_eq]; omega)
      (by intro a b; simp only [Bool.or_eq_true, decide_eq_true_eq]; omega) a
    simpa using this
  have hm : mapToContiguous a = a.map (lowerBound u) := rfl
  have hlt : ∀ x ∈ a, ∀ y ∈ a, x < y ↔ lowerBound u x < lowerBound u y := by
    intro x hx y hy
    constructor
    · exact fun h => lowerBound_lt hsorted ((hmem x).2 hx) h
    · intro h
      rcases lt_trichotomy x y with h1 | h1 | h1
      · exact h1
      · subst h1; omega
      · have := lowerBound_lt hsorted ((hmem y).2 hy) h1
        omega
  refine ⟨by rw [hm, List.length_map], ?_, ?_⟩
  · intro i j hi hj hi' hj'
    simp only [hm, List.getElem_map]
    have h1 := hlt _ (List.getElem_mem hi) _ (List.getElem_mem hj)
    have h2 := hlt _ (List.getElem_mem hj) _ (List.getElem_mem hi)
    refine ⟨h1, ?_⟩
    constructor
    · intro h; rw [h]
    · intro h
      rcases lt_trichotomy a[i] a[j] with h3 | h3 | h3
      · have := h1.1 h3; omega
      · exact h3
      · have := h2.1 h3; omega
  · intro v
    have hnd : u.Nodup := hsorted.imp (fun h => ne_of_lt h)
    have hlen : u.length = a.dedup.length := by
      apply List.Perm.length_eq
      rw [List.perm_ext_iff_of_nodup hnd (List.nodup_dedup a)]
      intro x; rw [hmem, List.mem_dedup]
    rw [← hlen, hm, List.mem_map]
    constructor
    · rintro ⟨x, hx, rfl⟩
      obtain ⟨i, hi, rfl⟩ := List.mem_iff_getElem.1 ((hmem x).2 hx)
      rw [lowerBound_getElem hsorted i hi]
      exact hi
    · intro hv
      exact ⟨u[v], (hmem _).1 (List.getElem_mem hv), lowerBound_getElem hsorted v hv⟩

example : mapToContiguous [7, -3, 7, 12, 0] = [2, 0, 2, 3, 1] := by
  simp [mapToContiguous, List.mergeSort, List.MergeSort.Internal.splitInTwo, uniq, lowerBound]

/-! ## C36 -/

/-- The blocks tile `0, 1, …`: each starts where the previous one ends. -/
def Tiled (blocks : List Block) : Prop :=
  ∀ i b, blocks[i]? = some b → b.position = ((blocks.take i).map (·.size)).sum

theorem writeRun_eq (n : Nat) (out : List Nat) (cursor pos : Nat)
    (h : cursor + n ≤ out.length) :
    writeRun n out cursor pos =
      some (out.take cursor ++ List.range' pos n ++ out.drop (cursor + n), cursor + n) := by
  induction n generalizing out cursor pos with
  | zero => simp [writeRun]
  | succ n ih =>
    rw [writeRun, if_pos (by omega), ih _ _ _ (by simp; omega)]
    congr 2
    · rw [List.range'_succ]
      have h1 : (out.set cursor pos).take (cursor + 1) = out.take cursor ++ [pos] := by
        rw [List.take_add_one, List.take_set_of_le (Nat.le_refl _)]
        congr 1
        rw [List.getElem?_set_self (by omega)]; rfl
      have h2 : (out.set cursor pos).drop (cursor + 1 + n) = out.drop (cursor + (n + 1)) := by
        rw [List.drop_set_of_lt (by omega)]
        congr 1; omega
      rw [h1, h2]
      simp
    · omega

theorem writeBlocks_eq (blocks : List Block) (ord out : List Nat) (cursor : Nat)
    (hb : ∀ b ∈ ord, b < blocks.length)
    (hc : cursor + (ord.map (fun b => (blocks.getD b ⟨0, 0⟩).size)).sum = out.length) :
    writeBlocks blocks ord out cursor = some (out.take cursor ++
      ord.flatMap (fun b => List.range' (blocks.getD b ⟨0, 0⟩).position
        (blocks.getD b ⟨0, 0⟩).size)) := by
  induction ord generalizing out cursor with
  | nil =>
    simp only [List.map_nil, List.sum_nil] at hc
    simp only [writeBlocks, List.flatMap_nil, List.append_nil]
    rw [List.take_of_length_le (by omega)]
  | cons b ord ih =>
    have hbl := hb b (by simp)
    have hget : blocks[b]? = some (blocks.getD b ⟨0, 0⟩) := by
      rw [List.getD_eq_getElem?_getD, List.getElem?_eq_getElem hbl]; rfl
    simp only [List.map_cons, List.sum_cons] at hc
    simp only [writeBlocks, hget]
    rw [writeRun_eq _ _ _ _ (by omega)]
    simp only
    rw [ih _ _ (fun x hx => hb x (by simp [hx]))]
    · simp only [List.flatMap_cons]
      rw [← List.append_assoc]
      congr 2
      rw [List.take_append_of_le_length, List.take_of_length_le]
      · simp only [List.length_append, List.length_take, List.length_range']; omega
      · simp only [List.length_append, List.length_take, List.length_range']; omega
    · simp only [List.length_append, List.length_take, List.length_range', List.length_drop]
      omega

theorem tiled_flat (blocks : List Block) (h : Tiled blocks) :
    (List.range blocks.length).flatMap (fun b => List.range' (blocks.getD b ⟨0, 0⟩).position
        (blocks.getD b ⟨0, 0⟩).size) = List.range ((blocks.map (·.size)).sum) := by
  have : ∀ n, n ≤ blocks.length →
      (List.range n).flatMap (fun b => List.range' (blocks.getD b ⟨0, 0⟩).position
        (blocks.getD b ⟨0, 0⟩).size) = List.range (((blocks.take n).map (·.size)).sum) := by
    intro n
    induction n with
    | zero => simp
    | succ n ih =>
      intro hn
      have hg : blocks[n]? = some blocks[n] := List.getElem?_eq_getElem (by omega)
      rw [List.range_succ, List.flatMap_append, ih (by omega), List.take_add_one, hg]
      simp only [List.flatMap_singleton, Option.toList_some, List.map_append, List.map_cons,
        List.map_nil, List.sum_append, List.sum_cons, List.sum_nil, Nat.add_zero]
      have hd : blocks.getD n ⟨0, 0⟩ = blocks[n] := by
        rw [List.getD_eq_getElem?_getD, hg]; rfl
      rw [hd, h n _ hg, List.range_eq_range', List.range_eq_range']
      have := List.range'_append_1 (s := 0) (m := ((blocks.take n).map (·.size)).sum)
        (n := blocks[n].size)
      rw [Nat.zero_add] at this
      exact this
  rw [this _ (Nat.le_refl _), List.take_length]

/-- **C36.**  For every list of blocks that tile the scalars, every permutation of the blocks
and whatever the output vector held before, the result lists, for each block in the given
order, its scalars in order, and is a permutation of all scalars. -/
theorem blockToScalar_permutation (blocks : List Block) (ht : Tiled blocks) (ord old : List Nat)
    (hperm : ord.Perm (List.range blocks.length)) :
    ∃ out, blockToScalar blocks ord old = some out ∧
      out = ord.flatMap (fun b => List.range' (blocks.getD b ⟨0, 0⟩).position
        (blocks.getD b ⟨0, 0⟩).size) ∧
      out.Perm (List.range ((blocks.map (·.size)).sum)) := by
  have hnum : numScalarEntries blocks = (blocks.map (·.size)).sum := by
    unfold numScalarEntries
    cases hl : blocks.getLast? with
    | none => simp only [List.getLast?_eq_none_iff] at hl; subst hl; rfl
    | some b =>
      have hne : blocks ≠ [] := by rintro rfl; simp at hl
      have hlen : 0 < blocks.length := List.length_pos_of_ne_nil hne
      rw [List.getLast?_eq_getElem?] at hl
      simp only
      rw [ht _ _ hl]
      conv_rhs => rw [← List.take_length (l := blocks)]
      have : blocks.length = (blocks.length - 1) + 1 := by omega
      conv_rhs => rw [this, List.take_add_one, hl]
      simp
  have hsum : (ord.map (fun b => (blocks.getD b ⟨0, 0⟩).size)).sum
      = (blocks.map (·.size)).sum := by
    rw [(hperm.map _).sum_eq]
    congr 1
    apply List.ext_getElem
    · simp
    · intro i h1 h2
      simp only [List.length_map, List.length_range] at h1
      simp [List.getElem?_eq_getElem h1]
  refine ⟨_, ?_, rfl, ?_⟩
  · unfold blockToScalar
    rw [if_neg (by rw [hperm.length_eq]; simp)]
    rw [writeBlocks_eq _ _ _ _ (fun b hb => by simpa using hperm.mem_iff.1 hb)]
    · simp
    · rw [hsum, hnum]
      simp
  · rw [← tiled_flat blocks ht]
    exact List.Perm.flatMap_right _ hperm

example : Tiled [⟨2, 0⟩, ⟨1, 2⟩, ⟨3, 3⟩] ∧ [2, 0, 1].Perm (List.range 3) ∧
    blockToScalar [⟨2, 0⟩, ⟨1, 2⟩, ⟨3, 3⟩] [2, 0, 1] [9] = some [3, 4, 5, 0, 1, 2] := by
  refine ⟨?_, by decide, by decide⟩
  intro i b hb
  match i with
  | 0 => simp at hb; subst hb; rfl
  | 1 => simp at hb; subst hb; rfl
  | 2 => simp at hb; subst hb; rfl
  | n + 3 => simp at hb

end Ceres.Util
