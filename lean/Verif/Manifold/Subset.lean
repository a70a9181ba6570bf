import Verif.Manifold.Sphere

/-! # The subset manifold and the Euclidean manifold

The specification speaks about the list of constant indices given to the constructor and the
increasing list of the other indices, the *free* ones. -/

namespace Ceres.Manifold

open Matrix

noncomputable section

/-- The free indices in increasing order. -/
def free (size : ℕ) (constant : List ℤ) : List ℕ := (List.range size).filter fun i => (i : ℤ) ∉ constant

/-- The number of free entries before position `f`. -/
def rank (mask : List Bool) (f : ℕ) : ℕ := (mask.take f).count false

@[simp] theorem rank_zero (mask : List Bool) : rank mask 0 = 0 := by simp [rank]

theorem rank_cons (b : Bool) (mask : List Bool) (f : ℕ) :
    rank (b :: mask) (f + 1) = (if b then 0 else 1) + rank mask f := by
  cases b <;> simp [rank, List.take_succ_cons, add_comm]

theorem rank_lt_count {mask : List Bool} {f : ℕ} (h : mask[f]? = some false) :
    rank mask f < mask.count false := by
  induction mask generalizing f with
  | nil => simp at h
  | cons b mask ih =>
    cases f with
    | zero => simp at h; subst h; simp
    | succ f =>
      rw [List.getElem?_cons_succ] at h
      have := ih h
      rw [rank_cons]
      cases b <;> simp [List.count_cons] <;> omega

/-! ## The constructor -/

theorem foldl_set_length (l : List ℤ) : ∀ m : List Bool,
    (l.foldl (fun m i => m.set i.toNat true) m).length = m.length := by
  induction l with
  | nil => intro m; rfl
  | cons a l ih => intro m; simp [ih]

theorem foldl_set_get (l : List ℤ) (hl : ∀ c ∈ l, 0 ≤ c) : ∀ (m : List Bool) (i : ℕ) (h : i < m.length),
    (l.foldl (fun m i => m.set i.toNat true) m)[i]'(by rw [foldl_set_length]; exact h)
      = (m[i] || decide ((i : ℤ) ∈ l)) := by
  induction l with
  | nil => intro m i h; simp
  | cons a l ih =>
    intro m i h
    have ha : 0 ≤ a := hl a (by simp)
    simp only [List.foldl_cons]
    rw [ih (fun c hc => hl c (by simp [hc])) _ i (by simpa using h)]
    by_cases e : a.toNat = i
    · have : (i : ℤ) = a := by omega
      subst e
      simp [this]
    · have : (i : ℤ) ≠ a := by omega
      simp [List.getElem_set_ne e, this]

theorem sorted_head_le {l : List ℤ} (h : l.Pairwise (· ≤ ·)) : ∀ c ∈ l, l.headD 0 ≤ c := by
  cases l with
  | nil => simp
  | cons a l =>
    intro c hc
    rcases List.mem_cons.1 hc with rfl | hc
    · simp
    · simpa using (List.pairwise_cons.1 h).1 c hc

theorem sorted_le_last {l : List ℤ} (h : l.Pairwise (· ≤ ·)) : ∀ c ∈ l, c ≤ l.getLastD 0 := by
  induction l using List.reverseRecOn with
  | nil => simp
  | append_singleton l a _ =>
    intro c hc
    have h1 := (List.pairwise_append.1 h).2.2
    rw [List.getLastD_eq_getLast?, List.getLast?_append_of_ne_nil _ (by simp)]
    simp only [List.getLast?_singleton, Option.getD_some]
    rcases List.mem_append.1 hc with hc | hc
    · exact h1 c hc a (by simp)
    · simp at hc; exact hc.le

theorem adjacent_nodup {l : List ℤ} (h : l.Pairwise (· ≤ ·)) :
    ((l.zip l.tail).all fun p => p.1 != p.2) = true ↔ l.Nodup := by
  induction l with
  | nil => simp
  | cons a l ih =>
    cases l with
    | nil => simp
    | cons b l =>
      have h2 := List.pairwise_cons.1 h
      have ih := ih h2.2
      have e : ((a :: b :: l).zip (a :: b :: l).tail).all (fun p => p.1 != p.2)
          = ((a != b) && ((b :: l).zip (b :: l).tail).all fun p => p.1 != p.2) := by simp
      rw [e, Bool.and_eq_true, ih, List.nodup_cons (a := a)]
      refine and_congr_left fun _ => ?_
      simp only [bne_iff_ne, ne_eq]
      constructor
      · intro hab hm
        rcases List.mem_cons.1 hm with hm | hm
        · exact hab hm
        · have h3 := (List.pairwise_cons.1 h2.2).1 a hm
          have h4 := h2.1 b (by simp)
          omega
      · intro hm hab
        exact hm (by simp [hab])

theorem ofList_headD_mem {l : List ℤ} (h : l ≠ []) : l.headD 0 ∈ l := by
  cases l with
  | nil => exact absurd rfl h
  | cons a l => simp

theorem getLastD_mem {l : List ℤ} (h : l ≠ []) : l.getLastD 0 ∈ l := by
  rw [List.getLastD_eq_getLast?, List.getLast?_eq_some_getLast h]
  simp

/-- A nodup list of integers in a range takes away as many numbers as it has entries. -/
theorem length_free {size : ℕ} {constant : List ℤ} (hnd : constant.Nodup)
    (hr : ∀ c ∈ constant, 0 ≤ c ∧ c < size) : (free size constant).length + constant.length = size := by
  have h1 : ((List.range size).filter fun i : ℕ => (i : ℤ) ∈ constant).length = constant.length := by
    have : ((List.range size).filter fun i : ℕ => (i : ℤ) ∈ constant).Perm (constant.map Int.toNat) := by
      rw [List.perm_ext_iff_of_nodup (List.Nodup.filter _ List.nodup_range)]
      · intro i
        simp only [List.mem_filter, List.mem_range, decide_eq_true_eq, List.mem_map]
        constructor
        · rintro ⟨_, h⟩; exact ⟨i, h, by simp⟩
        · rintro ⟨c, hc, rfl⟩
          have := hr c hc
          refine ⟨by omega, ?_⟩
          rwa [Int.toNat_of_nonneg this.1]
      · refine List.Nodup.map_on ?_ hnd
        intro a ha b hb hab
        have := hr a ha
        have := hr b hb
        omega
    rw [this.length_eq, List.length_map]
  have h2 := List.length_eq_length_filter_add (l := List.range size) fun i : ℕ => decide ((i : ℤ) ∈ constant)
  rw [List.length_range, h1] at h2
  have h3 : (free size constant).length
      = ((List.range size).filter fun i : ℕ => !decide ((i : ℤ) ∈ constant)).length := by
    simp [free]
  omega

/-- **C45.** The constructor accepts exactly the lists without repeated entries whose entries are in
`0 ..< size`; then the mask marks the constant indices and the tangent size is the number of free
indices. -/
theorem mkSubset_spec (size : ℕ) (constant : List ℤ) :
    (mkSubset size constant).isSome = true ↔ constant.Nodup ∧ ∀ c ∈ constant, 0 ≤ c ∧ c < size := by
  simp only [mkSubset]
  by_cases h0 : constant = []
  · subst h0; simp
  · rw [if_neg h0]
    set s := constant.mergeSort (· ≤ ·) with hs
    have hp : s.Perm constant := List.mergeSort_perm _ _
    have hsort : s.Pairwise (· ≤ ·) := by
      have := List.pairwise_mergeSort (le := fun a b : ℤ => decide (a ≤ b))
        (by intro a b c; simp; omega) (by intro a b; simp; omega) constant
      simpa using this
    have hne : s ≠ [] := fun h => h0 (by rw [h] at hp; exact hp.symm.eq_nil)
    have h1 : 0 ≤ s.headD 0 ↔ ∀ c ∈ constant, 0 ≤ c := by
      constructor
      · intro h c hc
        exact h.trans (sorted_head_le hsort c (hp.mem_iff.2 hc))
      · intro h
        exact h _ (hp.mem_iff.1 (ofList_headD_mem hne))
    have h2 : s.getLastD 0 < size ↔ ∀ c ∈ constant, c < size := by
      constructor
      · intro h c hc
        exact (sorted_le_last hsort c (hp.mem_iff.2 hc)).trans_lt h
      · intro h
        exact h _ (hp.mem_iff.1 (getLastD_mem hne))
    have h3 : ((s.zip s.tail).all fun p => p.1 != p.2) = true ↔ constant.Nodup := by
      rw [adjacent_nodup hsort, hp.nodup_iff]
    simp only [h1, h2, h3]
    by_cases ha : ∀ c ∈ constant, 0 ≤ c
    · rw [if_neg (not_not.2 ha)]
      by_cases hb : ∀ c ∈ constant, c < size
      · rw [if_neg (not_not.2 hb)]
        by_cases hc : constant.Nodup
        · rw [if_neg (not_not.2 hc)]
          exact ⟨fun _ => ⟨hc, fun c hcc => ⟨ha c hcc, hb c hcc⟩⟩, fun _ => rfl⟩
        · rw [if_pos hc]
          exact ⟨fun h => (by simp at h), fun h => absurd h.1 hc⟩
      · rw [if_pos hb]
        exact ⟨fun h => (by simp at h), fun h => absurd (fun c hcc => (h.2 c hcc).2) hb⟩
    · rw [if_pos ha]
      exact ⟨fun h => (by simp at h), fun h => absurd (fun c hcc => (h.2 c hcc).1) ha⟩

/-- What the constructor builds. -/
structure Built (size : ℕ) (constant : List ℤ) (s : Subset) : Prop where
  mask : s.mask = (List.range size).map fun i : ℕ => decide ((i : ℤ) ∈ constant)
  tangent : s.tangentSize = (free size constant).length

theorem mkSubset_built {size : ℕ} {constant : List ℤ} {s : Subset} (h : mkSubset size constant = some s) :
    Built size constant s := by
  have hv := (mkSubset_spec size constant).1 (by rw [h]; rfl)
  have hlen := length_free hv.1 hv.2
  simp only [mkSubset] at h
  by_cases h0 : constant = []
  · rw [if_pos h0] at h
    obtain rfl := Option.some.inj h
    subst h0
    refine ⟨?_, by simp at hlen ⊢; omega⟩
    apply List.ext_getElem <;> simp
  · rw [if_neg h0] at h
    split_ifs at h
    obtain rfl := Option.some.inj h
    refine ⟨?_, by simp; omega⟩
    apply List.ext_getElem
    · simp [foldl_set_length]
    · intro i h1 h2
      rw [foldl_set_get constant (fun c hc => (hv.2 c hc).1) _ i (by
        rw [foldl_set_length] at h1; exact h1)]
      simp

variable {size : ℕ} {constant : List ℤ} {s : Subset}

theorem Built.ambient (h : Built size constant s) : s.ambientSize = size := by
  rw [Subset.ambientSize, h.mask]; simp

theorem Built.getElem? (h : Built size constant s) {i : ℕ} (hi : i < size) :
    s.mask[i]? = some (decide ((i : ℤ) ∈ constant)) := by
  rw [h.mask]; simp [hi]

theorem count_mask (size : ℕ) (constant : List ℤ) :
    ((List.range size).map fun i : ℕ => decide ((i : ℤ) ∈ constant)).count false
      = (free size constant).length := by
  rw [List.count_eq_countP, List.countP_map, List.countP_eq_length_filter, free]
  congr 1
  apply List.filter_congr
  intro i _
  simp

theorem Built.count (h : Built size constant s) : s.mask.count false = (free size constant).length := by
  rw [h.mask, count_mask]

theorem Built.rank_eq (h : Built size constant s) {f : ℕ} (hf : f ≤ size) :
    rank s.mask f = (free f constant).length := by
  rw [rank, h.mask, ← List.map_take, List.take_range, min_eq_left hf, count_mask]

/-- The `j`-th free index has `j` free indices before it. -/
theorem free_rank (constant : List ℤ) : ∀ (size j : ℕ) (hj : j < (free size constant).length),
    (free ((free size constant)[j]) constant).length = j := by
  intro size
  induction size with
  | zero => intro j hj; simp [free] at hj
  | succ n ih =>
    intro j hj
    have e : free (n + 1) constant = free n constant ++ if (n : ℤ) ∈ constant then [] else [n] := by
      simp only [free, List.range_succ, List.filter_append]
      congr 1
      by_cases h : (n : ℤ) ∈ constant <;> simp [h]
    by_cases hj' : j < (free n constant).length
    · have : (free (n + 1) constant)[j] = (free n constant)[j] := by
        simp only [e]; exact List.getElem_append_left hj'
      rw [this]; exact ih j hj'
    · by_cases h : (n : ℤ) ∈ constant
      · rw [e, if_pos h, List.append_nil] at hj; exact absurd hj hj'
      · rw [e, if_neg h] at hj
        simp at hj
        have hjj : j = (free n constant).length := by omega
        have : (free (n + 1) constant)[j] = n := by
          simp only [e, if_neg h]
          rw [List.getElem_append_right (by omega)]
          simp
        rw [this, hjj]

theorem free_mem {j : ℕ} (hj : j < (free size constant).length) :
    (free size constant)[j] < size ∧ ((free size constant)[j] : ℤ) ∉ constant := by
  have := List.getElem_mem hj
  generalize (free size constant)[j] = f at *
  simpa [free] using this

theorem Built.rank_free (h : Built size constant s) {j : ℕ} (hj : j < (free size constant).length) :
    rank s.mask ((free size constant)[j]) = j := by
  rw [h.rank_eq (free_mem hj).1.le, free_rank]

/-- Every free index is in the list of free indices, at its rank. -/
theorem exists_free {i : ℕ} (hi : i < size) (hc : (i : ℤ) ∉ constant) :
    ∃ (j : ℕ) (hj : j < (free size constant).length), (free size constant)[j] = i := by
  have : i ∈ free size constant := by simp [free, hi, hc]
  exact List.getElem_of_mem this

theorem free_injective {j k : ℕ} (hj : j < (free size constant).length)
    (hk : k < (free size constant).length) (h : (free size constant)[j] = (free size constant)[k]) :
    j = k := by
  rw [← free_rank constant size j hj, ← free_rank constant size k hk, h]

/-! ## Plus -/

theorem plusLoop_spec (x delta : Buf) (mask : List Bool) : ∀ (i j : ℕ) (out : Buf) (k : ℕ),
    subsetPlusLoop x delta mask i j out k =
      if i ≤ k ∧ k < i + mask.length then
        (if mask[k - i]? = some true then x k else x k + delta (j + rank mask (k - i)))
      else out k := by
  induction mask with
  | nil => intro i j out k; simp [subsetPlusLoop]
  | cons b mask ih =>
    intro i j out k
    by_cases hk : k = i
    · subst hk
      rw [if_pos (by simp)]
      cases b
      · simp only [subsetPlusLoop, Bool.false_eq_true, if_false]
        rw [ih, if_neg (by omega)]
        simp
      · simp only [subsetPlusLoop, if_true]
        rw [ih, if_neg (by omega)]
        simp
    · have e : (i ≤ k ∧ k < i + (b :: mask).length) ↔ (i + 1 ≤ k ∧ k < i + 1 + mask.length) := by
        simp only [List.length_cons]; omega
      simp only [e]
      by_cases h : i + 1 ≤ k ∧ k < i + 1 + mask.length
      · have e1 : k - i = (k - (i + 1)) + 1 := by omega
        rw [if_pos h, e1, rank_cons, List.getElem?_cons_succ]
        cases b
        · simp only [subsetPlusLoop, Bool.false_eq_true, if_false]
          rw [ih, if_pos h]
          simp [add_assoc]
        · simp only [subsetPlusLoop, if_true]
          rw [ih, if_pos h]
          simp
      · rw [if_neg h]
        cases b
        · simp only [subsetPlusLoop, Bool.false_eq_true, if_false]
          rw [ih, if_neg h, Function.update_of_ne hk]
        · simp only [subsetPlusLoop, if_true]
          rw [ih, if_neg h, Function.update_of_ne hk]

/-- **C45.** `Plus` keeps the constant coordinates, adds the `j`-th entry of the step to the `j`-th free
coordinate, and writes nothing else. -/
theorem subsetPlus_spec (h : Built size constant s) (x delta out : Buf) :
    (∀ i < size, (i : ℤ) ∈ constant → s.plus x delta out i = x i)
      ∧ (∀ (j : ℕ) (hj : j < (free size constant).length),
          s.plus x delta out ((free size constant)[j]) = x ((free size constant)[j]) + delta j)
      ∧ ∀ i, size ≤ i → s.plus x delta out i = out i := by
  have hl : s.mask.length = size := h.ambient
  refine ⟨fun i hi hc => ?_, fun j hj => ?_, fun i hi => ?_⟩
  · rw [Subset.plus, plusLoop_spec, if_pos (by omega), Nat.sub_zero, h.getElem? hi]
    simp [hc]
  · obtain ⟨h1, h2⟩ := free_mem hj
    rw [Subset.plus, plusLoop_spec, if_pos (by omega), Nat.sub_zero, h.getElem? h1, h.rank_free hj]
    simp [h2]
  · rw [Subset.plus, plusLoop_spec, if_neg (by omega)]

/-! ## The loops that write to computed addresses -/

/-- The common form of the other loops: position `i` with rank `j` writes `val i` to `addr i j`. -/
def scatter (addr : ℕ → ℕ → ℕ) (val : ℕ → ℝ) : List Bool → ℕ → ℕ → Buf → Buf
  | [], _, _, m => m
  | k :: mask, i, j, m =>
    if !k then scatter addr val mask (i + 1) (j + 1) (Function.update m (addr i j) (val i))
    else scatter addr val mask (i + 1) j m

theorem scatter_other (addr : ℕ → ℕ → ℕ) (val : ℕ → ℝ) (mask : List Bool) : ∀ (i j : ℕ) (m : Buf) (k : ℕ),
    (∀ f, mask[f]? = some false → k ≠ addr (i + f) (j + rank mask f)) →
    scatter addr val mask i j m k = m k := by
  induction mask with
  | nil => intro i j m k _; rfl
  | cons b mask ih =>
    intro i j m k hk
    have hk' : ∀ f, mask[f]? = some false → k ≠ addr (i + 1 + f) (j + (if b then 0 else 1) + rank mask f) := by
      intro f hf
      have := hk (f + 1) (by simpa using hf)
      rw [rank_cons] at this
      convert this using 2 <;> omega
    cases b
    · simp only [scatter, Bool.not_false, if_true]
      rw [ih _ _ _ _ (by simpa using hk'), Function.update_of_ne]
      have := hk 0 (by simp)
      simpa using this
    · simp only [scatter, Bool.not_true, Bool.false_eq_true, if_false]
      exact ih _ _ _ _ (by simpa using hk')

theorem scatter_at (addr : ℕ → ℕ → ℕ) (val : ℕ → ℝ) (a t : ℕ)
    (hinj : ∀ i j i' j', i < a → j < t → i' < a → j' < t → j < j' → addr i j ≠ addr i' j')
    (mask : List Bool) : ∀ (i j : ℕ) (m : Buf), i + mask.length ≤ a → j + mask.count false ≤ t →
    ∀ f, mask[f]? = some false → scatter addr val mask i j m (addr (i + f) (j + rank mask f)) = val (i + f) := by
  induction mask with
  | nil => intro i j m _ _ f hf; simp at hf
  | cons b mask ih =>
    intro i j m hi hj f hf
    simp only [List.length_cons] at hi
    cases f with
    | zero =>
      simp at hf
      subst hf
      simp only [scatter, Bool.not_false, if_true]
      rw [scatter_other]
      · simp
      · intro g hg
        simp only [rank_zero, add_zero]
        simp only [List.count_cons_self] at hj
        have := rank_lt_count hg
        have hg2 : g < mask.length := (List.getElem?_eq_some_iff.1 hg).1
        exact hinj _ _ _ _ (by omega) (by omega) (by omega) (by omega) (by omega)
    | succ f =>
      rw [List.getElem?_cons_succ] at hf
      rw [rank_cons]
      cases b
      · simp only [scatter, Bool.not_false, if_true]
        simp only [List.count_cons_self] at hj
        have := ih (i + 1) (j + 1) (Function.update m (addr i j) (val i)) (by omega) (by omega) f hf
        rw [show i + (f + 1) = i + 1 + f by omega]
        simpa [add_assoc] using this
      · simp only [scatter, Bool.not_true, Bool.false_eq_true, if_false]
        have hc : mask.count false = (true :: mask).count false := by simp
        have := ih (i + 1) j m (by omega) (by omega) f hf
        rw [show i + (f + 1) = i + 1 + f by omega]
        simpa using this

theorem minusLoop_eq (y x : Buf) (mask : List Bool) : ∀ i j out,
    subsetMinusLoop y x mask i j out = scatter (fun _ j => j) (fun i => y i - x i) mask i j out := by
  induction mask with
  | nil => intros; rfl
  | cons b mask ih => intro i j out; simp only [subsetMinusLoop, scatter, ih]

theorem plusJacobianLoop_eq (t : ℕ) (mask : List Bool) : ∀ i j out,
    subsetPlusJacobianLoop t mask i j out = scatter (fun r c => r * t + c) (fun _ => 1) mask i j out := by
  induction mask with
  | nil => intros; rfl
  | cons b mask ih => intro i j out; simp only [subsetPlusJacobianLoop, scatter, ih]

theorem minusJacobianLoop_eq (a : ℕ) (mask : List Bool) : ∀ i j out,
    subsetMinusJacobianLoop a mask i j out = scatter (fun c r => r * a + c) (fun _ => 1) mask i j out := by
  induction mask with
  | nil => intros; rfl
  | cons b mask ih => intro i j out; simp only [subsetMinusJacobianLoop, scatter, ih]

theorem rightMultiplyRow_eq (a t : ℕ) (ambient : Buf) (r : ℕ) (mask : List Bool) : ∀ i j out,
    subsetRightMultiplyRow a t ambient r mask i j out
      = scatter (fun _ c => r * t + c) (fun idx => ambient (r * a + idx)) mask i j out := by
  induction mask with
  | nil => intros; rfl
  | cons b mask ih => intro i j out; simp only [subsetRightMultiplyRow, scatter, ih]

theorem Built.free_get (h : Built size constant s) {j : ℕ} (hj : j < (free size constant).length) :
    s.mask[(free size constant)[j]]? = some false := by
  obtain ⟨h1, h2⟩ := free_mem hj
  rw [h.getElem? h1]; simp [h2]

theorem Built.get_free (h : Built size constant s) {f : ℕ} (hf : s.mask[f]? = some false) :
    ∃ (j : ℕ) (hj : j < (free size constant).length), (free size constant)[j] = f ∧ rank s.mask f = j := by
  have h1 : f < size := by rw [← h.ambient]; exact (List.getElem?_eq_some_iff.1 hf).1
  rw [h.getElem? h1] at hf
  obtain ⟨j, hj, e⟩ := exists_free (constant := constant) h1 (by simpa using hf)
  exact ⟨j, hj, e, by rw [← e, h.rank_free hj]⟩

/-! ## Minus -/

theorem Built.tangent_zero (h : Built size constant s) : s.tangentSize = 0 ↔ (free size constant).length = 0 := by
  rw [h.tangent]; omega

/-- **C45.** `Minus` is the difference in the free coordinates. -/
theorem subsetMinus_spec (h : Built size constant s) (y x out : Buf) :
    (∀ (j : ℕ) (hj : j < (free size constant).length),
        s.minus y x out j = y ((free size constant)[j]) - x ((free size constant)[j]))
      ∧ ∀ j, (free size constant).length ≤ j → s.minus y x out j = out j := by
  have hl : s.mask.length = size := h.ambient
  constructor
  · intro j hj
    rw [Subset.minus, if_neg (by rw [h.tangent_zero]; omega), minusLoop_eq]
    have := scatter_at (fun _ j => j) (fun i => y i - x i) size (free size constant).length
      (by intro i j i' j' _ _ _ _ h; exact h.ne) s.mask 0 0 out (by omega) (by rw [h.count]; omega) _ (h.free_get hj)
    simpa [h.rank_free hj] using this
  · intro j hj
    by_cases h0 : s.tangentSize = 0
    · rw [Subset.minus, if_pos h0]
    · rw [Subset.minus, if_neg h0, minusLoop_eq, scatter_other]
      intro f hf
      obtain ⟨k, hk, -, e⟩ := h.get_free hf
      simp only [e]
      omega

/-! ## Jacobians -/

theorem addr_ne {t r c r' c' : ℕ} (hc : c < t) (hc' : c' < t) (h : r ≠ r' ∨ c ≠ c') :
    r * t + c ≠ r' * t + c' := by
  intro e
  have h1 : (r * t + c) % t = (r' * t + c') % t := by rw [e]
  have h2 : (r * t + c) / t = (r' * t + c') / t := by rw [e]
  rw [Nat.mul_add_mod_of_lt' hc, Nat.mul_add_mod_of_lt' hc'] at h1
  rw [Nat.add_comm, Nat.add_mul_div_right _ _ (by omega), Nat.div_eq_of_lt hc, Nat.add_comm (r' * t),
    Nat.add_mul_div_right _ _ (by omega), Nat.div_eq_of_lt hc'] at h2
  omega
where
  Nat.mul_add_mod_of_lt' {r t c : ℕ} (hc : c < t) : (r * t + c) % t = c := by
    rw [Nat.add_comm, Nat.add_mul_mod_self_right, Nat.mod_eq_of_lt hc]

/-- **C45.** The entry `(r, c)` of `PlusJacobian` is one if `r` is the `c`-th free index, else zero. -/
theorem subsetPlusJacobian_spec (h : Built size constant s) (m : Buf) {r c : ℕ} (hr : r < size)
    (hc : c < (free size constant).length) :
    s.plusJacobian m (r * (free size constant).length + c) = if r = (free size constant)[c] then 1 else 0 := by
  have hl : s.mask.length = size := h.ambient
  have ht : s.tangentSize.toNat = (free size constant).length := by rw [h.tangent]; simp
  rw [Subset.plusJacobian, if_neg (by rw [h.tangent_zero]; omega), plusJacobianLoop_eq, ht, h.ambient]
  set t := (free size constant).length with htt
  split_ifs with e
  · have := scatter_at (fun r c => r * t + c) (fun _ => 1) size t
      (by intro i j i' j' _ h1 _ h2 h3; exact addr_ne h1 h2 (Or.inr h3.ne)) s.mask 0 0
      (setZero (size * t) m) (by omega) (by rw [h.count]; omega) _ (h.free_get hc)
    rw [h.rank_free hc, zero_add, zero_add, ← e] at this
    exact this
  · rw [scatter_other]
    · rw [setZero, if_pos]
      calc r * t + c < r * t + t := by omega
        _ = (r + 1) * t := by ring
        _ ≤ size * t := Nat.mul_le_mul_right t hr
    · intro f hf
      obtain ⟨k, hk, e1, e2⟩ := h.get_free hf
      simp only [e2, zero_add]
      refine addr_ne hc hk ?_
      by_cases hck : c = k
      · left; subst hck; rw [← e1]; exact e
      · exact Or.inr hck

/-- **C45.** The entry `(r, c)` of `MinusJacobian` is one if `c` is the `r`-th free index, else zero. -/
theorem subsetMinusJacobian_spec (h : Built size constant s) (m : Buf) {r c : ℕ} (hc : c < size)
    (hr : r < (free size constant).length) :
    s.minusJacobian m (r * size + c) = if c = (free size constant)[r] then 1 else 0 := by
  have hl : s.mask.length = size := h.ambient
  have ht : s.tangentSize.toNat = (free size constant).length := by rw [h.tangent]; simp
  rw [Subset.minusJacobian, minusJacobianLoop_eq, ht, h.ambient]
  set t := (free size constant).length with htt
  split_ifs with e
  · have := scatter_at (fun c r => r * size + c) (fun _ => 1) size t
      (by intro i j i' j' h1 _ h2 _ h3; exact addr_ne h1 h2 (Or.inl h3.ne)) s.mask 0 0
      (setZero (t * size) m) (by omega) (by rw [h.count]; omega) _ (h.free_get hr)
    rw [h.rank_free hr, zero_add, zero_add, ← e] at this
    exact this
  · rw [scatter_other]
    · rw [setZero, if_pos]
      calc r * size + c < r * size + size := by omega
        _ = (r + 1) * size := by ring
        _ ≤ t * size := Nat.mul_le_mul_right size hr
    · intro f hf
      obtain ⟨k, hk, e1, e2⟩ := h.get_free hf
      simp only [e2, zero_add]
      have hf' : f < size := by rw [← e1]; exact (free_mem hk).1
      refine addr_ne hc hf' ?_
      by_cases hrk : r = k
      · right; subst hrk; rw [← e1]; exact e
      · exact Or.inl hrk

theorem rightMultiply_fold (h : Built size constant s) (ambient : Buf) (t : ℕ)
    (ht : t = (free size constant).length) (n : ℕ) (m : Buf) :
    let out := (List.range n).foldl (fun m r => subsetRightMultiplyRow size t ambient r s.mask 0 0 m) m
    (∀ (r c : ℕ) (hc : c < (free size constant).length), r < n →
        out (r * t + c) = ambient (r * size + (free size constant)[c]))
      ∧ ∀ k, n * t ≤ k → out k = m k := by
  have hl : s.mask.length = size := h.ambient
  induction n with
  | zero => simp
  | succ n ih =>
    simp only [List.range_succ, List.foldl_append, List.foldl_cons, List.foldl_nil] at ih ⊢
    obtain ⟨ih1, ih2⟩ := ih
    rw [rightMultiplyRow_eq]
    constructor
    · intro r c hc hr
      by_cases hrn : r = n
      · subst hrn
        have := scatter_at (fun _ c => r * t + c) (fun idx => ambient (r * size + idx)) size
          (free size constant).length (by intro i j i' j' _ _ _ _ h3; omega) s.mask 0 0
          ((List.range r).foldl (fun m r => subsetRightMultiplyRow size t ambient r s.mask 0 0 m) m)
          (by omega) (by rw [h.count]; omega) _ (h.free_get hc)
        simpa [h.rank_free hc] using this
      · rw [scatter_other]
        · exact ih1 r c hc (by omega)
        · intro f hf
          obtain ⟨k, hk, e1, e2⟩ := h.get_free hf
          simp only [e2, zero_add]
          exact addr_ne (by omega) (by omega) (Or.inl hrn)
    · intro k hk
      rw [scatter_other]
      · exact ih2 k (le_trans (Nat.mul_le_mul_right t (by omega)) hk)
      · intro f hf
        obtain ⟨j, hj, e1, e2⟩ := h.get_free hf
        simp only [e2, zero_add]
        have : (n + 1) * t = n * t + t := by ring
        omega

/-- **C45.** `RightMultiplyByPlusJacobian` selects the columns of the free indices, and writes nothing
else. -/
theorem subsetRightMultiply_spec (h : Built size constant s) (numRows : ℕ) (ambient m : Buf) :
    (∀ (r c : ℕ) (hc : c < (free size constant).length), r < numRows →
        s.rightMultiply numRows ambient m (r * (free size constant).length + c)
          = ambient (r * size + (free size constant)[c]))
      ∧ ∀ k, numRows * (free size constant).length ≤ k → s.rightMultiply numRows ambient m k = m k := by
  have ht : s.tangentSize.toNat = (free size constant).length := by rw [h.tangent]; simp
  by_cases h0 : s.tangentSize = 0
  · have h1 := h.tangent_zero.1 h0
    refine ⟨fun r c hc => by omega, fun k _ => ?_⟩
    rw [Subset.rightMultiply, if_pos h0]
  · rw [Subset.rightMultiply, if_neg h0, ht, h.ambient]
    exact rightMultiply_fold h ambient _ rfl numRows m

/-- **C45.** That is the product of the given matrix with `PlusJacobian`. -/
theorem subsetRightMultiply_eq_mul (h : Built size constant s) (numRows : ℕ) (ambient m m' : Buf)
    {r c : ℕ} (hr : r < numRows) (hc : c < (free size constant).length) :
    s.rightMultiply numRows ambient m (r * (free size constant).length + c)
      = ∑ k ∈ Finset.range size, ambient (r * size + k)
          * s.plusJacobian m' (k * (free size constant).length + c) := by
  rw [(subsetRightMultiply_spec h numRows ambient m).1 r c hc hr]
  rw [Finset.sum_eq_single ((free size constant)[c])]
  · rw [subsetPlusJacobian_spec h m' (free_mem hc).1 hc, if_pos rfl, mul_one]
  · intro k hk hne
    rw [subsetPlusJacobian_spec h m' (Finset.mem_range.1 hk) hc, if_neg hne, mul_zero]
  · intro hn
    exact absurd (Finset.mem_range.2 (free_mem hc).1) hn

/-! ## The manifold laws -/

/-- **C43.** For the subset manifold: `Plus(x, 0) = x`, `Minus(Plus(x, delta), x) = delta`, and
`Plus(x, Minus(y, x)) = y` for `y` with the constant coordinates of `x`. -/
theorem subset_laws (h : Built size constant s) (x out out' : Buf) :
    (∀ i < size, s.plus x (fun _ => 0) out i = x i)
      ∧ (∀ delta : Buf, ∀ j < (free size constant).length,
          s.minus (s.plus x delta out) x out' j = delta j)
      ∧ ∀ y : Buf, (∀ i < size, (i : ℤ) ∈ constant → y i = x i) →
          ∀ i < size, s.plus x (s.minus y x out') out i = y i := by
  refine ⟨fun i hi => ?_, fun delta j hj => ?_, fun y hy i hi => ?_⟩
  · obtain ⟨h1, h2, -⟩ := subsetPlus_spec h x (fun _ => 0) out
    by_cases hc : (i : ℤ) ∈ constant
    · exact h1 i hi hc
    · obtain ⟨j, hj, rfl⟩ := exists_free hi hc
      rw [h2 j hj, add_zero]
  · rw [(subsetMinus_spec h _ x out').1 j hj, (subsetPlus_spec h x delta out).2.1 j hj]
    ring
  · obtain ⟨h1, h2, -⟩ := subsetPlus_spec h x (s.minus y x out') out
    by_cases hc : (i : ℤ) ∈ constant
    · rw [h1 i hi hc, hy i hi hc]
    · obtain ⟨j, hj, rfl⟩ := exists_free hi hc
      rw [h2 j hj, (subsetMinus_spec h y x out').1 j hj]
      ring

/-- **C44.** For the subset manifold `Plus` and `Minus` are affine with the Jacobians as matrices:
`Plus(x, delta) = x + PlusJacobian * delta`, `Minus(y, x) = MinusJacobian * (y - x)`; and
`MinusJacobian * PlusJacobian = I`. -/
theorem subset_jacobians (h : Built size constant s) (x delta y out m : Buf) :
    (∀ i < size, s.plus x delta out i
        = x i + ∑ c ∈ Finset.range (free size constant).length,
            s.plusJacobian m (i * (free size constant).length + c) * delta c)
      ∧ (∀ j < (free size constant).length, s.minus y x out j
        = ∑ c ∈ Finset.range size, s.minusJacobian m (j * size + c) * (y c - x c))
      ∧ ∀ j < (free size constant).length, ∀ c < (free size constant).length,
        ∑ k ∈ Finset.range size, s.minusJacobian m (j * size + k)
            * s.plusJacobian m (k * (free size constant).length + c) = if j = c then 1 else 0 := by
  refine ⟨fun i hi => ?_, fun j hj => ?_, fun j hj c hc => ?_⟩
  · obtain ⟨h1, h2, -⟩ := subsetPlus_spec h x delta out
    by_cases hc : (i : ℤ) ∈ constant
    · rw [h1 i hi hc, Finset.sum_eq_zero, add_zero]
      intro c hcc
      rw [subsetPlusJacobian_spec h m hi (Finset.mem_range.1 hcc), if_neg, zero_mul]
      intro e
      exact (free_mem (Finset.mem_range.1 hcc)).2 (by rw [← e]; exact hc)
    · obtain ⟨j, hj, rfl⟩ := exists_free hi hc
      rw [h2 j hj, Finset.sum_eq_single j]
      · rw [subsetPlusJacobian_spec h m hi hj, if_pos rfl, one_mul]
      · intro c hcc hne
        rw [subsetPlusJacobian_spec h m hi (Finset.mem_range.1 hcc), if_neg, zero_mul]
        intro e
        exact hne (free_injective hj (Finset.mem_range.1 hcc) e).symm
      · intro hn; exact absurd (Finset.mem_range.2 hj) hn
  · rw [(subsetMinus_spec h y x out).1 j hj, Finset.sum_eq_single ((free size constant)[j])]
    · rw [subsetMinusJacobian_spec h m (free_mem hj).1 hj, if_pos rfl, one_mul]
    · intro c hcc hne
      rw [subsetMinusJacobian_spec h m (Finset.mem_range.1 hcc) hj, if_neg hne, zero_mul]
    · intro hn; exact absurd (Finset.mem_range.2 (free_mem hj).1) hn
  · rw [Finset.sum_eq_single ((free size constant)[j])]
    · rw [subsetMinusJacobian_spec h m (free_mem hj).1 hj, if_pos rfl, one_mul,
        subsetPlusJacobian_spec h m (free_mem hj).1 hc]
      by_cases e : j = c
      · subst e; simp
      · rw [if_neg e, if_neg fun e' => e (free_injective hj hc e')]
    · intro k hk hne
      rw [subsetMinusJacobian_spec h m (Finset.mem_range.1 hk) hj, if_neg hne, zero_mul]
    · intro hn; exact absurd (Finset.mem_range.2 (free_mem hj).1) hn

/-- The constructor accepts five coordinates with the second and the fourth constant. -/
example : ∃ s, mkSubset 5 [3, 1] = some s ∧ s.tangentSize = 3 ∧ free 5 [3, 1] = [0, 2, 4] := by
  have h : (mkSubset 5 [3, 1]).isSome = true := (mkSubset_spec 5 [3, 1]).2 (by decide)
  obtain ⟨s, hs⟩ := Option.isSome_iff_exists.1 h
  have hf : free 5 [3, 1] = [0, 2, 4] := by decide
  exact ⟨s, hs, by rw [(mkSubset_built hs).tangent, hf]; rfl, hf⟩

/-! ## The Euclidean manifold -/

/-- **C43, C44.** The Euclidean manifold. -/
theorem euclidean_laws {n : ℕ} (x y delta : Vec n) :
    euclideanPlus x 0 = x ∧ euclideanMinus (euclideanPlus x delta) x = delta
      ∧ euclideanPlus x (euclideanMinus y x) = y
      ∧ HasFDerivAt (euclideanPlus x) (asMap (euclideanJacobian n)) 0
      ∧ HasFDerivAt (fun y => euclideanMinus y x) (asMap (euclideanJacobian n)) x
      ∧ euclideanJacobian n * euclideanJacobian n = 1 := by
  have e : asMap (euclideanJacobian n) = ContinuousLinearMap.id ℝ (Vec n) := by
    ext1 v; simp [euclideanJacobian]
  refine ⟨funext fun i => add_zero _, funext fun i => add_sub_cancel_left _ _,
    funext fun i => add_sub_cancel _ _, ?_, ?_, by simp [euclideanJacobian]⟩
  · rw [e]; exact (hasFDerivAt_id (0 : Vec n)).const_add x
  · rw [e]; exact (hasFDerivAt_id x).sub_const x

/-- `RightMultiplyByPlusJacobian` of the Euclidean manifold is the product with the identity. -/
theorem euclideanRightMultiply_spec (n numRows : ℕ) (ambient tangent : Buf) {r : ℕ} (hr : r < numRows)
    (c : Fin n) :
    euclideanRightMultiply n numRows ambient tangent (r * n + c)
      = ∑ k : Fin n, ambient (r * n + k) * euclideanJacobian n k c := by
  have h : r * n + c < numRows * n := by
    calc r * n + c < r * n + n := by omega
      _ = (r + 1) * n := by ring
      _ ≤ numRows * n := Nat.mul_le_mul_right n hr
  rw [euclideanRightMultiply, if_pos h, euclideanJacobian, Finset.sum_eq_single c]
  · simp
  · intro k _ hne; simp [hne]
  · simp

end

end Ceres.Manifold
