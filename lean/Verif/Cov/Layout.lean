import Verif.Cov.Model
import Mathlib.Tactic.Linarith
import Mathlib.Tactic.Ring

/-! # The layout of the stored part of the covariance matrix -/

namespace Ceres.Cov

variable {K : Type}

theorem bind_ok {α β : Type} {c : Except Abort α} {f : α → Except Abort β} {r : β} :
    (c >>= f) = .ok r ↔ ∃ a, c = .ok a ∧ f a = .ok r := by
  cases c with
  | error e => simp [bind, Except.bind]
  | ok u => simp [bind, Except.bind]

/-! ### Row indices -/

theorem indexRows_keys (P : Prob K) (ps : List ℕ) (n : ℕ) :
    (indexRows P ps n).map Prod.fst = ps := by
  induction ps generalizing n with
  | nil => rfl
  | cons p ps ih => simp [indexRows, ih]

theorem mem_index_keys {P : Prob K} {ps : List ℕ} {n p a : ℕ} (h : (p, a) ∈ indexRows P ps n) :
    p ∈ ps := by
  rw [← indexRows_keys P ps n]
  exact List.mem_map.2 ⟨_, h, rfl⟩

theorem exists_mem_index {P : Prob K} {ps : List ℕ} (n : ℕ) {p : ℕ} (h : p ∈ ps) :
    ∃ a, (p, a) ∈ indexRows P ps n := by
  rw [← indexRows_keys P ps n] at h
  obtain ⟨⟨q, a⟩, h1, rfl⟩ := List.mem_map.1 h
  exact ⟨a, h1⟩

theorem index_ge {P : Prob K} {ps : List ℕ} {n p a : ℕ} (h : (p, a) ∈ indexRows P ps n) :
    n ≤ a ∧ a + P.tangent p ≤ numRows P ps n := by
  have hn : ∀ (ps : List ℕ) (n : ℕ), n ≤ numRows P ps n := by
    intro ps
    induction ps with
    | nil => intro n; exact le_rfl
    | cons p ps ih => intro n; exact (Nat.le_add_right _ _).trans (ih _)
  induction ps generalizing n with
  | nil => simp [indexRows] at h
  | cons q ps ih =>
    simp only [indexRows, List.mem_cons, Prod.mk.injEq] at h
    rcases h with ⟨rfl, rfl⟩ | h
    · exact ⟨le_rfl, hn _ _⟩
    · have := ih h
      exact ⟨(Nat.le_add_right _ _).trans this.1, this.2⟩

/-- Rows of different blocks do not overlap, and are in the order of the addresses. -/
theorem index_lt {P : Prob K} {ps : List ℕ} (hs : ps.Pairwise (· < ·)) {n p q a b : ℕ}
    (h1 : (p, a) ∈ indexRows P ps n) (h2 : (q, b) ∈ indexRows P ps n) (h : p < q) :
    a + P.tangent p ≤ b := by
  induction ps generalizing n with
  | nil => simp [indexRows] at h1
  | cons r ps ih =>
    rw [List.pairwise_cons] at hs
    simp only [indexRows, List.mem_cons, Prod.mk.injEq] at h1 h2
    rcases h1 with ⟨rfl, rfl⟩ | h1
    · rcases h2 with ⟨rfl, rfl⟩ | h2
      · omega
      · exact (index_ge h2).1
    · rcases h2 with ⟨rfl, rfl⟩ | h2
      · have := hs.1 p (mem_index_keys h1)
        omega
      · exact ih hs.2 h1 h2

theorem index_unique {P : Prob K} {ps : List ℕ} (hs : ps.Pairwise (· < ·)) {n p a b : ℕ}
    (h1 : (p, a) ∈ indexRows P ps n) (h2 : (p, b) ∈ indexRows P ps n) : a = b := by
  induction ps generalizing n with
  | nil => simp [indexRows] at h1
  | cons r ps ih =>
    rw [List.pairwise_cons] at hs
    simp only [indexRows, List.mem_cons, Prod.mk.injEq] at h1 h2
    rcases h1 with ⟨rfl, rfl⟩ | h1
    · rcases h2 with ⟨-, rfl⟩ | h2
      · rfl
      · exact absurd (hs.1 p (mem_index_keys h2)) (lt_irrefl _)
    · rcases h2 with ⟨rfl, rfl⟩ | h2
      · exact absurd (hs.1 p (mem_index_keys h1)) (lt_irrefl _)
      · exact ih hs.2 h1 h2

theorem findRow_ok {index : List (ℕ × ℕ)} {p a : ℕ} (h : findRow index p = .ok a) :
    (p, a) ∈ index := by
  unfold findRow at h
  cases hl : index.lookup p with
  | none => rw [hl] at h; cases h
  | some b =>
    rw [hl] at h
    cases h
    induction index with
    | nil => simp at hl
    | cons e es ih =>
      rw [List.lookup_cons] at hl
      by_cases he : p == e.1
      · rw [he] at hl
        simp only [Option.some.injEq] at hl
        have : e = (p, a) := by
          rw [beq_iff_eq] at he
          exact Prod.ext he.symm hl
        rw [this]
        exact List.mem_cons_self ..
      · rw [Bool.not_eq_true] at he
        rw [he] at hl
        exact List.mem_cons_of_mem _ (ih hl)

theorem findRow_error {index : List (ℕ × ℕ)} {p : ℕ} (h : ∀ a, (p, a) ∉ index) :
    findRow index p = .error .unknownBlock := by
  cases hf : findRow index p with
  | ok a => exact absurd (findRow_ok hf) (h a)
  | error e =>
    unfold findRow at hf
    split at hf
    · cases hf; rfl
    · cases hf

theorem findRow_of_mem {P : Prob K} {ps : List ℕ} (hs : ps.Pairwise (· < ·)) {n p a : ℕ}
    (h : (p, a) ∈ indexRows P ps n) : findRow (indexRows P ps n) p = .ok a := by
  cases hf : findRow (indexRows P ps n) p with
  | ok b => rw [index_unique hs (findRow_ok hf) h]
  | error e =>
    exfalso
    have hnone : (indexRows P ps n).lookup p = none := by
      unfold findRow at hf
      split at hf
      · assumption
      · cases hf
    rw [List.lookup_eq_none_iff] at hnone
    have := hnone _ h
    simp at this

/-- Active blocks are the variable ones that are used, in the order of their addresses. -/
theorem mem_active {P : Prob K} {p : ℕ} : p ∈ P.active ↔ p ∈ P.ptrs ∧ P.isActive p = true := by
  unfold Prob.active
  rw [List.mem_insertionSort, List.mem_filter]

theorem mem_constants {P : Prob K} {p : ℕ} :
    p ∈ P.constants ↔ p ∈ P.ptrs ∧ P.isActive p = false := by
  unfold Prob.constants
  rw [List.mem_filter]
  simp

theorem active_sorted {P : Prob K} (h : P.ptrs.Nodup) : P.active.Pairwise (· < ·) := by
  unfold Prob.active
  have h1 : ((P.ptrs.filter P.isActive).insertionSort (· ≤ ·)).Pairwise (· ≤ ·) :=
    List.pairwise_insertionSort _ _
  have h2 : ((P.ptrs.filter P.isActive).insertionSort (· ≤ ·)).Nodup :=
    (List.perm_insertionSort _ _).nodup_iff.2 (h.filter _)
  exact (h1.and h2).imp fun h => lt_of_le_of_ne h.1 h.2

theorem active_tangent {P : Prob K} {p : ℕ} (h : p ∈ P.active) : 0 < P.tangent p := by
  have := (mem_active.1 h).2
  unfold Prob.isActive Block.isConstant at this
  simp only [Bool.not_or, Bool.and_eq_true, Bool.not_eq_true', beq_eq_false_iff_ne] at this
  exact Nat.pos_of_ne_zero this.1.2

/-! ### The pairs -/

section
variable {P : Prob K}

/-- The index map of the object. -/
abbrev idx (P : Prob K) : List (ℕ × ℕ) := indexRows P P.active 0

/-- What an accepted list of pairs becomes. -/
structure Flipped (P : Prob K) (pairs : List (ℕ × ℕ)) (n : ℕ) (blocks : List (ℕ × ℕ)) : Prop where
  count : n = (blocks.map fun q => P.tangent q.1 * P.tangent q.2).sum
  mem : ∀ p q, (p, q) ∈ blocks ↔
    p ∈ P.active ∧ q ∈ P.active ∧ p ≤ q ∧ ((p, q) ∈ pairs ∨ (q, p) ∈ pairs)

theorem flipPairs_ok (hP : P.ptrs.Nodup) {pairs : List (ℕ × ℕ)} {n : ℕ} {blocks : List (ℕ × ℕ)}
    (h : flipPairs P (idx P) pairs = .ok (n, blocks)) : Flipped P pairs n blocks := by
  have hs := active_sorted hP
  induction pairs generalizing n blocks with
  | nil =>
    simp only [flipPairs, Except.ok.injEq, Prod.mk.injEq] at h
    obtain ⟨rfl, rfl⟩ := h
    exact ⟨rfl, by simp⟩
  | cons q qs ih =>
    unfold flipPairs at h
    split at h
    · rename_i hc
      simp only [Bool.or_eq_true, List.contains_iff_mem] at hc
      obtain ⟨h1, h2⟩ := ih h
      refine ⟨h1, fun a b => ?_⟩
      rw [h2]
      have key : ∀ x, x ∈ P.active → x ∉ P.constants := by
        intro x hx hx'
        rw [mem_active] at hx
        rw [mem_constants] at hx'
        rw [hx.2] at hx'
        exact absurd hx'.2 (by simp)
      constructor
      · rintro ⟨ha, hb, hab, h | h⟩
        · exact ⟨ha, hb, hab, .inl (List.mem_cons_of_mem _ h)⟩
        · exact ⟨ha, hb, hab, .inr (List.mem_cons_of_mem _ h)⟩
      · rintro ⟨ha, hb, hab, h⟩
        refine ⟨ha, hb, hab, ?_⟩
        simp only [List.mem_cons] at h
        rcases h with (h | h) | (h | h)
        · rw [← h] at hc
          rcases hc with hc | hc
          · exact absurd hc (key _ ha)
          · exact absurd hc (key _ hb)
        · exact .inl h
        · rw [← h] at hc
          rcases hc with hc | hc
          · exact absurd hc (key _ hb)
          · exact absurd hc (key _ ha)
        · exact .inr h
    · simp only [bind_ok] at h
      obtain ⟨i1, h1, i2, h2, ⟨m, rest⟩, h3, h4⟩ := h
      simp only [Except.ok.injEq, Prod.mk.injEq] at h4
      obtain ⟨rfl, rfl⟩ := h4
      obtain ⟨h5, h6⟩ := ih h3
      have m1 := findRow_ok h1
      have m2 := findRow_ok h2
      have a1 := mem_index_keys m1
      have a2 := mem_index_keys m2
      have hlt : i1 > i2 ↔ q.1 > q.2 := by
        constructor
        · intro hgt
          by_contra hle
          rcases lt_or_eq_of_le (not_lt.1 hle) with hlt | heq
          · have := index_lt hs m1 m2 hlt
            omega
          · rw [heq] at m1
            rw [index_unique hs m1 m2] at hgt
            omega
        · intro hgt
          have := index_lt hs m2 m1 hgt
          have := active_tangent a2
          omega
      refine ⟨?_, fun a b => ?_⟩
      · rw [List.map_cons, List.sum_cons, h5]
        split
        · simp only []
          rw [Nat.mul_comm]
        · rfl
      · rw [List.mem_cons, h6]
        simp only [List.mem_cons]
        obtain ⟨x, y⟩ := q
        simp only [Prod.mk.injEq] at *
        by_cases hgt : i1 > i2
        · rw [if_pos hgt]
          have := hlt.1 hgt
          constructor
          · rintro (h | ⟨ha, hb, hab, h⟩)
            · obtain ⟨rfl, rfl⟩ := Prod.mk.inj h
              exact ⟨a2, a1, by omega, .inr (.inl ⟨rfl, rfl⟩)⟩
            · exact ⟨ha, hb, hab, h.imp .inr .inr⟩
          · rintro ⟨ha, hb, hab, h⟩
            rcases h with (⟨rfl, rfl⟩ | h) | (⟨rfl, rfl⟩ | h)
            · omega
            · exact .inr ⟨ha, hb, hab, .inl h⟩
            · exact .inl rfl
            · exact .inr ⟨ha, hb, hab, .inr h⟩
        · rw [if_neg hgt]
          have : ¬x > y := fun h => hgt (hlt.2 h)
          constructor
          · rintro (h | ⟨ha, hb, hab, h⟩)
            · obtain ⟨rfl, rfl⟩ := Prod.mk.inj h
              exact ⟨a1, a2, by omega, .inl (.inl ⟨rfl, rfl⟩)⟩
            · exact ⟨ha, hb, hab, h.imp .inr .inr⟩
          · rintro ⟨ha, hb, hab, h⟩
            rcases h with (⟨rfl, rfl⟩ | h) | (⟨rfl, rfl⟩ | h)
            · exact .inl rfl
            · exact .inr ⟨ha, hb, hab, .inl h⟩
            · have : a = b := by omega
              subst this
              exact .inl rfl
            · exact .inr ⟨ha, hb, hab, .inr h⟩

/-- A pair is accepted if one of its blocks is fixed or both are active. -/
def Known (P : Prob K) (q : ℕ × ℕ) : Prop :=
  (q.1 ∈ P.constants ∨ q.2 ∈ P.constants) ∨ (q.1 ∈ P.active ∧ q.2 ∈ P.active)

theorem flipPairs_defined (hP : P.ptrs.Nodup) (pairs : List (ℕ × ℕ)) :
    (∃ r, flipPairs P (idx P) pairs = .ok r) ↔ ∀ q ∈ pairs, Known P q := by
  have hs := active_sorted hP
  induction pairs with
  | nil => simp [flipPairs]
  | cons q qs ih =>
    rw [List.forall_mem_cons]
    refine Iff.trans ?_ (and_congr_right fun _ => ih)
    rw [flipPairs]
    by_cases hc : q.1 ∈ P.constants ∨ q.2 ∈ P.constants
    · rw [if_pos (by simpa using hc)]
      exact ⟨fun h => ⟨.inl hc, h⟩, fun h => h.2⟩
    · rw [if_neg (by simpa using hc)]
      constructor
      · rintro ⟨r, hr⟩
        simp only [bind_ok] at hr
        obtain ⟨i1, h1, i2, h2, m, h3, -⟩ := hr
        exact ⟨.inr ⟨mem_index_keys (findRow_ok h1), mem_index_keys (findRow_ok h2)⟩, m, h3⟩
      · rintro ⟨h1 | h1, m, h3⟩
        · exact absurd h1 hc
        · obtain ⟨a, ha⟩ := exists_mem_index (P := P) 0 h1.1
          obtain ⟨b, hb⟩ := exists_mem_index (P := P) 0 h1.2
          simp only [bind_ok]
          exact ⟨_, a, findRow_of_mem hs ha, b, findRow_of_mem hs hb, m, h3, rfl⟩

theorem flipPairs_error {e : Abort} {pairs : List (ℕ × ℕ)}
    (h : flipPairs P (idx P) pairs = .error e) : e = .unknownBlock := by
  induction pairs with
  | nil => cases h
  | cons q qs ih =>
    unfold flipPairs at h
    split at h
    · exact ih h
    · have hf : ∀ p e', findRow (idx P) p = .error e' → e' = .unknownBlock := by
        intro p e' h'
        unfold findRow at h'
        split at h'
        · cases h'; rfl
        · cases h'
      cases h1 : findRow (idx P) q.1 with
      | error e1 => rw [h1] at h; cases h; exact hf _ _ h1
      | ok i1 =>
        cases h2 : findRow (idx P) q.2 with
        | error e2 => rw [h1, h2] at h; cases h; exact hf _ _ h2
        | ok i2 =>
          cases h3 : flipPairs P (idx P) qs with
          | error e3 => rw [h1, h2, h3] at h; cases h; exact ih h3
          | ok r => rw [h1, h2, h3] at h; cases h

end

end Ceres.Cov
