import Verif.Feasible.Model

/-!
# `Plus` lands in the box
-/
namespace Ceres.Feasible

open Ceres.Program (PB PlusRes Mem PlusRun PlusState setOffsets offsetOf readMem clampAll)

variable {α : Type} [LinearOrder α]

theorem clampAll_get : ∀ (x l u r : List α), clampAll x l u = some r → ∀ (j : ℕ) (y : α),
    r[j]? = some y → l.length = u.length →
    (∀ a, l[j]? = some a → a ≤ y) ∧ (∀ a, u[j]? = some a → y ≤ a)
  | [], l, u, r, h, j, y, hy, _ => by
    have : r = [] := by cases l <;> simp [clampAll] at h <;> exact h
    subst this
    simp at hy
  | x :: xs, [], u, r, h, j, y, hy, hlu => by
    have : u = [] := List.length_eq_zero_iff.1 hlu.symm
    subst this
    simp
  | x :: xs, l :: ls, [], r, h, j, y, hy, hlu => by simp at hlu
  | x :: xs, l :: ls, u :: us, r, h, j, y, hy, hlu => by
    simp only [clampAll] at h
    by_cases hul : u < l
    · rw [if_pos hul] at h; cases h
    · rw [if_neg hul] at h
      cases hr : clampAll xs ls us with
      | none => rw [hr] at h; cases h
      | some r' =>
        rw [hr] at h
        simp only [Option.some.injEq] at h
        subst h
        cases j with
        | zero =>
          simp only [List.getElem?_cons_zero, Option.some.injEq] at hy ⊢
          subst hy
          have hle := not_lt.1 hul
          constructor
          · rintro a rfl
            split
            · exact le_rfl
            · split
              · exact hle
              · rename_i h1 _; exact not_lt.1 h1
          · rintro a rfl
            split
            · exact hle
            · split
              · exact le_rfl
              · rename_i _ h2; exact not_lt.1 h2
        | succ j =>
          simp only [List.getElem?_cons_succ] at hy ⊢
          exact clampAll_get xs ls us r' hr j y hy (by simpa using hlu)

/-- What the projection returns is in the box, whatever it is applied to. -/
theorem project_inBox {b : PB α} (hb : BoundsSized b) {x y : List α} (h : b.project x = .ok y) :
    InBox b y := by
  intro j v hv
  unfold PB.project at h
  unfold Program.PB.InBounds Program.PB.lo? Program.PB.hi?
  cases hl : b.lower with
  | none =>
    cases hu : b.upper with
    | none => simp
    | some u =>
      rw [hl, hu] at h
      simp only [PlusRes.ok.injEq] at h
      subst h
      refine ⟨by simp, ?_⟩
      intro a ha
      simp only [Option.bind_some] at ha
      rw [List.getElem?_zipWith, ha] at hv
      cases hx : x[j]? with
      | none => rw [hx] at hv; simp at hv
      | some xj =>
        rw [hx] at hv
        simp only [Option.some.injEq] at hv
        subst hv
        split
        · exact le_rfl
        · rename_i hn; exact not_lt.1 hn
  | some l =>
    cases hu : b.upper with
    | none =>
      rw [hl, hu] at h
      simp only [PlusRes.ok.injEq] at h
      subst h
      refine ⟨?_, by simp⟩
      intro a ha
      simp only [Option.bind_some] at ha
      rw [List.getElem?_zipWith, ha] at hv
      cases hx : x[j]? with
      | none => rw [hx] at hv; simp at hv
      | some xj =>
        rw [hx] at hv
        simp only [Option.some.injEq] at hv
        subst hv
        split
        · exact le_rfl
        · rename_i hn; exact not_lt.1 hn
    | some u =>
      rw [hl, hu] at h
      simp only at h
      cases hc : clampAll x l u with
      | none => rw [hc] at h; cases h
      | some r =>
        rw [hc] at h
        simp only [PlusRes.ok.injEq] at h
        subst h
        simp only [Option.bind_some]
        exact clampAll_get x l u r hc j v hv (by rw [hb.lower l hl, hb.upper u hu])

variable [Add α]

theorem plus_inBox {b : PB α} (hb : BoundsSized b) {x d y : List α} (h : b.plus x d = .ok y) :
    InBox b y := by
  unfold PB.plus at h
  split at h
  · split at h
    · cases h
    · exact project_inBox hb h
  · exact project_inBox hb h

/-- **C58 (the step).**  Whenever `Plus` succeeds, wherever it starts from, the point it returns is
feasible. -/
theorem programPlus_feasible {pb : ℕ → PB α} {blocks : List ℕ}
    (hb : ∀ b ∈ blocks, BoundsSized (pb b)) {x d y : ℕ → List α}
    (h : programPlus pb blocks x d = some y) : Feasible pb blocks y := by
  intro b hmem
  unfold programPlus at h
  split at h
  · rename_i hall
    simp only [Option.some.injEq] at h
    subst h
    simp only [if_pos hmem]
    have := List.all_eq_true.1 hall b hmem
    cases hr : (pb b).plus (x b) (d b) with
    | ok r => exact plus_inBox (hb b hmem) hr
    | fail => rw [hr] at this; simp [okOf] at this
    | ub => rw [hr] at this; simp [okOf] at this
  · cases h

/-- The projection onto the box is unique. -/
theorem isProjection_unique {b : PB α} {z y y' : List α} (h : b.IsProjection z y)
    (h' : b.IsProjection z y') : y = y' := by
  obtain ⟨l1, p1⟩ := h
  obtain ⟨l2, p2⟩ := h'
  apply List.ext_getElem?
  intro j
  by_cases hj : j < z.length
  · have ez := List.getElem?_eq_getElem hj
    have e1 := List.getElem?_eq_getElem (show j < y.length by omega)
    have e2 := List.getElem?_eq_getElem (show j < y'.length by omega)
    obtain ⟨-, b1, c1, d1⟩ := p1 j _ _ ez e1
    obtain ⟨-, b2, c2, d2⟩ := p2 j _ _ ez e2
    rw [e1, e2, Option.some.injEq]
    by_cases hin : b.InBounds j z[j]
    · rw [b1 hin, b2 hin]
    · unfold Program.PB.InBounds at hin
      by_cases hl : ∀ l, b.lo? j = some l → l ≤ z[j]
      · have : ¬ ∀ u, b.hi? j = some u → z[j] ≤ u := fun hu => hin ⟨hl, hu⟩
        push Not at this
        obtain ⟨u, hu, hlt⟩ := this
        rw [d1 u hu hlt, d2 u hu hlt]
      · push Not at hl
        obtain ⟨l, hl, hlt⟩ := hl
        rw [c1 l hl hlt, c2 l hl hlt]
  · rw [List.getElem?_eq_none (by omega), List.getElem?_eq_none (by omega)]

theorem readMem_length (m : Mem α) (a n : ℕ) : (readMem m a n).length = n := by simp [readMem]

/-- **C58 (the loop computes the step).**  `programPlus` is what the parallel loop of `Program::Plus`
computes, in every execution: the blocks in any order, and blocks skipped only after a failure.  If
the state vector holds `x` and the step vector `d`, the loop reports success exactly when
`programPlus` returns a point, and then the output vector holds that point. -/
theorem plus_refines {pb : ℕ → PB α} {blocks : List ℕ}
    (hwf : ∀ b ∈ blocks, (pb b).WF) (hne : ∀ b ∈ blocks, (pb b).NonEmpty)
    {state delta out0 : Mem α} {x d : ℕ → List α}
    (hx : ∀ (i b : ℕ), blocks[i]? = some b →
      readMem state (offsetOf (blocks.map pb) PB.size i) (pb b).size = x b)
    (hd : ∀ (i b : ℕ), blocks[i]? = some b →
      readMem delta (offsetOf (blocks.map pb) PB.tangentSize i) (pb b).tangentSize = d b)
    {ids : List ℕ} (hids : ids.Perm (List.range blocks.length)) {s' : PlusState α}
    (hrun : PlusRun (setOffsets (blocks.map pb) 0 0 0) state delta ids ⟨out0, false, false⟩ s') :
    s'.ub = false ∧
    (s'.abort = true → programPlus pb blocks x d = none) ∧
    (s'.abort = false → ∃ y, programPlus pb blocks x d = some y ∧
      ∀ (i b : ℕ), blocks[i]? = some b →
      readMem s'.out (offsetOf (blocks.map pb) PB.size i) (pb b).size = y b) := by
  obtain ⟨h1, h2, h3, -⟩ := Program.program_plus_spec (blocks.map pb) state delta out0 ids s'
    (by simpa using hwf) (by simpa using hne) (by simpa using hids) hrun
  have hspec : ∀ (i b : ℕ), blocks[i]? = some b → (x b).length = (pb b).size ∧
      (d b).length = (pb b).tangentSize := by
    intro i b hb
    rw [← hx i b hb, ← hd i b hb]
    exact ⟨readMem_length _ _ _, readMem_length _ _ _⟩
  have hraw : ∀ (i b : ℕ), blocks[i]? = some b →
      (okOf ((pb b).plus (x b) (d b))).isSome = ((pb b).rawPlus (x b) (d b)).isSome := by
    intro i b hb
    have hm := List.mem_of_getElem? hb
    have := Program.plus_block_spec (pb b) (hwf b hm) (hne b hm) (x b) (d b) (hspec i b hb).1
      (hspec i b hb).2
    cases hr : (pb b).rawPlus (x b) (d b) with
    | none => rw [hr] at this; simp only at this; simp [this, okOf]
    | some z =>
      rw [hr] at this
      obtain ⟨y, hy, -⟩ := this
      simp [hy, okOf]
  refine ⟨h1, ?_, ?_⟩
  · intro ha
    unfold programPlus
    rw [if_neg]
    intro hall
    rw [List.all_eq_true] at hall
    have : s'.abort = false := by
      rw [h2]
      intro i b hb
      rw [List.getElem?_map] at hb
      cases hi : blocks[i]? with
      | none => rw [hi] at hb; simp at hb
      | some c =>
        rw [hi] at hb
        simp only [Option.map_some, Option.some.injEq] at hb
        subst hb
        rw [hx i c hi, hd i c hi, ← hraw i c hi]
        exact hall c (List.mem_of_getElem? hi)
    rw [ha] at this
    cases this
  · intro ha
    have hok := h2.1 ha
    have hall : (blocks.all fun b => (okOf ((pb b).plus (x b) (d b))).isSome) = true := by
      rw [List.all_eq_true]
      intro b hb
      obtain ⟨i, hi⟩ := List.mem_iff_getElem?.1 hb
      rw [hraw i b hi]
      have := hok i (pb b) (by rw [List.getElem?_map, hi]; rfl)
      rw [hx i b hi, hd i b hi] at this
      exact this
    refine ⟨_, by rw [programPlus, if_pos hall], ?_⟩
    intro i b hi
    have hm := List.mem_of_getElem? hi
    have hbs := Program.plus_block_spec (pb b) (hwf b hm) (hne b hm) (x b) (d b)
      (hspec i b hi).1 (hspec i b hi).2
    have hsome := hok i (pb b) (by rw [List.getElem?_map, hi]; rfl)
    rw [hx i b hi, hd i b hi] at hsome
    obtain ⟨z, hz⟩ := Option.isSome_iff_exists.1 hsome
    rw [hz] at hbs
    obtain ⟨y, hy, -, hp⟩ := hbs
    have hout := h3 ha i (pb b) z (by rw [List.getElem?_map, hi]; rfl)
      (by rw [hx i b hi, hd i b hi]; exact hz)
    simp only [if_pos hm, hy, okOf, Option.getD_some]
    exact isProjection_unique hout hp

end Ceres.Feasible
