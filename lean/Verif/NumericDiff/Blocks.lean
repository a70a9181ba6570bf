import Verif.NumericDiff.Spec

/-! # Blocks, cost functions and first order functions -/

namespace Ceres.NumericDiff

noncomputable section

variable {m : ℕ}

/-- The step: relative to the parameter, but not below the square root of the machine epsilon; for
Ridders' method not below the initial step either. -/
theorem stepSize_eq (o : Options) (method : Method) (x : ℝ) :
    stepSize o method x = if method = .ridders then
        max (max (Real.sqrt o.machineEpsilon) o.riddersRelativeInitialStepSize)
          (|x| * o.riddersRelativeInitialStepSize)
      else max (Real.sqrt o.machineEpsilon) (|x| * o.relativeStepSize) := by
  unfold stepSize
  split_ifs <;> rfl

theorem stepSize_pos (o : Options) (method : Method) (x : ℝ) (h : 0 < o.machineEpsilon) :
    0 < stepSize o method x := by
  have := Real.sqrt_pos.2 h
  rw [stepSize_eq]
  split_ifs <;> simp [this]

/-- What a column has to be. -/
def IsQuotient (o : Options) (method : Method) (f : Functor m) (P : Params) (b j : ℕ) (d : Fin m → ℝ) :
    Prop :=
  match method with
  | .forward => IsForward f P b j (stepSize o .forward (P b j)) d
  | .central => IsCentral f P b j (stepSize o .central (P b j)) d
  | .ridders => IsRidders f P b j o.riddersStepShrinkFactor
      (stepSize o .ridders (P b j) * o.riddersStepShrinkFactor ^ (o.maxNumRiddersExtrapolations / 2))
      o.maxNumRiddersExtrapolations d

/-- The functor is defined when one entry of the block is changed. -/
def Probes (f : Functor m) (P : Params) (b size : ℕ) : Prop := ∀ j < size, ∀ t, f (at' P b j t) ≠ none

theorem writeColumn_spec (size j : ℕ) (hj : j < size) (col : Fin m → ℝ) (jac : ℕ → ℝ) (q : ℕ) :
    writeColumn size j col jac q
      = if h : q % size = j ∧ q / size < m then col ⟨q / size, h.2⟩ else jac q := by
  unfold writeColumn
  have key : ∀ (l : List (Fin m)) (jac : ℕ → ℝ),
      l.foldl (fun jac (i : Fin m) => Function.update jac (size * i.val + j) (col i)) jac q
        = if h : q % size = j ∧ ∃ i ∈ l, i.val = q / size then
            col ⟨q / size, by obtain ⟨i, _, e⟩ := h.2; rw [← e]; exact i.2⟩ else jac q := by
    intro l
    induction l with
    | nil => intro jac; simp
    | cons a l ih =>
      intro jac
      rw [List.foldl_cons, ih]
      have hpos : 0 < size := by omega
      have hqa : q = size * a.val + j ↔ q % size = j ∧ a.val = q / size := by
        constructor
        · rintro rfl
          rw [Nat.mul_add_mod, Nat.mod_eq_of_lt hj, Nat.mul_add_div hpos, Nat.div_eq_of_lt hj]
          simp
        · rintro ⟨h1, h2⟩
          rw [h2, ← h1, Nat.div_add_mod]
      by_cases h : q % size = j ∧ ∃ i ∈ l, i.val = q / size
      · rw [dif_pos h, dif_pos ⟨h.1, by
          obtain ⟨i, hi, e⟩ := h.2
          exact ⟨i, List.mem_cons_of_mem _ hi, e⟩⟩]
      · rw [dif_neg h, Function.update_apply]
        by_cases hq : q = size * a.val + j
        · obtain ⟨h1, h2⟩ := hqa.1 hq
          rw [if_pos hq, dif_pos ⟨h1, a, by simp, h2⟩]
          congr 1
          exact Fin.ext h2
        · rw [if_neg hq, dif_neg]
          rintro ⟨h1, i, hi, e⟩
          rcases List.mem_cons.1 hi with rfl | hi
          · exact hq (hqa.2 ⟨h1, e⟩)
          · exact h ⟨h1, i, hi, e⟩
  rw [key]
  by_cases h : q % size = j ∧ q / size < m
  · rw [dif_pos h, dif_pos ⟨h.1, ⟨⟨q / size, h.2⟩, List.mem_finRange _, rfl⟩⟩]
  · rw [dif_neg h, dif_neg]
    rintro ⟨h1, i, _, e⟩
    exact h ⟨h1, by rw [← e]; exact i.2⟩

/-- One column, by any method. -/
theorem column_spec (o : Options) (method : Method) (f : Functor m) (b j : ℕ) (r0 : Fin m → ℝ)
    (junk : ℕ → Fin m → ℝ) (P : Params) (residuals : Fin m → ℝ) (hr0 : f P = some r0)
    (hn : method = .ridders → 0 < o.maxNumRiddersExtrapolations) :
    let c := if method = .ridders then evaluateRiddersJacobianColumn o f b j
        (stepSize o method (P b j)) (P b) r0 junk P residuals
      else evaluateJacobianColumn method f b j (stepSize o method (P b j)) (P b) r0 P residuals
    (c.ok = true → c.params = P ∧ IsQuotient o method f P b j c.residuals)
      ∧ (c.ok = false → ∃ t, f (at' P b j t) = none) := by
  intro c
  have hc : c = if method = .ridders then evaluateRiddersJacobianColumn o f b j
        (stepSize o method (P b j)) (P b) r0 junk P residuals
      else evaluateJacobianColumn method f b j (stepSize o method (P b j)) (P b) r0 P residuals := rfl
  cases method with
  | ridders =>
    rw [if_pos rfl, evaluateRiddersJacobianColumn] at hc
    have := riddersOuter_spec o f b j r0 P (stepSize o .ridders (P b j)
      * o.riddersStepShrinkFactor ^ (o.maxNumRiddersExtrapolations / 2)) o.maxNumRiddersExtrapolations
      o.maxNumRiddersExtrapolations 0 (fun _ => r0) junk junk o.big residuals rfl
      (fun i' h => by omega) (fun k h => by omega) (fun h => by omega)
    simp only [pow_zero, div_one] at this
    rw [← hc] at this
    obtain ⟨h1, h2, h3⟩ := this
    refine ⟨fun h => ⟨h1 h, h2 h (hn rfl)⟩, fun h => ?_⟩
    obtain ⟨i', _, h | h⟩ := h3 h
    · exact ⟨_, h⟩
    · exact ⟨_, h⟩
  | central =>
    rw [if_neg (by simp)] at hc
    obtain ⟨h1, h2, _⟩ := evaluateJacobianColumn_spec .central f b j (stepSize o .central (P b j)) r0 P
      residuals
    rw [← hc] at h1 h2
    obtain ⟨h2, h3⟩ := h2 (by simp)
    refine ⟨fun h => ⟨h1 h, h3 h⟩, fun h => ?_⟩
    by_contra hcon
    push Not at hcon
    rw [h2.2 ⟨hcon _, hcon _⟩] at h
    cases h
  | forward =>
    rw [if_neg (by simp)] at hc
    obtain ⟨h1, _, h2⟩ := evaluateJacobianColumn_spec .forward f b j (stepSize o .forward (P b j)) r0 P
      residuals
    rw [← hc] at h1 h2
    obtain ⟨h2, h3⟩ := h2 rfl hr0
    refine ⟨fun h => ⟨h1 h, h3 h⟩, fun h => ?_⟩
    by_contra hcon
    push Not at hcon
    rw [h2.2 (hcon _)] at h
    cases h

/-- The loop over a block's entries. -/
theorem blockLoop_spec (o : Options) (method : Method) (f : Functor m) (b size : ℕ) (r0 : Fin m → ℝ)
    (junk : ℕ → Fin m → ℝ) (P : Params) (hr0 : f P = some r0)
    (hn : method = .ridders → 0 < o.maxNumRiddersExtrapolations) :
    ∀ (rem j : ℕ) (residuals : Fin m → ℝ) (jac : ℕ → ℝ), rem + j = size →
      let r := blockLoop o method f b size (P b) r0 junk rem j P residuals jac
      (r.ok = true → r.params = P ∧ ∀ j', j ≤ j' → j' < size →
          ∃ d, IsQuotient o method f P b j' d ∧ ∀ i : Fin m, r.jacobian (size * i + j') = d i)
        ∧ (r.ok = false → ∃ j', j' < size ∧ ∃ t, f (at' P b j' t) = none)
        ∧ ∀ q, (q % size < j ∨ ¬ q < size * m) → r.jacobian q = jac q := by
  intro rem
  induction rem with
  | zero =>
    intro j residuals jac hj r
    exact ⟨fun _ => ⟨rfl, fun j' h1 h2 => by omega⟩, fun h => by simp [r, blockLoop] at h, fun q _ => rfl⟩
  | succ rem ih =>
    intro j residuals jac hj r
    obtain ⟨c1, c2⟩ := column_spec o method f b j r0 junk P residuals hr0 hn
    have hr : r = blockLoop o method f b size (P b) r0 junk (rem + 1) j P residuals jac := rfl
    rw [blockLoop] at hr
    set c := (if method = .ridders then evaluateRiddersJacobianColumn o f b j
        (stepSize o method (P b j)) (P b) r0 junk P residuals
      else evaluateJacobianColumn method f b j (stepSize o method (P b j)) (P b) r0 P residuals) with hc
    have hpos : 0 < size := by omega
    cases hok : c.ok with
    | false =>
      rw [hok] at hr
      simp only [Bool.not_false, if_true] at hr
      rw [hr]
      exact ⟨fun h => by simp at h, fun _ => ⟨j, by omega, c2 hok⟩, fun q _ => rfl⟩
    | true =>
      rw [hok] at hr
      simp only [Bool.not_true, Bool.false_eq_true, if_false] at hr
      obtain ⟨hp, hd⟩ := c1 hok
      rw [hp] at hr
      obtain ⟨i1, i2, i3⟩ := ih (j + 1) c.residuals (writeColumn size j c.residuals jac) (by omega)
      rw [← hr] at i1 i2 i3
      refine ⟨fun h => ⟨(i1 h).1, fun j' h1 h2 => ?_⟩, i2, fun q hq => ?_⟩
      · by_cases hjj : j' = j
        · subst hjj
          refine ⟨c.residuals, hd, fun i => ?_⟩
          have hmod : (size * i + j') % size = j' := by
            rw [Nat.mul_add_mod, Nat.mod_eq_of_lt h2]
          have hdiv : (size * i + j') / size = i := by
            rw [Nat.mul_add_div hpos, Nat.div_eq_of_lt h2, add_zero]
          rw [i3 _ (Or.inl (by omega)), writeColumn_spec size j' h2,
            dif_pos ⟨hmod, by rw [hdiv]; exact i.2⟩]
          congr 1
          exact Fin.ext hdiv
        · exact (i1 h).2 j' (by omega) h2
      · rw [i3 q (by omega), writeColumn_spec size j (by omega), dif_neg]
        rintro ⟨h1, h2⟩
        rcases hq with h | h
        · omega
        · exact h (by rw [mul_comm]; exact (Nat.div_lt_iff_lt_mul hpos).1 h2)

/-- **One block.**  If the functor is defined at the perturbed points, every column of the Jacobian is the
difference quotient of the method with the documented step; the parameters are left as they were; nothing
else is written.  Failure means that a perturbed point failed. -/
theorem evaluateJacobianForParameterBlock_spec (o : Options) (method : Method) (f : Functor m)
    (b size : ℕ) (r0 : Fin m → ℝ) (junk : ℕ → Fin m → ℝ) (P : Params) (jac : ℕ → ℝ)
    (hr0 : f P = some r0) (hn : method = .ridders → 0 < o.maxNumRiddersExtrapolations) :
    let r := evaluateJacobianForParameterBlock o method f b size r0 junk P jac
    (r.ok = true → r.params = P ∧ ∀ j < size,
        ∃ d, IsQuotient o method f P b j d ∧ ∀ i : Fin m, r.jacobian (size * i + j) = d i)
      ∧ (r.ok = false → ∃ j < size, ∃ t, f (at' P b j t) = none)
      ∧ ∀ q, ¬ q < size * m → r.jacobian q = jac q := by
  intro r
  obtain ⟨h1, h2, h3⟩ := blockLoop_spec o method f b size r0 junk P hr0 hn size 0 (junk 0) jac rfl
  exact ⟨fun h => ⟨(h1 h).1, fun j hj => (h1 h).2 j (by omega) hj⟩, h2, fun q hq => h3 q (Or.inr hq)⟩

/-- The blocks in turn. -/
theorem evaluateBlocks_spec (o : Options) (method : Method) (f : Functor m) (r0 : Fin m → ℝ)
    (junk : ℕ → Fin m → ℝ) (P : Params) (hr0 : f P = some r0)
    (hn : method = .ridders → 0 < o.maxNumRiddersExtrapolations) :
    ∀ (sizes : List ℕ) (b : ℕ) (jacobians : ℕ → Option (ℕ → ℝ)),
      let r := evaluateBlocks o method f r0 junk sizes b P jacobians
      (r.1 = true → ∀ k < sizes.length, ∀ J, r.2 (b + k) = some J → ∀ j < sizes.getD k 0,
          ∃ d, IsQuotient o method f P (b + k) j d ∧ ∀ i : Fin m, J (sizes.getD k 0 * i + j) = d i)
        ∧ (r.1 = false → ∃ k < sizes.length, jacobians (b + k) ≠ none
            ∧ ∃ j < sizes.getD k 0, ∃ t, f (at' P (b + k) j t) = none)
        ∧ (∀ b', (r.2 b' = none ↔ jacobians b' = none))
        ∧ (∀ b' J J', jacobians b' = some J → r.2 b' = some J' →
            ∀ q, (¬ (b ≤ b' ∧ b' < b + sizes.length) ∨ ¬ q < sizes.getD (b' - b) 0 * m) →
              J' q = J q) := by
  intro sizes
  induction sizes with
  | nil =>
    intro b jacobians r
    refine ⟨fun _ k hk => by simp at hk, fun h => by simp [r, evaluateBlocks] at h, fun b' => Iff.rfl,
      fun b' J J' h h' q _ => ?_⟩
    have : r.2 b' = jacobians b' := rfl
    rw [this, h] at h'
    cases h'
    rfl
  | cons size sizes ih =>
    intro b jacobians r
    have hr : r = evaluateBlocks o method f r0 junk (size :: sizes) b P jacobians := rfl
    rw [evaluateBlocks] at hr
    cases hj : jacobians b with
    | none =>
      rw [hj] at hr
      simp only at hr
      obtain ⟨i1, i2, i3, i4⟩ := ih (b + 1) jacobians
      rw [← hr] at i1 i2 i3 i4
      refine ⟨fun h k hk J hJ j hjj => ?_, fun h => ?_, i3, fun b' J J' h h' q hq => ?_⟩
      · cases k with
        | zero =>
          rw [add_zero, (i3 b).2 hj] at hJ
          cases hJ
        | succ k =>
          have e : b + (k + 1) = b + 1 + k := by omega
          rw [e] at hJ ⊢
          exact i1 h k (by simpa using hk) J hJ j hjj
      · obtain ⟨k, hk, h1, j, h2, h3⟩ := i2 h
        have e : b + 1 + k = b + (k + 1) := by omega
        rw [e] at h1 h3
        exact ⟨k + 1, by simpa using hk, h1, j, h2, h3⟩
      · refine i4 b' J J' h h' q ?_
        by_cases hb : b' = b
        · subst hb; rw [hj] at h; cases h
        · rcases hq with hq | hq
          · left; simp only [List.length_cons] at hq; omega
          · by_cases hb2 : b ≤ b' ∧ b' < b + (sizes.length + 1)
            · right
              have e : b' - b = (b' - (b + 1)) + 1 := by omega
              rw [e, List.getD_cons_succ] at hq
              exact hq
            · left; omega
    | some jac =>
      rw [hj] at hr
      simp only at hr
      obtain ⟨e1, e2, e3⟩ := evaluateJacobianForParameterBlock_spec o method f b size r0 junk P jac hr0 hn
      set rb := evaluateJacobianForParameterBlock o method f b size r0 junk P jac with hrb
      cases hok : rb.ok with
      | false =>
        rw [hok] at hr
        simp only [Bool.false_eq_true, if_false] at hr
        rw [hr]
        refine ⟨fun h => by simp at h, fun _ => ?_, fun b' => ?_, fun b' J J' h h' q hq => ?_⟩
        · obtain ⟨j, h1, h2⟩ := e2 hok
          exact ⟨0, by simp, by simp [hj], j, by simpa using h1, by simpa using h2⟩
        · simp only
          by_cases hb : b' = b
          · subst hb; simp [hj]
          · rw [Function.update_of_ne hb]
        · simp only at h'
          by_cases hb : b' = b
          · subst hb
            rw [Function.update_self] at h'
            rw [hj] at h
            cases h; cases h'
            apply e3 q
            rcases hq with hq | hq
            · simp only [List.length_cons] at hq; omega
            · simpa using hq
          · rw [Function.update_of_ne hb, h] at h'
            cases h'
            rfl
      | true =>
        rw [hok] at hr
        simp only [if_true] at hr
        obtain ⟨hp, hcol⟩ := e1 hok
        rw [hp] at hr
        obtain ⟨i1, i2, i3, i4⟩ := ih (b + 1) (Function.update jacobians b (some rb.jacobian))
        rw [← hr] at i1 i2 i3 i4
        have hnull : ∀ b', Function.update jacobians b (some rb.jacobian) b' = none ↔ jacobians b' = none := by
          intro b'
          by_cases hb : b' = b
          · subst hb; simp [hj]
          · rw [Function.update_of_ne hb]
        have hfirst : ∀ J, r.2 b = some J → J = rb.jacobian := by
          intro J hJ
          funext q
          exact i4 b rb.jacobian J (by simp) hJ q (Or.inl (by omega))
        refine ⟨fun h k hk J hJ j hjj => ?_, fun h => ?_, fun b' => (i3 b').trans (hnull b'),
          fun b' J J' h h' q hq => ?_⟩
        · cases k with
          | zero =>
            rw [add_zero] at hJ ⊢
            simp only [List.getD_cons_zero] at hjj ⊢
            rw [hfirst J hJ]
            exact hcol j hjj
          | succ k =>
            have e : b + (k + 1) = b + 1 + k := by omega
            rw [e] at hJ ⊢
            exact i1 h k (by simpa using hk) J hJ j hjj
        · obtain ⟨k, hk, h1, j, h2, h3⟩ := i2 h
          have e : b + 1 + k = b + (k + 1) := by omega
          rw [Ne, hnull] at h1
          rw [e] at h1 h3
          exact ⟨k + 1, by simpa using hk, h1, j, h2, h3⟩
        · by_cases hb : b' = b
          · subst hb
            rw [hj] at h
            cases h
            rw [hfirst J' h']
            apply e3 q
            rcases hq with hq | hq
            · simp only [List.length_cons] at hq; omega
            · simpa using hq
          · refine i4 b' J J' (by rw [Function.update_of_ne hb]; exact h) h' q ?_
            rcases hq with hq | hq
            · left; simp only [List.length_cons] at hq; omega
            · by_cases hb2 : b ≤ b' ∧ b' < b + (sizes.length + 1)
              · right
                have e : b' - b = (b' - (b + 1)) + 1 := by omega
                rw [e, List.getD_cons_succ] at hq
                exact hq
              · left; omega

/-- The specification of an evaluation, except for its verdict: on success at the point the residuals are
the functor's; if the verdict `v` is good, every Jacobian asked for is the row major matrix of difference
quotients; nothing else is written. -/
structure Quotients (o : Options) (method : Method) (sizes : List ℕ) (f : Functor m) (P : Params)
    (r0 : Fin m → ℝ) (jacobians : ℕ → Option (ℕ → ℝ)) (v : Prop) (res : Result m) : Prop where
  residual : res.residuals = r0
  null : ∀ b, (res.jacobians b = none ↔ jacobians b = none)
  jacobian : v → ∀ b < sizes.length, ∀ J, res.jacobians b = some J → ∀ j < sizes.getD b 0,
    ∃ d, IsQuotient o method f P b j d ∧ ∀ i : Fin m, J (sizes.getD b 0 * i + j) = d i
  untouched : ∀ b J J', jacobians b = some J → res.jacobians b = some J' →
    ∀ q, (¬ b < sizes.length ∨ ¬ q < sizes.getD b 0 * m) → J' q = J q

/-- **`NumericDiffCostFunction::Evaluate`.**  The verdict is the functor's at the point; the Jacobians are
right if the functor is defined at all perturbed points of the blocks asked for. -/
theorem numericEvaluate_spec (o : Options) (method : Method) (sizes : List ℕ) (f : Functor m)
    (junk : ℕ → Fin m → ℝ) (P : Params) (residuals : Fin m → ℝ) (jacobians : ℕ → Option (ℕ → ℝ))
    (hn : method = .ridders → 0 < o.maxNumRiddersExtrapolations) :
    let res := numericEvaluate o method sizes f junk P residuals (some jacobians)
    (f P = none → res = ⟨false, residuals, jacobians⟩)
      ∧ ∀ r0, f P = some r0 → res.ok = true
        ∧ Quotients o method sizes f P r0 jacobians
          (∀ b < sizes.length, jacobians b ≠ none → Probes f P b (sizes.getD b 0)) res := by
  intro res
  have hres : res = numericEvaluate o method sizes f junk P residuals (some jacobians) := rfl
  unfold numericEvaluate at hres
  refine ⟨fun h => by rw [hres, h]; rfl, fun r0 h => ?_⟩
  rw [h] at hres
  simp only at hres
  obtain ⟨h1, h2, h3, h4⟩ := evaluateBlocks_spec o method f r0 junk P h hn sizes 0 jacobians
  simp only [Nat.zero_add, Nat.sub_zero, Nat.zero_le, true_and] at h1 h2 h3 h4
  rw [hres]
  refine ⟨rfl, rfl, h3, fun hp b hb J hJ j hj => ?_, h4⟩
  cases hv : (evaluateBlocks o method f r0 junk sizes 0 P jacobians).1 with
  | true => exact h1 hv b hb J hJ j hj
  | false =>
    obtain ⟨k, hk, hne, j', hj', t, ht⟩ := h2 hv
    exact absurd ht (hp k hk hne j' hj' t)

/-- **`DynamicNumericDiffCostFunction::Evaluate`.**  A good verdict means right Jacobians; a bad one means
the functor failed, at the point or at a perturbed point. -/
theorem dynamicNumericEvaluate_spec (o : Options) (method : Method) (sizes : List ℕ) (f : Functor m)
    (junk : ℕ → Fin m → ℝ) (P : Params) (residuals : Fin m → ℝ) (jacobians : ℕ → Option (ℕ → ℝ))
    (hn : method = .ridders → 0 < o.maxNumRiddersExtrapolations) :
    let res := dynamicNumericEvaluate o method sizes f junk P residuals (some jacobians)
    (f P = none → res = ⟨false, residuals, jacobians⟩)
      ∧ ∀ r0, f P = some r0 → Quotients o method sizes f P r0 jacobians (res.ok = true) res
        ∧ (res.ok = false → ∃ b < sizes.length, jacobians b ≠ none ∧ ¬ Probes f P b (sizes.getD b 0)) := by
  intro res
  have hres : res = dynamicNumericEvaluate o method sizes f junk P residuals (some jacobians) := rfl
  unfold dynamicNumericEvaluate at hres
  refine ⟨fun h => by rw [hres, h]; rfl, fun r0 h => ?_⟩
  rw [h] at hres
  simp only at hres
  obtain ⟨h1, h2, h3, h4⟩ := evaluateBlocks_spec o method f r0 junk P h hn sizes 0 jacobians
  simp only [Nat.zero_add, Nat.sub_zero, Nat.zero_le, true_and] at h1 h2 h3 h4
  rw [hres]
  refine ⟨⟨rfl, h3, h1, h4⟩, fun hv => ?_⟩
  obtain ⟨k, hk, hne, j', hj', t, ht⟩ := h2 hv
  exact ⟨k, hk, hne, fun hp => hp j' hj' t ht⟩

/-- Without Jacobians only the functor is called. -/
theorem numericEvaluate_no_jacobians (o : Options) (method : Method) (sizes : List ℕ) (f : Functor m)
    (junk : ℕ → Fin m → ℝ) (P : Params) (residuals : Fin m → ℝ) :
    (f P = none → numericEvaluate o method sizes f junk P residuals none
        = ⟨false, residuals, fun _ => none⟩
      ∧ dynamicNumericEvaluate o method sizes f junk P residuals none = ⟨false, residuals, fun _ => none⟩)
    ∧ ∀ r0, f P = some r0 → numericEvaluate o method sizes f junk P residuals none
        = ⟨true, r0, fun _ => none⟩
      ∧ dynamicNumericEvaluate o method sizes f junk P residuals none = ⟨true, r0, fun _ => none⟩ := by
  refine ⟨fun h => ?_, fun r0 h => ?_⟩ <;> simp [numericEvaluate, dynamicNumericEvaluate, h]

/-- **`NumericDiffFirstOrderFunction::Evaluate`.** -/
theorem firstOrderEvaluate_spec (o : Options) (method : Method) (size : ℕ) (f : (ℕ → ℝ) → Option ℝ)
    (junk : ℕ → ℝ) (x : ℕ → ℝ) (cost : ℝ) (g : ℕ → ℝ)
    (hn : method = .ridders → 0 < o.maxNumRiddersExtrapolations) :
    let F : Functor 1 := fun P => (f (P 0)).map fun c _ => c
    let P : Params := fun _ => x
    let res := firstOrderEvaluate o method size f junk x cost (some g)
    (f x = none → res = (false, cost, some g))
      ∧ ∀ c, f x = some c → res.2.1 = c ∧ ∃ J, res.2.2 = some J
        ∧ (res.1 = true → ∀ j < size, ∃ d, IsQuotient o method F P 0 j d ∧ J j = d 0)
        ∧ (res.1 = false → ¬ Probes F P 0 size)
        ∧ ∀ q, ¬ q < size → J q = g q := by
  intro F P res
  have hres : res = firstOrderEvaluate o method size f junk x cost (some g) := rfl
  unfold firstOrderEvaluate at hres
  refine ⟨fun h => by rw [hres, h], fun c h => ?_⟩
  rw [h] at hres
  simp only at hres
  obtain ⟨h1, h2, h3⟩ := evaluateJacobianForParameterBlock_spec o method F 0 size (fun _ => c)
    (fun k _ => junk k) P g (by simp [F, P, h]) hn
  rw [hres]
  refine ⟨rfl, _, rfl, fun hv j hj => ?_, fun hv hp => ?_, fun q hq => h3 q (by simpa using hq)⟩
  · obtain ⟨d, hd, hJ⟩ := (h1 hv).2 j hj
    exact ⟨d, hd, by simpa using hJ 0⟩
  · obtain ⟨j, hj, t, ht⟩ := h2 hv
    exact hp j hj t ht

/-- **Finding.**  `NumericDiffCostFunction::Evaluate` ignores failures at perturbed points: for a functor
defined for arguments at most 1 only, evaluated at 1 by central differences, it reports success and leaves
the Jacobian as it was. -/
theorem numericEvaluate_ignores_failure :
    let f : Functor 1 := fun P => open Classical in if P 0 0 ≤ 1 then some fun _ => P 0 0 else none
    let o : Options := ⟨1, 1, 10, 1, 2, 1, 1⟩
    let res := numericEvaluate o .central [1] f (fun _ _ => 0) (fun _ _ => 1) (fun _ => 0)
      (some fun _ => some fun _ => 7)
    res.ok = true ∧ res.jacobians 0 = some fun _ => 7 := by
  classical
  intro f o res
  have hf : f (fun _ _ => 1) = some fun _ => 1 := by simp [f]
  have hres : res = numericEvaluate o .central [1] f (fun _ _ => 0) (fun _ _ => 1) (fun _ => 0)
      (some fun _ => some fun _ => 7) := rfl
  unfold numericEvaluate at hres
  rw [hf] at hres
  have hstep : stepSize o .central 1 = 1 := by simp [stepSize_eq, o]
  simp only [evaluateBlocks, evaluateJacobianForParameterBlock, blockLoop, hstep] at hres
  have hcol : evaluateJacobianColumn .central f 0 0 1 (fun _ => 1) (fun _ => 1) (fun _ _ => 1) (fun _ => 0)
      = ⟨false, at' (fun _ _ => 1) 0 0 (1 + 1), fun _ => 0⟩ := by
    unfold evaluateJacobianColumn
    simp only [set_eq_at]
    have : f (at' (fun _ _ => 1) 0 0 (1 + 1)) = none := by simp [f, at']
    rw [this]
  simp [hcol] at hres
  rw [hres]
  simp

/-- **Finding.**  With no extrapolations allowed, Ridders' method reports success without evaluating
anything: the Jacobian is whatever was in memory. -/
theorem ridders_no_extrapolations (o : Options) (h : o.maxNumRiddersExtrapolations = 0) (f : Functor m)
    (b j : ℕ) (delta : ℝ) (x : ℕ → ℝ) (r0 : Fin m → ℝ) (junk : ℕ → Fin m → ℝ) (P : Params)
    (residuals : Fin m → ℝ) :
    evaluateRiddersJacobianColumn o f b j delta x r0 junk P residuals = ⟨true, P, residuals⟩ := by
  simp [evaluateRiddersJacobianColumn, h, riddersOuter]

end

end Ceres.NumericDiff
