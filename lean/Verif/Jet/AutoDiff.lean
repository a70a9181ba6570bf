import Verif.Jet.Functor

/-! # `AutoDiffCostFunction`, `AutoDiffFirstOrderFunction`, `AutoDiffManifold`

The residuals are the functor's values and the Jacobians its partial derivatives. -/

namespace Ceres.Jet

noncomputable section

variable {n : ℕ} {sizes : List ℕ}

/-! ## Loops -/

theorem forRange_zero {σ : Type} (s : σ) (body : ℕ → σ → σ) : forRange 0 s body = s := rfl

theorem forRange_succ {σ : Type} (k : ℕ) (s : σ) (body : ℕ → σ → σ) :
    forRange (k + 1) s body = body k (forRange k s body) := by
  simp [forRange, List.range_succ]

theorem forRange_update {α : Type} (k base : ℕ) (f : ℕ → α) (d : ℕ → α) (p : ℕ) :
    forRange k d (fun i d => Function.update d (base + i) (f i)) p
      = if base ≤ p ∧ p < base + k then f (p - base) else d p := by
  induction k with
  | zero => rw [forRange_zero, if_neg (by omega)]
  | succ k ih =>
    rw [forRange_succ, Function.update_apply]
    by_cases h : p = base + k
    · rw [if_pos h, if_pos (by omega)]; congr 1; omega
    · rw [if_neg h, ih]
      by_cases h2 : base ≤ p ∧ p < base + k
      · rw [if_pos h2, if_pos (by omega)]
      · rw [if_neg h2, if_neg (by omega)]

theorem forRange_update0 {α : Type} (k : ℕ) (f : ℕ → α) (d : ℕ → α) (p : ℕ) :
    forRange k d (fun i d => Function.update d i (f i)) p = if p < k then f p else d p := by
  have := forRange_update k 0 f d p
  simpa using this

/-! ## Offsets -/

/-- The position of block `b` in the concatenation of the blocks. -/
def blockOffset (sizes : List ℕ) (b : ℕ) : ℕ := (sizes.take b).sum

theorem exclusiveScan_length (l : List ℕ) : ∀ acc, (exclusiveScan acc l).length = l.length := by
  induction l with
  | nil => intro acc; rfl
  | cons a l ih => intro acc; simp [exclusiveScan, ih]

theorem exclusiveScan_getD (l : List ℕ) : ∀ acc b, b < l.length →
    (exclusiveScan acc l).getD b 0 = acc + (l.take b).sum := by
  induction l with
  | nil => intro acc b h; simp at h
  | cons a l ih =>
    intro acc b h
    cases b with
    | zero => simp [exclusiveScan]
    | succ b =>
      have := ih (acc + a) b (by simpa using h)
      simp only [exclusiveScan, List.getD_cons_succ, this, List.take_succ_cons, List.sum_cons]
      omega

theorem offsets_getD {b : ℕ} (h : b < sizes.length) :
    (exclusiveScan 0 sizes).getD b 0 = blockOffset sizes b := by
  rw [exclusiveScan_getD _ _ _ h, blockOffset, zero_add]

theorem blockOffset_succ {b : ℕ} (h : b < sizes.length) :
    blockOffset sizes (b + 1) = blockOffset sizes b + sizes.getD b 0 := by
  rw [blockOffset, List.take_succ_eq_append_getElem h, List.sum_append, blockOffset]
  simp [List.getD, h]

theorem blockOffset_mono {a b : ℕ} (h : a ≤ b) : blockOffset sizes a ≤ blockOffset sizes b := by
  have : (sizes.take b) = (sizes.take a) ++ ((sizes.take b).drop a) := by
    have := (List.take_append_drop a (sizes.take b)).symm
    rwa [List.take_take, Nat.min_eq_left h] at this
  rw [blockOffset, blockOffset, this, List.sum_append]
  omega

theorem blockOffset_length : blockOffset sizes sizes.length = sizes.sum := by
  simp [blockOffset]

theorem getD_slot (s : Slot sizes) : sizes.getD s.1 0 = sizes.get s.1 := by
  simp [List.getD]

/-- The position of a scalar parameter in the concatenation of the blocks. -/
def flatIndex (s : Slot sizes) : ℕ := blockOffset sizes s.1 + s.2

theorem flatIndex_lt_next (s : Slot sizes) : flatIndex s < blockOffset sizes (s.1 + 1) := by
  rw [blockOffset_succ s.1.2, flatIndex, getD_slot]
  have := s.2.2
  omega

theorem flatIndex_lt (s : Slot sizes) : flatIndex s < sizes.sum := by
  have := flatIndex_lt_next s
  have h2 := blockOffset_mono (sizes := sizes) (Nat.succ_le_of_lt s.1.2)
  rw [blockOffset_length] at h2
  exact lt_of_lt_of_le this h2

theorem flatIndex_inj {s s' : Slot sizes} (h : flatIndex s = flatIndex s') : s = s' := by
  obtain ⟨b, j⟩ := s
  obtain ⟨b', j'⟩ := s'
  have hb : b = b' := by
    by_contra hne
    rcases lt_or_gt_of_ne hne with hl | hl
    · have h1 := flatIndex_lt_next ⟨b, j⟩
      have h2 := blockOffset_mono (sizes := sizes) (Nat.succ_le_of_lt (Fin.lt_def.1 hl))
      simp only [flatIndex] at h h1
      simp only [Nat.succ_eq_add_one] at h2
      omega
    · have h1 := flatIndex_lt_next ⟨b', j'⟩
      have h2 := blockOffset_mono (sizes := sizes) (Nat.succ_le_of_lt (Fin.lt_def.1 hl))
      simp only [flatIndex] at h h1
      simp only [Nat.succ_eq_add_one] at h2
      omega
  subst hb
  have : j = j' := by
    apply Fin.ext
    simp only [flatIndex] at h
    omega
  rw [this]

/-! ## Perturbation -/

theorem perturbations_spec (parameters : ℕ → ℕ → ℝ) (x : ℕ → Jet n) (b j : ℕ)
    (hb : b < sizes.length) (hj : j < sizes.getD b 0) :
    make1stOrderPerturbations sizes parameters x (blockOffset sizes b + j)
      = Jet.seed (parameters b j) (blockOffset sizes b + j) := by
  unfold make1stOrderPerturbations
  have key : ∀ m, m ≤ sizes.length → b < m →
      forRange m x (fun b x => make1stOrderPerturbation (sizes.getD b 0)
        ((exclusiveScan 0 sizes).getD b 0) (parameters b) ((exclusiveScan 0 sizes).getD b 0) x)
          (blockOffset sizes b + j) = Jet.seed (parameters b j) (blockOffset sizes b + j) := by
    intro m
    induction m with
    | zero => intro _ h; omega
    | succ m ih =>
      intro hm hbm
      rw [forRange_succ]
      conv_lhs => rw [make1stOrderPerturbation]
      rw [offsets_getD (by omega)]
      rw [forRange_update]
      by_cases h : b = m
      · subst h
        rw [if_pos ⟨by omega, by omega⟩]
        congr 1 <;> [congr 1; skip] <;> omega
      · have h1 : blockOffset sizes (b + 1) ≤ blockOffset sizes m := blockOffset_mono (by omega)
        rw [blockOffset_succ hb] at h1
        rw [if_neg (by omega)]
        exact ih (by omega) (by omega)
  exact key _ le_rfl hb

/-! ## Extraction -/

theorem take0thOrderPart_spec (m : ℕ) (src : ℕ → Jet n) (dst : ℕ → ℝ) (i : ℕ) :
    take0thOrderPart m src dst i = if i < m then (src i).a else dst i :=
  forRange_update0 m _ dst i

theorem take1stOrderPart_spec (start size m : ℕ) (src : ℕ → Jet n) (dst : ℕ → ℝ) (q : ℕ) :
    take1stOrderPart start size m src dst q
      = if q < size * m then (src (q / size)).part (start + q % size) else dst q := by
  unfold take1stOrderPart
  induction m with
  | zero => rw [forRange_zero, if_neg (by omega)]
  | succ m ih =>
    rw [forRange_succ, forRange_update, ih]
    have hm : size * (m + 1) = size * m + size := by ring
    by_cases h : size * m ≤ q ∧ q < size * m + size
    · rw [if_pos h, if_pos (by omega)]
      have hd : q / size = m := by
        rw [Nat.div_eq_of_lt_le] <;> [nlinarith; nlinarith]
      have hmod : q % size = q - size * m := by
        have := Nat.div_add_mod q size
        rw [hd] at this
        omega
      rw [hd, hmod]
    · rw [if_neg h]
      by_cases h2 : q < size * m
      · rw [if_pos h2, if_pos (by omega)]
      · rw [if_neg h2, if_neg (by omega)]

theorem take1stOrderParts_spec (m : ℕ) (output : ℕ → Jet n) (jacobians : ℕ → Option (ℕ → ℝ))
    (b : ℕ) : take1stOrderParts sizes m output jacobians b
      = if b < sizes.length then (jacobians b).map
          (take1stOrderPart (blockOffset sizes b) (sizes.getD b 0) m output) else jacobians b := by
  unfold take1stOrderParts
  have key : ∀ k, k ≤ sizes.length → ∀ b,
      forRange k jacobians (fun b jacobians =>
        match jacobians b with
        | none => jacobians
        | some dst => Function.update jacobians b
            (some (take1stOrderPart ((exclusiveScan 0 sizes).getD b 0) (sizes.getD b 0) m output dst))) b
      = if b < k then (jacobians b).map
          (take1stOrderPart (blockOffset sizes b) (sizes.getD b 0) m output) else jacobians b := by
    intro k
    induction k with
    | zero => intro _ b; rw [forRange_zero, if_neg (by omega)]
    | succ k ih =>
      intro hk b
      rw [forRange_succ]
      have hkk := ih (by omega) k
      rw [if_neg (by omega)] at hkk
      have ihb := ih (by omega) b
      generalize forRange k jacobians _ = st at hkk ihb ⊢
      rcases hn : st k with _ | dst
      · simp only [hn]
        rw [hkk] at hn
        rw [ihb]
        by_cases hb : b < k
        · rw [if_pos hb, if_pos (by omega)]
        · rw [if_neg hb]
          by_cases hb2 : b = k
          · subst hb2; rw [if_pos (by omega), hn]; rfl
          · rw [if_neg (by omega)]
      · simp only [hn]
        rw [hkk] at hn
        rw [Function.update_apply]
        by_cases hb2 : b = k
        · subst hb2
          rw [if_pos rfl, if_pos (by omega), hn, offsets_getD (by omega)]; rfl
        · rw [if_neg hb2, ihb]
          by_cases hb : b < k
          · rw [if_pos hb, if_pos (by omega)]
          · rw [if_neg hb, if_neg (by omega)]
  exact key _ le_rfl b

theorem asArray_map {α β : Type} (f : α → β) (l : List α) (d : β) (i : ℕ) (h : i < l.length) :
    asArray d (l.map f) i = f l[i] := by
  simp [asArray, h]

theorem part_eq (j : Jet n) (k : Fin n) : j.part k = j.v k := by
  simp [Jet.part]

/-! ## Functors -/

/-- On jets, a functor succeeds exactly when it succeeds on the scalar parts. -/
theorem Functor.jet_eq (nan inf : ℝ) (fn : Functor sizes) (x : Slot sizes → Jet n) :
    fn.jet nan inf x = (fn.real fun s => (x s).a).map fun _ => fn.out.map (Expr.jet nan inf x) := by
  unfold Functor.jet Functor.real
  by_cases h : ∀ c ∈ fn.checks, c.1.holds (c.2.1.real fun s => (x s).a) (c.2.2.real fun s => (x s).a)
  · rw [if_pos (by simpa only [Expr.jet_value] using h), if_pos h]; rfl
  · rw [if_neg (by simpa only [Expr.jet_value] using h), if_neg h]; rfl

theorem Functor.real_length {fn : Functor sizes} {x : Slot sizes → ℝ} {r : List ℝ}
    (h : fn.real x = some r) : r = fn.out.map (Expr.real x) := by
  unfold Functor.real at h
  split_ifs at h
  exact (Option.some.inj h).symm

/-- The caller's parameters as the inputs of the functor. -/
def inputs (sizes : List ℕ) (parameters : ℕ → ℕ → ℝ) : Slot sizes → ℝ := fun s => parameters s.1 s.2

/-- The specification of an evaluation with Jacobians.  The evaluation succeeds exactly when the functor
does on the given parameters, and leaves the buffers alone if it fails.  On success the residuals are the
functor's outputs; every Jacobian asked for is the row major matrix of partial derivatives of the
outputs with respect to its parameter block; nothing else is written. -/
structure Differentiates (fn : Functor sizes) (parameters : ℕ → ℕ → ℝ) (residuals : ℕ → ℝ)
    (jacobians : ℕ → Option (ℕ → ℝ)) (res : Result) : Prop where
  fails : fn.real (inputs sizes parameters) = none → res = ⟨false, residuals, jacobians⟩
  succeeds : fn.real (inputs sizes parameters) ≠ none → res.ok = true
  residual : fn.real (inputs sizes parameters) ≠ none → ∀ i, res.residuals i =
    if h : i < fn.out.length then (fn.out[i]).real (inputs sizes parameters) else residuals i
  null : ∀ b, (res.jacobians b = none ↔ jacobians b = none)
  jacobian : fn.real (inputs sizes parameters) ≠ none → ∀ (s : Slot sizes) (J : ℕ → ℝ),
    res.jacobians s.1 = some J → ∀ (i : ℕ) (h : i < fn.out.length),
    HasDerivAt (fun y => (fn.out[i]).real (Function.update (inputs sizes parameters) s y))
      (J (sizes.getD s.1 0 * i + s.2)) (parameters s.1 s.2)
  untouched : ∀ (b : ℕ) (J J' : ℕ → ℝ), jacobians b = some J → res.jacobians b = some J' → ∀ q,
    (¬ b < sizes.length ∨ ¬ q < sizes.getD b 0 * fn.out.length) → J' q = J q

/-- `AutoDifferentiate` differentiates. -/
theorem autoDifferentiate_spec (nan inf : ℝ) (fn : Functor sizes) (parameters : ℕ → ℕ → ℝ)
    (residuals : ℕ → ℝ) (jacobians : ℕ → Option (ℕ → ℝ))
    (hreg : ∀ e ∈ fn.out, e.Regular (fun y : Slot sizes → ℝ => y) (inputs sizes parameters)) :
    Differentiates fn parameters residuals jacobians
      (autoDifferentiate nan inf fn parameters residuals jacobians) := by
  classical
  set x := inputs sizes parameters with hx
  let idx : Slot sizes → Option (Fin sizes.sum) := fun s => some ⟨flatIndex s, flatIndex_lt s⟩
  have hun : (fun s : Slot sizes => make1stOrderPerturbations sizes parameters
      (fun _ => Jet.const 0 (n := sizes.sum)) ((exclusiveScan 0 sizes).getD s.1 0 + s.2))
        = seeded x idx := by
    funext s
    rw [offsets_getD s.1.2, perturbations_spec parameters _ s.1 s.2 s.1.2 (by rw [getD_slot]; exact s.2.2)]
    refine Jet.ext rfl (funext fun k => ?_)
    simp only [Jet.seed, seeded, idx, Option.some.injEq]
    congr 1
    rw [Fin.ext_iff]
    exact propext eq_comm
  have hxa : (fun s => (seeded x idx s).a) = x := rfl
  have hauto : autoDifferentiate nan inf fn parameters residuals jacobians
      = match fn.real x with
        | none => ⟨false, residuals, jacobians⟩
        | some _ => ⟨true, take0thOrderPart fn.out.length
            (asArray (Jet.const 0) (fn.out.map (Expr.jet nan inf (seeded x idx)))) residuals,
          take1stOrderParts sizes fn.out.length
            (asArray (Jet.const 0) (fn.out.map (Expr.jet nan inf (seeded x idx)))) jacobians⟩ := by
    unfold autoDifferentiate
    simp only
    rw [hun, Functor.jet_eq, hxa]
    cases fn.real x <;> rfl
  rw [hauto]
  cases hr : fn.real x with
  | none =>
    exact ⟨fun _ => rfl, fun h => absurd hr h, fun h => absurd hr h, fun b => Iff.rfl,
      fun h => absurd hr h, fun b J J' h h' q _ => by
        simp only at h'
        rw [h] at h'
        cases h'
        rfl⟩
  | some r =>
    refine ⟨fun h => (by rw [hr] at h; cases h), fun _ => rfl, fun _ i => ?_, fun b => ?_,
      fun _ s J hJ i hi => ?_, fun b J J' hJ hJ' q hq => ?_⟩
    · simp only
      rw [take0thOrderPart_spec]
      by_cases h : i < fn.out.length
      · rw [if_pos h, dif_pos h, asArray_map _ _ _ _ h, Expr.jet_value, hxa]
      · rw [if_neg h, dif_neg h]
    · simp only
      rw [take1stOrderParts_spec]
      split_ifs <;> simp
    · simp only at hJ
      rw [take1stOrderParts_spec, if_pos s.1.2] at hJ
      obtain ⟨dst, hd, hJ⟩ := Option.map_eq_some_iff.1 hJ
      subst hJ
      have hj : (s.2 : ℕ) < sizes.getD s.1 0 := by rw [getD_slot]; exact s.2.2
      have hpos : 0 < sizes.getD s.1 0 := by omega
      have hlt : sizes.getD s.1 0 * i + s.2 < sizes.getD s.1 0 * fn.out.length := by
        have : sizes.getD s.1 0 * (i + 1) ≤ sizes.getD s.1 0 * fn.out.length :=
          Nat.mul_le_mul_left _ hi
        rw [Nat.mul_succ] at this
        omega
      rw [take1stOrderPart_spec, if_pos hlt, Nat.mul_add_div hpos, Nat.div_eq_of_lt hj, add_zero,
        Nat.mul_add_mod, Nat.mod_eq_of_lt hj, asArray_map _ _ _ _ hi]
      have := Expr.seeded_deriv nan inf x idx (fun p q k hp hq => by
        simp only [idx, Option.some.injEq, Fin.ext_iff] at hp hq
        exact flatIndex_inj (hp.trans hq.symm)) fn.out[i] (hreg _ (List.getElem_mem hi)) s
          ⟨flatIndex s, flatIndex_lt s⟩ rfl
      rw [← part_eq] at this
      exact this
    · simp only at hJ'
      rw [take1stOrderParts_spec, hJ] at hJ'
      by_cases hb : b < sizes.length
      · rw [if_pos hb] at hJ'
        simp only [Option.map_some, Option.some.injEq] at hJ'
        rw [← hJ', take1stOrderPart_spec, if_neg (by tauto)]
      · rw [if_neg hb] at hJ'
        simp only [Option.some.injEq] at hJ'
        rw [hJ']

/-- The evaluation without Jacobians gives the same verdict and residuals. -/
theorem evaluateReals_spec (fn : Functor sizes) (parameters : ℕ → ℕ → ℝ) (residuals : ℕ → ℝ)
    (jacobians : ℕ → Option (ℕ → ℝ)) :
    let res := evaluateReals fn parameters residuals jacobians
    (fn.real (inputs sizes parameters) = none → res = ⟨false, residuals, jacobians⟩)
      ∧ (fn.real (inputs sizes parameters) ≠ none → res.ok = true ∧ ∀ i, res.residuals i =
          if h : i < fn.out.length then (fn.out[i]).real (inputs sizes parameters) else residuals i)
      ∧ res.jacobians = jacobians := by
  intro res
  have : res = match fn.real (inputs sizes parameters) with
      | none => ⟨false, residuals, jacobians⟩
      | some output => ⟨true, forRange fn.out.length residuals fun i r =>
          Function.update r i (asArray 0 output i), jacobians⟩ := rfl
  cases hr : fn.real (inputs sizes parameters) with
  | none => rw [hr] at this; exact ⟨fun _ => this, fun h => absurd rfl h, by rw [this]⟩
  | some r =>
    rw [hr] at this
    refine ⟨fun h => (by cases h), fun _ => ⟨(by rw [this]), fun i => ?_⟩, (by rw [this])⟩
    rw [this]
    simp only
    rw [forRange_update0]
    by_cases h : i < fn.out.length
    · rw [if_pos h, dif_pos h, Functor.real_length hr, asArray_map _ _ _ _ h]
    · rw [if_neg h, dif_neg h]

/-- `AutoDiffCostFunction::Evaluate`, for a functor that is differentiable at the parameters, every
choice of Jacobians and every contents of the buffers. -/
theorem autoDiffEvaluate_spec (nan inf : ℝ) (fn : Functor sizes) (parameters : ℕ → ℕ → ℝ)
    (residuals : ℕ → ℝ) (jacobians : ℕ → Option (ℕ → ℝ))
    (hreg : ∀ e ∈ fn.out, e.Regular (fun y : Slot sizes → ℝ => y) (inputs sizes parameters)) :
    Differentiates fn parameters residuals jacobians
      (autoDiffEvaluate nan inf fn parameters residuals (some jacobians)) :=
  autoDifferentiate_spec nan inf fn parameters residuals jacobians hreg

/-- Asking for Jacobians does not change the verdict or the residuals, differentiable or not. -/
theorem autoDiffEvaluate_same_residuals (nan inf : ℝ) (fn : Functor sizes) (parameters : ℕ → ℕ → ℝ)
    (residuals : ℕ → ℝ) (jacobians : ℕ → Option (ℕ → ℝ)) :
    (autoDiffEvaluate nan inf fn parameters residuals (some jacobians)).ok
        = (autoDiffEvaluate nan inf fn parameters residuals none).ok
      ∧ (autoDiffEvaluate nan inf fn parameters residuals (some jacobians)).residuals
        = (autoDiffEvaluate nan inf fn parameters residuals none).residuals := by
  have h := evaluateReals_spec fn parameters residuals fun _ => none
  simp only at h
  simp only [autoDiffEvaluate]
  unfold autoDifferentiate
  simp only
  rw [Functor.jet_eq]
  have hv : (fun s : Slot sizes => (make1stOrderPerturbations sizes parameters
      (fun _ => Jet.const 0 (n := sizes.sum)) ((exclusiveScan 0 sizes).getD s.1 0 + s.2)).a)
        = inputs sizes parameters := by
    funext s
    rw [offsets_getD s.1.2, perturbations_spec parameters _ s.1 s.2 s.1.2 (by rw [getD_slot]; exact s.2.2)]
    rfl
  rw [hv]
  cases hr : fn.real (inputs sizes parameters) with
  | none =>
    rw [h.1 hr]
    exact ⟨rfl, rfl⟩
  | some r =>
    have h2 := h.2.1 (by rw [hr]; simp)
    refine ⟨h2.1.symm, funext fun i => ?_⟩
    rw [h2.2 i]
    simp only [Option.map_some]
    rw [take0thOrderPart_spec]
    by_cases hi : i < fn.out.length
    · rw [if_pos hi, dif_pos hi, asArray_map _ _ _ _ hi, Expr.jet_value, hv]
    · rw [if_neg hi, dif_neg hi]

/-! ## First order functions -/

/-- `AutoDiffFirstOrderFunction::Evaluate` returns the value and the gradient. -/
theorem firstOrderEvaluate_spec (nan inf : ℝ) (k : ℕ)
    (checks : List (Cmp × Expr (Fin k) × Expr (Fin k))) (cost : Expr (Fin k)) (parameters : ℕ → ℝ)
    (gradient : ℕ → ℝ) (hreg : cost.Regular (fun y : Fin k → ℝ => y) fun i => parameters i) :
    let x : Fin k → ℝ := fun i => parameters i
    ((∀ c ∈ checks, c.1.holds (c.2.1.real x) (c.2.2.real x)) →
      ∃ g, firstOrderEvaluate nan inf k checks cost parameters (some gradient)
          = some (cost.real x, some g)
        ∧ (∀ i : Fin k, HasDerivAt (fun y => cost.real (Function.update x i y)) (g i) (x i))
        ∧ ∀ i, k ≤ i → g i = gradient i)
      ∧ ((∀ c ∈ checks, c.1.holds (c.2.1.real x) (c.2.2.real x)) →
          firstOrderEvaluate nan inf k checks cost parameters none = some (cost.real x, none))
      ∧ (¬ (∀ c ∈ checks, c.1.holds (c.2.1.real x) (c.2.2.real x)) → ∀ gr,
          firstOrderEvaluate nan inf k checks cost parameters gr = none) := by
  classical
  intro x
  let idx : Fin k → Option (Fin k) := some
  have hbuf : (fun i : Fin k => forRange k (fun _ => (Jet.const 0 : Jet k)) (fun i x =>
      Function.update x i ⟨parameters i, Function.update (fun _ => (0 : ℝ)) i 1 ∘ Fin.val⟩) i)
        = seeded x idx := by
    funext i
    rw [forRange_update0, if_pos i.2]
    refine Jet.ext rfl (funext fun j => ?_)
    simp only [seeded, idx, Function.comp_apply, Function.update_apply, Option.some.injEq]
    congr 1
    rw [Fin.ext_iff]
    exact propext eq_comm
  have hxa : (fun i => (seeded x idx i).a) = x := rfl
  have hg : firstOrderEvaluate nan inf k checks cost parameters (some gradient)
      = if ∀ c ∈ checks, c.1.holds (c.2.1.real x) (c.2.2.real x) then
          some (cost.real x, some (forRange k gradient fun i g =>
            Function.update g i ((cost.jet nan inf (seeded x idx)).part i))) else none := by
    unfold firstOrderEvaluate
    simp only
    rw [hbuf]
    simp only [Expr.jet_value, hxa]
  refine ⟨fun hc => ?_, fun hc => ?_, fun hc gr => ?_⟩
  · rw [hg, if_pos hc]
    refine ⟨_, rfl, fun i => ?_, fun i hi => ?_⟩
    · rw [forRange_update0, if_pos i.2, part_eq]
      exact Expr.seeded_deriv nan inf x idx (fun p q j hp hq => by
        simp only [idx, Option.some.injEq] at hp hq
        rw [hp, hq]) cost hreg i i rfl
    · rw [forRange_update0, if_neg (by omega)]
  · unfold firstOrderEvaluate
    simp only
    rw [if_pos hc]
  · cases gr with
    | none => unfold firstOrderEvaluate; simp only; rw [if_neg hc]
    | some gr =>
      unfold firstOrderEvaluate
      simp only
      rw [hbuf]
      simp only [Expr.jet_value, hxa]
      rw [if_neg hc]

/-! ## Manifolds -/

/-- `AutoDiffManifold::PlusJacobian` is the derivative of `Plus(x, delta)` with respect to `delta` at
zero, row major with one row per ambient coordinate. -/
theorem autoDiffPlusJacobian_spec (nan inf : ℝ) {ambient tangent : ℕ}
    (plus : Functor [ambient, tangent]) (x jacobian : ℕ → ℝ)
    (hreg : ∀ e ∈ plus.out, e.Regular (fun y : Slot [ambient, tangent] → ℝ => y)
      (inputs [ambient, tangent] fun b => if b = 0 then x else fun _ => 0))
    (hok : plus.real (inputs [ambient, tangent] fun b => if b = 0 then x else fun _ => 0) ≠ none) :
    ∃ J, (autoDiffPlusJacobian nan inf plus x jacobian).ok = true
      ∧ (autoDiffPlusJacobian nan inf plus x jacobian).jacobians 1 = some J
      ∧ ∀ (i : ℕ) (hi : i < plus.out.length) (j : Fin tangent),
        HasDerivAt (fun y => (plus.out[i]).real (Function.update
            (inputs [ambient, tangent] fun b => if b = 0 then x else fun _ => 0) ⟨1, j⟩ y))
          (J (tangent * i + j)) 0 := by
  have h := autoDifferentiate_spec nan inf plus (fun b => if b = 0 then x else fun _ => 0)
    (fun _ => 0) (fun b => if b = 1 then some jacobian else none) hreg
  have hn := (h.null 1).not.2 (by simp)
  obtain ⟨J, hJ⟩ := Option.ne_none_iff_exists'.1 hn
  refine ⟨J, h.succeeds hok, hJ, fun i hi j => ?_⟩
  exact h.jacobian hok ⟨1, j⟩ J hJ i hi

/-- `AutoDiffManifold::MinusJacobian` is the derivative of `Minus(y, x)` with respect to `y` at `x`. -/
theorem autoDiffMinusJacobian_spec (nan inf : ℝ) {ambient : ℕ}
    (minus : Functor [ambient, ambient]) (x jacobian : ℕ → ℝ)
    (hreg : ∀ e ∈ minus.out, e.Regular (fun y : Slot [ambient, ambient] → ℝ => y)
      (inputs [ambient, ambient] fun _ => x))
    (hok : minus.real (inputs [ambient, ambient] fun _ => x) ≠ none) :
    ∃ J, (autoDiffMinusJacobian nan inf minus x jacobian).ok = true
      ∧ (autoDiffMinusJacobian nan inf minus x jacobian).jacobians 0 = some J
      ∧ ∀ (i : ℕ) (hi : i < minus.out.length) (j : Fin ambient),
        HasDerivAt (fun y => (minus.out[i]).real (Function.update
            (inputs [ambient, ambient] fun _ => x) ⟨0, j⟩ y)) (J (ambient * i + j)) (x j) := by
  have h := autoDifferentiate_spec nan inf minus (fun _ => x)
    (fun _ => 0) (fun b => if b = 0 then some jacobian else none) hreg
  have hn := (h.null 0).not.2 (by simp)
  obtain ⟨J, hJ⟩ := Option.ne_none_iff_exists'.1 hn
  refine ⟨J, h.succeeds hok, hJ, fun i hi j => ?_⟩
  exact h.jacobian hok ⟨0, j⟩ J hJ i hi

end

end Ceres.Jet
