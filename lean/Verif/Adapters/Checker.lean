import Verif.Adapters.Spec
import Verif.NumericDiff.Exact
import Mathlib.Analysis.Calculus.Deriv.Pi
import Mathlib.Tactic.Ring
import Mathlib.Tactic.Linarith

/-!
# C81: GradientChecker and GradientCheckingCostFunction
-/
namespace Ceres.Adapters

open Ceres.NumericDiff (Params at')

noncomputable section

/-! ## Specification -/

/-- One call of the cost function that asks for everything. -/
def full (c : CostFunction) (p : Params) : Out :=
  c.evaluate p (fun _ => 0) (some fun i => if i < c.sizes.length then some fun _ => 0 else none)

/-- Entry `(r, k)` of the Jacobian of block `i` after that call. -/
def entry (c : CostFunction) (p : Params) (r i k : ℕ) : ℝ :=
  (((full c p).jacobians.getD fun _ => none) i).getD (fun _ => 0) (r * c.sizes.getD i 0 + k)

/-- The derivative in direction `k` of the tangent space of block `i`: the Jacobian times that of `Plus`. -/
def tangent (M : Option Mfld) (junk x : ℕ → ℝ) (D : ℕ → ℝ) (k : ℕ) : ℝ :=
  match M with
  | none => D k
  | some M => ∑ a ∈ Finset.range M.ambient, D a * M.plusJacobian x junk (a * M.tangent + k)

/-- The dimension of the tangent space. -/
def tangentSize (M : Option Mfld) (size : ℕ) : ℕ :=
  match M with
  | none => size
  | some M => M.tangent

/-- The error reported for a pair of numbers. -/
def relativeError (x y : ℝ) : ℝ := if x = 0 ∨ y = 0 then |x - y| else |x - y| / max |x| |y|

/-- The manifolds have the sizes of the blocks. -/
def Fits (c : CostFunction) (manifolds : ℕ → Option Mfld) : Prop :=
  ∀ i < c.sizes.length, ∀ M, manifolds i = some M → c.sizes.getD i 0 = M.ambient

/-! ## IsClose -/

/-- **IsClose** compares as documented. -/
theorem isClose_spec (x y e : ℝ) :
    ((isClose x y e).1 = true ↔ Close x y e) ∧ (isClose x y e).2.1 = relativeError x y ∧
      (isClose x y e).2.2 = |x - y| := by
  refine ⟨?_, rfl, rfl⟩
  unfold isClose Close
  simp only [decide_eq_true_eq]
  split_ifs with h
  · rfl
  · push Not at h
    have : 0 < max |x| |y| := lt_max_of_lt_left (abs_pos.2 h.1)
    rw [div_lt_iff₀ this]

theorem close_self {e : ℝ} (he : e ≠ 0) (x : ℝ) : Close x x e := by
  have := abs_pos.2 he
  unfold Close
  split_ifs with h
  · simpa using this
  · push Not at h
    rw [sub_self, abs_zero, max_self]
    exact mul_pos this (abs_pos.2 h.1)

/-! ## The loop over the entries -/

theorem compareLoop_spec (L L' : ℕ → Mat) (e : ℝ) (es : List (ℕ × ℕ × ℕ)) (s : ℕ × ℝ) :
    (s.1 ≤ (compareLoop L L' e es s).1) ∧
    ((compareLoop L L' e es s).1 = s.1 ↔ ∀ q ∈ es, Close (L q.1 q.2.1 q.2.2) (L' q.1 q.2.1 q.2.2) e) ∧
    s.2 ≤ (compareLoop L L' e es s).2 ∧
    (∀ q ∈ es, relativeError (L q.1 q.2.1 q.2.2) (L' q.1 q.2.1 q.2.2) ≤ (compareLoop L L' e es s).2) ∧
    ((compareLoop L L' e es s).2 = s.2 ∨
      ∃ q ∈ es, (compareLoop L L' e es s).2 = relativeError (L q.1 q.2.1 q.2.2) (L' q.1 q.2.1 q.2.2)) := by
  induction es generalizing s with
  | nil => simp [compareLoop]
  | cons q es ih =>
    obtain ⟨k, i, j⟩ := q
    obtain ⟨c1, c2, -⟩ := isClose_spec (L k i j) (L' k i j) e
    simp only [compareLoop]
    set s' : ℕ × ℝ := (if (isClose (L k i j) (L' k i j) e).1 = true then s.1 else s.1 + 1,
      if s.2 < (isClose (L k i j) (L' k i j) e).2.1 then (isClose (L k i j) (L' k i j) e).2.1 else s.2) with hs'
    obtain ⟨h1, h2, h3, h4, h5⟩ := ih s'
    have e1 : s'.1 = if (isClose (L k i j) (L' k i j) e).1 = true then s.1 else s.1 + 1 := rfl
    have e2 : s'.2 = if s.2 < relativeError (L k i j) (L' k i j) then relativeError (L k i j) (L' k i j) else s.2 := by
      rw [← c2]
    refine ⟨?_, ?_, ?_, ?_, ?_⟩
    · split_ifs at e1 <;> omega
    · simp only [List.mem_cons, forall_eq_or_imp]
      rw [← h2, ← c1]
      split_ifs at e1 with hc
      · rw [e1]; simp [hc]
      · simp only [hc]
        constructor
        · intro h; omega
        · rintro ⟨h, -⟩; exact absurd h (by simp)
    · refine le_trans ?_ h3
      rw [e2]; split_ifs with h
      · exact h.le
      · exact le_rfl
    · simp only [List.mem_cons, forall_eq_or_imp]
      refine ⟨le_trans ?_ h3, h4⟩
      rw [e2]; split_ifs with h
      · exact le_rfl
      · exact not_lt.1 h
    · rcases h5 with h5 | ⟨q, hq, h5⟩
      · rw [h5, e2]
        split_ifs with h
        · exact Or.inr ⟨(k, i, j), by simp, rfl⟩
        · exact Or.inl rfl
      · exact Or.inr ⟨q, by simp [hq], h5⟩

theorem mem_entries {b n : ℕ} {cols : ℕ → ℕ} {q : ℕ × ℕ × ℕ} :
    q ∈ entries b n cols ↔ q.1 < b ∧ q.2.1 < n ∧ q.2.2 < cols q.1 := by
  obtain ⟨k, i, j⟩ := q
  simp only [entries, List.mem_flatMap, List.mem_range, List.mem_map, Prod.mk.injEq]
  constructor
  · rintro ⟨k', h1, i', h2, j', h3, rfl, rfl, rfl⟩; exact ⟨h1, h2, h3⟩
  · rintro ⟨h1, h2, h3⟩; exact ⟨k, h1, i, h2, j, h3, rfl, rfl, rfl⟩

/-! ## EvaluateCostFunction and Probe -/

theorem toLocal_spec {size : ℕ} {M : Option Mfld} (h : ∀ M', M = some M' → size = M'.ambient) (x junk J : ℕ → ℝ) :
    toLocal size M x junk J = some (tangentSize M size, fun r => tangent M junk x fun k => J (r * size + k)) := by
  cases M with
  | none => rfl
  | some M => simp only [toLocal, if_pos (h M rfl)]; rfl

theorem evaluateCostFunction_spec {c : CostFunction} (hn : c.numResiduals ≠ 0) {manifolds : ℕ → Option Mfld}
    (hM : Fits c manifolds) (junk : ℕ → ℝ) (p : Params) :
    ∃ a, evaluateCostFunction c manifolds junk p = some a ∧ a.ok = (full c p).ok ∧
      a.residuals = (full c p).residuals ∧
      (a.jacobians = fun i => (((full c p).jacobians.getD fun _ => none) i).getD fun _ => 0) ∧
      (a.ok = true → ∀ i < c.sizes.length, a.localCols i = tangentSize (manifolds i) (c.sizes.getD i 0) ∧
        ∀ r k, a.localJacobians i r k = tangent (manifolds i) junk (p i) (fun k => entry c p r i k) k) := by
  unfold evaluateCostFunction
  rw [if_neg hn]
  have hl := fun i (hi : i < c.sizes.length) (J : ℕ → ℝ) => toLocal_spec (hM i hi) (p i) junk J
  change ∃ a, (if (full c p).ok = true then _ else _) = some a ∧ _
  by_cases hok : (full c p).ok = true
  · rw [if_pos hok, if_pos (fun i hi => by rw [hl i hi]; rfl)]
    refine ⟨_, rfl, hok.symm, rfl, rfl, fun _ i hi => ?_⟩
    simp only
    rw [hl i hi]
    exact ⟨rfl, fun r k => rfl⟩
  · rw [if_neg hok]
    exact ⟨_, rfl, by simpa using hok, rfl, rfl, fun h => by simp at h⟩

/-- **GradientChecker::Probe** succeeds exactly if both functions evaluate, the residuals are close, and so are all
entries of the Jacobians in the tangent spaces; it reports what the cost function returned and, if it comes to
comparing the Jacobians, the largest relative error. -/
theorem probe_spec {c n : CostFunction} (hs : n.sizes = c.sizes) (hr : n.numResiduals = c.numResiduals)
    (hn : c.numResiduals ≠ 0) {manifolds : ℕ → Option Mfld} (hM : Fits c manifolds) (junk : ℕ → ℝ) (e : ℝ)
    (p : Params) :
    ∃ b res, probe c n manifolds junk e p = some (b, res) ∧
      (res.returnValue = true ↔ (full c p).ok = true ∧ (full n p).ok = true) ∧
      (b = true ↔ ((full c p).ok = true ∧ (full n p).ok = true) ∧
        (∀ r < c.numResiduals, Close ((full c p).residuals r) ((full n p).residuals r) e) ∧
        ∀ i < c.sizes.length, ∀ r < c.numResiduals, ∀ k < tangentSize (manifolds i) (c.sizes.getD i 0),
          Close (tangent (manifolds i) junk (p i) (fun k => entry c p r i k) k)
            (tangent (manifolds i) junk (p i) (fun k => entry n p r i k) k) e) ∧
      res.residuals = (full c p).residuals ∧
      (∀ i r k, res.jacobians i (r * c.sizes.getD i 0 + k) = entry c p r i k) ∧
      (∀ i r k, res.numericJacobians i (r * c.sizes.getD i 0 + k) = entry n p r i k) ∧
      (res.returnValue = true → ∀ i < c.sizes.length, ∀ r k,
        res.localJacobians i r k = tangent (manifolds i) junk (p i) (fun k => entry c p r i k) k ∧
        res.localNumericJacobians i r k = tangent (manifolds i) junk (p i) (fun k => entry n p r i k) k) ∧
      (res.returnValue = true →
        (∀ r < c.numResiduals, Close ((full c p).residuals r) ((full n p).residuals r) e) →
        (∀ i < c.sizes.length, ∀ r < c.numResiduals, ∀ k < tangentSize (manifolds i) (c.sizes.getD i 0),
          relativeError (res.localJacobians i r k) (res.localNumericJacobians i r k) ≤ res.maximumRelativeError) ∧
        (res.maximumRelativeError = 0 ∨ ∃ i < c.sizes.length, ∃ r < c.numResiduals,
          ∃ k < tangentSize (manifolds i) (c.sizes.getD i 0),
            res.maximumRelativeError = relativeError (res.localJacobians i r k) (res.localNumericJacobians i r k))) := by
  obtain ⟨a, ha, a1, a2, a3, a4⟩ := evaluateCostFunction_spec hn hM junk p
  obtain ⟨b, hb, b1, b2, b3, b4⟩ := evaluateCostFunction_spec (c := n) (hr ▸ hn) (manifolds := manifolds)
    (fun i hi M h => by rw [hs] at hi ⊢; exact hM i hi M h) junk p
  rw [hs] at b4
  have hj : ∀ i r k, a.jacobians i (r * c.sizes.getD i 0 + k) = entry c p r i k := fun i r k => by rw [a3]; rfl
  have hj' : ∀ i r k, b.jacobians i (r * c.sizes.getD i 0 + k) = entry n p r i k := fun i r k => by
    rw [b3, ← hs]; rfl
  have hres : ((List.range c.numResiduals).all fun i => (isClose (a.residuals i) (b.residuals i) e).1) = true ↔
      ∀ r < c.numResiduals, Close ((full c p).residuals r) ((full n p).residuals r) e := by
    simp only [List.all_eq_true, List.mem_range, (isClose_spec _ _ e).1, a2, b2]
  have hboth : (a.ok && b.ok) = true ↔ (full c p).ok = true ∧ (full n p).ok = true := by
    rw [Bool.and_eq_true, a1, b1]
  unfold probe
  rw [ha, hb]
  simp only [Option.bind_eq_bind, Option.bind_some]
  by_cases hok : (a.ok && b.ok) = true
  · have hok' := hboth.1 hok
    have hao : a.ok = true := by rw [a1]; exact hok'.1
    have hbo : b.ok = true := by rw [b1]; exact hok'.2
    rw [if_pos hok]
    by_cases hc : ((List.range c.numResiduals).all fun i => (isClose (a.residuals i) (b.residuals i) e).1) = true
    · rw [if_pos hc]
      obtain ⟨-, h2, -, h4, h5⟩ := compareLoop_spec a.localJacobians b.localJacobians e
        (entries c.sizes.length c.numResiduals a.localCols) (0, 0)
      refine ⟨_, _, rfl, hboth, ?_, a2, hj, hj', fun _ i hi r k =>
        ⟨(a4 hao i hi).2 r k, (b4 hbo i hi).2 r k⟩, fun _ _ => ⟨fun i hi r hr k hk => ?_, ?_⟩⟩
      · rw [decide_eq_true_eq, h2]
        constructor
        · refine fun h => ⟨hok', hres.1 hc, fun i hi r hr k hk => ?_⟩
          have := h (i, r, k) (mem_entries.2 ⟨hi, hr, by rw [(a4 hao i hi).1]; exact hk⟩)
          rwa [(a4 hao i hi).2, (b4 hbo i hi).2] at this
        · rintro ⟨-, -, h⟩ ⟨i, r, k⟩ hq
          obtain ⟨hi, hr, hk⟩ := mem_entries.1 hq
          simp only at hi hr hk ⊢
          rw [(a4 hao i hi).1] at hk
          rw [(a4 hao i hi).2, (b4 hbo i hi).2]
          exact h i hi r hr k hk
      · exact h4 (i, r, k) (mem_entries.2 ⟨hi, hr, by rw [(a4 hao i hi).1]; exact hk⟩)
      · rcases h5 with h5 | ⟨⟨i, r, k⟩, hq, h5⟩
        · exact Or.inl h5
        · obtain ⟨hi, hr, hk⟩ := mem_entries.1 hq
          simp only at hi hr hk
          rw [(a4 hao i hi).1] at hk
          exact Or.inr ⟨i, hi, r, hr, k, hk, h5⟩
    · rw [if_neg hc]
      refine ⟨_, _, rfl, hboth, ⟨fun h => absurd h (by simp), fun h => absurd (hres.2 h.2.1) hc⟩, a2, hj, hj',
        fun _ i hi r k => ⟨(a4 hao i hi).2 r k, (b4 hbo i hi).2 r k⟩, fun _ h => absurd (hres.2 h) hc⟩
  · rw [if_neg hok]
    exact ⟨_, _, rfl, hboth, ⟨fun h => absurd h (by simp), fun h => absurd (hboth.2 h.1) hok⟩, a2, hj, hj',
      fun h => absurd h hok, fun h => absurd h hok⟩

/-! ## With numeric differentiation -/

/-- The partial derivatives. -/
theorem IsJacobian.partial {sizes : List ℕ} {n : ℕ} {f : Params → ℕ → ℝ} {D : ℕ → ℕ → ℕ → ℝ} {p : Params}
    (h : IsJacobian sizes n f D p) (hf : ∀ p p' r, Agree sizes p p' → f p r = f p' r) {r i j : ℕ} (hr : r < n)
    (hi : i < sizes.length) (hj : j < sizes.getD i 0) :
    HasDerivAt (fun t => f (at' p i j t) r) (D r i j) (p i j) := by
  set s : Coord sizes := ⟨⟨i, hi⟩, ⟨j, hj⟩⟩ with hs
  have hu : HasDerivAt (Function.update (ofParams sizes p) s) (Pi.single s 1) (p i j) := hasDerivAt_update _ _ _
  have hp : Function.update (ofParams sizes p) s (p i j) = ofParams sizes p := by
    rw [Function.update_eq_self_iff]; rfl
  have h1 := h r hr
  rw [← hp] at h1
  have h2 := h1.comp_hasDerivAt (p i j) hu
  have e : (fun t => f (at' p i j t) r) =
      (fun x : Coord sizes → ℝ => f (toParams x) r) ∘ Function.update (ofParams sizes p) s := by
    funext t
    refine hf _ _ r fun i' hi' j' hj' => ?_
    unfold toParams at'
    rw [dif_pos ⟨hi', hj'⟩, Function.update_apply]
    by_cases hij : i' = i ∧ j' = j
    · obtain ⟨rfl, rfl⟩ := hij
      rw [if_pos ⟨rfl, rfl⟩, if_pos rfl]
    · rw [if_neg hij, if_neg]
      · rfl
      · intro heq
        rw [hs] at heq
        simp only [Sigma.mk.injEq, Fin.mk.injEq] at heq
        obtain ⟨rfl, h2⟩ := heq
        exact hij ⟨rfl, by simpa using h2⟩
  rw [e]
  refine h2.congr_deriv ?_
  rw [ContinuousLinearMap.sum_apply]
  simp only [ContinuousLinearMap.smul_apply, ContinuousLinearMap.proj_apply, smul_eq_mul]
  rw [Finset.sum_eq_single s (fun s' _ hne => by rw [Pi.single_eq_of_ne hne, mul_zero]) (fun h => absurd (Finset.mem_univ s) h),
    Pi.single_eq_same, mul_one]

/-- Along every coordinate through `p` each residual is a polynomial of degree two at most. -/
def Quadratic (sizes : List ℕ) (n : ℕ) (f : Params → ℕ → ℝ) (p : Params) : Prop :=
  ∀ i < sizes.length, ∀ j < sizes.getD i 0, ∀ r < n, ∃ c₀ c₁ c₂ : ℝ,
    ∀ t, f (at' p i j t) r = c₀ + c₁ * t + c₂ * t ^ 2

/-- The options are sane. -/
structure Sane (o : NumericDiff.Options) : Prop where
  extrapolations : 0 < o.maxNumRiddersExtrapolations
  epsilon : 0 < o.machineEpsilon
  shrink : 1 < o.riddersStepShrinkFactor

/-- On such functions the numeric Jacobian is the derivative. -/
theorem numeric_exact {c : CostFunction} {f : Params → ℕ → ℝ} {J : Params → ℕ → ℕ → ℕ → ℝ}
    (hc : Computes c (fun _ => True) f J) {o : NumericDiff.Options} (ho : Sane o) (junk : ℕ → ℕ → ℝ) {p : Params}
    (hq : Quadratic c.sizes c.numResiduals f p) {D : ℕ → ℕ → ℕ → ℝ}
    (hD : IsJacobian c.sizes c.numResiduals f D p) :
    (full (numericOf o junk c) p).ok = true ∧
    (∀ r < c.numResiduals, (full (numericOf o junk c) p).residuals r = f p r) ∧
    ∀ r < c.numResiduals, ∀ i < c.sizes.length, ∀ k < c.sizes.getD i 0,
      entry (numericOf o junk c) p r i k = D r i k := by
  set F : NumericDiff.Functor c.numResiduals := fun p =>
      if (c.evaluate p (fun _ => 0) none).ok then some fun i => (c.evaluate p (fun _ => 0) none).residuals i else none
    with hF
  have hFp : ∀ p, F p = some fun i : Fin c.numResiduals => f p i := by
    intro p
    have h1 := (hc.ok p (fun _ => 0) none).2 trivial
    rw [hF]
    simp only
    rw [if_pos h1]
    congr 1
    funext i
    exact hc.residuals p _ none trivial i i.2
  set js : ℕ → Option (ℕ → ℝ) := fun i => if i < c.sizes.length then some fun _ => 0 else none with hjs
  set R := NumericDiff.dynamicNumericEvaluate o .ridders c.sizes F (fun k i => junk k i) p (fun _ => 0) (some js)
    with hR
  obtain ⟨-, hspec⟩ := NumericDiff.dynamicNumericEvaluate_spec o .ridders c.sizes F (fun k i => junk k i) p
    (fun _ => 0) js (fun _ => ho.extrapolations)
  obtain ⟨hQ, hfail⟩ := hspec _ (hFp p)
  have hok : R.ok = true := by
    by_contra h
    obtain ⟨b, -, -, hp⟩ := hfail (by simpa using h)
    exact hp fun j _ t => by rw [hFp]; simp
  have hfull : full (numericOf o junk c) p = ⟨R.ok, fun i => if h : i < c.numResiduals then R.residuals ⟨i, h⟩ else 0,
      some R.jacobians⟩ := rfl
  rw [hfull]
  refine ⟨hok, fun r hr => ?_, fun r hr i hi k hk => ?_⟩
  · simp only
    rw [dif_pos hr]
    exact congrFun hQ.residual ⟨r, hr⟩
  · have hne : R.jacobians i ≠ none := by
      intro h
      have := (hQ.null i).1 h
      rw [hjs] at this
      simp only [if_pos hi] at this
      cases this
    obtain ⟨a, ha⟩ := Option.ne_none_iff_exists'.1 hne
    obtain ⟨d, hd, hv⟩ := hQ.jacobian hok i hi a ha k hk
    have hent : entry (numericOf o junk c) p r i k = a (r * c.sizes.getD i 0 + k) := by
      unfold entry
      rw [hfull]
      simp only [Option.getD_some, ha]
      rfl
    rw [hent, Nat.mul_comm r, hv ⟨r, hr⟩]
    obtain ⟨c₀, c₁, c₂, hpoly⟩ := hq i hi k hk r hr
    have h1 := NumericDiff.quotient_exact (g := fun l t => f (at' p i k t) l) o .ridders (fun t => hFp _) ⟨r, hr⟩
      c₀ c₁ c₂ hpoly (fun h => by cases h) ho.epsilon ho.shrink hd
    exact h1.unique (hD.partial (fun p p' r h => (hc.reads p p' h).2.1 r) hr hi hk)

theorem full_entry {c : CostFunction} {dom : Params → Prop} {f : Params → ℕ → ℝ} {J : Params → ℕ → ℕ → ℕ → ℝ}
    (hc : Computes c dom f J) {p : Params} (hd : dom p) {r i k : ℕ} (hr : r < c.numResiduals) (hi : i < c.sizes.length)
    (hk : k < c.sizes.getD i 0) : entry c p r i k = J p r i k := by
  obtain ⟨js', hjs', hb⟩ := hc.blocks p (fun _ => 0) (fun i => if i < c.sizes.length then some fun _ => 0 else none)
  obtain ⟨a', ha', hv, -⟩ := (hb i).2 (fun _ => 0) (if_pos hi)
  unfold entry full
  rw [hjs', Option.getD_some, ha', Option.getD_some]
  exact hv hd hi r hr k hk

theorem tangent_congr {c : CostFunction} {manifolds : ℕ → Option Mfld} (hM : Fits c manifolds) (junk x : ℕ → ℝ)
    {i : ℕ} (hi : i < c.sizes.length) {D D' : ℕ → ℝ} (h : ∀ k < c.sizes.getD i 0, D k = D' k) {k : ℕ}
    (hk : k < tangentSize (manifolds i) (c.sizes.getD i 0)) :
    tangent (manifolds i) junk x D k = tangent (manifolds i) junk x D' k := by
  cases hm : manifolds i with
  | none => rw [hm] at hk; exact h k hk
  | some M =>
    refine Finset.sum_congr rfl fun a ha => ?_
    rw [h a (by rw [hM i hi M hm]; exact Finset.mem_range.1 ha)]

/-- **Gradient checking decides**: for a cost function that is quadratic along each coordinate the probe says whether
the derivatives it returns, taken to the tangent spaces, are close to the true ones. -/
theorem gradient_check_decides {c : CostFunction} {f : Params → ℕ → ℝ} {J : Params → ℕ → ℕ → ℕ → ℝ}
    (hc : Computes c (fun _ => True) f J) (hn : c.numResiduals ≠ 0) {o : NumericDiff.Options} (ho : Sane o)
    (junk' : ℕ → ℕ → ℝ) {manifolds : ℕ → Option Mfld} (hM : Fits c manifolds) (junk : ℕ → ℝ) {e : ℝ} (he : e ≠ 0)
    {p : Params} (hq : Quadratic c.sizes c.numResiduals f p) {D : ℕ → ℕ → ℕ → ℝ}
    (hD : IsJacobian c.sizes c.numResiduals f D p) :
    ∃ b res, probe c (numericOf o junk' c) manifolds junk e p = some (b, res) ∧ res.returnValue = true ∧
      (b = true ↔ ∀ i < c.sizes.length, ∀ r < c.numResiduals, ∀ k < tangentSize (manifolds i) (c.sizes.getD i 0),
        Close (tangent (manifolds i) junk (p i) (fun k => J p r i k) k)
          (tangent (manifolds i) junk (p i) (fun k => D r i k) k) e) := by
  obtain ⟨n1, n2, n3⟩ := numeric_exact hc ho junk' hq hD
  obtain ⟨b, res, h1, h2, h3, -⟩ := probe_spec (c := c) (n := numericOf o junk' c) rfl rfl hn hM junk e p
  have hok : (full c p).ok = true := (hc.ok p _ _).2 trivial
  refine ⟨b, res, h1, h2.2 ⟨hok, n1⟩, ?_⟩
  rw [h3]
  have e1 : ∀ i < c.sizes.length, ∀ r < c.numResiduals, ∀ k < tangentSize (manifolds i) (c.sizes.getD i 0),
      tangent (manifolds i) junk (p i) (fun k => entry c p r i k) k =
        tangent (manifolds i) junk (p i) (fun k => J p r i k) k := fun i hi r hr k hk =>
    tangent_congr hM junk (p i) hi (fun k hk => full_entry hc trivial hr hi hk) hk
  have e2 : ∀ i < c.sizes.length, ∀ r < c.numResiduals, ∀ k < tangentSize (manifolds i) (c.sizes.getD i 0),
      tangent (manifolds i) junk (p i) (fun k => entry (numericOf o junk' c) p r i k) k =
        tangent (manifolds i) junk (p i) (fun k => D r i k) k := fun i hi r hr k hk =>
    tangent_congr hM junk (p i) hi (fun k hk => n3 r hr i hi k hk) hk
  constructor
  · rintro ⟨-, -, h⟩ i hi r hr k hk
    rw [← e1 i hi r hr k hk, ← e2 i hi r hr k hk]
    exact h i hi r hr k hk
  · refine fun h => ⟨⟨hok, n1⟩, fun r hr => ?_, fun i hi r hr k hk => ?_⟩
    · have : (full c p).residuals r = f p r := hc.residuals p _ _ trivial r hr
      rw [this, n2 r hr]
      exact close_self he _
    · rw [e1 i hi r hr k hk, e2 i hi r hr k hk]
      exact h i hi r hr k hk

/-- In particular right derivatives are accepted. -/
theorem right_gradient_accepted {c : CostFunction} {f : Params → ℕ → ℝ} {J : Params → ℕ → ℕ → ℕ → ℝ}
    (hc : Computes c (fun _ => True) f J) (hn : c.numResiduals ≠ 0) {o : NumericDiff.Options} (ho : Sane o)
    (junk' : ℕ → ℕ → ℝ) {manifolds : ℕ → Option Mfld} (hM : Fits c manifolds) (junk : ℕ → ℝ) {e : ℝ} (he : e ≠ 0)
    {p : Params} (hq : Quadratic c.sizes c.numResiduals f p)
    (hJ : IsJacobian c.sizes c.numResiduals f (J p) p) :
    ∃ res, probe c (numericOf o junk' c) manifolds junk e p = some (true, res) := by
  obtain ⟨b, res, h1, -, h3⟩ := gradient_check_decides hc hn ho junk' hM junk he hq hJ
  rw [h3.2 fun i _ r _ k _ => close_self he _] at h1
  exact ⟨res, h1⟩

/-! ## Solver::Options::check_gradients -/

/-- **A checked cost function** returns what the cost function does, for the Jacobians asked for, and nothing else is
written; it fails if either evaluation fails, and then reports nothing; otherwise it reports an error exactly if the
probe found one. -/
theorem checking_evaluate {c n : CostFunction} {dom : Params → Prop} {f : Params → ℕ → ℝ}
    {J : Params → ℕ → ℕ → ℕ → ℝ} (hc : Computes c dom f J) (hs : n.sizes = c.sizes)
    (hr : n.numResiduals = c.numResiduals) (hn : c.numResiduals ≠ 0) {manifolds : ℕ → Option Mfld}
    (hM : Fits c manifolds) (junk : ℕ → ℝ) (e : ℝ) (p : Params) (residuals : ℕ → ℝ) (js : ℕ → Option (ℕ → ℝ)) :
    ∃ out told b res, probe c n manifolds junk e p = some (b, res) ∧
      checkingEvaluate c n manifolds junk e p residuals (some js) = some (out, told) ∧
      (out.ok = true ↔ dom p ∧ (full n p).ok = true) ∧
      (told = true ↔ out.ok = true ∧ b = false) ∧
      (out.ok = true → ∀ r < c.numResiduals, out.residuals r = f p r) ∧
      (∀ r, c.numResiduals ≤ r → out.residuals r = residuals r) ∧
      ∃ js', out.jacobians = some js' ∧ ∀ i, (js i = none → js' i = none) ∧ ∀ a, js i = some a → ∃ a', js' i = some a' ∧
        (out.ok = true → i < c.sizes.length → ∀ r < c.numResiduals, ∀ k < c.sizes.getD i 0,
          a' (r * c.sizes.getD i 0 + k) = J p r i k) ∧
        ∀ q, (¬ i < c.sizes.length ∨ c.numResiduals * c.sizes.getD i 0 ≤ q) → a' q = a q := by
  obtain ⟨b, res, h1, h2, h3, h4, h5, -⟩ := probe_spec hs hr hn hM junk e p
  have hd : (full c p).ok = true ↔ dom p := hc.ok p _ _
  rw [hd] at h2
  unfold checkingEvaluate
  simp only [h1, Option.map_some]
  by_cases hrv : res.returnValue = true
  · rw [if_pos hrv]
    have hdom := (h2.1 hrv).1
    refine ⟨_, _, b, res, rfl, rfl, ⟨fun _ => h2.1 hrv, fun _ => rfl⟩, by simp, fun _ r hr => ?_, fun r hr => ?_,
      _, rfl, fun i => ⟨fun h => ?_, fun a ha => ?_⟩⟩
    · simp only
      rw [if_pos hr, h4]
      exact hc.residuals p _ _ hdom r hr
    · simp only
      rw [if_neg (by omega)]
    · rw [h]; split_ifs <;> rfl
    · by_cases hi : i < c.sizes.length
      · rw [if_pos hi, ha]
        refine ⟨_, rfl, fun _ _ r hr k hk => ?_, fun q hq => ?_⟩
        · simp only
          rw [if_pos (by nlinarith), h5, full_entry hc hdom hr hi hk]
        · simp only
          rw [if_neg (by have := hq.resolve_left fun h => h hi; omega)]
      · rw [if_neg hi]
        exact ⟨a, ha, fun _ h => absurd h hi, fun _ _ => rfl⟩
  · rw [if_neg hrv]
    refine ⟨_, _, b, res, rfl, rfl, ⟨fun h => absurd h (by simp), fun h => absurd (h2.2 h) hrv⟩, by simp,
      fun h => absurd h (by simp), fun _ _ => rfl, js, rfl, fun i => ⟨fun h => h, fun a ha =>
        ⟨a, ha, fun h => absurd h (by simp), fun _ _ => rfl⟩⟩⟩

/-- Without Jacobians it is the cost function. -/
theorem checking_evaluate_residuals (c n : CostFunction) (manifolds : ℕ → Option Mfld) (junk : ℕ → ℝ) (e : ℝ)
    (p : Params) (residuals : ℕ → ℝ) :
    checkingEvaluate c n manifolds junk e p residuals none = some (c.evaluate p residuals none, false) := rfl

end

end Ceres.Adapters
