import Verif.LineSearch.Model
import Mathlib.Tactic.Linarith
import Mathlib.Algebra.Order.Field.Power
import Mathlib.Data.List.Chain
import Mathlib.Tactic.NormNum

/-!
# The Armijo line search (C16)
-/
namespace Ceres.LineSearch

variable {K X V : Type} [Field K] [LinearOrder K] [IsStrictOrderedRing K]

/-! ### Specification -/

/-- The sample has a valid cost that satisfies the sufficient decrease condition
`f(a) <= f(0) + c a f'(0)`. -/
def Decreases (c cost slope : K) (s : Sample K X V) : Prop :=
  s.valueValid = true ∧ s.value ≤ cost + c * slope * s.x

/-- The sample tells the truth about the objective: moving by its step succeeds, the cost there is
finite and is the value of the sample, and its slope (if asked for) is the slope there. -/
def RealPoint (F : Fn K X V) (g : Bool) (s : Sample K X V) : Prop :=
  ∃ x v, F.plus s.x = some x ∧ s.vx = some x ∧ F.eval x g = some (.fin s.value, v) ∧
    (g = true → s.gradient = F.slope v)

/-- `MinimizeInterpolatingPolynomial` returns a point of the interval it is given
(proved of the code's model in `LineSearch.Polynomial`). -/
def StaysInside (mp : List (Sample K X V) → K → K → K) : Prop :=
  ∀ l lo hi, lo ≤ hi → lo ≤ mp l lo hi ∧ mp l lo hi ≤ hi

/-- The options `LineSearchOptionsAreValid` (solver.cc:454-501) lets through, as far as the
Armijo search reads them. -/
structure ArmijoOpts (o : Opts K) : Prop where
  decrease_pos : 0 < o.sufficientDecrease
  decrease_lt : o.sufficientDecrease < 1
  max_pos : 0 < o.maxContraction
  max_lt_min : o.maxContraction < o.minContraction
  min_le : o.minContraction ≤ 1
  iterations : 0 < o.maxNumIterations

/-! ### Step sizes -/

omit [IsStrictOrderedRing K] in
theorem stepSize_mem {mp : List (Sample K X V) → K → K → K} (hmp : StaysInside mp)
    {type : Interp} {lb prev cur : Sample K X V} {lo hi t : K} (h : lo ≤ hi)
    (hs : stepSize mp type lb prev cur lo hi = some t) : lo ≤ t ∧ t ≤ hi := by
  unfold stepSize at hs
  split at hs
  · cases hs
    exact ⟨le_min (le_max_right _ _) h, min_le_right _ _⟩
  · split at hs
    · split at hs
      · cases hs
        exact ⟨h, le_rfl⟩
      · cases hs
    · split at hs
      · cases hs
        exact hmp _ _ _ h
      · cases hs

omit [IsStrictOrderedRing K] in
theorem stepSize_isSome (mp : List (Sample K X V) → K → K → K) (type : Interp)
    {lb : Sample K X V} (prev cur : Sample K X V) (lo hi : K) (h : lb.valueValid = true) :
    ∃ t, stepSize mp type lb prev cur lo hi = some t := by
  unfold stepSize
  split
  · exact ⟨_, rfl⟩
  · next h1 =>
    split
    · next h2 =>
      rw [if_pos]
      · exact ⟨_, rfl⟩
      · simp only [h2, Bool.true_and, Bool.or_eq_true, not_or, decide_eq_true_eq] at h1
        exact not_le.mp h1.2
    · exact ⟨_, rfl⟩

omit [IsStrictOrderedRing K] in
theorem evaluate_x (F : Fn K X V) (t : K) (g : Bool) : (F.evaluate t g).x = t := by
  unfold Fn.evaluate
  repeat' split
  all_goals rfl

omit [IsStrictOrderedRing K] in
/-- A valid evaluation tells the truth. -/
theorem evaluate_real {F : Fn K X V} {t : K} {g : Bool}
    (h : (F.evaluate t g).valueValid = true) : RealPoint F g (F.evaluate t g) := by
  unfold RealPoint
  rw [evaluate_x]
  unfold Fn.evaluate at h ⊢
  cases hp : F.plus t with
  | none => rw [hp] at h; simp [Sample.empty] at h
  | some x =>
    simp only [hp] at h ⊢
    cases he : F.eval x g with
    | none => rw [he] at h; simp at h
    | some p =>
      obtain ⟨c, v⟩ := p
      cases c with
      | fin c =>
        refine ⟨x, v, rfl, ?_⟩
        simp only
        cases g with
        | false => simp [he]
        | true =>
          simp only [if_true]
          by_cases hf : (F.slope v).finite = true
          · rw [if_pos hf]; simp [he]
          · rw [if_neg hf]; simp [he]
      | pinf => rw [he] at h; simp at h
      | ninf => rw [he] at h; simp at h
      | nan => rw [he] at h; simp at h

omit [IsStrictOrderedRing K] in
theorem sufficient_iff (o : Opts K) (cost slope : K) (s : Sample K X V) :
    sufficient o cost slope s = true ↔ Decreases o.sufficientDecrease cost slope s := by
  simp [sufficient, Decreases, not_lt]

/-! ### The invariant -/

/-- What holds of the evaluations made so far: `tr` lists them in order, `cur` is the last one. -/
structure Backtracking (o : Opts K) (F : Fn K X V) (estimate : K) (tr : List (Sample K X V)) :
    Prop where
  start : tr.head? = some (F.evaluate estimate (o.interp == .cubic))
  real : ∀ s ∈ tr, s = F.evaluate s.x (o.interp == .cubic)
  chain : tr.IsChain (fun a b => o.maxContraction * a.x ≤ b.x ∧ b.x ≤ o.minContraction * a.x)
  nonneg : ∀ s ∈ tr, 0 ≤ s.x

/-- The facts about a finished Armijo search. -/
structure ArmijoResult (o : Opts K) (F : Fn K X V) (cost slope estimate : K)
    (S : Summary K X V) : Prop where
  back : Backtracking o F estimate S.trace
  functionEvals : S.numFunctionEvaluations = S.trace.length
  gradientEvals : S.numGradientEvaluations = if o.interp == .cubic then S.trace.length else 0
  bounded : S.trace.length ≤ o.maxNumIterations
  iterBounded : S.numIterations ≤ o.maxNumIterations
  outcome :
    (S.status = .success ∧ S.trace.getLast? = some S.optimal ∧
      Decreases o.sufficientDecrease cost slope S.optimal ∧
      (∀ s ∈ S.trace.dropLast, ¬ Decreases o.sufficientDecrease cost slope s)) ∨
    (S.status = .maxIterations ∧ S.trace.length = o.maxNumIterations ∧
      (∀ s ∈ S.trace, ¬ Decreases o.sufficientDecrease cost slope s)) ∨
    (S.status = .stepTooSmall ∧
      (∃ s t, S.trace.getLast? = some s ∧ o.maxContraction * s.x ≤ t ∧
        t ≤ o.minContraction * s.x ∧ t * F.dirNorm < o.minStepSize) ∧
      (∀ s ∈ S.trace, ¬ Decreases o.sufficientDecrease cost slope s))

theorem armijoLoop_result {mp : List (Sample K X V) → K → K → K} (hmp : StaysInside mp)
    {o : Opts K} (ho : ArmijoOpts o) (F : Fn K X V) (cost slope estimate : K) :
    ∀ (fuel : Nat) (prev cur : Sample K X V) (S : Summary K X V) (tr0 : List (Sample K X V)),
      S.trace = tr0 ++ [cur] → Backtracking o F estimate S.trace →
      S.numFunctionEvaluations = S.trace.length →
      S.numGradientEvaluations = (if o.interp == .cubic then S.trace.length else 0) →
      S.numIterations + 1 = S.trace.length →
      S.numIterations < o.maxNumIterations →
      o.maxNumIterations ≤ S.numIterations + fuel →
      (∀ s ∈ tr0, ¬ Decreases o.sufficientDecrease cost slope s) →
      ArmijoResult o F cost slope estimate
        (armijoLoop mp o F cost slope fuel prev cur S) := by
  intro fuel
  induction fuel with
  | zero =>
    intro prev cur S tr0 _ _ _ _ _ h1 h2
    omega
  | succ fuel ih =>
    intro prev cur S tr0 htr hb hf hg hi hlt hfuel hno
    rw [armijoLoop]
    by_cases hs : sufficient o cost slope cur = true
    · rw [if_pos hs]
      refine ⟨hb, hf, hg, by simp only; omega, by simp only; omega, Or.inl ⟨rfl, ?_, ?_, ?_⟩⟩
      · simp [htr]
      · exact (sufficient_iff ..).mp hs
      · simpa [htr] using hno
    rw [if_neg hs]
    have hnod : ¬ Decreases o.sufficientDecrease cost slope cur := fun h =>
      hs ((sufficient_iff ..).mpr h)
    have hall : ∀ s ∈ S.trace, ¬ Decreases o.sufficientDecrease cost slope s := by
      intro s hs'
      rw [htr] at hs'
      rcases List.mem_append.mp hs' with h | h
      · exact hno s h
      · rw [List.mem_singleton.mp h]; exact hnod
    by_cases hm : o.maxNumIterations ≤ S.numIterations + 1
    · rw [if_pos hm]
      exact ⟨hb, hf, hg, by simp only; omega, by simp only; omega,
        Or.inr (Or.inl ⟨rfl, by simp only; omega, hall⟩)⟩
    rw [if_neg hm]
    have hx : 0 ≤ cur.x := hb.nonneg cur (by simp [htr])
    obtain ⟨t, ht⟩ := stepSize_isSome mp o.interp
      (lb := Sample.initial F.position cost slope) prev cur (o.maxContraction * cur.x)
      (o.minContraction * cur.x) rfl
    have hle : o.maxContraction * cur.x ≤ o.minContraction * cur.x :=
      mul_le_mul_of_nonneg_right ho.max_lt_min.le hx
    have hmem := stepSize_mem hmp hle ht
    rw [ht]
    simp only
    by_cases hsmall : t * F.dirNorm < o.minStepSize
    · rw [if_pos hsmall]
      refine ⟨hb, hf, hg, by simp only; omega, by simp only; omega,
        Or.inr (Or.inr ⟨rfl, ⟨cur, t, by simp [htr], hmem.1, hmem.2, hsmall⟩, hall⟩)⟩
    rw [if_neg hsmall]
    refine ih cur _ _ S.trace rfl ?_ ?_ ?_ ?_ ?_ ?_ hall
    · refine ⟨?_, ?_, ?_, ?_⟩
      · have := hb.start
        simp only [htr] at this ⊢
        cases tr0 <;> simpa using this
      · intro s hs'
        simp only at hs'
        rcases List.mem_append.mp hs' with h | h
        · exact hb.real s h
        · rw [List.mem_singleton.mp h, evaluate_x]
      · simp only
        rw [List.isChain_append]
        refine ⟨hb.chain, by simp, ?_⟩
        intro a ha b hb'
        simp only [htr, List.getLast?_append, List.getLast?_singleton, Option.mem_def,
          Option.some_or, Option.some.injEq] at ha
        simp only [List.head?_cons, Option.mem_def, Option.some.injEq] at hb'
        rw [← ha, ← hb', evaluate_x]
        exact hmem
      · intro s hs'
        simp only at hs'
        rcases List.mem_append.mp hs' with h | h
        · exact hb.nonneg s h
        · rw [List.mem_singleton.mp h, evaluate_x]
          exact le_trans (mul_nonneg ho.max_pos.le hx) hmem.1
    · simp only [List.length_append, List.length_singleton]; omega
    · simp only [List.length_append, List.length_singleton, hg]
      split <;> rfl
    · simp only [List.length_append, List.length_singleton]; omega
    · simp only; omega
    · simp only; omega

/-- **C16.** Every Armijo search ends, without aborting, in one of three ways; the evaluations
made are a backtracking sequence from the initial step (each step within the configured
contraction factors of the one before), there are at most `max_num_iterations` of them, and they
are counted correctly. -/
theorem armijo_result {mp : List (Sample K X V) → K → K → K} (hmp : StaysInside mp)
    {o : Opts K} (ho : ArmijoOpts o) (F : Fn K X V) (cost slope : K) {estimate : K}
    (he : 0 ≤ estimate) :
    ArmijoResult o F cost slope estimate (armijo mp o F estimate cost slope) := by
  unfold armijo
  rw [if_pos ⟨he, ho.decrease_pos, ho.decrease_lt, ho.iterations⟩]
  refine armijoLoop_result hmp ho F cost slope estimate _ _ _ _ [] rfl ?_ rfl ?_ rfl
    ho.iterations (by simp) (by simp)
  · refine ⟨rfl, ?_, by simp, ?_⟩
    · intro s hs
      rw [List.mem_singleton.mp hs, evaluate_x]
    · intro s hs
      rw [List.mem_singleton.mp hs, evaluate_x]
      exact he
  · simp only [List.length_singleton]

/-! ### Consequences of a backtracking sequence -/

omit [IsStrictOrderedRing K] in
theorem Backtracking.ne_nil {o : Opts K} {F : Fn K X V} {e : K} {tr : List (Sample K X V)}
    (h : Backtracking o F e tr) : 0 < tr.length := by
  have := h.start
  cases tr with
  | nil => cases this
  | cons a l => simp

/-- The `n`-th step of a backtracking sequence. -/
theorem Backtracking.nth {o : Opts K} (ho : ArmijoOpts o) {F : Fn K X V} {e : K}
    {tr : List (Sample K X V)} (h : Backtracking o F e tr) :
    ∀ (n : Nat) (hn : n < tr.length),
      o.maxContraction ^ n * e ≤ tr[n].x ∧ tr[n].x ≤ o.minContraction ^ n * e := by
  intro n
  have hmin : 0 < o.minContraction := lt_trans ho.max_pos ho.max_lt_min
  induction n with
  | zero =>
    intro hn
    have := h.start
    rw [List.head?_eq_getElem?, List.getElem?_eq_getElem hn, Option.some.injEq] at this
    rw [this, evaluate_x]
    simp
  | succ n ih =>
    intro hn
    obtain ⟨h1, h2⟩ := ih (by omega)
    have hc := List.isChain_iff_getElem.mp h.chain n (by omega)
    constructor
    · rw [pow_succ', mul_assoc]
      exact le_trans (mul_le_mul_of_nonneg_left h1 ho.max_pos.le) hc.1
    · rw [pow_succ', mul_assoc]
      exact le_trans hc.2 (mul_le_mul_of_nonneg_left h2 hmin.le)

/-- **C16.** If the Armijo search reports success, the point it returns has a valid cost with
sufficient decrease, is the evaluation of the objective at its step, and that step is positive
(if the initial one is) and at most the initial step. -/
theorem armijo_success {mp : List (Sample K X V) → K → K → K} (hmp : StaysInside mp)
    {o : Opts K} (ho : ArmijoOpts o) (F : Fn K X V) (cost slope : K) {estimate : K}
    (he : 0 ≤ estimate) (hs : (armijo mp o F estimate cost slope).status = .success) :
    let p := (armijo mp o F estimate cost slope).optimal
    Decreases o.sufficientDecrease cost slope p ∧
      p = F.evaluate p.x (o.interp == .cubic) ∧
      p ∈ (armijo mp o F estimate cost slope).trace ∧
      p.x ≤ estimate ∧ 0 ≤ p.x ∧ (0 < estimate → 0 < p.x) ∧
      RealPoint F (o.interp == .cubic) p := by
  have R := armijo_result hmp ho F cost slope he
  intro p
  rcases R.outcome with ⟨_, hl, hd, _⟩ | ⟨h, _⟩ | ⟨h, _⟩
  · have hp : p ∈ (armijo mp o F estimate cost slope).trace := List.mem_of_getLast? hl
    obtain ⟨n, hn, hget⟩ := List.getElem_of_mem hp
    have hx := R.back.nth ho n hn
    rw [hget] at hx
    have hmin : 0 < o.minContraction := lt_trans ho.max_pos ho.max_lt_min
    refine ⟨hd, R.back.real p hp, hp, ?_, R.back.nonneg p hp, ?_, ?_⟩
    · refine le_trans hx.2 ?_
      exact mul_le_of_le_one_left he (pow_le_one₀ hmin.le ho.min_le)
    · intro hpos
      exact lt_of_lt_of_le (mul_pos (pow_pos ho.max_pos n) hpos) hx.1
    · have hreal := R.back.real p hp
      rw [hreal]
      exact evaluate_real (by rw [← hreal]; exact hd.1)
  · rw [hs] at h; cases h
  · rw [hs] at h; cases h

/-- A successful Armijo search along a descent direction never returns a larger cost. -/
theorem armijo_no_increase {mp : List (Sample K X V) → K → K → K} (hmp : StaysInside mp)
    {o : Opts K} (ho : ArmijoOpts o) (F : Fn K X V) (cost : K) {slope estimate : K}
    (he : 0 ≤ estimate) (hslope : slope ≤ 0)
    (hs : (armijo mp o F estimate cost slope).status = .success) :
    (armijo mp o F estimate cost slope).optimal.value ≤ cost := by
  obtain ⟨⟨_, h1⟩, _, _, _, h2, _⟩ := armijo_success hmp ho F cost slope he hs
  have h3 : o.sufficientDecrease * slope * (armijo mp o F estimate cost slope).optimal.x ≤ 0 :=
    mul_nonpos_of_nonpos_of_nonneg
      (mul_nonpos_of_nonneg_of_nonpos ho.decrease_pos.le hslope) h2
  linarith

/-- **C16, liveness.** If every step up to `τ` decreases the cost sufficiently, `n` contractions
bring the initial step below `τ` and the search is allowed that many iterations and that small a
step, then the search succeeds. -/
theorem armijo_finds {mp : List (Sample K X V) → K → K → K} (hmp : StaysInside mp)
    {o : Opts K} (ho : ArmijoOpts o) (F : Fn K X V) (cost slope : K) {estimate τ : K} {n : Nat}
    (he : 0 ≤ estimate) (hdir : 0 ≤ F.dirNorm)
    (hgood : ∀ t, 0 ≤ t → t ≤ τ →
      Decreases o.sufficientDecrease cost slope (F.evaluate t (o.interp == .cubic)))
    (hn : o.minContraction ^ n * estimate ≤ τ) (hit : n < o.maxNumIterations)
    (hstep : o.minStepSize ≤ o.maxContraction ^ n * estimate * F.dirNorm) :
    (armijo mp o F estimate cost slope).status = .success := by
  have R := armijo_result hmp ho F cost slope he
  have hmin : 0 < o.minContraction := lt_trans ho.max_pos ho.max_lt_min
  have hmax1 : o.maxContraction ≤ 1 := le_trans ho.max_lt_min.le ho.min_le
  -- a sample that does not decrease enough comes before position `n`
  have key : ∀ (m : Nat) (hm : m < (armijo mp o F estimate cost slope).trace.length),
      ¬ Decreases o.sufficientDecrease cost slope
        (armijo mp o F estimate cost slope).trace[m] → m < n := by
    intro m hm hbad
    by_contra hge
    apply hbad
    have hmem : (armijo mp o F estimate cost slope).trace[m] ∈
        (armijo mp o F estimate cost slope).trace := List.getElem_mem hm
    rw [R.back.real _ hmem]
    refine hgood _ (R.back.nonneg _ hmem) (le_trans (R.back.nth ho m hm).2 (le_trans ?_ hn))
    exact mul_le_mul_of_nonneg_right (pow_le_pow_of_le_one hmin.le ho.min_le (by omega)) he
  rcases R.outcome with h | ⟨_, hlen, hall⟩ | ⟨_, ⟨s, t, hl, ht, _, hsmall⟩, hall⟩
  · exact h.1
  · exfalso
    have := key n (by omega) (hall _ (List.getElem_mem _))
    omega
  · exfalso
    have hpos := R.back.ne_nil
    have hm : (armijo mp o F estimate cost slope).trace.length - 1 <
        (armijo mp o F estimate cost slope).trace.length := by omega
    have hlt := key _ hm (hall _ (List.getElem_mem _))
    rw [List.getLast?_eq_getElem?, List.getElem?_eq_getElem hm, Option.some.injEq] at hl
    have hx := (R.back.nth ho _ hm).1
    rw [hl] at hx
    have h1 : o.maxContraction ^ n * estimate ≤ t := by
      refine le_trans ?_ (le_trans (mul_le_mul_of_nonneg_left hx ho.max_pos.le) ht)
      rw [← mul_assoc, ← pow_succ']
      exact mul_le_mul_of_nonneg_right
        (pow_le_pow_of_le_one ho.max_pos.le hmax1 (by omega)) he
    have h2 := mul_le_mul_of_nonneg_right h1 hdir
    linarith

/-! ### A concrete run

`f(t) = (1 - 4t)²/2` from `t = 0` along the direction with `f'(0) = -4`, invalid from `t = 1`:
the search evaluates `1` (invalid), `1/2` (enough? no), `1/4`. -/

/-- An objective on ℚ that is undefined from `1` on. -/
def exampleFn : Fn ℚ ℚ ℚ where
  position := 0
  plus t := some t
  eval x _ := if x < 1 then some (.fin ((1 - 4 * x) * (1 - 4 * x) / 2), -4 * (1 - 4 * x)) else none
  slope v := .fin v
  dirNorm := 1

/-- Bisection options. -/
def exampleOpts : Opts ℚ := ⟨.bisection, 1 / 10, 1 / 10, 9 / 10, 1 / 1000, 5, 9 / 10, 10⟩

example : ArmijoOpts exampleOpts := by
  constructor <;> simp only [exampleOpts] <;> norm_num

/-- Returning the lower end is one way to stay inside. -/
example : StaysInside (K := ℚ) (X := ℚ) (V := ℚ) (fun _ lo _ => lo) :=
  fun _ _ _ h => ⟨le_rfl, h⟩

example : (armijo (fun _ lo _ => lo) exampleOpts exampleFn 1 (1 / 2) (-4)).status = .success ∧
    (armijo (fun _ lo _ => lo) exampleOpts exampleFn 1 (1 / 2) (-4)).optimal.x = 1 / 4 ∧
    (armijo (fun _ lo _ => lo) exampleOpts exampleFn 1 (1 / 2) (-4)).trace.length = 3 := by
  decide +kernel

end Ceres.LineSearch
