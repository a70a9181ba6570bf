import Verif.LineSearch.Armijo

/-!
# The Wolfe line search (C17)
-/
namespace Ceres.LineSearch

variable {K X V : Type} [Field K] [LinearOrder K] [IsStrictOrderedRing K]

/-! ### Specification -/

/-- The curvature half of the strong Wolfe conditions: `|f'(a)| <= c₂ |f'(0)|` for a descent
direction. -/
def FlatEnough (c₂ slope : K) (s : Sample K X V) : Prop :=
  ∃ g, s.gradient = .fin g ∧ |g| ≤ -c₂ * slope

/-- The options `LineSearchOptionsAreValid` (solver.cc:454-501) lets through, as far as the Wolfe
search reads them. -/
structure WolfeOpts (o : Opts K) : Prop where
  decrease_pos : 0 < o.sufficientDecrease
  decrease_lt : o.sufficientDecrease < o.sufficientCurvatureDecrease
  curvature_lt : o.sufficientCurvatureDecrease < 1
  expansion : 1 < o.maxExpansion
  iterations : 0 < o.maxNumIterations

/-- Whenever the objective has a finite value it has a finite slope. -/
def FiniteSlopes (F : Fn K X V) : Prop :=
  ∀ t, (F.evaluate t true).valueValid = true → (F.evaluate t true).gradValid = true

/-- `s` is the best of the samples in `tr` with sufficient decrease. -/
def BestOf (c cost slope : K) (tr : List (Sample K X V)) (s : Sample K X V) : Prop :=
  ∀ a ∈ tr, Decreases c cost slope a → s.value ≤ a.value

/-- Two of the samples are closer together than the minimum step size. -/
def Narrow (o : Opts K) (F : Fn K X V) (tr : List (Sample K X V)) : Prop :=
  ∃ a ∈ tr, ∃ b ∈ tr, |a.x - b.x| * F.dirNorm < o.minStepSize

/-! ### Small facts -/

omit [IsStrictOrderedRing K] in
theorem absLe_iff (g : Ext K) (t : K) : g.absLe t = true ↔ ∃ k, g = .fin k ∧ |k| ≤ t := by
  cases g <;> simp [Ext.absLe]

omit [IsStrictOrderedRing K] in
theorem evaluate_gradValid (F : Fn K X V) (t : K)
    (h : (F.evaluate t true).gradValid = true) : ∃ g, (F.evaluate t true).gradient = .fin g := by
  unfold Fn.evaluate at h ⊢
  cases hp : F.plus t with
  | none => exact ⟨0, rfl⟩
  | some x =>
    simp only [hp] at h ⊢
    rcases he : F.eval x true with _ | ⟨c, v⟩
    · exact ⟨0, rfl⟩
    · cases c with
      | fin c =>
        simp only [he] at h ⊢
        cases hs : F.slope v <;> simp [hs, Ext.finite] at h ⊢
      | _ => exact ⟨0, rfl⟩

omit [IsStrictOrderedRing K] in
theorem evaluate_vx (F : Fn K X V) (t : K) (g : Bool)
    (h : (F.evaluate t g).valueValid = true) : ∃ x, (F.evaluate t g).vx = some x := by
  unfold Fn.evaluate at h ⊢
  cases hp : F.plus t with
  | none => simp [hp, Sample.empty] at h
  | some x =>
    simp only [hp] at h ⊢
    repeat' split
    all_goals exact ⟨x, rfl⟩

omit [IsStrictOrderedRing K] in
theorem initial_decreases (c cost slope : K) (p : X) :
    Decreases c cost slope (Sample.initial p cost slope : Sample K X V) := by
  simp [Decreases, Sample.initial]

/-! ### The bracketing phase -/

/-- Invariant of the bracketing loop: `tr0` are the evaluations before the current one. -/
structure BracketInv (o : Opts K) (F : Fn K X V) (cost slope estimate : K)
    (previous current : Sample K X V) (evals iters : Nat) (tr0 : List (Sample K X V)) :
    Prop where
  evals_eq : evals = tr0.length + 1
  iters_eq : iters = tr0.length
  real : ∀ s ∈ tr0, s = F.evaluate s.x true
  cur_real : current = F.evaluate current.x true
  prev_mem : previous = .initial F.position cost slope ∨ previous ∈ tr0
  prev_dec : Decreases o.sufficientDecrease cost slope previous
  prev_le : previous.value ≤ cost
  prev_best : BestOf o.sufficientDecrease cost slope tr0 previous
  prev_nonneg : 0 ≤ previous.x
  prev_x : previous.x ≤ current.x
  all_nonneg : ∀ s ∈ tr0, 0 ≤ s.x
  all_le : ∀ s ∈ tr0, s.x ≤ estimate * o.maxExpansion ^ tr0.length
  cur_le : current.x ≤ estimate * o.maxExpansion ^ tr0.length

/-- What the bracketing phase delivers. -/
structure BracketResult (o : Opts K) (F : Fn K X V) (cost slope estimate : K)
    (B : Bracket K X V) : Prop where
  evals_eq : B.numEvaluations = B.trace.length
  iters_eq : B.numIterations = B.trace.length
  bounded : B.trace.length ≤ o.maxNumIterations
  real : ∀ s ∈ B.trace, s = F.evaluate s.x true
  nonneg : ∀ s ∈ B.trace, 0 ≤ s.x
  le : ∀ s ∈ B.trace, s.x ≤ estimate * o.maxExpansion ^ o.maxNumIterations
  status : B.status = .success ∨ B.status = .stepTooSmall
  low_mem : B.status = .success → B.low ∈ Sample.initial F.position cost slope :: B.trace
  low_dec : B.status = .success → Decreases o.sufficientDecrease cost slope B.low
  low_le : B.status = .success → B.low.value ≤ cost
  zoom : B.status = .success → B.zoom = true →
    B.high ∈ Sample.initial F.position cost slope :: B.trace ∧ B.high.valueValid = true ∧
      BestOf o.sufficientDecrease cost slope B.trace B.low
  done : B.status = .success → B.zoom = false →
    (FlatEnough o.sufficientCurvatureDecrease slope B.low ∨
      Narrow o F (Sample.initial F.position cost slope :: B.trace) ∨
      B.numIterations = o.maxNumIterations) ∧
    (BestOf o.sufficientDecrease cost slope B.trace B.low ∨
      (B.numIterations = o.maxNumIterations ∧
        ∃ s, B.trace.getLast? = some s ∧ s.valueValid = false))

theorem BracketInv.finish {o : Opts K} (ho : WolfeOpts o) {F : Fn K X V}
    {cost slope estimate : K} {previous current : Sample K X V} {evals iters : Nat}
    {tr0 : List (Sample K X V)} (he : 0 ≤ estimate)
    (I : BracketInv o F cost slope estimate previous current evals iters tr0)
    (hlt : iters < o.maxNumIterations) (low high : Sample K X V) (zoom : Bool)
    (hmem : low ∈ Sample.initial F.position cost slope :: (tr0 ++ [current]))
    (hdec : Decreases o.sufficientDecrease cost slope low) (hle : low.value ≤ cost)
    (hzoom : zoom = true →
      high ∈ Sample.initial F.position cost slope :: (tr0 ++ [current]) ∧
        high.valueValid = true ∧ BestOf o.sufficientDecrease cost slope (tr0 ++ [current]) low)
    (hdone : zoom = false →
      (FlatEnough o.sufficientCurvatureDecrease slope low ∨
        Narrow o F (Sample.initial F.position cost slope :: (tr0 ++ [current])) ∨
        iters + 1 = o.maxNumIterations) ∧
      (BestOf o.sufficientDecrease cost slope (tr0 ++ [current]) low ∨
        (iters + 1 = o.maxNumIterations ∧ current.valueValid = false))) :
    BracketResult o F cost slope estimate
      (bracketEnd o F low high zoom evals (iters + 1) (tr0 ++ [current])) := by
  have hiters := I.iters_eq
  have hE : (1 : K) ≤ o.maxExpansion := ho.expansion.le
  have hpow : estimate * o.maxExpansion ^ tr0.length ≤
      estimate * o.maxExpansion ^ o.maxNumIterations :=
    mul_le_mul_of_nonneg_left (pow_le_pow_right₀ hE (by omega)) he
  refine ⟨by simp [bracketEnd, I.evals_eq], by simp [bracketEnd, hiters],
    by simp [bracketEnd]; omega, ?_, ?_, ?_, Or.inl rfl, fun _ => hmem, fun _ => hdec,
    fun _ => hle, ?_, ?_⟩
  · intro s hs
    simp only [bracketEnd, List.mem_append, List.mem_singleton] at hs
    rcases hs with h | rfl
    · exact I.real s h
    · exact I.cur_real
  · intro s hs
    simp only [bracketEnd, List.mem_append, List.mem_singleton] at hs
    rcases hs with h | rfl
    · exact I.all_nonneg s h
    · exact le_trans I.prev_nonneg I.prev_x
  · intro s hs
    simp only [bracketEnd, List.mem_append, List.mem_singleton] at hs
    rcases hs with h | rfl
    · exact le_trans (I.all_le s h) hpow
    · exact le_trans I.cur_le hpow
  · intro _ hz
    simp only [bracketEnd, Bool.and_eq_true] at hz
    exact hzoom hz.1
  · intro _ hz
    simp only [bracketEnd, Bool.and_eq_false_iff, Bool.not_eq_false', decide_eq_true_eq] at hz ⊢
    cases zoom with
    | false =>
      obtain ⟨h1, h2⟩ := hdone rfl
      refine ⟨h1, h2.imp_right fun h => ⟨h.1, current, by simp, h.2⟩⟩
    | true =>
      obtain ⟨h1, _, h3⟩ := hzoom rfl
      rcases hz with hz | hz
      · cases hz
      · exact ⟨Or.inr (Or.inl ⟨high, h1, low, hmem, hz⟩), Or.inl h3⟩

theorem BracketInv.next {o : Opts K} (ho : WolfeOpts o) {F : Fn K X V}
    {cost slope estimate : K} {previous current : Sample K X V} {evals iters : Nat}
    {tr0 : List (Sample K X V)} (he : 0 ≤ estimate)
    (I : BracketInv o F cost slope estimate previous current evals iters tr0)
    (hok : current.valueValid = true →
      Decreases o.sufficientDecrease cost slope current ∧ current.value ≤ previous.value)
    {t : K}
    (ht : (if current.valueValid then current.x else previous.x) ≤ t ∧
      t ≤ (if current.valueValid then current.x * o.maxExpansion else current.x)) :
    BracketInv o F cost slope estimate (if current.valueValid then current else previous)
      (F.evaluate t true) (evals + 1) (iters + 1) (tr0 ++ [current]) := by
  have hE : (1 : K) ≤ o.maxExpansion := ho.expansion.le
  have hE0 : (0 : K) ≤ o.maxExpansion := le_trans zero_le_one hE
  have hcx : 0 ≤ current.x := le_trans I.prev_nonneg I.prev_x
  have hstep : estimate * o.maxExpansion ^ tr0.length ≤
      estimate * o.maxExpansion ^ (tr0.length + 1) :=
    mul_le_mul_of_nonneg_left (pow_le_pow_right₀ hE (Nat.le_succ _)) he
  have hreal : ∀ s ∈ tr0 ++ [current], s = F.evaluate s.x true := by
    intro s hs
    simp only [List.mem_append, List.mem_singleton] at hs
    rcases hs with h | rfl
    · exact I.real s h
    · exact I.cur_real
  have hnn : ∀ s ∈ tr0 ++ [current], 0 ≤ s.x := by
    intro s hs
    simp only [List.mem_append, List.mem_singleton] at hs
    rcases hs with h | rfl
    · exact I.all_nonneg s h
    · exact hcx
  have hall : ∀ s ∈ tr0 ++ [current],
      s.x ≤ estimate * o.maxExpansion ^ (tr0 ++ [current]).length := by
    intro s hs
    simp only [List.length_append, List.length_singleton]
    simp only [List.mem_append, List.mem_singleton] at hs
    rcases hs with h | rfl
    · exact le_trans (I.all_le s h) hstep
    · exact le_trans I.cur_le hstep
  cases hv : current.valueValid with
  | true =>
    obtain ⟨hd, hle⟩ := hok hv
    simp only [hv, if_true] at ht ⊢
    refine ⟨by simp [I.evals_eq], by simp [I.iters_eq], hreal, by rw [evaluate_x],
      Or.inr (by simp), hd, le_trans hle I.prev_le, ?_, hcx, by rw [evaluate_x]; exact ht.1,
      hnn, hall, ?_⟩
    · intro a ha had
      simp only [List.mem_append, List.mem_singleton] at ha
      rcases ha with h | rfl
      · exact le_trans hle (I.prev_best a h had)
      · exact le_rfl
    · rw [evaluate_x]
      simp only [List.length_append, List.length_singleton]
      refine le_trans ht.2 (le_trans (mul_le_mul_of_nonneg_right I.cur_le hE0) (le_of_eq ?_))
      rw [pow_succ, mul_assoc]
  | false =>
    simp only [hv, Bool.false_eq_true, if_false] at ht ⊢
    refine ⟨by simp [I.evals_eq], by simp [I.iters_eq], hreal, by rw [evaluate_x],
      I.prev_mem.imp_right (fun h => by simp [h]), I.prev_dec, I.prev_le, ?_, I.prev_nonneg,
      by rw [evaluate_x]; exact ht.1, hnn, hall, ?_⟩
    · intro a ha had
      simp only [List.mem_append, List.mem_singleton] at ha
      rcases ha with h | rfl
      · exact I.prev_best a h had
      · rw [had.1] at hv; cases hv
    · rw [evaluate_x]
      simp only [List.length_append, List.length_singleton]
      exact le_trans ht.2 (le_trans I.cur_le hstep)

theorem bracketLoop_result {mp : List (Sample K X V) → K → K → K} (hmp : StaysInside mp)
    {o : Opts K} (ho : WolfeOpts o) (F : Fn K X V) (cost slope : K) {estimate : K}
    (he : 0 ≤ estimate) :
    ∀ (fuel : Nat) (previous current : Sample K X V) (evals iters : Nat)
      (tr0 : List (Sample K X V)),
      BracketInv o F cost slope estimate previous current evals iters tr0 →
      iters < o.maxNumIterations → o.maxNumIterations ≤ iters + fuel →
      BracketResult o F cost slope estimate
        (bracketLoop mp o F cost slope fuel previous current evals iters (tr0 ++ [current])) := by
  intro fuel
  induction fuel with
  | zero => intro _ _ _ _ _ _ h1 h2; omega
  | succ fuel ih =>
    intro previous current evals iters tr0 I hlt hfuel
    have hcm : current ∈ Sample.initial F.position cost slope :: (tr0 ++ [current]) := by simp
    have hpm : previous ∈ Sample.initial F.position cost slope :: (tr0 ++ [current]) := by
      rcases I.prev_mem with h | h
      · rw [h]; simp
      · simp [h]
    rw [bracketLoop]
    -- first bracket
    by_cases h1 : (current.valueValid && (decide (cost + o.sufficientDecrease * slope * current.x
          < current.value) || (previous.valueValid &&
            decide (previous.value < current.value)))) = true
    · rw [if_pos h1]
      rw [Bool.and_eq_true] at h1
      refine I.finish ho he hlt _ _ _ hpm I.prev_dec I.prev_le (fun _ => ⟨hcm, h1.1, ?_⟩)
        (fun h => by cases h)
      intro a ha had
      simp only [List.mem_append, List.mem_singleton] at ha
      rcases ha with h | rfl
      · exact I.prev_best a h had
      · simp only [Bool.or_eq_true, decide_eq_true_eq, Bool.and_eq_true] at h1
        rcases h1.2 with h | h
        · exact absurd had.2 (not_le.mpr h)
        · exact h.2.le
    rw [if_neg h1]
    have hok : current.valueValid = true →
        Decreases o.sufficientDecrease cost slope current ∧
          current.value ≤ previous.value := by
      intro hv
      simp only [hv, I.prev_dec.1, Bool.true_and, Bool.or_eq_true, decide_eq_true_eq,
        not_or, not_lt] at h1
      exact ⟨⟨hv, h1.1⟩, h1.2⟩
    have hbest : current.valueValid = true →
        BestOf o.sufficientDecrease cost slope (tr0 ++ [current]) current := by
      intro hv a ha had
      simp only [List.mem_append, List.mem_singleton] at ha
      rcases ha with h | rfl
      · exact le_trans (hok hv).2 (I.prev_best a h had)
      · exact le_rfl
    -- strong Wolfe point
    by_cases h2 : (current.valueValid &&
        current.gradient.absLe (-o.sufficientCurvatureDecrease * slope)) = true
    · rw [if_pos h2]
      rw [Bool.and_eq_true] at h2
      have hd := hok h2.1
      refine I.finish ho he hlt _ _ _ hcm hd.1 (le_trans hd.2 I.prev_le)
        (fun h => by cases h) (fun _ => ⟨Or.inl ((absLe_iff _ _).mp h2.2), Or.inl (hbest h2.1)⟩)
    rw [if_neg h2]
    -- second bracket
    by_cases h3 : (current.valueValid && current.gradient.nonneg) = true
    · rw [if_pos h3]
      rw [Bool.and_eq_true] at h3
      have hd := hok h3.1
      exact I.finish ho he hlt _ _ _ hcm hd.1 (le_trans hd.2 I.prev_le)
        (fun _ => ⟨hpm, I.prev_dec.1, hbest h3.1⟩) (fun h => by cases h)
    rw [if_neg h3]
    -- bracket too narrow
    by_cases h4 : (current.valueValid &&
        decide (|current.x - previous.x| * F.dirNorm < o.minStepSize)) = true
    · rw [if_pos h4]
      rw [Bool.and_eq_true, decide_eq_true_eq] at h4
      have hd := hok h4.1
      exact I.finish ho he hlt _ _ _ hcm hd.1 (le_trans hd.2 I.prev_le)
        (fun h => by cases h)
        (fun _ => ⟨Or.inr (Or.inl ⟨current, hcm, previous, hpm, h4.2⟩),
          Or.inl (hbest h4.1)⟩)
    rw [if_neg h4]
    -- iteration limit
    by_cases h5 : o.maxNumIterations ≤ iters + 1
    · rw [if_pos h5]
      have heq : iters + 1 = o.maxNumIterations := by omega
      by_cases hc : (current.valueValid && decide (current.value < cost)) = true
      · rw [if_pos hc]
        rw [Bool.and_eq_true, decide_eq_true_eq] at hc
        have hd := hok hc.1
        exact I.finish ho he hlt _ _ _ hcm hd.1 hc.2.le (fun h => by cases h)
          (fun _ => ⟨Or.inr (Or.inr heq), Or.inl (hbest hc.1)⟩)
      · rw [if_neg hc]
        refine I.finish ho he hlt _ _ _ (by simp) (initial_decreases _ _ _ _) le_rfl
          (fun h => by cases h) (fun _ => ⟨Or.inr (Or.inr heq), ?_⟩)
        cases hv : current.valueValid with
        | false => exact Or.inr ⟨heq, rfl⟩
        | true =>
          left
          have hge : cost ≤ current.value := by
            simpa [hv, not_lt] using hc
          intro a ha had
          exact le_trans hge (hbest hv a ha had)
    rw [if_neg h5]
    -- next step
    obtain ⟨t, ht⟩ := stepSize_isSome mp o.interp (lb := previous) .empty current
      (if current.valueValid then current.x else previous.x)
      (if current.valueValid then current.x * o.maxExpansion else current.x) I.prev_dec.1
    have hcx : 0 ≤ current.x := le_trans I.prev_nonneg I.prev_x
    have hle : (if current.valueValid then current.x else previous.x) ≤
        (if current.valueValid then current.x * o.maxExpansion else current.x) := by
      split
      · exact le_mul_of_one_le_right hcx ho.expansion.le
      · exact I.prev_x
    have hmem := stepSize_mem hmp hle ht
    have N := I.next ho he hok hmem
    rw [ht]
    simp only
    by_cases h6 : t * F.dirNorm < o.minStepSize
    · rw [if_pos h6]
      have hE : (1 : K) ≤ o.maxExpansion := ho.expansion.le
      have hiters := I.iters_eq
      have hpow : estimate * o.maxExpansion ^ (tr0 ++ [current]).length ≤
          estimate * o.maxExpansion ^ o.maxNumIterations := by
        refine mul_le_mul_of_nonneg_left (pow_le_pow_right₀ hE ?_) he
        simp only [List.length_append, List.length_singleton]; omega
      exact ⟨by simp [I.evals_eq], by simp [hiters],
        by simp only [List.length_append, List.length_singleton]; omega, N.real, N.all_nonneg,
        fun s hs => le_trans (N.all_le s hs) hpow, Or.inr rfl,
        (fun h => by cases h), (fun h => by cases h), (fun h => by cases h),
        (fun h => by cases h), (fun h => by cases h)⟩
    rw [if_neg h6]
    exact ih _ _ _ _ _ N (by omega) (by omega)

theorem bracketing_result {mp : List (Sample K X V) → K → K → K} (hmp : StaysInside mp)
    {o : Opts K} (ho : WolfeOpts o) (F : Fn K X V) (cost slope : K) {estimate : K}
    (he : 0 ≤ estimate) :
    BracketResult o F cost slope estimate (bracketing mp o F estimate cost slope) := by
  refine bracketLoop_result hmp ho F cost slope he _ _ _ _ _ [] ?_ ho.iterations (by simp)
  refine ⟨rfl, rfl, by simp, by rw [evaluate_x], Or.inl rfl, initial_decreases _ _ _ _, le_rfl,
    by intro a ha; simp at ha, le_rfl, ?_, by simp, by simp, ?_⟩
  · rw [evaluate_x]; exact he
  · rw [evaluate_x]; simp

/-! ### The zoom phase -/

/-- Invariant of the zoom loop; `B` is the bracket it started from. -/
structure ZoomInv (o : Opts K) (F : Fn K X V) (cost slope : K) (B : Bracket K X V)
    (low high : Sample K X V) (evals iters : Nat) (tr : List (Sample K X V)) : Prop where
  evals_eq : evals = tr.length
  iters_eq : iters = tr.length
  bounded : tr.length ≤ o.maxNumIterations
  real : ∀ s ∈ tr, s = F.evaluate s.x true
  keep : ∃ rest, tr = B.trace ++ rest
  low_mem : low ∈ Sample.initial F.position cost slope :: tr
  low_dec : Decreases o.sufficientDecrease cost slope low
  low_le : low.value ≤ B.low.value
  low_best : BestOf o.sufficientDecrease cost slope tr low
  high_mem : high ∈ Sample.initial F.position cost slope :: tr
  high_valid : high.valueValid = true
  inside : ∀ s ∈ tr, s ∈ B.trace ∨ (min B.low.x B.high.x ≤ s.x ∧ s.x ≤ max B.low.x B.high.x)
  low_in : min B.low.x B.high.x ≤ low.x ∧ low.x ≤ max B.low.x B.high.x
  high_in : min B.low.x B.high.x ≤ high.x ∧ high.x ≤ max B.low.x B.high.x

/-- What the zoom phase delivers. -/
structure ZoomResult (o : Opts K) (F : Fn K X V) (cost slope : K) (B : Bracket K X V)
    (Z : Zoom K X V) : Prop where
  evals_eq : Z.numEvaluations = Z.trace.length
  iters_eq : Z.numIterations = Z.trace.length
  bounded : Z.trace.length ≤ o.maxNumIterations
  real : ∀ s ∈ Z.trace, s = F.evaluate s.x true
  keep : ∃ rest, Z.trace = B.trace ++ rest
  inside : ∀ s ∈ Z.trace,
    s ∈ B.trace ∨ (min B.low.x B.high.x ≤ s.x ∧ s.x ≤ max B.low.x B.high.x)
  outcome :
    (Z.status = .success ∧ Z.solution ∈ Z.trace ∧
      Decreases o.sufficientDecrease cost slope Z.solution ∧
      FlatEnough o.sufficientCurvatureDecrease slope Z.solution ∧
      Z.solution.value ≤ B.low.value ∧
      BestOf o.sufficientDecrease cost slope Z.trace Z.solution) ∨
    ((Z.status = .maxIterations ∧ Z.numIterations = o.maxNumIterations ∨
        Z.status = .stepTooSmall ∧ Narrow o F (Sample.initial F.position cost slope :: Z.trace)) ∧
      Z.solution ∈ Sample.initial F.position cost slope :: Z.trace ∧
      Decreases o.sufficientDecrease cost slope Z.solution ∧
      Z.solution.value ≤ B.low.value ∧
      BestOf o.sufficientDecrease cost slope Z.trace Z.solution) ∨
    (Z.status = .invalidPoint ∧ Z.trace.getLast? = some Z.solution ∧
      (Z.solution.valueValid = false ∨ Z.solution.gradValid = false))

theorem ZoomInv.push {o : Opts K} {F : Fn K X V} {cost slope : K}
    {B : Bracket K X V} {low high : Sample K X V} {evals iters : Nat}
    {tr : List (Sample K X V)} (I : ZoomInv o F cost slope B low high evals iters tr)
    {t : K}
    (ht : min B.low.x B.high.x ≤ t ∧ t ≤ max B.low.x B.high.x) :
    (∀ s ∈ tr ++ [F.evaluate t true], s = F.evaluate s.x true) ∧
    (∃ rest, tr ++ [F.evaluate t true] = B.trace ++ rest) ∧
    (∀ s ∈ tr ++ [F.evaluate t true],
      s ∈ B.trace ∨ (min B.low.x B.high.x ≤ s.x ∧ s.x ≤ max B.low.x B.high.x)) := by
  refine ⟨?_, ?_, ?_⟩
  · intro s hs
    simp only [List.mem_append, List.mem_singleton] at hs
    rcases hs with h | rfl
    · exact I.real s h
    · rw [evaluate_x]
  · obtain ⟨r, hr⟩ := I.keep
    exact ⟨r ++ [F.evaluate t true], by rw [hr, List.append_assoc]⟩
  · intro s hs
    simp only [List.mem_append, List.mem_singleton] at hs
    rcases hs with h | rfl
    · exact I.inside s h
    · right; rw [evaluate_x]; exact ht

theorem zoomLoop_result {mp : List (Sample K X V) → K → K → K} (hmp : StaysInside mp)
    {o : Opts K} (F : Fn K X V) (cost slope : K) (B : Bracket K X V) :
    ∀ (fuel : Nat) (low high : Sample K X V) (evals iters : Nat) (tr : List (Sample K X V)),
      ZoomInv o F cost slope B low high evals iters tr → o.maxNumIterations ≤ iters + fuel →
      ZoomResult o F cost slope B (zoomLoop mp o F cost slope fuel low high evals iters tr) := by
  intro fuel
  induction fuel with
  | zero =>
    intro low high evals iters tr I hf
    have h : o.maxNumIterations ≤ iters := by omega
    have hb := I.bounded
    have hi := I.iters_eq
    rw [zoomLoop, if_pos h]
    exact ⟨I.evals_eq, I.iters_eq, I.bounded, I.real, I.keep, I.inside,
      Or.inr (Or.inl ⟨Or.inl ⟨rfl, by simp only; omega⟩, I.low_mem, I.low_dec, I.low_le,
        I.low_best⟩)⟩
  | succ fuel ih =>
    intro low high evals iters tr I hf
    have hb := I.bounded
    have hi := I.iters_eq
    rw [zoomLoop]
    by_cases h0 : o.maxNumIterations ≤ iters
    · rw [if_pos h0]
      exact ⟨I.evals_eq, I.iters_eq, I.bounded, I.real, I.keep, I.inside,
        Or.inr (Or.inl ⟨Or.inl ⟨rfl, by simp only; omega⟩, I.low_mem, I.low_dec, I.low_le,
          I.low_best⟩)⟩
    rw [if_neg h0]
    by_cases h1 : |high.x - low.x| * F.dirNorm < o.minStepSize
    · rw [if_pos h1]
      exact ⟨I.evals_eq, I.iters_eq, I.bounded, I.real, I.keep, I.inside,
        Or.inr (Or.inl ⟨Or.inr ⟨rfl, high, I.high_mem, low, I.low_mem, h1⟩, I.low_mem,
          I.low_dec, I.low_le, I.low_best⟩)⟩
    rw [if_neg h1]
    have hlv : (if low.x < high.x then low else high).valueValid = true := by
      split
      · exact I.low_dec.1
      · exact I.high_valid
    have hlu : (if low.x < high.x then low else high).x ≤
        (if low.x < high.x then high else low).x := by
      by_cases h : low.x < high.x
      · simp only [if_pos h]; exact h.le
      · simp only [if_neg h]; exact not_lt.mp h
    obtain ⟨t, ht⟩ := stepSize_isSome mp o.interp
      (lb := if low.x < high.x then low else high) .empty
      (if low.x < high.x then high else low)
      (if low.x < high.x then low else high).x (if low.x < high.x then high else low).x hlv
    have hmem := stepSize_mem hmp hlu ht
    have hin : min B.low.x B.high.x ≤ t ∧ t ≤ max B.low.x B.high.x := by
      have hl := I.low_in
      have hh := I.high_in
      by_cases h : low.x < high.x
      · simp only [if_pos h] at hmem
        exact ⟨le_trans hl.1 hmem.1, le_trans hmem.2 hh.2⟩
      · simp only [if_neg h] at hmem
        exact ⟨le_trans hh.1 hmem.1, le_trans hmem.2 hl.2⟩
    obtain ⟨p1, p2, p3⟩ := I.push hin
    have hlen : (tr ++ [F.evaluate t true]).length = tr.length + 1 := by simp
    rw [ht]
    simp only
    by_cases h2 : (!(F.evaluate t true).valueValid || !(F.evaluate t true).gradValid) = true
    · rw [if_pos h2]
      refine ⟨by simp [I.evals_eq], by simp [hi], by simp only [hlen]; omega, p1, p2, p3,
        Or.inr (Or.inr ⟨rfl, by simp, ?_⟩)⟩
      simpa using h2
    rw [if_neg h2]
    simp only [Bool.or_eq_true, Bool.not_eq_true', not_or, Bool.not_eq_false] at h2
    have lift : ∀ s : Sample K X V, s ∈ Sample.initial F.position cost slope :: tr →
        s ∈ Sample.initial F.position cost slope :: (tr ++ [F.evaluate t true]) := by
      intro s hs
      simp only [List.mem_cons, List.mem_append] at hs ⊢
      tauto
    have hnew : F.evaluate t true ∈
        Sample.initial F.position cost slope :: (tr ++ [F.evaluate t true]) := by simp
    by_cases h3 : cost + o.sufficientDecrease * slope * (F.evaluate t true).x
        < (F.evaluate t true).value ∨ low.value ≤ (F.evaluate t true).value
    · rw [if_pos h3]
      refine ih _ _ _ _ _ ⟨by simp [I.evals_eq], by simp [hi], by rw [hlen]; omega, p1, p2,
        lift _ I.low_mem, I.low_dec, I.low_le, ?_, hnew, h2.1, p3, I.low_in,
        by rw [evaluate_x]; exact hin⟩ (by omega)
      intro a ha had
      simp only [List.mem_append, List.mem_singleton] at ha
      rcases ha with h | rfl
      · exact I.low_best a h had
      · rcases h3 with h | h
        · exact absurd had.2 (not_le.mpr h)
        · exact h
    rw [if_neg h3]
    rw [not_or, not_lt, not_le] at h3
    have hdec : Decreases o.sufficientDecrease cost slope (F.evaluate t true) := ⟨h2.1, h3.1⟩
    have hbest : BestOf o.sufficientDecrease cost slope (tr ++ [F.evaluate t true])
        (F.evaluate t true) := by
      intro a ha had
      simp only [List.mem_append, List.mem_singleton] at ha
      rcases ha with h | rfl
      · exact le_trans h3.2.le (I.low_best a h had)
      · exact le_rfl
    by_cases h4 : (F.evaluate t true).gradient.absLe
        (-o.sufficientCurvatureDecrease * slope) = true
    · rw [if_pos h4]
      exact ⟨by simp [I.evals_eq], by simp [hi], by simp only [hlen]; omega, p1, p2, p3,
        Or.inl ⟨rfl, by simp, hdec, (absLe_iff _ _).mp h4, le_trans h3.2.le I.low_le, hbest⟩⟩
    rw [if_neg h4]
    refine ih _ _ _ _ _ ⟨by simp [I.evals_eq], by simp [hi], by rw [hlen]; omega, p1, p2, hnew,
      hdec, le_trans h3.2.le I.low_le, hbest, ?_, ?_, p3, by rw [evaluate_x]; exact hin, ?_⟩
      (by omega)
    · split
      · exact lift _ I.low_mem
      · exact lift _ I.high_mem
    · split
      · exact I.low_dec.1
      · exact I.high_valid
    · split
      · exact I.low_in
      · exact I.high_in

/-! ### The whole search -/

/-- The facts about a finished Wolfe search. -/
structure WolfeResult (o : Opts K) (F : Fn K X V) (cost slope estimate : K)
    (S : Summary K X V) : Prop where
  functionEvals : S.numFunctionEvaluations = S.trace.length
  gradientEvals : S.numGradientEvaluations = S.trace.length
  iterations : S.numIterations = S.trace.length
  bounded : S.numIterations ≤ o.maxNumIterations
  real : ∀ s ∈ S.trace, s = F.evaluate s.x true
  nonneg : ∀ s ∈ S.trace, 0 ≤ s.x
  le : ∀ s ∈ S.trace, s.x ≤ estimate * o.maxExpansion ^ o.maxNumIterations
  aborts : S.status = .aborted →
    ∃ s ∈ S.trace, s.valueValid = true ∧ s.gradValid = false
  success : S.status = .success →
    S.optimal ∈ Sample.initial F.position cost slope :: S.trace ∧
    S.optimal.valueValid = true ∧ S.optimal.value ≤ cost ∧
    (Decreases o.sufficientDecrease cost slope S.optimal ∨ S.optimal.gradValid = false) ∧
    (FlatEnough o.sufficientCurvatureDecrease slope S.optimal ∨
      Narrow o F (Sample.initial F.position cost slope :: S.trace) ∨
      S.numIterations = o.maxNumIterations ∨
      ∃ s ∈ S.trace, s.valueValid = true ∧ s.gradValid = false) ∧
    (BestOf o.sufficientDecrease cost slope S.trace S.optimal ∨
      (S.numIterations = o.maxNumIterations ∧
        ∃ s, S.trace.getLast? = some s ∧ s.valueValid = false) ∨
      ∃ s ∈ S.trace, s.valueValid = true ∧ s.gradValid = false)

omit [IsStrictOrderedRing K] in
theorem sample_x_of_mem {o : Opts K} {F : Fn K X V} {cost slope : K} {tr : List (Sample K X V)}
    {b : K} (hb : 0 ≤ b) (h : ∀ s ∈ tr, 0 ≤ s.x ∧ s.x ≤ b) {s : Sample K X V}
    (hs : s ∈ Sample.initial F.position cost slope :: tr) : 0 ≤ s.x ∧ s.x ≤ b := by
  rcases List.mem_cons.mp hs with rfl | h'
  · exact ⟨le_rfl, hb⟩
  · exact h s h'

theorem wolfe_result {mp : List (Sample K X V) → K → K → K} (hmp : StaysInside mp)
    {o : Opts K} (ho : WolfeOpts o) (F : Fn K X V) (cost slope : K) {estimate : K}
    (he : 0 ≤ estimate) :
    WolfeResult o F cost slope estimate (wolfe mp o F estimate cost slope) := by
  unfold wolfe
  rw [if_pos ⟨he, ho.decrease_pos, ho.decrease_lt, ho.curvature_lt, ho.expansion⟩]
  have R := bracketing_result hmp ho F cost slope he
  generalize bracketing mp o F estimate cost slope = B at R
  unfold wolfeFinish
  have hEnn : 0 ≤ estimate * o.maxExpansion ^ o.maxNumIterations :=
    mul_nonneg he (pow_nonneg (le_trans zero_le_one ho.expansion.le) _)
  by_cases h1 : B.status ≠ .success
  · rw [if_pos h1]
    have hs := R.status.resolve_left h1
    exact ⟨R.evals_eq, R.evals_eq, R.iters_eq, by rw [R.iters_eq]; exact R.bounded, R.real,
      R.nonneg, R.le, (fun h => by rw [hs] at h; cases h), (fun h => absurd h h1)⟩
  rw [if_neg h1]
  push Not at h1
  by_cases h2 : B.zoom = false
  · rw [if_pos h2]
    obtain ⟨d1, d2⟩ := R.done h1 h2
    refine ⟨R.evals_eq, R.evals_eq, R.iters_eq, by rw [R.iters_eq]; exact R.bounded, R.real,
      R.nonneg, R.le, (fun h => by cases h), fun _ => ⟨R.low_mem h1, (R.low_dec h1).1,
        R.low_le h1, Or.inl (R.low_dec h1), ?_, ?_⟩⟩
    · rcases d1 with d | d | d
      · exact Or.inl d
      · exact Or.inr (Or.inl d)
      · exact Or.inr (Or.inr (Or.inl d))
    · rcases d2 with d | ⟨_, s, hs, hv⟩
      · exact Or.inl d
      · exact Or.inr (Or.inl ⟨by assumption, s, hs, hv⟩)
  rw [if_neg h2]
  rw [Bool.not_eq_false] at h2
  obtain ⟨z1, z2, z3⟩ := R.zoom h1 h2
  have hcases : (zoomPhase mp o F cost slope B.low B.high B.numEvaluations B.numIterations
        B.trace = ⟨.aborted, .empty, B.numEvaluations, B.numIterations, B.trace⟩ ∧
        ∃ s ∈ B.trace, s.valueValid = true ∧ s.gradValid = false) ∨
      (zoomPhase mp o F cost slope B.low B.high B.numEvaluations B.numIterations
        B.trace = ⟨.invalidBracket, .empty, B.numEvaluations, B.numIterations, B.trace⟩) ∨
      ZoomResult o F cost slope B
        (zoomPhase mp o F cost slope B.low B.high B.numEvaluations B.numIterations B.trace) := by
    unfold zoomPhase
    by_cases c1 : (!(B.low.valueValid && B.low.gradValid)) = true
    · left
      rw [if_pos c1]
      refine ⟨rfl, B.low, ?_, (R.low_dec h1).1, ?_⟩
      · rcases List.mem_cons.mp (R.low_mem h1) with h | h
        · rw [h] at c1; simp [Sample.initial] at c1
        · exact h
      · simpa [(R.low_dec h1).1] using c1
    rw [if_neg c1]
    rw [if_neg (by simp [z2])]
    by_cases c3 : B.low.gradient.mulNonneg (B.high.x - B.low.x) = true
    · rw [if_pos c3]; exact Or.inr (Or.inl rfl)
    rw [if_neg c3]
    refine Or.inr (Or.inr (zoomLoop_result hmp F cost slope B _ _ _ _ _ _
      ⟨R.evals_eq, R.iters_eq, R.bounded, R.real, ⟨[], by simp⟩, R.low_mem h1, R.low_dec h1,
        le_rfl, z3, z1, z2, (fun s hs => Or.inl hs), ⟨min_le_left _ _, le_max_left _ _⟩,
        ⟨min_le_right _ _, le_max_right _ _⟩⟩ (by omega)))
  generalize zoomPhase mp o F cost slope B.low B.high B.numEvaluations B.numIterations
        B.trace = Z at hcases
  simp only
  rcases hcases with ⟨hz, hw⟩ | hz | ZR
  · rw [if_pos (by rw [hz])]
    subst hz
    exact ⟨R.evals_eq, R.evals_eq, R.iters_eq, by rw [R.iters_eq]; exact R.bounded, R.real,
      R.nonneg, R.le, fun _ => hw, fun h => by cases h⟩
  · subst hz
    rw [if_neg (by simp), if_pos ⟨by simp, rfl⟩]
    exact ⟨R.evals_eq, R.evals_eq, R.iters_eq, by rw [R.iters_eq]; exact R.bounded, R.real,
      R.nonneg, R.le, (fun h => by cases h), (fun h => by cases h)⟩
  · have hbr : ∀ s ∈ B.trace, 0 ≤ s.x ∧ s.x ≤ estimate * o.maxExpansion ^ o.maxNumIterations :=
      fun s hs => ⟨R.nonneg s hs, R.le s hs⟩
    have hl := sample_x_of_mem (o := o) hEnn hbr (R.low_mem h1)
    have hh := sample_x_of_mem (o := o) hEnn hbr z1
    have hx : ∀ s ∈ Z.trace, 0 ≤ s.x ∧ s.x ≤ estimate * o.maxExpansion ^ o.maxNumIterations := by
      intro s hs
      rcases ZR.inside s hs with h | h
      · exact hbr s h
      · exact ⟨le_trans (le_min hl.1 hh.1) h.1, le_trans h.2 (max_le hl.2 hh.2)⟩
    have hbound : Z.numIterations ≤ o.maxNumIterations := by rw [ZR.iters_eq]; exact ZR.bounded
    rcases ZR.outcome with ⟨s1, s2, s3, s4, s5, s6⟩ | ⟨s1, s2, s3, s4, s5⟩ | ⟨s1, s2, s3⟩
    · rw [if_neg (by rw [s1]; simp), if_neg (by rw [s1]; simp)]
      rw [if_neg (by rw [s3.1]; simp [not_lt.mpr s5])]
      exact ⟨ZR.evals_eq, ZR.evals_eq, ZR.iters_eq, hbound, ZR.real, fun s hs => (hx s hs).1,
        fun s hs => (hx s hs).2, (fun h => by cases h),
        fun _ => ⟨List.mem_cons_of_mem _ s2, s3.1, le_trans s5 (R.low_le h1), Or.inl s3,
          Or.inl s4, Or.inl s6⟩⟩
    · have hna : Z.status ≠ .aborted := by rcases s1 with h | h <;> rw [h.1] <;> simp
      rw [if_neg hna, if_neg (by rw [s3.1]; simp)]
      rw [if_neg (by rw [s3.1]; simp [not_lt.mpr s4])]
      refine ⟨ZR.evals_eq, ZR.evals_eq, ZR.iters_eq, hbound, ZR.real, fun s hs => (hx s hs).1,
        fun s hs => (hx s hs).2, (fun h => by cases h),
        fun _ => ⟨s2, s3.1, le_trans s4 (R.low_le h1), Or.inl s3, ?_, Or.inl s5⟩⟩
      rcases s1 with h | h
      · exact Or.inr (Or.inr (Or.inl h.2))
      · exact Or.inr (Or.inl h.2)
    · rw [if_neg (by rw [s1]; simp)]
      by_cases hv : Z.solution.valueValid = false
      · rw [if_pos ⟨by rw [s1]; simp, hv⟩]
        exact ⟨ZR.evals_eq, ZR.evals_eq, ZR.iters_eq, hbound, ZR.real, fun s hs => (hx s hs).1,
          fun s hs => (hx s hs).2, (fun h => by rw [s1] at h; cases h),
          fun h => by rw [s1] at h; cases h⟩
      rw [if_neg (by simp [hv])]
      have hg := s3.resolve_left hv
      have hmem : Z.solution ∈ Z.trace := List.mem_of_getLast? s2
      have hw : ∃ s ∈ Z.trace, s.valueValid = true ∧ s.gradValid = false :=
        ⟨_, hmem, by simpa using hv, hg⟩
      refine ⟨ZR.evals_eq, ZR.evals_eq, ZR.iters_eq, hbound, ZR.real, fun s hs => (hx s hs).1,
        fun s hs => (hx s hs).2, (fun h => by cases h), fun _ => ?_⟩
      by_cases hb : B.low.value < Z.solution.value
      · rw [if_pos (Or.inr hb)]
        refine ⟨?_, (R.low_dec h1).1, R.low_le h1, Or.inl (R.low_dec h1),
          Or.inr (Or.inr (Or.inr hw)), Or.inr (Or.inr hw)⟩
        obtain ⟨r, hr⟩ := ZR.keep
        simp only [hr]
        rcases List.mem_cons.mp (R.low_mem h1) with h | h
        · rw [h]; simp
        · simp [h]
      · rw [if_neg (by simp [hv, hb])]
        exact ⟨List.mem_cons_of_mem _ hmem, by simpa using hv,
          le_trans (not_lt.mp hb) (R.low_le h1), Or.inr hg,
          Or.inr (Or.inr (Or.inr hw)), Or.inr (Or.inr hw)⟩

/-- **C17.** If the Wolfe search reports success, the point it returns is the starting point or
one of the points evaluated, has a valid cost no larger than the starting cost and, if finite
costs come with finite slopes, decreases the cost sufficiently.  It satisfies the curvature
condition as well unless the search ran into the iteration limit or two points it has looked at
are closer than the minimum step size. -/
theorem wolfe_success {mp : List (Sample K X V) → K → K → K} (hmp : StaysInside mp)
    {o : Opts K} (ho : WolfeOpts o) (F : Fn K X V) (cost slope : K) {estimate : K}
    (he : 0 ≤ estimate) (hs : (wolfe mp o F estimate cost slope).status = .success) :
    let S := wolfe mp o F estimate cost slope
    S.optimal ∈ Sample.initial F.position cost slope :: S.trace ∧
      (∀ s ∈ S.trace, s = F.evaluate s.x true) ∧
      (S.optimal = Sample.initial F.position cost slope ∨ RealPoint F true S.optimal) ∧
      S.optimal.valueValid = true ∧ S.optimal.value ≤ cost ∧
      0 ≤ S.optimal.x ∧ S.optimal.x ≤ estimate * o.maxExpansion ^ o.maxNumIterations ∧
      (FiniteSlopes F → Decreases o.sufficientDecrease cost slope S.optimal ∧
        (FlatEnough o.sufficientCurvatureDecrease slope S.optimal ∨
          Narrow o F (Sample.initial F.position cost slope :: S.trace) ∨
          S.numIterations = o.maxNumIterations)) := by
  have R := wolfe_result hmp ho F cost slope he
  obtain ⟨r1, r2, r3, r4, r5, r6⟩ := R.success hs
  have hEnn : 0 ≤ estimate * o.maxExpansion ^ o.maxNumIterations :=
    mul_nonneg he (pow_nonneg (le_trans zero_le_one ho.expansion.le) _)
  have hx := sample_x_of_mem (o := o) hEnn (fun s hs => ⟨R.nonneg s hs, R.le s hs⟩) r1
  refine ⟨r1, R.real, ?_, r2, r3, hx.1, hx.2, fun hF => ?_⟩
  · rcases List.mem_cons.mp r1 with h | h
    · exact Or.inl h
    · right
      have hreal := R.real _ h
      rw [hreal]
      exact evaluate_real (by rw [← hreal]; exact r2)
  have hg : ∀ s ∈ (wolfe mp o F estimate cost slope).trace, s.valueValid = true →
      s.gradValid = true := by
    intro s hs' hv
    have := R.real s hs'
    rw [this] at hv ⊢
    exact hF _ hv
  constructor
  · rcases r4 with h | h
    · exact h
    · exfalso
      rcases List.mem_cons.mp r1 with h' | h'
      · rw [h'] at h; cases h
      · rw [hg _ h' r2] at h; cases h
  · rcases r5 with h | h | h | ⟨s, h, hv⟩
    · exact Or.inl h
    · exact Or.inr (Or.inl h)
    · exact Or.inr (Or.inr h)
    · rw [hg s h hv.1] at hv; cases hv.2

/-- **C17.** If finite costs come with finite slopes, the point returned has the lowest cost of
all points evaluated that decrease the cost sufficiently, except when the iteration limit is
reached at a point whose cost is invalid (`wolfe_forgets_best`).  Missing from the full C17: that
exception, and objectives with infinite slopes (`wolfe_can_violate_decrease`). -/
theorem wolfe_best_partial {mp : List (Sample K X V) → K → K → K} (hmp : StaysInside mp)
    {o : Opts K} (ho : WolfeOpts o) (F : Fn K X V) (cost slope : K) {estimate : K}
    (he : 0 ≤ estimate) (hs : (wolfe mp o F estimate cost slope).status = .success)
    (hF : FiniteSlopes F)
    (hlast : (wolfe mp o F estimate cost slope).numIterations = o.maxNumIterations →
      ∀ s, (wolfe mp o F estimate cost slope).trace.getLast? = some s → s.valueValid = true) :
    BestOf o.sufficientDecrease cost slope (wolfe mp o F estimate cost slope).trace
      (wolfe mp o F estimate cost slope).optimal := by
  have R := wolfe_result hmp ho F cost slope he
  rcases (R.success hs).2.2.2.2.2 with h | ⟨h, s, hl, hv⟩ | ⟨s, hm, hv, hg⟩
  · exact h
  · rw [hlast h s hl] at hv; cases hv
  · have := R.real s hm
    rw [this] at hv hg
    rw [hF _ hv] at hg
    cases hg

/-- **C17.** The number of bracketing and zoom iterations together is bounded by
`max_num_iterations`, each one evaluates the objective once, and the search does not abort if
finite costs come with finite slopes. -/
theorem wolfe_bounded {mp : List (Sample K X V) → K → K → K} (hmp : StaysInside mp)
    {o : Opts K} (ho : WolfeOpts o) (F : Fn K X V) (cost slope : K) {estimate : K}
    (he : 0 ≤ estimate) :
    let S := wolfe mp o F estimate cost slope
    S.trace.length ≤ o.maxNumIterations ∧ S.numIterations = S.trace.length ∧
      S.numFunctionEvaluations = S.trace.length ∧ S.numGradientEvaluations = S.trace.length ∧
      (FiniteSlopes F → S.status ≠ .aborted) := by
  have R := wolfe_result hmp ho F cost slope he
  refine ⟨?_, R.iterations, R.functionEvals, R.gradientEvals, ?_⟩
  · have := R.bounded
    rw [R.iterations] at this
    exact this
  · intro hF ha
    obtain ⟨s, hs, hv, hg⟩ := R.aborts ha
    have := R.real s hs
    rw [this] at hv hg
    rw [hF _ hv] at hg
    cases hg

/-! ### Concrete runs -/

/-- `f(t) = (1 - 4t)²/2` everywhere. -/
def wolfeFn : Fn ℚ ℚ ℚ where
  position := 0
  plus t := some t
  eval x _ := some (.fin ((1 - 4 * x) * (1 - 4 * x) / 2), -4 * (1 - 4 * x))
  slope v := .fin v
  dirNorm := 1

example : WolfeOpts exampleOpts := by
  constructor <;> simp only [exampleOpts] <;> norm_num

example : FiniteSlopes wolfeFn := by
  intro t _
  simp [Fn.evaluate, wolfeFn, Ext.finite]

/-- A run through bracketing and zoom that ends in a strong Wolfe point. -/
example : (wolfe (fun _ lo hi => (lo + hi) / 2) exampleOpts wolfeFn 1 (1 / 2) (-4)).status
      = .success ∧
    (wolfe (fun _ lo hi => (lo + hi) / 2) exampleOpts wolfeFn 1 (1 / 2) (-4)).optimal.x = 1 / 4 ∧
    (wolfe (fun _ lo hi => (lo + hi) / 2) exampleOpts wolfeFn 1 (1 / 2) (-4)).trace.length
      = 3 := by
  decide +kernel

/-! ### What the search does *not* guarantee -/

/-- `f(t) = -t` for `t < 2`, undefined from there on. -/
def cliffFn : Fn ℚ ℚ ℚ where
  position := 0
  plus t := some t
  eval x _ := if x < 2 then some (.fin (-x), -1) else none
  slope v := .fin v
  dirNorm := 1

/-- **Finding.** When the iteration limit is reached at a point whose cost is invalid, the search
reports success with the *starting point* (step zero), although it has evaluated a point with
sufficient decrease and lower cost: the comment at line_search.cc:616-618 (and the full C17)
does not hold. -/
theorem wolfe_forgets_best :
    ∃ (o : Opts ℚ) (F : Fn ℚ ℚ ℚ) (cost slope estimate : ℚ) (s : Sample ℚ ℚ ℚ),
      WolfeOpts o ∧ 0 < estimate ∧ slope < 0 ∧ FiniteSlopes F ∧
      (wolfe (fun _ lo _ => lo) o F estimate cost slope).status = .success ∧
      (wolfe (fun _ lo _ => lo) o F estimate cost slope).optimal.x = 0 ∧
      s ∈ (wolfe (fun _ lo _ => lo) o F estimate cost slope).trace ∧
      Decreases o.sufficientDecrease cost slope s ∧
      s.value < (wolfe (fun _ lo _ => lo) o F estimate cost slope).optimal.value := by
  refine ⟨⟨.bisection, 1 / 10, 1 / 10, 9 / 10, 1 / 1000, 2, 9 / 10, 10⟩, cliffFn, 0, -1, 1,
    cliffFn.evaluate 1 true, ?_, by norm_num, by norm_num, ?_, by decide +kernel,
    by decide +kernel, by decide +kernel, ?_, by decide +kernel⟩
  · constructor <;> norm_num
  · intro t ht
    simp only [Fn.evaluate, cliffFn] at ht ⊢
    split at ht <;> simp_all [Ext.finite]
  · constructor
    · decide +kernel
    · show (cliffFn.evaluate (1 : ℚ) true).value ≤ _
      decide +kernel

/-- `f(t) = -2t` up to `1` with an infinite slope from `1` on. -/
def infiniteFn : Fn ℚ ℚ ℚ where
  position := 0
  plus t := some t
  eval x _ := some (.fin (-2 * x), if x < 1 then 0 else 1)
  slope v := if v = 0 then .fin (-2) else .pinf
  dirNorm := 1

/-- **Finding.** A finite cost with an infinite slope makes the search abort (the `CHECK` at
line_search.cc:706): the bracketing phase tests `gradient >= 0` without looking at
`gradient_is_valid`. -/
theorem wolfe_can_abort :
    ∃ (o : Opts ℚ) (F : Fn ℚ ℚ ℚ) (cost slope estimate : ℚ),
      WolfeOpts o ∧ 0 < estimate ∧ slope < 0 ∧
      (wolfe (fun _ lo _ => lo) o F estimate cost slope).status = .aborted := by
  refine ⟨exampleOpts, infiniteFn, 0, -2, 1, ?_, by norm_num, by norm_num, by decide +kernel⟩
  constructor <;> simp only [exampleOpts] <;> norm_num

/-- `f(0) = 0`, `f(1) = 1` and a tiny decrease with an undefined slope in between. -/
def nanFn : Fn ℚ ℚ ℚ where
  position := 0
  plus t := some t
  eval x _ := some (if x < 1 then .fin (-1 / 1000) else .fin 1, if x < 1 then 0 else 1)
  slope v := if v = 0 then .nan else .fin v
  dirNorm := 1

/-- **Finding.** If the slope is not finite at a point of the zoom phase, the search can report
success with a point that does not decrease the cost sufficiently. -/
theorem wolfe_can_violate_decrease :
    ∃ (o : Opts ℚ) (F : Fn ℚ ℚ ℚ) (cost slope estimate : ℚ),
      WolfeOpts o ∧ 0 < estimate ∧ slope < 0 ∧
      (wolfe (fun _ lo hi => (lo + hi) / 2) o F estimate cost slope).status = .success ∧
      ¬ Decreases o.sufficientDecrease cost slope
        (wolfe (fun _ lo hi => (lo + hi) / 2) o F estimate cost slope).optimal := by
  refine ⟨exampleOpts, nanFn, 0, -2, 1, ?_, by norm_num, by norm_num, by decide +kernel, ?_⟩
  · constructor <;> simp only [exampleOpts] <;> norm_num
  · rintro ⟨_, h⟩
    revert h
    rw [imp_false, not_le]
    decide +kernel

end Ceres.LineSearch
