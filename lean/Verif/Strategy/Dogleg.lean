import Verif.Strategy.LMStep
import Mathlib.Analysis.InnerProductSpace.Basic

/-!
# C15: the traditional dogleg
-/
namespace Ceres.Strategy

open Ceres.TrustRegion

variable {m n : Nat}

/-! ### Specification -/

/-- The dogleg path: from the origin to the Cauchy point `-alpha g`, then to the Gauss-Newton
point `b`. -/
def OnPath {V : Type} [NormedAddCommGroup V] [InnerProductSpace ℝ V] (alpha : ℝ) (g b s : V) :
    Prop :=
  (∃ t : ℝ, 0 ≤ t ∧ t ≤ 1 ∧ s = t • (-(alpha • g))) ∨
  (∃ t : ℝ, 0 ≤ t ∧ t ≤ 1 ∧ s = (1 - t) • (-(alpha • g)) + t • b)

/-- The strategy after one event. -/
noncomputable def Dogleg.event (s : Dogleg n) : Event → Option (Dogleg n)
  | .accepted q => s.accepted q
  | .rejected q => some (s.rejected q)
  | .invalid => some s.invalid

/-- What the user passes to the constructor and the state it gives. -/
structure DoglegOptions where
  radius : ℝ
  maxRadius : ℝ
  minDiag : ℝ
  maxDiag : ℝ

/-! ### The step -/

/-- The interpolation parameter of case 3. -/
theorem dogleg_beta {A B c r : ℝ} (hA : A < r ^ 2) (hB : 0 < B)
    (h1 : r ^ 2 < A + 2 * c + B) :
    let d := Real.sqrt (c * c + B * (r ^ 2 - A))
    let beta := if c ≤ 0 then (d - c) / B else (r * r - A) / (d + c)
    0 < beta ∧ beta < 1 ∧ B * beta ^ 2 + 2 * c * beta = r ^ 2 - A := by
  intro d beta
  have hK : 0 < r ^ 2 - A := by linarith
  have hin : 0 ≤ c * c + B * (r ^ 2 - A) := by nlinarith [mul_self_nonneg c, mul_pos hB hK]
  have hd2 : d * d = c * c + B * (r ^ 2 - A) := Real.mul_self_sqrt hin
  have hd0 : 0 ≤ d := Real.sqrt_nonneg _
  have hdc : |c| < d := by
    apply Real.lt_sqrt_of_sq_lt
    rw [sq_abs]
    nlinarith [mul_pos hB hK]
  have hc1 := (abs_lt.1 hdc).1
  have hc2 := (abs_lt.1 hdc).2
  have hroot : 0 < beta ∧ B * beta ^ 2 + 2 * c * beta = r ^ 2 - A := by
    simp only [beta]
    split
    · have hp : 0 < d - c := by linarith
      refine ⟨div_pos hp hB, ?_⟩
      have hB' : B ≠ 0 := ne_of_gt hB
      field_simp
      nlinarith
    · have hp : 0 < d + c := by linarith
      refine ⟨div_pos (by nlinarith) hp, ?_⟩
      have hp' : d + c ≠ 0 := ne_of_gt hp
      field_simp
      nlinarith
  refine ⟨hroot.1, ?_, hroot.2⟩
  by_contra hge
  push Not at hge
  obtain ⟨hp, he⟩ := hroot
  nlinarith [mul_nonneg (le_of_lt hB) (mul_nonneg (le_of_lt hp) (sub_nonneg.2 hge))]

/-- **C15 (the step).**  For every gradient, Gauss-Newton step, Cauchy multiplier and positive
radius: the scaled dogleg step lies on the dogleg path and in the trust region; it is the
Gauss-Newton step if that fits and on the boundary otherwise; the recorded norm is its norm. -/
theorem dogleg_step_spec {V : Type} [NormedAddCommGroup V] [InnerProductSpace ℝ V]
    (radius alpha : ℝ) (g b : V) (hr : 0 < radius) (ha : 0 ≤ alpha) :
    OnPath alpha g b (doglegStep radius alpha g b).1 ∧
    ‖(doglegStep radius alpha g b).1‖ ≤ radius ∧
    (doglegStep radius alpha g b).2 = ‖(doglegStep radius alpha g b).1‖ ∧
    (‖b‖ ≤ radius → (doglegStep radius alpha g b).1 = b) ∧
    (radius < ‖b‖ → ‖(doglegStep radius alpha g b).1‖ = radius) := by
  by_cases h1 : ‖b‖ ≤ radius
  · have e : doglegStep radius alpha g b = (b, ‖b‖) := by unfold doglegStep; rw [if_pos h1]
    rw [e]
    exact ⟨Or.inr ⟨1, zero_le_one, le_refl _, by simp⟩, h1, rfl, fun _ => rfl,
      fun h => absurd h1 (not_le.2 h)⟩
  by_cases h2 : radius ≤ ‖g‖ * alpha
  · have e : doglegStep radius alpha g b = ((-(radius / ‖g‖)) • g, radius) := by
      unfold doglegStep; rw [if_neg h1, if_pos h2]
    rw [e]
    have hpos : 0 < ‖g‖ * alpha := lt_of_lt_of_le hr h2
    have hg : 0 < ‖g‖ := by
      rcases (norm_nonneg g).lt_or_eq with h | h
      · exact h
      · rw [← h] at hpos; simp at hpos
    have hal : 0 < alpha := by
      rcases ha.lt_or_eq with h | h
      · exact h
      · rw [← h] at hpos; simp at hpos
    have hn : ‖(-(radius / ‖g‖)) • g‖ = radius := by
      rw [norm_smul, norm_neg, norm_div, norm_norm, Real.norm_of_nonneg (le_of_lt hr),
        div_mul_cancel₀ _ (ne_of_gt hg)]
    refine ⟨Or.inl ⟨radius / (‖g‖ * alpha), by positivity, (div_le_one hpos).2 h2, ?_⟩,
      le_of_eq hn, hn.symm, fun h => absurd h h1, fun _ => hn⟩
    rw [smul_neg, smul_smul, ← neg_smul]
    congr 1
    field_simp
  · push Not at h1 h2
    have key := dogleg_beta (A := (alpha * ‖g‖) ^ 2)
      (B := (alpha * ‖g‖) ^ 2 - 2 * (-alpha * inner ℝ g b) + ‖b‖ ^ 2)
      (c := -alpha * inner ℝ g b - (alpha * ‖g‖) ^ 2) (r := radius)
      (by
        have : 0 ≤ alpha * ‖g‖ := mul_nonneg ha (norm_nonneg g)
        nlinarith)
      (by
        have hne : b + alpha • g ≠ 0 := by
          intro h
          have hb : b = -(alpha • g) := eq_neg_of_add_eq_zero_left h
          rw [hb, norm_neg, norm_smul, Real.norm_of_nonneg ha] at h1
          nlinarith [norm_nonneg g]
        have : 0 < ‖b + alpha • g‖ ^ 2 := by positivity
        rw [norm_add_sq_real, norm_smul, Real.norm_of_nonneg ha, inner_smul_right,
          real_inner_comm] at this
        linarith)
      (by nlinarith [norm_nonneg b])
    simp only at key
    have e : doglegStep radius alpha g b =
        (let bDotA := -alpha * inner ℝ g b
         let aSq := (alpha * ‖g‖) ^ 2
         let bma := aSq - 2 * bDotA + ‖b‖ ^ 2
         let c := bDotA - aSq
         let d := Real.sqrt (c * c + bma * (radius ^ 2 - aSq))
         let beta := if c ≤ 0 then (d - c) / bma else (radius * radius - aSq) / (d + c)
         let s := (-alpha * (1 - beta)) • g + beta • b
         (s, ‖s‖)) := by
      unfold doglegStep; rw [if_neg (not_le.2 h1), if_neg (not_le.2 h2)]
    rw [e]
    simp only
    generalize (if -alpha * inner ℝ g b - (alpha * ‖g‖) ^ 2 ≤ 0 then _ else _ : ℝ) = beta at key ⊢
    obtain ⟨k1, k2, k3⟩ := key
    have hn : ‖(-alpha * (1 - beta)) • g + beta • b‖ = radius := by
      have hsq : ‖(-alpha * (1 - beta)) • g + beta • b‖ ^ 2 = radius ^ 2 := by
        rw [norm_add_sq_real, norm_smul, norm_smul, inner_smul_left, inner_smul_right, mul_pow,
          mul_pow, Real.norm_eq_abs, Real.norm_eq_abs, sq_abs, sq_abs]
        simp only [conj_trivial]
        nlinarith
      nlinarith [norm_nonneg ((-alpha * (1 - beta)) • g + beta • b)]
    refine ⟨Or.inr ⟨beta, le_of_lt k1, le_of_lt k2, ?_⟩, le_of_eq hn, trivial,
      fun h => absurd h (not_le.2 h1), fun _ => hn⟩
    congr 1
    rw [smul_neg, smul_smul, ← neg_smul]
    congr 1
    ring

/-- Non-vacuity: each of the three cases occurs. -/
example : ‖(1 : ℝ)‖ ≤ (2 : ℝ) ∧ (¬ ‖(3 : ℝ)‖ ≤ (2 : ℝ)) ∧ (2 : ℝ) ≤ ‖(-1 : ℝ)‖ * 2 ∧
    ¬ (2 : ℝ) ≤ ‖(-1 : ℝ)‖ * 1 := by
  norm_num

/-! ### The Gauss-Newton loop -/

/-- **C15 (the regularisation loop ends).**  From any multiplier at least `1e-8` the loop that
retries the Gauss-Newton solve with growing regularisation takes at most eight solves, whatever
the linear solver answers. -/
theorem gnLoop_terminates (solve : Solver m n) (L : Linearization m n) (diag : Fin n → ℝ) (mu : ℝ)
    (hmu : 1 / 10 ^ 8 ≤ mu) : ∃ p, gnLoop solve L diag 9 mu = some p := by
  have step : ∀ k : Nat, ∀ mu : ℝ, 1 / 10 ^ k ≤ mu →
      ∃ p, gnLoop solve L diag (k + 1) mu = some p := by
    intro k
    induction k with
    | zero =>
      intro mu h
      unfold gnLoop
      rw [if_neg (by simp at h; linarith)]
      exact ⟨_, rfl⟩
    | succ k ih =>
      intro mu h
      unfold gnLoop
      split
      · split
        · exact ⟨_, rfl⟩
        · apply ih
          rw [pow_succ] at h
          have h10 : (0 : ℝ) < 10 ^ k := by positivity
          rw [div_le_iff₀ (by positivity)] at h ⊢
          nlinarith
        · exact ⟨_, rfl⟩
      · exact ⟨_, rfl⟩
  exact step 8 mu hmu

/-- The multiplier never decreases in the loop, and a step is a solution for the multiplier
reached. -/
theorem gnLoop_spec (solve : Solver m n) (L : Linearization m n) (diag : Fin n → ℝ) (fuel : Nat)
    (mu : ℝ) (hmu : 0 < mu) (p : ℝ × StepOut (E n)) (h : gnLoop solve L diag fuel mu = some p) :
    mu ≤ p.1 ∧ ∀ y, p.2 = .step y →
      p.1 < 1 ∧ solve L (fun i => diag i * Real.sqrt p.1) = .step y := by
  induction fuel generalizing mu with
  | zero => cases h
  | succ f ih =>
    unfold gnLoop at h
    split at h
    · rename_i hlt
      split at h
      · cases h; exact ⟨le_refl _, fun y hy => by cases hy⟩
      · have := ih (mu * 10) (by positivity) h
        exact ⟨by linarith [this.1], this.2⟩
      · rename_i y hy
        cases h
        refine ⟨le_refl _, fun y' hy' => ?_⟩
        cases hy'
        exact ⟨hlt, hy⟩
    · cases h; exact ⟨le_refl _, fun y hy => by cases hy⟩

/-! ### Along a run -/

/-- Scaling diagonal, scaled gradient and Cauchy multiplier of a linearization. -/
noncomputable def doglegDiag (minDiag maxDiag : ℝ) (L : Linearization m n) (i : Fin n) : ℝ :=
  Real.sqrt (min (max (∑ k, L.J k i ^ 2) minDiag) maxDiag)

/-- `D^-1 J^T r`. -/
noncomputable def doglegGradient (minDiag maxDiag : ℝ) (L : Linearization m n) : E n :=
  vec fun i => (∑ k, L.J k i * L.r k) / doglegDiag minDiag maxDiag L i

/-- `|g|^2 / |J D^-1 g|^2`. -/
noncomputable def doglegAlpha (minDiag maxDiag : ℝ) (L : Linearization m n) : ℝ :=
  ‖doglegGradient minDiag maxDiag L‖ ^ 2 /
    ∑ k, (∑ i, L.J k i * (doglegGradient minDiag maxDiag L i / doglegDiag minDiag maxDiag L i)) ^ 2

theorem Dogleg.refresh_eq (s : Dogleg n) (L : Linearization m n) :
    s.refresh L = { s with
      diag := doglegDiag s.minDiag s.maxDiag L
      grad := doglegGradient s.minDiag s.maxDiag L
      alpha := doglegAlpha s.minDiag s.maxDiag L } := by
  unfold Dogleg.refresh doglegAlpha doglegGradient
  simp only [Dogleg.mk.injEq, true_and, and_true]
  refine ⟨rfl, rfl, ?_⟩
  congr 1
  simp only [dotProduct, Matrix.mulVec]
  exact Finset.sum_congr rfl fun k _ => by rw [sq]; rfl

/-- The state is that of the current point: a Gauss-Newton step obtained from the linear solver
at this point, with some regularisation, is stored together with the scaling, the gradient and
the Cauchy multiplier. -/
structure Dogleg.Fresh (solve : Solver m n) (s : Dogleg n) (L : Linearization m n) : Prop where
  diag : s.diag = doglegDiag s.minDiag s.maxDiag L
  grad : s.grad = doglegGradient s.minDiag s.maxDiag L
  alpha : s.alpha = doglegAlpha s.minDiag s.maxDiag L
  gn : ∃ mu y, 0 < mu ∧ mu < 1 ∧
    solve L (fun i => s.diag i * Real.sqrt mu) = .step y ∧
    s.gn = vec fun i => -(s.diag i * y i)

/-- What holds of the strategy at every call of `ComputeStep`. -/
structure Dogleg.Ok (solve : Solver m n) (o : DoglegOptions) (s : Dogleg n)
    (L : Linearization m n) : Prop where
  pos : 0 < s.radius
  mu : 1 / 10 ^ 8 ≤ s.mu
  minDiag : s.minDiag = o.minDiag
  maxDiag : s.maxDiag = o.maxDiag
  fresh : s.reuse = true → s.Fresh solve L

theorem doglegAlpha_nonneg (a b : ℝ) (L : Linearization m n) : 0 ≤ doglegAlpha a b L :=
  div_nonneg (sq_nonneg _) (Finset.sum_nonneg fun _ _ => sq_nonneg _)

/-- What a call of `ComputeStep` does. -/
theorem Dogleg.compute_spec (solve : Solver m n) (o : DoglegOptions) (s : Dogleg n)
    (L : Linearization m n) (h : s.Ok solve o L) :
    (s.compute solve L).1.radius = s.radius ∧ 1 / 10 ^ 8 ≤ (s.compute solve L).1.mu ∧
    (s.compute solve L).1.minDiag = o.minDiag ∧ (s.compute solve L).1.maxDiag = o.maxDiag ∧
    (∀ st, (s.compute solve L).2 = .step st →
      (s.compute solve L).1.Fresh solve L ∧ (s.compute solve L).1.reuse = true ∧
      (doglegStep s.radius (s.compute solve L).1.alpha (s.compute solve L).1.grad
        (s.compute solve L).1.gn).2 = (s.compute solve L).1.stepNorm ∧
      st = vec fun i => (doglegStep s.radius (s.compute solve L).1.alpha
        (s.compute solve L).1.grad (s.compute solve L).1.gn).1 i / (s.compute solve L).1.diag i) := by
  by_cases hre : s.reuse = true
  · have e : s.compute solve L =
        ({ s with stepNorm := (doglegStep s.radius s.alpha s.grad s.gn).2 },
          .step (vec (fun i => (doglegStep s.radius s.alpha s.grad s.gn).1 i / s.diag i))) := by
      unfold Dogleg.compute; rw [if_pos hre]
    rw [e]
    refine ⟨rfl, h.mu, h.minDiag, h.maxDiag, fun st hst => ?_⟩
    simp only [StepOut.step.injEq] at hst
    refine ⟨?_, hre, rfl, hst.symm⟩
    have hf := h.fresh hre
    exact ⟨hf.diag, hf.grad, hf.alpha, hf.gn⟩
  · obtain ⟨⟨mu, out⟩, hp⟩ := gnLoop_terminates solve L
      (doglegDiag s.minDiag s.maxDiag L) s.mu h.mu
    have hmu0 : 0 < s.mu := lt_of_lt_of_le (by norm_num) h.mu
    have sp := gnLoop_spec solve L _ 9 s.mu hmu0 _ hp
    have hmu' : 1 / 10 ^ 8 ≤ mu := le_trans h.mu sp.1
    unfold Dogleg.compute
    rw [if_neg hre]
    simp only [Dogleg.refresh_eq, hp]
    cases out with
    | fatal => exact ⟨rfl, hmu', h.minDiag, h.maxDiag, fun st hst => by cases hst⟩
    | failure => exact ⟨rfl, hmu', h.minDiag, h.maxDiag, fun st hst => by cases hst⟩
    | step y =>
      refine ⟨rfl, hmu', h.minDiag, h.maxDiag, fun st hst => ?_⟩
      simp only [StepOut.step.injEq] at hst
      refine ⟨⟨rfl, rfl, rfl, mu, y, lt_of_lt_of_le hmu0 sp.1, (sp.2 y rfl).1, (sp.2 y rfl).2, ?_⟩,
        rfl, rfl, hst.symm⟩
      show vec _ = vec _
      congr 1
      funext i
      ring

theorem Dogleg.accepted_spec {s t : Dogleg n} {q : ℝ} (h : s.accepted q = some t) :
    0 < q ∧ t.minDiag = s.minDiag ∧ t.maxDiag = s.maxDiag ∧ t.reuse = false ∧
    t.mu = max (1 / 10 ^ 8) (2 * s.mu / 10) ∧
    t.radius = (if 3 / 4 < q then max s.radius (3 * s.stepNorm)
      else if q < 1 / 4 then s.radius / 2 else s.radius) := by
  unfold Dogleg.accepted at h
  split at h
  · rename_i hq
    simp only [Option.some.injEq] at h
    subst h
    refine ⟨hq, rfl, rfl, rfl, rfl, ?_⟩
    simp only
    by_cases h1 : 3 / 4 < q
    · rw [if_pos h1, if_pos h1, if_neg (by linarith)]
    · rw [if_neg h1, if_neg h1]
      split
      · ring
      · rfl
  · cases h

theorem dogleg_ok {X : Type} (o : Opts ℝ) (env : Env X (E n) ℝ) (solve : Solver m n)
    (lin : X → Linearization m n) (d : DoglegOptions) (s0 : Dogleg n)
    (hs : Dogleg.new d.radius d.maxRadius d.minDiag d.maxDiag = some s0) (h0 : 0 < d.radius)
    (x0 : X) (s : St (Dogleg n) X (E n) ℝ)
    (h : Head o env (doglegStrategy solve lin) s0 x0 s) :
    s.strat.Ok solve d (lin s.x) := by
  refine strategy_invariant (P := fun st x => st.Ok solve d (lin x)) ?_ ?_ ?_ ?_ h
  · intro x
    unfold Dogleg.new at hs
    split at hs
    · simp only [Option.some.injEq] at hs
      subst hs
      exact ⟨h0, le_refl _, rfl, rfl, fun hh => by cases hh⟩
    · cases hs
  · intro st x q st' y dd hp hd ha
    obtain ⟨c1, c2, c3, c4, c5⟩ := Dogleg.compute_spec solve d st (lin x) hp
    obtain ⟨a1, a2, a3, a4, a5, a6⟩ := Dogleg.accepted_spec
      (show (st.compute solve (lin x)).1.accepted q = some st' from ha)
    refine ⟨?_, by rw [a5]; exact le_max_left _ _, a2.trans c3, a3.trans c4,
      fun hh => by rw [a4] at hh; cases hh⟩
    have hr : 0 < (st.compute solve (lin x)).1.radius := by rw [c1]; exact hp.pos
    rw [a6]
    split
    · exact lt_max_of_lt_left hr
    · split
      · linarith
      · exact hr
  · intro st x q dd hp hd
    obtain ⟨c1, c2, c3, c4, c5⟩ := Dogleg.compute_spec solve d st (lin x) hp
    have hf := (c5 dd hd).1
    have hr : 0 < (st.compute solve (lin x)).1.radius := by rw [c1]; exact hp.pos
    refine ⟨?_, c2, c3, c4, fun _ => ⟨hf.diag, hf.grad, hf.alpha, hf.gn⟩⟩
    show 0 < (st.compute solve (lin x)).1.radius * (1 / 2)
    linarith
  · intro st x hp
    obtain ⟨c1, c2, c3, c4, c5⟩ := Dogleg.compute_spec solve d st (lin x) hp
    have hr : 0 < (st.compute solve (lin x)).1.radius := by rw [c1]; exact hp.pos
    refine ⟨hr, ?_, c3, c4, fun hh => by cases hh⟩
    show _ ≤ (st.compute solve (lin x)).1.mu * 10
    linarith [show (0 : ℝ) < 1 / 10 ^ 8 by norm_num]

/-- **C15 (every step of every run).**  Whenever the minimizer asks the strategy for a step and
gets one, the step scaled by the diagonal of the current point is on the dogleg path of the
current point's gradient and of a regularised Gauss-Newton step of the current point, is no
longer than the radius, and is the Gauss-Newton step if that fits; also when the stored vectors
are reused after a rejected step. -/
theorem dogleg_run_step {X : Type} (o : Opts ℝ) (env : Env X (E n) ℝ) (solve : Solver m n)
    (lin : X → Linearization m n) (d : DoglegOptions) (s0 : Dogleg n)
    (hs : Dogleg.new d.radius d.maxRadius d.minDiag d.maxDiag = some s0) (h0 : 0 < d.radius)
    (x0 : X) (s : St (Dogleg n) X (E n) ℝ) (h : Head o env (doglegStrategy solve lin) s0 x0 s)
    (st : E n) (hst : (s.strat.compute solve (lin s.x)).2 = .step st) :
    ∃ (mu : ℝ) (y : E n) (scaled : E n), 0 < mu ∧ mu < 1 ∧
      solve (lin s.x) (fun i => doglegDiag d.minDiag d.maxDiag (lin s.x) i * Real.sqrt mu)
        = .step y ∧
      (∀ i, scaled i = doglegDiag d.minDiag d.maxDiag (lin s.x) i * st i) ∧
      OnPath (doglegAlpha d.minDiag d.maxDiag (lin s.x))
        (doglegGradient d.minDiag d.maxDiag (lin s.x))
        (vec fun i => -(doglegDiag d.minDiag d.maxDiag (lin s.x) i * y i)) scaled ∧
      ‖scaled‖ ≤ s.strat.radius ∧
      (‖(vec fun i => -(doglegDiag d.minDiag d.maxDiag (lin s.x) i * y i) : E n)‖ ≤ s.strat.radius →
        st = -y) := by
  have hok := dogleg_ok o env solve lin d s0 hs h0 x0 s h
  obtain ⟨c1, c2, c3, c4, c5⟩ := Dogleg.compute_spec solve d s.strat (lin s.x) hok
  obtain ⟨hf, -, -, hst'⟩ := c5 st hst
  obtain ⟨f1, f2, f3, mu, y, m1, m2, f4, f5⟩ := hf
  rw [c3, c4] at f1 f2 f3
  rw [f1] at f4 f5
  rw [f1, f2, f3, f5] at hst'
  have hdpos : ∀ i, doglegDiag d.minDiag d.maxDiag (lin s.x) i ≠ 0 := by
    intro i
    have hm : 0 < d.minDiag ∧ d.minDiag ≤ d.maxDiag := by
      unfold Dogleg.new at hs
      split at hs
      · rename_i hc; exact ⟨hc.1, hc.2.1⟩
      · cases hs
    apply ne_of_gt
    unfold doglegDiag
    apply Real.sqrt_pos.2
    exact lt_min (lt_max_of_lt_right hm.1) (lt_of_lt_of_le hm.1 hm.2)
  have sp := dogleg_step_spec s.strat.radius (doglegAlpha d.minDiag d.maxDiag (lin s.x))
    (doglegGradient d.minDiag d.maxDiag (lin s.x))
    (vec fun i => -(doglegDiag d.minDiag d.maxDiag (lin s.x) i * y i) : E n) hok.pos
    (doglegAlpha_nonneg _ _ _)
  refine ⟨mu, y, _, m1, m2, f4, ?_, sp.1, sp.2.1, ?_⟩
  · intro i
    rw [hst']
    simp only
    rw [mul_div_cancel₀ _ (hdpos i)]
  · intro hle
    have := sp.2.2.2.1 hle
    rw [hst', this]
    ext i
    simp only [PiLp.neg_apply]
    have := hdpos i
    field_simp

/-- **C15 (radius).**  In every run every recorded radius is positive. -/
theorem dogleg_run_radius {X : Type} (o : Opts ℝ) (env : Env X (E n) ℝ) (solve : Solver m n)
    (lin : X → Linearization m n) (d : DoglegOptions) (s0 : Dogleg n)
    (hs : Dogleg.new d.radius d.maxRadius d.minDiag d.maxDiag = some s0) (h0 : 0 < d.radius)
    (x0 : X) (fuel : Nat) (r : St (Dogleg n) X (E n) ℝ)
    (hr : minimize o env (doglegStrategy solve lin) s0 x0 fuel = .done r) :
    ∀ it ∈ r.iters, 0 < it.radius :=
  recorded_radius (fun ρ => 0 < ρ)
    (fun s h => (dogleg_ok o env solve lin d s0 hs h0 x0 s h).pos) fuel r hr

/-- **C15 (radius updates).**  From a reachable state in which a step was computed: a rejection
halves the radius; an invalid step keeps it; an accepted step changes it to one of: half, the
same, or at most three times; it shrinks only for quality below 1/4 and grows only for quality
above 3/4, to three times the step's length if that is more. -/
theorem dogleg_radius_updates (solve : Solver m n) (d : DoglegOptions) (s : Dogleg n)
    (L : Linearization m n) (h : s.Ok solve d L) (st : E n)
    (hst : (s.compute solve L).2 = .step st) :
    (∀ q, ((s.compute solve L).1.rejected q).radius = s.radius / 2) ∧
    ((s.compute solve L).1.invalid).radius = s.radius ∧
    ∀ q t, (s.compute solve L).1.accepted q = some t → 0 < q ∧
      s.radius / 2 ≤ t.radius ∧ t.radius ≤ 3 * s.radius ∧
      (t.radius < s.radius → q < 1 / 4 ∧ t.radius = s.radius / 2) ∧
      (s.radius < t.radius → 3 / 4 < q ∧ t.radius = 3 * (s.compute solve L).1.stepNorm) ∧
      (s.compute solve L).1.stepNorm ≤ s.radius := by
  obtain ⟨c1, c2, c3, c4, c5⟩ := Dogleg.compute_spec solve d s L h
  obtain ⟨hf, -, hn, -⟩ := c5 st hst
  have hpos := h.pos
  have hsp := dogleg_step_spec s.radius (s.compute solve L).1.alpha (s.compute solve L).1.grad
    (s.compute solve L).1.gn h.pos (by rw [hf.alpha]; exact doglegAlpha_nonneg _ _ _)
  have hle : (s.compute solve L).1.stepNorm ≤ s.radius := by
    rw [← hn, hsp.2.2.1]; exact hsp.2.1
  refine ⟨fun q => ?_, c1, fun q t ht => ?_⟩
  · show (s.compute solve L).1.radius * (1 / 2) = _
    rw [c1]; ring
  · obtain ⟨a1, -, -, -, -, a6⟩ := Dogleg.accepted_spec ht
    rw [c1] at a6
    refine ⟨a1, ?_, ?_, ?_, ?_, hle⟩
    · rw [a6]
      split
      · exact le_max_of_le_left (by linarith)
      · split <;> linarith
    · rw [a6]
      split
      · exact max_le (by linarith) (by linarith)
      · split <;> linarith
    · rw [a6]
      split
      · intro hlt; exact absurd (le_max_left _ _) (not_le.2 hlt)
      · split
        · rename_i hq; exact fun _ => ⟨hq, rfl⟩
        · intro hlt; exact absurd hlt (lt_irrefl _)
    · rw [a6]
      split
      · rename_i hq
        intro hlt
        refine ⟨hq, ?_⟩
        rcases le_total s.radius (3 * (s.compute solve L).1.stepNorm) with hh | hh
        · exact max_eq_right hh
        · rw [max_eq_left hh] at hlt; exact absurd hlt (lt_irrefl _)
      · split
        · intro hlt; linarith
        · intro hlt; exact absurd hlt (lt_irrefl _)

/-- **C15 (no abort).** -/
theorem dogleg_minimize_returns {X : Type} (o : Opts ℝ) (env : Env X (E n) ℝ) (solve : Solver m n)
    (lin : X → Linearization m n) (s0 : Dogleg n) (x0 : X) (hcons : Consistent env)
    (hlow : o.lowest ≤ 0) (hq : 0 ≤ o.minRelDecrease) :
    ∃ s, minimize o env (doglegStrategy solve lin) s0 x0 (o.maxIter + 1) = .done s := by
  apply minimize_never_aborts o env _ s0 x0 _ hcons hlow hq _ (le_refl _)
  intro st q hq'
  show st.accepted q ≠ none
  unfold Dogleg.accepted
  rw [if_pos hq']
  simp

/-- **C15 (finding).**  The maximum radius is not enforced: a good step whose length is the
radius, taken when the radius is the maximum, gives three times the maximum. -/
theorem dogleg_exceeds_max : ∃ (s t : Dogleg 1) (q : ℝ), s.radius = s.maxRadius ∧
    0 < s.radius ∧ s.stepNorm ≤ s.radius ∧ s.accepted q = some t ∧ t.radius = 3 * t.maxRadius := by
  refine ⟨⟨1, 1, 1, 1, 1 / 10 ^ 8, 1, true, fun _ => 1, 0, 0, 0⟩, _, 1, rfl, by norm_num,
    by norm_num, by unfold Dogleg.accepted; rw [if_pos one_pos], ?_⟩
  norm_num

/-- **C15 (finding).**  Once the regularisation multiplier has reached 1, every further request
for a new step fails, whatever the linear solver would answer, and the multiplier stays there:
the strategy has no way back. -/
theorem dogleg_mu_stuck (solve : Solver m n) (s : Dogleg n) (L : Linearization m n)
    (hmu : 1 ≤ s.mu) (hre : s.reuse = false) :
    (s.compute solve L).2 = .failure ∧ 1 ≤ (s.compute solve L).1.invalid.mu ∧
      (s.compute solve L).1.invalid.reuse = false := by
  have e : gnLoop solve L (s.refresh L).diag 9 s.mu = some (s.mu, .failure) := by
    unfold gnLoop; rw [if_neg (not_lt.2 hmu)]
  have e' : s.compute solve L =
      ({ s.refresh L with
          reuse := true
          mu := s.mu }, .failure) := by
    unfold Dogleg.compute
    rw [if_neg (by rw [hre]; simp)]
    simp only [e]
  rw [e']
  refine ⟨rfl, ?_, rfl⟩
  show 1 ≤ s.mu * 10
  linarith

/-- Non-vacuity: default-like options build a strategy. -/
example : ∃ s : Dogleg 2, Dogleg.new 10000 (10 ^ 16) (1 / 10 ^ 6) (10 ^ 32) = some s ∧
    ∀ (solve : Solver 3 2) (L : Linearization 3 2),
      s.Ok solve ⟨10000, 10 ^ 16, 1 / 10 ^ 6, 10 ^ 32⟩ L := by
  refine ⟨_, by unfold Dogleg.new; rw [if_pos (by norm_num)], fun solve L => ?_⟩
  exact ⟨by norm_num, by norm_num, rfl, rfl, fun h => by cases h⟩

end Ceres.Strategy
