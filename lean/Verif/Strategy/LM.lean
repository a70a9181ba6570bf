import Verif.Strategy.Model
import Verif.TrustRegion.StrategyInv
import Mathlib.Tactic.NormNum
import Mathlib.Tactic.Linarith
import Mathlib.Tactic.FieldSimp
import Mathlib.Tactic.Ring
import Mathlib.Analysis.SpecificLimits.Basic

/-!
# C14, C61: the Levenberg-Marquardt strategy
-/
namespace Ceres.Strategy

open Ceres.TrustRegion

variable {m n : Nat}

/-! ### Specification: sequences of outcomes -/

/-- What the minimizer can tell the strategy about a step. -/
inductive Event where
  | accepted (q : ℝ)
  | rejected (q : ℝ)
  | invalid

/-- The strategy after one event; `none` if a `CHECK` fails. -/
noncomputable def LM.event (s : LM n) : Event → Option (LM n)
  | .accepted q => s.accepted q
  | .rejected q => some (s.rejected q)
  | .invalid => some s.invalid

/-- The strategy after a sequence of events. -/
noncomputable def LM.events (s : LM n) : List Event → Option (LM n)
  | [] => some s
  | e :: l => (s.event e).bind (fun t => t.events l)

/-- The strategy after `k` rejections. -/
noncomputable def LM.rejections (s : LM n) : Nat → LM n
  | 0 => s
  | k + 1 => (s.rejections k).rejected 0

/-! ### Radius -/

/-- What holds of the strategy's scalars at all times. -/
structure LM.Ok (s : LM n) : Prop where
  pos : 0 < s.radius
  le : s.radius ≤ s.maxRadius
  factor : 2 ≤ s.decreaseFactor

theorem LM.divisor_bounds {q : ℝ} (hq : 0 < q) :
    1 / 3 ≤ max (1 / 3 : ℝ) (1 - (2 * q - 1) ^ 3) ∧ max (1 / 3 : ℝ) (1 - (2 * q - 1) ^ 3) < 2 := by
  refine ⟨le_max_left _ _, max_lt (by norm_num) ?_⟩
  have : (-1 : ℝ) ^ 3 < (2 * q - 1) ^ 3 := by
    apply Odd.strictMono_pow (by decide)
    linarith
  norm_num at this
  linarith

theorem LM.accepted_ok {s t : LM n} (h : s.Ok) {q : ℝ} (ht : s.accepted q = some t) : t.Ok := by
  unfold LM.accepted at ht
  split at ht
  · rename_i hq
    simp only [Option.some.injEq] at ht
    subst ht
    obtain ⟨d1, d2⟩ := LM.divisor_bounds hq
    refine ⟨?_, min_le_left _ _, le_refl _⟩
    exact lt_min (lt_of_lt_of_le h.pos h.le) (div_pos h.pos (by linarith))
  · cases ht

theorem LM.rejected_ok {s : LM n} (h : s.Ok) (q : ℝ) : (s.rejected q).Ok := by
  have hf : 0 < s.decreaseFactor := by linarith [h.factor]
  refine ⟨div_pos h.pos hf, ?_, ?_⟩
  · refine le_trans ?_ h.le
    exact div_le_self (le_of_lt h.pos) (by linarith [h.factor])
  · show 2 ≤ s.decreaseFactor * 2
    linarith [h.factor]

/-- **C14 (limits).**  Over every sequence of accepted, rejected and invalid steps, starting from
a positive initial radius not above the maximum, the radius stays positive and at most the
maximum; no sequence of events in which accepted steps have positive quality aborts. -/
theorem lm_radius_limits (radius maxRadius minDiag maxDiag : ℝ) (s : LM n)
    (hs : LM.new radius maxRadius minDiag maxDiag = some s) (h0 : 0 < radius)
    (hle : radius ≤ maxRadius) (l : List Event)
    (hq : ∀ q, Event.accepted q ∈ l → 0 < q) :
    ∃ t, s.events l = some t ∧ 0 < t.radius ∧ t.radius ≤ maxRadius := by
  have hok : s.Ok ∧ s.maxRadius = maxRadius := by
    unfold LM.new at hs
    split at hs
    · simp only [Option.some.injEq] at hs
      subst hs
      exact ⟨⟨h0, hle, le_refl _⟩, rfl⟩
    · cases hs
  clear hs
  induction l generalizing s with
  | nil => exact ⟨s, rfl, hok.1.pos, by rw [← hok.2]; exact hok.1.le⟩
  | cons e l ih =>
    cases e with
    | accepted q =>
      have hq' := hq q (List.mem_cons_self ..)
      have hacc : s.accepted q = some { s with
          radius := min s.maxRadius (s.radius / max (1 / 3) (1 - (2 * q - 1) ^ 3))
          decreaseFactor := 2
          reuse := false } := by
        unfold LM.accepted; rw [if_pos hq']
      simp only [LM.events, LM.event, hacc, Option.bind_some]
      exact ih _ (fun q' h => hq q' (List.mem_cons_of_mem _ h)) ⟨LM.accepted_ok hok.1 hacc, hok.2⟩
    | rejected q =>
      simp only [LM.events, LM.event, Option.bind_some]
      exact ih _ (fun q' h => hq q' (List.mem_cons_of_mem _ h)) ⟨LM.rejected_ok hok.1 q, hok.2⟩
    | invalid =>
      simp only [LM.events, LM.event, Option.bind_some]
      exact ih _ (fun q' h => hq q' (List.mem_cons_of_mem _ h)) ⟨LM.rejected_ok hok.1 0, hok.2⟩

/-- **C14 (acceptance).**  An accepted step grows the radius at most threefold and always keeps
more than half of it, which is the most a rejection can leave; a step of quality at least one
half does not shrink it, and one of quality at least 0.94 triples it (up to the maximum). -/
theorem lm_accepted_radius (s t : LM n) (h : s.Ok) (q : ℝ) (ht : s.accepted q = some t) :
    0 < q ∧ t.radius ≤ 3 * s.radius ∧ s.radius / 2 < t.radius ∧
    (∀ q', (s.rejected q').radius ≤ s.radius / 2) ∧
    (1 / 2 ≤ q → s.radius ≤ t.radius) ∧
    (94 / 100 ≤ q → t.radius = min s.maxRadius (3 * s.radius)) := by
  unfold LM.accepted at ht
  split at ht
  · rename_i hq
    simp only [Option.some.injEq] at ht
    subst ht
    obtain ⟨d1, d2⟩ := LM.divisor_bounds hq
    have hp := h.pos
    have hd : 0 < max (1 / 3 : ℝ) (1 - (2 * q - 1) ^ 3) := by linarith
    refine ⟨hq, ?_, ?_, ?_, ?_, ?_⟩
    · refine le_trans (min_le_right _ _) ?_
      rw [div_le_iff₀ hd]
      nlinarith
    · refine lt_min (by linarith [h.le]) ?_
      rw [lt_div_iff₀ hd]
      nlinarith
    · intro q'
      show s.radius / s.decreaseFactor ≤ s.radius / 2
      exact div_le_div_of_nonneg_left (le_of_lt hp) (by norm_num) h.factor
    · intro hq2
      refine le_min h.le ?_
      rw [le_div_iff₀ hd]
      have : max (1 / 3 : ℝ) (1 - (2 * q - 1) ^ 3) ≤ 1 := by
        refine max_le (by norm_num) ?_
        have : (0 : ℝ) ≤ (2 * q - 1) ^ 3 := pow_nonneg (by linarith) 3
        linarith
      nlinarith
    · intro hq2
      have hm : max (1 / 3 : ℝ) (1 - (2 * q - 1) ^ 3) = 1 / 3 := by
        apply max_eq_left
        have h1 : (88 / 100 : ℝ) ^ 3 ≤ (2 * q - 1) ^ 3 :=
          pow_le_pow_left₀ (by norm_num) (by linarith) 3
        norm_num at h1 ⊢
        linarith
      simp only
      rw [hm]
      congr 1
      ring
  · cases ht

theorem lm_rejections_closed (s : LM n) (k : Nat) :
    (s.rejections k).decreaseFactor = s.decreaseFactor * 2 ^ k ∧
    (s.rejections k).radius * (s.decreaseFactor ^ k * 2 ^ (k * (k - 1) / 2)) = s.radius ∨
    s.decreaseFactor = 0 := by
  by_cases h0 : s.decreaseFactor = 0
  · exact Or.inr h0
  left
  induction k with
  | zero => simp [LM.rejections]
  | succ k ih =>
    obtain ⟨h1, h2⟩ := ih
    constructor
    · show (s.rejections k).decreaseFactor * 2 = _
      rw [h1, pow_succ]
      ring
    · show (s.rejections k).radius / (s.rejections k).decreaseFactor * _ = _
      rw [h1]
      have hexp : (k + 1) * (k + 1 - 1) / 2 = k * (k - 1) / 2 + k := by
        cases k with
        | zero => rfl
        | succ j =>
          simp only [Nat.add_sub_cancel]
          rw [show (j + 1 + 1) * (j + 1) = (j + 1) * j + (j + 1) * 2 by ring,
            Nat.add_mul_div_right _ _ (by norm_num)]
      rw [hexp, ← h2, pow_add]
      have : (2 : ℝ) ^ k ≠ 0 := by positivity
      field_simp
      ring

/-- **C14 (rejections).**  `k` consecutive rejected or invalid steps after an accepted one (or
after the start) divide the radius by `2 * 4 * 8 * ... * 2^k = 2^(k(k+1)/2)`. -/
theorem lm_rejections_radius (s : LM n)
    (h : (∃ a b c d, LM.new a b c d = some s) ∨ ∃ (s' : LM n) (q : ℝ), s'.accepted q = some s)
    (k : Nat) : (s.rejections k).radius = s.radius / 2 ^ (k * (k + 1) / 2) := by
  have hf : s.decreaseFactor = 2 := by
    rcases h with ⟨a, b, c, d, h⟩ | ⟨s', q, h⟩
    · unfold LM.new at h
      split at h
      · simp only [Option.some.injEq] at h; rw [← h]
      · cases h
    · unfold LM.accepted at h
      split at h
      · simp only [Option.some.injEq] at h; rw [← h]
      · cases h
  rcases lm_rejections_closed s k with ⟨-, h⟩ | h
  · rw [hf] at h
    have hexp : k * (k + 1) / 2 = k + k * (k - 1) / 2 := by
      cases k with
      | zero => rfl
      | succ j =>
        simp only [Nat.add_sub_cancel]
        rw [show (j + 1) * (j + 1 + 1) = (j + 1) * j + (j + 1) * 2 by ring,
          Nat.add_mul_div_right _ _ (by norm_num)]
        omega
    rw [hexp, pow_add, eq_div_iff (by positivity)]
    exact h
  · rw [hf] at h
    norm_num at h

/-- **C14 (finitely many rejections).**  For every positive minimum radius there is a number of
consecutive rejections after which the radius is at most that minimum, and it stays so. -/
theorem lm_minimum_reached (s : LM n) (h : s.Ok) (minRadius : ℝ) (hm : 0 < minRadius) :
    ∃ k, ∀ j, k ≤ j → (s.rejections j).radius ≤ minRadius := by
  obtain ⟨k, hk⟩ := pow_unbounded_of_one_lt (s.radius / minRadius) (by norm_num : (1 : ℝ) < 2)
  have hle : ∀ j, (s.rejections j).Ok ∧ (s.rejections j).radius ≤ s.radius / 2 ^ j := by
    intro j
    induction j with
    | zero => exact ⟨h, by simp [LM.rejections]⟩
    | succ j ih =>
      refine ⟨LM.rejected_ok ih.1 0, ?_⟩
      show (s.rejections j).radius / (s.rejections j).decreaseFactor ≤ _
      have h2 := ih.1.factor
      calc (s.rejections j).radius / (s.rejections j).decreaseFactor
          ≤ (s.rejections j).radius / 2 :=
            div_le_div_of_nonneg_left (le_of_lt ih.1.pos) (by norm_num) h2
        _ ≤ s.radius / 2 ^ j / 2 := by linarith [ih.2]
        _ = s.radius / 2 ^ (j + 1) := by rw [pow_succ, div_div]
  refine ⟨k, ?_⟩
  intro j hj
  refine le_trans (hle j).2 ?_
  rw [div_le_iff₀ (by positivity)]
  have h1 : (2 : ℝ) ^ k ≤ 2 ^ j := pow_le_pow_right₀ (by norm_num) hj
  rw [div_lt_iff₀ hm] at hk
  nlinarith

/-! ### The strategy inside the minimizer -/

/-- **C14 (whole runs).**  In every run of the minimizer with this strategy, every radius in the
iteration log is positive and at most the maximum radius. -/
theorem lm_run_radius {X : Type} (o : Opts ℝ) (env : Env X (E n) ℝ) (solve : Solver m n)
    (lin : X → Linearization m n) (radius maxRadius minDiag maxDiag : ℝ) (s0 : LM n)
    (hs : LM.new radius maxRadius minDiag maxDiag = some s0) (h0 : 0 < radius)
    (hle : radius ≤ maxRadius) (x0 : X) (fuel : Nat) (r : St (LM n) X (E n) ℝ)
    (hr : minimize o env (lmStrategy solve lin) s0 x0 fuel = .done r) :
    ∀ it ∈ r.iters, 0 < it.radius ∧ it.radius ≤ maxRadius := by
  have hok : s0.Ok ∧ s0.maxRadius = maxRadius := by
    unfold LM.new at hs
    split at hs
    · simp only [Option.some.injEq] at hs
      subst hs
      exact ⟨⟨h0, hle, le_refl _⟩, rfl⟩
    · cases hs
  have hc : ∀ (s : LM n) (x : X), (s.Ok ∧ s.maxRadius = maxRadius) →
      ((s.compute solve (lin x)).1.Ok ∧ (s.compute solve (lin x)).1.maxRadius = maxRadius) := by
    intro s x ⟨hs1, hs2⟩
    unfold LM.compute LM.refresh
    simp only
    split <;> exact ⟨⟨hs1.pos, hs1.le, hs1.factor⟩, hs2⟩
  apply recorded_radius (fun ρ => 0 < ρ ∧ ρ ≤ maxRadius) _ fuel r hr
  intro s hsh
  have := strategy_invariant (P := fun (st : LM n) (_ : X) => st.Ok ∧ st.maxRadius = maxRadius)
    (fun _ => hok)
    (fun st x q st' _ _ hp _ ha => by
      have h1 := hc st x hp
      refine ⟨LM.accepted_ok h1.1 ha, ?_⟩
      have ha' : ((lmStrategy solve lin).compute st x).1.accepted q = some st' := ha
      unfold LM.accepted at ha'
      split at ha'
      · simp only [Option.some.injEq] at ha'
        rw [← ha']
        exact h1.2
      · cases ha')
    (fun st x q _ hp _ => ⟨LM.rejected_ok (hc st x hp).1 q, (hc st x hp).2⟩)
    (fun st x hp => ⟨LM.rejected_ok (hc st x hp).1 0, (hc st x hp).2⟩) hsh
  exact ⟨this.1.pos, by rw [← this.2]; exact this.1.le⟩

/-- **C14 (damping matches the point).**  Whenever the minimizer asks for a step, the diagonal
used is the clamped squared column norm of the Jacobian at the current point, also when it is
reused after a rejected or invalid step. -/
theorem lm_diagonal_current {X : Type} (o : Opts ℝ) (env : Env X (E n) ℝ) (solve : Solver m n)
    (lin : X → Linearization m n) (radius maxRadius minDiag maxDiag : ℝ) (s0 : LM n)
    (hs : LM.new radius maxRadius minDiag maxDiag = some s0) (x0 : X)
    (s : St (LM n) X (E n) ℝ) (h : Head o env (lmStrategy solve lin) s0 x0 s) :
    (s.strat.refresh (lin s.x)).diag =
      fun i => min (max (sqColNorm (lin s.x) i) minDiag) maxDiag := by
  have hnew : s0.reuse = false ∧ s0.minDiag = minDiag ∧ s0.maxDiag = maxDiag := by
    unfold LM.new at hs
    split at hs
    · simp only [Option.some.injEq] at hs
      subst hs
      exact ⟨rfl, rfl, rfl⟩
    · cases hs
  let P : LM n → X → Prop := fun st x => st.minDiag = minDiag ∧ st.maxDiag = maxDiag ∧
    (st.reuse = true → st.diag = fun i => min (max (sqColNorm (lin x) i) minDiag) maxDiag)
  have href : ∀ st x, P st x → (st.refresh (lin x)).diag =
      fun i => min (max (sqColNorm (lin x) i) minDiag) maxDiag := by
    intro st x ⟨h1, h2, h3⟩
    unfold LM.refresh
    cases hb : st.reuse with
    | true => simp only [if_true]; exact h3 hb
    | false => simp only [Bool.false_eq_true, if_false, h1, h2]
  have hfr : ∀ (st : LM n) (x : X), (st.refresh (lin x)).minDiag = st.minDiag ∧
      (st.refresh (lin x)).maxDiag = st.maxDiag := by
    intro st x
    unfold LM.refresh
    split <;> exact ⟨rfl, rfl⟩
  have hcomp : ∀ st x, P st x → P (st.compute solve (lin x)).1 x := by
    intro st x hp
    exact ⟨(hfr st x).1.trans hp.1, (hfr st x).2.trans hp.2.1, fun _ => href st x hp⟩
  have hinv := strategy_invariant (P := P)
    (fun _ => ⟨hnew.2.1, hnew.2.2, fun hh => by rw [hnew.1] at hh; cases hh⟩)
    (fun st x q st' y _ hp _ ha => by
      have h1 := hcomp st x hp
      have ha' : (st.compute solve (lin x)).1.accepted q = some st' := ha
      unfold LM.accepted at ha'
      split at ha'
      · simp only [Option.some.injEq] at ha'
        rw [← ha']
        exact ⟨h1.1, h1.2.1, fun hh => by cases hh⟩
      · cases ha')
    (fun st x q _ hp _ => ⟨(hcomp st x hp).1, (hcomp st x hp).2.1, fun _ => (hcomp st x hp).2.2 rfl⟩)
    (fun st x hp => ⟨(hcomp st x hp).1, (hcomp st x hp).2.1, fun _ => (hcomp st x hp).2.2 rfl⟩)
    h
  exact href _ _ hinv

/-- **C12/C14 (never aborts).**  With the Levenberg-Marquardt strategy and options the validator
accepts, `Minimize` always returns. -/
theorem lm_minimize_returns {X : Type} (o : Opts ℝ) (env : Env X (E n) ℝ) (solve : Solver m n)
    (lin : X → Linearization m n) (s0 : LM n) (x0 : X) (hcons : Consistent env)
    (hlow : o.lowest ≤ 0) (hq : 0 ≤ o.minRelDecrease) :
    ∃ s, minimize o env (lmStrategy solve lin) s0 x0 (o.maxIter + 1) = .done s := by
  apply minimize_never_aborts o env _ s0 x0 _ hcons hlow hq _ (le_refl _)
  intro st q hq'
  show st.accepted q ≠ none
  unfold LM.accepted
  rw [if_pos hq']
  simp

/-- Non-vacuity: the default-like options build a strategy. -/
example : ∃ s : LM 2, LM.new 10000 (10 ^ 16) (1 / 10 ^ 6) (10 ^ 32) = some s ∧ s.Ok := by
  refine ⟨_, by unfold LM.new; rw [if_pos (by norm_num)], ?_⟩
  exact ⟨by norm_num, by norm_num, by norm_num⟩

/-- **C14 (finding).**  Solver options are accepted with `min_lm_diagonal = 0`
(solver.cc:414 tests `>= 0`), but the constructor's `CHECK_GT` then fails. -/
theorem lm_zero_min_diagonal_aborts (radius maxRadius maxDiag : ℝ) :
    (LM.new radius maxRadius 0 maxDiag : Option (LM n)) = none := by
  unfold LM.new
  rw [if_neg (by simp)]

end Ceres.Strategy
