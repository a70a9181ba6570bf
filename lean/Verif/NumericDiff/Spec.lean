import Verif.NumericDiff.Model
import Mathlib.Analysis.Calculus.Deriv.Add
import Mathlib.Analysis.Calculus.Deriv.Mul
import Mathlib.Analysis.Calculus.Deriv.Slope

/-! # What the numeric differentiation computes -/

namespace Ceres.NumericDiff

noncomputable section

variable {m : ℕ}

/-! ## Specification -/

/-- The parameters with entry `j` of block `b` set to `t`. -/
def at' (P : Params) (b j : ℕ) (t : ℝ) : Params :=
  fun b' j' => if b' = b ∧ j' = j then t else P b' j'

/-- `d` is the symmetric difference quotient with step `h`. -/
def IsCentral (f : Functor m) (P : Params) (b j : ℕ) (h : ℝ) (d : Fin m → ℝ) : Prop :=
  ∃ r r', f (at' P b j (P b j + h)) = some r ∧ f (at' P b j (P b j - h)) = some r'
    ∧ ∀ i, d i = (r i - r' i) / (2 * h)

/-- `d` is the one sided difference quotient with step `h`. -/
def IsForward (f : Functor m) (P : Params) (b j : ℕ) (h : ℝ) (d : Fin m → ℝ) : Prop :=
  ∃ r r', f (at' P b j (P b j + h)) = some r ∧ f P = some r' ∧ ∀ i, d i = (r i - r' i) / h

/-- Entry `k` of row `i` of the Romberg tableau over a first column: Richardson's extrapolation of the
entries to the left and upper left, by the factor `s ^ (2 k)`. -/
def romberg (s : ℝ) (first : ℕ → Fin m → ℝ) : ℕ → ℕ → Fin m → ℝ
  | i, 0 => first i
  | i, k + 1 => fun l => (s ^ (2 * (k + 1)) * romberg s first i k l - romberg s first (i - 1) k l)
      / (s ^ (2 * (k + 1)) - 1)

/-- `d` is one of the entries of the Romberg tableau of symmetric difference quotients with steps
`h`, `h / s`, `h / s²`, ... whose first `n` rows were computed. -/
def IsRidders (f : Functor m) (P : Params) (b j : ℕ) (s h : ℝ) (n : ℕ) (d : Fin m → ℝ) : Prop :=
  ∃ first : ℕ → Fin m → ℝ, ∃ i k, k ≤ i ∧ i < n ∧ (∀ i' ≤ i, IsCentral f P b j (h / s ^ i') (first i'))
    ∧ d = romberg s first i k

/-! ## The parameters are restored -/

theorem set_eq_at (P : Params) (b j : ℕ) (v : ℝ) : P.set b j v = at' P b j v := by
  funext b' j'
  unfold Params.set at'
  by_cases hb : b' = b
  · subst hb
    rw [Function.update_self, Function.update_apply]
    by_cases hj : j' = j <;> simp [hj]
  · rw [Function.update_of_ne hb, if_neg (fun h => hb h.1)]

theorem at_self (P : Params) (b j : ℕ) : at' P b j (P b j) = P := by
  funext b' j'
  unfold at'
  split_ifs with h
  · rw [h.1, h.2]
  · rfl

theorem at_at (P : Params) (b j : ℕ) (t t' : ℝ) : at' (at' P b j t) b j t' = at' P b j t' := by
  funext b' j'
  unfold at'
  split_ifs <;> rfl

/-- One column by a central or forward difference. -/
theorem evaluateJacobianColumn_spec (method : Method) (f : Functor m) (b j : ℕ) (delta : ℝ)
    (r0 : Fin m → ℝ) (P : Params) (residuals : Fin m → ℝ) :
    let c := evaluateJacobianColumn method f b j delta (P b) r0 P residuals
    (c.ok = true → c.params = P)
      ∧ (method ≠ .forward → (c.ok = true ↔ f (at' P b j (P b j + delta)) ≠ none
          ∧ f (at' P b j (P b j - delta)) ≠ none)
        ∧ (c.ok = true → IsCentral f P b j delta c.residuals))
      ∧ (method = .forward → f P = some r0 → (c.ok = true ↔ f (at' P b j (P b j + delta)) ≠ none)
        ∧ (c.ok = true → IsForward f P b j delta c.residuals)) := by
  intro c
  have hc : c = evaluateJacobianColumn method f b j delta (P b) r0 P residuals := rfl
  unfold evaluateJacobianColumn at hc
  simp only [set_eq_at, at_at, at_self] at hc
  cases h1 : f (at' P b j (P b j + delta)) with
  | none =>
    rw [h1] at hc
    simp only at hc
    rw [hc]
    simp
  | some r =>
    rw [h1] at hc
    simp only at hc
    by_cases hm : method = .forward
    · rw [if_neg (by rw [hm]; simp)] at hc
      refine ⟨fun _ => by rw [hc], fun h => absurd hm h, fun _ h0 => ⟨by rw [hc]; simp, fun _ => ?_⟩⟩
      refine ⟨r, r0, h1, h0, fun i => ?_⟩
      rw [hc]
      simp only [Pi.smul_apply, Pi.sub_apply, smul_eq_mul]
      ring
    · rw [if_pos (by cases method <;> simp_all)] at hc
      refine ⟨?_, fun _ => ?_, fun h => absurd h hm⟩
      · intro hok
        cases h2 : f (at' P b j (P b j - delta)) with
        | none => rw [h2] at hc; rw [hc] at hok; simp at hok
        | some r' => rw [h2] at hc; rw [hc]
      · cases h2 : f (at' P b j (P b j - delta)) with
        | none => rw [h2] at hc; rw [hc]; simp
        | some r' =>
          rw [h2] at hc
          refine ⟨by rw [hc]; simp, fun _ => ⟨r, r', h1, h2, fun i => ?_⟩⟩
          rw [hc]
          simp only [Pi.smul_apply, Pi.sub_apply, smul_eq_mul]
          ring

/-! ## Ridders' method -/

/-- The inner loop fills in the row of the tableau and may pick one of its entries. -/
theorem riddersInner_spec (o : Options) (first : ℕ → Fin m → ℝ) (i : ℕ) (prev : ℕ → Fin m → ℝ)
    (hprev : ∀ k < i, prev k = romberg o.riddersStepShrinkFactor first (i - 1) k) :
    ∀ (rem k : ℕ) (cur : ℕ → Fin m → ℝ) (err : ℝ) (res : Fin m → ℝ), 1 ≤ k → rem + k = i + 1 →
      (∀ k' < k, cur k' = romberg o.riddersStepShrinkFactor first i k') →
      let r := riddersInner o prev rem k (o.riddersStepShrinkFactor ^ (2 * k)) cur err res
      (o.riddersEpsilon ≤ r.2.1 →
          ∀ k' ≤ i, r.1 k' = romberg o.riddersStepShrinkFactor first i k')
        ∧ (r.2.2 = res ∨ ∃ k' ≤ i, r.2.2 = romberg o.riddersStepShrinkFactor first i k') := by
  intro rem
  induction rem with
  | zero =>
    intro k cur err res hk hik hcur r
    exact ⟨fun _ k' hk' => hcur k' (by omega), Or.inl rfl⟩
  | succ rem ih =>
    intro k cur err res hk hik hcur r
    set s := o.riddersStepShrinkFactor with hs
    obtain ⟨k0, rfl⟩ : ∃ k0, k = k0 + 1 := ⟨k - 1, by omega⟩
    have hnew : (1 / (s ^ (2 * (k0 + 1)) - 1)) • (s ^ (2 * (k0 + 1)) • cur k0 - prev k0)
        = romberg s first i (k0 + 1) := by
      funext l
      rw [romberg, ← hcur k0 (by omega), ← hprev k0 (by omega)]
      simp only [Pi.smul_apply, Pi.sub_apply, smul_eq_mul]
      ring
    have hfac : s ^ (2 * (k0 + 1)) * (s * s) = s ^ (2 * (k0 + 1 + 1)) := by ring
    let cur' := Function.update cur (k0 + 1) (romberg s first i (k0 + 1))
    have hcur' : ∀ k' < k0 + 1 + 1, cur' k' = romberg s first i k' := by
      intro k' hk'
      by_cases h : k' = k0 + 1
      · subst h; simp [cur']
      · rw [show cur' k' = cur k' from Function.update_of_ne h _ _]
        exact hcur k' (by omega)
    have hr : r = riddersInner o prev (rem + 1) (k0 + 1) (s ^ (2 * (k0 + 1))) cur err res := rfl
    rw [riddersInner] at hr
    simp only [Nat.add_sub_cancel, hnew, ← hs, hfac] at hr
    change r = if max (norm2 (cur' (k0 + 1) - cur' k0)) (norm2 (cur' (k0 + 1) - prev k0)) ≤ err then _
      else _ at hr
    split_ifs at hr with h1 h2
    · rw [hr]
      simp only
      refine ⟨fun h => absurd h (not_le.2 h2), Or.inr ⟨k0 + 1, by omega, ?_⟩⟩
      exact hcur' _ (by omega)
    · have := ih (k0 + 1 + 1) cur'
        (max (norm2 (cur' (k0 + 1) - cur' k0)) (norm2 (cur' (k0 + 1) - prev k0)))
        (cur' (k0 + 1)) (by omega) (by omega) hcur'
      simp only at this
      have hr' : r = riddersInner o prev rem (k0 + 1 + 1) (s ^ (2 * (k0 + 1 + 1))) cur'
        (max (norm2 (cur' (k0 + 1) - cur' k0)) (norm2 (cur' (k0 + 1) - prev k0))) (cur' (k0 + 1)) := hr
      rw [hr']
      refine ⟨this.1, Or.inr ?_⟩
      rcases this.2 with h | h
      · exact ⟨k0 + 1, by omega, h.trans (hcur' _ (by omega))⟩
      · exact h
    · have := ih (k0 + 1 + 1) cur' err res (by omega) (by omega) hcur'
      exact hr ▸ this

/-- The outer loop. -/
theorem riddersOuter_spec (o : Options) (f : Functor m) (b j : ℕ) (r0 : Fin m → ℝ) (P : Params)
    (h0 : ℝ) (n : ℕ) :
    ∀ (rem i : ℕ) (first : ℕ → Fin m → ℝ) (cur prev : ℕ → Fin m → ℝ) (err : ℝ) (res : Fin m → ℝ),
      rem + i = n →
      (∀ i' < i, IsCentral f P b j (h0 / o.riddersStepShrinkFactor ^ i') (first i')) →
      (∀ k < i, prev k = romberg o.riddersStepShrinkFactor first (i - 1) k) →
      (0 < i → IsRidders f P b j o.riddersStepShrinkFactor h0 n res) →
      let c := riddersOuter o f b j (P b) r0 rem i (h0 / o.riddersStepShrinkFactor ^ i) cur prev err P res
      (c.ok = true → c.params = P)
        ∧ (c.ok = true → 0 < n → IsRidders f P b j o.riddersStepShrinkFactor h0 n c.residuals)
        ∧ (c.ok = false → ∃ i' < n, f (at' P b j (P b j + h0 / o.riddersStepShrinkFactor ^ i')) = none
          ∨ f (at' P b j (P b j - h0 / o.riddersStepShrinkFactor ^ i')) = none) := by
  intro rem
  induction rem with
  | zero =>
    intro i first cur prev err res hn hfirst hprev hres c
    refine ⟨fun _ => rfl, fun _ hpos => hres (by omega), fun h => by simp [c, riddersOuter] at h⟩
  | succ rem ih =>
    intro i first cur prev err res hn hfirst hprev hres c
    set s := o.riddersStepShrinkFactor with hs
    have hc : c = riddersOuter o f b j (P b) r0 (rem + 1) i (h0 / s ^ i) cur prev err P res := rfl
    rw [riddersOuter] at hc
    obtain ⟨e1, e2, _⟩ := evaluateJacobianColumn_spec .ridders f b j (h0 / s ^ i) r0 P (cur 0)
    set col := evaluateJacobianColumn .ridders f b j (h0 / s ^ i) (P b) r0 P (cur 0) with hcol
    obtain ⟨e2, e3⟩ := e2 (by simp)
    simp only at hc
    cases hok : col.ok with
    | false =>
      rw [hok] at hc
      simp only [Bool.not_false, if_true] at hc
      rw [hc]
      refine ⟨fun h => by simp at h, fun h => by simp at h, fun _ => ⟨i, by omega, ?_⟩⟩
      by_contra hcon
      push Not at hcon
      rw [e2.2 hcon] at hok
      cases hok
    | true =>
      rw [hok] at hc
      simp only [Bool.not_true, Bool.false_eq_true, if_false] at hc
      rw [e1 hok] at hc
      let first' := Function.update first i col.residuals
      have hfirst' : ∀ i' < i + 1, IsCentral f P b j (h0 / s ^ i') (first' i') := by
        intro i' hi'
        by_cases h : i' = i
        · subst h
          simpa [first'] using e3 hok
        · rw [show first' i' = first i' from Function.update_of_ne h _ _]
          exact hfirst i' (by omega)
      have hrom : ∀ k i', i' < i → romberg s first' i' k = romberg s first i' k := by
        intro k
        induction k with
        | zero =>
          intro i' hi'
          simp only [romberg]
          exact Function.update_of_ne (by omega) _ _
        | succ k ihk =>
          intro i' hi'
          simp only [romberg]
          rw [ihk i' hi', ihk (i' - 1) (by omega)]
      let cur' := Function.update cur 0 col.residuals
      let res' := if i = 0 then cur' 0 else res
      have hcur0 : cur' 0 = romberg s first' i 0 := by simp [cur', first', romberg]
      have hres' : IsRidders f P b j s h0 n res' := by
        by_cases hi : i = 0
        · refine ⟨first', i, 0, by omega, by omega, fun i' hi' => hfirst' i' (by omega), ?_⟩
          simp only [res', if_pos hi]
          exact hcur0
        · simp only [res', if_neg hi]
          exact hres (by omega)
      obtain ⟨r1, r2⟩ := riddersInner_spec o first' i prev
        (fun k hk => by rw [hprev k hk, hrom k (i - 1) (by omega)])
        i 1 cur' err res' le_rfl rfl (fun k' hk' => by
          obtain rfl : k' = 0 := by omega
          exact hcur0)
      rw [mul_one, ← hs, pow_two] at r1 r2
      have hc2 : c = let r := riddersInner o prev i 1 (s * s) cur' err res'
          if r.2.1 < o.riddersEpsilon then ⟨true, P, r.2.2⟩
          else if i > 0 ∧ norm2 (r.1 i - prev (i - 1)) ≥ 2 * r.2.1 then ⟨true, P, r.2.2⟩
          else riddersOuter o f b j (P b) r0 rem (i + 1) (h0 / s ^ i / s) prev r.1 r.2.1 P r.2.2 := hc
      set r := riddersInner o prev i 1 (s * s) cur' err res' with hr
      have hresr : IsRidders f P b j s h0 n r.2.2 := by
        rcases r2 with h | ⟨k', hk', h⟩
        · rw [h]; exact hres'
        · exact ⟨first', i, k', hk', by omega, fun i' hi' => hfirst' i' (by omega), h⟩
      simp only at hc2
      split_ifs at hc2 with h1 h2
      · rw [hc2]
        exact ⟨fun _ => rfl, fun _ _ => hresr, fun h => by simp at h⟩
      · rw [hc2]
        exact ⟨fun _ => rfl, fun _ _ => hresr, fun h => by simp at h⟩
      · have hstep : h0 / s ^ i / s = h0 / s ^ (i + 1) := by rw [div_div, pow_succ]
        rw [hstep] at hc2
        have := ih (i + 1) first' prev r.1 r.2.1 r.2.2 (by omega) hfirst'
          (fun k hk => by
            rw [r1 (not_lt.1 h1) k (by omega)]
            rfl) (fun _ => hresr)
        rw [hc2]
        exact this

end

end Ceres.NumericDiff
