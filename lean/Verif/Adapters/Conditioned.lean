import Verif.Adapters.Spec
import Mathlib.Analysis.Calculus.Deriv.Comp
import Mathlib.Analysis.Calculus.FDeriv.Mul
import Mathlib.Tactic.Ring
import Mathlib.Tactic.Linarith

/-!
# C81: NormalPrior and ConditionedCostFunction
-/
namespace Ceres.Adapters

open Ceres.NumericDiff (Params)

noncomputable section

/-! ## NormalPrior -/

/-- **NormalPrior** computes `A (x - b)` with Jacobian `A`. -/
theorem normal_prior {rows n : ℕ} (hr : 0 < rows) (hn : 0 < n) (A : ℕ → ℕ → ℝ) (b : ℕ → ℝ) :
    ∃ c, normalPrior rows n n A b = some c ∧ c.sizes = [n] ∧ c.numResiduals = rows ∧
      Computes c (fun _ => True) (fun p i => ∑ j ∈ Finset.range n, A i j * (p 0 j - b j)) (fun _ i _ j => A i j) ∧
      ∀ p, IsJacobian [n] rows (fun p i => ∑ j ∈ Finset.range n, A i j * (p 0 j - b j)) (fun i _ j => A i j) p := by
  unfold normalPrior
  rw [if_pos ⟨hn, hr, rfl⟩]
  refine ⟨_, rfl, rfl, rfl, ⟨fun _ _ _ => by simp, fun p res js _ r hr => ?_, fun p res js r hr => ?_,
    fun _ _ => rfl, fun p res js => ⟨_, rfl, fun i => ?_⟩, fun p p' h => ?_⟩, fun p r _ => ?_⟩
  · simp only at hr ⊢; rw [if_pos hr]
  · simp only at hr ⊢; rw [if_neg (by omega)]
  · by_cases hi : i = 0
    · subst hi
      rw [Function.update_self]
      refine ⟨fun h => by rw [h]; rfl, fun a ha => ⟨_, by rw [ha]; rfl, ?_, ?_⟩⟩
      · intro _ _ r hr k hk
        simp only [List.getD_cons_zero] at hr hk ⊢
        have h1 : r * n + k < rows * n := by nlinarith
        rw [if_pos h1, Nat.mul_comm r n, Nat.mul_add_div (by omega), Nat.div_eq_of_lt hk, Nat.add_zero,
          Nat.mul_add_mod, Nat.mod_eq_of_lt hk]
      · intro q hq
        simp only [List.getD_cons_zero, List.length_singleton] at hq ⊢
        rw [if_neg (by omega)]
    · rw [Function.update_of_ne hi]
      refine ⟨fun h => h, fun a ha => ⟨a, ha, fun _ h => ?_, fun _ _ => rfl⟩⟩
      simp only [List.length_singleton] at h
      omega
  · refine ⟨Iff.rfl, fun r => ?_, fun _ _ _ => rfl⟩
    exact Finset.sum_congr rfl fun j hj => by rw [h 0 (by simp) j (by simpa using hj)]
  · simp only
    have e : ∀ x : Coord [n] → ℝ, ∑ j ∈ Finset.range n, A r j * (toParams x 0 j - b j) =
        ∑ s : Coord [n], A r s.2 * x s - ∑ j ∈ Finset.range n, A r j * b j := by
      intro x
      rw [Fintype.sum_sigma]
      simp only [List.length_singleton, Fin.sum_univ_one, Fin.isValue]
      rw [Finset.sum_range, Finset.sum_range]
      refine Eq.trans ?_ (Finset.sum_sub_distrib (f := fun j : Fin n => A r j * x ⟨0, j⟩)
        (g := fun j : Fin n => A r j * b j))
      refine Finset.sum_congr rfl fun j _ => ?_
      unfold toParams
      rw [dif_pos ⟨by simp, j.2⟩, mul_sub]
      rfl
    have h1 : HasFDerivAt (fun x : Coord [n] → ℝ => ∑ s : Coord [n], A r s.2 * x s -
        ∑ j ∈ Finset.range n, A r j * b j)
        (∑ s : Coord [n], A r s.2 • (ContinuousLinearMap.proj s : (Coord [n] → ℝ) →L[ℝ] ℝ)) (ofParams [n] p) := by
      refine HasFDerivAt.sub_const _ ?_
      refine HasFDerivAt.fun_sum fun s _ => ?_
      exact (ContinuousLinearMap.proj s : (Coord [n] → ℝ) →L[ℝ] ℝ).hasFDerivAt.const_mul _
    refine h1.congr_of_eventuallyEq (Filter.Eventually.of_forall fun x => ?_)
    exact e x

/-! ## ConditionedCostFunction -/

/-- What conditioning the rows from `a` up to `b` does to the Jacobians. -/
structure Scaled (sizes : List ℕ) (a b : ℕ) (φ' : ℕ → ℝ → ℝ) (res : ℕ → ℝ) (ok : Bool) (js js' : Jacs) : Prop where
  null : js = none → js' = none
  blocks : ∀ j, js = some j → ∃ j', js' = some j' ∧ ∀ i, (j i = none → j' i = none) ∧
    ∀ m, j i = some m → ∃ m', j' i = some m' ∧
      (ok = true → i < sizes.length → ∀ r k, k < sizes.getD i 0 → m' (r * sizes.getD i 0 + k) =
        (if a ≤ r ∧ r < b then φ' r (res r) else 1) * m (r * sizes.getD i 0 + k)) ∧
      ∀ q, (¬ i < sizes.length ∨ b * sizes.getD i 0 ≤ q) → m' q = m q

theorem row_iff {r r' s k : ℕ} (hk : k < s) : r * s ≤ r' * s + k ∧ r' * s + k < r * s + s ↔ r' = r := by
  constructor
  · rintro ⟨h1, h2⟩
    rcases lt_trichotomy r' r with h | h | h
    · have : (r' + 1) * s ≤ r * s := Nat.mul_le_mul_right s h
      rw [Nat.add_mul] at this; omega
    · exact h
    · have : (r + 1) * s ≤ r' * s := Nat.mul_le_mul_right s h
      rw [Nat.add_mul] at this; omega
  · rintro rfl; omega

theorem conditionRow_spec (sizes : List ℕ) {g : Option CostFunction} {r : ℕ} {D : ℝ → Prop} {φ φ' : ℝ → ℝ}
    (h : Conditions g D φ φ') (res : ℕ → ℝ) (js : Jacs) :
    ((conditionRow sizes g r res js).ok = true ↔ D (res r)) ∧
    (D (res r) → (conditionRow sizes g r res js).residuals r = φ (res r)) ∧
    (∀ q, q ≠ r → (conditionRow sizes g r res js).residuals q = res q) ∧
    Scaled sizes r (r + 1) (fun _ => φ') res (conditionRow sizes g r res js).ok js
      (conditionRow sizes g r res js).jacobians := by
  cases g with
  | none =>
    obtain ⟨h1, h2, h3⟩ := h
    refine ⟨⟨fun _ => h1 _, fun _ => rfl⟩, fun _ => (h2 _).symm, fun _ _ => rfl, fun h => h, fun j hj => ⟨j, hj, fun i =>
      ⟨fun h => h, fun m hm => ⟨m, hm, fun _ _ r' k _ => ?_, fun _ _ => rfl⟩⟩⟩⟩
    split_ifs
    · rw [h3, one_mul]
    · rw [one_mul]
  | some g =>
    obtain ⟨hsc, hc⟩ := h
    simp only [conditionRow]
    set o := g.evaluate (fun _ _ => res r) (fun k => res (r + k)) (js.map fun _ => fun _ => some fun _ => 0) with ho
    have hok : o.ok = true ↔ D (res r) := hc.ok _ _ _
    have hres : D (res r) → o.residuals 0 = φ (res r) := fun hd =>
      hc.residuals _ _ _ hd 0 (by rw [hsc.1]; exact Nat.one_pos)
    have hbey : ∀ k, 1 ≤ k → o.residuals k = res (r + k) := fun k hk => hc.beyond _ _ _ k (by rw [hsc.1]; exact hk)
    have hother : ∀ q, q ≠ r → (if r ≤ q then o.residuals (q - r) else res q) = res q := by
      intro q hq
      split_ifs with h
      · rw [hbey _ (by omega)]; congr 1; omega
      · rfl
    by_cases ho1 : o.ok = true
    · rw [if_pos ho1]
      cases js with
      | none =>
        refine ⟨⟨fun _ => hok.1 ho1, fun _ => rfl⟩, fun hd => ?_, hother, fun _ => rfl, fun j hj => by cases hj⟩
        simp only [le_refl, if_true, Nat.sub_self]
        exact hres hd
      | some j =>
        refine ⟨⟨fun _ => hok.1 ho1, fun _ => rfl⟩, fun hd => ?_, hother,
          Scaled.mk (fun h => absurd h (by simp)) fun j' hj' => ?_⟩
        · simp only [le_refl, if_true, Nat.sub_self]
          exact hres hd
        · cases hj'
          refine ⟨_, rfl, fun i => ⟨fun hn => ?_, fun m hm => ?_⟩⟩
          · unfold scaleRow
            rw [hn]
            split_ifs <;> rfl
          · -- the derivative
            obtain ⟨js', hjs', hb⟩ := hc.blocks (fun _ _ => res r) (fun k => res (r + k)) (fun _ => some fun _ => 0)
            have hd : ((o.jacobians.getD fun _ => none) 0).getD (fun _ => 0) 0 = φ' (res r) := by
              have e : o.jacobians = some js' := hjs'
              rw [e, Option.getD_some]
              obtain ⟨a', ha', hv, -⟩ := (hb 0).2 _ rfl
              rw [ha', Option.getD_some]
              have := hv (hok.1 ho1) (by rw [hsc.2]; simp) 0 (by rw [hsc.1]; exact Nat.one_pos) 0
                (by rw [hsc.2]; simp)
              simpa using this
            rw [hd]
            unfold scaleRow
            by_cases hi : i < sizes.length
            · rw [if_pos hi, hm]
              refine ⟨_, rfl, fun _ _ r' k hk => ?_, fun q hq => ?_⟩
              · simp only [row_iff hk]
                by_cases hrr : r' = r
                · subst hrr
                  rw [if_pos rfl, if_pos ⟨le_rfl, Nat.lt_succ_self _⟩, mul_comm]
                · rw [if_neg hrr, if_neg (by omega), one_mul]
              · have hq' : (r + 1) * sizes.getD i 0 ≤ q := hq.resolve_left fun h => h hi
                rw [Nat.add_mul, Nat.one_mul] at hq'
                simp only
                rw [if_neg (by omega)]
            · rw [if_neg hi]
              exact ⟨m, hm, fun _ h => absurd h hi, fun _ _ => rfl⟩
    · rw [if_neg ho1]
      have hf : o.ok = false := by simpa using ho1
      refine ⟨⟨fun h => Bool.noConfusion h, fun h => absurd (hok.2 h) ho1⟩, fun hd => absurd (hok.2 hd) ho1,
        hother, fun h => h, fun j hj => ⟨j, hj, fun i => ⟨fun h => h, fun m hm =>
          ⟨m, hm, fun h => Bool.noConfusion h, fun _ _ => rfl⟩⟩⟩⟩

theorem conditionLoop_spec (sizes : List ℕ) {D : ℕ → ℝ → Prop} {φ φ' : ℕ → ℝ → ℝ} (gs : List (Option CostFunction))
    (r : ℕ) (h : ∀ k g, gs[k]? = some g → Conditions g (D (r + k)) (φ (r + k)) (φ' (r + k))) (res : ℕ → ℝ)
    (js : Jacs) :
    ((conditionLoop sizes gs r res js).ok = true ↔ ∀ q, r ≤ q → q < r + gs.length → D q (res q)) ∧
    ((conditionLoop sizes gs r res js).ok = true → ∀ q, r ≤ q → q < r + gs.length →
      (conditionLoop sizes gs r res js).residuals q = φ q (res q)) ∧
    (∀ q, ¬ (r ≤ q ∧ q < r + gs.length) → (conditionLoop sizes gs r res js).residuals q = res q) ∧
    Scaled sizes r (r + gs.length) φ' res (conditionLoop sizes gs r res js).ok js
      (conditionLoop sizes gs r res js).jacobians := by
  induction gs generalizing r res js with
  | nil =>
    refine ⟨⟨fun _ q h1 h2 => by simp at h2; omega, fun _ => rfl⟩, fun _ q h1 h2 => by simp at h2; omega,
      fun _ _ => rfl, fun h => h, fun j hj => ⟨j, hj, fun i => ⟨fun h => h, fun m hm => ⟨m, hm, fun _ _ r' k _ => ?_,
        fun _ _ => rfl⟩⟩⟩⟩
    rw [if_neg (by simp), one_mul]
  | cons g gs ih =>
    have hg := h 0 g rfl
    rw [Nat.add_zero] at hg
    obtain ⟨a1, a2, a3, a4⟩ := conditionRow_spec sizes (r := r) hg res js
    have ih' := ih (r + 1) (fun k g' hk => by
      have := h (k + 1) g' hk
      rwa [show r + (k + 1) = r + 1 + k by omega] at this)
    simp only [conditionLoop]
    set o := conditionRow sizes g r res js with ho
    have hlen : r + (g :: gs).length = r + 1 + gs.length := by simp; omega
    rw [hlen]
    by_cases hok : o.ok = true
    · rw [if_pos hok]
      obtain ⟨b1, b2, b3, b4⟩ := ih' o.residuals o.jacobians
      have hlater : ∀ q, r + 1 ≤ q → o.residuals q = res q := fun q hq => a3 q (by omega)
      refine ⟨?_, fun hl q h1 h2 => ?_, fun q hq => ?_, ?_⟩
      · rw [b1]
        constructor
        · intro hall q h1 h2
          rcases Nat.eq_or_lt_of_le h1 with rfl | h1
          · exact a1.1 hok
          · rw [← hlater q h1]; exact hall q h1 h2
        · intro hall q h1 h2
          rw [hlater q h1]
          exact hall q (by omega) h2
      · rcases Nat.eq_or_lt_of_le h1 with rfl | h1
        · rw [b3 _ (by omega)]
          exact a2 (a1.1 hok)
        · rw [b2 hl q h1 h2, hlater q h1]
      · rw [b3 q (by omega), a3 q (by rintro rfl; exact hq ⟨le_rfl, by omega⟩)]
      · refine ⟨fun hn => b4.null (a4.null hn), fun j hj => ?_⟩
        obtain ⟨j1, hj1, e1⟩ := a4.blocks j hj
        obtain ⟨j2, hj2, e2⟩ := b4.blocks j1 hj1
        refine ⟨j2, hj2, fun i => ⟨fun hn => (e2 i).1 ((e1 i).1 hn), fun m hm => ?_⟩⟩
        obtain ⟨m1, hm1, u1, v1⟩ := (e1 i).2 m hm
        obtain ⟨m2, hm2, u2, v2⟩ := (e2 i).2 m1 hm1
        refine ⟨m2, hm2, fun hl hi r' k hk => ?_, fun q hq => ?_⟩
        · rw [u2 hl hi r' k hk, u1 hok hi r' k hk]
          rcases lt_trichotomy r' r with h | h | h
          · rw [if_neg (by omega), if_neg (by omega), if_neg (by omega)]; ring
          · subst h
            rw [if_neg (by omega), if_pos ⟨le_rfl, by omega⟩, if_pos ⟨le_rfl, by omega⟩, one_mul]
          · rw [if_neg (show ¬ (r ≤ r' ∧ r' < r + 1) by omega), one_mul]
            by_cases hb : r' < r + 1 + gs.length
            · rw [if_pos ⟨h, hb⟩, if_pos ⟨by omega, hb⟩, hlater r' h]
            · rw [if_neg (by omega), if_neg (by omega)]
        · rw [v2 q hq, v1 q]
          rcases hq with hq | hq
          · exact Or.inl hq
          · right
            have : (r + 1) * sizes.getD i 0 ≤ (r + 1 + gs.length) * sizes.getD i 0 :=
              Nat.mul_le_mul_right _ (by omega)
            omega
    · rw [if_neg hok]
      refine ⟨⟨fun h => absurd h hok, fun hall => absurd (a1.2 (hall r le_rfl (by omega))) hok⟩,
        fun h => absurd h hok, fun q hq => a3 q (by rintro rfl; exact hq ⟨le_rfl, by omega⟩), a4.null, fun j hj => ?_⟩
      obtain ⟨j1, hj1, e1⟩ := a4.blocks j hj
      refine ⟨j1, hj1, fun i => ⟨(e1 i).1, fun m hm => ?_⟩⟩
      obtain ⟨m1, hm1, u1, v1⟩ := (e1 i).2 m hm
      refine ⟨m1, hm1, fun h => absurd h hok, fun q hq => v1 q ?_⟩
      rcases hq with hq | hq
      · exact Or.inl hq
      · right
        have : (r + 1) * sizes.getD i 0 ≤ (r + 1 + gs.length) * sizes.getD i 0 :=
          Nat.mul_le_mul_right _ (by omega)
        omega

/-- **ConditionedCostFunction** computes `φ_r (f_r)` with the Jacobian of the chain rule, and fails exactly if the
wrapped function or a conditioner does. -/
theorem conditioned_computes {w : CostFunction} {dom : Params → Prop} {f : Params → ℕ → ℝ}
    {J : Params → ℕ → ℕ → ℕ → ℝ} (hw : Computes w dom f J) {gs : List (Option CostFunction)}
    (hlen : w.numResiduals = gs.length) {D : ℕ → ℝ → Prop} {φ φ' : ℕ → ℝ → ℝ}
    (hg : ∀ r g, gs[r]? = some g → Conditions g (D r) (φ r) (φ' r)) :
    ∃ c, conditioned w gs = some c ∧ c.sizes = w.sizes ∧ c.numResiduals = w.numResiduals ∧
      Computes c (fun p => dom p ∧ ∀ r < w.numResiduals, D r (f p r))
        (fun p r => if r < w.numResiduals then φ r (f p r) else 0)
        (fun p r i k => if r < w.numResiduals then φ' r (f p r) * J p r i k else 0) := by
  unfold conditioned
  rw [if_pos]
  swap
  · refine ⟨hlen, fun g hmem => ?_⟩
    obtain ⟨r, hr⟩ := List.mem_iff_getElem?.1 hmem
    exact (hg r _ hr).1
  refine ⟨_, rfl, rfl, rfl, ?_⟩
  have hspec := fun res js => conditionLoop_spec w.sizes gs 0 (fun k g hk => by simpa using hg k g hk) res js
  simp only [Nat.zero_add, Nat.zero_le, true_and, true_implies] at hspec
  have hok : ∀ p res js, (if (w.evaluate p res js).ok = true then conditionLoop w.sizes gs 0
      (w.evaluate p res js).residuals (w.evaluate p res js).jacobians else w.evaluate p res js).ok = true ↔
      dom p ∧ ∀ r < w.numResiduals, D r (f p r) := by
    intro p res js
    by_cases h : (w.evaluate p res js).ok = true
    · have hd := (hw.ok p res js).1 h
      rw [if_pos h, (hspec _ _).1, ← hlen]
      constructor
      · exact fun hall => ⟨hd, fun r hr => by rw [← hw.residuals p res js hd r hr]; exact hall r hr⟩
      · exact fun hall r hr => by rw [hw.residuals p res js hd r hr]; exact hall.2 r hr
    · rw [if_neg h]
      exact ⟨fun h' => absurd h' h, fun h' => absurd ((hw.ok p res js).2 h'.1) h⟩
  refine ⟨fun p res js => hok p res js, ?_, ?_, ?_, ?_, ?_⟩
  · intro p res js hdom r hr
    have hl := (hok p res js).2 hdom
    have h := (hw.ok p res js).2 hdom.1
    simp only at hr ⊢
    rw [if_pos h] at hl ⊢
    rw [(hspec _ _).2.1 hl r (hlen ▸ hr), if_pos hr, hw.residuals p res js hdom.1 r hr]
  · intro p res js r hr
    simp only at hr ⊢
    by_cases h : (w.evaluate p res js).ok = true
    · rw [if_pos h, (hspec _ _).2.2.1 r (by omega)]
      exact hw.beyond p res js r hr
    · rw [if_neg h]
      exact hw.beyond p res js r hr
  · intro p res
    simp only
    split_ifs with h
    · exact (hspec _ _).2.2.2.null (hw.null p res)
    · exact hw.null p res
  · intro p res js
    obtain ⟨j1, hj1, e1⟩ := hw.blocks p res js
    simp only
    by_cases h : (w.evaluate p res (some js)).ok = true
    · have hd := (hw.ok p res (some js)).1 h
      have hl := hok p res (some js)
      rw [if_pos h] at hl ⊢
      obtain ⟨j2, hj2, e2⟩ := (hspec (w.evaluate p res (some js)).residuals
        (w.evaluate p res (some js)).jacobians).2.2.2.blocks j1 hj1
      refine ⟨j2, hj2, fun i => ⟨fun hn => (e2 i).1 ((e1 i).1 hn), fun a ha => ?_⟩⟩
      obtain ⟨m1, hm1, u1, v1⟩ := (e1 i).2 a ha
      obtain ⟨m2, hm2, u2, v2⟩ := (e2 i).2 m1 hm1
      refine ⟨m2, hm2, fun hdom hi r hr k hk => ?_, fun q hq => ?_⟩
      · rw [u2 (hl.2 hdom) hi r k hk, u1 hd hi r hr k hk, if_pos ⟨Nat.zero_le _, hlen ▸ hr⟩, if_pos hr,
          hw.residuals p res (some js) hd r hr]
      · rw [v2 q (by rw [← hlen]; exact hq), v1 q hq]
    · rw [if_neg h]
      refine ⟨j1, hj1, fun i => ⟨(e1 i).1, fun a ha => ?_⟩⟩
      obtain ⟨m1, hm1, -, v1⟩ := (e1 i).2 a ha
      exact ⟨m1, hm1, fun hdom => absurd ((hw.ok p res (some js)).2 hdom.1) h, v1⟩
  · intro p p' hag
    obtain ⟨h1, h2, h3⟩ := hw.reads p p' hag
    exact ⟨by simp only [h1, h2], fun r => by simp only [h2], fun r i k => by simp only [h2, h3]⟩

/-- **The chain rule**: if `J` is the derivative of `f`, what a ConditionedCostFunction returns is the derivative of
what it computes. -/
theorem conditioned_derivative {sizes : List ℕ} {n : ℕ} {f : Params → ℕ → ℝ} {J : ℕ → ℕ → ℕ → ℝ} {p : Params}
    (hJ : IsJacobian sizes n f J p) (hf : ∀ p p' r, Agree sizes p p' → f p r = f p' r) {φ φ' : ℕ → ℝ → ℝ}
    (hφ : ∀ r < n, HasDerivAt (φ r) (φ' r (f p r)) (f p r)) :
    IsJacobian sizes n (fun p r => if r < n then φ r (f p r) else 0)
      (fun r i k => if r < n then φ' r (f p r) * J r i k else 0) p := by
  intro r hr
  simp only [if_pos hr]
  have h1 := hJ r hr
  have e : f (toParams (ofParams sizes p)) r = f p r := hf _ _ _ (toParams_ofParams sizes p)
  have h2 : HasDerivAt (φ r) (φ' r (f p r)) (f (toParams (ofParams sizes p)) r) := by rw [e]; exact hφ r hr
  have h3 := h2.comp_hasFDerivAt (ofParams sizes p) h1
  refine h3.congr_fderiv ?_
  rw [Finset.smul_sum]
  exact Finset.sum_congr rfl fun s _ => by rw [smul_smul]

/-! ## Ownership -/

theorem unique_spec (l : List ℕ) (h : l.Pairwise (· ≤ ·)) : (unique l).Nodup ∧ ∀ x, x ∈ unique l ↔ x ∈ l := by
  suffices h' : (unique l).Pairwise (· < ·) ∧ ∀ x, x ∈ unique l ↔ x ∈ l from
    ⟨h'.1.imp fun h => Nat.ne_of_lt h, h'.2⟩
  induction l using unique.induct with
  | case1 => exact ⟨List.Pairwise.nil, fun x => Iff.rfl⟩
  | case2 a => exact ⟨List.pairwise_singleton _ _, fun x => Iff.rfl⟩
  | case3 b l ih =>
    rw [unique, if_pos rfl]
    obtain ⟨h1, h2⟩ := ih (List.pairwise_cons.1 h).2
    refine ⟨h1, fun x => ?_⟩
    rw [h2]
    simp
  | case4 a b l hab ih =>
    rw [unique, if_neg hab]
    obtain ⟨ha, hb⟩ := List.pairwise_cons.1 h
    obtain ⟨h1, h2⟩ := ih hb
    refine ⟨List.pairwise_cons.2 ⟨fun x hx => ?_, h1⟩, fun x => by rw [List.mem_cons, h2, ← List.mem_cons]⟩
    have hx' := (h2 x).1 hx
    have h3 : a ≤ b := ha b (by simp)
    have h4 : b ≤ x := by
      rcases List.mem_cons.1 hx' with rfl | h
      · exact le_rfl
      · exact (List.pairwise_cons.1 hb).1 x h
    omega

/-- **Ownership**: if taken, the wrapped function and each conditioner, however often it is repeated, is deleted
exactly once; otherwise nothing is.  (`delete` of null, address 0, does nothing.)  The wrapped function must not be
one of the conditioners. -/
theorem conditioned_deletes (wrapped : ℕ) (conditioners : List ℕ) (h : wrapped ∉ conditioners) :
    (∀ x, x = wrapped ∨ x ∈ conditioners → (deletes true wrapped conditioners).count x = 1) ∧
    (∀ x, x ≠ wrapped → x ∉ conditioners → x ∉ deletes true wrapped conditioners) ∧
    deletes false wrapped conditioners = [] := by
  have hs : (conditioners.mergeSort fun a b => decide (a ≤ b)).Pairwise (· ≤ ·) := by
    have := List.pairwise_mergeSort (le := fun a b : ℕ => decide (a ≤ b)) (by intro a b c; simp; omega)
      (by intro a b; simp; omega) conditioners
    exact this.imp fun h => by simpa using h
  obtain ⟨h1, h2⟩ := unique_spec _ hs
  have h2' : ∀ x, x ∈ unique (conditioners.mergeSort fun a b => decide (a ≤ b)) ↔ x ∈ conditioners := fun x => by
    rw [h2, List.mem_mergeSort]
  refine ⟨fun x hx => ?_, fun x h1 h3 hx => ?_, rfl⟩
  · refine List.count_eq_one_of_mem ?_ ?_
    · simp only [deletes, if_true]
      refine List.nodup_append.2 ⟨h1, List.nodup_singleton _, fun a ha b hb => ?_⟩
      rw [List.mem_singleton] at hb
      rintro rfl
      exact h (hb ▸ (h2' a).1 ha)
    · simp only [deletes, if_true, List.mem_append, List.mem_singleton]
      rcases hx with rfl | hx
      · exact Or.inr rfl
      · exact Or.inl ((h2' x).2 hx)
  · simp only [deletes, if_true, List.mem_append, List.mem_singleton] at hx
    rcases hx with hx | hx
    · exact h3 ((h2' x).1 hx)
    · exact h1 hx

/-- A conditioner that is the wrapped function itself is deleted twice. -/
theorem conditioned_deletes_twice (wrapped : ℕ) (conditioners : List ℕ) (h : wrapped ∈ conditioners) :
    2 ≤ (deletes true wrapped conditioners).count wrapped := by
  have hs : (conditioners.mergeSort fun a b => decide (a ≤ b)).Pairwise (· ≤ ·) := by
    have := List.pairwise_mergeSort (le := fun a b : ℕ => decide (a ≤ b)) (by intro a b c; simp; omega)
      (by intro a b; simp; omega) conditioners
    exact this.imp fun h => by simpa using h
  obtain ⟨-, h2⟩ := unique_spec _ hs
  have : 0 < (unique (conditioners.mergeSort fun a b => decide (a ≤ b))).count wrapped := by
    rw [List.count_pos_iff, h2, List.mem_mergeSort]
    exact h
  simp only [deletes, if_true, List.count_append, List.count_singleton_self]
  omega

end

end Ceres.Adapters
