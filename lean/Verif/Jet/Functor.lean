import Verif.Jet.Kinks

/-! # A functor run on jets computes its value and its derivative

For every expression built from the operations of jet.h, comparisons and branches included. -/

namespace Ceres.Jet

open Filter Topology

noncomputable section

variable {n : ℕ} {ι : Type}

/-! ## Values -/

theorem Un.jet_value (nan : ℝ) (u : Un) (f : Jet n) : (u.jet nan f).a = u.real f.a := by
  cases u <;> simp only [Un.jet, Un.real] <;> try rfl
  · simp [Jet.divScalar, div_eq_mul_inv]
  · unfold Jet.constPow
    split_ifs with h1 h2
    · rw [h1.1, Real.zero_rpow h1.2.ne']; rfl
    · rfl
    · rfl

theorem Bin.jet_value (nan inf : ℝ) (b : Bin) (f g : Jet n) :
    (b.jet nan inf f g).a = b.real f.a g.a := by
  cases b <;> simp only [Bin.jet, Bin.real] <;> try rfl
  · simp [Jet.div, div_eq_mul_inv]
  · unfold Jet.fmax
    split_ifs with h1 h2
    · exact (max_eq_right h2.le).symm
    · exact (max_eq_left (not_lt.1 h2)).symm
    · have : f.a = g.a := le_antisymm (not_lt.1 fun h => h1 (Or.inr h)) (not_lt.1 fun h => h1 (Or.inl h))
      simp [Jet.midpoint, Ceres.Jet.midpoint, this]
  · unfold Jet.fmin
    split_ifs with h1 h2
    · exact (min_eq_right h2.le).symm
    · exact (min_eq_left (not_lt.1 h2)).symm
    · have : f.a = g.a := le_antisymm (not_lt.1 fun h => h1 (Or.inr h)) (not_lt.1 fun h => h1 (Or.inl h))
      simp [Jet.midpoint, Ceres.Jet.midpoint, this]
  · unfold Jet.fdim
    split_ifs with h1
    · exact (max_eq_left (sub_nonneg.2 (le_of_lt h1))).symm
    · exact (max_eq_right (sub_nonpos.2 (not_lt.1 h1))).symm
  · unfold Jet.pow
    split_ifs with h1 h2 h3
    · rw [h1.1, Real.zero_rpow (by linarith)]; rfl
    · have : g.a = 1 := le_antisymm (not_lt.1 h2) h1.2
      rw [this, Real.rpow_one]
    · rfl
    · rfl

theorem Ter.jet_value (t : Ter) (f g h : Jet n) : (t.jet f g h).a = t.real f.a g.a h.a := by
  cases t <;> rfl

/-- Run on jets, a functor computes in the scalar parts what it computes on doubles; in particular it
takes the same branches.  No condition. -/
theorem Expr.jet_value (nan inf : ℝ) (x : ι → Jet n) (e : Expr ι) :
    (e.jet nan inf x).a = e.real (fun i => (x i).a) := by
  induction e with
  | var i => rfl
  | const c => rfl
  | un u e ih => rw [Expr.jet, Un.jet_value, ih]; rfl
  | bin b e₁ e₂ ih₁ ih₂ => rw [Expr.jet, Bin.jet_value, ih₁, ih₂]; rfl
  | ter t e₁ e₂ e₃ ih₁ ih₂ ih₃ => rw [Expr.jet, Ter.jet_value, ih₁, ih₂, ih₃]; rfl
  | ite c l r e₁ e₂ ihl ihr ih₁ ih₂ =>
    rw [Expr.jet, Expr.real, ihl, ihr]
    split_ifs
    · exact ih₁
    · exact ih₂

/-! ## Derivatives -/

section
variable {E : Type} [NormedAddCommGroup E] [NormedSpace ℝ E]

/-- Where the function of one argument, applied to the intermediate result `φ`, is differentiable.
At the kinks of `abs`, `floor` and `ceil` it is enough that the composition is. -/
def Un.Ok : Un → (E → ℝ) → E → Prop
  | .log, φ, t => 0 < φ t
  | .log10, φ, t => 0 < φ t
  | .log2, φ, t => 0 < φ t
  | .sqrt, φ, t => 0 < φ t
  | .log1p, φ, t => -1 < φ t
  | .acos, φ, t => -1 < φ t ∧ φ t < 1
  | .asin, φ, t => -1 < φ t ∧ φ t < 1
  | .tan, φ, t => Real.cos (φ t) ≠ 0
  | .cbrt, φ, t => φ t ≠ 0
  | .scalarDiv _, φ, t => φ t ≠ 0
  | .divScalar s, _, _ => s ≠ 0
  | .powConst p, φ, t => 0 < φ t ∨ (φ t < 0 ∧ ∃ k : ℤ, p = k) ∨ (φ t = 0 ∧ 1 ≤ p)
  | .constPow c, φ, t => 0 < c ∨ (c = 0 ∧ 0 < φ t) ∨ (c < 0 ∧ ∃ k : ℤ, ∀ᶠ s in 𝓝 t, φ s = k)
  | .abs, φ, t => DifferentiableAt ℝ (fun s => |φ s|) t
  | .floor, φ, t => DifferentiableAt ℝ (fun s => ((⌊φ s⌋ : ℤ) : ℝ)) t
  | .ceil, φ, t => DifferentiableAt ℝ (fun s => ((⌈φ s⌉ : ℤ) : ℝ)) t
  | _, _, _ => True

/-- The same for two arguments. -/
def Bin.Ok : Bin → (E → ℝ) → (E → ℝ) → E → Prop
  | .div, _, ψ, t => ψ t ≠ 0
  | .hypot, φ, ψ, t => φ t ≠ 0 ∨ ψ t ≠ 0
  | .atan2, φ, ψ, t => 0 < ψ t ∨ φ t ≠ 0
  | .pow, φ, ψ, t =>
    0 < φ t ∨ (φ t = 0 ∧ 1 ≤ ψ t) ∨ (φ t < 0 ∧ ∃ k : ℤ, ∀ᶠ s in 𝓝 t, ψ s = k)
  | .copysign, φ, ψ, t => ψ t ≠ 0 ∧ DifferentiableAt ℝ (fun s => Ceres.Jet.copysign (φ s) (ψ s)) t
  | .fmax, φ, ψ, t => DifferentiableAt ℝ (fun s => max (φ s) (ψ s)) t
  | .fmin, φ, ψ, t => DifferentiableAt ℝ (fun s => min (φ s) (ψ s)) t
  | .fdim, φ, ψ, t => DifferentiableAt ℝ (fun s => max (φ s - ψ s) 0) t
  | _, _, _, _ => True

/-- The same for three arguments. -/
def Ter.Ok : Ter → (E → ℝ) → (E → ℝ) → (E → ℝ) → E → Prop
  | .hypot3, φ, ψ, χ, t => φ t ≠ 0 ∨ ψ t ≠ 0 ∨ χ t ≠ 0
  | _, _, _, _, _ => True

/-- Every operation the functor performs at `t`, when its inputs are `G`, is differentiable there, and
each branch is decided in a neighbourhood.  Branches that are not taken do not matter. -/
def Expr.Regular (G : E → ι → ℝ) (t : E) : Expr ι → Prop
  | .var _ => True
  | .const _ => True
  | .un u e => e.Regular G t ∧ u.Ok (fun s => e.real (G s)) t
  | .bin b e₁ e₂ => e₁.Regular G t ∧ e₂.Regular G t
      ∧ b.Ok (fun s => e₁.real (G s)) (fun s => e₂.real (G s)) t
  | .ter k e₁ e₂ e₃ => e₁.Regular G t ∧ e₂.Regular G t ∧ e₃.Regular G t
      ∧ k.Ok (fun s => e₁.real (G s)) (fun s => e₂.real (G s)) (fun s => e₃.real (G s)) t
  | .ite c l r e₁ e₂ =>
    (∀ᶠ s in 𝓝 t, (c.holds (l.real (G s)) (r.real (G s)) ↔ c.holds (l.real (G t)) (r.real (G t))))
      ∧ (c.holds (l.real (G t)) (r.real (G t)) → e₁.Regular G t)
      ∧ (¬ c.holds (l.real (G t)) (r.real (G t)) → e₂.Regular G t)

/-- A branch on two continuous quantities that differ is decided in a neighbourhood. -/
theorem Cmp.decided (c : Cmp) {φ ψ : E → ℝ} {t : E} (hφ : ContinuousAt φ t) (hψ : ContinuousAt ψ t)
    (hne : φ t ≠ ψ t) : ∀ᶠ s in 𝓝 t, (c.holds (φ s) (ψ s) ↔ c.holds (φ t) (ψ t)) := by
  rcases lt_or_gt_of_ne hne with h | h
  · filter_upwards [hφ.eventually_lt hψ h] with s hs
    cases c <;> simp [Cmp.holds, hs, h, hs.le, h.le, hs.ne, h.ne, not_lt.2 hs.le, not_lt.2 h.le,
      not_le.2 hs, not_le.2 h]
  · filter_upwards [hψ.eventually_lt hφ h] with s hs
    cases c <;> simp [Cmp.holds, hs, h, hs.le, h.le, hs.ne', h.ne', not_lt.2 hs.le, not_lt.2 h.le,
      not_le.2 hs, not_le.2 h]

variable {E' : Type} [NormedAddCommGroup E'] [NormedSpace ℝ E']

theorem Un.Ok.comp {u : Un} {φ : E → ℝ} {P : E' → E} {t : E'} (hP : DifferentiableAt ℝ P t)
    (h : u.Ok φ (P t)) : u.Ok (fun s => φ (P s)) t := by
  cases u
  all_goals first
    | exact h
    | exact DifferentiableAt.comp t (g := fun s => |φ s|) h hP
    | exact DifferentiableAt.comp t (g := fun s => ((⌊φ s⌋ : ℤ) : ℝ)) h hP
    | exact DifferentiableAt.comp t (g := fun s => ((⌈φ s⌉ : ℤ) : ℝ)) h hP
    | skip
  rcases h with h | h | ⟨h, k, hk⟩
  · exact Or.inl h
  · exact Or.inr (Or.inl h)
  · exact Or.inr (Or.inr ⟨h, k, hP.continuousAt.eventually hk⟩)

theorem Bin.Ok.comp {b : Bin} {φ ψ : E → ℝ} {P : E' → E} {t : E'} (hP : DifferentiableAt ℝ P t)
    (h : b.Ok φ ψ (P t)) : b.Ok (fun s => φ (P s)) (fun s => ψ (P s)) t := by
  cases b
  all_goals first
    | exact h
    | exact ⟨h.1, DifferentiableAt.comp t (g := fun s => Ceres.Jet.copysign (φ s) (ψ s)) h.2 hP⟩
    | exact DifferentiableAt.comp t (g := fun s => max (φ s) (ψ s)) h hP
    | exact DifferentiableAt.comp t (g := fun s => min (φ s) (ψ s)) h hP
    | exact DifferentiableAt.comp t (g := fun s => max (φ s - ψ s) 0) h hP
    | skip
  rcases h with h | h | ⟨h, k, hk⟩
  · exact Or.inl h
  · exact Or.inr (Or.inl h)
  · exact Or.inr (Or.inr ⟨h, k, hP.continuousAt.eventually hk⟩)

theorem Ter.Ok.comp {k : Ter} {φ ψ χ : E → ℝ} {P : E' → E} {t : E'}
    (h : k.Ok φ ψ χ (P t)) : k.Ok (fun s => φ (P s)) (fun s => ψ (P s)) (fun s => χ (P s)) t := by
  cases k <;> exact h

/-- Regularity is inherited along a differentiable change of inputs. -/
theorem Expr.Regular.comp {G : E → ι → ℝ} {P : E' → E} {t : E'} (hP : DifferentiableAt ℝ P t)
    (e : Expr ι) (h : e.Regular G (P t)) : e.Regular (fun s => G (P s)) t := by
  induction e with
  | var i => trivial
  | const c => trivial
  | un u e ih => exact ⟨ih h.1, h.2.comp hP⟩
  | bin b e₁ e₂ ih₁ ih₂ => exact ⟨ih₁ h.1, ih₂ h.2.1, h.2.2.comp hP⟩
  | ter k e₁ e₂ e₃ ih₁ ih₂ ih₃ => exact ⟨ih₁ h.1, ih₂ h.2.1, ih₃ h.2.2.1, h.2.2.2.comp⟩
  | ite c l r e₁ e₂ ihl ihr ih₁ ih₂ =>
    exact ⟨hP.continuousAt.eventually h.1, fun hc => ih₁ (h.2.1 hc), fun hc => ih₂ (h.2.2 hc)⟩

end

variable {t : Fin n → ℝ}

theorem Un.jet_represents (nan : ℝ) (u : Un) {f : Jet n} {F : (Fin n → ℝ) → ℝ}
    (hf : Represents f F t) (h : u.Ok F t) : Represents (u.jet nan f) (fun s => u.real (F s)) t := by
  have hv := hf.value
  cases u with
  | neg => exact neg_represents hf
  | abs => exact abs_represents hf h
  | log => exact log_represents hf (by rw [hv]; exact h)
  | log10 => exact log10_represents hf (by rw [hv]; exact h)
  | log1p => exact log1p_represents hf (by rw [hv]; exact h)
  | exp => exact exp_represents hf
  | expm1 => exact expm1_represents hf
  | sqrt => exact sqrt_represents hf (by rw [hv]; exact h)
  | cos => exact cos_represents hf
  | acos => exact acos_represents hf (by rw [hv]; exact h.1) (by rw [hv]; exact h.2)
  | sin => exact sin_represents hf
  | asin => exact asin_represents hf (by rw [hv]; exact h.1) (by rw [hv]; exact h.2)
  | tan => exact tan_represents hf (by rw [hv]; exact h)
  | atan => exact atan_represents hf
  | sinh => exact sinh_represents hf
  | cosh => exact cosh_represents hf
  | tanh => exact tanh_represents hf
  | floor => exact floor_represents hf h
  | ceil => exact ceil_represents hf h
  | cbrt => exact cbrt_represents hf (by rw [hv]; exact h)
  | exp2 => exact exp2_represents hf
  | log2 => exact log2_represents hf (by rw [hv]; exact h)
  | erf => exact erf_represents hf
  | erfc => exact erfc_represents hf
  | besselJ0 => exact besselJ0_represents hf
  | besselJ1 => exact besselJ1_represents hf
  | besselJn k => exact besselJn_represents hf k
  | norm => exact norm_represents hf
  | addScalar c => exact addScalar_represents hf c
  | subScalar c => exact subScalar_represents hf c
  | scalarSub c => exact scalarSub_represents hf c
  | mulScalar c => exact mulScalar_represents hf c
  | scalarDiv c => exact scalarDiv_represents hf c (by rw [hv]; exact h)
  | divScalar c => exact divScalar_represents hf c
  | powConst p => exact powConst_represents hf p (by rw [hv]; exact h)
  | constPow c => exact constPow_represents nan c hf (by rw [hv]; exact h)

theorem Bin.jet_represents (nan inf : ℝ) (b : Bin) {f g : Jet n} {F G : (Fin n → ℝ) → ℝ}
    (hf : Represents f F t) (hg : Represents g G t) (h : b.Ok F G t) :
    Represents (b.jet nan inf f g) (fun s => b.real (F s) (G s)) t := by
  have hv := hf.value
  have hw := hg.value
  cases b with
  | add => exact add_represents hf hg
  | sub => exact sub_represents hf hg
  | mul => exact mul_represents hf hg
  | div => exact div_represents hf hg (by rw [hw]; exact h)
  | copysign => exact copysign_represents inf hf hg (by rw [hw]; exact h.1) h.2
  | hypot => exact hypot_represents hf hg (by rw [hv, hw]; exact h)
  | midpoint => exact midpoint_represents hf hg
  | fmax => exact fmax_represents hf hg h
  | fmin => exact fmin_represents hf hg h
  | fdim => exact fdim_represents hf hg h
  | atan2 => exact atan2_represents hf hg (by rw [hv, hw]; exact h)
  | pow => exact pow_represents nan hf hg (by rw [hv, hw]; exact h)

theorem Ter.jet_represents (k : Ter) {f g h : Jet n} {F G H : (Fin n → ℝ) → ℝ}
    (hf : Represents f F t) (hg : Represents g G t) (hh : Represents h H t) (hok : k.Ok F G H t) :
    Represents (k.jet f g h) (fun s => k.real (F s) (G s) (H s)) t := by
  cases k with
  | hypot3 => exact hypot3_represents hf hg hh (by rw [hf.value, hg.value, hh.value]; exact hok)
  | fma => exact fma_represents hf hg hh
  | lerp => exact lerp_represents hf hg hh

/-- The chain rule for functors: run on jets that represent its inputs, a functor computes the jet that
represents its output, whatever the values written for `NaN` and infinity. -/
theorem Expr.jet_represents (nan inf : ℝ) {G : (Fin n → ℝ) → ι → ℝ} {x : ι → Jet n}
    (hx : ∀ i, Represents (x i) (fun s => G s i) t) (e : Expr ι) (h : e.Regular G t) :
    Represents (e.jet nan inf x) (fun s => e.real (G s)) t := by
  induction e with
  | var i => exact hx i
  | const c => exact const_represents c
  | un u e ih => exact u.jet_represents nan (ih h.1) h.2
  | bin b e₁ e₂ ih₁ ih₂ => exact b.jet_represents nan inf (ih₁ h.1) (ih₂ h.2.1) h.2.2
  | ter k e₁ e₂ e₃ ih₁ ih₂ ih₃ =>
    exact k.jet_represents (ih₁ h.1) (ih₂ h.2.1) (ih₃ h.2.2.1) h.2.2.2
  | ite c l r e₁ e₂ ihl ihr ih₁ ih₂ =>
    have hxa : (fun i => (x i).a) = G t := funext fun i => (hx i).value
    rw [Expr.jet, Expr.jet_value, Expr.jet_value, hxa]
    by_cases hc : c.holds (l.real (G t)) (r.real (G t))
    · rw [if_pos hc]
      refine (ih₁ (h.2.1 hc)).congr ?_
      filter_upwards [h.1] with s hs
      rw [Expr.real, if_pos (hs.2 hc)]
    · rw [if_neg hc]
      refine (ih₂ (h.2.2 hc)).congr ?_
      filter_upwards [h.1] with s hs
      rw [Expr.real, if_neg (fun hh => hc (hs.1 hh))]

/-! ## Seeded jets -/

/-- The functor's inputs `x`, with input `p` seeded with the `k`-th unit vector if `idx p = some k`. -/
def seeded (x : ι → ℝ) (idx : ι → Option (Fin n)) (p : ι) : Jet n :=
  ⟨x p, fun k => if idx p = some k then 1 else 0⟩

/-- Each infinitesimal component of a functor's output is the partial derivative with respect to the
input seeded with it. -/
theorem Expr.seeded_deriv [DecidableEq ι] [Fintype ι] (nan inf : ℝ) (x : ι → ℝ)
    (idx : ι → Option (Fin n)) (hinj : ∀ p q k, idx p = some k → idx q = some k → p = q)
    (e : Expr ι) (h : e.Regular (fun y : ι → ℝ => y) x) (p : ι) (k : Fin n) (hp : idx p = some k) :
    HasDerivAt (fun s => e.real (Function.update x p s)) ((e.jet nan inf (seeded x idx)).v k) (x p) := by
  classical
  -- the line through `x` along the seeded coordinates
  let G : (Fin n → ℝ) → ι → ℝ := fun s q => x q + ∑ j, (if idx q = some j then 1 else 0) * s j
  have hG0 : G 0 = x := by funext q; simp [G]
  have hGd : ∀ q, Represents (seeded x idx q) (fun s => G s q) 0 := by
    intro q
    refine ⟨by simp [seeded, G], ?_⟩
    have h1 : HasFDerivAt (fun s : Fin n → ℝ => ∑ j, (if idx q = some j then 1 else 0) * s j)
        (grad (seeded x idx q).v) 0 := by
      have := (grad (seeded x idx q).v).hasFDerivAt (x := (0 : Fin n → ℝ))
      refine this.congr_of_eventuallyEq (Eventually.of_forall fun s => ?_)
      simp [seeded]
    exact h1.const_add (x q)
  have hGdiff : DifferentiableAt ℝ G 0 :=
    differentiableAt_pi.2 fun q => (hGd q).deriv.differentiableAt
  have hreg : e.Regular (fun s => G s) 0 := by
    have h' : e.Regular (fun y : ι → ℝ => y) (G 0) := by rw [hG0]; exact h
    exact Expr.Regular.comp hGdiff e h'
  have hr := Expr.jet_represents nan inf hGd e hreg
  have hpd := hr.partial_deriv k
  have e1 : ∀ s : ℝ, G (Function.update 0 k s) = Function.update x p (x p + s) := by
    intro s
    funext q
    simp only [G]
    by_cases hq : q = p
    · subst hq
      simp [hp, Function.update_apply]
    · have hne : idx q ≠ some k := fun hh => hq (hinj q p k hh hp)
      rw [Function.update_of_ne hq]
      have : ∑ j, (if idx q = some j then (1 : ℝ) else 0) * Function.update (0 : Fin n → ℝ) k s j = 0 := by
        refine Finset.sum_eq_zero fun j _ => ?_
        by_cases hj : j = k
        · subst hj; simp [hne]
        · simp [Function.update_of_ne hj]
      rw [this, add_zero]
  simp only [e1, Pi.zero_apply] at hpd
  have hs : HasDerivAt (fun s : ℝ => s - x p) 1 (x p) := by
    simpa using (hasDerivAt_id (x p)).sub_const (x p)
  have h0 : HasDerivAt (fun s => e.real (Function.update x p (x p + s)))
      ((e.jet nan inf (seeded x idx)).v k) (x p - x p) := by rw [sub_self]; exact hpd
  have hc := HasDerivAt.comp (h := fun s => s - x p) (x p) h0 hs
  rw [mul_one] at hc
  refine hc.congr_of_eventuallyEq (Eventually.of_forall fun s => ?_)
  simp only [Function.comp_apply, add_sub_cancel]

/-- A functor with a branch, kinks and special functions meets the hypotheses. -/
example : (Expr.ite (ι := Fin 2) .lt (.var 0) (.const 0)
      (.un .log (.const (-1)))
      (.bin .fmax (.un .sqrt (.var 0)) (.bin .pow (.var 0) (.un .sin (.var 1))))).Regular
    (fun y => y) ![4, 0] := by
  refine ⟨?_, ?_, fun _ => ⟨⟨trivial, ?_⟩, ⟨trivial, ⟨trivial, trivial⟩, ?_⟩, ?_⟩⟩
  · refine Cmp.decided .lt ?_ ?_ ?_
    · exact (continuous_apply 0).continuousAt
    · exact continuousAt_const
    · simp [Expr.real]
  · intro h
    simp [Expr.real, Cmp.holds] at h
    norm_num at h
  · simp [Un.Ok, Expr.real]
  · left; simp [Expr.real]
  · have e1 : DifferentiableAt ℝ (fun s : Fin 2 → ℝ => Real.sqrt (s 0)) ![4, 0] :=
      (differentiableAt_apply 0 _).sqrt (by simp)
    refine DifferentiableAt.congr_of_eventuallyEq e1 ?_
    have c1 : ContinuousAt (fun s : Fin 2 → ℝ => s 0 ^ Real.sin (s 1)) ![4, 0] := by
      refine ContinuousAt.rpow (continuous_apply 0).continuousAt
        (Real.continuous_sin.comp (continuous_apply 1)).continuousAt (Or.inl (by simp))
    have lt : (fun s : Fin 2 → ℝ => s 0 ^ Real.sin (s 1)) ![4, 0] < Real.sqrt ((![4, 0] : Fin 2 → ℝ) 0) := by
      have : Real.sqrt 4 = 2 := by
        rw [show (4 : ℝ) = 2 ^ 2 by norm_num]; exact Real.sqrt_sq (by norm_num)
      simp [this]
    filter_upwards [c1.eventually_lt e1.continuousAt lt] with s hs
    exact max_eq_left hs.le

end

end Ceres.Jet
