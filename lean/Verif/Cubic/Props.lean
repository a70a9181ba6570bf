import Verif.Cubic.Interp
import Mathlib.Tactic.LinearCombination
import Mathlib.Data.Fin.VecNotation

/-! # What the interpolators guarantee -/

namespace Ceres.Cubic

open Ceres.Jet (Jet Represents grad)

noncomputable section

variable {k : ℕ}

theorem interp_floor (g : ℤ → Vec k) (n : ℤ) {t : ℝ} (h0 : 0 ≤ t) (h1 : t ≤ 1) (i : Fin k) :
    interp g (n + t) i = g n i + (g (n + 1) i - g (n - 1) i) / 2 * t
      + (2 * g (n - 1) i - 5 * g n i + 4 * g (n + 1) i - g (n + 2) i) / 2 * t ^ 2
      + (-g (n - 1) i + 3 * g n i - 3 * g (n + 1) i + g (n + 2) i) / 2 * t ^ 3 := by
  obtain ⟨w0, w1, w2, w3⟩ := keys_weights h0 h1
  rw [interp_four g n h0 h1, w0, w1, w2, w3]
  ring

/-- C47: the interpolant passes through the samples. -/
theorem interp_grid (g : ℤ → Vec k) (n : ℤ) : interp g n = g n := by
  funext i
  have := interp_floor g n (t := 0) le_rfl zero_le_one i
  simpa using this

/-- C47: its slope at a sample is the central difference of the neighbours. -/
theorem interp_slope (g : ℤ → Vec k) (n : ℤ) (i : Fin k) :
    deriv (interp g) n i = (g (n + 1) i - g (n - 1) i) / 2 := by
  rw [interp_deriv, interp'_four]
  simp only [Int.floor_intCast, sub_self]
  obtain ⟨d0, d1, d2, d3⟩ := keys'_weights le_rfl zero_le_one
  rw [d0, d1, d2, d3]
  ring

/-- C47: between two samples it is the cubic polynomial with those values and slopes at its ends, the
Catmull-Rom spline. -/
theorem interp_catmullRom (g : ℤ → Vec k) (n : ℤ) (i : Fin k) (a b c d : ℝ)
    (v0 : a = g n i) (v1 : a + b + c + d = g (n + 1) i) (s0 : b = (g (n + 1) i - g (n - 1) i) / 2)
    (s1 : b + 2 * c + 3 * d = (g (n + 2) i - g n i) / 2) {t : ℝ} (h0 : 0 ≤ t) (h1 : t ≤ 1) :
    interp g (n + t) i = a + b * t + c * t ^ 2 + d * t ^ 3 := by
  rw [interp_floor g n h0 h1]
  have hc : c = (2 * g (n - 1) i - 5 * g n i + 4 * g (n + 1) i - g (n + 2) i) / 2 := by
    linear_combination 3 * v1 - s1 - 3 * v0 - 2 * s0
  have hd : d = (-g (n - 1) i + 3 * g n i - 3 * g (n + 1) i + g (n + 2) i) / 2 := by
    linear_combination s1 + s0 - 2 * v1 + 2 * v0
  rw [v0, s0, hc, hd]

theorem interp_eq_of_floor (g : ℤ → Vec k) (x : ℝ) (i : Fin k) :
    interp g x i = g ⌊x⌋ i + (g (⌊x⌋ + 1) i - g (⌊x⌋ - 1) i) / 2 * (x - ⌊x⌋)
      + (2 * g (⌊x⌋ - 1) i - 5 * g ⌊x⌋ i + 4 * g (⌊x⌋ + 1) i - g (⌊x⌋ + 2) i) / 2 * (x - ⌊x⌋) ^ 2
      + (-g (⌊x⌋ - 1) i + 3 * g ⌊x⌋ i - 3 * g (⌊x⌋ + 1) i + g (⌊x⌋ + 2) i) / 2 * (x - ⌊x⌋) ^ 3 := by
  have h0 : 0 ≤ x - ⌊x⌋ := by linarith [Int.floor_le x]
  have h1 : x - ⌊x⌋ ≤ 1 := by linarith [Int.lt_floor_add_one x]
  have := interp_floor g ⌊x⌋ h0 h1 i
  rwa [show (⌊x⌋ : ℝ) + (x - ⌊x⌋) = x by ring] at this

/-- C47: samples of a quadratic are interpolated exactly. -/
theorem interp_quadratic (g : ℤ → Vec k) (i : Fin k) (a b c : ℝ)
    (hg : ∀ n : ℤ, g n i = a + b * n + c * (n : ℝ) ^ 2) (x : ℝ) :
    interp g x i = a + b * x + c * x ^ 2 := by
  rw [interp_eq_of_floor, hg, hg, hg, hg]
  push_cast
  ring

/-- C47: only the four samples around a point matter. -/
theorem interp_congr {g g' : ℤ → Vec k} {x : ℝ}
    (h : ∀ m : ℤ, ⌊x⌋ - 1 ≤ m → m ≤ ⌊x⌋ + 2 → g m = g' m) : interp g x = interp g' x := by
  funext i
  rw [interp_eq_of_floor, interp_eq_of_floor, h (⌊x⌋ - 1) (by omega) (by omega), h ⌊x⌋ (by omega) (by omega),
    h (⌊x⌋ + 1) (by omega) (by omega), h (⌊x⌋ + 2) (by omega) (by omega)]

/-- C47: the interpolant overshoots the samples by at most a quarter. -/
theorem interp_bound (g : ℤ → Vec k) (i : Fin k) (M x : ℝ) (h : ∀ n, |g n i| ≤ M) :
    |interp g x i| ≤ 5 / 4 * M := by
  have h0 : 0 ≤ x - ⌊x⌋ := by linarith [Int.floor_le x]
  have h1 : x - ⌊x⌋ ≤ 1 := by linarith [Int.lt_floor_add_one x]
  have e := interp_four g ⌊x⌋ h0 h1 i
  obtain ⟨w0, w1, w2, w3⟩ := keys_weights h0 h1
  rw [show (⌊x⌋ : ℝ) + (x - ⌊x⌋) = x by ring, w0, w1, w2, w3] at e
  rw [e]
  generalize x - ⌊x⌋ = t at *
  have hM : 0 ≤ M := (abs_nonneg _).trans (h 0)
  have t1 : |-(1 / 2) * t ^ 3 + t ^ 2 - 1 / 2 * t| = 1 / 2 * t * (1 - t) ^ 2 := by
    rw [show -(1 / 2) * t ^ 3 + t ^ 2 - 1 / 2 * t = -(1 / 2 * t * (1 - t) ^ 2) by ring, abs_neg,
      abs_of_nonneg (by positivity)]
  have t2 : |3 / 2 * t ^ 3 - 5 / 2 * t ^ 2 + 1| = 3 / 2 * t ^ 3 - 5 / 2 * t ^ 2 + 1 := by
    refine abs_of_nonneg ?_
    have : 0 ≤ (1 - t) * (1 + t - 3 / 2 * t ^ 2) := mul_nonneg (by linarith) (by nlinarith)
    nlinarith
  have t3 : |-(3 / 2) * t ^ 3 + 2 * t ^ 2 + 1 / 2 * t| = -(3 / 2) * t ^ 3 + 2 * t ^ 2 + 1 / 2 * t := by
    refine abs_of_nonneg ?_
    have : 0 ≤ t * (1 / 2 + 2 * t - 3 / 2 * t ^ 2) := mul_nonneg h0 (by nlinarith)
    nlinarith
  have t4 : |1 / 2 * t ^ 3 - 1 / 2 * t ^ 2| = 1 / 2 * t ^ 2 * (1 - t) := by
    rw [show 1 / 2 * t ^ 3 - 1 / 2 * t ^ 2 = -(1 / 2 * t ^ 2 * (1 - t)) by ring, abs_neg,
      abs_of_nonneg (mul_nonneg (by positivity) (by linarith))]
  have key : ∀ (p w : ℝ), |p| ≤ M → |p * w| ≤ M * |w| := fun p w hp => by
    rw [abs_mul]; exact mul_le_mul_of_nonneg_right hp (abs_nonneg _)
  refine (abs_add_le _ _).trans ?_
  refine (add_le_add (abs_add_le _ _) le_rfl).trans ?_
  refine (add_le_add (add_le_add (abs_add_le _ _) le_rfl) le_rfl).trans ?_
  refine (add_le_add (add_le_add (add_le_add (key _ _ (h _)) (key _ _ (h _))) (key _ _ (h _)))
    (key _ _ (h _))).trans ?_
  rw [t1, t2, t3, t4]
  have : M * (1 / 2 * t * (1 - t) ^ 2) + M * (3 / 2 * t ^ 3 - 5 / 2 * t ^ 2 + 1)
      + M * (-(3 / 2) * t ^ 3 + 2 * t ^ 2 + 1 / 2 * t) + M * (1 / 2 * t ^ 2 * (1 - t))
      = 5 / 4 * M - M * (t - 1 / 2) ^ 2 := by ring
  rw [this]
  have := mul_nonneg hM (sq_nonneg (t - 1 / 2))
  linarith

/-! ## Two dimensions -/

/-- C47: along a row of the grid the bicubic interpolant is the cubic one of that row ... -/
theorem interp2_row (g : ℤ → ℤ → Vec k) (m : ℤ) (c : ℝ) : interp2 g m c = interp (g m) c := by
  rw [interp2_rows, interp_grid]

/-- ... and along a column that of the column. -/
theorem interp2_col (g : ℤ → ℤ → Vec k) (r : ℝ) (n : ℤ) :
    interp2 g r n = interp (fun m => g m n) r := by
  rw [← interp2_transpose, interp2_row]

/-- C47: it passes through the samples. -/
theorem interp2_grid (g : ℤ → ℤ → Vec k) (m n : ℤ) : interp2 g m n = g m n := by
  rw [interp2_row, interp_grid]

/-- C47: samples of a polynomial of degree at most two in each variable are interpolated exactly. -/
theorem interp2_biquadratic (g : ℤ → ℤ → Vec k) (i : Fin k) (a : Fin 3 → Fin 3 → ℝ)
    (hg : ∀ m n : ℤ, g m n i = ∑ p, ∑ q, a p q * (m : ℝ) ^ (p : ℕ) * (n : ℝ) ^ (q : ℕ)) (r c : ℝ) :
    interp2 g r c i = ∑ p, ∑ q, a p q * r ^ (p : ℕ) * c ^ (q : ℕ) := by
  rw [interp2_rows]
  have hrow : ∀ m : ℤ, interp (g m) c i
      = (a 0 0 + a 1 0 * m + a 2 0 * (m : ℝ) ^ 2) + (a 0 1 + a 1 1 * m + a 2 1 * (m : ℝ) ^ 2) * c
        + (a 0 2 + a 1 2 * m + a 2 2 * (m : ℝ) ^ 2) * c ^ 2 := fun m => by
    refine interp_quadratic _ _ _ _ _ (fun n => ?_) c
    rw [hg]
    simp [Fin.sum_univ_three]
    ring
  rw [interp_quadratic _ i (a 0 0 + a 0 1 * c + a 0 2 * c ^ 2) (a 1 0 + a 1 1 * c + a 1 2 * c ^ 2)
    (a 2 0 + a 2 1 * c + a 2 2 * c ^ 2) (fun m => by rw [hrow]; ring) r]
  simp [Fin.sum_univ_three]
  ring

/-- C47: only the sixteen samples around a point matter. -/
theorem interp2_congr {g g' : ℤ → ℤ → Vec k} {r c : ℝ}
    (h : ∀ m n : ℤ, ⌊r⌋ - 1 ≤ m → m ≤ ⌊r⌋ + 2 → ⌊c⌋ - 1 ≤ n → n ≤ ⌊c⌋ + 2 → g m n = g' m n) :
    interp2 g r c = interp2 g' r c := by
  rw [interp2_rows, interp2_rows]
  exact interp_congr fun m h0 h1 => interp_congr fun n h2 h3 => h m n h0 h1 h2 h3

/-- C47: the bicubic interpolant overshoots the samples by at most nine sixteenths. -/
theorem interp2_bound (g : ℤ → ℤ → Vec k) (i : Fin k) (M r c : ℝ) (h : ∀ m n, |g m n i| ≤ M) :
    |interp2 g r c i| ≤ 25 / 16 * M := by
  rw [interp2_rows]
  refine (interp_bound _ i (5 / 4 * M) r fun m => interp_bound (g m) i M c (h m)).trans (le_of_eq ?_)
  ring

/-- C47: the two partial derivatives are the total derivative. -/
theorem interp2_hasFDerivAt (g : ℤ → ℤ → Vec k) (r c : ℝ) (i : Fin k) :
    HasFDerivAt (fun p : ℝ × ℝ => interp2 g p.1 p.2 i)
      (deriv (fun r => interp2 g r c) r i • ContinuousLinearMap.fst ℝ ℝ ℝ
        + deriv (fun c => interp2 g r c) c i • ContinuousLinearMap.snd ℝ ℝ ℝ) (r, c) := by
  have hd : DifferentiableAt ℝ (fun p : ℝ × ℝ => interp2 g p.1 p.2) (r, c) :=
    (interp2_contDiff g).differentiable (by simp) |>.differentiableAt
  have h := hd.hasFDerivAt
  have hi := hasFDerivAt_pi'.1 h i
  refine hi.congr_fderiv ?_
  have hr : HasDerivAt (fun r => interp2 g r c) (fderiv ℝ (fun p : ℝ × ℝ => interp2 g p.1 p.2) (r, c) (1, 0)) r := by
    have := HasFDerivAt.comp_hasDerivAt (f := fun r : ℝ => (r, c)) r h
      ((hasDerivAt_id r).prodMk (hasDerivAt_const r c))
    exact this
  have hc : HasDerivAt (fun c => interp2 g r c) (fderiv ℝ (fun p : ℝ × ℝ => interp2 g p.1 p.2) (r, c) (0, 1)) c := by
    have := HasFDerivAt.comp_hasDerivAt (f := fun c : ℝ => (r, c)) c h
      ((hasDerivAt_const c r).prodMk (hasDerivAt_id c))
    exact this
  rw [hr.deriv, hc.deriv]
  refine ContinuousLinearMap.ext fun p => ?_
  have hp : p = p.1 • ((1 : ℝ), (0 : ℝ)) + p.2 • ((0 : ℝ), (1 : ℝ)) := by
    ext <;> simp
  conv_lhs => rw [hp]
  simp only [ContinuousLinearMap.comp_apply, ContinuousLinearMap.proj_apply, map_add, map_smul,
    Pi.add_apply, Pi.smul_apply, smul_eq_mul, ContinuousLinearMap.add_apply,
    ContinuousLinearMap.smul_apply, ContinuousLinearMap.coe_fst', ContinuousLinearMap.coe_snd']
  ring

/-! ## Jets -/

variable {n : ℕ}

/-- C47: interpolating at a jet gives the jet of the composition with the interpolant. -/
theorem cubicEvaluateJet_represents (g : ℤ → Vec k) (junk : Vec k) {x : Jet n}
    {X : (Fin n → ℝ) → ℝ} {t : Fin n → ℝ} (hx : Represents x X t) (i : Fin k) :
    Represents (cubicEvaluateJet g junk x i) (fun s => interp g (X s) i) t := by
  unfold cubicEvaluateJet
  simp only [cubicEvaluate_eq, Option.map_some, Option.getD_some]
  refine ⟨by rw [hx.value], ?_⟩
  have h := hasDerivAt_pi.1 (interp_hasDerivAt g x.a) i
  rw [← interp_deriv] at h
  rw [Ceres.Jet.grad_smul]
  have h' : HasDerivAt (fun y => interp g y i) (deriv (interp g) x.a i) (X t) := by
    rw [← hx.value]; exact h
  exact h'.comp_hasFDerivAt t hx.deriv

/-- C47: the same in two dimensions. -/
theorem bicubicEvaluateJet_represents (g : ℤ → ℤ → Vec k) (junk : Vec k) {r c : Jet n}
    {R C : (Fin n → ℝ) → ℝ} {t : Fin n → ℝ} (hr : Represents r R t) (hc : Represents c C t)
    (i : Fin k) :
    Represents (bicubicEvaluateJet g junk r c i) (fun s => interp2 g (R s) (C s) i) t := by
  unfold bicubicEvaluateJet
  simp only [bicubicEvaluate_eq, Option.map_some, Option.getD_some]
  refine ⟨by rw [hr.value, hc.value], ?_⟩
  have h := interp2_hasFDerivAt g r.a c.a i
  rw [hr.value, hc.value] at h
  have h2 := HasFDerivAt.comp (f := fun s => (R s, C s)) t h (hr.deriv.prodMk hc.deriv)
  refine h2.congr_fderiv ?_
  rw [Ceres.Jet.grad_add, Ceres.Jet.grad_smul, Ceres.Jet.grad_smul, hr.value, hc.value]
  ext s
  simp

/-- The overload for doubles returns the value only. -/
theorem cubicEvaluateValue_eq (g : ℤ → Vec k) (x : ℝ) (f : Vec k) :
    cubicEvaluateValue g x (some f) = some (interp g x) := by
  simp [cubicEvaluateValue, cubicEvaluate_eq]

/-- The overload for doubles returns the value only. -/
theorem bicubicEvaluateValue_eq (g : ℤ → ℤ → Vec k) (junk : Vec k) (r c : ℝ) (f : Vec k) :
    bicubicEvaluateValue g junk r c (some f) = some (interp2 g r c) := by
  simp [bicubicEvaluateValue, bicubicEvaluate_eq]

/-! ## Grids -/

variable {T : Type*}

/-- `m` is the point of `[lo, hi]` nearest to `n`. -/
structure Nearest (n lo hi m : ℤ) : Prop where
  lower : lo ≤ m
  upper : m ≤ hi
  nearest : ∀ j, lo ≤ j → j ≤ hi → |n - m| ≤ |n - j|

theorem clamp_nearest {n lo hi : ℤ} (h : lo ≤ hi) : Nearest n lo hi (clamp n lo hi) := by
  unfold clamp
  split_ifs with h1 h2
  · exact ⟨le_rfl, h, fun j hj _ => by
      rw [abs_of_nonpos (by omega), abs_of_nonpos (by omega)]; omega⟩
  · exact ⟨h, le_rfl, fun j _ hj => by
      rw [abs_of_nonneg (by omega), abs_of_nonneg (by omega)]; omega⟩
  · exact ⟨by omega, by omega, fun j _ _ => by simp⟩

theorem clamp_self {n lo hi : ℤ} (h0 : lo ≤ n) (h1 : n ≤ hi) : clamp n lo hi = n := by
  unfold clamp
  rw [if_neg (by omega), if_neg (by omega)]

/-- The documented storage of samples `F begin, …, F (end - 1)` in the array of a one dimensional grid. -/
def Stores1D (g : Grid1D T) (F : ℤ → Fin k → T) : Prop :=
  ∀ n, g.begin ≤ n → n < g.end → ∀ i : Fin k,
    (g.interleaved = true → g.data ((n - g.begin) * k + i) = F n i) ∧
    (g.interleaved = false → g.data (i * (g.end - g.begin) + (n - g.begin)) = F n i)

/-- C47: the grid returns the stored sample, and outside its range that of the nearest edge. -/
theorem grid1D_getValue (g : Grid1D T) (F : ℤ → Fin k → T) (hg : g.begin < g.end)
    (hF : Stores1D g F) (n : ℤ) :
    ∃ m, Nearest n g.begin (g.end - 1) m ∧ g.getValue n = F m := by
  have hn := clamp_nearest (n := n) (show g.begin ≤ g.end - 1 by omega)
  refine ⟨_, hn, ?_⟩
  funext i
  have h := hF _ hn.lower (by have := hn.upper; omega) i
  unfold Grid1D.getValue Grid1D.index
  cases hi : g.interleaved
  · simpa [hi] using h.2 hi
  · have := h.1 hi
    simp only [if_true]
    rw [mul_comm]
    exact this

/-- Inside the range it is the stored sample. -/
theorem grid1D_inside (g : Grid1D T) (F : ℤ → Fin k → T) (hF : Stores1D g F) {n : ℤ}
    (h0 : g.begin ≤ n) (h1 : n < g.end) : g.getValue n = F n := by
  obtain ⟨m, hm, e⟩ := grid1D_getValue g F (by omega) hF n
  have := hm.nearest n h0 (by omega)
  rw [sub_self, abs_zero] at this
  rw [e, show m = n by have := abs_nonpos_iff.1 this; omega]

/-- A slot of an array of `a` groups of `b` elements. -/
theorem slot_range {a b x y : ℤ} (h0 : 0 ≤ x) (h1 : x < a) (h2 : 0 ≤ y) (h3 : y < b) :
    0 ≤ b * x + y ∧ b * x + y < a * b := by
  have hb : 0 ≤ b := by omega
  constructor
  · have := mul_nonneg hb h0
    omega
  · have := mul_le_mul_of_nonneg_left (show x ≤ a - 1 by omega) hb
    have e : b * (a - 1) = a * b - b := by ring
    omega

theorem slot_inj {b x y x' y' : ℤ} (h2 : 0 ≤ y) (h3 : y < b) (h2' : 0 ≤ y') (h3' : y' < b)
    (h : b * x + y = b * x' + y') : x = x' ∧ y = y' := by
  have hx : x = x' := by
    by_contra hne
    rcases lt_or_gt_of_ne hne with hl | hl
    · have := mul_le_mul_of_nonneg_left (show x + 1 ≤ x' by omega) (show 0 ≤ b by omega)
      have e : b * (x + 1) = b * x + b := by ring
      omega
    · have := mul_le_mul_of_nonneg_left (show x' + 1 ≤ x by omega) (show 0 ≤ b by omega)
      have e : b * (x' + 1) = b * x' + b := by ring
      omega
  subst hx
  exact ⟨rfl, by omega⟩

/-- C47: no element outside the array of `k (end - begin)` elements is read. -/
theorem grid1D_index (g : Grid1D T) (hg : g.begin < g.end) (n : ℤ) (i : Fin k) :
    0 ≤ g.index k n i ∧ g.index k n i < k * (g.end - g.begin) := by
  have hn := clamp_nearest (n := n) (show g.begin ≤ g.end - 1 by omega)
  have a := hn.lower
  have b := hn.upper
  have hi : (i : ℤ) < k := by exact_mod_cast i.isLt
  have hi0 : (0 : ℤ) ≤ i := by positivity
  unfold Grid1D.index
  dsimp only
  split
  · constructor
    · have := mul_nonneg (show (0 : ℤ) ≤ k by positivity) (sub_nonneg.2 a)
      omega
    · nlinarith
  · constructor
    · have := mul_nonneg hi0 (show 0 ≤ g.end - g.begin by omega)
      omega
    · nlinarith

/-- The documented storage of a two dimensional grid: row or column major, interleaved or stacked. -/
def Stores2D (g : Grid2D T) (F : ℤ → ℤ → Fin k → T) : Prop :=
  ∀ r c, g.rowBegin ≤ r → r < g.rowEnd → g.colBegin ≤ c → c < g.colEnd → ∀ i : Fin k,
    let rows := g.rowEnd - g.rowBegin
    let cols := g.colEnd - g.colBegin
    let cell := if g.rowMajor = true then (r - g.rowBegin) * cols + (c - g.colBegin)
      else (c - g.colBegin) * rows + (r - g.rowBegin)
    (g.interleaved = true → g.data (cell * k + i) = F r c i) ∧
    (g.interleaved = false → g.data (i * (rows * cols) + cell) = F r c i)

/-- C47: the grid returns the stored sample, and outside its range that of the nearest edge. -/
theorem grid2D_getValue (g : Grid2D T) (F : ℤ → ℤ → Fin k → T) (hr : g.rowBegin < g.rowEnd)
    (hc : g.colBegin < g.colEnd) (hF : Stores2D g F) (r c : ℤ) :
    ∃ r' c', Nearest r g.rowBegin (g.rowEnd - 1) r' ∧ Nearest c g.colBegin (g.colEnd - 1) c' ∧
      g.getValue r c = F r' c' := by
  have h1 := clamp_nearest (n := r) (show g.rowBegin ≤ g.rowEnd - 1 by omega)
  have h2 := clamp_nearest (n := c) (show g.colBegin ≤ g.colEnd - 1 by omega)
  refine ⟨_, _, h1, h2, ?_⟩
  funext i
  have h := hF _ _ h1.lower (by have := h1.upper; omega) h2.lower (by have := h2.upper; omega) i
  dsimp only at h
  unfold Grid2D.getValue Grid2D.index
  dsimp only
  cases hi : g.interleaved <;> cases hm : g.rowMajor <;> simp only [hi, hm] at h ⊢
  · simp only [Bool.false_eq_true, if_false, forall_const] at h ⊢
    rw [← h.2]; congr 1; ring
  · simp only [Bool.false_eq_true, if_false, if_true, forall_const] at h ⊢
    rw [← h.2]; congr 1; ring
  · simp only [Bool.false_eq_true, if_false, if_true, forall_const] at h ⊢
    rw [← h.1]; congr 1; ring
  · simp only [if_true, forall_const] at h ⊢
    rw [← h.1]; congr 1; ring

/-- Inside the range it is the stored sample. -/
theorem grid2D_inside (g : Grid2D T) (F : ℤ → ℤ → Fin k → T) (hF : Stores2D g F) {r c : ℤ}
    (h0 : g.rowBegin ≤ r) (h1 : r < g.rowEnd) (h2 : g.colBegin ≤ c) (h3 : c < g.colEnd) :
    g.getValue r c = F r c := by
  obtain ⟨r', c', hr, hc, e⟩ := grid2D_getValue g F (by omega) (by omega) hF r c
  have a := hr.nearest r h0 (by omega)
  have b := hc.nearest c h2 (by omega)
  rw [sub_self, abs_zero] at a b
  rw [e, show r' = r by have := abs_nonpos_iff.1 a; omega,
    show c' = c by have := abs_nonpos_iff.1 b; omega]

/-- C47: no element outside the array of `k · rows · columns` elements is read. -/
theorem grid2D_index (g : Grid2D T) (hr : g.rowBegin < g.rowEnd) (hc : g.colBegin < g.colEnd)
    (r c : ℤ) (i : Fin k) :
    0 ≤ g.index k r c i ∧
      g.index k r c i < k * ((g.rowEnd - g.rowBegin) * (g.colEnd - g.colBegin)) := by
  have h1 := clamp_nearest (n := r) (show g.rowBegin ≤ g.rowEnd - 1 by omega)
  have h2 := clamp_nearest (n := c) (show g.colBegin ≤ g.colEnd - 1 by omega)
  have a := h1.lower
  have b := h1.upper
  have a' := h2.lower
  have b' := h2.upper
  have hi : (i : ℤ) < k := by exact_mod_cast i.isLt
  have hi0 : (0 : ℤ) ≤ i := by positivity
  unfold Grid2D.index
  dsimp only
  set x := clamp r g.rowBegin (g.rowEnd - 1) - g.rowBegin with hx
  set y := clamp c g.colBegin (g.colEnd - 1) - g.colBegin with hy
  set A := g.rowEnd - g.rowBegin with hA
  set B := g.colEnd - g.colBegin with hB
  have hn : 0 ≤ (if g.rowMajor = true then B * x + y else A * y + x) ∧
      (if g.rowMajor = true then B * x + y else A * y + x) < A * B := by
    split
    · exact slot_range (by omega) (by omega) (by omega) (by omega)
    · rw [mul_comm A B]
      exact slot_range (by omega) (by omega) (by omega) (by omega)
  generalize (if g.rowMajor = true then B * x + y else A * y + x) = z at *
  split
  · rw [mul_comm (k : ℤ) (A * B)]
    exact slot_range hn.1 hn.2 hi0 hi
  · rw [mul_comm (i : ℤ)]
    exact slot_range hi0 hi hn.1 hn.2

/-- Every array of samples has a grid storing it, in either layout. -/
theorem stores1D_exists [Nonempty T] (F : ℤ → Fin k → T) (b e : ℤ) (il : Bool) :
    ∃ g : Grid1D T, g.begin = b ∧ g.end = e ∧ g.interleaved = il ∧ Stores1D g F := by
  classical
  let slot : ℤ → Fin k → ℤ := fun n i => if il then (n - b) * k + i else i * (e - b) + (n - b)
  have inj : ∀ n, b ≤ n → n < e → ∀ n', b ≤ n' → n' < e → ∀ i i' : Fin k,
      slot n i = slot n' i' → n = n' ∧ i = i' := fun n h0 h1 n' h0' h1' i i' h => by
    have hi : (i : ℤ) < k := by exact_mod_cast i.isLt
    have hi' : (i' : ℤ) < k := by exact_mod_cast i'.isLt
    simp only [slot] at h
    split at h
    · rw [mul_comm, mul_comm (n' - b)] at h
      have := slot_inj (by omega) hi (by omega) hi' h
      exact ⟨by omega, Fin.ext (by omega)⟩
    · rw [mul_comm, mul_comm (i' : ℤ)] at h
      have := slot_inj (by omega) (by omega) (by omega) (by omega) h
      exact ⟨by omega, Fin.ext (by omega)⟩
  let data : ℤ → T := fun j =>
    if h : ∃ p : ℤ × Fin k, b ≤ p.1 ∧ p.1 < e ∧ slot p.1 p.2 = j then F h.choose.1 h.choose.2
    else Classical.arbitrary T
  have hdata : ∀ n, b ≤ n → n < e → ∀ i, data (slot n i) = F n i := fun n h0 h1 i => by
    have hex : ∃ p : ℤ × Fin k, b ≤ p.1 ∧ p.1 < e ∧ slot p.1 p.2 = slot n i := ⟨(n, i), h0, h1, rfl⟩
    have hs := hex.choose_spec
    have := inj _ hs.1 hs.2.1 n h0 h1 _ _ hs.2.2
    simp only [data, dif_pos hex]
    rw [this.1, this.2]
  refine ⟨⟨data, b, e, il⟩, rfl, rfl, rfl, fun n h0 h1 i => ?_⟩
  have := hdata n h0 h1 i
  constructor <;> intro hl <;> dsimp only at hl <;> subst hl <;> simpa [slot] using this

/-- Every two dimensional array of samples has a grid storing it, in each of the four layouts. -/
theorem stores2D_exists [Nonempty T] (F : ℤ → ℤ → Fin k → T) (rb re cb ce : ℤ) (rm il : Bool) :
    ∃ g : Grid2D T, g.rowBegin = rb ∧ g.rowEnd = re ∧ g.colBegin = cb ∧ g.colEnd = ce ∧
      g.rowMajor = rm ∧ g.interleaved = il ∧ Stores2D g F := by
  classical
  let cell : ℤ → ℤ → ℤ := fun r c => if rm then (r - rb) * (ce - cb) + (c - cb)
    else (c - cb) * (re - rb) + (r - rb)
  let slot : ℤ → ℤ → Fin k → ℤ := fun r c i => if il then cell r c * k + i
    else i * ((re - rb) * (ce - cb)) + cell r c
  have crange : ∀ r c, rb ≤ r → r < re → cb ≤ c → c < ce →
      0 ≤ cell r c ∧ cell r c < (re - rb) * (ce - cb) := fun r c h0 h1 h2 h3 => by
    simp only [cell]
    split
    · rw [mul_comm (r - rb)]
      exact slot_range (by omega) (by omega) (by omega) (by omega)
    · rw [mul_comm (c - cb), mul_comm (re - rb) (ce - cb)]
      exact slot_range (by omega) (by omega) (by omega) (by omega)
  have cinj : ∀ r c, rb ≤ r → r < re → cb ≤ c → c < ce → ∀ r' c', rb ≤ r' → r' < re → cb ≤ c' →
      c' < ce → cell r c = cell r' c' → r = r' ∧ c = c' :=
    fun r c h0 h1 h2 h3 r' c' h0' h1' h2' h3' h => by
      simp only [cell] at h
      split at h
      · rw [mul_comm, mul_comm (r' - rb)] at h
        have := slot_inj (by omega) (by omega) (by omega) (by omega) h
        exact ⟨by omega, by omega⟩
      · rw [mul_comm, mul_comm (c' - cb)] at h
        have := slot_inj (by omega) (by omega) (by omega) (by omega) h
        exact ⟨by omega, by omega⟩
  have inj : ∀ r c, rb ≤ r → r < re → cb ≤ c → c < ce → ∀ r' c', rb ≤ r' → r' < re → cb ≤ c' →
      c' < ce → ∀ i i' : Fin k, slot r c i = slot r' c' i' → r = r' ∧ c = c' ∧ i = i' :=
    fun r c h0 h1 h2 h3 r' c' h0' h1' h2' h3' i i' h => by
      have hi : (i : ℤ) < k := by exact_mod_cast i.isLt
      have hi' : (i' : ℤ) < k := by exact_mod_cast i'.isLt
      have a := crange r c h0 h1 h2 h3
      have a' := crange r' c' h0' h1' h2' h3'
      simp only [slot] at h
      split at h
      · rw [mul_comm, mul_comm (cell r' c')] at h
        have := slot_inj (by omega) hi (by omega) hi' h
        have e := cinj r c h0 h1 h2 h3 r' c' h0' h1' h2' h3' this.1
        exact ⟨e.1, e.2, Fin.ext (by omega)⟩
      · rw [mul_comm, mul_comm (i' : ℤ)] at h
        have := slot_inj a.1 a.2 a'.1 a'.2 h
        have e := cinj r c h0 h1 h2 h3 r' c' h0' h1' h2' h3' this.2
        exact ⟨e.1, e.2, Fin.ext (by omega)⟩
  let P : ℤ → ℤ × ℤ × Fin k → Prop := fun j p => rb ≤ p.1 ∧ p.1 < re ∧ cb ≤ p.2.1 ∧ p.2.1 < ce ∧
    slot p.1 p.2.1 p.2.2 = j
  let data : ℤ → T := fun j => if h : ∃ p, P j p then F h.choose.1 h.choose.2.1 h.choose.2.2
    else Classical.arbitrary T
  have hdata : ∀ r c, rb ≤ r → r < re → cb ≤ c → c < ce → ∀ i, data (slot r c i) = F r c i :=
    fun r c h0 h1 h2 h3 i => by
      have hex : ∃ p, P (slot r c i) p := ⟨(r, c, i), h0, h1, h2, h3, rfl⟩
      have hs := hex.choose_spec
      have := inj _ _ hs.1 hs.2.1 hs.2.2.1 hs.2.2.2.1 r c h0 h1 h2 h3 _ _ hs.2.2.2.2
      simp only [data, dif_pos hex]
      rw [this.1, this.2.1, this.2.2]
  refine ⟨⟨data, rb, re, cb, ce, rm, il⟩, rfl, rfl, rfl, rfl, rfl, rfl, fun r c h0 h1 h2 h3 i => ?_⟩
  have := hdata r c h0 h1 h2 h3 i
  dsimp only at *
  constructor <;> intro hl <;> subst hl <;> simpa [slot, cell] using this

/-! ## Together -/

/-- C47: interpolating in a stored array: beyond the edges the interpolant is constant. -/
theorem interp_beyond (g : Grid1D ℝ) (F : ℤ → Vec k) (hg : g.begin < g.end) (hF : Stores1D g F)
    (x : ℝ) : (x < g.begin - 1 → interp (fun n => g.getValue n) x = F g.begin) ∧
      ((g.end : ℝ) ≤ x → interp (fun n => g.getValue n) x = F (g.end - 1)) := by
  have lo : ∀ m : ℤ, m ≤ g.begin → (g.getValue m : Vec k) = F g.begin := fun m hm => by
    obtain ⟨j, hj, e⟩ := grid1D_getValue g F hg hF m
    have := hj.nearest g.begin le_rfl (by omega)
    rw [abs_of_nonpos (by have := hj.lower; omega), abs_of_nonpos (by omega)] at this
    rw [e, show j = g.begin by have := hj.lower; omega]
  have hi : ∀ m : ℤ, g.end - 1 ≤ m → (g.getValue m : Vec k) = F (g.end - 1) := fun m hm => by
    obtain ⟨j, hj, e⟩ := grid1D_getValue g F hg hF m
    have := hj.nearest (g.end - 1) (by omega) le_rfl
    rw [abs_of_nonneg (by have := hj.upper; omega), abs_of_nonneg (by omega)] at this
    rw [e, show j = g.end - 1 by have := hj.upper; omega]
  have hconst : ∀ v : Vec k, interp (fun _ => v) x = v := fun v => by
    funext i
    have := interp_quadratic (fun _ => v) i (v i) 0 0 (by simp) x
    simpa using this
  constructor
  · intro hx
    rw [interp_congr (g' := fun _ => F g.begin), hconst]
    intro m _ h2
    refine lo m ?_
    have : ⌊x⌋ < g.begin - 1 := Int.floor_lt.2 (by push_cast; exact hx)
    omega
  · intro hx
    rw [interp_congr (g' := fun _ => F (g.end - 1)), hconst]
    intro m h1 _
    refine hi m ?_
    have : g.end ≤ ⌊x⌋ := Int.le_floor.2 hx
    omega

/-- A vector valued grid of three samples of a quadratic and a line, stored stacked: interpolation at
`3/2` needs a sample beyond the edge, so the quadratic is not reproduced there. -/
example : ∃ g : Grid1D ℝ, g.begin = 0 ∧ g.end = 3 ∧
    interp (fun n => (g.getValue n : Vec 2)) 1 = ![1, 5] ∧
    interp (fun n => (g.getValue n : Vec 2)) (3 / 2) = ![41 / 16, 89 / 16] := by
  obtain ⟨g, hb, he, _, hF⟩ := stores1D_exists (k := 2)
    (fun n => ![(n : ℝ) ^ 2, 4 + (n : ℝ)]) 0 3 false
  have v : ∀ n : ℤ, 0 ≤ n → n < 3 → (g.getValue n : Vec 2) = ![(n : ℝ) ^ 2, 4 + (n : ℝ)] :=
    fun n h0 h1 => grid1D_inside g _ hF (by omega) (by omega)
  have v3 : (g.getValue 3 : Vec 2) = ![4, 6] := by
    obtain ⟨m, hm, e⟩ := grid1D_getValue g _ (by omega) hF 3
    have h1 := hm.nearest 2 (by omega) (by omega)
    have h2 := hm.upper
    rw [abs_of_nonneg (by omega), abs_of_nonneg (by omega)] at h1
    rw [e, show m = 2 by omega]
    norm_num
  refine ⟨g, hb, he, ?_, ?_⟩
  · have := interp_grid (fun n => (g.getValue n : Vec 2)) 1
    simp only [v 1 (by omega) (by omega), Int.cast_one] at this
    rw [this]; norm_num
  · funext i
    have h := interp_floor (fun n => (g.getValue n : Vec 2)) 1 (t := 1 / 2) (by norm_num) (by norm_num) i
    norm_num only at h
    rw [h, v 0 (by omega) (by omega), v 1 (by omega) (by omega), v 2 (by omega) (by omega), v3]
    fin_cases i <;> norm_num

end

end Ceres.Cubic
