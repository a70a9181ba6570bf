import Verif.Cubic.Model
import Mathlib.Analysis.Calculus.Deriv.Pow
import Mathlib.Analysis.Calculus.Deriv.Add
import Mathlib.Analysis.Calculus.Deriv.Mul
import Mathlib.Analysis.Calculus.ContDiff.Basic
import Mathlib.Tactic.Linarith
import Mathlib.Tactic.FieldSimp

/-! # Keys' cubic convolution kernel

The specification of the interpolators: `∑ₘ g(m) K(x - m)` with the kernel of Keys' paper.  The kernel is
continuously differentiable, so the interpolants are, cell boundaries included. -/

namespace Ceres.Cubic

open Filter Topology

noncomputable section

/-- The interpolation kernel of Keys' paper for `a = -1/2`, the one the header refers to. -/
def keys (x : ℝ) : ℝ :=
  if |x| ≤ 1 then 3 / 2 * |x| ^ 3 - 5 / 2 * |x| ^ 2 + 1
  else if |x| ≤ 2 then -(1 / 2) * |x| ^ 3 + 5 / 2 * |x| ^ 2 - 4 * |x| + 2
  else 0

/-- The positive part. -/
def pos (x : ℝ) : ℝ := max x 0

/-- The kernel written with positive parts. -/
def keysPos (x : ℝ) : ℝ :=
  (1 / 2 * pos (x + 2) ^ 3 - 1 / 2 * pos (x + 2) ^ 2)
  + (-2 * pos (x + 1) ^ 3 + pos (x + 1) ^ 2)
  + 3 * pos x ^ 3
  + (-2 * pos (x - 1) ^ 3 - pos (x - 1) ^ 2)
  + (1 / 2 * pos (x - 2) ^ 3 + 1 / 2 * pos (x - 2) ^ 2)

theorem keys_eq_pos (x : ℝ) : keys x = keysPos x := by
  unfold keys keysPos pos
  rcases le_total x (-2) with h | h
  · rw [max_eq_right (by linarith : x + 2 ≤ 0), max_eq_right (by linarith : x + 1 ≤ 0),
      max_eq_right (by linarith : x ≤ 0), max_eq_right (by linarith : x - 1 ≤ 0),
      max_eq_right (by linarith : x - 2 ≤ 0), abs_of_nonpos (by linarith), if_neg (by linarith)]
    split
    · have : x = -2 := by linarith
      subst this; norm_num
    · ring
  rcases le_total x (-1) with h' | h'
  · rw [max_eq_left (by linarith : 0 ≤ x + 2), max_eq_right (by linarith : x + 1 ≤ 0),
      max_eq_right (by linarith : x ≤ 0), max_eq_right (by linarith : x - 1 ≤ 0),
      max_eq_right (by linarith : x - 2 ≤ 0), abs_of_nonpos (by linarith)]
    split
    · have : x = -1 := by linarith
      subst this; norm_num
    · rw [if_pos (by linarith)]; ring
  rcases le_total x 0 with h0 | h0
  · rw [max_eq_left (by linarith : 0 ≤ x + 2), max_eq_left (by linarith : 0 ≤ x + 1),
      max_eq_right (by linarith : x ≤ 0), max_eq_right (by linarith : x - 1 ≤ 0),
      max_eq_right (by linarith : x - 2 ≤ 0), abs_of_nonpos (by linarith), if_pos (by linarith)]
    ring
  rcases le_total x 1 with h1 | h1
  · rw [max_eq_left (by linarith : 0 ≤ x + 2), max_eq_left (by linarith : 0 ≤ x + 1),
      max_eq_left (by linarith : 0 ≤ x), max_eq_right (by linarith : x - 1 ≤ 0),
      max_eq_right (by linarith : x - 2 ≤ 0), abs_of_nonneg (by linarith), if_pos (by linarith)]
    ring
  rcases le_total x 2 with h2 | h2
  · rw [max_eq_left (by linarith : 0 ≤ x + 2), max_eq_left (by linarith : 0 ≤ x + 1),
      max_eq_left (by linarith : 0 ≤ x), max_eq_left (by linarith : 0 ≤ x - 1),
      max_eq_right (by linarith : x - 2 ≤ 0), abs_of_nonneg (by linarith)]
    split
    · have : x = 1 := by linarith
      subst this; norm_num
    · ring
  · rw [max_eq_left (by linarith : 0 ≤ x + 2), max_eq_left (by linarith : 0 ≤ x + 1),
      max_eq_left (by linarith : 0 ≤ x), max_eq_left (by linarith : 0 ≤ x - 1),
      max_eq_left (by linarith : 0 ≤ x - 2), abs_of_nonneg (by linarith), if_neg (by linarith)]
    split
    · have : x = 2 := by linarith
      subst this; norm_num
    · ring

theorem pos_hasDerivAt {n : ℕ} (x : ℝ) :
    HasDerivAt (fun x => pos x ^ (n + 2)) ((n + 2) * pos x ^ (n + 1)) x := by
  unfold pos
  rcases lt_trichotomy x 0 with h | h | h
  · rw [max_eq_right h.le]
    have : (fun x : ℝ => max x 0 ^ (n + 2)) =ᶠ[𝓝 x] fun _ => 0 := by
      filter_upwards [gt_mem_nhds h] with y hy
      rw [max_eq_right (le_of_lt hy)]; simp
    exact ((hasDerivAt_const x (0 : ℝ)).congr_of_eventuallyEq this).congr_deriv (by simp)
  · subst h
    rw [hasDerivAt_iff_isLittleO]
    simp only [max_self, ne_eq, Nat.add_eq_zero_iff, OfNat.ofNat_ne_zero, and_false,
      not_false_eq_true, zero_pow, sub_zero, one_ne_zero, mul_zero, smul_zero]
    have h1 : (fun x : ℝ => x ^ (n + 2)) =o[𝓝 0] fun x => x := by
      simpa using (Asymptotics.isLittleO_pow_pow (𝕜 := ℝ) (show 1 < n + 2 by omega))
    refine Asymptotics.IsBigO.trans_isLittleO (Asymptotics.IsBigO.of_bound 1 ?_) h1
    refine Filter.Eventually.of_forall fun y => ?_
    rw [one_mul, norm_pow, norm_pow]
    refine pow_le_pow_left₀ (norm_nonneg _) ?_ _
    rw [Real.norm_eq_abs, Real.norm_eq_abs, abs_of_nonneg (le_max_right _ _)]
    exact max_le (le_abs_self y) (abs_nonneg y)
  · rw [max_eq_left h.le]
    have : (fun x : ℝ => max x 0 ^ (n + 2)) =ᶠ[𝓝 x] fun x => x ^ (n + 2) := by
      filter_upwards [lt_mem_nhds h] with y hy
      rw [max_eq_left (le_of_lt hy)]
    refine ((hasDerivAt_pow (n + 2) x).congr_of_eventuallyEq this).congr_deriv ?_
    push_cast
    rfl

/-- The derivative of the kernel. -/
def keys' (x : ℝ) : ℝ :=
  (3 / 2 * pos (x + 2) ^ 2 - pos (x + 2))
  + (-6 * pos (x + 1) ^ 2 + 2 * pos (x + 1))
  + 9 * pos x ^ 2
  + (-6 * pos (x - 1) ^ 2 - 2 * pos (x - 1))
  + (3 / 2 * pos (x - 2) ^ 2 + pos (x - 2))

theorem keys_hasDerivAt (x : ℝ) : HasDerivAt keys (keys' x) x := by
  have e : keys = keysPos := funext keys_eq_pos
  rw [e]
  have h3 : ∀ c, HasDerivAt (fun x => pos (x + c) ^ 3) (3 * pos (x + c) ^ 2) x := fun c => by
    have := (pos_hasDerivAt (n := 1) (x + c)).comp_add_const x c
    exact this.congr_deriv (by push_cast; ring)
  have h2 : ∀ c, HasDerivAt (fun x => pos (x + c) ^ 2) (2 * pos (x + c)) x := fun c => by
    have := (pos_hasDerivAt (n := 0) (x + c)).comp_add_const x c
    exact this.congr_deriv (by push_cast; ring)
  have a2 := ((h3 2).const_mul (1 / 2)).sub ((h2 2).const_mul (1 / 2))
  have a1 := ((h3 1).const_mul (-2)).add (h2 1)
  have a0 := (h3 0).const_mul 3
  have b1 := ((h3 (-1)).const_mul (-2)).sub (h2 (-1))
  have b2 := ((h3 (-2)).const_mul (1 / 2)).add ((h2 (-2)).const_mul (1 / 2))
  have h := (((a2.add a1).add a0).add b1).add b2
  have hf : keysPos = fun x => (1 / 2 * pos (x + 2) ^ 3 - 1 / 2 * pos (x + 2) ^ 2)
      + (-2 * pos (x + 1) ^ 3 + pos (x + 1) ^ 2) + 3 * pos (x + 0) ^ 3
      + (-2 * pos (x + -1) ^ 3 - pos (x + -1) ^ 2)
      + (1 / 2 * pos (x + -2) ^ 3 + 1 / 2 * pos (x + -2) ^ 2) := by
    funext y
    simp only [keysPos, add_zero, sub_eq_add_neg]
  rw [hf]
  refine h.congr_deriv ?_
  simp only [keys', add_zero, sub_eq_add_neg]
  ring

theorem keys'_continuous : Continuous keys' := by
  have : Continuous pos := continuous_id.max continuous_const
  unfold keys'
  fun_prop

theorem keys_contDiff : ContDiff ℝ 1 keys := by
  rw [contDiff_one_iff_deriv]
  refine ⟨fun x => (keys_hasDerivAt x).differentiableAt, ?_⟩
  have : deriv keys = keys' := funext fun x => (keys_hasDerivAt x).deriv
  rw [this]
  exact keys'_continuous

/-- The weights of the four samples around a point, at distance `t` from the second one. -/
theorem keys_weights {t : ℝ} (h0 : 0 ≤ t) (h1 : t ≤ 1) :
    keys (t + 1) = -(1 / 2) * t ^ 3 + t ^ 2 - 1 / 2 * t ∧
    keys t = 3 / 2 * t ^ 3 - 5 / 2 * t ^ 2 + 1 ∧
    keys (t - 1) = -(3 / 2) * t ^ 3 + 2 * t ^ 2 + 1 / 2 * t ∧
    keys (t - 2) = 1 / 2 * t ^ 3 - 1 / 2 * t ^ 2 := by
  simp only [keys_eq_pos, keysPos, pos]
  refine ⟨?_, ?_, ?_, ?_⟩
  · rw [max_eq_left (by linarith : (0:ℝ) ≤ t + 1 + 2), max_eq_left (by linarith : (0:ℝ) ≤ t + 1 + 1),
      max_eq_left (by linarith : (0:ℝ) ≤ t + 1), max_eq_left (by linarith : (0:ℝ) ≤ t + 1 - 1),
      max_eq_right (by linarith : t + 1 - 2 ≤ 0)]
    ring
  · rw [max_eq_left (by linarith : (0:ℝ) ≤ t + 2), max_eq_left (by linarith : (0:ℝ) ≤ t + 1),
      max_eq_left (by linarith : (0:ℝ) ≤ t), max_eq_right (by linarith : t - 1 ≤ 0),
      max_eq_right (by linarith : t - 2 ≤ 0)]
    ring
  · rw [max_eq_left (by linarith : (0:ℝ) ≤ t - 1 + 2), max_eq_left (by linarith : (0:ℝ) ≤ t - 1 + 1),
      max_eq_right (by linarith : t - 1 ≤ 0), max_eq_right (by linarith : t - 1 - 1 ≤ 0),
      max_eq_right (by linarith : t - 1 - 2 ≤ 0)]
    ring
  · rw [max_eq_left (by linarith : (0:ℝ) ≤ t - 2 + 2), max_eq_right (by linarith : t - 2 + 1 ≤ 0),
      max_eq_right (by linarith : t - 2 ≤ 0), max_eq_right (by linarith : t - 2 - 1 ≤ 0),
      max_eq_right (by linarith : t - 2 - 2 ≤ 0)]
    ring

theorem keys'_weights {t : ℝ} (h0 : 0 ≤ t) (h1 : t ≤ 1) :
    keys' (t + 1) = -(3 / 2) * t ^ 2 + 2 * t - 1 / 2 ∧
    keys' t = 9 / 2 * t ^ 2 - 5 * t ∧
    keys' (t - 1) = -(9 / 2) * t ^ 2 + 4 * t + 1 / 2 ∧
    keys' (t - 2) = 3 / 2 * t ^ 2 - t := by
  simp only [keys', pos]
  refine ⟨?_, ?_, ?_, ?_⟩
  · rw [max_eq_left (by linarith : (0:ℝ) ≤ t + 1 + 2), max_eq_left (by linarith : (0:ℝ) ≤ t + 1 + 1),
      max_eq_left (by linarith : (0:ℝ) ≤ t + 1), max_eq_left (by linarith : (0:ℝ) ≤ t + 1 - 1),
      max_eq_right (by linarith : t + 1 - 2 ≤ 0)]
    ring
  · rw [max_eq_left (by linarith : (0:ℝ) ≤ t + 2), max_eq_left (by linarith : (0:ℝ) ≤ t + 1),
      max_eq_left (by linarith : (0:ℝ) ≤ t), max_eq_right (by linarith : t - 1 ≤ 0),
      max_eq_right (by linarith : t - 2 ≤ 0)]
    ring
  · rw [max_eq_left (by linarith : (0:ℝ) ≤ t - 1 + 2), max_eq_left (by linarith : (0:ℝ) ≤ t - 1 + 1),
      max_eq_right (by linarith : t - 1 ≤ 0), max_eq_right (by linarith : t - 1 - 1 ≤ 0),
      max_eq_right (by linarith : t - 1 - 2 ≤ 0)]
    ring
  · rw [max_eq_left (by linarith : (0:ℝ) ≤ t - 2 + 2), max_eq_right (by linarith : t - 2 + 1 ≤ 0),
      max_eq_right (by linarith : t - 2 ≤ 0), max_eq_right (by linarith : t - 2 - 1 ≤ 0),
      max_eq_right (by linarith : t - 2 - 2 ≤ 0)]
    ring

/-- Outside `[-2, 2]` the kernel and its derivative vanish. -/
theorem keys_outside {x : ℝ} (h : 2 ≤ |x|) : keys x = 0 ∧ keys' x = 0 := by
  rcases le_abs'.1 h with h | h
  · rw [keys_eq_pos]
    simp only [keysPos, keys', pos]
    rw [max_eq_right (by linarith : x + 2 ≤ 0), max_eq_right (by linarith : x + 1 ≤ 0),
      max_eq_right (by linarith : x ≤ 0), max_eq_right (by linarith : x - 1 ≤ 0),
      max_eq_right (by linarith : x - 2 ≤ 0)]
    norm_num
  · rw [keys_eq_pos]
    simp only [keysPos, keys', pos]
    rw [max_eq_left (by linarith : 0 ≤ x + 2), max_eq_left (by linarith : 0 ≤ x + 1),
      max_eq_left (by linarith : 0 ≤ x), max_eq_left (by linarith : 0 ≤ x - 1),
      max_eq_left (by linarith : 0 ≤ x - 2)]
    constructor <;> ring

end

end Ceres.Cubic
