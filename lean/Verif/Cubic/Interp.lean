import Verif.Cubic.Kernel
import Verif.Jet.Ops
import Mathlib.Analysis.Calculus.FDeriv.Pi
import Mathlib.Analysis.Calculus.Deriv.Pi
import Mathlib.Analysis.Calculus.ContDiff.Operations
import Mathlib.Algebra.BigOperators.Finprod
import Mathlib.Order.Interval.Finset.Basic

/-! # The interpolators compute Keys' convolution and its derivative

`interp g x = ∑ₘ g(m) K(x - m)` and its tensor product in two dimensions are the specification. -/

namespace Ceres.Cubic

open Filter Topology

noncomputable section

variable {k : ℕ}

/-- Cubic convolution of the samples `g`. -/
def interp (g : ℤ → Vec k) (x : ℝ) : Vec k := fun i => ∑ᶠ m : ℤ, g m i * keys (x - m)

/-- Bicubic convolution of the samples `g`. -/
def interp2 (g : ℤ → ℤ → Vec k) (r c : ℝ) : Vec k :=
  fun i => ∑ᶠ m : ℤ, ∑ᶠ n : ℤ, g m n i * (keys (r - m) * keys (c - n))

/-! ## The sums are finite -/

theorem keys_zero_of_notMem {N : ℤ} {x : ℝ} (h0 : (N : ℝ) - 1 ≤ x) (h1 : x ≤ N + 1) {m : ℤ}
    (hm : m ∉ Finset.Icc (N - 3) (N + 3)) : keys (x - m) = 0 := by
  refine (keys_outside ?_).1
  rw [Finset.mem_Icc] at hm
  rcases lt_or_ge m (N - 3) with h | h
  · have : (m : ℝ) ≤ N - 4 := by exact_mod_cast (by omega : m ≤ N - 4)
    rw [abs_of_nonneg (by linarith)]; linarith
  · have h : N + 4 ≤ m := by by_contra hh; exact hm ⟨h, by omega⟩
    have : (N : ℝ) + 4 ≤ m := by exact_mod_cast h
    rw [abs_of_nonpos (by linarith)]; linarith

theorem interp_local (g : ℤ → Vec k) {N : ℤ} {x : ℝ} (h0 : (N : ℝ) - 1 ≤ x) (h1 : x ≤ N + 1)
    (i : Fin k) : interp g x i = ∑ m ∈ Finset.Icc (N - 3) (N + 3), g m i * keys (x - m) := by
  refine finsum_eq_sum_of_support_subset _ fun m hm => ?_
  rw [Function.mem_support] at hm
  by_contra h
  exact hm (by rw [keys_zero_of_notMem h0 h1 (by simpa using h), mul_zero])

theorem interp2_local (g : ℤ → ℤ → Vec k) {M N : ℤ} {r c : ℝ} (h0 : (M : ℝ) - 1 ≤ r)
    (h1 : r ≤ M + 1) (h2 : (N : ℝ) - 1 ≤ c) (h3 : c ≤ N + 1) (i : Fin k) :
    interp2 g r c i = ∑ m ∈ Finset.Icc (M - 3) (M + 3), ∑ n ∈ Finset.Icc (N - 3) (N + 3),
      g m n i * (keys (r - m) * keys (c - n)) := by
  have hin : ∀ m : ℤ, (∑ᶠ n : ℤ, g m n i * (keys (r - m) * keys (c - n)))
      = ∑ n ∈ Finset.Icc (N - 3) (N + 3), g m n i * (keys (r - m) * keys (c - n)) := fun m => by
    refine finsum_eq_sum_of_support_subset _ fun n hn => ?_
    rw [Function.mem_support] at hn
    by_contra h
    exact hn (by rw [keys_zero_of_notMem h2 h3 (by simpa using h), mul_zero, mul_zero])
  unfold interp2
  simp only [hin]
  refine finsum_eq_sum_of_support_subset _ fun m hm => ?_
  rw [Function.mem_support] at hm
  by_contra h
  refine hm (Finset.sum_eq_zero fun n _ => ?_)
  rw [keys_zero_of_notMem h0 h1 (by simpa using h), zero_mul, mul_zero]

/-- The two dimensional convolution interpolates the rows first ... -/
theorem interp2_rows (g : ℤ → ℤ → Vec k) (r c : ℝ) :
    interp2 g r c = interp (fun m => interp (g m) c) r := by
  funext i
  have a := Int.floor_le r
  have b := (Int.lt_floor_add_one r).le
  have a' := Int.floor_le c
  have b' := (Int.lt_floor_add_one c).le
  rw [interp2_local g (M := ⌊r⌋) (N := ⌊c⌋) (by linarith) b (by linarith) b',
    interp_local _ (N := ⌊r⌋) (by linarith) b]
  refine Finset.sum_congr rfl fun m _ => ?_
  rw [interp_local _ (N := ⌊c⌋) (by linarith) b', Finset.sum_mul]
  exact Finset.sum_congr rfl fun n _ => by ring

/-- ... or the columns: transposing the grid transposes the interpolant. -/
theorem interp2_transpose (g : ℤ → ℤ → Vec k) (r c : ℝ) :
    interp2 (fun m n => g n m) c r = interp2 g r c := by
  funext i
  have a := Int.floor_le r
  have b := (Int.lt_floor_add_one r).le
  have a' := Int.floor_le c
  have b' := (Int.lt_floor_add_one c).le
  rw [interp2_local g (M := ⌊r⌋) (N := ⌊c⌋) (by linarith) b (by linarith) b',
    interp2_local _ (M := ⌊c⌋) (N := ⌊r⌋) (by linarith) b' (by linarith) b, Finset.sum_comm]
  exact Finset.sum_congr rfl fun m _ => Finset.sum_congr rfl fun n _ => by ring

/-! ## Smoothness -/

theorem near (x : ℝ) : ∀ᶠ y in 𝓝 x, ((⌊x⌋ : ℤ) : ℝ) - 1 ≤ y ∧ y ≤ (⌊x⌋ : ℤ) + 1 := by
  have h0 : ((⌊x⌋ : ℤ) : ℝ) - 1 < x := by linarith [Int.floor_le x]
  have h1 := Int.lt_floor_add_one x
  filter_upwards [lt_mem_nhds h0, gt_mem_nhds h1] with y a b
  exact ⟨le_of_lt a, le_of_lt b⟩

/-- The derivative of the convolution, as a sum over the samples. -/
def interp' (g : ℤ → Vec k) (x : ℝ) : Vec k :=
  fun i => ∑ m ∈ Finset.Icc (⌊x⌋ - 3) (⌊x⌋ + 3), g m i * keys' (x - m)

theorem interp_hasDerivAt (g : ℤ → Vec k) (x : ℝ) : HasDerivAt (interp g) (interp' g x) x := by
  rw [hasDerivAt_pi]
  intro i
  have h : HasDerivAt (fun y => ∑ m ∈ Finset.Icc (⌊x⌋ - 3) (⌊x⌋ + 3), g m i * keys (y - m))
      (interp' g x i) x := by
    refine (HasDerivAt.fun_sum fun (m : ℤ) _ =>
      ((keys_hasDerivAt (x - m)).comp_sub_const x (m : ℝ)).const_mul (g m i)).congr_deriv ?_
    rfl
  refine h.congr_of_eventuallyEq ?_
  filter_upwards [near x] with y hy
  exact interp_local g hy.1 hy.2 i

theorem interp_deriv (g : ℤ → Vec k) (x : ℝ) : deriv (interp g) x = interp' g x :=
  (interp_hasDerivAt g x).deriv

/-- C47: the interpolant is continuously differentiable on the whole line, cell boundaries included. -/
theorem interp_contDiff (g : ℤ → Vec k) : ContDiff ℝ 1 (interp g) := by
  rw [contDiff_pi]
  intro i
  rw [contDiff_iff_contDiffAt]
  intro x
  have h : ContDiffAt ℝ 1
      (fun y => ∑ m ∈ Finset.Icc (⌊x⌋ - 3) (⌊x⌋ + 3), g m i * keys (y - (m : ℝ))) x := by
    refine ContDiff.contDiffAt ?_
    refine ContDiff.sum fun m _ => contDiff_const.mul (keys_contDiff.comp ?_)
    exact contDiff_id.sub contDiff_const
  refine h.congr_of_eventuallyEq ?_
  filter_upwards [near x] with y hy
  exact interp_local g hy.1 hy.2 i

/-- C47: the bicubic interpolant is continuously differentiable on the whole plane. -/
theorem interp2_contDiff (g : ℤ → ℤ → Vec k) :
    ContDiff ℝ 1 (fun p : ℝ × ℝ => interp2 g p.1 p.2) := by
  rw [contDiff_pi]
  intro i
  rw [contDiff_iff_contDiffAt]
  rintro ⟨r, c⟩
  have h : ContDiffAt ℝ 1 (fun p : ℝ × ℝ => ∑ m ∈ Finset.Icc (⌊r⌋ - 3) (⌊r⌋ + 3),
      ∑ n ∈ Finset.Icc (⌊c⌋ - 3) (⌊c⌋ + 3),
        g m n i * (keys (p.1 - (m : ℝ)) * keys (p.2 - (n : ℝ)))) (r, c) := by
    refine ContDiff.contDiffAt ?_
    refine ContDiff.sum fun m _ => ContDiff.sum fun n _ => contDiff_const.mul ?_
    exact (keys_contDiff.comp (contDiff_fst.sub contDiff_const)).mul
      (keys_contDiff.comp (contDiff_snd.sub contDiff_const))
  refine h.congr_of_eventuallyEq ?_
  have hr := (continuous_fst.tendsto (r, c)).eventually (near r)
  have hc := (continuous_snd.tendsto (r, c)).eventually (near c)
  filter_upwards [hr, hc] with y h1 h2
  exact interp2_local g h1.1 h1.2 h2.1 h2.2 i

/-! ## The code computes them -/

/-- Four consecutive samples suffice. -/
theorem interp_four (g : ℤ → Vec k) (n : ℤ) {t : ℝ} (h0 : 0 ≤ t) (h1 : t ≤ 1) (i : Fin k) :
    interp g (n + t) i = g (n - 1) i * keys (t + 1) + g n i * keys t + g (n + 1) i * keys (t - 1)
      + g (n + 2) i * keys (t - 2) := by
  rw [interp_local g (N := n) (by linarith) (by linarith)]
  have e : Finset.Icc (n - 3) (n + 3) = {n - 3, n - 2, n - 1, n, n + 1, n + 2, n + 3} := by
    ext m
    simp only [Finset.mem_Icc, Finset.mem_insert, Finset.mem_singleton]
    omega
  rw [e]
  rw [Finset.sum_insert (by simp; omega), Finset.sum_insert (by simp; omega),
    Finset.sum_insert (by simp; omega), Finset.sum_insert (by simp), Finset.sum_insert (by simp),
    Finset.sum_insert (by simp), Finset.sum_singleton]
  have z3 : keys ((n : ℝ) + t - ((n - 3 : ℤ) : ℝ)) = 0 :=
    (keys_outside (by push_cast; rw [abs_of_nonneg (by linarith)]; linarith)).1
  have z2 : keys ((n : ℝ) + t - ((n - 2 : ℤ) : ℝ)) = 0 :=
    (keys_outside (by push_cast; rw [abs_of_nonneg (by linarith)]; linarith)).1
  have y3 : keys ((n : ℝ) + t - ((n + 3 : ℤ) : ℝ)) = 0 :=
    (keys_outside (by push_cast; rw [abs_of_nonpos (by linarith)]; linarith)).1
  rw [z3, z2, y3]
  push_cast
  rw [show (n : ℝ) + t - (n - 1) = t + 1 by ring, show (n : ℝ) + t - n = t by ring,
    show (n : ℝ) + t - (n + 1) = t - 1 by ring, show (n : ℝ) + t - (n + 2) = t - 2 by ring]
  ring

theorem interp'_four (g : ℤ → Vec k) (x : ℝ) (i : Fin k) :
    interp' g x i = g (⌊x⌋ - 1) i * keys' (x - ⌊x⌋ + 1) + g ⌊x⌋ i * keys' (x - ⌊x⌋)
      + g (⌊x⌋ + 1) i * keys' (x - ⌊x⌋ - 1) + g (⌊x⌋ + 2) i * keys' (x - ⌊x⌋ - 2) := by
  have h0 := Int.floor_le x
  have h1 := Int.lt_floor_add_one x
  unfold interp'
  generalize ⌊x⌋ = n at *
  have e : Finset.Icc (n - 3) (n + 3) = {n - 3, n - 2, n - 1, n, n + 1, n + 2, n + 3} := by
    ext m
    simp only [Finset.mem_Icc, Finset.mem_insert, Finset.mem_singleton]
    omega
  rw [e]
  rw [Finset.sum_insert (by simp; omega), Finset.sum_insert (by simp; omega),
    Finset.sum_insert (by simp; omega), Finset.sum_insert (by simp), Finset.sum_insert (by simp),
    Finset.sum_insert (by simp), Finset.sum_singleton]
  have z3 : keys' (x - ((n - 3 : ℤ) : ℝ)) = 0 :=
    (keys_outside (by push_cast; rw [abs_of_nonneg (by linarith)]; linarith)).2
  have z2 : keys' (x - ((n - 2 : ℤ) : ℝ)) = 0 :=
    (keys_outside (by push_cast; rw [abs_of_nonneg (by linarith)]; linarith)).2
  have y3 : keys' (x - ((n + 3 : ℤ) : ℝ)) = 0 :=
    (keys_outside (by push_cast; rw [abs_of_nonpos (by linarith)]; linarith)).2
  rw [z3, z2, y3]
  push_cast
  rw [show x - ((n : ℝ) - 1) = x - n + 1 by ring, show x - ((n : ℝ) + 1) = x - n - 1 by ring,
    show x - ((n : ℝ) + 2) = x - n - 2 by ring]
  ring

/-- The spline through four consecutive samples is the convolution and its derivative. -/
theorem spline_eq (g : ℤ → Vec k) (x : ℝ) (f d : Out k) :
    cubicHermiteSpline (g (⌊x⌋ - 1)) (g ⌊x⌋) (g (⌊x⌋ + 1)) (g (⌊x⌋ + 2)) (x - ⌊x⌋) f d
      = (f.map fun _ => interp g x, d.map fun _ => deriv (interp g) x) := by
  have h0 : 0 ≤ x - ⌊x⌋ := by linarith [Int.floor_le x]
  have h1 : x - ⌊x⌋ ≤ 1 := by linarith [Int.lt_floor_add_one x]
  have hv := fun i => interp_four g ⌊x⌋ h0 h1 i
  obtain ⟨w0, w1, w2, w3⟩ := keys_weights h0 h1
  obtain ⟨d0, d1, d2, d3⟩ := keys'_weights h0 h1
  rw [interp_deriv]
  unfold cubicHermiteSpline write
  refine Prod.ext ?_ ?_
  · refine congrArg (fun v : Vec k => f.map fun _ => v) ?_
    funext i
    have := hv i
    rw [show (⌊x⌋ : ℝ) + (x - ⌊x⌋) = x by ring] at this
    rw [this, w0, w1, w2, w3]
    simp only [Pi.add_apply, Pi.smul_apply, Pi.sub_apply, Pi.neg_apply, smul_eq_mul]
    ring
  · refine congrArg (fun v : Vec k => d.map fun _ => v) ?_
    funext i
    rw [interp'_four g x i, d0, d1, d2, d3]
    simp only [Pi.add_apply, Pi.smul_apply, Pi.sub_apply, Pi.neg_apply, smul_eq_mul]
    ring

/-- C47: the interpolator returns the cubic convolution of the grid and its derivative, each only if
asked for. -/
theorem cubicEvaluate_eq (g : ℤ → Vec k) (x : ℝ) (f d : Out k) :
    cubicEvaluate g x f d = (f.map fun _ => interp g x, d.map fun _ => deriv (interp g) x) :=
  spline_eq g x f d

/-- C47: the bicubic interpolator returns the bicubic convolution and its two partial derivatives. -/
theorem bicubicEvaluate_eq (g : ℤ → ℤ → Vec k) (junk : Vec k) (r c : ℝ) (f dr dc : Out k) :
    bicubicEvaluate g junk r c f dr dc = (f.map fun _ => interp2 g r c,
      dr.map fun _ => deriv (fun r => interp2 g r c) r,
      dc.map fun _ => deriv (fun c => interp2 g r c) c) := by
  unfold bicubicEvaluate
  simp only [spline_eq (g _) c, Option.map_some, Option.getD_some]
  have hv := spline_eq (fun m => interp (g m) c) r f dr
  have hd := spline_eq (fun m => deriv (interp (g m)) c) r dc none
  rw [hv, hd]
  have e1 : (fun r => interp2 g r c) = interp (fun m => interp (g m) c) :=
    funext fun r => interp2_rows g r c
  have e2 : deriv (fun c => interp2 g r c) c = interp (fun m => deriv (interp (g m)) c) r := by
    refine HasDerivAt.deriv ?_
    rw [hasDerivAt_pi]
    intro i
    have a := Int.floor_le r
    have b := (Int.lt_floor_add_one r).le
    rw [interp_local _ (N := ⌊r⌋) (by linarith) b]
    have e : (fun c => interp2 g r c i)
        = fun c => ∑ m ∈ Finset.Icc (⌊r⌋ - 3) (⌊r⌋ + 3), interp (g m) c i * keys (r - m) := by
      funext c
      rw [interp2_rows, interp_local _ (N := ⌊r⌋) (by linarith) b]
    rw [e]
    refine HasDerivAt.fun_sum fun m _ => HasDerivAt.mul_const ?_ _
    have := interp_hasDerivAt (g m) c
    rw [← interp_deriv] at this
    exact hasDerivAt_pi.1 this i
  rw [e1, e2, interp2_rows]
  cases dc <;> rfl

end

end Ceres.Cubic
