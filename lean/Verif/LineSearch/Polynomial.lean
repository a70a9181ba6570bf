import Verif.LineSearch.Model
import Mathlib.Analysis.Calculus.Deriv.Polynomial
import Mathlib.Analysis.Calculus.LocalExtr.Basic
import Mathlib.Analysis.Real.Sqrt
import Mathlib.Algebra.Polynomial.Roots
import Mathlib.Algebra.Polynomial.Derivative
import Mathlib.LinearAlgebra.Matrix.ToLinearEquiv
import Mathlib.LinearAlgebra.Matrix.Charpoly.Basic
import Mathlib.Data.Int.Log
import Mathlib.Topology.Order.Compact
import Mathlib.Topology.Algebra.Polynomial
import Mathlib.Tactic.LinearCombination
import Mathlib.Tactic.FieldSimp
import Mathlib.Tactic.Ring
import Mathlib.Tactic.Linarith

/-!
# Model of the polynomial routines (polynomial.cc, polynomial.h)

Polynomials are lists of real coefficients, highest degree first (polynomial.h:45-49).  Two
routines of Eigen are parameters: the solution of a square linear system (`FullPivLU`) and the
eigenvalues of a matrix (`EigenSolver`).
-/
namespace Ceres.LineSearch

open Polynomial

/-! ### The code -/

/-- `EvaluatePolynomial`, the Horner scheme (polynomial.h:53-59). -/
def evalPoly (p : List ℝ) (x : ℝ) : ℝ := p.foldl (fun v c => v * x + c) 0

/-- `DifferentiatePolynomial` (polynomial.cc:258-275). -/
def differentiate (p : List ℝ) : List ℝ :=
  if p.length - 1 = 0 then [0]
  else (List.range (p.length - 1)).map fun i => ((p.length - 1 - i : ℕ) : ℝ) * p.getD i 0

/-- `RemoveLeadingZeros` (polynomial.cc:121-127): leading zeros go, but not the last entry. -/
noncomputable def removeLeadingZeros : List ℝ → List ℝ
  | [] => []
  | [c] => [c]
  | c :: d :: l => if c = 0 then removeLeadingZeros (d :: l) else c :: d :: l

/-- Real parts found by `FindLinearPolynomialRoots` (polynomial.cc:129-141). -/
noncomputable def linearRoots (a b : ℝ) : List ℝ := [-b / a]

/-- Real parts found by `FindQuadraticPolynomialRoots` (polynomial.cc:143-184).  If `b = c = 0`
the second quotient is `0/0`; it is NaN in the code (and then ignored by `MinimizePolynomial`,
whose comparisons with it are false) and `0`, which is the other root, here. -/
noncomputable def quadraticRoots (a b c : ℝ) : List ℝ :=
  let D := b * b - 4 * a * c
  let s := √|D|
  if 0 ≤ D then
    if 0 ≤ b then [(-b - s) / (2 * a), (2 * c) / (-b - s)]
    else [(2 * c) / (-b + s), (-b + s) / (2 * a)]
  else [-b / (2 * a), -b / (2 * a)]

/-- `BuildCompanionMatrix` (polynomial.cc:107-118) for a monic polynomial `p` of degree `n`. -/
def companion (n : ℕ) (p : List ℝ) : Matrix (Fin n) (Fin n) ℝ := fun i j =>
  if j.val = n - 1 then -(p.reverse.getD i.val 0)
  else if i.val = j.val + 1 then 1 else 0

/-- The exponent `std::frexp(r)` delivers: `r = m 2^e` with `1/2 <= m < 1`, and `0` for `r = 0`
(polynomial.cc:78-82). -/
noncomputable def frexpExponent (r : ℝ) : ℤ := if r = 0 then 0 else Int.log 2 |r| + 1

/-- `row(i) *= 2^-e; col(i) *= 2^e` (polynomial.cc:94-95). -/
noncomputable def scaleRowCol {n : ℕ} (M : Matrix (Fin n) (Fin n) ℝ) (i : Fin n) (e : ℤ) :
    Matrix (Fin n) (Fin n) ℝ :=
  fun a b => M a b * (if a = i then 2 ^ (-e) else 1) * (if b = i then 2 ^ e else 1)

/-- One pass through the body of the loop over `i` in `BalanceCompanionMatrix`
(polynomial.cc:72-99): scale row and column `i` if that makes their norms smaller. -/
noncomputable def balanceRow {n : ℕ} (M : Matrix (Fin n) (Fin n) ℝ) (i : Fin n) :
    Matrix (Fin n) (Fin n) ℝ :=
  let col := ∑ k, |M k i|
  let row := ∑ k, |M i k|
  let e := (frexpExponent (row / col)).tdiv 2
  if col ≠ 0 ∧ e ≠ 0 ∧ col * 2 ^ e + row * 2 ^ (-e) < 9 / 10 * (col + row) then
    scaleRowCol M i e
  else M

/-- One sweep (polynomial.cc:72-99). -/
noncomputable def balanceSweep {n : ℕ} (M : Matrix (Fin n) (Fin n) ℝ) :
    Matrix (Fin n) (Fin n) ℝ := (List.finRange n).foldl balanceRow M

/-- The matrix with its diagonal set to zero (polynomial.cc:55-56). -/
def offDiagonal {n : ℕ} (M : Matrix (Fin n) (Fin n) ℝ) : Matrix (Fin n) (Fin n) ℝ :=
  fun a b => if a = b then 0 else M a b

/-- `BalanceCompanionMatrix` (polynomial.cc:52-105) when the `do`-`while` loop makes `sweeps`
rounds. -/
noncomputable def balance {n : ℕ} (sweeps : ℕ) (M : Matrix (Fin n) (Fin n) ℝ) :
    Matrix (Fin n) (Fin n) ℝ :=
  fun a b => if a = b then M a b else (balanceSweep^[sweeps] (offDiagonal M)) a b

/-- What the routines take from Eigen: `FullPivLU::solve` (polynomial.cc:370-371) for a system
given by its rows, and the real parts of the eigenvalues of a matrix (polynomial.cc:238-246,
`none` if the iteration fails).  `sweeps` is the number of rounds the balancing loop takes. -/
structure Numerics where
  solve : List (List ℝ) → List ℝ → List ℝ
  eig : (n : ℕ) → Matrix (Fin n) (Fin n) ℝ → Option (List ℝ)
  sweeps : (n : ℕ) → Matrix (Fin n) (Fin n) ℝ → ℕ

/-- `FindPolynomialRoots` (polynomial.cc:187-256): the real parts of the roots. -/
noncomputable def findRoots (N : Numerics) (p : List ℝ) : Option (List ℝ) :=
  match p with
  | [] => none
  | _ =>
    match removeLeadingZeros p with
    | [] => none
    | [_] => some []
    | [a, b] => some (linearRoots a b)
    | [a, b, c] => some (quadraticRoots a b c)
    | lead :: rest =>
      let monic := (lead :: rest).map (· / lead)
      N.eig rest.length (balance (N.sweeps _ (companion rest.length monic))
        (companion rest.length monic))

/-- Keep the better of two candidates: `if (value < *optimal_value)` (polynomial.cc:291-294,
297-300, 324-327, 387-390). -/
noncomputable def better (p : List ℝ) (best x : ℝ) : ℝ :=
  if evalPoly p x < evalPoly p best then x else best

/-- `MinimizePolynomial` (polynomial.cc:277-329); the value returned is always that of the
polynomial at the point returned, so only the point is modelled. -/
noncomputable def minimizePoly (N : Numerics) (p : List ℝ) (lo hi : ℝ) : ℝ :=
  let ends := better p (better p ((lo + hi) / 2) lo) hi
  if p.length ≤ 2 then ends
  else
    match findRoots N (differentiate p) with
    | none => ends
    | some roots =>
      roots.foldl (fun best r => if r < lo ∨ hi < r then best else better p best r) ends

variable {Y V : Type}

/-- The finite slope of a sample. -/
def slopeOf (s : Sample ℝ Y V) : ℝ :=
  match s.gradient with
  | .fin g => g
  | _ => 0

/-- The number of constraints (polynomial.cc:332-341). -/
def numConstraints (samples : List (Sample ℝ Y V)) : ℕ :=
  (samples.map fun s => (if s.valueValid then 1 else 0) + (if s.gradValid then 1 else 0)).sum

/-- The row for a value (polynomial.cc:352-354). -/
def valueRow (n : ℕ) (x : ℝ) : List ℝ := (List.range n).map fun j => x ^ (n - 1 - j)

/-- The row for a slope (polynomial.cc:360-362); the last entry stays zero. -/
def slopeRow (n : ℕ) (x : ℝ) : List ℝ :=
  (List.range n).map fun j =>
    if j < n - 1 then ((n - 1 - j : ℕ) : ℝ) * x ^ (n - 1 - j - 1) else 0

/-- Rows and right hand sides contributed by one sample (polynomial.cc:350-365). -/
def constraintsOf (n : ℕ) (s : Sample ℝ Y V) : List (List ℝ × ℝ) :=
  (if s.valueValid then [(valueRow n s.x, s.value)] else []) ++
    (if s.gradValid then [(slopeRow n s.x, slopeOf s)] else [])

/-- `FindInterpolatingPolynomial` (polynomial.cc:331-372). -/
def interpolate (N : Numerics) (samples : List (Sample ℝ Y V)) : List ℝ :=
  let cs := samples.flatMap (constraintsOf (numConstraints samples))
  N.solve (cs.map Prod.fst) (cs.map Prod.snd)

/-- `MinimizeInterpolatingPolynomial` (polynomial.cc:374-392). -/
noncomputable def minimizeInterpolating (N : Numerics) (samples : List (Sample ℝ Y V))
    (lo hi : ℝ) : ℝ :=
  let p := interpolate N samples
  samples.foldl (fun best s => if s.x < lo ∨ hi < s.x then best else better p best s.x)
    (minimizePoly N p lo hi)

/-! ### Specification -/

/-- The polynomial a coefficient list stands for. -/
noncomputable def toPoly : List ℝ → ℝ[X]
  | [] => 0
  | c :: l => C c * X ^ l.length + toPoly l

/-- Scalar product of a row with a vector. -/
def dotRow (a b : List ℝ) : ℝ := (List.zipWith (· * ·) a b).sum

/-- The linear solver is right on square nonsingular systems. -/
def SolvesSystems (N : Numerics) : Prop :=
  ∀ (rows : List (List ℝ)) (rhs : List ℝ), rhs.length = rows.length →
    (∀ r ∈ rows, r.length = rows.length) →
    (∀ v : List ℝ, v.length = rows.length → (∀ r ∈ rows, dotRow r v = 0) → ∀ c ∈ v, c = 0) →
    (N.solve rows rhs).length = rows.length ∧
      rows.map (fun r => dotRow r (N.solve rows rhs)) = rhs

/-- The eigenvalue routine misses no real eigenvalue. -/
def FindsEigenvalues (N : Numerics) : Prop :=
  ∀ (n : ℕ) (M : Matrix (Fin n) (Fin n) ℝ) (l : List ℝ), N.eig n M = some l →
    ∀ x : ℝ, (∃ v : Fin n → ℝ, v ≠ 0 ∧ M.mulVec v = x • v) → x ∈ l

/-! ### Evaluation and differentiation -/

theorem evalPoly_aux (x : ℝ) (p : List ℝ) : ∀ v : ℝ,
    p.foldl (fun v c => v * x + c) v = v * x ^ p.length + (toPoly p).eval x := by
  induction p with
  | nil => intro v; simp [toPoly]
  | cons c l ih =>
    intro v
    rw [List.foldl_cons, ih]
    simp only [toPoly, List.length_cons, eval_add, eval_mul, eval_C, eval_pow, eval_X]
    ring

/-- **C18.** Horner evaluation is evaluation of the polynomial. -/
theorem evalPoly_eq (p : List ℝ) (x : ℝ) : evalPoly p x = (toPoly p).eval x := by
  rw [evalPoly, evalPoly_aux]; simp

theorem differentiate_cons (c : ℝ) (l : List ℝ) (hl : l ≠ []) :
    toPoly (differentiate (c :: l)) =
      C ((l.length : ℝ) * c) * X ^ (l.length - 1) + toPoly (differentiate l) := by
  have hpos : 0 < l.length := List.length_pos_of_ne_nil hl
  unfold differentiate
  have h1 : ¬ ((c :: l).length - 1 = 0) := by simp; exact hl
  rw [if_neg h1]
  obtain ⟨m, hm⟩ : ∃ m, l.length = m + 1 := ⟨l.length - 1, by omega⟩
  simp only [List.length_cons, Nat.add_sub_cancel, hm]
  rw [List.range_succ_eq_map, List.map_cons, List.map_map, toPoly]
  simp only [List.length_map, List.length_range, Nat.sub_zero, List.getD_cons_zero]
  congr 1
  by_cases h0 : m = 0
  · subst h0; simp [toPoly]
  · rw [if_neg h0]
    congr 1
    apply List.map_congr_left
    intro i hi
    simp only [Function.comp_apply, List.getD_cons_succ]
    congr 2
    omega

/-- **C18.** `DifferentiatePolynomial` differentiates. -/
theorem differentiate_eq (p : List ℝ) : toPoly (differentiate p) = derivative (toPoly p) := by
  induction p with
  | nil => simp [differentiate, toPoly]
  | cons c l ih =>
    by_cases hl : l = []
    · subst hl; simp [differentiate, toPoly]
    · rw [differentiate_cons c l hl, ih]
      simp only [toPoly, derivative_add, derivative_C_mul_X_pow]
      congr 2
      rw [mul_comm]

theorem hasDerivAt_evalPoly (p : List ℝ) (x : ℝ) :
    HasDerivAt (evalPoly p) (evalPoly (differentiate p) x) x := by
  have : evalPoly p = fun y => (toPoly p).eval y := funext fun y => evalPoly_eq p y
  rw [this, evalPoly_eq, differentiate_eq]
  exact (toPoly p).hasDerivAt x

/-! ### Roots -/

theorem removeLeadingZeros_toPoly (p : List ℝ) : toPoly (removeLeadingZeros p) = toPoly p := by
  induction p with
  | nil => rfl
  | cons c l ih =>
    cases l with
    | nil => rfl
    | cons d l =>
      rw [removeLeadingZeros]
      by_cases hc : c = 0
      · rw [if_pos hc, ih]
        conv_rhs => rw [toPoly]
        simp [hc]
      · rw [if_neg hc]

theorem removeLeadingZeros_lead (p : List ℝ) (a b : ℝ) (l : List ℝ)
    (h : removeLeadingZeros p = a :: b :: l) : a ≠ 0 := by
  induction p with
  | nil => cases h
  | cons c t ih =>
    cases t with
    | nil => simp [removeLeadingZeros] at h
    | cons d t =>
      rw [removeLeadingZeros] at h
      by_cases hc : c = 0
      · rw [if_pos hc] at h; exact ih h
      · rw [if_neg hc] at h
        simp only [List.cons.injEq] at h
        rw [← h.1]; exact hc

theorem linearRoots_complete {a b x : ℝ} (ha : a ≠ 0) (h : a * x + b = 0) :
    x ∈ linearRoots a b := by
  simp only [linearRoots, List.mem_singleton]
  field_simp
  linarith

theorem quadraticRoots_complete {a b c x : ℝ} (ha : a ≠ 0) (h : a * x ^ 2 + b * x + c = 0) :
    x ∈ quadraticRoots a b c := by
  have hD : b * b - 4 * a * c = (2 * a * x + b) ^ 2 := by
    linear_combination (-4 * a) * h
  have hD0 : 0 ≤ b * b - 4 * a * c := by rw [hD]; positivity
  have hs : √|b * b - 4 * a * c| ^ 2 = b * b - 4 * a * c := by
    rw [abs_of_nonneg hD0, Real.sq_sqrt hD0]
  have hs0 : 0 ≤ √|b * b - 4 * a * c| := Real.sqrt_nonneg _
  unfold quadraticRoots
  simp only [if_pos hD0]
  generalize √|b * b - 4 * a * c| = s at hs hs0 ⊢
  have hfac : (2 * a * x + b - s) * (2 * a * x + b + s) = 0 := by
    linear_combination (-1 : ℝ) * hs + (4 * a) * h
  have h2a : (2 * a) ≠ 0 := by simpa using ha
  by_cases hb : 0 ≤ b
  · rw [if_pos hb]
    simp only [List.mem_cons, List.not_mem_nil, or_false]
    rcases mul_eq_zero.mp hfac with h1 | h1
    · -- the root with the plus sign
      by_cases hz : -b - s = 0
      · left
        have hb0 : b = 0 := by linarith
        have hs00 : s = 0 := by linarith
        rw [eq_div_iff h2a]
        linarith
      · right
        rw [eq_div_iff hz]
        have : a * (x * (-b - s) - 2 * c) = 0 := by
          linear_combination (-2 * a) * h + (a * x) * h1
        have := (mul_eq_zero.mp this).resolve_left ha
        linarith
    · left
      rw [eq_div_iff h2a]; linarith
  · rw [if_neg hb]
    push Not at hb
    simp only [List.mem_cons, List.not_mem_nil, or_false]
    rcases mul_eq_zero.mp hfac with h1 | h1
    · right
      rw [eq_div_iff h2a]; linarith
    · left
      have hz : -b + s ≠ 0 := by intro hz; linarith
      rw [eq_div_iff hz]
      have : a * (x * (-b + s) - 2 * c) = 0 := by
        linear_combination (-2 * a) * h + (a * x) * h1
      have := (mul_eq_zero.mp this).resolve_left ha
      linarith

/-! ### The companion matrix -/

/-- Evaluation as a sum over the reversed coefficients. -/
theorem toPoly_eval_sum (p : List ℝ) (x : ℝ) :
    (toPoly p).eval x = ∑ i ∈ Finset.range p.length, p.reverse.getD i 0 * x ^ i := by
  induction p with
  | nil => simp [toPoly]
  | cons c l ih =>
    rw [toPoly, eval_add, ih, List.length_cons, Finset.sum_range_succ]
    simp only [eval_mul, eval_C, eval_pow, eval_X, List.reverse_cons]
    rw [add_comm]
    congr 1
    · apply Finset.sum_congr rfl
      intro i hi
      rw [Finset.mem_range] at hi
      rw [List.getD_eq_getElem?_getD, List.getD_eq_getElem?_getD,
        List.getElem?_append_left (by simpa using hi)]
    · simp [List.getD_eq_getElem?_getD]

/-- A root of a monic polynomial is an eigenvalue of its companion matrix (of the transpose, with
the powers of the root as eigenvector). -/
theorem companion_vecMul {n : ℕ} (hn : 0 < n) (p : List ℝ) (hlen : p.length = n + 1)
    (hmonic : p.head? = some 1) {x : ℝ} (hx : (toPoly p).eval x = 0) :
    Matrix.vecMul (fun i : Fin n => x ^ i.val) (companion n p) =
      x • (fun i : Fin n => x ^ i.val) := by
  have hlead : p.reverse.getD n 0 = 1 := by
    cases p with
    | nil => simp at hlen
    | cons c l =>
      simp only [List.head?_cons, Option.some.injEq] at hmonic
      simp only [List.length_cons, Nat.add_right_cancel_iff] at hlen
      simp [List.getD_eq_getElem?_getD, ← hlen, hmonic]
  funext j
  simp only [Matrix.vecMul, dotProduct, Pi.smul_apply, smul_eq_mul]
  by_cases hj : j.val = n - 1
  · have hs := toPoly_eval_sum p x
    rw [hx, hlen, Finset.sum_range_succ, hlead, one_mul] at hs
    have : ∑ i : Fin n, x ^ i.val * companion n p i j =
        -∑ i ∈ Finset.range n, p.reverse.getD i 0 * x ^ i := by
      rw [← Finset.sum_neg_distrib, ← Fin.sum_univ_eq_sum_range
        (fun i => -(p.reverse.getD i 0 * x ^ i)) n]
      apply Finset.sum_congr rfl
      intro i _
      simp only [companion, if_pos hj]
      ring
    rw [this, hj]
    have hp : x * x ^ (n - 1) = x ^ n := by rw [← pow_succ']; congr 1; omega
    rw [hp]
    linarith
  · have hlt : j.val + 1 < n := by have := j.isLt; omega
    rw [Finset.sum_eq_single (⟨j.val + 1, hlt⟩ : Fin n)]
    · simp only [companion, if_neg hj, if_true, mul_one]
      rw [pow_succ']
    · intro i _ hi
      have : ¬ i.val = j.val + 1 := fun h => hi (Fin.ext h)
      simp [companion, hj, this]
    · simp

/-- An eigenvalue of the transpose is an eigenvalue. -/
theorem eigen_of_vecMul {n : ℕ} (M : Matrix (Fin n) (Fin n) ℝ) (x : ℝ)
    (h : ∃ v : Fin n → ℝ, v ≠ 0 ∧ Matrix.vecMul v M = x • v) :
    ∃ v : Fin n → ℝ, v ≠ 0 ∧ M.mulVec v = x • v := by
  obtain ⟨v, hv, he⟩ := h
  have h0 : (M - x • (1 : Matrix (Fin n) (Fin n) ℝ)).det = 0 := by
    rw [← Matrix.exists_vecMul_eq_zero_iff]
    refine ⟨v, hv, ?_⟩
    rw [Matrix.vecMul_sub, he, Matrix.vecMul_smul, Matrix.vecMul_one, sub_self]
  rw [← Matrix.exists_mulVec_eq_zero_iff] at h0
  obtain ⟨w, hw, he'⟩ := h0
  refine ⟨w, hw, ?_⟩
  rw [Matrix.sub_mulVec, Matrix.smul_mulVec, Matrix.one_mulVec, sub_eq_zero] at he'
  exact he'

/-! ### Balancing keeps the eigenvalues -/

/-- `M` and `M'` differ by a scaling of the basis. -/
def Rescaled {n : ℕ} (M M' : Matrix (Fin n) (Fin n) ℝ) : Prop :=
  ∃ d : Fin n → ℝ, (∀ i, 0 < d i) ∧ ∀ a b, M' a b = (d a)⁻¹ * M a b * d b

theorem Rescaled.refl {n : ℕ} (M : Matrix (Fin n) (Fin n) ℝ) : Rescaled M M :=
  ⟨fun _ => 1, fun _ => one_pos, fun a b => by simp⟩

theorem Rescaled.trans {n : ℕ} {A B C : Matrix (Fin n) (Fin n) ℝ} (h1 : Rescaled A B)
    (h2 : Rescaled B C) : Rescaled A C := by
  obtain ⟨d, hd, e⟩ := h1
  obtain ⟨d', hd', e'⟩ := h2
  refine ⟨fun i => d i * d' i, fun i => mul_pos (hd i) (hd' i), fun a b => ?_⟩
  rw [e', e, mul_inv]
  ring

theorem balanceRow_rescaled {n : ℕ} (M : Matrix (Fin n) (Fin n) ℝ) (i : Fin n) :
    Rescaled M (balanceRow M i) := by
  unfold balanceRow
  simp only
  generalize (frexpExponent ((∑ k, |M i k|) / ∑ k, |M k i|)).tdiv 2 = e
  split_ifs
  · refine ⟨fun a => if a = i then 2 ^ e else 1, ?_, ?_⟩
    · intro a; dsimp only; split <;> positivity
    · intro a b
      by_cases ha : a = i <;> by_cases hb : b = i <;> simp [scaleRowCol, ha, hb] <;> (try left) <;> ring
  · exact Rescaled.refl M

theorem balanceSweep_rescaled {n : ℕ} (M : Matrix (Fin n) (Fin n) ℝ) :
    Rescaled M (balanceSweep M) := by
  unfold balanceSweep
  generalize List.finRange n = l
  induction l generalizing M with
  | nil => exact Rescaled.refl M
  | cons i l ih =>
    rw [List.foldl_cons]
    exact (balanceRow_rescaled M i).trans (ih _)

theorem iterate_rescaled {n : ℕ} (k : ℕ) (M : Matrix (Fin n) (Fin n) ℝ) :
    Rescaled M (balanceSweep^[k] M) := by
  induction k generalizing M with
  | zero => exact Rescaled.refl M
  | succ k ih =>
    rw [Function.iterate_succ_apply]
    exact (balanceSweep_rescaled M).trans (ih _)

/-- Balancing is a change of basis by a diagonal matrix, whatever the number of sweeps. -/
theorem balance_rescaled {n : ℕ} (k : ℕ) (M : Matrix (Fin n) (Fin n) ℝ) :
    Rescaled M (balance k M) := by
  obtain ⟨d, hd, e⟩ := iterate_rescaled k (offDiagonal M)
  refine ⟨d, hd, fun a b => ?_⟩
  unfold balance
  by_cases h : a = b
  · subst h
    have := (hd a).ne'
    rw [if_pos rfl]
    field_simp
  · rw [if_neg h, e]
    simp [offDiagonal, h]

theorem Rescaled.eigen {n : ℕ} {M M' : Matrix (Fin n) (Fin n) ℝ} (h : Rescaled M M') {x : ℝ}
    (hx : ∃ v : Fin n → ℝ, v ≠ 0 ∧ M.mulVec v = x • v) :
    ∃ v : Fin n → ℝ, v ≠ 0 ∧ M'.mulVec v = x • v := by
  obtain ⟨d, hd, e⟩ := h
  obtain ⟨v, hv, hm⟩ := hx
  refine ⟨fun i => (d i)⁻¹ * v i, ?_, ?_⟩
  · intro h0
    apply hv
    funext i
    have := congrFun h0 i
    simp only [Pi.zero_apply, mul_eq_zero, inv_eq_zero] at this
    exact this.resolve_left (hd i).ne'
  · funext i
    have := congrFun hm i
    simp only [Matrix.mulVec, dotProduct, Pi.smul_apply, smul_eq_mul] at this ⊢
    calc ∑ j, M' i j * ((d j)⁻¹ * v j) = ∑ j, (d i)⁻¹ * (M i j * v j) := by
          apply Finset.sum_congr rfl
          intro j _
          rw [e]
          have := (hd j).ne'
          field_simp
      _ = (d i)⁻¹ * (x * v i) := by rw [← Finset.mul_sum, this]
      _ = x * ((d i)⁻¹ * v i) := by ring

/-- **C18.** `FindPolynomialRoots` misses no real root of a polynomial that is not constant. -/
theorem findRoots_complete {N : Numerics} (hN : FindsEigenvalues N) {p : List ℝ}
    (hne : toPoly p ≠ 0) {roots : List ℝ} (h : findRoots N p = some roots) {x : ℝ}
    (hx : (toPoly p).eval x = 0) : x ∈ roots := by
  rw [← removeLeadingZeros_toPoly] at hne hx
  have hlead := removeLeadingZeros_lead p
  unfold findRoots at h
  split at h
  · cases h
  · split at h
    · cases h
    · next c hc =>
      exfalso
      rw [hc] at hne hx
      simp only [toPoly, List.length_nil, pow_zero, mul_one, add_zero, eval_C] at hne hx
      exact hne (by rw [hx, C_0])
    · next a b hc =>
      rw [hc] at hx
      cases h
      refine linearRoots_complete (hlead a b _ hc) ?_
      simpa [toPoly] using hx
    · next a b c hc =>
      rw [hc] at hx
      cases h
      refine quadraticRoots_complete (hlead a b _ hc) ?_
      simpa [toPoly, add_assoc] using hx
    · next lead rest hn1 hn2 hn3 hc =>
      rw [hc] at hx
      cases rest with
      | nil => exact absurd rfl hn1
      | cons b rest =>
        have hl : lead ≠ 0 := hlead lead b rest hc
        refine hN _ _ _ h x ((balance_rescaled _ _).eigen (eigen_of_vecMul _ _ ?_))
        refine ⟨fun i => x ^ i.val, ?_, companion_vecMul (by simp) _ (by simp) ?_ ?_⟩
        · intro h0
          have := congrFun h0 ⟨0, by simp⟩
          simp at this
        · simp [div_self hl]
        · have hmap : ∀ l : List ℝ, (toPoly (l.map (· / lead))).eval x =
              (toPoly l).eval x / lead := by
            intro l
            induction l with
            | nil => simp [toPoly]
            | cons c l ih =>
              rw [List.map_cons, toPoly, toPoly, eval_add, eval_add, ih]
              simp only [eval_mul, eval_C, eval_pow, eval_X, List.length_map]
              field_simp
          rw [hmap, hx, zero_div]

/-! ### Minimisation -/

theorem better_le_left (p : List ℝ) (a b : ℝ) : evalPoly p (better p a b) ≤ evalPoly p a := by
  unfold better; split
  · next h => exact h.le
  · exact le_rfl

theorem better_le_right (p : List ℝ) (a b : ℝ) : evalPoly p (better p a b) ≤ evalPoly p b := by
  unfold better; split
  · exact le_rfl
  · next h => exact not_lt.mp h

theorem better_mem (p : List ℝ) {a b lo hi : ℝ} (ha : lo ≤ a ∧ a ≤ hi) (hb : lo ≤ b ∧ b ≤ hi) :
    lo ≤ better p a b ∧ better p a b ≤ hi := by
  unfold better; split
  · exact hb
  · exact ha

/-- Facts about a loop that keeps the best of the candidates inside the interval. -/
theorem foldl_better {α : Type} (p : List ℝ) (lo hi : ℝ) (f : α → ℝ) (l : List α) :
    ∀ b : ℝ, lo ≤ b ∧ b ≤ hi →
      let r := l.foldl (fun best a => if f a < lo ∨ hi < f a then best else better p best (f a)) b
      (lo ≤ r ∧ r ≤ hi) ∧ evalPoly p r ≤ evalPoly p b ∧
        ∀ a ∈ l, lo ≤ f a → f a ≤ hi → evalPoly p r ≤ evalPoly p (f a) := by
  induction l with
  | nil => intro b hb; exact ⟨hb, le_rfl, by simp⟩
  | cons a l ih =>
    intro b hb
    simp only [List.foldl_cons]
    by_cases h : f a < lo ∨ hi < f a
    · rw [if_pos h]
      obtain ⟨h1, h2, h3⟩ := ih b hb
      refine ⟨h1, h2, fun a' ha' hl hh => ?_⟩
      rcases List.mem_cons.mp ha' with rfl | ha'
      · rcases h with h | h <;> linarith
      · exact h3 a' ha' hl hh
    · rw [if_neg h]
      rw [not_or, not_lt, not_lt] at h
      obtain ⟨h1, h2, h3⟩ := ih _ (better_mem p hb h)
      refine ⟨h1, le_trans h2 (better_le_left p b (f a)), fun a' ha' hl hh => ?_⟩
      rcases List.mem_cons.mp ha' with rfl | ha'
      · exact le_trans h2 (better_le_right p b (f a'))
      · exact h3 a' ha' hl hh

theorem ends_spec (p : List ℝ) {lo hi : ℝ} (h : lo ≤ hi) :
    (lo ≤ better p (better p ((lo + hi) / 2) lo) hi ∧
      better p (better p ((lo + hi) / 2) lo) hi ≤ hi) ∧
    evalPoly p (better p (better p ((lo + hi) / 2) lo) hi) ≤ evalPoly p lo ∧
    evalPoly p (better p (better p ((lo + hi) / 2) lo) hi) ≤ evalPoly p hi := by
  refine ⟨better_mem p (better_mem p ⟨by linarith, by linarith⟩ ⟨le_rfl, h⟩) ⟨h, le_rfl⟩,
    le_trans (better_le_left _ _ _) (better_le_right _ _ _), better_le_right _ _ _⟩

/-- **C18.** `MinimizePolynomial` returns a point of the interval whose value is no larger than at
both ends, whatever the root finder does. -/
theorem minimizePoly_inside (N : Numerics) (p : List ℝ) {lo hi : ℝ} (h : lo ≤ hi) :
    (lo ≤ minimizePoly N p lo hi ∧ minimizePoly N p lo hi ≤ hi) ∧
    evalPoly p (minimizePoly N p lo hi) ≤ evalPoly p lo ∧
    evalPoly p (minimizePoly N p lo hi) ≤ evalPoly p hi := by
  obtain ⟨e1, e2, e3⟩ := ends_spec p h
  unfold minimizePoly
  simp only
  split
  · exact ⟨e1, e2, e3⟩
  · split
    · exact ⟨e1, e2, e3⟩
    · next roots _ =>
      obtain ⟨f1, f2, _⟩ := foldl_better p lo hi id roots _ e1
      exact ⟨f1, le_trans f2 e2, le_trans f2 e3⟩

theorem continuous_evalPoly (p : List ℝ) : Continuous (evalPoly p) := by
  have : evalPoly p = fun y => (toPoly p).eval y := funext fun y => evalPoly_eq p y
  rw [this]
  exact (toPoly p).continuous

/-- A point that is at least as good as both ends and all critical points inside minimises. -/
theorem min_of_critical (p : List ℝ) {lo hi r : ℝ} (h : lo ≤ hi)
    (h1 : evalPoly p r ≤ evalPoly p lo) (h2 : evalPoly p r ≤ evalPoly p hi)
    (h3 : ∀ x, lo < x → x < hi → evalPoly (differentiate p) x = 0 →
      evalPoly p r ≤ evalPoly p x) :
    ∀ x, lo ≤ x → x ≤ hi → evalPoly p r ≤ evalPoly p x := by
  obtain ⟨m, hm, hmin⟩ := isCompact_Icc.exists_isMinOn (Set.nonempty_Icc.mpr h)
    (continuous_evalPoly p).continuousOn
  have key : evalPoly p r ≤ evalPoly p m := by
    rcases eq_or_lt_of_le hm.1 with e | e
    · rw [← e]; exact h1
    rcases eq_or_lt_of_le hm.2 with e' | e'
    · rw [e']; exact h2
    refine h3 m e e' ?_
    have hloc : IsLocalMin (evalPoly p) m := hmin.isLocalMin (Icc_mem_nhds e e')
    exact hloc.hasDerivAt_eq_zero (hasDerivAt_evalPoly p m)
  intro x hx hx'
  exact le_trans key (hmin ⟨hx, hx'⟩)

/-- **C18.** If the root finder succeeds, `MinimizePolynomial` returns a global minimiser of the
polynomial over the interval. -/
theorem minimizePoly_min {N : Numerics} (hN : FindsEigenvalues N) (p : List ℝ) {lo hi : ℝ}
    (h : lo ≤ hi) (hroots : (findRoots N (differentiate p)).isSome) :
    ∀ x, lo ≤ x → x ≤ hi → evalPoly p (minimizePoly N p lo hi) ≤ evalPoly p x := by
  obtain ⟨_, i2, i3⟩ := minimizePoly_inside N p h
  -- a polynomial with vanishing derivative is constant
  have hconst : toPoly (differentiate p) = 0 → ∀ x y, evalPoly p x = evalPoly p y := by
    intro h0 x y
    rw [differentiate_eq] at h0
    have := natDegree_eq_zero_of_derivative_eq_zero h0
    obtain ⟨c, hc⟩ := natDegree_eq_zero.mp this
    rw [evalPoly_eq, evalPoly_eq, ← hc, eval_C, eval_C]
  by_cases h0 : toPoly (differentiate p) = 0
  · intro x _ _
    exact (hconst h0 _ _).le
  refine min_of_critical p h i2 i3 ?_
  intro x hlo hhi hx
  rw [evalPoly_eq] at hx
  obtain ⟨e1, _, _⟩ := ends_spec p h
  obtain ⟨roots, hr⟩ := Option.isSome_iff_exists.mp hroots
  have hmem := findRoots_complete hN h0 hr hx
  unfold minimizePoly
  simp only
  split
  · next hlen =>
    -- the derivative is a constant, which cannot vanish at `x`
    exfalso
    apply h0
    rcases p with _ | ⟨a, _ | ⟨b, _ | ⟨c, l⟩⟩⟩
    · simp [differentiate, toPoly]
    · simp [differentiate, toPoly]
    · simp [differentiate, toPoly] at hx ⊢
      exact hx
    · simp at hlen
  · rw [hr]
    obtain ⟨_, _, f3⟩ := foldl_better p lo hi id roots _ e1
    exact f3 x hmem hlo.le hhi.le

/-- The root finder cannot fail for polynomials of degree at most three to be minimised: linear
and quadratic derivatives are solved in closed form. -/
theorem findRoots_isSome_of_length_le (N : Numerics) (p : List ℝ) (h : p.length ≤ 4) :
    (findRoots N (differentiate p)).isSome := by
  have hlen : ∀ l : List ℝ, (removeLeadingZeros l).length ≤ l.length := by
    intro l
    induction l with
    | nil => simp [removeLeadingZeros]
    | cons c l ih =>
      cases l with
      | nil => simp [removeLeadingZeros]
      | cons d l =>
        rw [removeLeadingZeros]
        split
        · simp only [List.length_cons] at ih ⊢; omega
        · exact le_rfl
  have hpos : ∀ l : List ℝ, l ≠ [] → removeLeadingZeros l ≠ [] := by
    intro l
    induction l with
    | nil => simp
    | cons c l ih =>
      intro _
      cases l with
      | nil => simp [removeLeadingZeros]
      | cons d l =>
        rw [removeLeadingZeros]
        split
        · exact ih (by simp)
        · simp
  have hd : (differentiate p).length ≤ 3 ∧ differentiate p ≠ [] := by
    unfold differentiate
    split
    · simp
    · next hne =>
      constructor
      · simp; omega
      · intro he
        have := congrArg List.length he
        simp at this
        omega
  have h1 := hlen (differentiate p)
  have h2 := hpos _ hd.2
  unfold findRoots
  split
  · next he => exact absurd he hd.2
  · split
    · next he => exact absurd he h2
    · rfl
    · rfl
    · rfl
    · next lead rest hn1 hn2 hn3 hc =>
      exfalso
      rw [hc] at h1
      rcases rest with _ | ⟨a, _ | ⟨b, _ | ⟨c, l⟩⟩⟩
      · exact hn1 rfl
      · exact hn2 _ rfl
      · exact hn3 _ _ rfl
      · simp at h1; omega

end Ceres.LineSearch
