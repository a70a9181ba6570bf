import Verif.Robust.Corrector
import Mathlib.Analysis.Calculus.FDeriv.Pi
import Mathlib.Analysis.Calculus.FDeriv.Mul
import Mathlib.Analysis.Calculus.FDeriv.Comp
import Mathlib.Analysis.Calculus.Deriv.Comp
import Mathlib.Topology.Algebra.Module.FiniteDimension

/-!
# Evaluation of one residual block: validity, scratch memory, gradient (C65, C66)
-/
noncomputable section
namespace Ceres.Robust
open Matrix

variable {n : ℕ} {ι : Type} {amb tan : ι → ℕ}

/-! ### Validity -/

/-- An output the user did not fill properly: not written, not a finite number, or the value that
marks entries as not written. -/
def Unusable (w : Option Val) : Prop :=
  w = none ∨ w = some .nonfinite ∨ w = some (.fin 1e302)

theorem entryValid_iff (w : Option Val) : entryValid (stored w) ↔ ¬ Unusable w := by
  unfold Unusable stored
  cases w with
  | none => simp [entryValid, impossible]
  | some v =>
    cases v with
    | fin x => simp [entryValid, impossible]
    | nonfinite => simp [entryValid]

/-- **C66.** Evaluating a residual block fails exactly if the user's function says so or leaves a
requested residual or Jacobian entry unusable. -/
theorem evaluate_failed_iff (B : Block n ι amb tan) (al wr : Bool) (want : Option (ι → Bool))
    (u : UserEval n ι amb) :
    B.evaluate al wr want u = .failed ↔
      u.ok = false ∨ (∃ i, Unusable (u.res i)) ∨
        ∃ j, asked want j = true ∧ ∃ i k, Unusable (u.jac j i k) := by
  have hv : ¬ evaluationValid want u ↔ (∃ i, Unusable (u.res i)) ∨
      ∃ j, asked want j = true ∧ ∃ i k, Unusable (u.jac j i k) := by
    unfold evaluationValid
    simp only [entryValid_iff]
    constructor
    · intro h
      by_contra hc
      push Not at hc
      exact h hc
    · rintro (⟨i, hi⟩ | ⟨j, hj, i, k, hk⟩) h
      · exact h.1 i hi
      · exact h.2 j hj i k hk
  unfold Block.evaluate
  by_cases h1 : u.ok = false
  · simp [h1]
  · rw [if_neg h1]
    by_cases h2 : ¬ evaluationValid want u
    · rw [if_pos h2]
      simp [hv.mp h2]
    · rw [if_neg h2]
      have hno : ¬ (u.ok = false ∨ (∃ i, Unusable (u.res i)) ∨
          ∃ j, asked want j = true ∧ ∃ i k, Unusable (u.jac j i k)) := by
        rintro (h | h)
        · exact h1 h
        · exact h2 (hv.mpr h)
      simp only [hno, iff_false]
      split
      · split
        · simp
        · split <;> simp
      · simp

/-- **C66.** With a loss made of the shipped classes an evaluation never aborts the process. -/
theorem evaluate_not_aborted (B : Block n ι amb tan) (al wr : Bool) (want : Option (ι → Bool))
    (u : UserEval n ι amb)
    (hl : ∀ rho, B.loss = some rho → ∃ f : Loss, f.Admissible ∧ rho = f.eval) :
    B.evaluate al wr want u ≠ .aborted := by
  unfold Block.evaluate
  split
  · simp
  · split
    · simp
    · simp only
      cases hB : B.loss with
      | none => simp
      | some rho =>
        cases al with
        | false => simp
        | true =>
          obtain ⟨f, hf, rfl⟩ := hl rho hB
          simp only
          split
          · simp
          · have := corrector_never_aborts f hf
              (s := ∑ i, number (stored (u.res i)) * number (stored (u.res i)))
              (Finset.sum_nonneg fun i _ => mul_self_nonneg _)
            split
            · rename_i h
              rw [h] at this
              simp at this
            · simp

/-! ### Scratch memory -/

theorem foldl_scratch (args : List SArg) (c : ℕ) :
    args.foldl (fun acc a => if a.manifold then acc + a.size else acc) c =
      c + (args.map fun a => if a.manifold then a.size else 0).sum := by
  induction args generalizing c with
  | nil => simp
  | cons a as ih =>
    rw [List.foldl_cons, ih, List.map_cons, List.sum_cons]
    by_cases h : a.manifold = true
    · simp only [h, if_true]; ring
    · simp only [h, if_false, Bool.false_eq_true]; ring

/-- **C66.** The areas of scratch memory used by an evaluation follow one another without overlap
and lie within the amount of scratch memory that the caller was told to provide. -/
theorem scratch_fits (n : ℕ) (wr : Bool) (args : List SArg) (pos : ℕ) :
    (∀ a ∈ scratchAreas n wr args pos, pos ≤ a.1 ∧ a.1 + a.2 ≤ pos + numScratch n args) ∧
    (scratchAreas n wr args pos).Pairwise fun a b => a.1 + a.2 ≤ b.1 := by
  unfold numScratch
  simp only [foldl_scratch]
  induction args generalizing pos with
  | nil =>
    unfold scratchAreas
    split <;> simp
  | cons a as ih =>
    unfold scratchAreas
    rw [List.map_cons, List.sum_cons]
    split
    · rename_i h
      rw [Bool.and_eq_true] at h
      rw [if_pos h.2]
      obtain ⟨i1, i2⟩ := ih (pos + n * a.size)
      refine ⟨?_, ?_⟩
      · intro b hb
        rcases List.mem_cons.mp hb with rfl | hb
        · refine ⟨le_rfl, ?_⟩
          simp only
          nlinarith [Nat.zero_le ((as.map fun a => if a.manifold then a.size else 0).sum * n)]
        · have := i1 b hb
          refine ⟨by omega, this.2.trans ?_⟩
          nlinarith
      · exact List.pairwise_cons.mpr ⟨fun b hb => (i1 b hb).1, i2⟩
    · obtain ⟨i1, i2⟩ := ih pos
      refine ⟨fun b hb => ?_, i2⟩
      have := i1 b hb
      refine ⟨this.1, this.2.trans ?_⟩
      apply Nat.add_le_add_left
      apply Nat.mul_le_mul_right
      omega

example : scratchAreas 3 false [⟨true, true, 4⟩, ⟨false, true, 2⟩, ⟨true, false, 5⟩] 0 =
    [(0, 12), (12, 3)] := by decide

/-! ### The gradient -/

/-- A matrix as a continuous linear map. -/
def mat {p q : ℕ} (Q : Matrix (Fin p) (Fin q) ℝ) : (Fin q → ℝ) →L[ℝ] (Fin p → ℝ) :=
  LinearMap.toContinuousLinearMap Q.mulVecLin

@[simp] theorem mat_apply {p q : ℕ} (Q : Matrix (Fin p) (Fin q) ℝ) (v : Fin q → ℝ) :
    mat Q v = Q *ᵥ v := rfl

/-- The mathematical content of a residual block at a point: the residual function `f` with its
derivative `G`, the point `x`, and for every argument the map `plus` that moves the argument by a
tangent vector, with derivative as in the block. -/
structure Smooth (B : Block n ι amb tan) [Fintype ι] where
  f : ((j : ι) → Fin (amb j) → ℝ) → Fin n → ℝ
  x : (j : ι) → Fin (amb j) → ℝ
  G : (j : ι) → Matrix (Fin n) (Fin (amb j)) ℝ
  deriv : HasFDerivAt f
    (∑ j, (mat (G j)).comp (ContinuousLinearMap.proj j)) x
  plus : (j : ι) → (Fin (tan j) → ℝ) → Fin (amb j) → ℝ
  plus_zero : ∀ j, plus j 0 = x j
  plus_deriv : ∀ j Q, B.plusJac j = some Q → HasFDerivAt (plus j) (mat Q) 0
  plus_none : ∀ j (h : B.plusJac j = none) δ k, plus j δ k = x j k + δ (Fin.cast (B.same j h) k)

variable [Fintype ι] {B : Block n ι amb tan}

/-- The state after moving the arguments in `want` by tangent vectors `δ`. -/
def Smooth.move (S : Smooth B) (want : ι → Bool) (δ : (j : ι) → Fin (tan j) → ℝ) :
    (j : ι) → Fin (amb j) → ℝ :=
  fun j => if want j then S.plus j (δ j) else S.x j

/-- The robustified cost `½ ρ(‖f‖²)` as a function of the tangent vectors. -/
def Smooth.cost (S : Smooth B) (want : ι → Bool) (δ : (j : ι) → Fin (tan j) → ℝ) : ℝ :=
  let s := ∑ i, S.f (S.move want δ) i ^ 2
  match B.loss with
  | some rho => 1 / 2 * (rho s).r0
  | none => 1 / 2 * s

/-- The user's function reports the residuals and their derivatives. -/
structure Smooth.Reported (S : Smooth B) (want : ι → Bool) (u : UserEval n ι amb) : Prop where
  ok : u.ok = true
  res : ∀ i, u.res i = some (.fin (S.f S.x i)) ∧ S.f S.x i ≠ 1e302
  jac : ∀ j, want j = true → ∀ i k, u.jac j i k = some (.fin (S.G j i k)) ∧ S.G j i k ≠ 1e302

/-- For every argument there is a matrix that is the derivative of `plus` and by which the
Jacobian is multiplied. -/
theorem Smooth.exists_plusMatrix (S : Smooth B) (j : ι) :
    ∃ Q : Matrix (Fin (amb j)) (Fin (tan j)) ℝ, HasFDerivAt (S.plus j) (mat Q) 0 ∧
      ∀ G, B.tangentJac j G = G * Q := by
  cases h : B.plusJac j with
  | some Q =>
    refine ⟨Q, S.plus_deriv j Q h, fun G => ?_⟩
    unfold Block.tangentJac
    split
    · rename_i Q' h'
      rw [h] at h'
      cases h'
      rfl
    · rename_i h'
      rw [h] at h'
      cases h'
  | none =>
    set Q : Matrix (Fin (amb j)) (Fin (tan j)) ℝ :=
      fun a t => if Fin.cast (B.same j h) a = t then 1 else 0 with hQ
    have hQv : ∀ v k, (Q *ᵥ v) k = v (Fin.cast (B.same j h) k) := by
      intro v k
      simp [mulVec, dotProduct, hQ]
    refine ⟨Q, ?_, fun G => ?_⟩
    · have e : S.plus j = fun δ => S.x j + mat Q δ := by
        funext δ k
        rw [S.plus_none j h]
        simp [hQv]
      rw [e]
      exact (mat Q).hasFDerivAt.const_add (S.x j)
    · unfold Block.tangentJac
      split
      · rename_i Q' h'
        rw [h] at h'
        cases h'
      · funext i k
        rw [Matrix.mul_apply]
        rw [Finset.sum_eq_single (Fin.cast (B.same j h).symm k)]
        · simp [hQ]
        · intro b _ hb
          rw [hQ]
          simp only
          rw [if_neg, mul_zero]
          intro hc
          apply hb
          rw [← hc]
          rfl
        · simp

theorem hasFDerivAt_sumSq {E : Type} [NormedAddCommGroup E] [NormedSpace ℝ E]
    {g : E → Fin n → ℝ} {g' : E →L[ℝ] (Fin n → ℝ)} {x : E} (h : HasFDerivAt g g' x) :
    HasFDerivAt (fun y => ∑ i, g y i ^ 2)
      (∑ i, (2 * g x i) • (ContinuousLinearMap.proj i).comp g') x := by
  apply HasFDerivAt.fun_sum
  intro i _
  have h1 : HasFDerivAt (fun y => g y i) ((ContinuousLinearMap.proj i).comp g') x :=
    hasFDerivAt_pi'.mp h i
  have := h1.pow 2
  simpa using this

/-- The derivative of `S.cost`, up to the factor from the loss. -/
theorem Smooth.sq_deriv (S : Smooth B) (want : ι → Bool)
    (Q : (j : ι) → Matrix (Fin (amb j)) (Fin (tan j)) ℝ)
    (hQ : ∀ j, HasFDerivAt (S.plus j) (mat (Q j)) 0) :
    S.move want 0 = S.x ∧
    ∃ L : ((j : ι) → Fin (tan j) → ℝ) →L[ℝ] ℝ,
      HasFDerivAt (fun δ => ∑ i, S.f (S.move want δ) i ^ 2) L 0 ∧
      ∀ δ, L δ = 2 * ∑ j, if want j then ((S.G j * Q j)ᵀ *ᵥ S.f S.x) ⬝ᵥ δ j else 0 := by
  have h0 : S.move want 0 = S.x := by
    funext j
    unfold Smooth.move
    split
    · exact S.plus_zero j
    · rfl
  refine ⟨h0, ?_⟩
  have hm : HasFDerivAt (S.move want) (ContinuousLinearMap.pi fun j =>
      if want j then (mat (Q j)).comp (ContinuousLinearMap.proj j) else 0) 0 := by
    rw [hasFDerivAt_pi]
    intro j
    unfold Smooth.move
    by_cases hj : want j = true
    · simp only [hj, if_true]
      have h1 : HasFDerivAt (fun δ : (j : ι) → Fin (tan j) → ℝ => δ j)
          (ContinuousLinearMap.proj (R := ℝ) (φ := fun j => Fin (tan j) → ℝ) j) 0 :=
        hasFDerivAt_apply j 0
      exact HasFDerivAt.comp (g := S.plus j) 0 (hQ j) h1
    · simp only [hj, if_false, Bool.false_eq_true]
      exact hasFDerivAt_const (S.x j) 0
  have hf := S.deriv
  rw [← h0] at hf
  have hs := hasFDerivAt_sumSq (hf.comp 0 hm)
  refine ⟨_, hs, fun δ => ?_⟩
  simp only [ContinuousLinearMap.coe_sum', Finset.sum_apply, ContinuousLinearMap.coe_smul',
    Pi.smul_apply, ContinuousLinearMap.comp_apply, ContinuousLinearMap.proj_apply,
    ContinuousLinearMap.coe_pi', mat_apply, smul_eq_mul, Function.comp, h0, Finset.mul_sum]
  rw [Finset.sum_comm]
  refine Finset.sum_congr rfl fun j _ => ?_
  by_cases hj : want j = true
  · simp only [hj, if_true, ContinuousLinearMap.comp_apply, mat_apply,
      ContinuousLinearMap.proj_apply]
    rw [Matrix.mulVec_transpose, ← Matrix.dotProduct_mulVec, ← Matrix.mulVec_mulVec, dotProduct,
      Finset.mul_sum]
    refine Finset.sum_congr rfl fun i _ => ?_
    ring
  · simp [hj]

/-- **C65, one block.** If the user's function reports the residuals and their derivatives, the
manifolds report the derivative of their `Plus`, and the loss reports its derivative, then the
product of the Jacobians with the residuals that the block hands out is the derivative of the cost
it hands out with respect to the tangent vectors. -/
theorem block_gradient (S : Smooth B) (want : ι → Bool) {u : UserEval n ι amb}
    (hu : S.Reported want u)
    (hl : ∀ rho, B.loss = some rho →
      HasDerivAt (fun s => (rho s).r0) (rho (∑ i, S.f S.x i ^ 2)).r1 (∑ i, S.f S.x i ^ 2) ∧
      0 ≤ (rho (∑ i, S.f S.x i ^ 2)).r1)
    {o : Output n ι tan} (ho : B.evaluate true true (some want) u = .ok o) :
    ∃ r : Fin n → ℝ, ∃ J : (j : ι) → Matrix (Fin n) (Fin (tan j)) ℝ,
      o.res = some r ∧ (∀ j, o.jac j = if want j then some (J j) else none) ∧
      o.cost = S.cost want 0 ∧
      ∃ L : ((j : ι) → Fin (tan j) → ℝ) →L[ℝ] ℝ, HasFDerivAt (S.cost want) L 0 ∧
        ∀ δ, L δ = ∑ j, if want j then ((J j)ᵀ *ᵥ r) ⬝ᵥ δ j else 0 := by
  choose Q hQ hQG using S.exists_plusMatrix
  obtain ⟨h0, L, hL, hLe⟩ := S.sq_deriv want Q hQ
  have hres : (fun i => number (stored (u.res i))) = S.f S.x := by
    funext i
    rw [(hu.res i).1]
    rfl
  have hjac : ∀ j, want j = true → userJac u j = S.G j := by
    intro j hj
    funext i k
    unfold userJac
    rw [(hu.jac j hj i k).1]
    rfl
  have hvalid : evaluationValid (some want) u := by
    constructor
    · intro i
      rw [(hu.res i).1]
      exact (hu.res i).2
    · intro j hj i k
      have hj' : want j = true := hj
      rw [(hu.jac j hj' i k).1]
      exact (hu.jac j hj' i k).2
  have hasked : ∀ j, asked (some want) j = want j := fun j => rfl
  have hsq : ∑ i, S.f S.x i * S.f S.x i = ∑ i, S.f S.x i ^ 2 :=
    Finset.sum_congr rfl fun i _ => by ring
  unfold Block.evaluate at ho
  rw [if_neg (by rw [hu.ok]; simp), if_neg (not_not.mpr hvalid)] at ho
  simp only [congrFun hres, hsq, hasked] at ho
  cases hB : B.loss with
  | none =>
    rw [hB] at ho
    simp only [Outcome.ok.injEq, if_true] at ho
    refine ⟨S.f S.x, fun j => B.tangentJac j (userJac u j), ?_, ?_,
      ?_, (1 / 2 : ℝ) • L, ?_, fun δ => ?_⟩
    · rw [← ho]
    · intro j; rw [← ho]
    · rw [← ho]
      unfold Smooth.cost
      rw [hB, h0]
      simp only
      norm_num
    · have := hL.const_smul (1 / 2 : ℝ)
      unfold Smooth.cost
      rw [hB]
      exact this
    · rw [ContinuousLinearMap.smul_apply, hLe, smul_eq_mul]
      have e : ∀ x : ℝ, 1 / 2 * (2 * x) = x := fun x => by ring
      rw [e]
      refine Finset.sum_congr rfl fun j _ => ?_
      by_cases hj : want j = true
      · rw [if_pos hj, if_pos hj]
        beta_reduce
        rw [hQG, hjac j hj]
      · rw [if_neg hj, if_neg hj]
  | some rho =>
    obtain ⟨hd, h1⟩ := hl rho hB
    rw [hB] at ho
    simp only [Option.isNone_some, Bool.false_and, Bool.false_eq_true, if_false, if_true] at ho
    cases hC : mkCorrector (∑ i, S.f S.x i ^ 2) (rho (∑ i, S.f S.x i ^ 2)) with
    | none => rw [hC] at ho; simp at ho
    | some C =>
      rw [hC] at ho
      simp only [Outcome.ok.injEq] at ho
      refine ⟨C.residuals (S.f S.x), fun j => C.jacobian (S.f S.x)
        (B.tangentJac j (userJac u j)), ?_, ?_, ?_,
        (1 / 2 * (rho (∑ i, S.f S.x i ^ 2)).r1 : ℝ) • L, ?_, fun δ => ?_⟩
      · rw [← ho]
      · intro j; rw [← ho]
      · rw [← ho]
        unfold Smooth.cost
        rw [hB, h0]
        simp only
        norm_num
      · have hd' : HasDerivAt (fun s => 1 / 2 * (rho s).r0)
            (1 / 2 * (rho (∑ i, S.f S.x i ^ 2)).r1)
            (∑ i, S.f (S.move want 0) i ^ 2) := by
          rw [h0]
          exact hd.const_mul _
        have := hd'.comp_hasFDerivAt 0 hL
        unfold Smooth.cost
        rw [hB]
        exact this
      · rw [ContinuousLinearMap.smul_apply, hLe, smul_eq_mul]
        have e : ∀ x c : ℝ, 1 / 2 * c * (2 * x) = c * x := fun x c => by ring
        rw [e, Finset.mul_sum]
        refine Finset.sum_congr rfl fun j _ => ?_
        by_cases hj : want j = true
        · rw [if_pos hj, if_pos hj]
          rw [← hsq] at hC
          rw [corrected_gradient hC (by rw [hsq]; exact h1), hQG, hjac j hj, hsq, smul_dotProduct,
            smul_eq_mul]
        · rw [if_neg hj, if_neg hj, mul_zero]

end Ceres.Robust
