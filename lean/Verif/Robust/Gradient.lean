import Verif.Robust.Block
import Verif.Evaluator.EvalProps

/-!
# The gradient reported by an evaluation is the derivative of the reported cost (C65)

Joins the model of one residual block (`Robust.Block`) with the model of the parallel evaluation of
a program (`Evaluator`).
-/
noncomputable section
namespace Ceres.Robust
open Matrix Evaluator

/-- Which arguments of a residual block are variable. -/
def wantOf (rb : RB) (j : Fin rb.args.length) : Bool := rb.args[j].isSome

/-- A residual block of a program together with what its cost function computes. -/
structure PBlock (P : Prog) (rb : RB) where
  amb : Fin rb.args.length → ℕ
  tan : Fin rb.args.length → ℕ
  tan_eq : ∀ (j : Fin rb.args.length) (b : ℕ), rb.args[j] = some b → tan j = P.size b
  B : Block rb.numResiduals (Fin rb.args.length) amb tan
  S : Smooth B
  u : UserEval rb.numResiduals (Fin rb.args.length) amb
  reported : S.Reported (wantOf rb) u
  loss : ∀ rho, B.loss = some rho →
      HasDerivAt (fun s => (rho s).r0) (rho (∑ i, S.f S.x i ^ 2)).r1 (∑ i, S.f S.x i ^ 2) ∧
      0 ≤ (rho (∑ i, S.f S.x i ^ 2)).r1
  out : Output rb.numResiduals (Fin rb.args.length) tan
  evaluated : B.evaluate true true (some (wantOf rb)) u = .ok out

/-- The part of a step `δ` of the whole program that belongs to argument `j`. -/
def pick (P : Prog) (rb : RB) (tan : Fin rb.args.length → ℕ) (δ : Fin P.sizes.sum → ℝ)
    (j : Fin rb.args.length) : Fin (tan j) → ℝ :=
  fun k => match rb.args[j] with
    | some b => if h : P.offset b + k < P.sizes.sum then δ ⟨P.offset b + k, h⟩ else 0
    | none => 0

/-- The cost of a block after the step `δ` of the whole program. -/
def PBlock.costAt {P : Prog} {rb : RB} (p : PBlock P rb) (δ : Fin P.sizes.sum → ℝ) : ℝ :=
  p.S.cost (wantOf rb) (pick P rb p.tan δ)

/-- What the block hands to the evaluator, in row major arrays. -/
def PBlock.val {P : Prog} {rb : RB} (p : PBlock P rb) : BlockVal ℝ where
  ok := true
  cost := p.out.cost
  res r := if h : r < rb.numResiduals then (p.out.res.getD 0) ⟨r, h⟩ else 0
  jac j k := if h : j < rb.args.length then
      if h2 : k / p.tan ⟨j, h⟩ < rb.numResiduals ∧ 0 < p.tan ⟨j, h⟩ then
        ((p.out.jac ⟨j, h⟩).getD 0) ⟨k / p.tan ⟨j, h⟩, h2.1⟩
          ⟨k % p.tan ⟨j, h⟩, Nat.mod_lt _ h2.2⟩
      else 0
    else 0

/-- The cost of the program after the step `δ`. -/
def totalCost (P : Prog) (pb : ∀ i (hi : i < P.residuals.length), PBlock P P.residuals[i])
    (δ : Fin P.sizes.sum → ℝ) : ℝ :=
  ∑ i : Fin P.residuals.length, (pb i i.2).costAt δ

/-- What the residual blocks hand to the evaluator. -/
def vals (P : Prog) (pb : ∀ i (hi : i < P.residuals.length), PBlock P P.residuals[i]) (i : ℕ) :
    BlockVal ℝ :=
  if hi : i < P.residuals.length then (pb i hi).val else ⟨true, 0, fun _ => 0, fun _ _ => 0⟩

theorem activeFrom_sum (l : List (Option ℕ)) (j0 : ℕ) (F : ℕ × ℕ → ℝ) :
    ((activeFrom j0 l).map F).sum = ∑ j : Fin l.length,
      match l[j] with
      | some b => F (b, j0 + j)
      | none => 0 := by
  induction l generalizing j0 with
  | nil => simp
  | cons a l ih =>
    have key := Fin.sum_univ_succ (n := l.length) fun j => match (a :: l)[j] with
      | some b => F (b, j0 + j)
      | none => 0
    refine Eq.trans ?_ key.symm
    have e : ∀ j : Fin l.length, j0 + (j.succ : ℕ) = j0 + 1 + j := fun j => by
      rw [Fin.val_succ]; omega
    have e2 : (∑ j : Fin l.length, match (a :: l)[j.succ] with
        | some b => F (b, j0 + j.succ)
        | none => 0) = ∑ j : Fin l.length, match l[j] with
        | some b => F (b, j0 + 1 + j)
        | none => 0 := by
      refine Finset.sum_congr rfl fun j _ => ?_
      rw [e]
      rfl
    rw [e2]
    cases a with
    | none =>
      rw [activeFrom_none, ih]
      exact (zero_add _).symm
    | some b =>
      rw [activeFrom_some, List.map_cons, List.sum_cons, ih]
      rfl

theorem pick_linear (P : Prog) (rb : RB) (tan : Fin rb.args.length → ℕ) :
    ∃ L : (Fin P.sizes.sum → ℝ) →L[ℝ] ((j : Fin rb.args.length) → Fin (tan j) → ℝ),
      ∀ δ, L δ = pick P rb tan δ := by
  let L : (Fin P.sizes.sum → ℝ) →ₗ[ℝ] ((j : Fin rb.args.length) → Fin (tan j) → ℝ) :=
    { toFun := pick P rb tan
      map_add' := fun x y => by
        funext j k
        simp only [pick, Pi.add_apply]
        cases rb.args[j] with
        | none => simp
        | some b => simp only; split <;> simp
      map_smul' := fun c x => by
        funext j k
        simp only [pick, Pi.smul_apply, smul_eq_mul, RingHom.id_apply]
        cases rb.args[j] with
        | none => simp
        | some b => simp only; split <;> simp }
  exact ⟨LinearMap.toContinuousLinearMap L, fun δ => rfl⟩

theorem offset_lt {P : Prog} {b k : ℕ} (h : k < P.size b) : P.offset b + k < P.sizes.sum := by
  unfold Prog.size at h
  unfold Prog.offset
  have hb : b < P.sizes.length := by
    by_contra hc
    rw [List.getD_eq_getElem?_getD, List.getElem?_eq_none (by omega)] at h
    simp at h
  rw [List.getD_eq_getElem?_getD, List.getElem?_eq_getElem hb] at h
  simp only [Option.getD_some] at h
  have h1 := List.sum_take_add_sum_drop P.sizes b
  rw [List.drop_eq_getElem_cons hb, List.sum_cons] at h1
  omega

theorem lsum (n : ℕ) (f : ℕ → ℝ) : ((List.range n).map f).sum = ∑ i ∈ Finset.range n, f i := by
  rw [← List.sum_toFinset _ List.nodup_range, List.toFinset_range]

theorem scatter {N o n : ℕ} (h : ∀ k < n, o + k < N) (g : ℕ → ℝ) (δ : Fin N → ℝ) :
    ∑ q : Fin N, (∑ k ∈ Finset.range n, if o + k = q then g k else 0) * δ q =
      ∑ k : Fin n, g k * (if h : o + k < N then δ ⟨o + k, h⟩ else 0) := by
  have e : ∀ q : Fin N, (∑ k ∈ Finset.range n, if o + k = q then g k else 0) * δ q =
      ∑ k : Fin n, if o + k = q then g k * δ q else 0 := by
    intro q
    rw [Finset.sum_range, Finset.sum_mul]
    refine Finset.sum_congr rfl fun k _ => ?_
    split <;> simp
  rw [Finset.sum_congr rfl fun q _ => e q, Finset.sum_comm]
  refine Finset.sum_congr rfl fun k _ => ?_
  rw [dif_pos (h k k.2), Finset.sum_eq_single ⟨o + k, h k k.2⟩]
  · rw [if_pos rfl]
  · intro q _ hq
    rw [if_neg]
    intro hc
    exact hq (Fin.ext hc.symm)
  · simp

/-- The derivative of the cost of a block with respect to a step of the program, in terms of the
gradient that the evaluator accumulates for the block. -/
theorem PBlock.deriv {P : Prog} {rb : RB} (p : PBlock P rb) (i : ℕ) :
    p.out.cost = p.costAt 0 ∧
    HasFDerivAt p.costAt (∑ q : Fin P.sizes.sum, gradOf P i rb p.val q •
      (ContinuousLinearMap.proj (R := ℝ) (φ := fun _ : Fin P.sizes.sum => ℝ) q)) 0 := by
  obtain ⟨r, J, hr, hJ, hc, L, hL, hLe⟩ :=
    block_gradient p.S (wantOf rb) p.reported p.loss p.evaluated
  obtain ⟨Lp, hLp⟩ := pick_linear P rb p.tan
  have h0 : pick P rb p.tan 0 = 0 := by rw [← hLp, map_zero]
  refine ⟨by rw [hc]; unfold PBlock.costAt; rw [h0], ?_⟩
  have e : p.costAt = fun δ => p.S.cost (wantOf rb) (Lp δ) := by
    funext δ
    rw [hLp]
    rfl
  have hL' : HasFDerivAt (p.S.cost (wantOf rb)) L (Lp 0) := by rw [map_zero]; exact hL
  have hd := hL'.comp 0 (Lp.hasFDerivAt (x := 0))
  rw [e]
  refine hd.congr_fderiv ?_
  ext1 δ
  rw [ContinuousLinearMap.comp_apply, hLp, hLe]
  simp only [ContinuousLinearMap.coe_sum', Finset.sum_apply, ContinuousLinearMap.coe_smul',
    Pi.smul_apply, ContinuousLinearMap.proj_apply, smul_eq_mul, ← gradSum_eq, activeArgs_eq,
    activeFrom_sum, Finset.sum_mul]
  rw [Finset.sum_comm]
  refine Finset.sum_congr rfl fun j _ => ?_
  cases hj : rb.args[j] with
  | none =>
    have hw : wantOf rb j = false := by unfold wantOf; rw [hj]; rfl
    simp [hw]
  | some b =>
    have hw : wantOf rb j = true := by unfold wantOf; rw [hj]; rfl
    have ht := p.tan_eq j b hj
    simp only [hw, if_true, lsum, Nat.zero_add]
    have e1 : ∀ q : Fin P.sizes.sum, (∑ k ∈ Finset.range (P.size b),
        ∑ x ∈ Finset.range rb.numResiduals,
          if P.offset b + k = q then p.val.jac j (x * P.size b + k) * p.val.res x else 0) =
        ∑ k ∈ Finset.range (P.size b), if P.offset b + k = q then
          ∑ x ∈ Finset.range rb.numResiduals, p.val.jac j (x * P.size b + k) * p.val.res x
          else 0 := by
      intro q
      refine Finset.sum_congr rfl fun k _ => ?_
      split
      · rfl
      · simp
    simp only [e1]
    rw [scatter (fun k hk => offset_lt hk), dotProduct, ← Fin.sum_congr' _ ht]
    refine Finset.sum_congr rfl fun k _ => ?_
    have hpk : pick P rb p.tan δ j k = if h : P.offset b + k < P.sizes.sum then
        δ ⟨P.offset b + k, h⟩ else 0 := by
      unfold pick
      rw [hj]
    rw [hpk]
    congr 1
    rw [mulVec, dotProduct, Finset.sum_range]
    refine Finset.sum_congr rfl fun x _ => ?_
    have hpos : 0 < p.tan j := lt_of_le_of_lt (Nat.zero_le _) k.2
    have hdiv : (x * P.size b + k) / p.tan j = x := by
      rw [← ht, Nat.mul_comm, Nat.mul_add_div hpos, Nat.div_eq_of_lt k.2, Nat.add_zero]
    have hmod : (x * P.size b + k) % p.tan j = k := by
      rw [← ht, Nat.mul_comm, Nat.mul_add_mod, Nat.mod_eq_of_lt k.2]
    have hval : p.val.jac j (x * P.size b + k) = J j x k := by
      show (if h : (j : ℕ) < rb.args.length then _ else _) = _
      rw [dif_pos j.2]
      simp only [Fin.eta]
      rw [dif_pos ⟨by rw [hdiv]; exact x.2, hpos⟩, hJ j, if_pos hw]
      simp only [Option.getD_some]
      congr 1
      · exact Fin.ext hdiv
      · exact Fin.ext hmod
    have hresx : p.val.res x = r x := by
      show (if h : (x : ℕ) < rb.numResiduals then _ else _) = _
      rw [dif_pos x.2, hr]
      rfl
    simp only [Fin.val_cast] 
    rw [hval, hresx]
    rfl

/-- **C65.** If all cost functions report their residuals and derivatives, all manifolds the
derivative of their `Plus` and all losses their derivative, then a parallel evaluation reports the
cost at the current point and its gradient with respect to a step in tangent space, whatever the
number of threads and the schedule. -/
theorem evaluate_gradient {c : Config} {P : Prog} {rows : ℕ → ℕ}
    (hrows : RowsOk (K := ℝ) c P rows) (hG : c.wantG = true) (ne threads : ℕ)
    (pb : ∀ i (hi : i < P.residuals.length), PBlock P P.residuals[i])
    (garbage : ℕ → ℕ → List (Op ℝ)) {m : Loc → ℝ} (hm : InitMem m) {s : St ℝ}
    (h : Reach (evalTasks c P rows ne threads (vals P pb) garbage)
      (St.init (evalTasks c P rows ne threads (vals P pb) garbage) m) s)
    (hf : s.Final (evalTasks c P rows ne threads (vals P pb) garbage)) :
    ∃ cost g, evalResult threads s = some (cost, g) ∧ cost = totalCost P pb 0 ∧
      HasFDerivAt (totalCost P pb) (∑ q : Fin P.sizes.sum, g q •
        (ContinuousLinearMap.proj (R := ℝ) (φ := fun _ : Fin P.sizes.sum => ℝ) q)) 0 := by
  have hok : ∀ i < P.residuals.length, (vals P pb i).ok = true := by
    intro i hi
    unfold vals
    rw [dif_pos hi]
    rfl
  obtain ⟨h1, -, -⟩ := evaluate_correct hrows ne threads (vals P pb) garbage hok hm h hf
  refine ⟨_, _, h1, ?_, ?_⟩
  · rw [← List.sum_toFinset _ List.nodup_range, List.toFinset_range, Finset.sum_range]
    unfold totalCost
    refine Finset.sum_congr rfl fun i _ => ?_
    rw [← ((pb i i.2).deriv i).1]
    unfold vals
    rw [dif_pos i.2]
    rfl
  · have hsum : HasFDerivAt (totalCost P pb)
        (∑ i : Fin P.residuals.length, ∑ q : Fin P.sizes.sum,
          gradOf P i P.residuals[i] (pb i i.2).val q •
          (ContinuousLinearMap.proj (R := ℝ) (φ := fun _ : Fin P.sizes.sum => ℝ) q)) 0 := by
      unfold totalCost
      apply HasFDerivAt.fun_sum
      intro i _
      exact ((pb i i.2).deriv i).2
    rw [Finset.sum_comm] at hsum
    convert hsum using 2 with q
    simp only [hG, if_true]
    rw [← Finset.sum_smul, ← List.sum_toFinset _ List.nodup_range, List.toFinset_range,
      Finset.sum_range]
    congr 1
    refine Finset.sum_congr rfl fun i _ => ?_
    unfold vals
    rw [dif_pos i.2, getD_residuals i.2]
    rfl

/-! ### The hypotheses can be met -/

/-- The matrix with the single entry 2. -/
def exQ : Matrix (Fin 1) (Fin 1) ℝ := Matrix.of fun _ _ => 2

/-- A block with the residual `x²`, a manifold with `Plus(x, δ) = x + 2 δ` and a Cauchy loss. -/
def exBlock : Block 1 (Fin 1) (fun _ => 1) (fun _ => 1) where
  plusJac _ := some exQ
  same _ h := by simp at h
  loss := some (Loss.cauchy 1).eval

/-- Its content at `x = 3`. -/
def exSmooth : Smooth exBlock where
  f x _ := x 0 0 ^ 2
  x _ _ := 3
  G _ := Matrix.of fun _ _ => 6
  deriv := by
    rw [hasFDerivAt_pi']
    intro i
    let L := (ContinuousLinearMap.proj (R := ℝ) (φ := fun _ : Fin 1 => ℝ) 0).comp
      (ContinuousLinearMap.proj (R := ℝ) (φ := fun _ : Fin 1 => Fin 1 → ℝ) 0)
    have h1 : HasFDerivAt (fun x : Fin 1 → Fin 1 → ℝ => x 0 0) L (fun _ _ => 3) := L.hasFDerivAt
    refine (h1.pow 2).congr_fderiv ?_
    ext1 v
    simp [mulVec, dotProduct, L]
    norm_num
  plus _ δ _ := 3 + 2 * δ 0
  plus_zero _ := by funext k; simp
  plus_deriv _ Q h := by
    have hQ : Q = exQ := (Option.some.inj (show some exQ = some Q from h)).symm
    subst hQ
    have e : (fun (δ : Fin 1 → ℝ) (_ : Fin 1) => 3 + 2 * δ 0) =
        fun δ => (fun _ => (3 : ℝ)) + mat exQ δ := by
      funext δ k
      simp [mulVec, dotProduct, exQ]
    rw [e]
    exact (mat _).hasFDerivAt.const_add _
  plus_none _ h := by simp [exBlock] at h

/-- What its cost function writes. -/
def exUser : UserEval 1 (Fin 1) fun _ => 1 :=
  ⟨true, fun _ => some (.fin 9), fun _ _ _ => some (.fin 6)⟩

theorem exReported (want : Fin 1 → Bool) : exSmooth.Reported want exUser where
  ok := rfl
  res _ := by
    simp only [exUser, exSmooth]
    norm_num
  jac _ _ _ _ := by
    simp only [exUser, exSmooth, Matrix.of_apply]
    norm_num

example : Nonempty (PBlock ⟨[1], [⟨1, [some 0]⟩]⟩ ⟨1, [some 0]⟩) := by
  have hnf : exBlock.evaluate true true (some (wantOf ⟨1, [some 0]⟩)) exUser ≠ .failed := by
    rw [Ne, evaluate_failed_iff]
    have h : ∀ x : ℝ, x ≠ 1e302 → ¬ Unusable (some (.fin x)) := by
      intro x hx hc
      rcases hc with hc | hc | hc
      · cases hc
      · cases hc
      · injection hc with hc
        injection hc with hc
        exact hx hc
    rintro (hc | ⟨i, hc⟩ | ⟨j, _, i, k, hc⟩)
    · cases hc
    · exact h 9 (by norm_num) hc
    · exact h 6 (by norm_num) hc
  have hna : exBlock.evaluate true true (some (wantOf ⟨1, [some 0]⟩)) exUser ≠ .aborted :=
    evaluate_not_aborted _ _ _ _ _ fun rho h => ⟨.cauchy 1, show (0 : ℝ) < 1 from one_pos, by
      simp only [exBlock, Option.some.injEq] at h
      exact h.symm⟩
  cases ho : exBlock.evaluate true true (some (wantOf ⟨1, [some 0]⟩)) exUser with
  | failed => exact absurd ho hnf
  | aborted => exact absurd ho hna
  | ok o =>
    refine ⟨⟨fun _ => 1, fun _ => 1, ?_, exBlock, exSmooth, exUser, exReported _, ?_, o, ho⟩⟩
    · intro j b h
      have hb : b = 0 := by
        have : j = 0 := Fin.ext (by have := j.2; simp at this; simpa using this)
        subst this
        simpa using h.symm
      subst hb
      rfl
    · intro rho h
      simp only [exBlock, Option.some.injEq] at h
      subst h
      have hd : dblMin < 1 / 82 := by
        unfold dblMin
        calc (2 : ℝ) ^ (-1022 : ℤ) < 2 ^ (-7 : ℤ) :=
              zpow_lt_zpow_right₀ (by norm_num) (by norm_num)
          _ ≤ 1 / 82 := by norm_num
      have hs : ∑ i : Fin 1, exSmooth.f exSmooth.x i ^ 2 = 81 := by
        simp [exSmooth]; norm_num
      refine ⟨(loss_derivatives (.cauchy 1) (show (0 : ℝ) < 1 from one_pos)
        (Finset.sum_nonneg fun i _ => sq_nonneg _) ?_).1,
        (loss_r1_r2 (.cauchy 1) (show (0 : ℝ) < 1 from one_pos) _).1⟩
      erw [hs]
      show dblMin < max dblMin (1 / (1 + 81 * (1 / (1 * 1))))
      apply lt_max_of_lt_right
      norm_num
      linarith

end Ceres.Robust
