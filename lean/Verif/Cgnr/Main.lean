import Verif.Cgnr.Subset
import Verif.SchurJacobi.ExplicitMain

/-!
# C90: CGNR with its preconditioners
-/

noncomputable section

namespace Ceres.Cgnr

open Matrix Ceres.Tasks Ceres.BlockSparse Ceres.Direct Ceres.InnerProduct
open Ceres.CG (SPD)
open Ceres.PartitionedView (Gives LltOk bind_iff onY_iff onY)
open Ceres.SchurJacobi (diagonal front extend corner front_extend corner_mulVec corner_spd corner_quadratic)

variable {c : SparseChol} {llt : (n : ℕ) → Matrix (Fin n) (Fin n) ℝ → Matrix (Fin n) (Fin n) ℝ} {p : Prec} {threads : ℕ}
  {bs : BS} {reg : Bool}

/-! ## The matrix a preconditioner stands for -/

theorem standsFor_same {A B : BMat ℝ} (h : Same A B) (hB : B.Ok) (p : Prec) (D : Option Vec) :
    standsFor p A D = standsFor p B D := by
  unfold standsFor rowsBefore
  rw [same_entry h hB, h.bs, h.numRows]

theorem solvable_same {A B : BMat ℝ} (h : Same A B) (hB : B.Ok) (p : Prec) (D : Option Vec) :
    Solvable p A D ↔ Solvable p B D := by
  unfold Solvable rowsBefore
  rw [same_entry h hB, h.bs, h.numRows, h.numCols]

theorem standsFor_symm (p : Prec) (A : BMat ℝ) (D : Option Vec) (i j : ℕ) : standsFor p A D i j = standsFor p A D j i := by
  unfold standsFor
  by_cases hij : i = j
  · rw [hij]
  · have hji : ¬j = i := fun h => hij h.symm
    cases p with
    | identity => simp only [if_neg hij, if_neg hji]
    | jacobi =>
      simp only [if_neg hij, if_neg hji, add_zero]
      refine if_congr ⟨Eq.symm, Eq.symm⟩ (Finset.sum_congr rfl fun k _ => mul_comm _ _) rfl
    | subset s =>
      simp only [if_neg hij, if_neg hji, add_zero]
      exact Finset.sum_congr rfl fun k _ => mul_comm _ _

/-- The rows of SUBSET are rows of the problem. -/
theorem regular_of_solvable {A : BMat ℝ} (h : A.Ok) {D : Option Vec} (hs : Solvable p A D) :
    Regular A.numRows A.numCols A.entry D := by
  cases p with
  | identity => exact hs
  | jacobi => exact hs
  | subset s =>
    refine fun x hx hD => hs x (fun k hk => hx _ ?_) hD
    have := rowsBefore_le h s
    omega

theorem corner_jacobi (A : BMat ℝ) (D : Option Vec) : corner A.numCols (standsFor .jacobi A D) =
    CG.blockDiag (fun i : Fin A.numCols => blockOf A.bs.cols i) (corner A.numCols (normalMat A.numRows A.entry D)) := by
  ext i j
  unfold corner CG.blockDiag standsFor normalMat
  simp only [Matrix.of_apply]
  rfl

theorem standsFor_spd {A : BMat ℝ} (h : A.Ok) {D : Option Vec} (hs : Solvable p A D) :
    SPD (corner A.numCols (standsFor p A D)) := by
  cases p with
  | identity =>
    have : corner A.numCols (standsFor .identity A D) = 1 := by
      ext i j
      unfold corner standsFor
      simp only [Matrix.of_apply, Matrix.one_apply, Fin.ext_iff]
    rw [this]
    exact CG.one_spd
  | jacobi =>
    rw [corner_jacobi]
    exact CG.blockDiag_spd (corner_spd (fun p _ q _ => normal_symm _ _ _ p q) (posDef_normal hs)) _
  | subset s =>
    refine corner_spd (fun _ _ _ _ => standsFor_symm _ _ _ _ _) ?_
    intro x hx
    refine lt_of_lt_of_eq (posDef_normal hs x hx) ?_
    exact Finset.sum_congr rfl fun i _ => Finset.sum_congr rfl fun j _ => by rw [standsFor_subset h]

/-! ## The update -/

/-- What the preconditioner keeps between calls. -/
def Inv (p : Prec) (bs : BS) (reg : Bool) (S : State c) : Prop := ∀ start, p = .subset start → InvSubset c start bs reg S

/-- What an update leaves. -/
structure Updated (c : SparseChol) (llt : (n : ℕ) → Matrix (Fin n) (Fin n) ℝ → Matrix (Fin n) (Fin n) ℝ) (p : Prec)
    (threads : ℕ) (bs : BS) (reg : Bool) (call : Call) (S : State c) (A : BMat ℝ) : Prop where
  same : Same A call.A
  ok : A.Ok
  inv : Inv p bs reg S
  applies : ∀ x y, ∃ z, (∀ out, apply threads p S A x y out ↔ out = some z) ∧ ∀ i, call.A.numCols ≤ i → z i = y i
  preconditions : LltOk llt → c.Correct → Solvable p call.A call.D → ∀ x y z, apply threads p S A x y (some z) →
    Eqs call.A.numCols (standsFor p call.A call.D) (made p y z) x

theorem eqs_of_mulVec {n : ℕ} {H : Buf} {u x : Vec} (h : corner n H *ᵥ front n u = front n x) : Eqs n H u x := by
  intro i hi
  have := congrFun h ⟨i, hi⟩
  rw [corner_mulVec] at this
  exact this

theorem update_spec (ht : 0 < threads) {S : State c} (hI : Inv p bs reg S) {call : Call} (hf : Fits p bs reg call) :
    (∃ u, Update llt threads p S call.A call.D u) ∧ ∀ u, Update llt threads p S call.A call.D u →
      ∃ S' A, u = some (S', A) ∧ Updated c llt p threads bs reg call S' A := by
  cases p with
  | identity =>
    refine ⟨⟨_, rfl⟩, fun u hu => ⟨S, call.A, hu, same_refl _, hf.ok, hI, fun x y => ⟨_, fun _ => Iff.rfl, fun i hi => ?_⟩, ?_⟩⟩
    · rw [if_neg (by omega)]
    · intro _ _ _ x y z hz i hi
      have hz : z = fun i => if i < call.A.numCols then y i + x i else y i := by
        have : some z = some _ := hz
        injection this
      subst hz
      have : ∀ j ∈ Finset.range call.A.numCols, standsFor .identity call.A call.D i j *
          ((if j < call.A.numCols then y j + x j else y j) - y j) = if i = j then x j else 0 := by
        intro j hj
        rw [if_pos (Finset.mem_range.1 hj)]
        unfold standsFor
        simp only
        split_ifs <;> ring
      refine (Finset.sum_congr rfl this).trans ?_
      rw [Finset.sum_ite_eq, if_pos (Finset.mem_range.2 hi)]
  | jacobi =>
    obtain ⟨w, w1, w2⟩ := jacobi_update hf.ok (simple_of_sorted (hf.structure_ ▸ hf.sorted)) ht llt call.D S.values
    refine ⟨⟨_, some w, (w1 _).2 rfl, rfl⟩, ?_⟩
    rintro u ⟨v, hv, rfl⟩
    obtain rfl := (w1 v).1 hv
    have gives := fun x y => SchurJacobi.rightMultiply_gives w ht (offset_cols hf.ok)
      (G := Matrix.of fun i j : Fin call.A.numCols => (BMat.ofStructure (diagonal call.A.bs.cols) w).entry i j)
      (fun _ _ => rfl) x y
    refine ⟨_, _, rfl, same_refl _, hf.ok, (fun s hs => nomatch hs), fun x y => ?_, fun hl _ hs x y z hz => ?_⟩
    · obtain ⟨z, h1, -, h3⟩ := gives x y
      exact ⟨z, h1, h3⟩
    · have hspd := standsFor_spd hf.ok hs
      obtain ⟨z', h1, h2, -⟩ := gives x y
      obtain rfl : z = z' := by simpa using (h1 _).1 hz
      have hG : (Matrix.of fun i j : Fin call.A.numCols => (BMat.ofStructure (diagonal call.A.bs.cols) w).entry i j) =
          (corner call.A.numCols (standsFor .jacobi call.A call.D))⁻¹ := by
        rw [corner_jacobi]
        ext i j
        exact w2 hl (posDef_normal hs) i j
      refine eqs_of_mulVec ?_
      have hfr : front call.A.numCols (fun i => z i - y i) =
          (corner call.A.numCols (standsFor .jacobi call.A call.D))⁻¹ *ᵥ front call.A.numCols x := by
        rw [← hG]
        funext i
        show z i - y i = _
        rw [h2 i]
        show y i + _ - y i = _
        ring
      rw [show made .jacobi y z = fun i => z i - y i from rfl, hfr, mulVec_mulVec, Matrix.mul_nonsing_inv _ hspd.isUnit_det, one_mulVec]
  | subset start =>
    have hu := fun oc ov => subset_update (hI start rfl) hf oc ov
    refine ⟨⟨_, fun _ => 0, fun _ => 0, rfl⟩, ?_⟩
    rintro u ⟨oc, ov, rfl⟩
    obtain ⟨S', A', h1, h2, h3, h4, h5⟩ := hu oc ov
    refine ⟨S', A', h1, h2, h3, ?_, fun x y => ⟨_, fun _ => Iff.rfl, fun i hi => ?_⟩, ?_⟩
    · intro s hs
      injection hs with hs
      exact hs ▸ h4
    · rw [if_neg (by rw [h2.numCols]; omega)]
    · intro _ hc hs x y z hz
      have hz : z = fun i => if i < A'.numCols then (c.solve S'.chol x).2 i else y i := by
        have : some z = some _ := hz
        injection this
      subst hz
      intro i hi
      rw [← h5 hc hs x i hi]
      refine Finset.sum_congr rfl fun j hj => ?_
      show _ * (if j < A'.numCols then (c.solve S'.chol x).2 j else y j) = _
      rw [if_pos (by rw [h2.numCols]; exact Finset.mem_range.1 hj)]

/-! ## The solver -/

/-- The quadratic of the normal equations is the least squares cost, up to a constant. -/
theorem lsq_quadratic (m n : ℕ) (E : Buf) (b : Vec) (D : Option Vec) (x : CG.Vec n) :
    lsq m n E b D (extend x) = CG.qf (corner n (normalMat m E D))
      (front n fun i => ∑ k ∈ Finset.range m, E k i * b k) x + ∑ k ∈ Finset.range m, b k ^ 2 := by
  have e := corner_quadratic n (normalMat m E D) (extend x)
  rw [front_extend] at e
  have e2 : SchurMatrix.quadratic n (normalMat m E D) (extend x) =
      ∑ k ∈ Finset.range m, (∑ j ∈ Finset.range n, E k j * extend x j) ^ 2 +
        ∑ j ∈ Finset.range n, dsq D j * extend x j ^ 2 := normalMat_quad m n E D (extend x)
  have e3 : (front n fun i => ∑ k ∈ Finset.range m, E k i * b k) ⬝ᵥ x =
      ∑ k ∈ Finset.range m, b k * ∑ j ∈ Finset.range n, E k j * extend x j := by
    have hx : x = front n (extend x) := (front_extend x).symm
    have : (front n fun i => ∑ k ∈ Finset.range m, E k i * b k) ⬝ᵥ x =
        ∑ i ∈ Finset.range n, (∑ k ∈ Finset.range m, E k i * b k) * extend x i := by
      conv_lhs => rw [hx]
      rw [Finset.sum_range]
      rfl
    rw [this]
    simp only [Finset.sum_mul, Finset.mul_sum]
    rw [Finset.sum_comm]
    exact Finset.sum_congr rfl fun k _ => Finset.sum_congr rfl fun j _ => by ring
  rw [lsq_eq]
  unfold CG.qf
  rw [e, e2, e3]
  have : ∑ k ∈ Finset.range m, (∑ j ∈ Finset.range n, E k j * extend x j - b k) ^ 2 =
      ∑ k ∈ Finset.range m, (∑ j ∈ Finset.range n, E k j * extend x j) ^ 2 -
        2 * ∑ k ∈ Finset.range m, b k * ∑ j ∈ Finset.range n, E k j * extend x j + ∑ k ∈ Finset.range m, b k ^ 2 := by
    rw [Finset.mul_sum, ← Finset.sum_sub_distrib, ← Finset.sum_add_distrib]
    exact Finset.sum_congr rfl fun k _ => by ring
  rw [this]
  ring

theorem extend_zero (n : ℕ) : extend (0 : CG.Vec n) = 0 := by
  funext i
  unfold extend
  split <;> rfl

theorem solve_good (ht : 0 < threads) (o : CG.Options) {S : State c} (hI : Inv p bs reg S) {call : Call}
    (hf : Fits p bs reg call) :
    (∃ out, Solve llt o p threads S call out) ∧ ∀ out, Solve llt o p threads S call out →
      ∃ r, out = some r ∧ Good c llt o p threads call r ∧ Inv p bs reg r.state := by
  obtain ⟨⟨u, hu⟩, hall⟩ := update_spec (llt := llt) ht hI hf
  have rhsOf : ∀ A : BMat ℝ, A.Ok → ∀ r, onY (LeftRun A threads (memOf A call.b fun _ => 0)) r ↔
      r = some fun i => 0 + ∑ k ∈ Finset.range A.numRows, A.entry k i * call.b k :=
    fun A hA => onY_iff fun o => left_product hA ht call.b (fun _ => 0) o
  refine ⟨?_, ?_⟩
  · obtain ⟨S', A, rfl, hU⟩ := hall u hu
    choose z hz using fun x y => normalMultiply_gives hU.ok ht call.D x y
    choose w hw using hU.applies
    let lhs : CG.Op A.numCols := fun x y => front _ (z (extend x) (extend y))
    let prec : CG.Op A.numCols := fun x y => front _ (w (extend x) (extend y))
    exact ⟨_, _, hu, _, (rhsOf A hU.ok _).2 rfl, Or.inr ⟨lhs, prec,
      fun x y => ⟨_, ((hz _ _).1 _).2 rfl, rfl⟩, fun x y => ⟨_, ((hw _ _).1 _).2 rfl, rfl⟩, rfl⟩⟩
  · rintro out ⟨u, hu, h⟩
    obtain ⟨S', A, rfl, hU⟩ := hall u hu
    obtain ⟨r, hr, h⟩ := h
    obtain rfl := (rhsOf A hU.ok r).1 hr
    simp only at h
    rcases h with ⟨-, x, y, h | h⟩ | ⟨lhs, prec, hlhs, hprec, rfl⟩
    · obtain ⟨z, h1, -⟩ := normalMultiply_gives hU.ok ht call.D x y
      exact nomatch (h1 _).1 h
    · obtain ⟨z, h1, -⟩ := hU.applies x y
      exact nomatch (h1 _).1 h
    simp only [zero_add]
    set N := normalMat A.numRows A.entry call.D with hN
    set b : CG.Vec A.numCols := front A.numCols fun i => ∑ k ∈ Finset.range A.numRows, A.entry k i * call.b k with hb
    have hE := same_entry hU.same hf.ok
    have happ : CG.Applies lhs (corner A.numCols N) := by
      intro x
      obtain ⟨z, h1, h2⟩ := hlhs x 0
      obtain ⟨z', k1, k2⟩ := normalMultiply_gives hU.ok ht call.D (extend x) (extend 0)
      obtain rfl : z = z' := by simpa using (k1 _).1 h1
      rw [h2]
      funext i
      show z i = _
      rw [k2 i i.2, extend_zero, ← front_extend x, corner_mulVec, front_extend]
      exact zero_add _
    have hsymm : (corner A.numCols N).IsSymm := by
      ext i j
      exact normal_symm _ _ _ _ _
    have h0 : lsq A.numRows A.numCols A.entry call.b call.D 0 = CG.qf (corner A.numCols N) b 0 +
        ∑ k ∈ Finset.range A.numRows, call.b k ^ 2 := by
      rw [← extend_zero A.numCols, lsq_quadratic]
    have hle : lsq A.numRows A.numCols A.entry call.b call.D (extend (CG.solver o lhs prec b 0).x) ≤
        lsq A.numRows A.numCols A.entry call.b call.D 0 ∧
        ((∃ j < A.numCols, extend (CG.solver o lhs prec b 0).x j ≠ 0) →
        lsq A.numRows A.numCols A.entry call.b call.D (extend (CG.solver o lhs prec b 0).x) <
          lsq A.numRows A.numCols A.entry call.b call.D 0) := by
      by_cases hz : b = 0
      · have : (CG.solver o lhs prec b 0).x = 0 := by
          unfold CG.solver
          simp [hz, CG.norm2]
        rw [this, extend_zero]
        exact ⟨le_rfl, fun ⟨j, _, hj⟩ => (hj rfl).elim⟩
      · obtain ⟨c1, c2, -⟩ := CG.cg_never_worse o (prec := prec) happ hsymm b 0 hz
        rw [lsq_quadratic, h0]
        refine ⟨by linarith, fun ⟨j, _, hj⟩ => ?_⟩
        have := c2 fun h => hj (by rw [h, extend_zero]; rfl)
        linarith
    have hconv : ∀ X, lsq A.numRows A.numCols A.entry call.b call.D X =
        lsq call.A.numRows call.A.numCols call.A.entry call.b call.D X := fun X => by
      rw [hU.same.numRows, hU.same.numCols, hE]
    rw [hconv, hconv] at hle
    refine ⟨_, rfl, ⟨hU.same, hle.1, ?_, ?_, hU.applies, hU.preconditions⟩, hU.inv⟩
    · rintro ⟨j, hj, hx⟩
      exact hle.2 ⟨j, by rw [hU.same.numCols]; exact hj, hx⟩
    · intro hl hc hs ho
      have hs' := (solvable_same hU.same hf.ok p call.D).2 hs
      have hreg := regular_of_solvable hU.ok hs'
      have hspd : SPD (corner A.numCols N) := corner_spd (fun p _ q _ => normal_symm _ _ _ p q) (posDef_normal hreg)
      have hP := standsFor_spd hU.ok hs'
      have hpre : CG.Applies prec (corner A.numCols (standsFor p A call.D))⁻¹ := by
        intro x
        obtain ⟨z, h1, h2⟩ := hprec x 0
        have h3 := hU.preconditions hl hc hs _ _ _ h1
        have h4 : Eqs A.numCols (standsFor p A call.D) z (extend x) := by
          have e : made p (extend (0 : CG.Vec A.numCols)) z = z := by
            rw [extend_zero]
            cases p <;> simp [made]
          rw [e, ← hU.same.numCols, ← standsFor_same hU.same hf.ok] at h3
          exact h3
        have h5 : corner A.numCols (standsFor p A call.D) *ᵥ front A.numCols z = x := by
          funext i
          rw [corner_mulVec, h4 i i.2]
          exact congrFun (front_extend x) i
        have h6 : (corner A.numCols (standsFor p A call.D))⁻¹ *ᵥ x = front A.numCols z := by
          rw [← h5, mulVec_mulVec, Matrix.nonsing_inv_mul _ hP.isUnit_det, one_mulVec]
        rw [h2, h6]
      have ho' : SchurJacobi.Exact o A.numCols := by rw [hU.same.numCols]; exact ho
      obtain ⟨c1, -, -, c4⟩ := CG.cg_converges o happ hpre hspd hP.inv ho'.q ho'.r.ge ho'.min ho'.max b
      refine ⟨c1, ?_⟩
      have hmin : Minimises A.numRows A.numCols A.entry call.b call.D (extend (CG.solver o lhs prec b 0).x) := by
        refine minimises_of_normal (eqs_of_mulVec ?_)
        rw [front_extend]
        exact c4 ho'.r
      intro y
      have := hmin y
      rwa [hconv, hconv] at this

/-- What is kept after any calls. -/
theorem after_inv (ht : 0 < threads) {calls : List Call} (hcalls : ∀ call ∈ calls, Fits p bs reg call) {S : State c}
    (hS : After c llt p threads calls S) : Inv p bs reg S := by
  induction hS with
  | nil v => exact fun _ _ => Or.inl ⟨rfl, rfl⟩
  | snoc o call r _ hsolve ih =>
    obtain ⟨r', hr', -, hI'⟩ := (solve_good ht o (ih fun call h => hcalls call (List.mem_append_left _ h))
      (hcalls call (by simp))).2 _ hsolve
    cases hr'
    exact hI'

/-- **CGNR** with IDENTITY, JACOBI or SUBSET: after any history of calls with the same block structure, on any number
of threads and for every schedule, a call returns; it gives the Jacobian back as it was; the step is not worse than
none and better if it is not zero, whatever the factorisations did; run to the end it is the minimiser; and the
preconditioner applied was the inverse of the matrix it stands for. -/
theorem cgnr_solves (ht : 0 < threads) (o : CG.Options) {calls : List Call} (hcalls : ∀ call ∈ calls, Fits p bs reg call)
    {S : State c} (hS : After c llt p threads calls S) {call : Call} (hcall : Fits p bs reg call) :
    (∃ out, Solve llt o p threads S call out) ∧
      ∀ out, Solve llt o p threads S call out → ∃ r, out = some r ∧ Good c llt o p threads call r := by
  obtain ⟨h1, h2⟩ := solve_good ht o (after_inv ht hcalls hS) hcall
  refine ⟨h1, fun out h => ?_⟩
  obtain ⟨r, k1, k2, -⟩ := h2 out h
  exact ⟨r, k1, k2⟩

/-- Such a history is possible. -/
theorem after_exists (c : SparseChol) (llt : (n : ℕ) → Matrix (Fin n) (Fin n) ℝ → Matrix (Fin n) (Fin n) ℝ)
    (ht : 0 < threads) (o : CG.Options) (calls : List Call) (hcalls : ∀ call ∈ calls, Fits p bs reg call) :
    ∃ S, After c llt p threads calls S := by
  induction calls using List.reverseRecOn with
  | nil => exact ⟨_, .nil fun _ => 0⟩
  | append_singleton calls call ih =>
    have hprev := fun call h => hcalls call (List.mem_append_left _ h)
    obtain ⟨S, hS⟩ := ih hprev
    obtain ⟨⟨out, ho⟩, hall⟩ := cgnr_solves ht o hprev hS (hcalls call (by simp))
    obtain ⟨r, rfl, -⟩ := hall out ho
    exact ⟨_, .snoc o call r hS ho⟩

/-- **No data race, no access out of bounds** in the loops of JACOBI and of the operator. -/
theorem cgnr_race_free {M : BMat ℝ} (h : M.Ok) (m : Mem ℝ) :
    (∀ s, ForReach 1 (jacobiTask threads M.bs (diagonal M.bs.cols)) 0 M.bs.rows.length threads m s →
      ¬Race s ∧ ∀ l, Touches s l → InBounds 0 (PartitionedView.sqOffset M.bs.cols M.bs.cols.length) M.nnz l) ∧
    (∀ s, ForReach 1 (squareTask M.bs (diagonal M.bs.cols)) 0 M.bs.cols.length threads m s →
      ¬Race s ∧ ∀ l, Touches s l → InBounds M.numCols (PartitionedView.sqOffset M.bs.cols M.bs.cols.length) 0 l) ∧
    (∀ s, ForReach (2 ^ 16) dtdTask 0 M.numCols threads m s →
      ¬Race s ∧ ∀ l, Touches s l → InBounds M.numCols M.numCols M.numCols l) := by
  refine ⟨fun s hs => jacobi_race_free h m hs, fun s hs => square_race_free h m hs, fun s hs => ?_⟩
  have := PartitionedView.step_safe (dtd_step M.numCols m) hs
  simpa using this

end Ceres.Cgnr
