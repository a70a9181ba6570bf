import Verif.CudaCgnr.Device

/-!
# C93: CGNR on the GPU
-/

noncomputable section

namespace Ceres.CudaCgnr

open Matrix Ceres.Tasks Ceres.BlockSparse Ceres.Direct Ceres.InnerProduct
open Ceres.CG (SPD)
open Ceres.PartitionedView (LltOk sqOffset offset laid_position)
open Ceres.SchurJacobi (diagonal front extend corner front_extend corner_mulVec corner_spd)
open Ceres.Cgnr (eqs_of_mulVec extend_zero lsq_quadratic normal_symm)

variable {llt : (n : ℕ) → Matrix (Fin n) (Fin n) ℝ → Matrix (Fin n) (Fin n) ℝ} {p : Prec} {threads : ℕ}
  {rows colIdx : ℕ → ℕ} {cols : List Block} {S : List (Block × List ℕ)}

/-! ## What is kept -/

/-- The preconditioner has its matrix, of the right structure, if it needs one. -/
def HasPrec (p : Prec) (cols : List Block) (k : Kept) : Prop :=
  match p with
  | .identity => k.m = none
  | .jacobi => ∃ cpu dev, k.m = some (cpu, dev) ∧ Blocks cols cpu ∧ Blocks cols dev

/-- What is kept between calls. -/
structure Inv (p : Prec) (rows colIdx : ℕ → ℕ) (cols : List Block) (S : List (Block × List ℕ)) (k : Kept) : Prop where
  prec : HasPrec p cols k
  numRows : k.A.numRows = ((S.map Prod.fst).map Block.size).sum
  numCols : k.A.numCols = (cols.map Block.size).sum
  storage : k.A.storage = .unsymmetric
  rows : ∀ r ≤ k.A.numRows, k.A.rows r = rows r
  cols : ∀ i < k.A.nnz, k.A.cols i = colIdx i

theorem inv_of_same {call : Call} (hf : Fits rows colIdx cols S call) {k : Kept} (h : SameMat k.A call.A.mat)
    (hp : HasPrec p cols k) : Inv p rows colIdx cols S k where
  numRows := by rw [h.numRows, hf.jacobian.numRows]
  numCols := by rw [h.numCols, hf.jacobian.numCols]
  storage := by rw [h.storage, hf.jacobian.storage]
  rows := fun r hr => by
    rw [h.numRows] at hr
    rw [h.rows r hr, hf.rows r hr]
  cols := fun i hi => by
    rw [same_nnz h] at hi
    rw [h.cols i hi, hf.cols i hi]
  prec := hp

/-- After the transfer the device has the Jacobian of the call. -/
theorem transfer_spec {K : Option Kept} (hI : ∀ k, K = some k → Inv p rows colIdx cols S k) {call : Call}
    (hf : Fits rows colIdx cols S call) :
    (∃ t, transfer p K call t) ∧ ∀ t, transfer p K call t →
      ∃ k, t = some k ∧ SameMat k.A call.A.mat ∧ HasPrec p cols k := by
  have hrefl : SameMat call.A.mat call.A.mat := ⟨rfl, rfl, rfl, fun _ _ => rfl, fun _ _ => rfl, fun _ _ => rfl⟩
  cases K with
  | none =>
    refine ⟨⟨_, _, ⟨fun _ => 0, fun _ => 0, fun _ => 0, rfl⟩, rfl⟩, ?_⟩
    rintro t ⟨s, ⟨oldRows, oldCols, oldValues, rfl⟩, rfl⟩
    rw [if_pos hf.diagonal]
    cases p with
    | identity => exact ⟨_, rfl, hrefl, rfl⟩
    | jacobi =>
      obtain ⟨m, h1, h2⟩ := construct_spec hf.jacobian oldRows oldCols oldValues
      simp only
      rw [h1]
      exact ⟨_, rfl, hrefl, m, m, rfl, h2, h2⟩
  | some k =>
    have hk := hI k rfl
    refine ⟨⟨_, _, rfl, rfl⟩, ?_⟩
    rintro t ⟨s, rfl, rfl⟩
    rw [if_pos hf.diagonal]
    have hr : k.A.numRows = call.A.mat.numRows := by rw [hk.numRows, hf.jacobian.numRows]
    have hc : k.A.numCols = call.A.mat.numCols := by rw [hk.numCols, hf.jacobian.numCols]
    have hn : k.A.nnz = call.A.mat.nnz := by
      unfold Sparse.Mat.nnz
      rw [hk.rows _ le_rfl, hf.rows _ le_rfl, hr]
    unfold copyValues
    rw [if_pos ⟨hr, hc, hn⟩]
    refine ⟨_, rfl, ⟨hr, hc, hk.storage.trans hf.jacobian.storage.symm, fun r h => ?_, fun i h => ?_, fun i h => ?_⟩, ?_⟩
    · show k.A.rows r = _
      rw [hk.rows r (by omega), hf.rows r h]
    · show k.A.cols i = _
      rw [hk.cols i (by omega), hf.cols i h]
    · exact if_pos (by omega)
    · have := hk.prec
      unfold HasPrec at this ⊢
      cases p <;> exact this

/-! ## The update -/

theorem corner_jacobi (A : Crs) (d : Vec) (n : ℕ) : corner n (standsFor .jacobi A d) =
    CG.blockDiag (fun i : Fin n => blockOf A.colBlocks i) (corner n (normalMat A.mat.numRows A.mat.entry (some d))) := by
  ext i j
  unfold corner CG.blockDiag standsFor normalMat
  simp only [Matrix.of_apply]
  rfl

theorem standsFor_spd {A : Crs} {d : Vec} (hs : Regular A.mat.numRows A.mat.numCols A.mat.entry (some d)) (p : Prec) :
    SPD (corner A.mat.numCols (standsFor p A d)) := by
  cases p with
  | identity =>
    have : corner A.mat.numCols (standsFor .identity A d) = 1 := by
      ext i j
      unfold corner standsFor
      simp only [Matrix.of_apply, Matrix.one_apply, Fin.ext_iff]
    rw [this]
    exact CG.one_spd
  | jacobi =>
    rw [corner_jacobi]
    exact CG.blockDiag_spd (corner_spd (fun p _ q _ => normal_symm _ _ _ p q) (posDef_normal hs)) _

/-- What an update leaves. -/
structure Updated (llt : (n : ℕ) → Matrix (Fin n) (Fin n) ℝ → Matrix (Fin n) (Fin n) ℝ) (p : Prec) (cols : List Block)
    (call : Call) (k : Kept) : Prop where
  same : SameMat k.A call.A.mat
  prec : HasPrec p cols k
  preconditions : LltOk llt → Regular call.A.mat.numRows call.A.mat.numCols call.A.mat.entry call.D → ∀ x y,
    Eqs call.A.mat.numCols (standsFor p call.A (call.D.getD 0)) (fun i => apply k x y i - y i) x

theorem updatePrec_spec (ht : 0 < threads) {call : Call} (hf : Fits rows colIdx cols S call) {k : Kept}
    (hk : SameMat k.A call.A.mat) (hp : HasPrec p cols k) :
    (∃ u, updatePrec llt threads call k u) ∧ ∀ u, updatePrec llt threads call k u →
      ∃ k', u = some k' ∧ Updated llt p cols call k' := by
  obtain ⟨d, hd⟩ := Option.isSome_iff_exists.1 hf.diagonal
  cases p with
  | identity =>
    have hp : k.m = none := hp
    have e : ∀ u, updatePrec llt threads call k u ↔ u = some k := fun u => by
      unfold updatePrec
      rw [hp]
    refine ⟨⟨_, (e _).2 rfl⟩, fun u hu => ⟨k, (e u).1 hu, hk, hp, fun _ _ x y i hi => ?_⟩⟩
    have : ∀ j ∈ Finset.range call.A.mat.numCols, standsFor .identity call.A (call.D.getD 0) i j *
        (apply k x y j - y j) = if i = j then x j else 0 := by
      intro j hj
      unfold apply standsFor
      rw [hp]
      simp only
      have hj' : j < k.A.numCols := by rw [hk.numCols]; exact Finset.mem_range.1 hj
      simp only [if_pos hj']
      split_ifs <;> ring
    refine (Finset.sum_congr rfl this).trans ?_
    rw [Finset.sum_ite_eq, if_pos (Finset.mem_range.2 hi)]
  | jacobi =>
    obtain ⟨cpu, dev, hm, hcpu, hdev⟩ := hp
    obtain ⟨w, w1, w2⟩ := update_spec hf.jacobian hcpu ht llt call.D
    have hcopy : copyValues dev { cpu with values := w } =
        some { dev with values := fun p => if p < dev.nnz then w p else dev.values p } :=
      if_pos ⟨hdev.numRows.trans hcpu.numRows.symm, hdev.numCols.trans hcpu.numCols.symm, hdev.nnz.trans hcpu.nnz.symm⟩
    have e : ∀ u, updatePrec llt threads call k u ↔ u = some { k with m := some ({ cpu with values := w },
        { dev with values := fun p => if p < dev.nnz then w p else dev.values p }) } := fun u => by
      unfold updatePrec
      rw [hm]
      simp only
      constructor
      · rintro ⟨v, hv, rfl⟩
        obtain rfl := (w1 v).1 hv
        rw [Option.bind_some, hcopy, Option.map_some]
      · rintro rfl
        exact ⟨_, (w1 _).2 rfl, by rw [Option.bind_some, hcopy, Option.map_some]⟩
    refine ⟨⟨_, (e _).2 rfl⟩, fun u hu => ⟨_, (e u).1 hu, hk, ⟨_, _, rfl, blocks_values hcpu, blocks_values hdev⟩,
      fun hl hs x y => ?_⟩⟩
    set dev' : Sparse.Mat ℝ := { dev with values := fun p => if p < dev.nnz then w p else dev.values p } with hdev'
    have hB : Blocks cols dev' := blocks_values hdev
    have hJ := hf.jacobian
    have hJ' := blocks_jacobian hJ.colsLaid hJ.colsPos hB
    rw [hd] at hs ⊢
    have hspd := standsFor_spd hs .jacobi
    set n := call.A.mat.numCols with hn
    have hno : offset cols cols.length = n := by
      rw [hn, hJ.numCols]
      simp [offset]
    have hoff : ∀ {id b}, cols[id]? = some b → b.position = offset cols id := fun hb => by
      have := laid_position hJ.colsLaid hb
      rw [Nat.zero_add] at this
      exact this
    have hN := corner_spd (n := n) (fun p _ q _ => normal_symm _ _ _ p q) (posDef_normal hs)
    -- the blocks that are inverted
    let v : Vec := fun q => normalMat call.A.mat.numRows call.A.mat.entry call.D
      ((blk cols (PartitionedView.ownCell cols q)).position +
        (q - sqOffset cols (PartitionedView.ownCell cols q)) / (blk cols (PartitionedView.ownCell cols q)).size)
      ((blk cols (PartitionedView.ownCell cols q)).position +
        (q - sqOffset cols (PartitionedView.ownCell cols q)) % (blk cols (PartitionedView.ownCell cols q)).size)
    have hv : ∀ k blk (_ : cols[k]? = some blk) (i j : Fin blk.size), v (sqOffset cols k + i * blk.size + j) =
        normalMat call.A.mat.numRows call.A.mat.entry call.D (blk.position + i) (blk.position + j) := by
      intro k blk hb i j
      simp only [v]
      have hpos : 0 < blk.size := by have := i.2; omega
      rw [PartitionedView.ownCell_eq hb i.2 j.2, blk_eq hb,
        show sqOffset cols k + ↑i * blk.size + ↑j - sqOffset cols k = ↑j + blk.size * ↑i by rw [Nat.mul_comm]; omega,
        Nat.add_mul_div_left _ _ hpos, Nat.div_eq_of_lt j.2, Nat.zero_add, Nat.add_mul_mod_self_left, Nat.mod_eq_of_lt j.2]
    have hG : ∀ i j : Fin n, dev'.entry i j = (corner n (standsFor .jacobi call.A d))⁻¹ i j := by
      intro i j
      rw [blocks_diagonal hJ.colsLaid hJ.colsPos hB (by rw [← hJ.numCols]; exact i.2) (by rw [← hJ.numCols]; exact j.2),
        corner_jacobi, hJ.colBlocks]
      refine SchurJacobi.inverse_entry hl hJ.colsLaid hno hN (v := v) ?_ ?_ i j
      · intro k blk hb i j p q hp hq
        rw [hv k blk hb i j, hd, hoff hb, ← hp, ← hq]
        rfl
      · intro k blk hb i j
        show (if _ then _ else _) = _
        rw [if_pos (by rw [hdev.nnz]; exact slot_bound hb i.2 j.2), w2 k blk hb i j]
        congr 1
        ext i j
        rw [Matrix.of_apply, Matrix.of_apply, hv k blk hb i j]
    refine eqs_of_mulVec ?_
    have hfr : front n (fun i => dev'.rightMul x y i - y i) = (corner n (standsFor .jacobi call.A d))⁻¹ *ᵥ front n x := by
      funext i
      show dev'.rightMul x y i - y i = _
      rw [Sparse.rightMul_unsymmetric hJ'.wf hB.storage, if_pos (by rw [hB.numRows, ← hJ.numCols]; exact i.2),
        show dev'.numCols = n by rw [hB.numCols, ← hJ.numCols]]
      rw [add_sub_cancel_left, Finset.sum_range]
      exact Finset.sum_congr rfl fun j _ => by rw [hG]; rfl
    show corner n (standsFor .jacobi call.A d) *ᵥ front n (fun i => dev'.rightMul x y i - y i) = _
    rw [hfr, mulVec_mulVec, Matrix.mul_nonsing_inv _ hspd.isUnit_det, one_mulVec]

/-! ## The solver -/

theorem solve_good (ht : 0 < threads) (o : CG.Options) {K : Option Kept}
    (hI : ∀ k, K = some k → Inv p rows colIdx cols S k) {call : Call} (hf : Fits rows colIdx cols S call) :
    (∃ out, Solve llt o p threads K call out) ∧ ∀ out, Solve llt o p threads K call out →
      ∃ r, out = some r ∧ Good llt o p call r ∧ Inv p rows colIdx cols S r.kept := by
  obtain ⟨⟨t, ht1⟩, htall⟩ := transfer_spec hI hf
  obtain ⟨d, hd⟩ := Option.isSome_iff_exists.1 hf.diagonal
  refine ⟨?_, ?_⟩
  · obtain ⟨k, rfl, hk, hp⟩ := htall t ht1
    obtain ⟨⟨u, hu⟩, -⟩ := updatePrec_spec (llt := llt) ht hf hk hp
    exact ⟨_, _, ht1, u, hu, rfl⟩
  · rintro out ⟨t, ht1, h⟩
    obtain ⟨k, rfl, hk, hp⟩ := htall t ht1
    obtain ⟨u, hu, rfl⟩ := h
    obtain ⟨k', rfl, hU⟩ := (updatePrec_spec (llt := llt) ht hf hk hp).2 u hu
    rw [Option.map_some]
    have hwf := same_wf hU.same hf.jacobian.wf
    have hst := hU.same.storage.trans hf.jacobian.storage
    have hn := hU.same.numCols
    refine ⟨_, rfl, ?_, inv_of_same hf hU.same hU.prec⟩
    set m := call.A.mat.numRows with hm
    set E := call.A.mat.entry with hE
    set n := k'.A.numCols with hn'
    have hentry : ∀ r < m, ∀ c, k'.A.entry r c = E r c := fun r hr c => same_entry hU.same hf.jacobian.wf hr c
    set N := normalMat m E call.D with hN
    set b : CG.Vec n := front n (k'.A.leftMul call.b fun _ => 0) with hb
    set lhs : CG.Op n := fun x y => front n (normalMultiply k'.A (call.D.getD 0) (extend x) (extend y)) with hlhs
    set prec : CG.Op n := fun x y => front n (apply k' (extend x) (extend y)) with hprec
    have hleft : ∀ (x y : Vec) (i : Fin n), k'.A.leftMul x y i = y i + ∑ r ∈ Finset.range m, E r i * x r := by
      intro x y i
      rw [Sparse.leftMul_unsymmetric hwf hst _ _ i.2, hU.same.numRows]
      congr 1
      exact Finset.sum_congr rfl fun r hr => by rw [hentry r (Finset.mem_range.1 hr)]
    have hb' : b = front n fun i => ∑ r ∈ Finset.range m, E r i * call.b r := by
      funext i
      show k'.A.leftMul call.b _ i = _
      rw [hleft, zero_add]
      rfl
    have happ : CG.Applies lhs (corner n N) := by
      intro x
      funext i
      show normalMultiply k'.A (call.D.getD 0) (extend x) (extend 0) i = _
      rw [← front_extend x, corner_mulVec, front_extend]
      unfold normalMultiply
      rw [if_pos i.2, hleft, extend_zero]
      have hz : ∀ r ∈ Finset.range m, k'.A.rightMul (extend x) (fun _ => 0) r =
          ∑ c ∈ Finset.range n, E r c * extend x c := by
        intro r hr
        have hr := Finset.mem_range.1 hr
        rw [Sparse.rightMul_unsymmetric hwf hst, if_pos (by rw [hU.same.numRows]; exact hr), zero_add]
        exact Finset.sum_congr rfl fun c _ => by rw [hentry r hr]
      rw [Finset.sum_congr rfl fun r hr => by rw [hz r hr]]
      rw [hN, hd]
      unfold normalMat
      simp only [add_mul, Finset.sum_add_distrib, ite_mul, zero_mul, Finset.sum_ite_eq, Finset.mem_range, i.2, if_true,
        Finset.sum_mul, Finset.mul_sum]
      rw [Finset.sum_comm]
      have : dsq (some d) i = d i * d i := by simp [dsq, sq]
      rw [this]
      show 0 + _ + d i * d i * _ = _
      rw [zero_add]
      congr 1
      exact Finset.sum_congr rfl fun k _ => Finset.sum_congr rfl fun j _ => by ring
    have hsymm : (corner n N).IsSymm := by
      ext i j
      exact normal_symm _ _ _ _ _
    have hq : ∀ x : CG.Vec n, lsq m n E call.b call.D (extend x) = CG.qf (corner n N) b x +
        ∑ k ∈ Finset.range m, call.b k ^ 2 := fun x => by rw [lsq_quadratic, hb']
    have h0 : lsq m n E call.b call.D 0 = CG.qf (corner n N) b 0 + ∑ k ∈ Finset.range m, call.b k ^ 2 := by
      rw [← hq, extend_zero]
    have hle : lsq m n E call.b call.D (extend (CG.solver o lhs prec b 0).x) ≤ lsq m n E call.b call.D 0 ∧
        ((∃ j < n, extend (CG.solver o lhs prec b 0).x j ≠ 0) →
        lsq m n E call.b call.D (extend (CG.solver o lhs prec b 0).x) < lsq m n E call.b call.D 0) := by
      by_cases hz : b = 0
      · have : (CG.solver o lhs prec b 0).x = 0 := by
          unfold CG.solver
          simp [hz, CG.norm2]
        rw [this, extend_zero]
        exact ⟨le_rfl, fun ⟨j, _, hj⟩ => (hj rfl).elim⟩
      · obtain ⟨c1, c2, -⟩ := CG.cg_never_worse o (prec := prec) happ hsymm b 0 hz
        rw [hq, h0]
        refine ⟨by linarith, fun ⟨j, _, hj⟩ => ?_⟩
        have := c2 fun h => hj (by rw [h, extend_zero]; rfl)
        linarith
    refine ⟨?_, ?_, ?_, hU.preconditions⟩
    · rw [← hn]
      exact hle.1
    · rw [← hn]
      exact hle.2
    · intro hl hs ho
      have hpc := hU.preconditions hl hs
      have hP := standsFor_spd (d := d) (by rw [← hd]; exact hs) p
      rw [← hn] at hs ho hpc hP ⊢
      rw [hd] at hpc
      have hspd : SPD (corner n N) := corner_spd (fun p _ q _ => normal_symm _ _ _ p q) (posDef_normal hs)
      have hpre : CG.Applies prec (corner n (standsFor p call.A d))⁻¹ := by
        intro x
        have h3 := hpc (extend x) (extend (0 : CG.Vec n))
        have h5 : corner n (standsFor p call.A d) *ᵥ prec x 0 = x := by
          funext i
          have h4 := h3 i i.2
          rw [extend_zero] at h4
          have : prec x 0 = front n fun i => apply k' (extend x) (0 : Vec) i - (0 : Vec) i := by
            funext i
            show apply k' (extend x) (extend 0) i = _
            rw [extend_zero]
            exact (sub_zero _).symm
          rw [this, corner_mulVec]
          refine h4.trans ?_
          exact congrFun (front_extend x) i
        have h6 : (corner n (standsFor p call.A d))⁻¹ *ᵥ x = prec x 0 := by
          conv_lhs => rw [← h5]
          rw [mulVec_mulVec, Matrix.nonsing_inv_mul _ hP.isUnit_det, one_mulVec]
        exact h6.symm
      obtain ⟨c1, -, -, c4⟩ := CG.cg_converges o happ hpre hspd hP.inv ho.q ho.r.ge ho.min ho.max b
      refine ⟨c1, minimises_of_normal (eqs_of_mulVec ?_)⟩
      rw [front_extend, ← hb']
      exact c4 ho.r

/-- What is kept after any calls. -/
theorem after_inv (ht : 0 < threads) {calls : List Call} (hcalls : ∀ call ∈ calls, Fits rows colIdx cols S call)
    {K : Option Kept} (hK : After llt p threads calls K) : ∀ k, K = some k → Inv p rows colIdx cols S k := by
  induction hK with
  | nil => exact fun _ h => nomatch h
  | snoc o call r _ hsolve ih =>
    obtain ⟨r', hr', -, hI'⟩ := (solve_good ht o (ih fun call h => hcalls call (List.mem_append_left _ h))
      (hcalls call (by simp))).2 _ hsolve
    cases hr'
    rintro k hk
    injection hk with hk
    exact hk ▸ hI'

/-- **CGNR on the GPU** with IDENTITY or JACOBI: after any history of calls with the same structure, on any number of
threads and for every schedule of the update of the preconditioner, a call returns; the step is not worse than none and
better if it is not zero, whatever the factorisations did; run to the end it is the minimiser for the Jacobian, the
residuals and the diagonal of this call; and what the preconditioner applies is the inverse of the block diagonal of
this call. -/
theorem cuda_cgnr_solves (ht : 0 < threads) (o : CG.Options) {calls : List Call}
    (hcalls : ∀ call ∈ calls, Fits rows colIdx cols S call) {K : Option Kept} (hK : After llt p threads calls K)
    {call : Call} (hcall : Fits rows colIdx cols S call) :
    (∃ out, Solve llt o p threads K call out) ∧
      ∀ out, Solve llt o p threads K call out → ∃ r, out = some r ∧ Good llt o p call r := by
  obtain ⟨h1, h2⟩ := solve_good ht o (after_inv ht hcalls hK) hcall
  refine ⟨h1, fun out h => ?_⟩
  obtain ⟨r, k1, k2, -⟩ := h2 out h
  exact ⟨r, k1, k2⟩

/-- Such a history is possible. -/
theorem after_exists (llt : (n : ℕ) → Matrix (Fin n) (Fin n) ℝ → Matrix (Fin n) (Fin n) ℝ) (p : Prec)
    (ht : 0 < threads) (o : CG.Options) (calls : List Call) (hcalls : ∀ call ∈ calls, Fits rows colIdx cols S call) :
    ∃ K, After llt p threads calls K := by
  induction calls using List.reverseRecOn with
  | nil => exact ⟨_, .nil⟩
  | append_singleton calls call ih =>
    have hprev := fun call h => hcalls call (List.mem_append_left _ h)
    obtain ⟨K, hK⟩ := ih hprev
    obtain ⟨⟨out, ho⟩, hall⟩ := cuda_cgnr_solves ht o hprev hK (hcalls call (by simp))
    obtain ⟨r, rfl, -⟩ := hall out ho
    exact ⟨_, .snoc o call r hK ho⟩

/-- **No data race, no access out of bounds** in the loops of the update. -/
theorem cuda_cgnr_race_free {A : Crs} {m : Sparse.Mat ℝ} (h : IsJacobian cols S A) (hm : Blocks cols m) (mem : Mem ℝ)
    (v : Vec) (D : Option Vec) :
    (∀ s, ForReach 1 (rowTask threads A m.rows) 0 A.rowBlocks.length threads mem s →
      ¬Race s ∧ ∀ l, Touches s l → InBounds 0 m.nnz A.mat.nnz l) ∧
    ∀ s, ForReach 1 (colTask llt cols m.rows D.isSome) 0 cols.length threads (PartitionedView.mem (D.getD 0) v v) s →
      ¬Race s ∧ ∀ l, Touches s l → InBounds (if D.isSome then A.mat.numCols else 0) m.nnz 0 l := by
  refine ⟨fun s hs => row_race_free h hm mem hs, fun s hs => ?_⟩
  rw [colTask_eq h.colsLaid hm] at hs
  have hl : (PartitionedView.layout ⟨cols, []⟩ 0 cols.length).rows.length = cols.length := by
    rw [PartitionedView.layout_length, SchurJacobi.blocks_self]
  have := PartitionedView.invert_safe (bs := ⟨cols, []⟩) (a := 0) (b := cols.length) llt v D (threads := threads) (s := s)
    (by rw [hl]; exact hs)
  rw [PartitionedView.layout_nnz, (PartitionedView.layout_numCols _ _ _ v).1, SchurJacobi.blocks_self] at this
  rw [hm.nnz, h.numCols, show (cols.map Block.size).sum = offset cols cols.length by simp [offset]]
  exact this

/-- `D` is read without a test: a call without a diagonal does not return. -/
theorem no_diagonal_crashes (o : CG.Options) (p : Prec) (K : Option Kept) {call : Call} (h : call.D = none)
    {out : Option Result} (hs : Solve llt o p threads K call out) : out = none := by
  obtain ⟨t, ⟨s, -, ht⟩, h'⟩ := hs
  rw [h] at ht
  have : t = none := ht
  subst this
  exact h'

end Ceres.CudaCgnr
