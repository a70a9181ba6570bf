import Verif.Direct.Algebra
import Verif.InnerProduct.Product
import Verif.BlockSparse.Delete

/-!
# C80: the sparse normal Cholesky solver
-/
namespace Ceres.Direct

open Ceres.BlockSparse Ceres.InnerProduct

theorem blockOf_mono {p : ℕ} {bs : List Block} (h : Laid p bs) {r r' : ℕ} (h0 : p ≤ r) (hr : r ≤ r') :
    blockOf bs r ≤ blockOf bs r' := by
  induction bs generalizing p with
  | nil => exact le_rfl
  | cons a bs ih =>
    unfold blockOf
    rw [List.findIdx_cons, List.findIdx_cons]
    have ha := h.1
    by_cases h1 : a.position ≤ r ∧ r < a.position + a.size
    · rw [decide_eq_true h1]; exact Nat.zero_le _
    · rw [decide_eq_false h1, decide_eq_false (by omega : ¬ (a.position ≤ r' ∧ r' < a.position + a.size))]
      have := ih h.2 (by omega)
      unfold blockOf at this
      simpa using this

/-- What the computed triangle stands for. -/
theorem product_sym {M : BMat ℝ} (h : M.Ok) {upper : Bool} {R : Sparse.Mat ℝ}
    (hR : IsProduct M 0 M.bs.rows.length upper R) : Input upper R ∧
    ∀ i < M.numCols, ∀ j < M.numCols, R.sym i j = ∑ k ∈ Finset.range M.numRows, M.entry k i * M.entry k j := by
  have hrows : Finset.Ico (rowStart M.bs.rows 0) (rowStart M.bs.rows M.bs.rows.length) = Finset.range M.numRows := by
    unfold rowStart
    rw [List.take_length, h.numRows]
    simp
  refine ⟨⟨hR.wf, by rw [hR.numRows, hR.numCols], hR.storage, ?_⟩, ?_⟩
  · intro r hr
    have := hR.increasing r (by rw [← hR.numRows]; exact hr)
    rw [List.pairwise_map] at this
    exact this.imp fun h => le_of_lt h
  · intro i hi j hj
    unfold Sparse.Mat.sym
    rw [hR.storage]
    have hm : ∀ {r c : ℕ}, r ≤ c → blockOf M.bs.cols r ≤ blockOf M.bs.cols c :=
      fun hrc => blockOf_mono h.bs.cols (Nat.zero_le _) hrc
    cases upper with
    | true =>
      simp only [if_true]
      split_ifs with hij
      · rw [hR.entry i hi j hj, if_pos (by unfold InTriangle; rw [if_pos rfl]; exact hm hij), hrows]
      · rw [hR.entry j hj i hi, if_pos (by unfold InTriangle; rw [if_pos rfl]; exact hm (by omega)), hrows]
        exact Finset.sum_congr rfl fun k _ => mul_comm _ _
    | false =>
      simp only [Bool.false_eq_true, if_false]
      split_ifs with hij
      · rw [hR.entry i hi j hj, if_pos (by unfold InTriangle; simpa using hm hij), hrows]
      · rw [hR.entry j hj i hi, if_pos (by unfold InTriangle; simpa using hm (by omega)), hrows]
        exact Finset.sum_congr rfl fun k _ => mul_comm _ _

/-- Two matrices are the same, as far as one can see. -/
structure Same (A B : BMat ℝ) : Prop where
  bs : A.bs = B.bs
  tbs : A.tbs = B.tbs
  numRows : A.numRows = B.numRows
  numCols : A.numCols = B.numCols
  nnz : A.nnz = B.nnz
  values : ∀ p < B.nnz, A.values p = B.values p

theorem diagRows_length (p i : ℕ) (bs : List Block) : (diagRows p i bs).length = bs.length := by
  induction bs generalizing p i with
  | nil => rfl
  | cons b bs ih => simp [diagRows, ih]

theorem newRows_ids (cols : List Block) (p z : ℕ) (rows : List BRow) :
    (newRows cols p z rows).map (fun r => r.cells.map Cell.blockId) =
      rows.map fun r => r.cells.map Cell.blockId := by
  induction rows generalizing p z with
  | nil => rfl
  | cons r rs ih =>
    rw [newRows, List.map_cons, List.map_cons, ih]
    congr 1
    generalize r.block.size = n
    induction r.cells generalizing z with
    | nil => rfl
    | cons c cs ihc => simp only [newCells, List.map_cons, ihc]

theorem diagRows_ids (p i : ℕ) (bs : List Block) : ∀ r ∈ diagRows p i bs, ∃ c, r.cells = [c] := by
  induction bs generalizing p i with
  | nil => intro r hr; cases hr
  | cons b bs ih =>
    intro r hr
    rcases List.mem_cons.1 hr with rfl | hr
    · exact ⟨_, rfl⟩
    · exact ih _ _ r hr

/-- Everything about the augmented matrix. -/
theorem augment_spec {A : BMat ℝ} (h : A.Ok) (hs : CellsSorted A.bs) (D : Option Vec) :
    ∃ A1, augment A D = some A1 ∧ A1.Ok ∧ CellsSorted A1.bs ∧ A1.numCols = A.numCols ∧ A.nnz ≤ A1.nnz ∧
      A1.numRows = A.numRows + (if D.isSome then A.numCols else 0) ∧
      (∀ k < A1.numRows, ∀ j < A.numCols, A1.entry k j =
        if k < A.numRows then A.entry k j else diagAt D (k - A.numRows) j) ∧
      Same (restore D A1) A := by
  cases D with
  | none =>
    refine ⟨A, rfl, h, hs, rfl, le_rfl, by simp, ?_, rfl, rfl, rfl, rfl, rfl, fun _ _ => rfl⟩
    intro k hk j _
    rw [if_pos hk]
  | some d =>
    obtain ⟨hm, hseq, hc⟩ := diagonal_ok h.bs.cols d
    have hR := appendRows_eq h hm hc
    have hnr : (diagonalMatrix d A.bs.cols).numRows = A.numCols := by
      rw [hm.numRows, h.numCols]
      have : (diagonalMatrix d A.bs.cols).bs.rows = diagRows 0 0 A.bs.cols := rfl
      rw [this]
      have h2 : ∀ p i, ∀ bs : List Block, (diagRows p i bs).map (fun r => r.block.size) = bs.map Block.size := by
        intro p i bs
        induction bs generalizing p i with
        | nil => rfl
        | cons b bs ih => simp [diagRows, ih]
      rw [h2]
    have hlen : (diagonalMatrix d A.bs.cols).bs.rows.length = A.bs.cols.length := diagRows_length _ _ _
    refine ⟨_, hR, append_ok h hm hc hR, ?_, rfl, ?_, ?_, ?_, ?_⟩
    · intro row hrow
      rcases List.mem_append.1 hrow with hrow | hrow
      · exact hs row hrow
      · have h3 : row.cells.map Cell.blockId ∈ (newRows A.bs.cols A.numRows A.nnz
            (diagonalMatrix d A.bs.cols).bs.rows).map (fun r => r.cells.map Cell.blockId) :=
          List.mem_map_of_mem (f := fun r => r.cells.map Cell.blockId) hrow
        rw [newRows_ids] at h3
        obtain ⟨r, hr, he⟩ := List.mem_map.1 h3
        obtain ⟨c, hc⟩ := diagRows_ids _ _ _ r hr
        rw [← he, hc]
        simp
    · show A.nnz ≤ A.nnz + _
      omega
    · show A.numRows + (diagonalMatrix d A.bs.cols).numRows = _
      rw [hnr]; rfl
    · intro k _ j hj
      rw [append_entry h hm hc hseq hR]
      split_ifs with hk
      · rfl
      · rw [diagonal_entry h.bs.cols]
        unfold diagAt
        simp only
        by_cases hkj : k - A.numRows = j
        · rw [if_pos ⟨hkj, by rw [hkj, ← h.numCols]; exact hj⟩, if_pos hkj, hkj]
        · rw [if_neg fun h => hkj h.1, if_neg hkj]
    · have := append_delete h hm hc hR
      rw [hlen] at this
      exact ⟨this.1, this.2.1, this.2.2.1, this.2.2.2.1, this.2.2.2.2.1, this.2.2.2.2.2⟩

/-- The structure of the augmented matrix depends on the structure only. -/
theorem augment_bs {A B A1 B1 : BMat ℝ} (hA : A.Ok) (hB : B.Ok) (hbs : A.bs = B.bs) {D D' : Option Vec}
    (hD : D.isSome = D'.isSome) (h1 : augment A D = some A1) (h2 : augment B D' = some B1) :
    A1.bs = B1.bs ∧ A1.numCols = B1.numCols := by
  have hr : A.numRows = B.numRows := by rw [hA.numRows, hB.numRows, hbs]
  have hcl : A.numCols = B.numCols := by rw [hA.numCols, hB.numCols, hbs]
  have hn : A.nnz = B.nnz := by
    have e1 := hA.bs.slots.length_eq
    have e2 := hB.bs.slots.length_eq
    rw [List.length_range] at e1 e2
    rw [← e1, ← e2, hbs]
  cases D with
  | none =>
    cases D' with
    | some d => cases hD
    | none =>
      cases h1; cases h2
      exact ⟨hbs, hcl⟩
  | some d =>
    cases D' with
    | none => cases hD
    | some d' =>
      obtain ⟨m1, -, c1⟩ := diagonal_ok hA.bs.cols d
      obtain ⟨m2, -, c2⟩ := diagonal_ok hB.bs.cols d'
      unfold augment at h1 h2
      simp only at h1 h2
      rw [appendRows_eq hA m1 c1] at h1
      rw [appendRows_eq hB m2 c2] at h2
      cases h1; cases h2
      refine ⟨?_, hcl⟩
      simp only [BS.mk.injEq]
      have e : (diagonalMatrix d A.bs.cols).bs.rows = (diagonalMatrix d' B.bs.cols).bs.rows := by
        show diagRows 0 0 A.bs.cols = diagRows 0 0 B.bs.cols
        rw [hbs]
      rw [e, hbs, hr, hn]
      exact ⟨rfl, rfl⟩

theorem compute_keeps {C C' : Computer ℝ} {M : BMat ℝ} (h : C.compute M = some C') :
    C'.result.numRows = C.result.numRows ∧ C'.result.numCols = C.result.numCols ∧
      C'.result.rows = C.result.rows ∧ C'.result.cols = C.result.cols := by
  unfold Computer.compute at h
  simp only at h
  split_ifs at h
  cases h
  exact ⟨rfl, rfl, rfl, rfl⟩

/-- What the calls of a history have in common: the block structure, and whether there is a diagonal. -/
structure Fits (bs : BS) (regularised : Bool) (call : Call) : Prop where
  ok : call.A.Ok
  structure_ : call.A.bs = bs
  sorted : CellsSorted bs
  nonempty : 0 < call.A.nnz
  diagonal : call.D.isSome = regularised

/-- What is kept between calls. -/
def Inv (c : SparseChol) (bs : BS) (p : Bool) (S : Solver c) : Prop :=
  (S.computer = none ∧ S.chol = c.init) ∨
  ∃ C P A D A1, S.computer = some C ∧ Reach c P S.chol ∧ SamePattern P C.result ∧ A.Ok ∧ A.bs = bs ∧
    D.isSome = p ∧ augment A D = some A1 ∧ Planned A1 0 A1.bs.rows.length c.upper C

/-- What a call returns. -/
structure Good (c : SparseChol) (call : Call) (r : Result c) : Prop where
  same : Same r.A call.A
  solves : r.success = true → Minimises call.A.numRows call.A.numCols call.A.entry call.b call.D r.x
  unique : Regular call.A.numRows call.A.numCols call.A.entry call.D → r.success = true

theorem solve_good {c : SparseChol} (hc : c.Correct) {bs : BS} {p : Bool} {S : Solver c} (hI : Inv c bs p S)
    {call : Call} (hf : Fits bs p call) {threads : ℕ} (ht : 0 < threads) (o : Option (Result c))
    (ho : Solve S call threads o) : ∃ r, o = some r ∧ Good c call r ∧ Inv c bs p r.solver := by
  obtain ⟨m, hm, hrest⟩ := ho
  rw [left_product hf.ok ht] at hm
  subst hm
  obtain ⟨oldCols, oldValues, rfl⟩ := hrest
  obtain ⟨A1, hA1, hok1, hs1, hcols1, hnnz1, hrows1, hent1, hsame⟩ :=
    augment_spec hf.ok (hf.structure_ ▸ hf.sorted) call.D
  -- the computer
  have hcomp : ∃ C P B D B1, S.theComputer A1 oldCols oldValues = some C ∧ Reach c P S.chol ∧
      SamePattern P C.result ∧ B.Ok ∧ B.bs = bs ∧ D.isSome = p ∧ augment B D = some B1 ∧
      Planned B1 0 B1.bs.rows.length c.upper C := by
    rcases hI with ⟨h1, h2⟩ | ⟨C, P, A, D, B1, h1, h2, h3, h4, h5, h6, h7, h8⟩
    · obtain ⟨C, hC, hP⟩ := create_planned hok1 (lt_of_lt_of_le hf.nonempty hnnz1) 0 A1.bs.rows.length c.upper
        oldCols oldValues
      refine ⟨C, C.result, call.A, call.D, A1, ?_, ?_, ⟨rfl, rfl, fun _ _ => rfl, fun _ _ => rfl⟩, hf.ok,
        hf.structure_, hf.diagonal, hA1, hP⟩
      · unfold Solver.theComputer
        rw [h1]; exact hC
      · rw [h2]; exact .init
    · exact ⟨C, P, A, D, B1, by unfold Solver.theComputer; rw [h1], h2, h3, h4, h5, h6, h7, h8⟩
  obtain ⟨C, P, B, D, B1, hC, hreach, hpat, hBok, hBbs, hD, hB1, hplan⟩ := hcomp
  obtain ⟨B1', hB1', hokB1, hsB1, -⟩ := augment_spec hBok (hBbs ▸ hf.sorted) D
  rw [hB1] at hB1'
  cases hB1'
  obtain ⟨hbs1, hncols1⟩ := augment_bs hf.ok hBok (hf.structure_.trans hBbs.symm)
    (hf.diagonal.trans hD.symm) hA1 hB1
  obtain ⟨C', hC', hplan', hprod⟩ := compute_planned hokB1 hsB1 (Nat.zero_le _) le_rfl hplan hbs1 hncols1
  have hprod1 : IsProduct A1 0 A1.bs.rows.length c.upper C'.result := by
    have e : B1.bs.rows.length = A1.bs.rows.length := by rw [hbs1]
    rw [← e]; exact hprod
  obtain ⟨hin, hsym⟩ := product_sym hok1 hprod1
  obtain ⟨k1, k2, k3, k4⟩ := compute_keeps hC'
  have hpat' : SamePattern P C'.result := by
    obtain ⟨p1, p2, p3, p4⟩ := hpat
    exact ⟨p1.trans k1.symm, p2.trans k2.symm, by rw [k3]; exact p3, by rw [k4]; exact p4⟩
  have hncol : C'.result.numCols = call.A.numCols := by rw [hprod1.numCols, hcols1]
  have hnormal : ∀ i < call.A.numCols, ∀ j < call.A.numCols,
      C'.result.sym i j = normalMat call.A.numRows call.A.entry call.D i j := by
    intro i hi j hj
    rw [hsym i (hcols1 ▸ hi) j (hcols1 ▸ hj)]
    exact gram_append hrows1 hent1 hi hj
  set rhs : Vec := fun i => memOf call.A call.b
    (fun c => 0 + ∑ r ∈ Finset.range call.A.numRows, call.A.entry r c * call.b r) (.y i) with hrhs
  have hval : S.normalEquations call.A call.D oldCols oldValues rhs = some
      ⟨⟨some C', (c.factorAndSolve S.chol C'.result rhs fun _ => 0).2.2⟩, restore call.D A1,
        (c.factorAndSolve S.chol C'.result rhs fun _ => 0).1,
        (c.factorAndSolve S.chol C'.result rhs fun _ => 0).2.1⟩ := by
    unfold Solver.normalEquations
    simp only [Option.bind_eq_bind]
    rw [hA1, Option.bind_some, hC, Option.bind_some, hC', Option.bind_some]
  refine ⟨_, hval, ⟨hsame, ?_, ?_⟩, Or.inr ⟨C', P, B, D, B1, rfl, ?_, hpat', hBok, hBbs, hD, hB1, hplan'⟩⟩
  · intro hsucc
    simp only at hsucc ⊢
    unfold SparseChol.factorAndSolve at hsucc ⊢
    simp only at hsucc ⊢
    by_cases hfac : (c.factorize S.chol C'.result).1 = true
    · rw [if_pos hfac]
      have hsol := (hc.solves P S.chol C'.result rhs hreach hin hpat' hfac).2
      refine minimises_of_normal fun i hi => ?_
      have := hsol i (hncol ▸ hi)
      rw [hncol] at this
      have hr : rhs i = ∑ k ∈ Finset.range call.A.numRows, call.A.entry k i * call.b k := by
        rw [hrhs]; simp [memOf]
      refine Eq.trans ?_ (this.trans hr)
      exact Finset.sum_congr rfl fun j hj => by rw [hnormal i hi j (Finset.mem_range.1 hj)]
    · rw [if_neg hfac] at hsucc
      cases hsucc
  · intro hreg
    have hpd : PosDef C'.result.numCols C'.result.sym := by
      rw [hncol]
      intro x hx
      have := posDef_normal hreg x hx
      refine lt_of_lt_of_eq this ?_
      exact Finset.sum_congr rfl fun i hi => Finset.sum_congr rfl fun j hj => by
        rw [hnormal i (Finset.mem_range.1 hi) j (Finset.mem_range.1 hj)]
    have hfac := hc.complete P S.chol C'.result hreach hin hpat' hpd
    simp only
    unfold SparseChol.factorAndSolve
    simp only
    rw [if_pos hfac]
    exact (hc.solves P S.chol C'.result rhs hreach hin hpat' hfac).1
  · show Reach c P (c.factorAndSolve S.chol C'.result rhs fun _ => 0).2.2
    have : (c.factorAndSolve S.chol C'.result rhs fun _ => 0).2.2 = (c.factorize S.chol C'.result).2 := by
      unfold SparseChol.factorAndSolve
      simp only
      split_ifs <;> rfl
    rw [this]
    exact .factorize _ hreach hin hpat'

/-- **SPARSE_NORMAL_CHOLESKY**: after any history of calls with the same block structure, all with or all without
a diagonal, on any number of threads, a call returns; it gives the Jacobian back as it was; success means that `x`
minimises `‖A x - b‖² + ‖D x‖²`; and if the minimiser is unique the call succeeds. -/
theorem sparse_normal_cholesky {c : SparseChol} (hc : c.Correct) {bs : BS} {regularised : Bool} {threads : ℕ}
    (ht : 0 < threads) {calls : List Call} (hcalls : ∀ call ∈ calls, Fits bs regularised call)
    {S : Solver c} (hS : After c threads calls S) {call : Call} (hcall : Fits bs regularised call) :
    (∃ o, Solve S call threads o) ∧ ∀ o, Solve S call threads o → ∃ r, o = some r ∧ Good c call r := by
  have hI : Inv c bs regularised S := by
    induction hS with
    | nil => exact Or.inl ⟨rfl, rfl⟩
    | snoc call r hprev hsolve ih =>
      obtain ⟨r', hr', -, hI'⟩ := solve_good hc
        (ih fun call h => hcalls call (List.mem_append_left _ h)) (hcalls call (by simp)) ht _ hsolve
      cases hr'
      exact hI'
  refine ⟨⟨_, some _, (left_product hcall.ok ht _ _ _).2 rfl, fun _ => 0, fun _ => 0, rfl⟩, fun o ho => ?_⟩
  obtain ⟨r, h1, h2, -⟩ := solve_good hc hI hcall ht o ho
  exact ⟨r, h1, h2⟩

/-- Such a history is possible. -/
theorem after_exists {c : SparseChol} (hc : c.Correct) {bs : BS} {regularised : Bool} {threads : ℕ}
    (ht : 0 < threads) (calls : List Call) (hcalls : ∀ call ∈ calls, Fits bs regularised call) :
    ∃ S, After c threads calls S := by
  induction calls using List.reverseRecOn with
  | nil => exact ⟨_, .nil⟩
  | append_singleton calls call ih =>
    obtain ⟨S, hS⟩ := ih fun call h => hcalls call (List.mem_append_left _ h)
    obtain ⟨⟨o, ho⟩, hall⟩ := sparse_normal_cholesky hc ht (fun call h => hcalls call (List.mem_append_left _ h)) hS
      (hcalls call (by simp))
    obtain ⟨r, rfl, -⟩ := hall o ho
    exact ⟨_, .snoc call r hS ho⟩

/-! ## Refinement -/

theorem refineSparse_eq {lhs : Sparse.Mat ℝ} {rhs : Vec} {solve : Vec → Bool × Vec} {n : ℕ} {H : Buf}
    (hmul : ∀ x : Vec, ∀ i < n, lhs.rightMul x (fun _ => 0) i = ∑ j ∈ Finset.range n, H i j * x j)
    (hsolve : ∀ r, Eqs n H (solve r).2 r) (k : ℕ) (x : Vec) (hx : Eqs n H x rhs) :
    Eqs n H (refineSparse lhs rhs solve k x) rhs := by
  induction k generalizing x with
  | zero => exact hx
  | succ k ih =>
    refine ih _ fun i hi => ?_
    simp only [mul_add, Finset.sum_add_distrib]
    rw [hx i hi, hsolve _ i hi, hmul x i hi, hx i hi]
    ring

theorem reach_refined {c : SparseChol} {k : ℕ} {P : Sparse.Mat ℝ} {s : (c.refined k).State}
    (h : Reach (c.refined k) P s) : Reach c P s.1 := by
  induction h with
  | init => exact .init
  | factorize A _ h1 h2 ih => exact .factorize A ih h1 h2

/-- **Iterative refinement** of a sparse factorisation keeps the contract. -/
theorem refined_correct {c : SparseChol} (hc : c.Correct) (k : ℕ) : (c.refined k).Correct := by
  refine ⟨fun P s A rhs hs hA hP hf => ?_, fun P s A hs hA hP hpd => hc.complete P s.1 A (reach_refined hs) hA hP hpd⟩
  have h1 := fun r => hc.solves P s.1 A r (reach_refined hs) hA hP hf
  have e : (c.refined k).solve ((c.refined k).factorize s A).2 rhs =
      (true, refineSparse A rhs (c.solve (c.factorize s.1 A).2) k (c.solve (c.factorize s.1 A).2 rhs).2) := by
    show (if (c.solve (c.factorize s.1 A).2 rhs).1 then _ else _) = _
    rw [if_pos (h1 rhs).1]
    rfl
  rw [e]
  refine ⟨rfl, refineSparse_eq ?_ (fun r => (h1 r).2) k _ (h1 rhs).2⟩
  intro x i hi
  have hst : A.storage ≠ .unsymmetric := by
    rw [hA.storage]
    split_ifs <;> simp
  rw [Sparse.rightMul_symmetric hA.wf hst hA.square.symm hA.sorted x _ (hA.square ▸ hi), zero_add]

end Ceres.Direct
