import Verif.Options.Props

/-! # Accepted options can be carried out -/

namespace Ceres.Options

theorem bind_abort {α β : Type} {c : Except Abort α} {f : α → Except Abort β} {r : β} :
    (c >>= f) = .ok r ↔ ∃ a, c = .ok a ∧ f a = .ok r := by
  cases c with
  | error e => simp [bind, Except.bind]
  | ok u => simp [bind, Except.bind]

/-- The solver's cast succeeds and nothing aborts. -/
def Carried (b : Build) (noE fBlocks : Bool) (o : Opts) : Prop :=
  ∃ m, build b noE fBlocks o = .ok (m, m)

theorem createStrategy_ok {b : Build} {o : Opts} (h : TrustRegionValid b o) :
    createStrategy o = .ok () ↔ o.minLmDiagonal ≠ .fin 0 := by
  unfold createStrategy
  have h1 : o.minLmDiagonal.le o.maxLmDiagonal = true := (Dbl.le_iff _ _).2 h.minMaxDiagonal
  have h2 : (Dbl.fin 0).lt o.maxRadius = true :=
    (Dbl.lt_iff _ _).2 ((h.minRadius.trans_le h.minInitial).trans_le h.initialMax)
  have h3 := h.minDiagonal
  rw [← Dbl.le_iff] at h3
  rw [h1, h2]
  cases hd : o.minLmDiagonal with
  | nan => rw [hd] at h3; simp [Dbl.le] at h3
  | ninf => rw [hd] at h3; simp [Dbl.le] at h3
  | pinf => simp [Dbl.lt]
  | fin q =>
    rw [hd] at h3
    simp only [Dbl.le, decide_eq_true_eq] at h3
    simp only [Dbl.lt, Bool.not_true, Bool.false_eq_true, if_false, ne_eq, Dbl.fin.injEq]
    by_cases hq : q = 0
    · simp [hq]
    · simp [hq, lt_of_le_of_ne h3 (Ne.symm hq)]

theorem build_ok {b : Build} {noE fBlocks : Bool} {o : Opts} {r : Matrix × Matrix} :
    build b noE fBlocks o = .ok r ↔
      reorderProgram b (if noE then alternate o else o) = .ok () ∧
      createStrategy (if noE then alternate o else o) = .ok () ∧
      ∃ m, createSolver b (isCudaRequired b o) fBlocks (if noE then alternate o else o) = .ok m ∧
        r = (m, jacobianMatrix (if noE then alternate o else o)) := by
  simp only [build, bind_abort]
  constructor
  · rintro ⟨_, h1, m, h2, _, h3, h4⟩
    cases h4
    exact ⟨h1, h3, m, h2, rfl⟩
  · rintro ⟨h1, h3, m, h2, rfl⟩
    exact ⟨(), h1, m, h2, (), h3, rfl⟩

theorem sparseCreate_ok {b : Build} {o : Opts} {mixed : Bool} {ord : InternalOrdering}
    {ctx : Bool} (hf : CanFactor b o.sparseLib)
    (hn : ord = .NESDIS → CanNesdis b o.sparseLib)
    (hm : mixed = true → o.sparseLib = .SUITE_SPARSE → b.cholmodFloat = true)
    (hc : o.sparseLib = .CUDA_SPARSE → ctx = true) :
    sparseCholeskyCreate b ctx o.sparseLib mixed ord = .ok () := by
  cases hl : o.sparseLib <;> rw [hl] at hf hn hm hc <;> cases ord <;> cases mixed <;>
    simp_all [sparseCholeskyCreate, CanFactor, CanNesdis]

theorem reorderSparse_ok {b : Build} {o : Opts} (hf : CanFactor b o.sparseLib)
    (hn : o.ordering = .NESDIS → CanNesdis b o.sparseLib) :
    reorderForSparseCholesky b o = .ok () := by
  cases hl : o.sparseLib <;> rw [hl] at hf hn <;> cases ho : o.ordering <;>
    simp_all [reorderForSparseCholesky, CanFactor, CanNesdis]

theorem ordering_nesdis {o : Opts} (h : solverOrdering o = .NESDIS) : o.ordering = .NESDIS := by
  unfold solverOrdering at h
  split at h
  · cases h
  · cases ho : o.ordering
    · rw [ho] at h; cases h
    · rfl

theorem noSparse_false {b : Build} {l : SparseLib} (h : CanFactor b l) : b.noSparse = false := by
  cases l <;> simp_all [CanFactor, Build.noSparse]

theorem denseCreate_ok {b : Build} {ctx : Bool} {l : DenseLib} (h : HasDense b l)
    (hc : l = .CUDA → ctx = true) : denseCreate b ctx l = .ok () := by
  cases l <;> simp_all [denseCreate, HasDense]

/-- What the factories need. -/
structure Ready (b : Build) (ctx : Bool) (o : Opts) : Prop where
  dense : UsesDense o → HasDense b o.denseLib ∧ (o.denseLib = .CUDA → ctx = true)
  sparse : UsesSparseCholesky o → CanFactor b o.sparseLib ∧
    (o.ordering = .NESDIS → CanNesdis b o.sparseLib) ∧
    (o.mixedPrecision = true → o.sparseLib = .SUITE_SPARSE → b.cholmodFloat = true) ∧
    (o.sparseLib = .CUDA_SPARSE → ctx = true)
  dynamic : o.linearSolver = .SPARSE_NORMAL_CHOLESKY → o.dynamicSparsity = true →
    o.sparseLib ≠ .ACCELERATE_SPARSE
  explicitSchur : o.linearSolver = .ITERATIVE_SCHUR → o.explicitSchur = true →
    o.preconditioner = .SCHUR_JACOBI
  schurPreconditioner : o.linearSolver = .ITERATIVE_SCHUR → o.preconditioner ≠ .SUBSET
  cgnrPreconditioner : o.linearSolver = .CGNR →
    o.preconditioner = .IDENTITY ∨ o.preconditioner = .JACOBI ∨ o.preconditioner = .SUBSET
  subset : o.linearSolver = .CGNR → o.preconditioner = .SUBSET → o.sparseLib ≠ .CUDA_SPARSE
  cgnrCuda : o.linearSolver = .CGNR → o.sparseLib = .CUDA_SPARSE → b.cuda = true ∧ ctx = true

theorem Ready.reorder {b : Build} {ctx : Bool} {o : Opts} (h : Ready b ctx o) :
    reorderProgram b o = .ok () := by
  unfold reorderProgram
  split
  · rfl
  split
  · rename_i h1 h2
    simp only [Bool.and_eq_true, beq_iff_eq] at h2
    have := h.sparse (.inl h2.1)
    exact reorderSparse_ok this.1 this.2.1
  split
  · rename_i h1 h2 h3
    simp only [Bool.and_eq_true, beq_iff_eq] at h3
    have := h.sparse (.inr (.inr (.inr h3)))
    exact reorderSparse_ok this.1 this.2.1
  · rfl

theorem Ready.create {b : Build} {ctx : Bool} {o : Opts} (h : Ready b ctx o) (fBlocks : Bool) :
    createSolver b ctx fBlocks o = .ok (jacobianMatrix o) := by
  have hd : UsesDense o → denseCreate b ctx o.denseLib = .ok () :=
    fun hu => denseCreate_ok (h.dense hu).1 (h.dense hu).2
  have hs : UsesSparseCholesky o → ∀ mixed,
      (mixed = true → o.mixedPrecision = true) →
      sparseCholeskyCreate b ctx o.sparseLib mixed (solverOrdering o) = .ok () := by
    intro hu mixed hm
    obtain ⟨h1, h2, h3, h4⟩ := h.sparse hu
    exact sparseCreate_ok h1 (fun h => h2 (ordering_nesdis h)) (fun h => h3 (hm h)) h4
  unfold createSolver jacobianMatrix
  cases hl : o.linearSolver
  · simp only [hd (.inl hl)]
    rfl
  · simp only [hd (.inr (.inl hl))]
    rfl
  · have hu : UsesSparseCholesky o := .inl hl
    obtain ⟨h1, h2, h3, h4⟩ := h.sparse hu
    simp only [noSparse_false h1, Bool.false_eq_true, if_false]
    split
    · rename_i hdy
      have := h.dynamic hl hdy
      have h2' := fun h => h2 (ordering_nesdis h)
      cases hlib : o.sparseLib <;> rw [hlib] at h1 h2' h4 this <;>
        cases ho : solverOrdering o <;> simp_all [CanFactor, CanNesdis]
    · simp only [hs hu o.mixedPrecision id]
      rfl
  · simp only [hd (.inr (.inr hl))]
    rfl
  · have hu : UsesSparseCholesky o := .inr (.inl hl)
    simp only [noSparse_false (h.sparse hu).1, Bool.false_eq_true, if_false,
      hs hu o.mixedPrecision id]
    rfl
  · have h1 := h.explicitSchur hl
    have h2 := h.schurPreconditioner hl
    have h3 : o.preconditioner = .CLUSTER_JACOBI ∨ o.preconditioner = .CLUSTER_TRIDIAGONAL →
        sparseCholeskyCreate b ctx o.sparseLib false (solverOrdering o) = .ok () :=
      fun h => hs (.inr (.inr (.inl ⟨hl, h⟩))) false (by simp)
    cases hp : o.preconditioner <;> rw [hp] at h1 h2 h3 <;> cases he : o.explicitSchur <;>
      rw [he] at h1 <;> cases fBlocks <;> simp_all <;> rfl
  · have h1 := h.cgnrPreconditioner hl
    have h2 := h.subset hl
    have h3 := h.cgnrCuda hl
    by_cases hc : o.sparseLib = .CUDA_SPARSE
    · obtain ⟨h4, h5⟩ := h3 hc
      have h6 : o.preconditioner ≠ .SUBSET := fun h => h2 h hc
      rcases h1 with h1 | h1 | h1
      · simp [hc, h4, h5, h1]
      · simp [hc, h4, h5, h1]
      · exact absurd h1 h6
    · rcases h1 with h1 | h1 | h1
      · simp [hc, h1]
      · simp [hc, h1]
      · obtain ⟨h4, h5, h6, -⟩ := h.sparse (.inr (.inr (.inr ⟨hl, h1⟩)))
        have := sparseCreate_ok (mixed := false) (ctx := false) (ord := solverOrdering o) h4
          (fun h => h5 (ordering_nesdis h)) (by simp) (fun h => absurd h hc)
        simp [hc, h1, this]
        rfl

theorem Ready.of_valid {b : Build} {o : Opts} (h : LinearSolverValid b o) :
    Ready b (isCudaRequired b o) o := by
  obtain ⟨h1, h2, h3, h4, h5, h6, h7, h8, h9, h10, h11, h12, h13⟩ := h
  refine ⟨fun hu => ⟨h1 hu, fun hc => ?_⟩, fun hu => ⟨h2 hu, h3 hu, fun hm => h5 hm hu, ?_⟩,
    fun hl hd => ?_, fun hl he => (h7 hl he).1, h9, h10, fun hl hs => (h11 hl hs).2,
    fun hl hc => ⟨h12 hl hc, ?_⟩⟩
  · have hb := h1 hu
    rw [hc] at hb
    rcases hu with hu | hu | hu <;> simp_all [isCudaRequired, HasDense]
  · intro hc
    have hb := h2 hu
    rw [hc] at hb
    rcases hu with hu | hu | ⟨hu, hu'⟩ | ⟨hu, hu'⟩
    · simp_all [isCudaRequired, CanFactor]
    · simp_all [isCudaRequired, CanFactor]
    · simp_all [isCudaRequired, CanFactor]
    · simp_all [isCudaRequired, CanFactor]
  · simpa [hl] using h6 hd
  · have := h12 hl hc
    simp_all [isCudaRequired]

/-- After the switch of solver the factories have what they need, except for two combinations. -/
theorem Ready.of_alternate {b : Build} {o : Opts} (h : LinearSolverValid b o)
    (hu : ¬(o.linearSolver = .ITERATIVE_SCHUR ∧
      (o.preconditioner = .SCHUR_POWER_SERIES_EXPANSION ∨ (o.sparseLib = .CUDA_SPARSE ∧
        o.preconditioner ≠ .CLUSTER_JACOBI ∧ o.preconditioner ≠ .CLUSTER_TRIDIAGONAL)))) :
    Ready b (isCudaRequired b o) (alternate o) := by
  have hv := Ready.of_valid h
  cases hl : o.linearSolver
  · simpa [alternate, hl, isSchurType] using hv
  · simpa [alternate, hl, isSchurType] using hv
  · simpa [alternate, hl, isSchurType] using hv
  · have h1 := hv.dense (.inr (.inr hl))
    constructor <;> simp [alternate, hl, isSchurType, solverForZeroEBlocks, UsesDense,
      UsesSparseCholesky]
    exact h1
  · have h1 := hv.sparse (.inr (.inl hl))
    have h2 : o.dynamicSparsity = false := by
      cases hd : o.dynamicSparsity
      · rfl
      · simpa [hl] using h.dynamic hd
    constructor <;> simp [alternate, hl, isSchurType, solverForZeroEBlocks, UsesDense,
      UsesSparseCholesky]
    · exact h1
    · simp [h2]
  · have h1 := hv.schurPreconditioner hl
    have h2 : o.preconditioner = .CLUSTER_JACOBI ∨ o.preconditioner = .CLUSTER_TRIDIAGONAL →
        _ := fun h => hv.sparse (.inr (.inr (.inl ⟨hl, h⟩)))
    cases hp : o.preconditioner <;> rw [hp] at hu h1 h2 <;> simp [hl] at hu <;>
      constructor <;>
      simp_all [alternate, isSchurType, solverForZeroEBlocks, UsesDense, UsesSparseCholesky,
        preconditionerForZeroEBlocks] <;>
      intro hc <;> rw [hc] at h2 <;> exact h2.1.1
  · simpa [alternate, hl, isSchurType] using hv

theorem jacobian_cgnr {o : Opts} (hl : o.linearSolver = .ITERATIVE_SCHUR) :
    jacobianMatrix (alternate o) =
      if o.sparseLib = .CUDA_SPARSE then .compressedRow else .blockSparse := by
  simp [alternate, hl, isSchurType, solverForZeroEBlocks, jacobianMatrix]

theorem alternate_diagonal (o : Opts) :
    (alternate o).minLmDiagonal = o.minLmDiagonal ∧ (alternate o).maxLmDiagonal = o.maxLmDiagonal ∧
      (alternate o).maxRadius = o.maxRadius := by
  unfold alternate
  split <;> exact ⟨rfl, rfl, rfl⟩

theorem createStrategy_alternate (o : Opts) :
    createStrategy (alternate o) = createStrategy o := by
  obtain ⟨h1, h2, h3⟩ := alternate_diagonal o
  unfold createStrategy
  rw [h1, h2, h3]

/-- **C55.** Accepted options of the trust region minimizer are carried out: nothing aborts and
the Jacobian the evaluator makes has the class the solver expects — whether or not an e block is
left — exactly if they are not among the unsupported ones. -/
theorem accepted_options_carried_out {b : Build} {o : Opts}
    (h : isValid b o = .ok ()) (ht : o.minimizerType = .TRUST_REGION) (noE fBlocks : Bool) :
    Carried b noE fBlocks o ↔ ¬Unsupported o noE := by
  have hv := ((isValid_iff b o).1 h).trustRegion ht
  have hs := createStrategy_ok hv
  unfold Carried
  constructor
  · rintro ⟨m, hm⟩ hu
    obtain ⟨-, h2, m', h3, h4⟩ := build_ok.1 hm
    rcases hu with hu | ⟨hn, hl, hu⟩
    · refine absurd hu (hs.1 ?_)
      cases noE
      · exact h2
      · rw [if_pos rfl, createStrategy_alternate] at h2
        exact h2
    · rw [hn, if_pos rfl] at h3 h4
      rw [jacobian_cgnr hl] at h4
      simp only [Prod.mk.injEq] at h4
      have hp : (alternate o).preconditioner = preconditionerForZeroEBlocks o.preconditioner := by
        simp [alternate, hl, isSchurType]
      have hl' : (alternate o).linearSolver = .CGNR := by
        simp [alternate, hl, isSchurType, solverForZeroEBlocks]
      have hsp : (alternate o).sparseLib = o.sparseLib := by
        simp [alternate, hl, isSchurType]
      unfold createSolver at h3
      rw [hl', hp, hsp] at h3
      rcases hu with hu | ⟨hc, h5, h6⟩
      · by_cases hcu : b.cuda = true ∧ o.sparseLib = .CUDA_SPARSE
        · simp [hu, preconditionerForZeroEBlocks, hcu.1, hcu.2] at h3
        · have : (b.cuda && o.sparseLib == .CUDA_SPARSE) = false := by
            rw [Bool.eq_false_iff]
            simpa using hcu
          simp [hu, preconditionerForZeroEBlocks, this] at h3
      · rw [if_pos hc] at h4
        have hreq : isCudaRequired b o = false := by
          cases hp : o.preconditioner <;> simp_all [isCudaRequired]
        rw [hreq] at h3
        cases hcu : b.cuda
        · have hsub := (((isValid_iff b o).1 h).trustRegion ht).solver.schurPreconditioner hl
          have hm : m' = .blockSparse := by
            simp only [hcu, Bool.false_and, Bool.false_eq_true, if_false] at h3
            split at h3
            · cases h3
            · split at h3
              · rename_i hx
                cases hq : o.preconditioner <;> rw [hq] at hx hsub <;>
                  simp_all [preconditionerForZeroEBlocks]
              · exact (Except.ok.inj h3).symm
          rw [hm] at h4
          rw [h4.1] at h4
          simp at h4
        · rw [hc, hcu] at h3
          simp at h3
          split at h3 <;> simp at h3
  · intro hu
    unfold Unsupported at hu
    push Not at hu
    have h2 := hs.2 hu.1
    cases hn : noE
    · have hr := Ready.of_valid hv.solver
      exact ⟨_, build_ok.2 ⟨hr.reorder, h2, _, hr.create fBlocks, rfl⟩⟩
    · have hr := Ready.of_alternate hv.solver (by
        rintro ⟨hl, hx⟩
        rcases hx with hx | ⟨ha, hb, hc⟩
        · exact (hu.2 hn hl).1 hx
        · exact hc ((hu.2 hn hl).2 ha hb))
      refine ⟨_, build_ok.2 ⟨hr.reorder, ?_, _, hr.create fBlocks, rfl⟩⟩
      rw [if_pos rfl, createStrategy_alternate]
      exact h2

/-- **C55.** When no e block is left the solver that is created eliminates none: the constructor
of the Schur complement solvers would abort (schur_complement_solver.cc:96-97), and the implicit
one would eliminate the blocks of another group. -/
theorem switched_solver_eliminates_nothing (o : Opts) :
    (alternate o).linearSolver ≠ .DENSE_SCHUR ∧ (alternate o).linearSolver ≠ .SPARSE_SCHUR ∧
      (alternate o).linearSolver ≠ .ITERATIVE_SCHUR := by
  unfold alternate
  cases hl : o.linearSolver <;> simp [isSchurType, solverForZeroEBlocks, hl]

end Ceres.Options
