import Verif.Tasks.Blocks
import Verif.Schur.Model

/-!
# The Schur eliminator on several threads

`internal/ceres/schur_eliminator_impl.h`.  `Verif.Schur` models what the loops over the chunks compute when
chunks are processed one after the other.  Here the loop bodies are programs on shared memory, run by
`ParallelFor` as in `Verif.Tasks`: one access to a number or one operation on a mutex at a time,
interleaved in any way.

Memory: the cells of the reduced matrix and of the reduced right hand side, by block and position in the
block; the two buffers of the eliminator, by flat position, cut into one slice for each thread; the
solution vector, by block.  `ete`, `g` and `sj` are on the stack.  The matrix, `b` and `D` are only read
and are parameters.  A kernel of `small_blas.h` that adds a product to a block reads and writes each of
its elements once, row by row (`Verif.SmallBlas` models the kernels); subtracting is adding the negation.
-/

noncomputable section

namespace Ceres.SchurThreads

open Matrix Ceres.Schur Ceres.Tasks

/-- The locations. -/
inductive Loc where
  /-- Element `(i, j)` of the cell `(x, y)` of `lhs`. -/
  | lhs (x y i j : ℕ)
  /-- Element `i` of block `x` of `rhs`. -/
  | rhs (x i : ℕ)
  /-- `buffer_[p]`. -/
  | buffer (p : ℕ)
  /-- `chunk_outer_product_buffer_[p]`. -/
  | outer (p : ℕ)
  /-- Element `i` of block `b` of the solution. -/
  | sol (b i : ℕ)
  deriving DecidableEq

/-- The mutexes: `CellInfo::m` (block_random_access_matrix.h:87-93) of a cell, `rhs_locks_`. -/
inductive Mutex where
  | cell (x y : ℕ)
  | rhs (x : ℕ)
  deriving DecidableEq

/-- Loop bodies. -/
abbrev Prog := Code Loc Mutex ℝ

/-- Memory. -/
abbrev Mem := Loc → ℝ

variable {sz : ℕ → ℕ}

/-! ## `Init`: the layout of the buffer -/

/-- `std::map::insert` of a new key. -/
def insertSlot (e : ℕ × ℕ) : List (ℕ × ℕ) → List (ℕ × ℕ)
  | [] => [e]
  | a :: l => if e.1 < a.1 then e :: a :: l else a :: insertSlot e l

/-- `InsertIfNotPresent(&chunk.buffer_layout, f, buffer_size)` and the new `buffer_size`
(schur_eliminator_impl.h:150-154). -/
def addSlot (sz : ℕ → ℕ) (e : ℕ) (s : List (ℕ × ℕ) × ℕ) (f : ℕ) : List (ℕ × ℕ) × ℕ :=
  if s.1.any fun a => a.1 = f then s else (insertSlot (f, s.2) s.1, s.2 + sz e * sz f)

/-- `chunk.buffer_layout` and the `buffer_size` of a chunk (schur_eliminator_impl.h:136-159). -/
def layoutOf (ch : ℕ × List (Row sz)) : List (ℕ × ℕ) × ℕ :=
  ch.2.foldl (fun s r => r.cells.tail.foldl (fun s c => addSlot sz ch.1 s c.id) s) ([], 0)

/-- `buffer_size_` (schur_eliminator_impl.h:101, 157).  The code takes the maximum after each row; the size
of a chunk's buffer only grows. -/
def bufferSize (chunks : List (ℕ × List (Row sz))) : ℕ :=
  chunks.foldl (fun n ch => max (layoutOf ch).2 n) 1

/-- `FindOrDie(chunk.buffer_layout, f)` (schur_eliminator_impl.h:501); a missing key, which is fatal, is
shown not to occur. -/
def slotOf (lay : List (ℕ × ℕ)) (f : ℕ) : ℕ := ((lay.find? fun a => a.1 = f).map Prod.snd).getD 0

/-! ## The bodies -/

/-- The location of element `(i, j)` of a cell. -/
def lhsLoc (x y : ℕ) (i : Fin (sz x)) (j : Fin (sz y)) : Loc := .lhs x y i j

/-- The location of element `i` of a block of the right hand side. -/
def rhsLoc (x : ℕ) (i : Fin (sz x)) : Loc := .rhs x i

/-- The location of element `(i, j)` of a matrix with `c` columns stored from position `p` of `buffer_`. -/
def bufLoc (p : ℕ) {m c : ℕ} (i : Fin m) (j : Fin c) : Loc := .buffer (p + i * c + j)

/-- The same in `chunk_outer_product_buffer_`. -/
def outLoc (p : ℕ) {m c : ℕ} (i : Fin m) (j : Fin c) : Loc := .outer (p + i * c + j)

/-- The location of element `i` of a block of the solution. -/
def solLoc (b : ℕ) (i : Fin (sz b)) : Loc := .sol b i

/-- `GetCell(x, y)` and, unless it is null, `cell += A` under the cell's lock
(schur_eliminator_impl.h:630-643). -/
def cellCode (threads : ℕ) (has : ℕ → ℕ → Bool) (x y : ℕ) (A : Matrix (Fin (sz x)) (Fin (sz y)) ℝ)
    (k : Prog) : Prog :=
  if has x y then
    condLock threads (.cell x y) (adds (matEntries A (lhsLoc x y)) (condUnlock threads (.cell x y) k))
  else k

/-- `EBlockRowOuterProduct` on `row.cells[1..]`, `NoEBlockRowOuterProduct` on all cells
(schur_eliminator_impl.h:616-722). -/
def rowOuterCode (threads : ℕ) (has : ℕ → ℕ → Bool) {m : ℕ} : List (Cell sz m) → Prog → Prog
  | [], k => k
  | c :: cs, k =>
    cellCode threads has c.id c.id (c.valᵀ * c.val)
      (cs.foldr (fun d k => cellCode threads has c.id d.id (c.valᵀ * d.val) k)
        (rowOuterCode threads has cs k))

/-- `buffer += E'F` for the f blocks of a row (schur_eliminator_impl.h:496-509). -/
def bufferCode (base : ℕ) (lay : List (ℕ × ℕ)) {e m : ℕ} (E : Matrix (Fin m) (Fin (sz e)) ℝ)
    (cells : List (Cell sz m)) (k : Prog) : Prog :=
  cells.foldr (fun c k => adds (matEntries (Eᵀ * c.val) (bufLoc (base + slotOf lay c.id))) k) k

/-- `ChunkDiagonalBlockAndGradient` (schur_eliminator_impl.h:448-512), continued with `ete` and `g`. -/
def chunkDiagCode (threads : ℕ) (has : ℕ → ℕ → Bool) (base : ℕ) (lay : List (ℕ × ℕ)) (e : ℕ) :
    List (Row sz) → Matrix (Fin (sz e)) (Fin (sz e)) ℝ → (Fin (sz e) → ℝ) →
    (Matrix (Fin (sz e)) (Fin (sz e)) ℝ → (Fin (sz e) → ℝ) → Prog) → Prog
  | [], ete, g, k => k ete g
  | r :: rs, ete, g, k =>
    rowOuterCode threads has r.cells.tail
      (bufferCode base lay (r.eCell e) r.cells.tail
        (chunkDiagCode threads has base lay e rs (ete + (r.eCell e)ᵀ * r.eCell e)
          (g + (r.eCell e)ᵀ *ᵥ r.rhs) k))

/-- `rhs[x] += v` under its lock (schur_eliminator_impl.h:416-423). -/
def vecCode (threads : ℕ) (x : ℕ) (v : Fin (sz x) → ℝ) (k : Prog) : Prog :=
  condLock threads (.rhs x) (adds (vecEntries v (rhsLoc x)) (condUnlock threads (.rhs x) k))

/-- `UpdateRhs` (schur_eliminator_impl.h:385-427). -/
def updateRhsCode (threads : ℕ) (e : ℕ) (inverseEteG : Fin (sz e) → ℝ) : List (Row sz) → Prog → Prog
  | [], k => k
  | r :: rs, k =>
    r.cells.tail.foldr
      (fun c k => vecCode threads c.id (c.valᵀ *ᵥ (r.rhs - r.eCell e *ᵥ inverseEteG)) k)
      (updateRhsCode threads e inverseEteG rs k)

/-- `S(i,j) -= b1_transpose_inverse_ete * b_j` under the cell's lock; both factors are read from the
buffers (schur_eliminator_impl.h:550-565). -/
def outerCellCode (threads : ℕ) (has : ℕ → ℕ → Bool) (base obase e k1 : ℕ) (s2 : ℕ × ℕ) (k : Prog) : Prog :=
  if has k1 s2.1 then
    condLock threads (.cell k1 s2.1)
      (readMat (sz k1) (sz e) (outLoc obase) fun T =>
        readMat (sz e) (sz s2.1) (bufLoc (base + s2.2)) fun B2 =>
          adds (matEntries (-(T * B2)) (lhsLoc k1 s2.1)) (condUnlock threads (.cell k1 s2.1) k))
  else k

/-- `ChunkOuterProduct` (schur_eliminator_impl.h:514-568): the outer loop over the layout. -/
def chunkOuterCode (threads : ℕ) (has : ℕ → ℕ → Bool) (base obase : ℕ) {e : ℕ}
    (inverseEte : Matrix (Fin (sz e)) (Fin (sz e)) ℝ) : List (ℕ × ℕ) → Prog → Prog
  | [], k => k
  | s1 :: rest, k =>
    readMat (sz e) (sz s1.1) (bufLoc (base + s1.2)) fun B1 =>
      writes (matEntries (B1ᵀ * inverseEte) (outLoc obase))
        ((s1 :: rest).foldr (fun s2 k => outerCellCode (sz := sz) threads has base obase e s1.1 s2 k)
          (chunkOuterCode threads has base obase inverseEte rest k))

/-- The body of the loop over the chunks in `Eliminate` (schur_eliminator_impl.h:240-306).  `wantRhs`: `rhs`
is not null (`g` is not used otherwise, so that `b` may be null). -/
def chunkBody (inv : Inverter) (has : ℕ → ℕ → Bool) (D : Option (BVec sz)) (wantRhs : Bool)
    (threads size tid : ℕ) (ch : ℕ × List (Row sz)) : Prog :=
  writes ((List.range size).map fun p => (.buffer (tid * size + p), 0))
    (chunkDiagCode threads has (tid * size) (layoutOf ch).1 ch.1 ch.2 (eteInit D ch.1) 0 fun ete g =>
      let outer := chunkOuterCode threads has (tid * size) (tid * size) (inv _ ete) (layoutOf ch).1 .ret
      if wantRhs then updateRhsCode threads ch.1 (inv _ ete *ᵥ g) ch.2 outer else outer)

/-- The loop over the chunks, by index. -/
def chunkTask (inv : Inverter) (has : ℕ → ℕ → Bool) (D : Option (BVec sz)) (wantRhs : Bool)
    (threads : ℕ) (chunks : List (ℕ × List (Row sz))) (tid i : ℕ) : Prog :=
  match chunks[i]? with
  | some ch => chunkBody inv has D wantRhs threads (bufferSize chunks) tid ch
  | none => .ret

/-- The body of the loop that adds `D²` to the diagonal (schur_eliminator_impl.h:206-219); no lock. -/
def diagTask (has : ℕ → ℕ → Bool) (D : BVec sz) (_tid b : ℕ) : Prog :=
  if has b b then adds (vecEntries (fun i => D b i ^ 2) fun i : Fin (sz b) => lhsLoc b b i i) .ret
  else .ret

/-- `NoEBlockRowsUpdate` (schur_eliminator_impl.h:570-600): on the calling thread, with the cells' locks
but without those of the right hand side. -/
def noEBlockRowsCode (threads : ℕ) (has : ℕ → ℕ → Bool) (wantRhs : Bool) : List (Row sz) → Prog
  | [] => .ret
  | r :: rs =>
    rowOuterCode threads has r.cells
      (if wantRhs then
        r.cells.foldr (fun c k => adds (vecEntries (c.valᵀ *ᵥ r.rhs) (rhsLoc c.id)) k)
          (noEBlockRowsCode threads has wantRhs rs)
      else noEBlockRowsCode threads has wantRhs rs)

/-- `sj -= F z` for the f blocks of a row, `z` being read (schur_eliminator_impl.h:352-362). -/
def residualCode {m : ℕ} : List (Cell sz m) → (Fin m → ℝ) → ((Fin m → ℝ) → Prog) → Prog
  | [], sj, k => k sj
  | c :: cs, sj, k => readVec (sz c.id) (solLoc c.id) fun z => residualCode cs (sj - c.val *ᵥ z) k

/-- The rows of a chunk in `BackSubstitute` (schur_eliminator_impl.h:341-375): `y` is accumulated in
place. -/
def backRowsCode (e : ℕ) : List (Row sz) → Matrix (Fin (sz e)) (Fin (sz e)) ℝ →
    (Matrix (Fin (sz e)) (Fin (sz e)) ℝ → Prog) → Prog
  | [], ete, k => k ete
  | r :: rs, ete, k =>
    residualCode r.cells.tail r.rhs fun sj =>
      adds (vecEntries ((r.eCell e)ᵀ *ᵥ sj) (solLoc e))
        (backRowsCode e rs (ete + (r.eCell e)ᵀ * r.eCell e) k)

/-- The body of the loop over the chunks in `BackSubstitute` (schur_eliminator_impl.h:323-379). -/
def backTask (inv : Inverter) (D : Option (BVec sz)) (chunks : List (ℕ × List (Row sz))) (_tid i : ℕ) :
    Prog :=
  match chunks[i]? with
  | some ch =>
    backRowsCode ch.1 ch.2 (eteInit D ch.1) fun ete =>
      readVec (sz ch.1) (solLoc ch.1) fun y =>
        writes (vecEntries (inv _ ete *ᵥ y) (solLoc ch.1)) .ret
  | none => .ret

/-! ## `Eliminate`, `BackSubstitute` and the solver -/

/-- `lhs->SetZero()` and `rhs.setZero()` (schur_eliminator_impl.h:190-195).  If the reduced matrix has no
rows there is nothing to set. -/
def zeroed (wantRhs : Bool) (m : Mem) : Mem
  | .lhs _ _ _ _ => 0
  | .rhs x i => if wantRhs then 0 else m (.rhs x i)
  | l => m l

/-- `R`, then `S` if `R` has returned; `none`: does not return. -/
inductive Then (R : Option Mem → Prop) (S : Mem → Option Mem → Prop) : Option Mem → Prop where
  | stuck : R none → Then R S none
  | next (m : Mem) (o : Option Mem) : R (some m) → S m o → Then R S o

/-- `SchurEliminator::Eliminate` (schur_eliminator_impl.h:183-311) on `threads` threads: the possible
memories when it returns. -/
def EliminateRun (inv : Inverter) (ne nb : ℕ) (has : ℕ → ℕ → Bool) (rows : List (Row sz))
    (D : Option (BVec sz)) (wantRhs : Bool) (threads : ℕ) (m : Mem) : Option Mem → Prop :=
  Then
    (match D with
      | some D => ForRun (diagTask has D) ne nb threads (zeroed wantRhs m)
      | none => fun o => o = some (zeroed wantRhs m))
    fun m1 => Then
      (ForRun (chunkTask inv has D wantRhs threads (detectChunks ne rows).1) 0
        (detectChunks ne rows).1.length threads m1)
      fun m2 o =>
        o = ((noEBlockRowsCode threads has wantRhs (detectChunks ne rows).2).exec m2
          fun _ => false).map Prod.fst

/-- `SchurEliminator::BackSubstitute` (schur_eliminator_impl.h:313-380) on `threads` threads. -/
def BackRun (inv : Inverter) (ne : ℕ) (rows : List (Row sz)) (D : Option (BVec sz)) (threads : ℕ) (m : Mem) :
    Option Mem → Prop :=
  ForRun (backTask inv D (detectChunks ne rows).1) 0 (detectChunks ne rows).1.length threads m

/-- The reduced matrix in memory. -/
def lhsOf (has : ℕ → ℕ → Bool) (m : Mem) : Lhs sz := ⟨has, fun x y i j => m (.lhs x y i j)⟩

/-- The reduced right hand side in memory. -/
def rhsOf (m : Mem) : BVec sz := fun x i => m (.rhs x i)

/-- The solution in memory. -/
def solOf (m : Mem) : BVec sz := fun b i => m (.sol b i)

/-- `std::fill(x, x + A->num_cols(), 0.0)` (schur_complement_solver.cc:137). -/
def fillSol (m : Mem) : Mem
  | .sol _ _ => 0
  | l => m l

/-- The reduced solver writes its answer to the f part of `x` (schur_complement_solver.cc:147-149). -/
def storeReduced (ne : ℕ) (z : BVec sz) (m : Mem) : Mem
  | .sol b i => if h : ne ≤ b ∧ i < sz b then z b ⟨i, h.2⟩ else m (.sol b i)
  | l => m l

/-- `SchurComplementSolver::SolveImpl` (schur_complement_solver.cc:101-159) on `threads` threads: the
possible termination types and solutions; `none`: does not return. -/
inductive SolveRun (inv : Inverter) (ne nb : ℕ) (has : ℕ → ℕ → Bool) (rows : List (Row sz))
    (D : Option (BVec sz)) (reduced : Lhs sz → BVec sz → Term × BVec sz) (threads : ℕ) (m : Mem) :
    Option (Term × BVec sz) → Prop where
  | eliminateStuck : EliminateRun inv ne nb has rows D true threads (fillSol m) none →
      SolveRun inv ne nb has rows D reduced threads m none
  | backStuck (m1 : Mem) : EliminateRun inv ne nb has rows D true threads (fillSol m) (some m1) →
      (reduced (lhsOf has m1) (rhsOf m1)).1 = .success →
      BackRun inv ne rows D threads (storeReduced ne (reduced (lhsOf has m1) (rhsOf m1)).2 m1) none →
      SolveRun inv ne nb has rows D reduced threads m none
  | done (m1 m2 : Mem) : EliminateRun inv ne nb has rows D true threads (fillSol m) (some m1) →
      (reduced (lhsOf has m1) (rhsOf m1)).1 = .success →
      BackRun inv ne rows D threads (storeReduced ne (reduced (lhsOf has m1) (rhsOf m1)).2 m1) (some m2) →
      SolveRun inv ne nb has rows D reduced threads m (some (.success, solOf m2))
  | failed (m1 : Mem) : EliminateRun inv ne nb has rows D true threads (fillSol m) (some m1) →
      (reduced (lhsOf has m1) (rhsOf m1)).1 ≠ .success →
      SolveRun inv ne nb has rows D reduced threads m
        (some ((reduced (lhsOf has m1) (rhsOf m1)).1,
          solOf (storeReduced ne (reduced (lhsOf has m1) (rhsOf m1)).2 m1)))

end Ceres.SchurThreads
