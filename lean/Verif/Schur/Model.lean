import Mathlib.LinearAlgebra.Matrix.NonsingularInverse
import Mathlib.Data.Real.Basic
import Mathlib.Data.Matrix.Mul

/-!
# Model of the Schur eliminator and of the Schur complement solver

`internal/ceres/schur_eliminator_impl.h`, `internal/ceres/schur_complement_solver.cc`.

A block sparse matrix is a list of row blocks; a row block is a list of cells.  Column block
`b` has `sz b` columns.  Vectors over the columns are kept block by block (`BVec`), so the
flat positions (`bs->cols[i].position`, `lhs_row_layout_`, the offsets in `buffer_layout`) do
not appear, and the blocks of the reduced system keep their column block ids instead of being
renumbered from zero.  The segment of `b` belonging to a row block is stored with it.
Doubles are reals.  The template parameters only fix sizes at compile time and are not
modelled; the matrix kernels of `small_blas.h` are matrix products here.

Threads: the chunks are processed by `ParallelFor`, and every write to `lhs` or `rhs` adds to a
cell under its lock.  The model processes the chunks one after the other in an arbitrary order,
a parameter of `eliminate` and `backSubstitute`.
-/

noncomputable section

namespace Ceres.Schur

open Matrix

/-- A vector over the columns, block by block. -/
abbrev BVec (sz : ℕ → ℕ) := (b : ℕ) → Fin (sz b) → ℝ

/-- `Cell` (`block_structure.h:66-75`) together with its values. -/
structure Cell (sz : ℕ → ℕ) (m : ℕ) where
  id : ℕ
  val : Matrix (Fin m) (Fin (sz id)) ℝ

/-- `CompressedRow` (`block_structure.h:80-95`) with its segment of the vector `b`. -/
structure Row (sz : ℕ → ℕ) where
  size : ℕ
  cells : List (Cell sz size)
  rhs : Fin size → ℝ

variable {sz : ℕ → ℕ}

/-- The values of a cell, read as a block of column block `b`. -/
def Cell.at {m : ℕ} (c : Cell sz m) (b : ℕ) : Matrix (Fin m) (Fin (sz b)) ℝ :=
  if h : c.id = b then h ▸ c.val else 0

/-- `row.cells.front().block_id`; a row without cells, where the code is undefined, has none. -/
def Row.front (r : Row sz) : Option ℕ := r.cells.head?.map Cell.id

/-- `row.cells.front()`, as a block of column block `e`. -/
def Row.eCell (r : Row sz) (e : ℕ) : Matrix (Fin r.size) (Fin (sz e)) ℝ :=
  match r.cells with
  | [] => 0
  | c :: _ => c.at e

/-- The chunk detection of `SchurEliminator::Init` (`schur_eliminator_impl.h:122-166`): the
maximal runs of rows with the same first block, as long as that is to be eliminated, and the
remaining rows (from `uneliminated_row_begins_`).  Each chunk comes with its e block. -/
def detectChunks (ne : ℕ) : List (Row sz) → List (ℕ × List (Row sz)) × List (Row sz)
  | [] => ([], [])
  | r :: rs =>
    match r.front with
    | none => ([], r :: rs)
    | some id =>
      if ne ≤ id then ([], r :: rs)
      else
        let chunk := r :: rs.takeWhile fun s => s.front = some id
        let rest := detectChunks ne (rs.dropWhile fun s => s.front = some id)
        ((id, chunk) :: rest.1, rest.2)
termination_by l => l.length
decreasing_by
  simp only [List.length_cons]
  exact Nat.lt_succ_of_le (List.dropWhile_suffix _).length_le

/-- `InsertIfNotPresent` into the ordered map `buffer_layout` (`schur_eliminator_impl.h:147-155`),
keys only. -/
def insertKey (k : ℕ) : List ℕ → List ℕ
  | [] => [k]
  | a :: l => if k < a then k :: a :: l else if k = a then a :: l else a :: insertKey k l

/-- The keys of `chunk.buffer_layout`: the f blocks of the chunk's rows
(`schur_eliminator_impl.h:141-159`). -/
def bufferKeys (chunk : List (Row sz)) : List ℕ :=
  chunk.foldl (fun l r => r.cells.tail.foldl (fun l c => insertKey c.id l) l) []

/-- `BlockRandomAccessMatrix`: which cells `GetCell` finds, and their values. -/
structure Lhs (sz : ℕ → ℕ) where
  has : ℕ → ℕ → Bool
  val : (x y : ℕ) → Matrix (Fin (sz x)) (Fin (sz y)) ℝ

/-- `GetCell(b1, b2)` and, unless it is null, `cell += M`. -/
def addCell (L : Lhs sz) (b1 b2 : ℕ) (M : Matrix (Fin (sz b1)) (Fin (sz b2)) ℝ) : Lhs sz :=
  if L.has b1 b2 then
    { L with val := Function.update L.val b1 (Function.update (L.val b1) b2 (L.val b1 b2 + M)) }
  else L

/-- `rhs[b] += v`. -/
def addVec (rhs : BVec sz) (b : ℕ) (v : Fin (sz b) → ℝ) : BVec sz :=
  Function.update rhs b (rhs b + v)

/-- `EBlockRowOuterProduct` on `cells = row.cells[1..]` and `NoEBlockRowOuterProduct` on all
cells (`schur_eliminator_impl.h:602-721`). -/
def rowOuterProduct {m : ℕ} : List (Cell sz m) → Lhs sz → Lhs sz
  | [], L => L
  | c :: cs, L =>
    rowOuterProduct cs
      (cs.foldl (fun L d => addCell L c.id d.id (c.valᵀ * d.val))
        (addCell L c.id c.id (c.valᵀ * c.val)))

/-- The type of `InvertPSDMatrix`. -/
abbrev Inverter := (n : ℕ) → Matrix (Fin n) (Fin n) ℝ → Matrix (Fin n) (Fin n) ℝ

/-- `ete`, `g` and `buffer` of one chunk. -/
structure Acc (sz : ℕ → ℕ) (e : ℕ) where
  ete : Matrix (Fin (sz e)) (Fin (sz e)) ℝ
  g : Fin (sz e) → ℝ
  buffer : (f : ℕ) → Matrix (Fin (sz e)) (Fin (sz f)) ℝ

/-- `ete` before the rows are added: `D²` or zero (`schur_eliminator_impl.h:248-257`, `331-339`). -/
def eteInit (D : Option (BVec sz)) (e : ℕ) : Matrix (Fin (sz e)) (Fin (sz e)) ℝ :=
  match D with
  | some D => Matrix.diagonal fun i => D e i ^ 2
  | none => 0

/-- `ChunkDiagonalBlockAndGradient` (`schur_eliminator_impl.h:448-512`). -/
def chunkDiagonalBlockAndGradient (e : ℕ) (chunk : List (Row sz)) (a : Acc sz e) (L : Lhs sz) :
    Acc sz e × Lhs sz :=
  chunk.foldl
    (fun (s : Acc sz e × Lhs sz) r =>
      let L := rowOuterProduct r.cells.tail s.2
      let E := r.eCell e
      let EtE := Eᵀ * E
      ({ ete := s.1.ete + EtE
         g := s.1.g + Eᵀ *ᵥ r.rhs
         buffer := r.cells.tail.foldl
           (fun buf c =>
             let EtF := Eᵀ * c.val
             Function.update buf c.id (buf c.id + EtF)) s.1.buffer }, L))
    (a, L)

/-- `UpdateRhs` (`schur_eliminator_impl.h:382-427`). -/
def updateRhs (e : ℕ) (chunk : List (Row sz)) (inverseEteG : Fin (sz e) → ℝ) (rhs : BVec sz) :
    BVec sz :=
  chunk.foldl
    (fun rhs r =>
      let sj := r.rhs - r.eCell e *ᵥ inverseEteG
      r.cells.tail.foldl (fun rhs c => addVec rhs c.id (c.valᵀ *ᵥ sj)) rhs)
    rhs

/-- `ChunkOuterProduct` (`schur_eliminator_impl.h:514-568`). -/
def chunkOuterProduct {e : ℕ} (inverseEte : Matrix (Fin (sz e)) (Fin (sz e)) ℝ)
    (buffer : (f : ℕ) → Matrix (Fin (sz e)) (Fin (sz f)) ℝ) : List ℕ → Lhs sz → Lhs sz
  | [], L => L
  | k :: ks, L =>
    let t := (buffer k)ᵀ * inverseEte
    chunkOuterProduct inverseEte buffer ks
      ((k :: ks).foldl (fun L k2 => addCell L k k2 (-(t * buffer k2))) L)

/-- The body of the loop over the chunks in `Eliminate` (`schur_eliminator_impl.h:240-306`).
`inv` is `InvertPSDMatrix` (`invert_psd_matrix.h:49-79`), which returns the inverse or, if the
solver must not assume full rank, a pseudo inverse. -/
def eliminateChunk (inv : Inverter) (D : Option (BVec sz)) (s : Lhs sz × BVec sz) (ch : ℕ × List (Row sz)) :
    Lhs sz × BVec sz :=
  let a := chunkDiagonalBlockAndGradient ch.1 ch.2 ⟨eteInit D ch.1, 0, fun _ => 0⟩ s.1
  let inverseEte := inv _ a.1.ete
  let rhs := updateRhs ch.1 ch.2 (inverseEte *ᵥ a.1.g) s.2
  let L := chunkOuterProduct inverseEte a.1.buffer (bufferKeys ch.2) a.2
  (L, rhs)

/-- `lhs->SetZero()`, `rhs.setZero()` and `D²` on the diagonal of the f blocks
(`schur_eliminator_impl.h:190-220`). -/
def eliminateInit (ne nb : ℕ) (has : ℕ → ℕ → Bool) (D : Option (BVec sz)) :
    Lhs sz × BVec sz :=
  let L : Lhs sz := ⟨has, fun _ _ => 0⟩
  let L := match D with
    | some D => (List.range' ne (nb - ne)).foldl
        (fun L b => addCell L b b (Matrix.diagonal fun i => D b i ^ 2)) L
    | none => L
  (L, fun _ => 0)

/-- `NoEBlockRowsUpdate` (`schur_eliminator_impl.h:570-600`). -/
def noEBlockRowsUpdate (rows : List (Row sz)) (s : Lhs sz × BVec sz) : Lhs sz × BVec sz :=
  rows.foldl
    (fun s r => (rowOuterProduct r.cells s.1,
      r.cells.foldl (fun rhs c => addVec rhs c.id (c.valᵀ *ᵥ r.rhs)) s.2)) s

/-- `SchurEliminator::Eliminate` (`schur_eliminator_impl.h:183-311`), the chunks being
processed in the order `order`. -/
def eliminate (inv : Inverter) (ne nb : ℕ) (has : ℕ → ℕ → Bool) (rows : List (Row sz)) (D : Option (BVec sz))
    (order : List (ℕ × List (Row sz))) : Lhs sz × BVec sz :=
  noEBlockRowsUpdate (detectChunks ne rows).2
    (order.foldl (eliminateChunk inv D) (eliminateInit ne nb has D))

/-- One chunk of `BackSubstitute` (`schur_eliminator_impl.h:323-379`): the block of `y` is
accumulated on top of what it holds. -/
def backSubstituteChunk (inv : Inverter) (D : Option (BVec sz)) (z : BVec sz) (y : BVec sz)
    (ch : ℕ × List (Row sz)) : BVec sz :=
  let s := ch.2.foldl
    (fun (s : Matrix (Fin (sz ch.1)) (Fin (sz ch.1)) ℝ × (Fin (sz ch.1) → ℝ)) r =>
      let E := r.eCell ch.1
      let sj := r.cells.tail.foldl (fun sj c => sj - c.val *ᵥ z c.id) r.rhs
      let EtE := Eᵀ * E
      (s.1 + EtE, s.2 + Eᵀ *ᵥ sj))
    (eteInit D ch.1, y ch.1)
  Function.update y ch.1 (inv _ s.1 *ᵥ s.2)

/-- `SchurEliminator::BackSubstitute` (`schur_eliminator_impl.h:313-380`). -/
def backSubstitute (inv : Inverter) (D : Option (BVec sz)) (z : BVec sz) (y : BVec sz)
    (order : List (ℕ × List (Row sz))) : BVec sz :=
  order.foldl (backSubstituteChunk inv D z) y

/-- Termination types of a linear solver. -/
inductive Term where
  | success
  | noConvergence
  | failure
  | fatalError
deriving DecidableEq, Repr

/-- `SchurComplementSolver::SolveImpl` (`schur_complement_solver.cc:101-159`).  The reduced
solver gets the left and right hand side and what the f part of `x` holds (zeros) and leaves
its answer there; only on SUCCESS the e part is computed. -/
def solve (inv : Inverter) (ne nb : ℕ) (has : ℕ → ℕ → Bool) (rows : List (Row sz)) (D : Option (BVec sz))
    (reduced : Lhs sz → BVec sz → Term × BVec sz)
    (order order' : List (ℕ × List (Row sz))) : Term × BVec sz :=
  let x : BVec sz := fun _ => 0
  let s := eliminate inv ne nb has rows D order
  let t := reduced s.1 s.2
  let x : BVec sz := fun b => if ne ≤ b then t.2 b else x b
  if t.1 = .success then (t.1, backSubstitute inv D x x order') else (t.1, x)

/-! ## Storage of the reduced matrix -/

/-- `DenseSchurComplementSolver::InitStorage` (`schur_complement_solver.cc:169-177`) with
`BlockRandomAccessDenseMatrix::GetCell`: all cells are present. -/
def denseHas : ℕ → ℕ → Bool := fun _ _ => true

/-- The pairs `(f_blocks[i], f_blocks[j])`, `i < j` (`schur_complement_solver.cc:264-268`). -/
def upperPairs : List ℕ → List (ℕ × ℕ)
  | [] => []
  | a :: l => l.map (fun b => (a, b)) ++ upperPairs l

/-- The pairs of a row without e block (`schur_complement_solver.cc:276-284`). -/
def rowPairs (r : Row sz) : List (ℕ × ℕ) :=
  r.cells.flatMap fun c => (r.cells.filter fun d => c.id ≤ d.id).map fun d => (c.id, d.id)

/-- `block_pairs` of `SparseSchurComplementSolver::InitStorage`
(`schur_complement_solver.cc:224-285`).  Sorting the f blocks of a chunk and removing the
duplicates gives the same list as the insertions of `bufferKeys`. -/
def blockPairs (ne nb : ℕ) (rows : List (Row sz)) : List (ℕ × ℕ) :=
  (List.range' ne (nb - ne)).map (fun b => (b, b)) ++
    (detectChunks ne rows).1.flatMap (fun ch => upperPairs (bufferKeys ch.2)) ++
    (detectChunks ne rows).2.flatMap rowPairs

/-- The cells `BlockRandomAccessSparseMatrix::GetCell` finds
(`block_random_access_sparse_matrix.cc:90-117`). -/
def sparseHas (ne nb : ℕ) (rows : List (Row sz)) : ℕ → ℕ → Bool :=
  fun x y => decide ((x, y) ∈ blockPairs ne nb rows)

/-! ## The eliminator for one f block -/

/-- The second cell of a row, as a block of column block `f`. -/
def Row.fCell (r : Row sz) (f : ℕ) : Option (Matrix (Fin r.size) (Fin (sz f)) ℝ) :=
  match r.cells with
  | _ :: c :: _ => some (c.at f)
  | _ => none

/-- The locals of one chunk in `SchurEliminatorForOneFBlock::Eliminate`. -/
structure OneAcc (sz : ℕ → ℕ) (e f : ℕ) where
  ete : Matrix (Fin (sz e)) (Fin (sz e)) ℝ
  etf : Matrix (Fin (sz e)) (Fin (sz f)) ℝ
  etb : Fin (sz e) → ℝ
  ftb : Fin (sz f) → ℝ
  lhs : Matrix (Fin (sz f)) (Fin (sz f)) ℝ

/-- The rows of one chunk (`schur_eliminator.h:489-522`). -/
def oneChunkRows (D : Option (BVec sz)) (f : ℕ) (ch : ℕ × List (Row sz))
    (lhs : Matrix (Fin (sz f)) (Fin (sz f)) ℝ) : OneAcc sz ch.1 f :=
  ch.2.foldl
    (fun (a : OneAcc sz ch.1 f) r =>
      let E := r.eCell ch.1
      let EtE := Eᵀ * E
      let a := { a with ete := a.ete + EtE, etb := a.etb + Eᵀ *ᵥ r.rhs }
      match r.fCell f with
      | none => a
      | some F =>
        let EtF := Eᵀ * F
        let FtF := Fᵀ * F
        { a with etf := a.etf + EtF, lhs := a.lhs + FtF, ftb := a.ftb + Fᵀ *ᵥ r.rhs })
    ⟨eteInit D ch.1, 0, 0, 0, lhs⟩

/-- One chunk: the new `lhs` and `rhs` and the cached inverse (`schur_eliminator.h:479-548`). -/
def oneChunk (D : Option (BVec sz)) (f : ℕ)
    (s : Matrix (Fin (sz f)) (Fin (sz f)) ℝ × (Fin (sz f) → ℝ)) (ch : ℕ × List (Row sz)) :
    Matrix (Fin (sz f)) (Fin (sz f)) ℝ × (Fin (sz f) → ℝ) :=
  let a := oneChunkRows D f ch s.1
  let tmp := a.ete⁻¹ * a.etf
  let tmp2 := a.ete⁻¹ *ᵥ a.etb
  let EtFtmp := a.etfᵀ * tmp
  (a.lhs - EtFtmp, s.2 + (a.ftb - a.etfᵀ *ᵥ tmp2))

/-- `SchurEliminatorForOneFBlock::Eliminate` (`schur_eliminator.h:431-566`) with the single f
block `ne`. -/
def oneEliminate (ne : ℕ) (rows : List (Row sz)) (D : Option (BVec sz)) :
    Matrix (Fin (sz ne)) (Fin (sz ne)) ℝ × (Fin (sz ne) → ℝ) :=
  let s := (detectChunks ne rows).1.foldl (oneChunk D ne) (eteInit D ne, 0)
  (detectChunks ne rows).2.foldl
    (fun s r =>
      let F := r.eCell ne
      let FtF := Fᵀ * F
      (s.1 + FtF, s.2 + Fᵀ *ᵥ r.rhs)) s

/-- `SchurEliminatorForOneFBlock::BackSubstitute` (`schur_eliminator.h:572-613`); the cached
inverse is the one of `Eliminate`. -/
def oneBackSubstitute (ne : ℕ) (rows : List (Row sz)) (D : Option (BVec sz))
    (z : Fin (sz ne) → ℝ) (y : BVec sz) : BVec sz :=
  (detectChunks ne rows).1.foldl
    (fun (y : BVec sz) (ch : ℕ × List (Row sz)) =>
      let tmp : Fin (sz ch.1) → ℝ := ch.2.foldl
        (fun t r =>
          match r.fCell ne with
          | none => t + (r.eCell ch.1)ᵀ *ᵥ r.rhs
          | some F => t + (r.eCell ch.1)ᵀ *ᵥ (r.rhs - F *ᵥ z)) 0
      Function.update y ch.1 ((oneChunkRows D ne ch 0).ete⁻¹ *ᵥ tmp)) y

/-- `SchurComplementSolver::SolveImpl` (`schur_complement_solver.cc:101-159`) when the
eliminator for one f block is used. -/
def oneSolve (ne : ℕ) (rows : List (Row sz)) (D : Option (BVec sz))
    (reduced : Matrix (Fin (sz ne)) (Fin (sz ne)) ℝ → (Fin (sz ne) → ℝ) →
      Term × (Fin (sz ne) → ℝ)) : Term × BVec sz :=
  let s := oneEliminate ne rows D
  let t := reduced s.1 s.2
  let x : BVec sz := Function.update (fun _ => 0) ne t.2
  if t.1 = .success then (t.1, oneBackSubstitute ne rows D t.2 x) else (t.1, x)

end Ceres.Schur
