import Mathlib.Data.Int.Notation
import Mathlib.Data.Nat.Notation
import Mathlib.Logic.Basic
import Mathlib.Tactic.SplitIfs
import Mathlib.Tactic.Tauto
import Mathlib.Algebra.Order.Ring.Int

/-!
# Model of `DetectStructure` and of the choice of a template specialisation

`internal/ceres/detect_structure.cc`, `internal/ceres/schur_eliminator.cc`,
`internal/ceres/schur_complement_solver.cc`.

Sizes and block ids are `int`s, modelled as integers and natural numbers.
-/

namespace Ceres.Detect

/-- `CompressedRow` (`block_structure.h:80-95`): the size of the row block and the column blocks
of its cells. -/
structure Row where
  size : ℤ
  cells : List ℕ

/-- `CompressedRowBlockStructure` (`block_structure.h:100-105`): the sizes of the column blocks and
the rows. -/
structure Structure where
  cols : ℕ → ℤ
  rows : List Row

/-- `Eigen::Dynamic`. -/
def dynamic : ℤ := -1

/-- `row_block_size`, `e_block_size`, `f_block_size`. -/
structure Sizes where
  row : ℤ
  e : ℤ
  f : ℤ
deriving DecidableEq

/-- `if (*s == 0) *s = n; else if (*s != Dynamic && *s != n) *s = Dynamic;`
(`detect_structure.cc:57-64`, `67-75`). -/
def update (s n : ℤ) : ℤ :=
  if s = 0 then n
  else if s ≠ dynamic ∧ s ≠ n then dynamic
  else s

/-- The loop over the cells from the second one on (`detect_structure.cc:86-96`). -/
def fLoop (cols : ℕ → ℤ) : List ℕ → ℤ → ℤ
  | [], f => f
  | c :: cs, f =>
    if f ≠ dynamic then fLoop cols cs (if f ≠ cols c then dynamic else f)
    else f

/-- `detect_structure.cc:80-97`. -/
def fUpdate (cols : ℕ → ℤ) (cells : List ℕ) (f : ℤ) : ℤ :=
  match cells with
  | _ :: c :: cs =>
    let f := if f = 0 then cols c else f
    fLoop cols (c :: cs) f
  | _ => f

/-- The loop over the rows (`detect_structure.cc:49-107`).  On a row without cells, where
`cells.front()` is undefined, the model stops. -/
def loop (cols : ℕ → ℤ) (ne : ℕ) : List Row → Sizes → Sizes
  | [], s => s
  | r :: rs, s =>
    match r.cells with
    | [] => s
    | eBlock :: _ =>
      if ne ≤ eBlock then s
      else
        let s : Sizes := ⟨update s.row r.size, update s.e (cols eBlock), fUpdate cols r.cells s.f⟩
        if s.row = dynamic ∧ s.e = dynamic ∧ s.f = dynamic then s
        else loop cols ne rs s

/-- `DetectStructure` (`detect_structure.cc:39-117`); `none` stands for a failed CHECK. -/
def detectStructure (bs : Structure) (ne : ℕ) : Option Sizes :=
  let s := loop bs.cols ne bs.rows ⟨0, 0, 0⟩
  if s.row ≠ 0 ∧ s.e ≠ 0 then some s else none

/-- The specialisations in the order in which `SchurEliminatorBase::Create`
(`schur_eliminator.cc:53-143`) and `PartitionedMatrixViewBase::Create`
(`partitioned_matrix_view.cc:53-149`) test them.  A parameter that is `Eigen::Dynamic` is not
tested. -/
def specialisations : List Sizes :=
  [⟨2, 2, 2⟩, ⟨2, 2, 3⟩, ⟨2, 2, 4⟩, ⟨2, 2, dynamic⟩,
   ⟨2, 3, 3⟩, ⟨2, 3, 4⟩, ⟨2, 3, 6⟩, ⟨2, 3, 9⟩, ⟨2, 3, dynamic⟩,
   ⟨2, 4, 3⟩, ⟨2, 4, 4⟩, ⟨2, 4, 6⟩, ⟨2, 4, 8⟩, ⟨2, 4, 9⟩, ⟨2, 4, dynamic⟩,
   ⟨2, dynamic, dynamic⟩,
   ⟨3, 3, 3⟩,
   ⟨4, 4, 2⟩, ⟨4, 4, 3⟩, ⟨4, 4, 4⟩, ⟨4, 4, dynamic⟩]

/-- The condition guarding a specialisation. -/
def matchesSpec (options t : Sizes) : Bool :=
  (t.row == dynamic || options.row == t.row) && (t.e == dynamic || options.e == t.e) &&
    (t.f == dynamic || options.f == t.f)

/-- `SchurEliminatorBase::Create`, `PartitionedMatrixViewBase::Create`: the template arguments. -/
def create (options : Sizes) : Sizes :=
  match specialisations.find? (matchesSpec options) with
  | some t => t
  | none => ⟨dynamic, dynamic, dynamic⟩

/-- Which eliminator `SchurComplementSolver::SolveImpl` makes
(`schur_complement_solver.cc:109-132`). -/
inductive Eliminator where
  | general (t : Sizes)
  | oneFBlock (t : Sizes)

/-- `schur_complement_solver.cc:109-132`; `numCols` is `bs->cols.size()`. -/
def chooseEliminator (bs : Structure) (numCols ne : ℕ) : Option Eliminator :=
  (detectStructure bs ne).map fun s =>
    if s.row = 2 ∧ s.e = 3 ∧ s.f = 6 ∧ numCols - ne = 1 then .oneFBlock ⟨2, 3, 6⟩
    else .general (create s)

end Ceres.Detect
