/-!
# Small index utilities

Models of `parallel_utils.cc`, `array_utils.cc` (MapValuesToContiguousRange) and
`compressed_col_sparse_matrix_utils.cc` (BlockOrderingToScalarOrdering).
Integers do not overflow.
-/
namespace Ceres.Util

/-- `LinearIndexToUpperTriangularIndex` (parallel_utils.cc:35-87). -/
def linearToUpper (k n : Nat) : Nat × Nat :=
  if n % 2 = 1 then
    let i0 := k / n
    let j0 := k % n
    if j0 ≥ i0 then (i0, j0) else (n - i0, n - i0 + j0)
  else
    let i0 := k / (n + 1)
    let j0 := k % (n + 1)
    if j0 > i0 then (i0, j0 - 1) else (n - 1 - i0, n - 1 - i0 + j0)

/-- `std::unique` on a sorted range (array_utils.cc:95-96): drops elements equal to their
predecessor. -/
def uniq : List Int → List Int
  | [] => []
  | [x] => [x]
  | x :: y :: l => if x = y then uniq (y :: l) else x :: uniq (y :: l)

/-- `std::lower_bound` on a sorted range: index of the first element not less than `v`
(linear instead of binary search). -/
def lowerBound : List Int → Int → Nat
  | [], _ => 0
  | x :: l, v => if x < v then lowerBound l v + 1 else 0

/-- `MapValuesToContiguousRange` (array_utils.cc:92-103). -/
def mapToContiguous (a : List Int) : List Nat :=
  let u := uniq (a.mergeSort (fun x y => decide (x ≤ y)))
  a.map (lowerBound u)

/-- `Block` (block_structure.h:44-52). -/
structure Block where
  size : Nat
  position : Nat
  deriving DecidableEq, Repr

/-- The inner loop (compressed_col_sparse_matrix_utils.cc:102-104): writes
`pos, pos+1, ...` at `cursor, cursor+1, ...`.  `none` is an out-of-range write. -/
def writeRun : Nat → List Nat → Nat → Nat → Option (List Nat × Nat)
  | 0, out, cursor, _ => some (out, cursor)
  | n + 1, out, cursor, pos =>
    if cursor < out.length then writeRun n (out.set cursor pos) (cursor + 1) (pos + 1) else none

/-- The outer loop (lines 98-105). -/
def writeBlocks (blocks : List Block) : List Nat → List Nat → Nat → Option (List Nat)
  | [], out, _ => some out
  | b :: ord, out, cursor =>
    match blocks[b]? with
    | none => none
    | some blk =>
      match writeRun blk.size out cursor blk.position with
      | none => none
      | some (out', cursor') => writeBlocks blocks ord out' cursor'

/-- `NumScalarEntries` (block_structure.h:184-191). -/
def numScalarEntries (blocks : List Block) : Nat :=
  match blocks.getLast? with
  | none => 0
  | some b => b.position + b.size

/-- `BlockOrderingToScalarOrdering` (lines 91-107); `none` is the failed `CHECK_EQ` or an
out-of-range access.  The old content of the output vector is `old`. -/
def blockToScalar (blocks : List Block) (ord old : List Nat) : Option (List Nat) :=
  if blocks.length ≠ ord.length then none
  else writeBlocks blocks ord
    ((old ++ List.replicate (numScalarEntries blocks) 0).take (numScalarEntries blocks)) 0

end Ceres.Util
