import Verif.CrsView.Main

/-!
# The partitioned view of a block sparse matrix on the GPU
(cuda_block_structure.cc, cuda_kernels_bsm_to_crs.cu.cc, cuda_partitioned_block_sparse_crs_view.cc)

The values that `UpdateValues` gives to the F sub-matrix when they are not in the order of compressed rows.  Only
tests and benchmarks use this view.
-/
namespace Ceres.CrsView

open Ceres.BlockSparse

variable {K : Type}

/-! ## Model -/

/-- `CudaBlockSparseStructure` with `num_col_blocks_e` (cuda_block_structure.h): in addition to `Flat`, the number
of row blocks with an E cell and of values of E, and `value_offset_row_block_f`. -/
structure FlatP where
  flat : Flat
  numRowBlocksE : ℕ
  nnzE : ℕ
  offsets : List ℕ
  deriving DecidableEq

/-- The variables of the constructor (cuda_block_structure.cc:63-90); -1 is `none`. -/
structure ScanP where
  offsetF : Option ℕ
  nnzE : ℕ
  nnz : ℕ
  sequential : Bool
  compatible : Bool
  undefined : Bool
  offsets : List (Option ℕ)
  rowBlocks : List Block
  firstCell : List ℕ
  cells : List Cell

/-- Elements -1 at the end get a value (cuda_block_structure.cc:125-130, 186-191). -/
def fill (v : ℕ) (l : List (Option ℕ)) : List (Option ℕ) :=
  ((l.reverse.takeWhile (·.isNone)).map fun _ => some v) ++ l.reverse.dropWhile (·.isNone) |>.reverse

/-- An F cell (cuda_block_structure.cc:117-122, 171-176). -/
def ScanP.cellF (bs : BS) (size : ℕ) (s : ScanP) (c : Cell) : ScanP :=
  let start := match s.offsetF with
    | none => c.position
    | some _ => s.nnz
  { s with
    offsetF := some (s.offsetF.getD c.position)
    sequential := s.sequential && decide (c.position = start)
    nnz := start + (bs.col c.blockId).size * size
    cells := s.cells ++ [c] }

/-- A row block with an E cell `e` and the F cells `cs` (cuda_block_structure.cc:91-142). -/
def ScanP.rowE (bs : BS) (s : ScanP) (b : Block) (e : Cell) (cs : List Cell) : ScanP :=
  cs.foldl (ScanP.cellF bs b.size)
    { s with
      compatible := if 2 < cs.length + 1 ∧ 1 < b.size then false else s.compatible
      rowBlocks := s.rowBlocks ++ [b]
      firstCell := s.firstCell ++ [s.cells.length]
      cells := s.cells ++ [e]
      nnzE := s.nnzE + (bs.col e.blockId).size * b.size
      offsets := match cs with
        | [] => s.offsets ++ [none]
        | c :: _ => fill c.position s.offsets ++ [some c.position] }

/-- A row block after them (cuda_block_structure.cc:143-179); for lines 159-164 see `scanRow`. -/
def ScanP.rowF (bs : BS) (s : ScanP) (r : BRow) : ScanP :=
  r.cells.foldl (ScanP.cellF bs r.block.size)
    { s with
      compatible := if 1 < r.cells.length ∧ 1 < r.block.size then false else s.compatible
      rowBlocks := s.rowBlocks ++ [r.block]
      firstCell := s.firstCell ++ [s.cells.length]
      undefined := s.undefined || (s.offsets.getLast? = some none && !r.cells.isEmpty)
      offsets := s.offsets ++ [r.cells.head?.map (·.position)] }

/-- The two loops over the row blocks; the result has also `num_row_blocks_e`. -/
def ScanP.rows (bs : BS) (numColBlocksE : ℕ) : ℕ → ScanP → List BRow → ℕ × ScanP
  | n, s, [] => (n, s)
  | n, s, r :: rs =>
    match r.cells with
    | [] => (n, (r :: rs).foldl (ScanP.rowF bs) s)
    | e :: cs =>
      if numColBlocksE ≤ e.blockId then (n, (r :: rs).foldl (ScanP.rowF bs) s)
      else ScanP.rows bs numColBlocksE (n + 1) (s.rowE bs r.block e cs) rs

/-- `CudaBlockSparseStructure` (cuda_block_structure.cc:54-235); `none`: undefined, or a `CHECK` fails.  The
`DCHECK`s are not modelled. -/
def flattenP (bs : BS) (numColBlocksE : ℕ) : Option FlatP :=
  let (n, s) := ScanP.rows bs numColBlocksE 0 ⟨none, 0, 0, true, true, false, [], [], [], []⟩ bs.rows
  let nnz := match s.offsetF with
    | none => s.nnzE
    | some _ => s.nnz
  if s.undefined = false ∧ s.offsetF.getD s.nnzE = s.nnzE ∧ s.sequential = true then
    some ⟨⟨bs.rows.length, s.firstCell ++ [s.cells.length], s.cells, s.rowBlocks, bs.cols, s.compatible⟩, n, s.nnzE,
      (fill nnz s.offsets).map (·.getD 0) ++ [nnz]⟩
  else none

/-- A thread of `PermuteToCrsKernel<true>` (cuda_kernels_bsm_to_crs.cu.cc:356-417). -/
def FlatP.permute (f : FlatP) (rows : ℕ → ℕ) (id : ℕ) : Option (Option ℕ) :=
  (partitionPoint (fun i => f.offsets[i]?.map fun o => decide (o ≤ id)) 0 f.flat.numRowBlocks).bind fun m =>
    if 1 ≤ m ∧ m ≤ f.flat.numRowBlocks then
      some (f.flat.permuteCells rows (f.flat.row (m - 1)) id
        (if m - 1 < f.numRowBlocksE then (f.flat.cellsOf (m - 1)).drop 1 else f.flat.cellsOf (m - 1)) 0)
    else none

/-- The call of `CopyToGpu` in `UpdateValues` (cuda_partitioned_block_sparse_crs_view.cc:125-147): the values are
sent from the first on, and value number `offset + i` has the label `num_nonzeros_e + offset + i`. -/
def FlatP.call (f : FlatP) (rowsF : ℕ → ℕ) (M : BMat K) (viaPinned : Bool) : Call K where
  «from» := M.values
  num := M.nnz
  per := maxTemporaryArraySize / numBatches
  viaPinned := viaPinned
  dest := fun i => f.permute rowsF (f.nnzE + i)

/-! ## What the F sub-matrix gets -/

/-- **The place of value number `id` gets value number `id - num_nonzeros_e`**, for every matrix, schedule and
kind of memory, whenever the kernel is defined and gives different values different places. -/
theorem partitioned_shifts {f : FlatP} {rowsF : ℕ → ℕ} {M : BMat K} {viaPinned : Bool}
    (hc : (f.call rowsF M viaPinned).Ok) {pinned gpu out : ℕ → K} {s : St K}
    (h : Reach (f.call rowsF M viaPinned) pinned gpu out s) (hd : s.host = .done) {id q : ℕ} (h1 : f.nnzE ≤ id)
    (h2 : id < f.nnzE + M.nnz) (hq : f.permute rowsF id = some (some q)) : s.out q = M.values (id - f.nnzE) := by
  refine (copy_correct hc h hd).1 (id - f.nnzE) (by show _ < M.nnz; omega) q ?_
  show f.permute rowsF (f.nnzE + (id - f.nnzE)) = _
  rw [Nat.add_sub_cancel' h1, hq]

/-- A row block of two rows, an E block and two F blocks of one column; the values of E come first. -/
def split : BMat ℤ :=
  BMat.ofStructure ⟨[⟨1, 0⟩, ⟨1, 1⟩, ⟨1, 2⟩], [⟨⟨2, 0⟩, [⟨0, 0⟩, ⟨1, 2⟩, ⟨2, 4⟩], 0, 0⟩]⟩ fun i => i + 1

/-- Its structure. -/
def splitFlat : FlatP :=
  ⟨⟨1, [0, 3], [⟨0, 0⟩, ⟨1, 2⟩, ⟨2, 4⟩], [⟨2, 0⟩], [⟨1, 0⟩, ⟨1, 1⟩, ⟨1, 2⟩], false⟩, 1, 2, [2, 6]⟩

theorem split_permute {rowsF : ℕ → ℕ} (h0 : rowsF 0 = 0) (h1 : rowsF 1 = 2) {i : ℕ} (hi : i < 6) :
    splitFlat.permute rowsF (2 + i) = some ([some 0, some 2, some 1, some 3, none, none].getD i none) := by
  have hp : partitionPoint (fun k => splitFlat.offsets[k]?.map fun o => decide (o ≤ 2 + i)) 0 1 = some 1 := by
    unfold partitionPoint
    have : (splitFlat.offsets[0]?.map fun o => decide (o ≤ 2 + i)) = some true := by
      show some (decide (2 ≤ 2 + i)) = _
      rw [decide_eq_true (by omega)]
    simp only [this]
    rw [bisect, if_neg (by decide)]
  unfold FlatP.permute
  rw [show splitFlat.flat.numRowBlocks = 1 from rfl, hp]
  show some (splitFlat.flat.permuteCells rowsF ⟨2, 0⟩ (2 + i) [⟨1, 2⟩, ⟨2, 4⟩] 0) = _
  have hcol1 : (splitFlat.flat.col 1).size = 1 := rfl
  have hcol2 : (splitFlat.flat.col 2).size = 1 := rfl
  unfold Flat.permuteCells Flat.permuteCells Flat.permuteCells
  simp only [hcol1, hcol2]
  rcases (by omega : i = 0 ∨ i = 1 ∨ i = 2 ∨ i = 3 ∨ i = 4 ∨ i = 5) with rfl | rfl | rfl | rfl | rfl | rfl <;>
    simp [h0, h1]

/-- **The F sub-matrix of the view is wrong**: the matrix is `1 3 5 / 2 4 6`, its F sub-matrix `3 5 / 4 6`, and the
view holds `1 3 / 2 4`, for every schedule and kind of memory. -/
theorem partitioned_wrong : split.Ok ∧ flattenP split.bs 1 = some splitFlat ∧
    (List.range 2).map (fun r => (List.range 3).map fun c => split.entry r c) = [[1, 3, 5], [2, 4, 6]] ∧
    ∀ (rowsF : ℕ → ℕ) (viaPinned : Bool) (pinned gpu out : ℕ → ℤ), rowsF 0 = 0 → rowsF 1 = 2 →
      (∃ s, Reach (splitFlat.call rowsF split viaPinned) pinned gpu out s ∧ s.host = .done) ∧
      ∀ s, Reach (splitFlat.call rowsF split viaPinned) pinned gpu out s → s.host = .done →
        [s.out (rowsF 0), s.out (rowsF 0 + 1), s.out (rowsF 1), s.out (rowsF 1 + 1)] = [1, 3, 2, 4] := by
  refine ⟨ofStructure_ok ⟨rfl, rfl, rfl, trivial⟩ ⟨rfl, trivial⟩ (by decide) (by decide), by decide +kernel,
    by decide +kernel, fun rowsF viaPinned pinned gpu out h0 h1 => ?_⟩
  have hn : split.nnz = 6 := by decide +kernel
  have hd : ∀ i < 6, (splitFlat.call rowsF split viaPinned).dest i =
      some ([some 0, some 2, some 1, some 3, none, none].getD i none) := fun i hi => split_permute h0 h1 hi
  have hc : (splitFlat.call rowsF split viaPinned).Ok := by
    refine ⟨by show 0 < maxTemporaryArraySize / numBatches; decide, fun i hi => ?_, fun i hi j hj q hq hq' => ?_⟩
    · rw [hd i (hn ▸ hi)]; simp
    · have hi : i < 6 := hn ▸ hi
      have hj : j < 6 := hn ▸ hj
      rw [hd i hi] at hq
      rw [hd j hj] at hq'
      have key : ∀ i < 6, ∀ j < 6, ∀ q, [some 0, some 2, some 1, some 3, none, none].getD i none = some q →
          [some 0, some 2, some 1, some 3, none, none].getD j none = some q → i = j := by
        intro i hi j hj q
        rcases (by omega : i = 0 ∨ i = 1 ∨ i = 2 ∨ i = 3 ∨ i = 4 ∨ i = 5) with rfl | rfl | rfl | rfl | rfl | rfl <;>
        rcases (by omega : j = 0 ∨ j = 1 ∨ j = 2 ∨ j = 3 ∨ j = 4 ∨ j = 5) with rfl | rfl | rfl | rfl | rfl | rfl <;>
        simp <;> omega
      exact key i hi j hj q (Option.some.inj hq) (Option.some.inj hq')
  refine ⟨copy_returns hc pinned gpu out, fun s hs hdone => ?_⟩
  have h := fun i (hi : i < 6) q hq => (copy_correct hc hs hdone).1 i (by show i < split.nnz; omega) q
    ((hd i hi).trans (congrArg some hq))
  rw [h0, h1, h 0 (by omega) 0 rfl, h 1 (by omega) 2 rfl, h 2 (by omega) 1 rfl, h 3 (by omega) 3 rfl]
  rfl

end Ceres.CrsView
