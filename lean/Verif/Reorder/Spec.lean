import Verif.Reorder.Sparsity
import Verif.SchurDirect.Spec
import Verif.Graph.Groups
import Verif.Evaluator.Layout

/-!
# Specification of the preparation of a program for its linear solver (C91)
-/
namespace Ceres.Reorder

open Ceres.Graph Ceres.BlockSparse Ceres.InnerProduct

variable {B R V : Type} [DecidableEq B] [DecidableEq V]

/-- What is expected of the libraries: the orderings are permutations, CAMD respects the constraints,
`std::stable_sort` and `std::partition` do what the standard says. -/
structure Library.Ok (L : Library B R) : Prop where
  cholmod : ∀ ot t, ∃ l, L.cholmodOrder ot t = some l ∧ l.Perm (List.range t.numRows)
  camd : ∀ t c, c.length = t.numRows → (∀ x ∈ c, x < t.numRows) → ∃ l, L.camd t c = some l ∧
    l.Perm (List.range t.numRows) ∧ l.Pairwise fun i j => c.getD i 0 ≤ c.getD j 0
  eigen : ∀ ot M, (L.eigenOrder ot M).Perm (List.range M.size)
  stableSort : ∀ (g : Graph.Graph B) l, g.StablySorted l (L.stableSort g l)
  partition : ∀ f l, (L.partition f l).Perm l ∧
    ∃ yes no, L.partition f l = yes ++ no ∧ (∀ r ∈ yes, f r = true) ∧ ∀ r ∈ no, f r = false

/-- `index()` is the position in the program. -/
def Indexed (p : Program B R) : Prop := ∀ b i, p.index b = some i ↔ p.blocks[i]? = some b

/-- A program as it is left by the removal of the fixed blocks (C05): the parameter blocks are
variable, different, and all used; every residual block depends on one of them, and on other blocks
only if these are constant. -/
structure Reduced (W : World B R V) (p : Program B R) : Prop where
  nonempty : p.blocks ≠ []
  nodup : p.blocks.Nodup
  indexed : Indexed p
  isVar : ∀ b ∈ p.blocks, W.isConst b = false
  used : ∀ b ∈ p.blocks, ∃ r ∈ p.residuals, b ∈ W.args r
  argsNodup : ∀ r ∈ p.residuals, (W.args r).Nodup
  closed : ∀ r ∈ p.residuals, ∀ b ∈ W.args r, W.isConst b = false → b ∈ p.blocks
  depends : ∀ r ∈ p.residuals, ∃ b ∈ W.args r, W.isConst b = false
  sizes : ∀ b ∈ p.blocks, 0 < W.tangentSize b
  residualSizes : ∀ r ∈ p.residuals, 0 < W.numResiduals r

/-- The same program in another order. -/
structure Rearranged (p q : Program B R) : Prop where
  blocks : q.blocks.Perm p.blocks
  residuals : q.residuals.Perm p.residuals
  indexed : Indexed q

/-- No residual block depends on two blocks of group `g`. -/
def IndependentGroup (W : World B R V) (p : Program B R) (G : Groups V) (g : ℤ) : Prop :=
  ∀ r ∈ p.residuals, ∀ a ∈ W.args r, ∀ b ∈ W.args r, G.groupId (W.user a) = g → G.groupId (W.user b) = g → a = b

/-- An ordering that a Schur type solver can use: it has as many elements as the program has blocks,
and if there are several groups, then its elements are blocks of the problem, all blocks of the
program are in it, and the first group is independent. -/
def Usable (W : World B R V) (known : V → Bool) (G : Groups V) (p : Program B R) : Prop :=
  G.numElements = p.blocks.length ∧
  (G.numGroups ≠ 1 → (∀ v, 0 ≤ G.groupId v → known v = true) ∧ (∀ b ∈ p.blocks, 0 ≤ G.groupId (W.user b)) ∧
    ∀ g : ℕ, G.minNonZeroGroup = some g → IndependentGroup W p G g)

/-- A program `q` ready for a Schur type solver that eliminates the first `ne` parameter blocks. -/
structure SchurReady (W : World B R V) (p q : Program B R) (G : Groups V) (ne : ℕ) : Prop where
  same : Rearranged p q
  /-- the blocks to eliminate are the first group of the ordering -/
  group : ∃ g : ℕ, G.minNonZeroGroup = some g ∧ (orderingToGroupSizes (some G)).head? = some ne ∧
    ∀ b ∈ q.blocks, b ∈ q.blocks.take ne ↔ G.groupId (W.user b) = g
  pos : 1 ≤ ne
  le : ne ≤ q.blocks.length
  independent : ∀ r ∈ q.residuals, ∀ a ∈ W.args r, ∀ b ∈ W.args r, a ∈ q.blocks.take ne → b ∈ q.blocks.take ne → a = b

/-- The Jacobian of the program is made and has all that the Schur complement solvers need. -/
structure SchurJacobian {K : Type} (W : World B R V) (q : Program B R) (ne : ℕ) (values : ℕ → K) (J : BMat K) : Prop where
  made : createJacobian W ne q values = some J
  ok : J.Ok
  ordered : SchurDirect.SchurOrdered ne J.bs
  blocks : ne ≤ J.bs.cols.length
  cols : ∀ b ∈ J.bs.cols, 0 < b.size
  rows : ∀ r ∈ J.bs.rows, 0 < r.block.size
  first : ∃ r ∈ J.bs.rows.head?, ∃ c ∈ r.cells, c.blockId < ne

end Ceres.Reorder
