import Verif.SchurDirect.Model
import Verif.Graph.Model
import Mathlib.Analysis.Real.Sqrt

/-!
# Visibility based preconditioning: CLUSTER_JACOBI and CLUSTER_TRIDIAGONAL

`visibility.cc`, `canonical_views_clustering.cc`, `visibility_based_preconditioner.cc`.  The cameras (f blocks) are
clustered by the points (e blocks) they see; the preconditioner is the part of the Schur complement inside the clusters
and, for CLUSTER_TRIDIAGONAL, between clusters joined in a forest; it is factorised by a sparse Cholesky factorisation.

Every `btree_set<int>` is the list of its elements in increasing order.  The order in which a loop over a hash set or
a hash map runs is arbitrary: it is given by `Orders`.  The Schur complement is computed by the elimination of
`Verif.SchurThreads`, stored in the flat array of a `BlockRandomAccessSparseMatrix` as in `Verif.SchurDirect`.  A `CHECK`
that fails is `none`.  Rounding is not modelled.
-/

noncomputable section

namespace Ceres.Visibility

open Ceres.BlockSparse Ceres.Direct Ceres.SchurThreads Ceres.SchurDirect Ceres.Graph

/-! ## Visibility -/

/-- `btree_set<int>::insert`. -/
def insertId (x : ℕ) : List ℕ → List ℕ
  | [] => [x]
  | a :: l => if x < a then x :: a :: l else if x = a then a :: l else a :: insertId x l

/-- One row block in `ComputeVisibility` (visibility.cc:60-73).  A row block without cells is undefined. -/
def visibilityRow (ne : ℕ) (vis : ℕ → List ℕ) (r : BRow) : ℕ → List ℕ :=
  match r.cells with
  | [] => vis
  | c :: cs =>
    if ne ≤ c.blockId then vis
    else cs.foldl (fun vis d =>
      Function.update vis (d.blockId - ne) (insertId c.blockId (vis (d.blockId - ne)))) vis

/-- `ComputeVisibility` (visibility.cc:49-74): `visibility[camera]`, for `camera < bs.cols.size() - ne`. -/
def computeVisibility (bs : BS) (ne : ℕ) : ℕ → List ℕ := bs.rows.foldl (visibilityRow ne) fun _ => []

/-- `num_points` (visibility.cc:82-87). -/
def numPoints (vis : ℕ → List ℕ) (n : ℕ) : ℕ :=
  (List.range n).foldl (fun p i => match (vis i).getLast? with | none => p | some v => max p (v + 1)) 0

/-- `inverse_visibility` (visibility.cc:94-100). -/
def inverseVisibility (vis : ℕ → List ℕ) (n : ℕ) : ℕ → List ℕ :=
  (List.range n).foldl
    (fun inv i => (vis i).foldl (fun inv v => Function.update inv v (insertId i (inv v))) inv) fun _ => []

/-- `camera_pairs` (visibility.cc:104-116); a pair that was never counted has no entry. -/
def cameraPairs (vis : ℕ → List ℕ) (n : ℕ) : ℕ × ℕ → ℕ :=
  (List.range (numPoints vis n)).foldl
    (fun m v => (Schur.upperPairs (inverseVisibility vis n v)).foldl (fun m p => Function.update m p (m p + 1)) m)
    fun _ => 0

/-- The graph built by the default constructor (graph.h:198-203). -/
def emptyGraph : WGraph ℕ ℝ := ⟨[], fun _ => [], fun _ => 0, fun _ => 0⟩

/-- `CreateSchurComplementGraph` (visibility.cc:76-146).  `pairs` is the order in which the loop over `camera_pairs`
visits its keys. -/
def schurGraph (vis : ℕ → List ℕ) (n : ℕ) (pairs : List (ℕ × ℕ)) : WGraph ℕ ℝ :=
  let g := (List.range n).foldl (fun g i => (g.addVertex i 1).addEdge i i 1) emptyGraph
  pairs.foldl
    (fun g p => g.addEdge p.1 p.2
      ((cameraPairs vis n p : ℝ) / Real.sqrt (((vis p.1).length * (vis p.2).length : ℕ) : ℝ))) g

/-! ## Canonical views -/

/-- `CanonicalViewsClusteringOptions` (canonical_views_clustering.h:104-122). -/
structure ViewOptions where
  minViews : ℕ
  sizePenaltyWeight : ℝ
  similarityPenaltyWeight : ℝ
  viewScoreWeight : ℝ

/-- `view_to_canonical_view_` and `view_to_canonical_view_similarity_`, which has the default 0
(canonical_views_clustering.cc:74-78). -/
structure Assignment where
  view : ℕ → Option ℕ
  similarity : ℕ → ℝ

/-- `ComputeClusteringQualityDifference` (canonical_views_clustering.cc:150-181). -/
def qualityDifference (o : ViewOptions) (g : WGraph ℕ ℝ) (s : Assignment) (candidate : ℕ) (centers : List ℕ) : ℝ :=
  let d := o.viewScoreWeight * g.vertexWeights candidate
  let d := (g.nbrs candidate).foldl
    (fun d x => if s.similarity x < g.edgeWeight x candidate then d + (g.edgeWeight x candidate - s.similarity x)
      else d) d
  let d := d - o.sizePenaltyWeight
  centers.foldl (fun d c => d - o.similarityPenaltyWeight * g.edgeWeight c candidate) d

/-- `UpdateCanonicalViewAssignments` (canonical_views_clustering.cc:183-196). -/
def updateAssignments (g : WGraph ℕ ℝ) (s : Assignment) (center : ℕ) : Assignment :=
  (g.nbrs center).foldl
    (fun s x => if s.similarity x < g.edgeWeight x center then
      ⟨Function.update s.view x (some center), Function.update s.similarity x (g.edgeWeight x center)⟩ else s) s

/-- The loop that finds the best view (canonical_views_clustering.cc:109-123); `none`: there is no view.  That the
differences are greater than `-DBL_MAX` is taken for granted. -/
def bestView (difference : ℕ → ℝ) (valid : List ℕ) : Option (ℝ × ℕ) :=
  valid.foldl (fun best v =>
    match best with
    | none => some (difference v, v)
    | some b => if b.1 < difference v then some (difference v, v) else some b) none

/-- The loop over the valid views (canonical_views_clustering.cc:106-134): the centers and the assignment.  `fuel`
bounds the number of iterations; `none` means that it was not enough. -/
def canonicalLoop (o : ViewOptions) (g : WGraph ℕ ℝ) :
    ℕ → List ℕ → List ℕ → Assignment → Option (List ℕ × Assignment)
  | 0, valid, centers, s => if valid = [] then some (centers, s) else none
  | fuel + 1, valid, centers, s =>
    if valid = [] then some (centers, s)
    else (bestView (fun v => qualityDifference o g s v centers) valid).bind fun b =>
      if b.1 ≤ 0 ∧ o.minViews ≤ centers.length then some (centers, s)
      else canonicalLoop o g fuel (valid.erase b.2) (centers ++ [b.2]) (updateAssignments g s b.2)

/-- `center_to_cluster_id` (canonical_views_clustering.cc:204-208): the last index wins. -/
def clusterIdOf (centers : List ℕ) (c : ℕ) : Option ℕ :=
  ((List.range centers.length).filter fun i => centers[i]? = some c).getLast?

/-- `ComputeClusterMembership` (canonical_views_clustering.cc:198-224) for one view; `none`: `FindOrDie` dies. -/
def clusterId (centers : List ℕ) (s : Assignment) (v : ℕ) : Option ℤ :=
  match s.view v with
  | none => some (-1)
  | some c => (clusterIdOf centers c).map Int.ofNat

/-- `ComputeCanonicalViewsClustering` (canonical_views_clustering.cc:81-149): the centers and the membership.  All
views are valid: a weight is never equal to NaN, with which `FindValidViews` compares it.  `valid` is the order of the
set of valid views. -/
def canonicalViews (o : ViewOptions) (g : WGraph ℕ ℝ) (valid : List ℕ) : Option (List ℕ × (ℕ → ℤ)) :=
  (canonicalLoop o g valid.length valid [] ⟨fun _ => none, fun _ => 0⟩).bind fun r =>
    if (g.vertices.all fun v => (clusterId r.1 r.2 v).isSome) then
      some (r.1, fun v => (clusterId r.1 r.2 v).getD (-1))
    else none

/-! ## Clusters -/

/-- The orders of the loops over hash sets and hash maps, and what `std::sort` returns. -/
structure Orders where
  /-- `camera_pairs` (visibility.cc:131). -/
  cameraPairs : (ℕ × ℕ → ℕ) → List (ℕ × ℕ)
  /-- The vertices and the neighbours of a graph. -/
  graph : WGraph ℕ ℝ → WGraph ℕ ℝ
  /-- `valid_views` (canonical_views_clustering.cc:114). -/
  valid : List ℕ → List ℕ
  /-- `membership`: in single_linkage_clustering.cc:83. -/
  linkage : List ℕ → List ℕ
  /-- `membership_map`: in visibility_based_preconditioner.cc:551. -/
  members : List ℕ → List ℕ
  /-- The sorted edges (graph_algorithms.h:293). -/
  sort : List (ℝ × ℕ × ℕ) → List (ℝ × ℕ × ℕ)

/-- The options of the preconditioner: `CLUSTER_TRIDIAGONAL` or `CLUSTER_JACOBI`, `CANONICAL_VIEWS` or
`SINGLE_LINKAGE`. -/
structure Config where
  tridiagonal : Bool
  canonical : Bool

/-- One entry in `FlattenMembershipMap` (visibility_based_preconditioner.cc:551-575): the keys of
`cluster_id_to_index` in the order of their indices, and `membership_vector`. -/
def flattenStep (num : ℕ) (membership : ℕ → ℤ) (s : List ℤ × (ℕ → ℕ)) (camera : ℕ) :
    Option (List ℤ × (ℕ → ℕ)) :=
  let id : ℤ := if membership camera = -1 then ((camera % num : ℕ) : ℤ) else membership camera
  let index := s.1.idxOf id
  let ids := if index = s.1.length then s.1 ++ [id] else s.1
  if index < num then some (ids, Function.update s.2 camera index) else none

/-- `FlattenMembershipMap` (visibility_based_preconditioner.cc:540-576). -/
def flatten (num : ℕ) (membership : ℕ → ℤ) (members : List ℕ) : Option (ℕ → ℕ) :=
  (members.foldlM (flattenStep num membership) ([], fun _ => 0)).map Prod.snd

/-- The constants of visibility_based_preconditioner.cc:65-67, the other options have their default values
(canonical_views_clustering.h:104-122). -/
def viewOptions : ViewOptions := ⟨3, 3, 0, 0⟩

/-- `ClusterCameras` (visibility_based_preconditioner.cc:174-202): the number of clusters and the cluster of each of
the `n` cameras. -/
def clusterCameras (cfg : Config) (o : Orders) (vis : ℕ → List ℕ) (n : ℕ) : Option (ℕ × (ℕ → ℕ)) :=
  let g := o.graph (schurGraph vis n (o.cameraPairs (cameraPairs vis n)))
  let r : Option (ℕ × (ℕ → ℤ)) :=
    if cfg.canonical then (canonicalViews viewOptions g (o.valid g.vertices)).map fun r => (r.1.length, r.2)
    else (singleLinkage g.vertices.length g (9 / 10) (o.linkage g.vertices)).map fun r =>
      (r.1, fun v => (r.2 v : ℤ))
  r.bind fun r =>
    if 0 < r.1 then (flatten r.1 r.2 (o.members g.vertices)).map fun m => (r.1, m) else none

/-- `ComputeClusterVisibility` (visibility_based_preconditioner.cc:483-495). -/
def clusterVisibility (vis : ℕ → List ℕ) (n : ℕ) (cluster : ℕ → ℕ) : ℕ → List ℕ :=
  (List.range n).foldl
    (fun cv i => Function.update cv (cluster i) ((vis i).foldl (fun l v => insertId v l) (cv (cluster i)))) fun _ => []

/-- `set_intersection` of two sorted ranges. -/
def intersection (a b : List ℕ) : List ℕ := a.filter fun x => x ∈ b

/-- `CreateClusterGraph` (visibility_based_preconditioner.cc:499-531). -/
def clusterGraph (cv : ℕ → List ℕ) (num : ℕ) : WGraph ℕ ℝ :=
  let g := (List.range num).foldl (fun g i => g.addVertex i 1) emptyGraph
  (List.range num).foldl
    (fun g i => (List.range' (i + 1) (num - (i + 1))).foldl
      (fun g j => if 0 < (intersection (cv i) (cv j)).length then
        g.addEdge i j ((intersection (cv i) (cv j)).length : ℝ) else g) g) g

/-- `ForestToClusterPairs` (visibility_based_preconditioner.cc:457-478). -/
def forestPairs (forest : WGraph ℕ ℝ) (num : ℕ) : Option (List (ℕ × ℕ)) :=
  if forest.vertices.length = num then
    some (forest.vertices.flatMap fun c => (c, c) :: ((forest.nbrs c).filter fun d => c < d).map fun d => (c, d))
  else none

/-- `cluster_pairs_`: `ComputeClusterJacobiSparsity` and `ComputeClusterTridiagonalSparsity` after `ClusterCameras`
(visibility_based_preconditioner.cc:122-158). -/
def clusterPairs (cfg : Config) (o : Orders) (vis : ℕ → List ℕ) (n num : ℕ) (cluster : ℕ → ℕ) :
    Option (List (ℕ × ℕ)) :=
  if cfg.tridiagonal then
    let g := o.graph (clusterGraph (clusterVisibility vis n cluster) num)
    (spanningForest g.vertices.length g (o.sort g.candidates)).bind fun f => forestPairs (o.graph f) num
  else some ((List.range num).map fun i => (i, i))

/-- `IsBlockPairInPreconditioner` (visibility_based_preconditioner.cc:442-450). -/
def inPreconditioner (cluster : ℕ → ℕ) (pairs : List (ℕ × ℕ)) (x y : ℕ) : Bool :=
  if cluster y < cluster x then decide ((cluster y, cluster x) ∈ pairs) else decide ((cluster x, cluster y) ∈ pairs)

/-- The pairs that `ComputeBlockPairsInPreconditioner` inserts (visibility_based_preconditioner.cc:224-303), in that
order; the ids count from the first f block.  Chunks and their f blocks as in `Schur.blockPairs`. -/
def insertedPairs (bs : BS) (ne : ℕ) (cluster : ℕ → ℕ) (pairs : List (ℕ × ℕ)) : List (ℕ × ℕ) :=
  let d := Schur.detectChunks ne (rowsOf bs (fun _ => 0) fun _ => 0)
  (List.range (bs.cols.length - ne)).map (fun b => (b, b)) ++
    d.1.flatMap (fun ch => (Schur.upperPairs ((Schur.bufferKeys ch.2).map fun b => b - ne)).filter fun p =>
      inPreconditioner cluster pairs p.1 p.2) ++
    d.2.flatMap fun r => ((Schur.rowPairs r).map fun p => (p.1 - ne, p.2 - ne)).filter fun p =>
      inPreconditioner cluster pairs p.1 p.2

/-- What the constructor leaves (visibility_based_preconditioner.cc:69-114). -/
structure Prec where
  numClusters : ℕ
  cluster : ℕ → ℕ
  clusterPairs : List (ℕ × ℕ)
  blockPairs : List (ℕ × ℕ)

/-- The constructor (visibility_based_preconditioner.cc:69-114, 160-165).  The options are valid: there are two
elimination groups, of which the first has `ne > 0` blocks. -/
def construct (cfg : Config) (o : Orders) (bs : BS) (ne : ℕ) : Option Prec :=
  if 0 < bs.cols.length - ne then
    let vis := computeVisibility bs ne
    (clusterCameras cfg o vis (bs.cols.length - ne)).bind fun c =>
      (clusterPairs cfg o vis (bs.cols.length - ne) c.1 c.2).map fun pairs =>
        ⟨c.1, c.2, pairs, (insertedPairs bs ne c.2 pairs).foldl (fun s p => insertPair p s) []⟩
  else none

/-! ## The matrix -/

/-- `BlockRandomAccessSparseMatrix(blocks_, block_pairs_)`: `GetCell` as in `SchurDirect.sparseStorage`
(block_random_access_sparse_matrix.cc:47-117). -/
def pairStorage (bs : BS) (ne : ℕ) (ps : List (ℕ × ℕ)) : Storage where
  blocks := tail bs.cols ne
  cols := ((raStructure (tail bs.cols ne) ps).cols.map Block.size).sum
  cell := fun x y => (layoutFind (raStructure (tail bs.cols ne) ps) x y).map fun p =>
    ⟨p, 0, 0, (blockAt (tail bs.cols ne) x).size, (blockAt (tail bs.cols ne) y).size⟩

/-- `*= 0.5` on one element. -/
def halve (v : Vec) (a : ℕ) : Vec := Function.update v a (v a * (1 / 2))

/-- `m.block(r, c, rows, cols) *= 0.5` (visibility_based_preconditioner.cc:391-392). -/
def halveCell (v : Vec) (c : CellRef) (rows cols : ℕ) : Vec :=
  (List.range rows).foldl (fun v i => (List.range cols).foldl (fun v j => halve v (c.address i j)) v) v

/-- `ScaleOffDiagonalCells` (visibility_based_preconditioner.cc:372-394). -/
def scaleOffDiagonal (bs : BS) (ne : ℕ) (P : Prec) (v : Vec) : Option Vec :=
  P.blockPairs.foldlM (fun v p =>
    if P.cluster p.1 ≠ P.cluster p.2 then
      ((pairStorage bs ne P.blockPairs).cell p.1 p.2).map fun c =>
        halveCell v c (blockAt (tail bs.cols ne) p.1).size (blockAt (tail bs.cols ne) p.2).size
    else some v) v

/-- `Factorize` (visibility_based_preconditioner.cc:398-426): whether it succeeded. -/
def factorize (c : SparseChol) (K : Kept c) (M : BMat ℝ) (old : Vec) : Option (Bool × Kept c) :=
  (theCrs c.upper K.crs M old).map fun A => ((c.factorize K.chol A).1, ⟨some A, (c.factorize K.chol A).2⟩)

/-- `UpdateImpl` after the elimination (visibility_based_preconditioner.cc:344-364): what it returns and what is kept.
`fatal`: the first factorisation, if it does not succeed, returns FATAL_ERROR and not FAILURE. -/
def updateFrom (cfg : Config) (c : SparseChol) (fatal : Bool) (bs : BS) (ne : ℕ) (P : Prec) (K : Kept c) (old v : Vec) :
    Option (Bool × Kept c) :=
  let R := raStructure (tail bs.cols ne) P.blockPairs
  (factorize c K (BMat.ofStructure R v) old).bind fun f =>
    if f.1 = false ∧ fatal = true then some (false, f.2)
    else if f.1 = false ∧ cfg.tridiagonal = true then
      (scaleOffDiagonal bs ne P v).bind fun v' => factorize c f.2 (BMat.ofStructure R v') old
    else some f

/-- `UpdateImpl` (visibility_based_preconditioner.cc:322-365) on any number of threads; `none`: it does not return.
The eliminator is always the general one, and gets no right hand side. -/
def Update (cfg : Config) (c : SparseChol) (fatal : Bool) (inv : Schur.Inverter) (ne : ℕ) (P : Prec) (K : Kept c)
    (A : BMat ℝ) (D : Option Vec) (threads : ℕ) (o : Option (Bool × Kept c)) : Prop :=
  if (pairStorage A.bs ne P.blockPairs).cols = 0 then o = none
  else ∃ m e, EliminateRun inv ne A.bs.cols.length ((pairStorage A.bs ne P.blockPairs).has ne)
      (rowsOf A.bs A.values fun _ => 0) (D.map (blocksOf A.bs)) false threads m e ∧
    match e with
    | none => o = none
    | some m' => ∃ v old, (pairStorage A.bs ne P.blockPairs).Holds ne (szOf A.bs) v m' ∧
        o = updateFrom cfg c fatal A.bs ne P K old v

/-- `RightMultiplyAndAccumulate` (visibility_based_preconditioner.cc:428-435): what is then in `y`; `Solve` overwrites
it. -/
def apply {c : SparseChol} (K : Kept c) (x : Vec) : Vec := (c.solve K.chol x).2

/-- The preconditioner after some updates. -/
inductive After (cfg : Config) (c : SparseChol) (inv : Schur.Inverter) (ne : ℕ) (P : Prec) (threads : ℕ) :
    List (BMat ℝ × Option Vec) → Kept c → Prop where
  | nil : After cfg c inv ne P threads [] ⟨none, c.init⟩
  | snoc {calls : List (BMat ℝ × Option Vec)} {K : Kept c} (fatal : Bool) (A : BMat ℝ) (D : Option Vec) (ok : Bool)
      (K' : Kept c) : After cfg c inv ne P threads calls K →
      Update cfg c fatal inv ne P K A D threads (some (ok, K')) →
      After cfg c inv ne P threads (calls ++ [(A, D)]) K'

end Ceres.Visibility
