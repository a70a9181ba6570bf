import Mathlib.Data.List.Basic
import Mathlib.Logic.Function.Basic
import Mathlib.Order.Defs.LinearOrder
import Mathlib.Data.Nat.Notation
import Mathlib.Data.Int.Notation
import Mathlib.Algebra.Group.Defs

/-!
# Model: graphs, orderings, clusterings, and the reordering of a program

Models `internal/ceres/graph.h`, `internal/ceres/graph_algorithms.h`,
`internal/ceres/parameter_block_ordering.cc`, `internal/ceres/single_linkage_clustering.cc`,
`include/ceres/ordered_groups.h` and the functions `ApplyOrdering` and
`LexicographicallyOrderResidualBlocks` of `internal/ceres/reorder_program.cc`.

A hash set is a list: the list fixes the order in which a loop over the hash set visits it, and the
theorems quantify over every such list.  `std::sort` and `std::stable_sort` are modelled by their
guarantee (`TotallySorted`, `StablySorted`).  A failed `CHECK` is `none`; `DCHECK`s are not modelled.
-/

namespace Ceres.Graph

/-! ## `Graph` -/

/-- `Graph` (graph.h:48-99): the vertices, and the neighbours of each vertex. -/
structure Graph (V : Type) where
  vertices : List V
  nbrs : V → List V

variable {V : Type} [DecidableEq V]

/-- `flat_hash_set::insert`. -/
def insertNew (l : List V) (x : V) : List V := if x ∈ l then l else l ++ [x]

/-- The graph built by the default constructor. -/
def Graph.empty : Graph V := ⟨[], fun _ => []⟩

/-- `Graph::AddVertex` (graph.h:52-56). -/
def Graph.addVertex (g : Graph V) (v : V) : Graph V :=
  if v ∈ g.vertices then g else ⟨g.vertices ++ [v], Function.update g.nbrs v []⟩

/-- `Graph::AddEdge` (graph.h:79-86). -/
def Graph.addEdge (g : Graph V) (v w : V) : Graph V :=
  if w ∈ g.nbrs v then g
  else
    let n := Function.update g.nbrs v (insertNew (g.nbrs v) w)
    ⟨g.vertices, Function.update n w (insertNew (n w) v)⟩

/-- `Graph::RemoveVertex` (graph.h:58-71): its return value is not used and not modelled. -/
def Graph.removeVertex (g : Graph V) (v : V) : Graph V :=
  if v ∈ g.vertices then
    let n := (g.nbrs v).foldl (fun n s => Function.update n s ((n s).erase v)) g.nbrs
    ⟨g.vertices.erase v, Function.update n v []⟩
  else g

/-- The number of neighbours, `Neighbors(v).size()`. -/
def Graph.degree (g : Graph V) (v : V) : ℕ := (g.nbrs v).length

/-! ## Independent sets -/

/-- `VertexTotalOrdering` (graph_algorithms.h:51-65). -/
def Graph.totalLess [LT V] (g : Graph V) (a b : V) : Prop :=
  if g.degree a = g.degree b then a < b else g.degree a < g.degree b

/-- `VertexDegreeLessThan` (graph_algorithms.h:67-78). -/
def Graph.degreeLess (g : Graph V) (a b : V) : Prop := g.degree a < g.degree b

/-- What `std::sort` with `VertexTotalOrdering` guarantees (graph_algorithms.h:119-121). -/
def Graph.TotallySorted [LT V] (g : Graph V) (queue : List V) : Prop :=
  queue.Perm g.vertices ∧ queue.Pairwise fun a b => ¬g.totalLess b a

/-- What `std::stable_sort` with `VertexDegreeLessThan` guarantees (graph_algorithms.h:179-181):
a permutation, sorted, and elements that compare equal stay in their order. -/
def Graph.StablySorted (g : Graph V) (input queue : List V) : Prop :=
  queue.Perm input ∧ (queue.Pairwise fun a b => ¬g.degreeLess b a) ∧
    ∀ d, queue.filter (fun v => g.degree v = d) = input.filter fun v => g.degree v = d

/-- The colours of the breadth first search (graph_algorithms.h:107-109). -/
inductive Color
  | white
  | grey
  | black
  deriving DecidableEq

/-- One iteration of the greedy loop (graph_algorithms.h:125-136 and 193-205).  The state is
`ordering` and `vertex_color`. -/
def Graph.greedyStep (g : Graph V) (s : List V × (V → Color)) (v : V) : List V × (V → Color) :=
  if s.2 v ≠ .white then s
  else (s.1 ++ [v],
    (g.nbrs v).foldl (fun c n => Function.update c n .grey) (Function.update s.2 v .black))

/-- The part that `IndependentSetOrdering` and `StableIndependentSetOrdering` share
(graph_algorithms.h:124-151 and 191-220): the greedy loop, the loop that appends the vertices that
are not black, and the final `CHECK_EQ`. -/
def Graph.colorAndCollect (g : Graph V) (queue : List V) : Option (List V × ℕ) :=
  let s := queue.foldl g.greedyStep ([], fun _ => .white)
  let ordering := s.1 ++ queue.filter fun v => s.2 v ≠ .black
  if ordering.length = g.vertices.length then some (ordering, s.1.length) else none

/-- `IndependentSetOrdering` (graph_algorithms.h:96-152) for a given result `queue` of the sort. -/
def Graph.independentSetOrdering (g : Graph V) (queue : List V) : Option (List V × ℕ) :=
  g.colorAndCollect queue

/-- `StableIndependentSetOrdering` (graph_algorithms.h:164-221) for the vertices `input` passed in
`ordering` and a given result `queue` of the stable sort. -/
def Graph.stableIndependentSetOrdering (g : Graph V) (input queue : List V) :
    Option (List V × ℕ) :=
  if g.vertices.length = input.length then g.colorAndCollect queue else none

/-! ## Orderings of the parameter blocks of a program -/

/-- What the orderings read of a `Program`: its parameter blocks, which of them are constant, and
the parameter blocks of each residual block.  Residual blocks may also depend on constant parameter
blocks that are not in the program. -/
structure Prog (B : Type) where
  blocks : List B
  isConst : B → Bool
  residuals : List (List B)

variable {B : Type} [DecidableEq B]

/-- The loops over `j < k` (parameter_block_ordering.cc:143-155). -/
def residualEdges (isConst : B → Bool) (g : Graph B) : List B → Graph B
  | [] => g
  | a :: rest =>
    residualEdges isConst
      (if isConst a then g
       else rest.foldl (fun g b => if isConst b then g else g.addEdge a b) g) rest

/-- `CreateHessianGraph` (parameter_block_ordering.cc:125-159). -/
def createHessianGraph (P : Prog B) : Graph B :=
  P.residuals.foldl (residualEdges P.isConst)
    (P.blocks.foldl (fun g b => if P.isConst b then g else g.addVertex b) Graph.empty)

/-- `ComputeSchurOrdering` (parameter_block_ordering.cc:81-99).  `sort` returns the sorted queue. -/
def computeSchurOrdering (sort : Graph B → List B) (P : Prog B) : Option (List B × ℕ) :=
  let g := createHessianGraph P
  (g.independentSetOrdering (sort g)).map fun r => (r.1 ++ P.blocks.filter P.isConst, r.2)

/-- `ComputeStableSchurOrdering` (parameter_block_ordering.cc:49-79). -/
def computeStableSchurOrdering (stableSort : Graph B → List B → List B) (P : Prog B) :
    Option (List B × ℕ) :=
  let g := createHessianGraph P
  let pre := P.blocks.filter fun b => b ∈ g.vertices
  (g.stableIndependentSetOrdering pre (stableSort g pre)).map
    fun r => (r.1 ++ P.blocks.filter P.isConst, r.2)

/-- How a loop that may abort or run forever ended: `out` after `fuel` iterations. -/
inductive Run (α : Type)
  | done (a : α)
  | aborted
  | out
  deriving DecidableEq

/-- The loop of `ComputeRecursiveIndependentSetOrdering` (parameter_block_ordering.cc:109-122).
The groups are listed in the order of their numbers; since the blocks have distinct addresses,
`AddElementToGroup` into group `round` appends to the list of group `round`.  `fuel` bounds the
number of iterations. -/
def recursiveLoop (sort : Graph B → List B) (total : ℕ) :
    ℕ → Graph B → ℕ → List (List B) → Run (List (List B))
  | 0, _, covered, groups => if covered < total then .out else .done groups
  | fuel + 1, g, covered, groups =>
    if covered < total then
      match g.independentSetOrdering (sort g) with
      | none => .aborted
      | some (ord, k) =>
        recursiveLoop sort total fuel ((ord.take k).foldl Graph.removeVertex g) (covered + k)
          (groups ++ [ord.take k])
    else .done groups

/-- `ComputeRecursiveIndependentSetOrdering` (parameter_block_ordering.cc:101-123). -/
def recursiveOrdering (sort : Graph B → List B) (P : Prog B) (fuel : ℕ) : Run (List (List B)) :=
  recursiveLoop sort P.blocks.length fuel (createHessianGraph P) 0 []

/-! ## Union-find, clustering, spanning forest -/

/-- `FindConnectedComponent` (graph_algorithms.h:229-239), with path compression: the root and the
updated map.  `fuel` bounds the depth of the recursion; `none` means that it was not enough. -/
def find : ℕ → (V → V) → V → Option (V × (V → V))
  | 0, _, _ => none
  | n + 1, p, v =>
    if p v ≠ v then (find n p (p v)).map fun r => (r.1, Function.update r.2 v r.1)
    else some (v, p)

/-- `WeightedGraph` (graph.h:103-204): `weights` is `edge_weights_`, zero for an absent key. -/
structure WGraph (V K : Type) where
  vertices : List V
  nbrs : V → List V
  vertexWeights : V → K
  weights : V × V → K

variable {K : Type}

/-- `WeightedGraph::EdgeWeight` (graph.h:177-185). -/
def WGraph.edgeWeight [LT V] [DecidableLT V] (g : WGraph V K) (v w : V) : K :=
  if v < w then g.weights (v, w) else g.weights (w, v)

/-- `WeightedGraph::AddVertex` (graph.h:108-114). -/
def WGraph.addVertex (g : WGraph V K) (v : V) (weight : K) : WGraph V K :=
  let h : WGraph V K :=
    if v ∈ g.vertices then g
    else { g with vertices := g.vertices ++ [v], nbrs := Function.update g.nbrs v [] }
  { h with vertexWeights := Function.update h.vertexWeights v weight }

/-- `WeightedGraph::AddEdge` (graph.h:147-160). -/
def WGraph.addEdge [LT V] [DecidableLT V] (g : WGraph V K) (v w : V) (weight : K) : WGraph V K :=
  let n := Function.update g.nbrs v (insertNew (g.nbrs v) w)
  let nbrs := if w ∈ g.nbrs v then g.nbrs else Function.update n w (insertNew (n w) v)
  let key := if v < w then (v, w) else (w, v)
  { g with nbrs := nbrs, weights := Function.update g.weights key weight }

/-- The edges in the order in which two nested loops over `vertices()` and `Neighbors()` visit
them (single_linkage_clustering.cc:54-56, graph_algorithms.h:275-280). -/
def WGraph.edges (g : WGraph V K) : List (V × V) :=
  g.vertices.flatMap fun v => (g.nbrs v).map fun w => (v, w)

/-- One edge in `ComputeSingleLinkageClustering` (single_linkage_clustering.cc:57-76). -/
def clusterStep [LT V] [DecidableLT V] [LT K] [DecidableLT K] (fuel : ℕ) (g : WGraph V K) (minSim : K) (p : V → V)
    (e : V × V) : Option (V → V) :=
  if e.2 < e.1 ∨ g.edgeWeight e.1 e.2 < minSim then some p
  else (find fuel p e.1).bind fun r1 =>
    (find fuel r1.2 e.2).bind fun r2 =>
      if r1.1 = r2.1 then some r2.2
      else if r1.1 < r2.1 then some (Function.update r2.2 r2.1 r1.1)
      else some (Function.update r2.2 r1.1 r2.1)

/-- One iteration of the last loop (single_linkage_clustering.cc:83-88). -/
def countStep (fuel : ℕ) (s : ℕ × (V → V)) (v : V) : Option (ℕ × (V → V)) :=
  (find fuel s.2 v).map fun r =>
    (if v = r.1 then s.1 + 1 else s.1, Function.update r.2 v r.1)

/-- `ComputeSingleLinkageClustering` (single_linkage_clustering.cc:41-91): the number of clusters
and the membership map.  `keys` is the order in which the last loop visits the hash map. -/
def singleLinkage [LT V] [DecidableLT V] [LT K] [DecidableLT K] (fuel : ℕ) (g : WGraph V K) (minSim : K)
    (keys : List V) : Option (ℕ × (V → V)) :=
  (g.edges.foldlM (clusterStep fuel g minSim) id).bind fun p => keys.foldlM (countStep fuel) (0, p)

/-- The edges that `Degree2MaximumSpanningForest` collects (graph_algorithms.h:275-288). -/
def WGraph.candidates [LE V] [DecidableLE V] [LT V] [DecidableLT V] (g : WGraph V K) : List (K × V × V) :=
  (g.edges.filter fun e => ¬e.2 ≤ e.1).map fun e => (g.edgeWeight e.1 e.2, e.1, e.2)

/-- `operator<` on `pair<double, pair<Vertex, Vertex>>`. -/
def pairLess [LT V] [LT K] (a b : K × V × V) : Prop :=
  a.1 < b.1 ∨ ¬b.1 < a.1 ∧ (a.2.1 < b.2.1 ∨ ¬b.2.1 < a.2.1 ∧ a.2.2 < b.2.2)

/-- What sorting the reversed range guarantees: descending (graph_algorithms.h:293). -/
def SortedDescending [LT V] [LT K] (input output : List (K × V × V)) : Prop :=
  output.Perm input ∧ output.Pairwise fun a b => ¬pairLess a b

/-- One iteration of the greedy loop (graph_algorithms.h:297-337).  The state is the forest and
`disjoint_set`. -/
def forestStep [LT V] [DecidableLT V] (fuel : ℕ) (g : WGraph V K) (s : WGraph V K × (V → V))
    (e : K × V × V) : Option (WGraph V K × (V → V)) :=
  let v1 := e.2.1
  let v2 := e.2.2
  if (s.1.nbrs v1).length = 2 ∨ (s.1.nbrs v2).length = 2 then some s
  else (find fuel s.2 v1).bind fun r1 =>
    (find fuel r1.2 v2).bind fun r2 =>
      if r1.1 = r2.1 then some (s.1, r2.2)
      else
        let w := g.edgeWeight v1 v2
        let f := (s.1.addEdge v1 v2 w).addEdge v2 v1 w
        some (f, if r2.1 < r1.1 then Function.update r2.2 r1.1 r2.1
          else Function.update r2.2 r2.1 r1.1)

/-- `Degree2MaximumSpanningForest` (graph_algorithms.h:259-339) for a given result `sorted` of the
sort. -/
def spanningForest [LT V] [DecidableLT V] [Zero K] (fuel : ℕ) (g : WGraph V K) (sorted : List (K × V × V)) :
    Option (WGraph V K) :=
  let forest := g.vertices.foldl (fun f v => f.addVertex v (g.vertexWeights v))
    (⟨[], fun _ => [], fun _ => 0, fun _ => 0⟩ : WGraph V K)
  (sorted.foldlM (forestStep fuel g) (forest, id)).map Prod.fst

/-! ## `OrderedGroups` -/

/-- `std::map::operator[]` on the map `group_to_elements_`, a list of pairs with increasing keys:
the value, or an empty set. -/
def mapGet (m : List (ℕ × List V)) (g : ℕ) : List V := (m.lookup g).getD []

/-- Assignment to `group_to_elements_[g]`. -/
def mapPut (g : ℕ) (x : List V) : List (ℕ × List V) → List (ℕ × List V)
  | [] => [(g, x)]
  | (k, y) :: m =>
    if g = k then (g, x) :: m else if g < k then (g, x) :: (k, y) :: m else (k, y) :: mapPut g x m

/-- `group_to_elements_.erase(g)`. -/
def mapErase (m : List (ℕ × List V)) (g : ℕ) : List (ℕ × List V) := m.filter fun p => p.1 ≠ g

/-- Assignment to `element_to_group_[e]`: a hash map is a list of pairs with distinct keys. -/
def hashPut (m : List (V × ℕ)) (e : V) (g : ℕ) : List (V × ℕ) :=
  if m.any fun p => p.1 = e then m.map fun p => if p.1 = e then (e, g) else p else m ++ [(e, g)]

/-- `OrderedGroups` (ordered_groups.h:54-192).  The group numbers that it stores are not negative. -/
structure Groups (V : Type) where
  groupToElements : List (ℕ × List V)
  elementToGroup : List (V × ℕ)

/-- The constructor, and `OrderedGroups::Clear` (ordered_groups.h:86-89). -/
def Groups.empty : Groups V := ⟨[], []⟩

/-- `OrderedGroups::GroupId` (ordered_groups.h:148-154). -/
def Groups.groupId (G : Groups V) (e : V) : ℤ :=
  match G.elementToGroup.lookup e with
  | none => -1
  | some g => g

/-- Removal from the set of group `k`, and of the group if it is empty
(ordered_groups.h:75-78 and 99-104). -/
def eraseFromGroup (m : List (ℕ × List V)) (k : ℕ) (e : V) : List (ℕ × List V) :=
  let m := mapPut k ((mapGet m k).erase e) m
  if (mapGet m k).length = 0 then mapErase m k else m

/-- `OrderedGroups::AddElementToGroup` (ordered_groups.h:63-84). -/
def Groups.add (G : Groups V) (e : V) (group : ℤ) : Groups V × Bool :=
  if group < 0 then (G, false)
  else
    let g := group.toNat
    match G.elementToGroup.lookup e with
    | none => (⟨mapPut g (insertNew (mapGet G.groupToElements g) e) G.groupToElements,
        hashPut G.elementToGroup e g⟩, true)
    | some k =>
      if k = g then (G, true)
      else
        let m := eraseFromGroup G.groupToElements k e
        (⟨mapPut g (insertNew (mapGet m g) e) m, hashPut G.elementToGroup e g⟩, true)

/-- `OrderedGroups::Remove(element)` (ordered_groups.h:93-108). -/
def Groups.remove (G : Groups V) (e : V) : Groups V × Bool :=
  if G.groupId e < 0 then (G, false)
  else (⟨eraseFromGroup G.groupToElements (G.groupId e).toNat e,
    G.elementToGroup.filter fun p => p.1 ≠ e⟩, true)

/-- `OrderedGroups::Remove(elements)` (ordered_groups.h:112-122). -/
def Groups.removeAll (G : Groups V) (l : List V) : Groups V × ℕ :=
  if G.elementToGroup.length = 0 ∨ l.length = 0 then (G, 0)
  else l.foldl (fun s e =>
    let r := s.1.remove e
    (r.1, s.2 + if r.2 then 1 else 0)) (G, 0)

/-- `OrderedGroups::Reverse` (ordered_groups.h:125-144). -/
def Groups.reverse (G : Groups V) : Groups V :=
  match G.groupToElements.reverse with
  | [] => G
  | top :: rest =>
    let s := rest.foldl (fun (s : List (ℕ × List V) × List (V × ℕ) × ℕ) p =>
      (mapPut s.2.2 p.2 s.1, p.2.foldl (fun h e => hashPut h e s.2.2) s.2.1, s.2.2 + 1))
      (mapPut top.1 top.2 [], G.elementToGroup, top.1 + 1)
    ⟨s.1, s.2.1⟩

/-- `OrderedGroups::IsMember` (ordered_groups.h:156-159). -/
def Groups.isMember (G : Groups V) (e : V) : Bool := (G.elementToGroup.lookup e).isSome

/-- `OrderedGroups::GroupSize` (ordered_groups.h:163-166). -/
def Groups.groupSize (G : Groups V) (group : ℤ) : ℕ :=
  if group < 0 then 0 else (mapGet G.groupToElements group.toNat).length

/-- `OrderedGroups::NumElements` (ordered_groups.h:168). -/
def Groups.numElements (G : Groups V) : ℕ := G.elementToGroup.length

/-- `OrderedGroups::NumGroups` (ordered_groups.h:171). -/
def Groups.numGroups (G : Groups V) : ℕ := G.groupToElements.length

/-- `OrderedGroups::MinNonZeroGroup` (ordered_groups.h:176-179); `none` is the failed `CHECK`. -/
def Groups.minNonZeroGroup (G : Groups V) : Option ℕ := G.groupToElements.head?.map Prod.fst

/-- `OrderingToGroupSizes` (parameter_block_ordering.cc:161-176); `none` is a null pointer. -/
def orderingToGroupSizes : Option (Groups V) → List ℕ
  | none => []
  | some G => G.groupToElements.map fun p => p.2.length

/-! ## Reordering a program -/

/-- How `ApplyOrdering` ends.  `refused` carries the parameter blocks that the program is left with. -/
inductive Applied (B : Type)
  | refused (blocks : List B)
  | outOfBounds
  | done (blocks : List B)

/-- The first loop of `ApplyOrdering` over the groups (reorder_program.cc:256-261). -/
def groupStarts (m : List (ℕ × List V)) : (ℕ → ℕ) × ℕ :=
  m.foldl (fun s p => (Function.update s.1 p.1 s.2, s.2 + p.2.length)) (fun _ => 0, 0)

/-- The second loop of `ApplyOrdering` (reorder_program.cc:262-273).  `state` is
`mutable_user_state()`; `arr` is the vector of the program's parameter blocks, which the loop
overwrites, and `next` is `group_to_index`. -/
def applyLoop (G : Groups V) (state : B → V) : List B → (ℕ → ℕ) → List B → Applied B
  | [], _, arr => .done arr
  | b :: rest, next, arr =>
    match G.elementToGroup.lookup (state b) with
    | none => .refused arr
    | some group =>
      if next group < arr.length then
        applyLoop G state rest (Function.update next group (next group + 1))
          (arr.set (next group) b)
      else .outOfBounds

/-- `ApplyOrdering` (reorder_program.cc:217-276).  `known` is membership in the parameter map of the
problem. -/
def applyOrdering (known : V → Bool) (G : Groups V) (state : B → V) (blocks : List B) : Applied B :=
  if G.numElements ≠ blocks.length then .refused blocks
  else if G.elementToGroup.any fun p => !known p.1 then .refused blocks
  else applyLoop G state blocks (groupStarts G.groupToElements).1 blocks

/-- A parameter block as seen by `MinParameterBlock`: whether it is constant, and its index in the
program (`none` is `-1`). -/
structure PRef where
  isConst : Bool
  index : Option ℕ

/-- `MinParameterBlock` (reorder_program.cc:79-93); `none` is the failed `CHECK_NE`. -/
def minParameterBlock (numE : ℕ) (blocks : List PRef) : Option ℕ :=
  blocks.foldlM (fun m b =>
    if b.isConst then some m
    else match b.index with
      | none => none
      | some i => some (min i m)) numE

/-- One step of the loop that fills the buckets (reorder_program.cc:328-340): `none` is the failed
`CHECK` or a negative offset.  The state is `offsets` and `reordered_residual_blocks`. -/
def fillStep {R : Type} (s : (ℕ → ℕ) × (ℕ → Option R)) (e : R × ℕ) :
    Option ((ℕ → ℕ) × (ℕ → Option R)) :=
  if s.1 e.2 = 0 then none
  else
    let offsets := Function.update s.1 e.2 (s.1 e.2 - 1)
    match s.2 (offsets e.2) with
    | some _ => none
    | none => some (offsets, Function.update s.2 (offsets e.2) (some e.1))

/-- `LexicographicallyOrderResidualBlocks` (reorder_program.cc:278-359): the reordered residual
blocks, or `none` if one of its `CHECK`s fails.  `blocks r` are the parameter blocks of `r`.
`offsets[k]` after `std::partial_sum` is the sum of the first `k + 1` entries of the histogram. -/
def lexicographicOrder {R : Type} (numE : ℕ) (blocks : R → List PRef) (residuals : List R) :
    Option (List R) :=
  if numE < 1 then none
  else (residuals.mapM fun r => minParameterBlock numE (blocks r)).bind fun positions =>
    let hist : ℕ → ℕ :=
      positions.foldl (fun h p => Function.update h p (h p + 1)) fun _ => 0
    let offsets : ℕ → ℕ := fun k => ((List.range (k + 1)).map hist).sum
    if offsets numE ≠ residuals.length then none
    else if (List.range numE).any fun k => hist k = 0 then none
    else ((residuals.zip positions).foldlM fillStep (offsets, fun _ => none)).bind fun s =>
      if (List.range numE).all fun i => hist i + s.1 i = s.1 (i + 1) then
        (List.range residuals.length).mapM s.2
      else none

end Ceres.Graph
