import Verif.Visibility.Model
import Verif.Graph.UnionFind
import Mathlib.Combinatorics.SimpleGraph.Acyclic

/-!
# What is asked of the clustering of cameras
-/

noncomputable section

namespace Ceres.Visibility

open Ceres.BlockSparse Ceres.Graph

/-- Camera `a` (the column block `ne + a`) sees the point `e` (the column block `e < ne`): a row block has cells of
both. -/
def Sees (bs : BS) (ne a e : ℕ) : Prop :=
  e < ne ∧ ∃ r ∈ bs.rows, (∃ c ∈ r.cells, c.blockId = e) ∧ ∃ d ∈ r.cells, d.blockId = ne + a

open Classical in
/-- The points that camera `a` sees. -/
def points (bs : BS) (ne a : ℕ) : Finset ℕ := (Finset.range ne).filter fun e => Sees bs ne a e

/-- The similarity of two cameras: the cosine of the angle between their visibility vectors. -/
def similarity (bs : BS) (ne a b : ℕ) : ℝ :=
  if a = b then 1
  else ((points bs ne a ∩ points bs ne b).card : ℝ) /
    Real.sqrt (((points bs ne a).card : ℝ) * ((points bs ne b).card : ℝ))

/-- The similarity of a camera and the most similar one in a list; 0 if there is none. -/
def closest (bs : BS) (ne : ℕ) (centers : List ℕ) (a : ℕ) : ℝ :=
  centers.foldr (fun c s => max (similarity bs ne a c) s) 0

/-- The quality of a list of canonical views (canonical_views_clustering.h:54-92) with the weights that are used:
every camera contributes its similarity to the closest view, and every view costs 3. -/
def quality (bs : BS) (ne n : ℕ) (centers : List ℕ) : ℝ :=
  ∑ a ∈ Finset.range n, closest bs ne centers a - 3 * centers.length

/-- A list of canonical views found greedily: no other camera, taken instead of a view, would have been better at that
time, a view that makes the quality no better is taken only to have three of them, and at the end, if there are three
of them and cameras are left, no camera makes the quality better. -/
structure Greedy (bs : BS) (ne n : ℕ) (centers : List ℕ) : Prop where
  cameras : ∀ c ∈ centers, c < n
  distinct : centers.Nodup
  best : ∀ k c, centers[k]? = some c → ∀ a < n, a ∉ centers.take k →
    quality bs ne n (centers.take k ++ [a]) ≤ quality bs ne n (centers.take k ++ [c])
  useful : ∀ k c, centers[k]? = some c → 3 ≤ k →
    quality bs ne n (centers.take k) < quality bs ne n (centers.take k ++ [c])
  complete : (∀ a < n, a ∈ centers) ∨
    3 ≤ centers.length ∧ ∀ a < n, a ∉ centers → quality bs ne n (centers ++ [a]) ≤ quality bs ne n centers

/-- The view, given by its place in the list, whose cluster a camera belongs to: a closest one, if the camera sees a
point in common with any view. -/
def Home (bs : BS) (ne : ℕ) (centers : List ℕ) (a k : ℕ) : Prop :=
  ((∀ c ∈ centers, similarity bs ne a c = 0) → k = a % centers.length) ∧
    ((∃ c ∈ centers, 0 < similarity bs ne a c) →
      ∃ c, centers[k]? = some c ∧ ∀ c' ∈ centers, similarity bs ne a c' ≤ similarity bs ne a c)

/-- The clusters around canonical views. -/
def CanonicalClusters (bs : BS) (ne n num : ℕ) (cluster : ℕ → ℕ) : Prop :=
  ∃ (centers : List ℕ) (home : ℕ → ℕ), Greedy bs ne n centers ∧ num = centers.length ∧
    (∀ a < n, home a < num ∧ Home bs ne centers a (home a)) ∧
    ∀ a < n, ∀ b < n, cluster a = cluster b ↔ home a = home b

/-- The clusters of single linkage: cameras are together exactly when a chain of cameras, each at least 0.9 similar to
the next, leads from one to the other.  No cluster is empty. -/
def LinkageClusters (bs : BS) (ne n num : ℕ) (cluster : ℕ → ℕ) : Prop :=
  (∀ a < n, ∀ b < n, cluster a = cluster b ↔
    Relation.ReflTransGen (fun u x => u < n ∧ x < n ∧ 9 / 10 ≤ similarity bs ne u x) a b) ∧
    ∀ k < num, ∃ a < n, cluster a = k

/-- The points that the cameras of a cluster see. -/
def clusterPoints (bs : BS) (ne n : ℕ) (cluster : ℕ → ℕ) (c : ℕ) : Finset ℕ :=
  ((Finset.range n).filter fun a => cluster a = c).biUnion (points bs ne)

/-- The number of points that two clusters have in common. -/
def common (bs : BS) (ne n : ℕ) (cluster : ℕ → ℕ) (c d : ℕ) : ℕ :=
  (clusterPoints bs ne n cluster c ∩ clusterPoints bs ne n cluster d).card

/-- How pairs of clusters are compared: by the number of common points, then by their numbers. -/
def pairKey (bs : BS) (ne n : ℕ) (cluster : ℕ → ℕ) (c d : ℕ) : ℝ × ℕ × ℕ :=
  ((common bs ne n cluster c d : ℝ), min c d, max c d)

/-- Clusters joined into chains, the pairs that share most points first: a pair is joined exactly when no cluster of it
has two neighbours, and they are not connected, by pairs that come before it. -/
structure Chains (bs : BS) (ne n num : ℕ) (cluster : ℕ → ℕ) (F : SimpleGraph ℕ) : Prop where
  bound : ∀ c d, F.Adj c d → c < num ∧ d < num
  shared : ∀ c d, F.Adj c d → 0 < common bs ne n cluster c d
  degree : ∀ c x y z, F.Adj c x → F.Adj c y → F.Adj c z → x = y ∨ x = z ∨ y = z
  acyclic : F.IsAcyclic
  greedy : ∀ c d, c < d → d < num → 0 < common bs ne n cluster c d →
    (F.Adj c d ↔ ¬((∃ x y, x ≠ y ∧
        (F.Adj c x ∧ pairLess (pairKey bs ne n cluster c d) (pairKey bs ne n cluster c x)) ∧
        F.Adj c y ∧ pairLess (pairKey bs ne n cluster c d) (pairKey bs ne n cluster c y)) ∨
      (∃ x y, x ≠ y ∧
        (F.Adj d x ∧ pairLess (pairKey bs ne n cluster c d) (pairKey bs ne n cluster d x)) ∧
        F.Adj d y ∧ pairLess (pairKey bs ne n cluster c d) (pairKey bs ne n cluster d y)) ∨
      Relation.ReflTransGen (fun u x =>
        F.Adj u x ∧ pairLess (pairKey bs ne n cluster c d) (pairKey bs ne n cluster u x)) c d))

/-- The block of cameras `x` and `y` in the Schur complement may differ from zero: they see a point in common, or a row
block without a point has cells of both. -/
def Coupled (bs : BS) (ne x y : ℕ) : Prop :=
  (∃ e, Sees bs ne x e ∧ Sees bs ne y e) ∨
    ∃ r ∈ bs.rows, (∀ c ∈ r.cells, ne ≤ c.blockId) ∧ (∃ c ∈ r.cells, c.blockId = ne + x) ∧ ∃ d ∈ r.cells, d.blockId = ne + y

/-- The same graph, the vertices and the neighbours visited in another order. -/
structure Reordered (g g' : WGraph ℕ ℝ) : Prop where
  vertices : g'.vertices.Perm g.vertices
  nbrs : ∀ v, (g'.nbrs v).Perm (g.nbrs v)
  vertexWeights : g'.vertexWeights = g.vertexWeights
  weights : g'.weights = g.weights

/-- Loops over hash sets and hash maps visit everything once; edges are sorted by decreasing weight. -/
structure Orders.Ok (o : Orders) : Prop where
  cameraPairs : ∀ m : ℕ × ℕ → ℕ, (∃ l : List (ℕ × ℕ), ∀ p, p ∈ l ↔ 0 < m p) →
    (o.cameraPairs m).Nodup ∧ ∀ p, p ∈ o.cameraPairs m ↔ 0 < m p
  graph : ∀ g, Reordered g (o.graph g)
  valid : ∀ l, (o.valid l).Perm l
  linkage : ∀ l, (o.linkage l).Perm l
  members : ∀ l, (o.members l).Perm l
  sort : ∀ l, SortedDescending l (o.sort l)

end Ceres.Visibility
