import Verif.InnerProduct.Terms

/-!
# The values of the product
-/
namespace Ceres.InnerProduct

open Ceres.BlockSparse

variable {K : Type} [CommRing K]

/-- Element `(a, b)` of the product of two cells of `rows` rows. -/
def prodAt (v : ℕ → K) (rows n1 n2 p1 p2 a b : ℕ) : K :=
  ((List.range rows).map fun k => v (p1 + k * n1 + a) * v (p2 + k * n2 + b)).sum

theorem foldl_bump2 (n1 n2 : ℕ) (loc : ℕ → ℕ → ℕ) (f : ℕ → ℕ → K) (w : ℕ → K) (q : ℕ) :
    (List.range n1).foldl (fun w i => (List.range n2).foldl (fun w j => Sparse.bump w (loc i j) (f i j)) w) w q =
      w q + ((List.range n1).map fun i => ((List.range n2).map fun j =>
        if loc i j = q then f i j else 0).sum).sum := by
  induction n1 with
  | zero => simp
  | succ n ih =>
    rw [List.range_succ, List.foldl_append, List.foldl_cons, List.foldl_nil,
      Sparse.foldl_bump (fun j => loc n j) (fun j => f n j), ih, List.map_append, List.sum_append]
    simp [add_assoc]

theorem addProduct_eq (v : ℕ → K) (rows n1 n2 p1 p2 base stride : ℕ) (w : ℕ → K) (q : ℕ) :
    addProduct v rows n1 n2 p1 p2 base stride w q =
      w q + ((List.range n1).map fun i => ((List.range n2).map fun j =>
        if base + i * stride + j = q then prodAt v rows n1 n2 p1 p2 i j else 0).sum).sum :=
  foldl_bump2 n1 n2 (fun i j => base + i * stride + j) (fun i j => prodAt v rows n1 n2 p1 p2 i j) w q

theorem sum_range_pick (n a : ℕ) (ha : a < n) (f : ℕ → K) (hf : ∀ i < n, i ≠ a → f i = 0) :
    ((List.range n).map f).sum = f a := by
  induction n with
  | zero => omega
  | succ n ih =>
    rw [List.range_succ, List.map_append, List.sum_append]
    simp only [List.map_cons, List.map_nil, List.sum_cons, List.sum_nil, add_zero]
    by_cases h : a = n
    · subst h
      rw [List.sum_eq_zero, zero_add]
      intro x hx
      obtain ⟨i, hi, rfl⟩ := List.mem_map.1 hx
      rw [List.mem_range] at hi
      exact hf i (by omega) (by omega)
    · rw [ih (by omega) fun i hi => hf i (by omega), hf n (by omega) (Ne.symm h), add_zero]

/-- The element of the product that a pair of cells adds to block `(i, j)`. -/
def contribution (bs : BS) (v : ℕ → K) (i a j b : ℕ) (p : ℕ × Cell × Cell) : K :=
  if p.2.1.blockId = i ∧ p.2.2.blockId = j then
    prodAt v p.1 (bs.col i).size (bs.col j).size p.2.1.position p.2.2.position a b
  else 0

theorem computeLoop_eq (bs : BS) (v : ℕ → K) (rows offsets : ℕ → ℕ) (D : List (ℕ × ℕ)) (hD : D.Pairwise Before)
    (ps : List (ℕ × Cell × Cell)) (cursor : ℕ)
    (hoff : ∀ k p, ps[k]? = some p → (p.2.1.blockId, p.2.2.blockId) ∈ D ∧
      offsets (cursor + k) = place (fun j => (bs.col j).size) D p.2.1.blockId 0 p.2.2.blockId 0 ∧
      (0 < (bs.col p.2.1.blockId).size →
        rows ((bs.col p.2.1.blockId).position + 1) - rows (bs.col p.2.1.blockId).position =
          wide (fun j => (bs.col j).size) D p.2.1.blockId))
    (w : ℕ → K) {i a j b : ℕ} (hm : (i, j) ∈ D) (ha : a < (bs.col i).size) (hb : b < (bs.col j).size) :
    computeLoop bs.col v rows offsets ps cursor w (place (fun j => (bs.col j).size) D i a j b) =
      w (place (fun j => (bs.col j).size) D i a j b) + (ps.map (contribution bs v i a j b)).sum := by
  induction ps generalizing cursor w with
  | nil => simp [computeLoop]
  | cons p ps ih =>
    rw [computeLoop, ih (cursor + 1) (fun k p hk => by
      have := hoff (k + 1) p hk
      rw [show cursor + 1 + k = cursor + (k + 1) by omega]
      exact this), addProduct_eq, List.map_cons, List.sum_cons, add_assoc]
    congr 2
    obtain ⟨h1, h2, h3⟩ := hoff 0 p rfl
    rw [Nat.add_zero] at h2
    have hloc : ∀ x < (bs.col p.2.1.blockId).size, ∀ y < (bs.col p.2.2.blockId).size,
        (offsets cursor + x * (rows ((bs.col p.2.1.blockId).position + 1) - rows (bs.col p.2.1.blockId).position) + y
          = place (fun j => (bs.col j).size) D i a j b ↔
          p.2.1.blockId = i ∧ x = a ∧ p.2.2.blockId = j ∧ y = b) := by
      intro x hx y hy
      rw [h2, h3 (by omega)]
      have hpl : place (fun j => (bs.col j).size) D p.2.1.blockId 0 p.2.2.blockId 0 +
          x * wide (fun j => (bs.col j).size) D p.2.1.blockId + y =
          place (fun j => (bs.col j).size) D p.2.1.blockId x p.2.2.blockId y := by
        unfold place
        omega
      rw [hpl]
      constructor
      · intro h
        exact place_inj hD h1 hx hy hm ha hb h
      · rintro ⟨rfl, rfl, rfl, rfl⟩
        rfl
    unfold contribution
    by_cases hid : p.2.1.blockId = i ∧ p.2.2.blockId = j
    · rw [if_pos hid]
      obtain ⟨rfl, rfl⟩ := hid
      rw [sum_range_pick _ a ha, sum_range_pick _ b hb]
      · rw [if_pos ((hloc a ha b hb).2 ⟨rfl, rfl, rfl, rfl⟩)]
      · intro y hy hne
        rw [if_neg]
        intro h
        exact hne ((hloc a ha y hy).1 h).2.2.2
      · intro x hx hne
        refine List.sum_eq_zero fun z hz => ?_
        obtain ⟨y, hy, rfl⟩ := List.mem_map.1 hz
        rw [List.mem_range] at hy
        rw [if_neg]
        intro h
        exact hne ((hloc x hx y hy).1 h).2.1
    · rw [if_neg hid]
      refine List.sum_eq_zero fun z hz => ?_
      obtain ⟨x, hx, rfl⟩ := List.mem_map.1 hz
      refine List.sum_eq_zero fun z hz => ?_
      obtain ⟨y, hy, rfl⟩ := List.mem_map.1 hz
      rw [List.mem_range] at hx hy
      rw [if_neg]
      intro h
      have := (hloc x hx y hy).1 h
      exact hid ⟨this.1, this.2.2.1⟩

/-! ## Terms and visits -/

theorem terms_get (upper : Bool) (rows : List BRow) (k : ℕ) (p : ℕ × Cell × Cell)
    (hk : (visits upper rows)[k]? = some p) :
    (⟨p.2.1.blockId, p.2.2.blockId, k⟩ : Term) ∈ terms upper rows := by
  have h1 : (visits upper rows).map Prod.snd = rows.flatMap fun r => pairs upper r.cells := by
    unfold visits
    rw [List.map_flatMap]
    congr 1
    funext r
    rw [List.map_map]
    exact List.map_id _
  have h2 : (rows.flatMap fun r => pairs upper r.cells)[k]? = some p.2 := by
    rw [← h1, List.getElem?_map, hk]
    rfl
  unfold terms
  refine List.mem_map.2 ⟨(p.2, k), ?_, rfl⟩
  rw [List.mem_zipIdx_iff_getElem?]
  exact h2

theorem terms_mem {upper : Bool} {rows : List BRow} {t : Term} (ht : t ∈ terms upper rows) :
    ∃ p ∈ visits upper rows, p.2.1.blockId = t.row ∧ p.2.2.blockId = t.col := by
  unfold terms at ht
  obtain ⟨q, hq, rfl⟩ := List.mem_map.1 ht
  have := List.fst_mem_of_mem_zipIdx hq
  obtain ⟨r, hr, hm⟩ := List.mem_flatMap.1 this
  exact ⟨(r.block.size, q.1), List.mem_flatMap.2 ⟨r, hr, List.mem_map.2 ⟨_, hm, rfl⟩⟩, rfl, rfl⟩

theorem terms_index (upper : Bool) (rows : List BRow) :
    (terms upper rows).map Term.index = List.range (terms upper rows).length := by
  unfold terms
  rw [List.map_map, List.length_map, List.length_zipIdx, List.range_eq_range', ← List.zipIdx_map_snd 0]
  rfl

theorem terms_length (upper : Bool) (rows : List BRow) :
    (terms upper rows).length = (visits upper rows).length := by
  unfold terms visits
  rw [List.length_map, List.length_zipIdx, List.length_flatMap, List.length_flatMap]
  simp

/-- The blocks of the product. -/
def blocksOf (upper : Bool) (rows : List BRow) : List (ℕ × ℕ) := keys ((terms upper rows).mergeSort Term.le)

theorem blocksOf_sorted (upper : Bool) (rows : List BRow) : (blocksOf upper rows).Pairwise Before :=
  keys_sorted (sorted_inOrder _)

theorem mem_blocksOf {upper : Bool} {rows : List BRow} {i j : ℕ} :
    (i, j) ∈ blocksOf upper rows ↔ ∃ p ∈ visits upper rows, p.2.1.blockId = i ∧ p.2.2.blockId = j := by
  unfold blocksOf
  rw [mem_keys]
  constructor
  · rintro ⟨t, ht, he⟩
    rw [List.mem_mergeSort] at ht
    obtain ⟨p, hp, h1, h2⟩ := terms_mem ht
    unfold Term.key at he
    simp only [Prod.mk.injEq] at he
    exact ⟨p, hp, h1.trans he.1, h2.trans he.2⟩
  · rintro ⟨p, hp, rfl, rfl⟩
    obtain ⟨k, hk⟩ := List.mem_iff_getElem?.1 hp
    exact ⟨_, List.mem_mergeSort.2 (terms_get upper rows k p hk), rfl⟩

end Ceres.InnerProduct
