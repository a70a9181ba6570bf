import Verif.Graph.UnionFind
import Mathlib.Combinatorics.SimpleGraph.Acyclic
import Mathlib.Combinatorics.SimpleGraph.Connectivity.Connected

/-!
# Degree two spanning forests (C30)
-/

namespace Ceres.Graph

variable {V K : Type} [LinearOrder V] [LinearOrder K]

/-! ## Specification -/

/-- The weight and the end points of an edge, as they are compared by the algorithm. -/
def edgeKey (g : WGraph V K) (u x : V) : K × V × V := (g.edgeWeight u x, min u x, max u x)

/-- `x` is joined to `u` in the forest `F` by an edge that comes before the edge `e`: a heavier one,
or an equally heavy one with larger end points. -/
def Above (g F : WGraph V K) (e : K × V × V) (u x : V) : Prop :=
  x ∈ F.nbrs u ∧ pairLess e (edgeKey g u x)

/-- The edge `e` cannot be added to the edges of the forest that come before it: an end point has
two such edges already, or the end points are connected by such edges. -/
def Blocked (g F : WGraph V K) (e : K × V × V) : Prop :=
  (∃ x y, x ≠ y ∧ Above g F e e.2.1 x ∧ Above g F e e.2.1 y) ∨
  (∃ x y, x ≠ y ∧ Above g F e e.2.2 x ∧ Above g F e e.2.2 y) ∨
  Relation.ReflTransGen (Above g F e) e.2.1 e.2.2

/-- The simple graph with the edges of `F`. -/
def toSimple (nbrs : V → List V) : SimpleGraph V := SimpleGraph.fromRel fun u x => x ∈ nbrs u

/-! ## Keys -/

omit [LinearOrder K] in
theorem edgeKey_comm (g : WGraph V K) (u x : V) : edgeKey g u x = edgeKey g x u := by
  unfold edgeKey
  rw [edgeWeight_symm, min_comm, max_comm]

omit [LinearOrder K] in
theorem mem_candidates (g : WGraph V K) (e : K × V × V) :
    e ∈ g.candidates ↔ e.2.1 ∈ g.vertices ∧ e.2.2 ∈ g.nbrs e.2.1 ∧ e.2.1 < e.2.2 ∧
      e.1 = g.edgeWeight e.2.1 e.2.2 := by
  unfold WGraph.candidates
  rw [List.mem_map]
  constructor
  · rintro ⟨a, ha, rfl⟩
    obtain ⟨h1, h2⟩ := List.mem_filter.mp ha
    obtain ⟨h3, h4⟩ := (mem_edges g a).mp h1
    exact ⟨h3, h4, by simpa using h2, rfl⟩
  · rintro ⟨h1, h2, h3, h4⟩
    refine ⟨e.2, List.mem_filter.mpr ⟨(mem_edges g e.2).mpr ⟨h1, h2⟩, by simpa using h3⟩, ?_⟩
    rw [← h4]

omit [LinearOrder K] in
theorem edgeKey_of_candidate {g : WGraph V K} {e : K × V × V} (h : e ∈ g.candidates) :
    edgeKey g e.2.1 e.2.2 = e := by
  obtain ⟨_, _, h3, h4⟩ := (mem_candidates g e).mp h
  unfold edgeKey
  rw [min_eq_left h3.le, max_eq_right h3.le, ← h4]

omit [LinearOrder K] in
theorem candidate_of_edgeKey {g : WGraph V K} (hg : g.toGraph.WF) {u x : V} (h : edgeKey g u x ∈ g.candidates) :
    x ∈ g.nbrs u ∧ u ≠ x ∧ u ∈ g.vertices ∧ x ∈ g.vertices := by
  obtain ⟨h1, h2, h3, h4⟩ := (mem_candidates g _).mp h
  unfold edgeKey at h1 h2 h3 h4
  simp only at h1 h2 h3 h4
  rcases lt_trichotomy u x with hl | hl | hl
  · rw [min_eq_left hl.le] at h1 h2
    rw [max_eq_right hl.le] at h2
    exact ⟨h2, hl.ne, h1, hg.mem _ _ h2⟩
  · subst hl; simp at h3
  · rw [min_eq_right hl.le] at h1 h2
    rw [max_eq_left hl.le] at h2
    exact ⟨hg.symm _ _ h2, hl.ne', hg.mem _ _ h2, h1⟩

omit [LinearOrder K] in
theorem candidates_nodup {g : WGraph V K} (hg : g.toGraph.WF) : g.candidates.Nodup := by
  have he : g.edges.Nodup := by
    unfold WGraph.edges
    rw [List.nodup_flatMap]
    refine ⟨fun v _ => (hg.nbrs_nodup v).map fun a b h => (Prod.mk.inj h).2, ?_⟩
    refine hg.nodup.imp ?_
    intro a b hab
    rw [Function.onFun, List.disjoint_left]
    intro e h1 h2
    obtain ⟨_, _, rfl⟩ := List.mem_map.mp h1
    obtain ⟨_, _, h3⟩ := List.mem_map.mp h2
    exact hab (Prod.mk.inj h3).1.symm
  unfold WGraph.candidates
  refine (he.filter _).map ?_
  intro a b h
  have := (Prod.mk.inj h).2
  exact Prod.ext (Prod.mk.inj this).1 (Prod.mk.inj this).2

theorem pairLess_irrefl (a : K × V × V) : ¬pairLess a a := by
  unfold pairLess; simp

theorem pairLess_asymm {a b : K × V × V} (h : pairLess a b) : ¬pairLess b a := by
  unfold pairLess at *
  intro h'
  rcases h with h | ⟨h1, h | ⟨h2, h⟩⟩
  · rcases h' with h' | ⟨k1, _⟩
    · exact lt_asymm h h'
    · exact k1 h
  · rcases h' with h' | ⟨k1, k | ⟨k2, k⟩⟩
    · exact h1 h'
    · exact lt_asymm h k
    · exact k2 h
  · rcases h' with h' | ⟨k1, k | ⟨k2, k⟩⟩
    · exact h1 h'
    · exact h2 k
    · exact lt_asymm h k

theorem pairLess_total {a b : K × V × V} (h : ¬pairLess a b) (hne : a ≠ b) : pairLess b a := by
  unfold pairLess at *
  push Not at h
  obtain ⟨h1, h2⟩ := h
  rcases lt_or_eq_of_le h1 with h1 | h1
  · exact Or.inl h1
  · right
    refine ⟨by rw [h1]; exact lt_irrefl _, ?_⟩
    obtain ⟨h3, h4⟩ := h2 (by rw [h1])
    rcases lt_or_eq_of_le h3 with h3 | h3
    · exact Or.inl h3
    · right
      refine ⟨by rw [h3]; exact lt_irrefl _, ?_⟩
      have h5 := h4 (by rw [h3])
      refine lt_of_le_of_ne h5 fun e => hne ?_
      exact Prod.ext h1.symm (Prod.ext h3.symm e.symm)

/-! ## Adding an edge -/

omit [LinearOrder K] in
theorem wAddEdge_nbrs (f : WGraph V K) (v w : V) (c : K) :
    (f.addEdge v w c).nbrs = (f.toGraph.addEdge v w).nbrs := by
  unfold WGraph.addEdge Graph.addEdge WGraph.toGraph
  simp only
  by_cases h : w ∈ f.nbrs v
  · rw [if_pos h, if_pos h]
  · rw [if_neg h, if_neg h]

theorem key_eq_iff (u x v w : V) :
    (if u < x then (u, x) else (x, u)) = (if v < w then (v, w) else (w, v)) ↔
      (u = v ∧ x = w) ∨ (u = w ∧ x = v) := by
  by_cases h1 : u < x
  · by_cases h2 : v < w
    · rw [if_pos h1, if_pos h2, Prod.mk.injEq]
      refine ⟨Or.inl, ?_⟩
      rintro (h | ⟨rfl, rfl⟩)
      · exact h
      · exact absurd h1 (lt_asymm h2)
    · rw [if_pos h1, if_neg h2, Prod.mk.injEq]
      refine ⟨Or.inr, ?_⟩
      rintro (⟨rfl, rfl⟩ | h)
      · exact absurd h1 h2
      · exact h
  · by_cases h2 : v < w
    · rw [if_neg h1, if_pos h2, Prod.mk.injEq]
      refine ⟨fun h => Or.inr ⟨h.2, h.1⟩, ?_⟩
      rintro (⟨rfl, rfl⟩ | h)
      · exact absurd h2 h1
      · exact ⟨h.2, h.1⟩
    · rw [if_neg h1, if_neg h2, Prod.mk.injEq]
      refine ⟨fun h => Or.inl ⟨h.2, h.1⟩, ?_⟩
      rintro (h | ⟨rfl, rfl⟩)
      · exact ⟨h.2, h.1⟩
      · have : u = x := le_antisymm (not_lt.mp h2) (not_lt.mp h1)
        exact ⟨this.symm, this⟩

omit [LinearOrder K] in
theorem edgeWeight_eq (f : WGraph V K) (u x : V) :
    f.edgeWeight u x = f.weights (if u < x then (u, x) else (x, u)) := by
  unfold WGraph.edgeWeight
  by_cases h : u < x
  · rw [if_pos h, if_pos h]
  · rw [if_neg h, if_neg h]

omit [LinearOrder K] in
theorem wAddEdge_weights (f : WGraph V K) {v w : V} (c : K) (u x : V) :
    (f.addEdge v w c).edgeWeight u x
      = if (u = v ∧ x = w) ∨ (u = w ∧ x = v) then c else f.edgeWeight u x := by
  rw [edgeWeight_eq, edgeWeight_eq]
  unfold WGraph.addEdge
  simp only
  rw [Function.update_apply]
  simp only [key_eq_iff]

/-! ## The invariant -/

structure ForestInv (g : WGraph V K) (L : List (K × V × V)) (f : WGraph V K) (p : V → V) : Prop where
  vertices : f.vertices = g.vertices
  vweights : ∀ v ∈ g.vertices, f.vertexWeights v = g.vertexWeights v
  nodup : ∀ u, (f.nbrs u).Nodup
  symm : ∀ u x, x ∈ f.nbrs u → u ∈ f.nbrs x
  src : ∀ u x, x ∈ f.nbrs u → edgeKey g u x ∈ L
  weight : ∀ u x, x ∈ f.nbrs u → f.edgeWeight u x = g.edgeWeight u x
  deg : ∀ u, (f.nbrs u).length ≤ 2
  acyclic : (toSimple f.nbrs).IsAcyclic
  comp : CompInv g.vertices p fun u x => x ∈ f.nbrs u
  greedy : ∀ e ∈ L, (e.2.2 ∈ f.nbrs e.2.1 ↔ ¬Blocked g f e)

omit [LinearOrder V] in
theorem two_mem {l : List V} (h : l.Nodup) (hl : l.length = 2) : ∃ x y, x ≠ y ∧ x ∈ l ∧ y ∈ l := by
  match l, hl with
  | [a, b], _ => exact ⟨a, b, by simpa using h, by simp, by simp⟩

omit [LinearOrder V] in
theorem not_two_mem {l : List V} (hl : l.length ≤ 2) (hl' : l.length ≠ 2) (x y : V) (hx : x ∈ l)
    (hy : y ∈ l) : x = y := by
  match l, hl, hl' with
  | [], _, _ => simp at hx
  | [a], _, _ => rw [List.mem_singleton.mp hx, List.mem_singleton.mp hy]
  | [_, _], _, h => simp at h

theorem eqvGen_symmRel {nbrs : V → List V} (h : ∀ u x, x ∈ nbrs u → u ∈ nbrs x) (u x : V) :
    Relation.EqvGen (fun u x => x ∈ nbrs u) u x ↔ Relation.ReflTransGen (fun u x => x ∈ nbrs u) u x := by
  haveI : Std.Symm (fun u x => x ∈ nbrs u) := ⟨fun a b => h a b⟩
  rw [Relation.EqvGen.eqvGen_eq_reflTransGen]

/-- When every edge of the forest comes before `e`, `Above` is the whole forest. -/
theorem blocked_iff {g f : WGraph V K} {e : K × V × V}
    (hall : ∀ u x, x ∈ f.nbrs u → pairLess e (edgeKey g u x)) :
    Blocked g f e ↔ (∃ x y, x ≠ y ∧ x ∈ f.nbrs e.2.1 ∧ y ∈ f.nbrs e.2.1) ∨
      (∃ x y, x ≠ y ∧ x ∈ f.nbrs e.2.2 ∧ y ∈ f.nbrs e.2.2) ∨
      Relation.ReflTransGen (fun u x => x ∈ f.nbrs u) e.2.1 e.2.2 := by
  have : Above g f e = fun u x => x ∈ f.nbrs u := by
    funext u x
    exact propext ⟨fun h => h.1, fun h => ⟨h, hall u x h⟩⟩
  unfold Blocked
  rw [this]

theorem forestStep_spec {g : WGraph V K} (hg : g.toGraph.WF) {fuel : ℕ}
    (hf : g.vertices.length ≤ fuel) {L : List (K × V × V)} {f : WGraph V K} {p : V → V}
    (inv : ForestInv g L f p) {e : K × V × V} (he : e ∈ g.candidates)
    (hLc : ∀ a ∈ L, a ∈ g.candidates) (hL : ∀ a ∈ L, pairLess e a) :
    ∃ f' p', forestStep fuel g (f, p) e = some (f', p') ∧ ForestInv g (L ++ [e]) f' p' := by
  obtain ⟨c1, c2, c3, c4⟩ := (mem_candidates g e).mp he
  have hkey := edgeKey_of_candidate he
  have c2' : e.2.2 ∈ g.vertices := hg.mem _ _ c2
  have heL : e ∉ L := fun h => pairLess_irrefl e (hL e h)
  have hall : ∀ u x, x ∈ f.nbrs u → pairLess e (edgeKey g u x) := fun u x h => hL _ (inv.src u x h)
  have henot : e.2.2 ∉ f.nbrs e.2.1 := fun h => heL (hkey ▸ inv.src _ _ h)
  -- when the forest does not change
  have same : ∀ p', CompInv g.vertices p' (fun u x => x ∈ f.nbrs u) → Blocked g f e →
      ForestInv g (L ++ [e]) f p' := by
    intro p' hp' hb
    refine ⟨inv.vertices, inv.vweights, inv.nodup, inv.symm, fun u x h => by simp [inv.src u x h],
      inv.weight, inv.deg, inv.acyclic, hp', ?_⟩
    intro a ha
    rcases List.mem_append.mp ha with ha | ha
    · exact inv.greedy a ha
    · rw [List.mem_singleton.mp ha]
      exact ⟨fun h => absurd h henot, fun h => absurd hb h⟩
  unfold forestStep
  simp only
  by_cases hdeg : (f.nbrs e.2.1).length = 2 ∨ (f.nbrs e.2.2).length = 2
  · rw [if_pos hdeg]
    refine ⟨f, p, rfl, same p inv.comp ((blocked_iff hall).mpr ?_)⟩
    rcases hdeg with h | h
    · exact Or.inl (two_mem (inv.nodup _) h)
    · exact Or.inr (Or.inl (two_mem (inv.nodup _) h))
  · rw [if_neg hdeg]
    push Not at hdeg
    obtain ⟨r1, p1, f1, f2, f3, _, f5, _⟩ :=
      find_spec fuel inv.comp.uf c1 ((rank_lt_length c1).trans_le hf)
    obtain ⟨r2, p2, g1, g2, g3, _, g5, _⟩ := find_spec fuel f3 c2' ((rank_lt_length c2').trans_le hf)
    have hC : CompInv g.vertices p2 fun u x => x ∈ f.nbrs u :=
      (inv.comp.congrRep f3 f5).congrRep g3 g5
    have hr1 : Rep p2 e.2.1 r1 := (g5 _ _).mpr ((f5 _ _).mpr f2)
    have hr2 : Rep p2 e.2.2 r2 := (g5 _ _).mpr g2
    simp only [f1, g1, Option.bind_some]
    by_cases hrr : r1 = r2
    · rw [if_pos hrr]
      refine ⟨f, p2, rfl, same p2 hC ((blocked_iff hall).mpr (Or.inr (Or.inr ?_)))⟩
      rw [← eqvGen_symmRel inv.symm]
      exact (hC.comp _ c1 _ c2').mp ⟨r1, hr1, hrr ▸ hr2⟩
    · rw [if_neg hrr]
      refine ⟨_, _, rfl, ?_⟩
      set v1 := e.2.1 with hv1
      set v2 := e.2.2 with hv2
      set f' := (f.addEdge v1 v2 (g.edgeWeight v1 v2)).addEdge v2 v1 (g.edgeWeight v1 v2) with hf'
      have hE : EdgeInv f.toGraph fun u x => x ∈ f.nbrs u := ⟨fun _ _ => Iff.rfl, inv.nodup⟩
      have hE1 := addEdge_inv hE inv.symm v1 v2
      have hn1 : (f.addEdge v1 v2 (g.edgeWeight v1 v2)).toGraph.nbrs = (f.toGraph.addEdge v1 v2).nbrs :=
        wAddEdge_nbrs f v1 v2 (g.edgeWeight v1 v2)
      have hE1' : EdgeInv (f.addEdge v1 v2 (g.edgeWeight v1 v2)).toGraph
          fun u x => x ∈ f.nbrs u ∨ (u = v1 ∧ x = v2) ∨ (u = v2 ∧ x = v1) :=
        ⟨fun u x => by rw [hn1]; exact hE1.mem u x, fun u => by rw [hn1]; exact hE1.nodup u⟩
      have hE2 := addEdge_inv hE1' (by
        rintro u x (h | h | h)
        · exact Or.inl (inv.symm _ _ h)
        · exact Or.inr (Or.inr ⟨h.2, h.1⟩)
        · exact Or.inr (Or.inl ⟨h.2, h.1⟩)) v2 v1
      have hn2 : f'.nbrs = ((f.addEdge v1 v2 (g.edgeWeight v1 v2)).toGraph.addEdge v2 v1).nbrs :=
        wAddEdge_nbrs _ v2 v1 (g.edgeWeight v1 v2)
      have hmem : ∀ u x, x ∈ f'.nbrs u ↔ x ∈ f.nbrs u ∨ (u = v1 ∧ x = v2) ∨ (u = v2 ∧ x = v1) := by
        intro u x
        rw [hn2, hE2.mem]
        tauto
      have hnd : ∀ u, (f'.nbrs u).Nodup := fun u => by rw [hn2]; exact hE2.nodup u
      have hkey' : ∀ u x, (u = v1 ∧ x = v2) ∨ (u = v2 ∧ x = v1) → edgeKey g u x = e := by
        rintro u x (⟨rfl, rfl⟩ | ⟨rfl, rfl⟩)
        · exact hkey
        · rw [edgeKey_comm]; exact hkey
      have hnotreach : ¬Relation.ReflTransGen (fun u x => x ∈ f.nbrs u) v1 v2 := by
        rw [← eqvGen_symmRel inv.symm]
        intro h
        obtain ⟨r, k1, k2⟩ := (hC.comp _ c1 _ c2').mpr h
        exact hrr ((hr1.unique k1).trans (k2.unique hr2))
      refine ⟨?_, ?_, hnd, ?_, ?_, ?_, ?_, ?_, ?_, ?_⟩
      · rw [hf']; exact inv.vertices
      · rw [hf']; exact inv.vweights
      · intro u x
        rw [hmem, hmem]
        have := inv.symm u x
        tauto
      · intro u x h
        rcases (hmem u x).mp h with h | h
        · simp [inv.src u x h]
        · simp [hkey' u x h]
      · intro u x h
        rw [hf', wAddEdge_weights, wAddEdge_weights]
        by_cases hu : (u = v1 ∧ x = v2) ∨ (u = v2 ∧ x = v1)
        · rw [if_pos (by tauto)]
          rcases hu with ⟨rfl, rfl⟩ | ⟨rfl, rfl⟩
          · rfl
          · rw [edgeWeight_symm]
        · rw [if_neg (by tauto), if_neg hu]
          exact inv.weight u x (((hmem u x).mp h).resolve_right hu)
      · intro u
        by_cases hu1 : u = v1
        · have hsub : f'.nbrs u ⊆ v2 :: f.nbrs u := by
            intro x hx
            rcases (hmem u x).mp hx with h | h | h
            · simp [h]
            · simp [h.2]
            · exact absurd (hu1.symm.trans h.1) c3.ne
          have := (List.subperm_of_subset (hnd u) hsub).length_le
          have h2 := inv.deg u
          rw [hu1] at this h2 ⊢
          simp only [List.length_cons] at this
          have := hdeg.1
          omega
        · by_cases hu2 : u = v2
          · have hsub : f'.nbrs u ⊆ v1 :: f.nbrs u := by
              intro x hx
              rcases (hmem u x).mp hx with h | h | h
              · simp [h]
              · exact absurd h.1 hu1
              · simp [h.2]
            have := (List.subperm_of_subset (hnd u) hsub).length_le
            have h2 := inv.deg u
            rw [hu2] at this h2 ⊢
            simp only [List.length_cons] at this
            have := hdeg.2
            omega
          · have hsub : f'.nbrs u ⊆ f.nbrs u := by
              intro x hx
              rcases (hmem u x).mp hx with h | h | h
              · exact h
              · exact absurd h.1 hu1
              · exact absurd h.1 hu2
            exact (List.subperm_of_subset (hnd u) hsub).length_le.trans (inv.deg u)
      · have hsup : toSimple f'.nbrs = toSimple f.nbrs ⊔ SimpleGraph.edge v1 v2 := by
          ext u x
          unfold toSimple
          rw [SimpleGraph.sup_adj, SimpleGraph.fromRel_adj, SimpleGraph.fromRel_adj,
            SimpleGraph.edge_adj, hmem, hmem]
          tauto
        rw [hsup]
        refine SimpleGraph.IsAcyclic.sup_edge_of_not_reachable ?_ inv.acyclic
        rw [SimpleGraph.reachable_iff_reflTransGen]
        intro h
        refine hnotreach (Relation.ReflTransGen.mono ?_ _ _ h)
        intro a b hab
        unfold toSimple at hab
        rw [SimpleGraph.fromRel_adj] at hab
        rcases hab.2 with h | h
        · exact h
        · exact inv.symm _ _ h
      · have hE' : (fun u x => x ∈ f'.nbrs u)
            = fun u x => (x ∈ f.nbrs u ∨ (u = v1 ∧ x = v2)) ∨ (u = v2 ∧ x = v1) := by
          funext u x
          rw [hmem]
          apply propext
          tauto
        rw [hE']
        have hlink : CompInv g.vertices (if r2 < r1 then Function.update p2 r1 r2
            else Function.update p2 r2 r1) fun u x => x ∈ f.nbrs u ∨ (u = v1 ∧ x = v2) := by
          by_cases hlt : r2 < r1
          · rw [if_pos hlt]
            exact hC.link c1 c2' hr1 hr2 hrr (Or.inr ⟨rfl, rfl⟩) hlt
          · rw [if_neg hlt]
            exact hC.link c1 c2' hr1 hr2 hrr (Or.inl ⟨rfl, rfl⟩) (lt_of_le_of_ne (not_lt.mp hlt) hrr)
        obtain ⟨r, k1, k2⟩ := (hlink.comp _ c1 _ c2').mpr (.rel _ _ (Or.inr ⟨rfl, rfl⟩))
        exact hlink.addSame c2' c1 k2 k1
      · intro a ha
        have habove : ∀ a : K × V × V, ¬pairLess a e → Above g f' a = Above g f a := by
          intro a hae
          funext u x
          apply propext
          unfold Above
          rw [hmem]
          constructor
          · rintro ⟨h | h, h'⟩
            · exact ⟨h, h'⟩
            · rw [hkey' u x h] at h'; exact absurd h' hae
          · rintro ⟨h, h'⟩; exact ⟨Or.inl h, h'⟩
        rcases List.mem_append.mp ha with ha | ha
        · have hlt := hL a ha
          have hbl : Blocked g f' a ↔ Blocked g f a := by
            unfold Blocked
            rw [habove a (pairLess_asymm hlt)]
          rw [hbl, ← inv.greedy a ha, hmem]
          constructor
          · rintro (h | h)
            · exact h
            · have h1 := hkey' _ _ h
              rw [edgeKey_of_candidate (hLc a ha)] at h1
              exact absurd (h1 ▸ ha) heL
          · exact Or.inl
        · rw [List.mem_singleton.mp ha]
          have hbl : Blocked g f' e ↔ Blocked g f e := by
            unfold Blocked
            rw [habove e (pairLess_irrefl e)]
          rw [hbl, blocked_iff hall]
          refine ⟨fun _ => ?_, fun _ => (hmem _ _).mpr (Or.inr (Or.inl ⟨rfl, rfl⟩))⟩
          rintro (⟨x, y, hne, hx, hy⟩ | ⟨x, y, hne, hx, hy⟩ | h)
          · exact hne (not_two_mem (inv.deg _) hdeg.1 x y hx hy)
          · exact hne (not_two_mem (inv.deg _) hdeg.2 x y hx hy)
          · exact hnotreach h

theorem forestStart [Zero K] (g : WGraph V K) (hg : g.toGraph.WF) :
    ForestInv g [] (g.vertices.foldl (fun f v => f.addVertex v (g.vertexWeights v))
      (⟨[], fun _ => [], fun _ => 0, fun _ => 0⟩ : WGraph V K)) id := by
  have main : ∀ l : List V, l.Nodup →
      let f := l.foldl (fun f v => f.addVertex v (g.vertexWeights v))
        (⟨[], fun _ => [], fun _ => 0, fun _ => 0⟩ : WGraph V K)
      f.vertices = l ∧ (∀ v ∈ l, f.vertexWeights v = g.vertexWeights v) ∧ ∀ u, f.nbrs u = [] := by
    intro l
    induction l using List.reverseRecOn with
    | nil => intro _; simp
    | append_singleton l a ih =>
      intro hl
      have hl' := List.nodup_append.mp hl
      obtain ⟨h1, h2, h3⟩ := ih hl'.1
      simp only [List.foldl_append, List.foldl_cons, List.foldl_nil]
      set f := l.foldl (fun f v => f.addVertex v (g.vertexWeights v))
        (⟨[], fun _ => [], fun _ => 0, fun _ => 0⟩ : WGraph V K)
      have ha : a ∉ f.vertices := by
        rw [h1]; intro h; exact hl'.2.2 a h a (by simp) rfl
      unfold WGraph.addVertex
      rw [if_neg ha]
      refine ⟨by simp only [h1], ?_, ?_⟩
      · intro v hv
        simp only
        by_cases hva : v = a
        · subst hva; simp
        · rw [Function.update_of_ne hva]
          exact h2 v (by simpa [hva] using hv)
      · intro u
        simp only
        by_cases hu : u = a
        · subst hu; simp
        · rw [Function.update_of_ne hu]; exact h3 u
  obtain ⟨h1, h2, h3⟩ := main g.vertices hg.nodup
  set f := g.vertices.foldl (fun f v => f.addVertex v (g.vertexWeights v))
    (⟨[], fun _ => [], fun _ => 0, fun _ => 0⟩ : WGraph V K)
  have hno : ∀ u x, ¬x ∈ f.nbrs u := fun u x => by rw [h3]; simp
  refine ⟨h1, h2, fun u => by rw [h3]; simp, fun u x h => absurd h (hno u x),
    fun u x h => absurd h (hno u x), fun u x h => absurd h (hno u x), fun u => by rw [h3]; simp, ?_, ?_, by simp⟩
  · have : toSimple f.nbrs = ⊥ := by
      ext u x
      unfold toSimple
      simp [SimpleGraph.fromRel_adj, h3]
    rw [this]
    exact SimpleGraph.isAcyclic_bot
  · have : (fun u x => x ∈ f.nbrs u) = fun _ _ => False := by
      funext u x; simp [h3]
    rw [this]
    exact compInv_id _

/-- **C30.** `Degree2MaximumSpanningForest` ends for every weighted graph.  It returns a graph on the
same vertices with the same weights, whose edges are edges of the input with their weights; every
vertex has at most two neighbours; there is no cycle; and the forest is the greedy one: an edge of
the input is in the forest iff, given the edges of the forest that come before it by weight (and,
among equal weights, by end points), neither end point has two edges and the end points are not
connected. -/
theorem spanningForest_spec [Zero K] (g : WGraph V K) (hg : g.toGraph.WF) (sorted : List (K × V × V))
    (hs : SortedDescending g.candidates sorted) (fuel : ℕ) (hf : g.vertices.length ≤ fuel) :
    ∃ F, spanningForest fuel g sorted = some F ∧
      F.vertices = g.vertices ∧ (∀ v ∈ g.vertices, F.vertexWeights v = g.vertexWeights v) ∧
      F.toGraph.WF ∧
      (∀ u x, x ∈ F.nbrs u → u ≠ x ∧ x ∈ g.nbrs u ∧ F.edgeWeight u x = g.edgeWeight u x) ∧
      (∀ u, (F.nbrs u).length ≤ 2) ∧
      (toSimple F.nbrs).IsAcyclic ∧
      (∀ u x, u < x → x ∈ g.nbrs u → (x ∈ F.nbrs u ↔ ¬Blocked g F (edgeKey g u x))) := by
  have hnd : sorted.Nodup := hs.1.nodup_iff.mpr (candidates_nodup hg)
  have main : ∀ L R, L ++ R = sorted → ∀ f p, ForestInv g L f p →
      ∃ f' p', R.foldlM (forestStep fuel g) (f, p) = some (f', p') ∧ ForestInv g sorted f' p' := by
    intro L R
    induction R generalizing L with
    | nil =>
      intro h f p inv
      rw [List.append_nil] at h
      subst h
      exact ⟨f, p, rfl, inv⟩
    | cons e R ih =>
      intro h f p inv
      have hmem : ∀ a, a ∈ L ∨ a = e → a ∈ g.candidates := by
        intro a ha
        refine hs.1.mem_iff.mp ?_
        rw [← h]
        rcases ha with ha | ha <;> simp [ha]
      have hlt : ∀ a ∈ L, pairLess e a := by
        intro a ha
        have hpw := hs.2
        rw [← h] at hpw hnd
        have h1 := (List.pairwise_append.mp hpw).2.2 a ha e (by simp)
        have h2 := (List.nodup_append.mp hnd).2.2 a ha e (by simp)
        exact pairLess_total h1 h2
      obtain ⟨f1, p1, k1, k2⟩ := forestStep_spec hg hf inv (hmem e (Or.inr rfl))
        (fun a ha => hmem a (Or.inl ha)) hlt
      obtain ⟨f2, p2, k3, k4⟩ := ih (L ++ [e]) (by rw [← h]; simp) f1 p1 k2
      exact ⟨f2, p2, by rw [List.foldlM_cons, k1]; exact k3, k4⟩
  obtain ⟨F, p, h1, inv⟩ := main [] sorted rfl _ _ (forestStart g hg)
  have hsrc : ∀ u x, x ∈ F.nbrs u → edgeKey g u x ∈ g.candidates := fun u x h =>
    hs.1.mem_iff.mp (inv.src u x h)
  refine ⟨F, ?_, inv.vertices, inv.vweights, ⟨?_, inv.nodup, inv.symm, ?_⟩, ?_, inv.deg, inv.acyclic, ?_⟩
  · unfold spanningForest
    simp only
    rw [h1]; rfl
  · change F.vertices.Nodup
    rw [inv.vertices]; exact hg.nodup
  · intro u x h
    change x ∈ F.vertices
    rw [inv.vertices]
    exact (candidate_of_edgeKey hg (hsrc u x h)).2.2.2
  · intro u x h
    have := candidate_of_edgeKey hg (hsrc u x h)
    exact ⟨this.2.1, this.1, inv.weight u x h⟩
  · intro u x hux hx
    have hc : (g.edgeWeight u x, u, x) ∈ g.candidates :=
      (mem_candidates g _).mpr ⟨hg.mem _ _ (hg.symm _ _ hx), hx, hux, rfl⟩
    have hk : edgeKey g u x = (g.edgeWeight u x, u, x) := edgeKey_of_candidate hc
    rw [hk]
    exact inv.greedy _ (hs.1.mem_iff.mpr hc)

/-- **C30.** No edge of the input can be added to the forest: one of its ends has two neighbours in
the forest, or the forest connects its ends already. -/
theorem spanningForest_maximal [Zero K] (g : WGraph V K) (hg : g.toGraph.WF) (sorted : List (K × V × V))
    (hs : SortedDescending g.candidates sorted) (fuel : ℕ) (hf : g.vertices.length ≤ fuel) :
    ∃ F, spanningForest fuel g sorted = some F ∧
      ∀ u x, u ≠ x → x ∈ g.nbrs u → x ∉ F.nbrs u →
        (F.nbrs u).length = 2 ∨ (F.nbrs x).length = 2 ∨ (toSimple F.nbrs).Reachable u x := by
  obtain ⟨F, h1, -, -, h4, h5, h6, -, h8⟩ := spanningForest_spec g hg sorted hs fuel hf
  refine ⟨F, h1, ?_⟩
  have two : ∀ u a b, a ≠ b → a ∈ F.nbrs u → b ∈ F.nbrs u → (F.nbrs u).length = 2 := by
    intro u a b hab ha hb
    by_contra hne
    exact hab (not_two_mem (h6 u) hne a b ha hb)
  have main : ∀ u x, u < x → x ∈ g.nbrs u → x ∉ F.nbrs u →
      (F.nbrs u).length = 2 ∨ (F.nbrs x).length = 2 ∨ (toSimple F.nbrs).Reachable u x := by
    intro u x hux hx hxF
    have hb : Blocked g F (edgeKey g u x) := by
      by_contra hb
      exact hxF ((h8 u x hux hx).mpr hb)
    have e1 : (edgeKey g u x).2.1 = u := min_eq_left hux.le
    have e2 : (edgeKey g u x).2.2 = x := max_eq_right hux.le
    unfold Blocked at hb
    rw [e1, e2] at hb
    rcases hb with ⟨a, b, hab, ha, hb⟩ | ⟨a, b, hab, ha, hb⟩ | hb
    · exact Or.inl (two u a b hab ha.1 hb.1)
    · exact Or.inr (Or.inl (two x a b hab ha.1 hb.1))
    · refine Or.inr (Or.inr ?_)
      rw [SimpleGraph.reachable_iff_reflTransGen]
      refine Relation.ReflTransGen.mono ?_ _ _ hb
      intro a b hab
      unfold toSimple
      rw [SimpleGraph.fromRel_adj]
      exact ⟨(h5 a b hab.1).1, Or.inl hab.1⟩
  intro u x hne hx hxF
  rcases lt_or_gt_of_ne hne with h | h
  · exact main u x h hx hxF
  · rcases main x u h (hg.symm _ _ hx) (fun h' => hxF (h4.symm _ _ h')) with k | k | k
    · exact Or.inr (Or.inl k)
    · exact Or.inl k
    · exact Or.inr (Or.inr k.symm)

/-! ## A concrete case -/

/-- The sorted edges of the example of two triangles. -/
def exSorted : List (ℤ × ℕ × ℕ) :=
  [(7, 4, 5), (7, 3, 5), (7, 3, 4), (7, 1, 2), (7, 0, 2), (7, 0, 1), (1, 2, 3)]

theorem exSorted_sorted : SortedDescending exWeighted.candidates exSorted := by
  refine ⟨by decide +kernel, ?_⟩
  unfold pairLess
  decide

example : (spanningForest 7 exWeighted exSorted).map (fun F => F.vertices.map F.nbrs)
    = some [[4, 3], [2], [5], [2], [5], [1, 0], []] := by decide +kernel

end Ceres.Graph
