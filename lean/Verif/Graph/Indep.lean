import Verif.Graph.Model
import Mathlib.Data.List.Perm.Subperm
import Mathlib.Data.List.Perm.Lattice
import Mathlib.Data.List.Nodup
import Mathlib.Data.List.Sublists
import Mathlib.Data.List.Sort
import Mathlib.Data.List.Induction
import Mathlib.Tactic.IntervalCases

/-!
# Independent set orderings (C26)
-/

namespace Ceres.Graph

variable {V : Type} [DecidableEq V]

/-! ## Specification -/

/-- An undirected graph: vertices and neighbours are sets, neighbourhood is symmetric, and the
neighbours are vertices. -/
structure Graph.WF (g : Graph V) : Prop where
  nodup : g.vertices.Nodup
  nbrs_nodup : ∀ v, (g.nbrs v).Nodup
  symm : ∀ v w, w ∈ g.nbrs v → v ∈ g.nbrs w
  mem : ∀ v w, w ∈ g.nbrs v → w ∈ g.vertices

/-- No vertex is its own neighbour. -/
def Graph.NoLoops (g : Graph V) : Prop := ∀ v, v ∉ g.nbrs v

/-- `S` is a maximal independent set of vertices. -/
structure Graph.IsMaximalIndependent (g : Graph V) (S : List V) : Prop where
  subset : ∀ v ∈ S, v ∈ g.vertices
  independent : ∀ a ∈ S, ∀ b ∈ S, b ∉ g.nbrs a
  maximal : ∀ v ∈ g.vertices, v ∉ S → ∃ s ∈ S, s ∈ g.nbrs v

/-- `a` comes before `b` in `l`. -/
def Before (l : List V) (a b : V) : Prop := [a, b].Sublist l

/-! ## The greedy loop -/

theorem foldl_grey (l : List V) (c : V → Color) (v : V) :
    l.foldl (fun c n => Function.update c n .grey) c v = if v ∈ l then .grey else c v := by
  induction l generalizing c with
  | nil => simp
  | cons a l ih =>
    rw [List.foldl_cons, ih]
    by_cases h : v ∈ l
    · simp [h]
    · by_cases hv : v = a
      · subst hv; simp
      · simp [h, hv]

/-- The invariant of the greedy loop after the prefix `L` of the queue. -/
structure GreedyInv (g : Graph V) (L : List V) (s : List V × (V → Color)) : Prop where
  sub : s.1.Sublist L
  black : ∀ v, s.2 v = .black ↔ v ∈ s.1
  grey : ∀ v, s.2 v = .grey ↔ ∃ a ∈ s.1, v ∈ g.nbrs a
  indep : ∀ a ∈ s.1, ∀ b ∈ s.1, b ∉ g.nbrs a
  cover : ∀ v ∈ L, v ∉ s.1 → ∃ a ∈ s.1, a ∈ g.nbrs v ∧ Before L a v

theorem greedyInv (g : Graph V) (h : g.WF) (hl : g.NoLoops) (L : List V) :
    GreedyInv g L (L.foldl g.greedyStep ([], fun _ => .white)) := by
  induction L using List.reverseRecOn with
  | nil => constructor <;> simp
  | append_singleton L v ih =>
    rw [List.foldl_append, List.foldl_cons, List.foldl_nil]
    set s := L.foldl g.greedyStep ([], fun _ => .white)
    unfold Graph.greedyStep
    by_cases hw : s.2 v = .white
    · rw [if_neg (by simpa using hw)]
      have hvo : v ∉ s.1 := fun hv => by
        have := (ih.black v).mpr hv
        rw [hw] at this; cases this
      have hvg : ∀ a ∈ s.1, v ∉ g.nbrs a := fun a ha hv => by
        have := (ih.grey v).mpr ⟨a, ha, hv⟩
        rw [hw] at this; cases this
      have hgv : ∀ a ∈ s.1, a ∉ g.nbrs v := fun a ha hv => hvg a ha (h.symm _ _ hv)
      refine ⟨ih.sub.append (List.Sublist.refl _), ?_, ?_, ?_, ?_⟩
      · intro u
        simp only [foldl_grey]
        by_cases hu : u ∈ g.nbrs v
        · rw [if_pos hu]
          simp only [reduceCtorEq, List.mem_append, List.mem_singleton, false_iff, not_or]
          exact ⟨fun hm => hgv u hm hu, fun e => hl v (e ▸ hu)⟩
        · rw [if_neg hu]
          by_cases huv : u = v
          · subst huv; simp
          · rw [Function.update_of_ne huv, ih.black u]; simp [huv]
      · intro u
        simp only [foldl_grey]
        by_cases hu : u ∈ g.nbrs v
        · rw [if_pos hu]
          simp only [true_iff]
          exact ⟨v, by simp, hu⟩
        · rw [if_neg hu]
          by_cases huv : u = v
          · subst huv
            simp only [Function.update_self, reduceCtorEq, false_iff]
            rintro ⟨a, ha, hua⟩
            rcases List.mem_append.mp ha with ha | ha
            · exact hvg a ha hua
            · rw [List.mem_singleton.mp ha] at hua; exact hu hua
          · rw [Function.update_of_ne huv, ih.grey u]
            constructor
            · rintro ⟨a, ha, hua⟩; exact ⟨a, by simp [ha], hua⟩
            · rintro ⟨a, ha, hua⟩
              rcases List.mem_append.mp ha with ha | ha
              · exact ⟨a, ha, hua⟩
              · rw [List.mem_singleton.mp ha] at hua; exact absurd hua hu
      · intro a ha b hb
        rcases List.mem_append.mp ha with ha | ha <;> rcases List.mem_append.mp hb with hb | hb
        · exact ih.indep a ha b hb
        · rw [List.mem_singleton.mp hb]; exact hvg a ha
        · rw [List.mem_singleton.mp ha]; exact hgv b hb
        · rw [List.mem_singleton.mp ha, List.mem_singleton.mp hb]; exact hl v
      · intro u hu hu'
        rcases List.mem_append.mp hu with hu | hu
        · obtain ⟨a, ha, hau, hb⟩ := ih.cover u hu (fun hm => hu' (by simp [hm]))
          exact ⟨a, by simp [ha], hau, hb.trans (List.sublist_append_left _ _)⟩
        · rw [List.mem_singleton.mp hu] at hu'; exact absurd (by simp) hu'
    · rw [if_pos (by simpa using hw)]
      refine ⟨ih.sub.trans (List.sublist_append_left _ _), ih.black, ih.grey, ih.indep, ?_⟩
      intro u hu hu'
      by_cases huL : u ∈ L
      · obtain ⟨a, ha, hau, hb⟩ := ih.cover u huL hu'
        exact ⟨a, ha, hau, hb.trans (List.sublist_append_left _ _)⟩
      · have huv : u = v := by
          rcases List.mem_append.mp hu with hu | hu
          · exact absurd hu huL
          · exact List.mem_singleton.mp hu
        subst huv
        have hg : s.2 u = .grey := by
          cases hc : s.2 u with
          | white => exact absurd hc hw
          | grey => rfl
          | black => exact absurd ((ih.black u).mp hc) hu'
        obtain ⟨a, ha, hua⟩ := (ih.grey u).mp hg
        refine ⟨a, ha, h.symm _ _ hua, ?_⟩
        have : [a].Sublist L := List.singleton_sublist.mpr (ih.sub.subset ha)
        exact this.append (List.Sublist.refl [u])

theorem sublist_eq_filter {l m : List V} (h : l.Sublist m) (hm : m.Nodup) :
    m.filter (fun v => decide (v ∈ l)) = l := by
  have h1 : l.Sublist (m.filter fun v => decide (v ∈ l)) := by
    have := h.filter fun v => decide (v ∈ l)
    rwa [List.filter_eq_self.mpr (fun a ha => by simpa using ha)] at this
  refine (h1.eq_of_length_le ?_).symm
  refine (List.subperm_of_subset (hm.filter _) ?_).length_le
  intro a ha
  simpa using (List.mem_filter.mp ha).2

/-- What the common part of the two orderings returns for any queue that lists the vertices. -/
theorem colorAndCollect_spec (g : Graph V) (h : g.WF) (hl : g.NoLoops) (queue : List V)
    (hq : queue.Perm g.vertices) :
    ∃ ord k, g.colorAndCollect queue = some (ord, k) ∧ ord.Perm g.vertices ∧ k ≤ ord.length ∧
      g.IsMaximalIndependent (ord.take k) ∧
      (∀ v ∈ g.vertices, v ∉ ord.take k → ∃ s ∈ ord.take k, s ∈ g.nbrs v ∧ Before queue s v) ∧
      (ord.take k).Sublist queue ∧ (ord.drop k).Sublist queue := by
  have inv := greedyInv g h hl queue
  unfold Graph.colorAndCollect
  set s := queue.foldl g.greedyStep ([], fun _ => .white) with hs
  have hnd : queue.Nodup := hq.nodup_iff.mpr h.nodup
  have hfil : queue.filter (fun v => decide (s.2 v = .black)) = s.1 := by
    have : queue.filter (fun v => decide (s.2 v = .black)) = queue.filter fun v => decide (v ∈ s.1) :=
      List.filter_congr fun v _ => by simp [inv.black v]
    rw [this]
    exact sublist_eq_filter inv.sub hnd
  have hperm : (s.1 ++ queue.filter fun v => decide (s.2 v ≠ .black)).Perm g.vertices := by
    refine List.Perm.trans ?_ hq
    have := List.filter_append_perm (fun v => decide (s.2 v = .black)) queue
    rw [hfil] at this
    simpa using this
  refine ⟨_, _, if_pos hperm.length_eq, hperm, by simp, ?_, ?_, ?_, ?_⟩
  · rw [List.take_left']
    · refine ⟨fun v hv => hq.mem_iff.mp (inv.sub.subset hv), inv.indep, fun v hv hv' => ?_⟩
      obtain ⟨a, ha, hav, _⟩ := inv.cover v (hq.mem_iff.mpr hv) hv'
      exact ⟨a, ha, hav⟩
    · rfl
  · rw [List.take_left' rfl]
    exact fun v hv hv' => inv.cover v (hq.mem_iff.mpr hv) hv'
  · rw [List.take_left' rfl]; exact inv.sub
  · rw [List.drop_left' rfl]; exact List.filter_sublist

/-! ## The theorems -/

/-- Vertices by degree, and by their own order among equal degrees. -/
def DegreeOrder [LT V] (g : Graph V) (a b : V) : Prop :=
  g.degree a < g.degree b ∨ g.degree a = g.degree b ∧ a < b

theorem totallySorted_before [LinearOrder V] {g : Graph V} (h : g.WF) {queue : List V}
    (hq : g.TotallySorted queue) {a b : V} (hab : Before queue a b) : DegreeOrder g a b := by
  have hnd : queue.Nodup := hq.1.nodup_iff.mpr h.nodup
  have hne : a ≠ b := by
    have := hnd.sublist hab
    simpa using this
  have hp : ¬g.totalLess b a := by
    have := hq.2.sublist hab
    simpa using this
  unfold Graph.totalLess at hp
  unfold DegreeOrder
  by_cases hd : g.degree b = g.degree a
  · rw [if_pos hd] at hp
    exact Or.inr ⟨hd.symm, lt_of_le_of_ne (not_lt.mp hp) hne⟩
  · rw [if_neg hd] at hp
    omega

/-- **C26.** `IndependentSetOrdering` never aborts on an undirected graph without loops.  It returns
an ordering of all vertices whose first `k` vertices are a maximal independent set; a vertex that is
not among them is adjacent to one of them that comes earlier in the order by degree; and both the
first `k` vertices and the remaining vertices are ordered by degree, then by name. -/
theorem independentSetOrdering_valid [LinearOrder V] (g : Graph V) (h : g.WF) (hl : g.NoLoops)
    (queue : List V) (hq : g.TotallySorted queue) :
    ∃ ord k, g.independentSetOrdering queue = some (ord, k) ∧
      ord.Perm g.vertices ∧ k ≤ ord.length ∧
      g.IsMaximalIndependent (ord.take k) ∧
      (∀ v ∈ g.vertices, v ∉ ord.take k → ∃ s ∈ ord.take k, s ∈ g.nbrs v ∧ DegreeOrder g s v) ∧
      (ord.take k).Pairwise (DegreeOrder g) ∧ (ord.drop k).Pairwise (DegreeOrder g) := by
  obtain ⟨ord, k, he, hp, hk, hm, hc, ht, hd⟩ := colorAndCollect_spec g h hl queue hq.1
  have key := fun {a b} => totallySorted_before h hq (a := a) (b := b)
  refine ⟨ord, k, he, hp, hk, hm, ?_, ?_, ?_⟩
  · intro v hv hv'
    obtain ⟨s, hs, hsv, hb⟩ := hc v hv hv'
    exact ⟨s, hs, hsv, key hb⟩
  · exact List.pairwise_iff_forall_sublist.mpr fun hab => key (hab.trans ht)
  · exact List.pairwise_iff_forall_sublist.mpr fun hab => key (hab.trans hd)

/-- **C26.** `StableIndependentSetOrdering`: the same, and vertices of equal degree keep the order
in which they were given. -/
theorem stableIndependentSetOrdering_valid (g : Graph V) (h : g.WF) (hl : g.NoLoops)
    (input queue : List V) (hi : input.Perm g.vertices) (hq : g.StablySorted input queue) :
    ∃ ord k, g.stableIndependentSetOrdering input queue = some (ord, k) ∧
      ord.Perm g.vertices ∧ k ≤ ord.length ∧
      g.IsMaximalIndependent (ord.take k) ∧
      (∀ v ∈ g.vertices, v ∉ ord.take k → ∃ s ∈ ord.take k, s ∈ g.nbrs v ∧
        (g.degree s < g.degree v ∨ g.degree s = g.degree v ∧ Before input s v)) ∧
      (∀ a b, Before (ord.take k) a b ∨ Before (ord.drop k) a b →
        g.degree a < g.degree b ∨ g.degree a = g.degree b ∧ Before input a b) := by
  obtain ⟨ord, k, he, hp, hk, hm, hc, ht, hd⟩ :=
    colorAndCollect_spec g h hl queue (hq.1.trans hi)
  have key : ∀ a b, Before queue a b →
      g.degree a < g.degree b ∨ g.degree a = g.degree b ∧ Before input a b := by
    intro a b hab
    have hle : ¬g.degree b < g.degree a := by
      have := hq.2.1.sublist hab
      simpa [Graph.degreeLess] using this
    rcases Nat.lt_or_ge (g.degree a) (g.degree b) with hlt | hge
    · exact Or.inl hlt
    · have heq : g.degree a = g.degree b := by omega
      refine Or.inr ⟨heq, ?_⟩
      have h1 := List.Sublist.filter (fun v => decide (g.degree v = g.degree b)) hab
      rw [hq.2.2 (g.degree b)] at h1
      have h2 : [a, b].filter (fun v => decide (g.degree v = g.degree b)) = [a, b] := by
        simp [heq]
      rw [h2] at h1
      exact h1.trans List.filter_sublist
  refine ⟨ord, k, ?_, hp, hk, hm, ?_, ?_⟩
  · unfold Graph.stableIndependentSetOrdering
    rw [if_pos hi.length_eq.symm, he]
  · intro v hv hv'
    obtain ⟨s, hs, hsv, hb⟩ := hc v hv hv'
    exact ⟨s, hs, hsv, key _ _ hb⟩
  · rintro a b (hab | hab)
    · exact key _ _ (hab.trans ht)
    · exact key _ _ (hab.trans hd)

/-- `StableIndependentSetOrdering` aborts if it is not given as many vertices as the graph has. -/
theorem stableIndependentSetOrdering_aborts (g : Graph V) (input queue : List V)
    (hi : input.length ≠ g.vertices.length) : g.stableIndependentSetOrdering input queue = none :=
  if_neg (Ne.symm hi)

/-! ## The order of iteration over hash sets does not matter -/

/-- **C26.** The result of `IndependentSetOrdering` depends on the graph only, not on the order in
which its hash sets are traversed nor on the sorting algorithm. -/
theorem independentSetOrdering_deterministic [LinearOrder V] (g g' : Graph V) (h : g.WF)
    (hv : g.vertices.Perm g'.vertices) (hn : ∀ v, (g.nbrs v).Perm (g'.nbrs v))
    (queue queue' : List V) (hq : g.TotallySorted queue) (hq' : g'.TotallySorted queue') :
    g.independentSetOrdering queue = g'.independentSetOrdering queue' := by
  have hdeg : ∀ v, g.degree v = g'.degree v := fun v => (hn v).length_eq
  have h' : g'.WF :=
    ⟨hv.nodup_iff.mp h.nodup, fun v => (hn v).nodup_iff.mp (h.nbrs_nodup v),
      fun v w hw => (hn w).mem_iff.mp (h.symm v w ((hn v).mem_iff.mpr hw)),
      fun v w hw => hv.mem_iff.mp (h.mem v w ((hn v).mem_iff.mpr hw))⟩
  have hqq : queue = queue' := by
    have hp : queue.Perm queue' := (hq.1.trans hv).trans hq'.1.symm
    refine hp.eq_of_pairwise (le := DegreeOrder g) ?_ ?_ ?_
    · intro a b _ _ hab hba
      unfold DegreeOrder at hab hba
      rcases hab with hab | ⟨hab, h1⟩ <;> rcases hba with hba | ⟨hba, h2⟩
      · omega
      · omega
      · omega
      · exact absurd h1 (lt_asymm h2)
    · exact List.pairwise_iff_forall_sublist.mpr fun hab => totallySorted_before h hq hab
    · refine List.pairwise_iff_forall_sublist.mpr fun {a b} hab => ?_
      have := totallySorted_before h' hq' hab
      unfold DegreeOrder at this ⊢
      rwa [hdeg, hdeg]
  subst hqq
  have hstep : g.greedyStep = g'.greedyStep := by
    funext s v
    unfold Graph.greedyStep
    by_cases hw : s.2 v ≠ .white
    · rw [if_pos hw, if_pos hw]
    · rw [if_neg hw, if_neg hw]
      congr 1
      funext u
      rw [foldl_grey, foldl_grey]
      simp only [(hn v).mem_iff]
  unfold Graph.independentSetOrdering Graph.colorAndCollect
  rw [hstep, hv.length_eq]

/-! ## Loops: a finding -/

/-- With a vertex that is its own neighbour, the ordering may abort: this vertex is put into the
ordering, and then, being grey, a second time. -/
theorem independentSetOrdering_loop_aborts :
    ∃ (g : Graph ℕ) (queue : List ℕ), g.WF ∧ g.TotallySorted queue ∧
      g.independentSetOrdering queue = none := by
  refine ⟨⟨[0], fun v => if v = 0 then [0] else []⟩, [0], ⟨by simp, ?_, ?_, ?_⟩, ⟨.refl _, by simp⟩,
    by decide +kernel⟩
  · intro v; by_cases h : v = 0 <;> simp [h]
  · intro v w; by_cases h : v = 0 <;> simp [h]
  · intro v w; by_cases h : v = 0 <;> simp [h]

/-! ## A concrete case -/

/-- A path `0 - 1 - 2` and an isolated vertex `3`. -/
def exGraph : Graph ℕ :=
  ⟨[2, 0, 3, 1], fun v => if v = 0 then [1] else if v = 1 then [2, 0] else if v = 2 then [1] else []⟩

theorem exGraph_wf : exGraph.WF where
  nodup := by decide
  nbrs_nodup v := by unfold exGraph; dsimp only; split_ifs <;> decide
  symm v w := by
    unfold exGraph; dsimp only
    split_ifs <;> simp_all <;> omega
  mem v w := by
    unfold exGraph; dsimp only
    split_ifs <;> simp <;> omega

theorem exGraph_noLoops : exGraph.NoLoops := by
  intro v
  unfold exGraph; dsimp only
  split_ifs <;> simp_all

theorem exGraph_sorted : exGraph.TotallySorted [3, 0, 2, 1] := by
  refine ⟨by decide, ?_⟩
  unfold Graph.totalLess
  decide

example : exGraph.independentSetOrdering [3, 0, 2, 1] = some ([3, 0, 2, 1], 3) := by decide +kernel

/-- The same graph with the vertices given in another order. -/
theorem exGraph_stablySorted : exGraph.StablySorted [1, 2, 3, 0] [3, 2, 0, 1] := by
  refine ⟨by decide, ?_, ?_⟩
  · unfold Graph.degreeLess; decide
  · intro d
    have h0 : exGraph.degree 0 = 1 := rfl
    have h1 : exGraph.degree 1 = 2 := rfl
    have h2 : exGraph.degree 2 = 1 := rfl
    have h3 : exGraph.degree 3 = 0 := rfl
    rcases Nat.lt_or_ge d 3 with h | h
    · interval_cases d <;> decide
    · rw [List.filter_eq_nil_iff.mpr, List.filter_eq_nil_iff.mpr] <;>
        (intro a ha; simp at ha; rcases ha with rfl | rfl | rfl | rfl <;> simp_all <;> omega)

example : exGraph.stableIndependentSetOrdering [1, 2, 3, 0] [3, 2, 0, 1] = some ([3, 2, 0, 1], 3) := by
  decide +kernel

end Ceres.Graph
