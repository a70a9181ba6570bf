import Verif.Visibility.Points
import Verif.Graph.Forest

/-!
# C86: the graphs of cameras and of clusters
-/

noncomputable section

namespace Ceres.Visibility

open Ceres.BlockSparse Ceres.Graph Ceres.SchurDirect

/-- The graph with the vertices `0, …, n - 1`, the edges `E` and the weights `w`. -/
structure IsGraph (g : WGraph ℕ ℝ) (n : ℕ) (E : ℕ → ℕ → Prop) (w : ℕ → ℕ → ℝ) : Prop where
  nodup : g.vertices.Nodup
  mem : ∀ v, v ∈ g.vertices ↔ v < n
  nbrs_nodup : ∀ v, (g.nbrs v).Nodup
  nbrs : ∀ u x, x ∈ g.nbrs u ↔ E u x
  symm : ∀ u x, E u x → E x u
  bound : ∀ u x, E u x → x < n
  weight : ∀ u x, g.edgeWeight u x = w u x

variable {g : WGraph ℕ ℝ} {n : ℕ} {E : ℕ → ℕ → Prop} {w : ℕ → ℕ → ℝ}

theorem IsGraph.wf (h : IsGraph g n E w) : g.toGraph.WF where
  nodup := h.nodup
  nbrs_nodup := h.nbrs_nodup
  symm v x hx := (h.nbrs x v).2 (h.symm v x ((h.nbrs v x).1 hx))
  mem v x hx := (h.mem x).2 (h.bound v x ((h.nbrs v x).1 hx))

theorem IsGraph.length (h : IsGraph g n E w) : g.vertices.length = n := by
  rw [← List.toFinset_card_of_nodup h.nodup, ← Finset.card_range n]
  congr 1
  ext v
  rw [List.mem_toFinset, h.mem, Finset.mem_range]

theorem IsGraph.congr (h : IsGraph g n E w) {E' : ℕ → ℕ → Prop} {w' : ℕ → ℕ → ℝ} (hE : ∀ u x, E u x ↔ E' u x)
    (hw : ∀ u x, w u x = w' u x) : IsGraph g n E' w' := by
  have e1 : E = E' := by funext u x; exact propext (hE u x)
  have e2 : w = w' := by funext u x; exact hw u x
  rw [← e1, ← e2]
  exact h

theorem IsGraph.reordered (h : IsGraph g n E w) {g' : WGraph ℕ ℝ} (hr : Reordered g g') : IsGraph g' n E w where
  nodup := hr.vertices.nodup_iff.2 h.nodup
  mem v := (hr.vertices.mem_iff).trans (h.mem v)
  nbrs_nodup v := (hr.nbrs v).nodup_iff.2 (h.nbrs_nodup v)
  nbrs u x := ((hr.nbrs u).mem_iff).trans (h.nbrs u x)
  symm := h.symm
  bound := h.bound
  weight u x := by
    rw [← h.weight u x]
    unfold WGraph.edgeWeight
    rw [hr.weights]

theorem isGraph_empty : IsGraph emptyGraph 0 (fun _ _ => False) fun _ _ => 0 where
  nodup := List.nodup_nil
  mem v := by simp [emptyGraph]
  nbrs_nodup v := List.nodup_nil
  nbrs u x := by simp [emptyGraph]
  symm _ _ h := h
  bound _ _ h := h.elim
  weight u x := by simp [emptyGraph, WGraph.edgeWeight]

theorem IsGraph.addVertex (h : IsGraph g n E w) (s : ℝ) : IsGraph (g.addVertex n s) (n + 1) E w := by
  have hn : n ∉ g.vertices := fun hm => lt_irrefl n ((h.mem n).1 hm)
  have hnb : ∀ x, ¬E n x := fun x hx => lt_irrefl n (h.bound x n (h.symm n x hx))
  unfold WGraph.addVertex
  rw [if_neg hn]
  constructor
  · exact List.nodup_append.2 ⟨h.nodup, List.nodup_singleton n, fun a ha b hb hab => hn (by
      rw [List.mem_singleton.1 hb] at hab; exact hab ▸ ha)⟩
  · intro v
    show v ∈ g.vertices ++ [n] ↔ _
    rw [List.mem_append, h.mem, List.mem_singleton]
    omega
  · intro v
    show (Function.update g.nbrs n [] v).Nodup
    by_cases hv : v = n
    · rw [hv, Function.update_self]; exact List.nodup_nil
    · rw [Function.update_of_ne hv]; exact h.nbrs_nodup v
  · intro u x
    show x ∈ Function.update g.nbrs n [] u ↔ _
    by_cases hv : u = n
    · subst hv
      rw [Function.update_self]
      exact ⟨fun h => (List.not_mem_nil h).elim, fun hx => (hnb x hx).elim⟩
    · rw [Function.update_of_ne hv]; exact h.nbrs u x
  · exact h.symm
  · exact fun u x hx => (h.bound u x hx).trans (Nat.lt_succ_self n)
  · exact fun u x => h.weight u x

theorem IsGraph.addEdge (h : IsGraph g n E w) {a b : ℕ} (ha : a < n) (hb : b < n) (s : ℝ) :
    IsGraph (g.addEdge a b s) n (fun u x => E u x ∨ u = a ∧ x = b ∨ u = b ∧ x = a)
      fun u x => if u = a ∧ x = b ∨ u = b ∧ x = a then s else w u x := by
  constructor
  · exact h.nodup
  · exact h.mem
  · intro v
    show (ite _ _ _ : ℕ → List ℕ) v |>.Nodup
    split_ifs with hm
    · exact h.nbrs_nodup v
    · by_cases hvb : v = b
      · subst hvb
        rw [Function.update_self]
        refine nodup_insertNew ?_ _
        by_cases hva : v = a
        · subst hva
          rw [Function.update_self]; exact nodup_insertNew (h.nbrs_nodup _) _
        · rw [Function.update_of_ne hva]; exact h.nbrs_nodup _
      · rw [Function.update_of_ne hvb]
        by_cases hva : v = a
        · subst hva
          rw [Function.update_self]; exact nodup_insertNew (h.nbrs_nodup _) _
        · rw [Function.update_of_ne hva]; exact h.nbrs_nodup _
  · intro u x
    show x ∈ (ite _ _ _ : ℕ → List ℕ) u ↔ _
    split_ifs with hm
    · rw [h.nbrs]
      refine ⟨Or.inl, ?_⟩
      rw [h.nbrs] at hm
      rintro (h1 | ⟨rfl, rfl⟩ | ⟨rfl, rfl⟩)
      · exact h1
      · exact hm
      · exact h.symm _ _ hm
    · have e1 : ∀ v y, y ∈ Function.update g.nbrs a (insertNew (g.nbrs a) b) v ↔ E v y ∨ v = a ∧ y = b := by
        intro v y
        by_cases hva : v = a
        · subst hva
          rw [Function.update_self, mem_insertNew, h.nbrs]
          tauto
        · rw [Function.update_of_ne hva, h.nbrs]
          tauto
      by_cases hub : u = b
      · subst hub
        rw [Function.update_self, mem_insertNew, e1]
        tauto
      · rw [Function.update_of_ne hub, e1]
        tauto
  · rintro u x (h1 | ⟨h1, h2⟩ | ⟨h1, h2⟩)
    · exact Or.inl (h.symm u x h1)
    · exact Or.inr (Or.inr ⟨h2, h1⟩)
    · exact Or.inr (Or.inl ⟨h2, h1⟩)
  · rintro u x (h1 | ⟨h1, h2⟩ | ⟨h1, h2⟩)
    · exact h.bound u x h1
    · omega
    · omega
  · intro u x
    rw [← h.weight u x]
    unfold WGraph.edgeWeight WGraph.addEdge
    simp only [Function.update_apply]
    by_cases hux : u < x <;> by_cases hab : a < b
    · rw [if_pos hux, if_pos hab, if_pos hux, if_congr (Q := u = a ∧ x = b ∨ u = b ∧ x = a) _ rfl rfl]
      rw [Prod.mk.injEq]; omega
    · rw [if_pos hux, if_neg hab, if_pos hux, if_congr (Q := u = a ∧ x = b ∨ u = b ∧ x = a) _ rfl rfl]
      rw [Prod.mk.injEq]; omega
    · rw [if_neg hux, if_pos hab, if_neg hux, if_congr (Q := u = a ∧ x = b ∨ u = b ∧ x = a) _ rfl rfl]
      rw [Prod.mk.injEq]; omega
    · rw [if_neg hux, if_neg hab, if_neg hux, if_congr (Q := u = a ∧ x = b ∨ u = b ∧ x = a) _ rfl rfl]
      rw [Prod.mk.injEq]; omega

theorem IsGraph.addEdges (h : IsGraph g n E w) (f : ℕ × ℕ → ℝ) (l : List (ℕ × ℕ)) (hnd : l.Nodup)
    (hl : ∀ p ∈ l, p.1 < p.2 ∧ p.2 < n) :
    IsGraph (l.foldl (fun g p => g.addEdge p.1 p.2 (f p)) g) n
      (fun u x => E u x ∨ (u, x) ∈ l ∨ (x, u) ∈ l)
      fun u x => if (u, x) ∈ l then f (u, x) else if (x, u) ∈ l then f (x, u) else w u x := by
  induction l generalizing g E w with
  | nil => exact h.congr (fun u x => by simp) fun u x => by simp
  | cons p l ih =>
    rw [List.nodup_cons] at hnd
    obtain ⟨h1, h2⟩ := hl p (by simp)
    refine (ih (h.addEdge (h1.trans h2) h2 (f p)) hnd.2 fun q hq => hl q (by simp [hq])).congr
      (fun u x => ?_) fun u x => ?_
    · obtain ⟨a, b⟩ := p
      simp only [List.mem_cons, Prod.mk.injEq]
      tauto
    · obtain ⟨a, b⟩ := p
      have hl' : ∀ u x, (u, x) ∈ l → u < x := fun u x hux => (hl (u, x) (by simp [hux])).1
      have h1 : a < b := h1
      have := hl' u x
      have := hl' x u
      by_cases c1 : (u, x) ∈ l
      · rw [if_pos c1, if_pos (by simp [c1])]
      · rw [if_neg c1]
        by_cases c2 : u = a ∧ x = b
        · obtain ⟨rfl, rfl⟩ := c2
          rw [if_neg (by intro hc; have := hl' x u hc; omega), if_pos (Or.inl ⟨rfl, rfl⟩), if_pos (by simp)]
        · rw [if_neg (c := (u, x) ∈ (a, b) :: l) (by simp only [List.mem_cons, Prod.mk.injEq]; tauto)]
          by_cases c3 : (x, u) ∈ l
          · rw [if_pos c3, if_pos (by simp [c3])]
          · rw [if_neg c3]
            by_cases c4 : u = b ∧ x = a
            · obtain ⟨rfl, rfl⟩ := c4
              rw [if_pos (Or.inr ⟨rfl, rfl⟩), if_pos (by simp)]
            · rw [if_neg (by tauto), if_neg (by simp only [List.mem_cons, Prod.mk.injEq]; tauto)]

theorem isGraph_loops (n : ℕ) :
    IsGraph ((List.range n).foldl (fun g i => (g.addVertex i 1).addEdge i i 1) emptyGraph) n
      (fun u x => u = x ∧ u < n) fun u x => if u = x ∧ u < n then 1 else 0 := by
  induction n with
  | zero => exact isGraph_empty.congr (fun u x => by simp) fun u x => by simp
  | succ n ih =>
    rw [List.range_succ, List.foldl_append]
    refine ((ih.addVertex 1).addEdge (Nat.lt_succ_self n) (Nat.lt_succ_self n) 1).congr (fun u x => ?_) fun u x => ?_
    · omega
    · by_cases h1 : u = n ∧ x = n
      · rw [if_pos (Or.inl h1), if_pos (by omega)]
      · rw [if_neg (by tauto)]
        by_cases h2 : u = x ∧ u < n
        · rw [if_pos h2, if_pos (by omega)]
        · rw [if_neg h2, if_neg (by omega)]

theorem isGraph_vertices (n : ℕ) :
    IsGraph ((List.range n).foldl (fun g i => g.addVertex i 1) emptyGraph) n (fun _ _ => False) fun _ _ => 0 := by
  induction n with
  | zero => exact isGraph_empty
  | succ n ih =>
    rw [List.range_succ, List.foldl_append]
    exact ih.addVertex 1

/-! ## Cameras -/

variable {bs : BS} {ne : ℕ}

theorem common_iff (a b e : ℕ) :
    e ∈ points bs ne a ∩ points bs ne b ↔ Sees bs ne a e ∧ Sees bs ne b e := by
  rw [Finset.mem_inter, mem_points, mem_points]

theorem similarity_symm (a b : ℕ) : similarity bs ne a b = similarity bs ne b a := by
  unfold similarity
  rw [Finset.inter_comm, mul_comm ((points bs ne a).card : ℝ)]
  by_cases h : a = b
  · rw [if_pos h, if_pos h.symm]
  · rw [if_neg h, if_neg fun h' => h h'.symm]

theorem similarity_nonneg (a b : ℕ) : 0 ≤ similarity bs ne a b := by
  unfold similarity
  split_ifs
  · exact zero_le_one
  · positivity

theorem similarity_le_one (a b : ℕ) : similarity bs ne a b ≤ 1 := by
  unfold similarity
  split_ifs
  · exact le_rfl
  · refine div_le_one_of_le₀ (Real.le_sqrt_of_sq_le ?_) (Real.sqrt_nonneg _)
    have h1 : ((points bs ne a ∩ points bs ne b).card : ℝ) ≤ (points bs ne a).card :=
      Nat.cast_le.2 (Finset.card_le_card Finset.inter_subset_left)
    have h2 : ((points bs ne a ∩ points bs ne b).card : ℝ) ≤ (points bs ne b).card :=
      Nat.cast_le.2 (Finset.card_le_card Finset.inter_subset_right)
    rw [sq]
    exact mul_le_mul h1 h2 (Nat.cast_nonneg _) (Nat.cast_nonneg _)

/-- Two cameras are similar at all exactly when they see a common point, or are the same. -/
theorem similarity_pos (a b : ℕ) :
    0 < similarity bs ne a b ↔ a = b ∨ (points bs ne a ∩ points bs ne b).Nonempty := by
  by_cases hab : a = b
  · subst hab
    unfold similarity
    rw [if_pos rfl]
    exact ⟨fun _ => Or.inl rfl, fun _ => zero_lt_one⟩
  · unfold similarity
    rw [if_neg hab]
    constructor
    · intro h
      right
      by_contra hne
      rw [Finset.not_nonempty_iff_eq_empty] at hne
      rw [hne] at h
      simp at h
    · rintro (h | h)
      · exact absurd h hab
      · have h1 : 0 < (points bs ne a).card := Finset.card_pos.2 (h.mono Finset.inter_subset_left)
        have h2 : 0 < (points bs ne b).card := Finset.card_pos.2 (h.mono Finset.inter_subset_right)
        have h3 := Finset.card_pos.2 h
        positivity

/-- The graph of cameras: an edge between cameras that see a common point, and from each to itself. -/
theorem schurGraph_isGraph (ho : SchurOrdered ne bs) (n : ℕ) {o : Orders} (hok : o.Ok) :
    IsGraph (schurGraph (computeVisibility bs ne) n (o.cameraPairs (cameraPairs (computeVisibility bs ne) n))) n
      (fun u x => u < n ∧ x < n ∧ 0 < similarity bs ne u x)
      fun u x => if u < n ∧ x < n then similarity bs ne u x else 0 := by
  have hv := visibility_sets ho
  have hcp : ∀ a b, cameraPairs (computeVisibility bs ne) n (a, b) =
      if a < b ∧ b < n then (points bs ne a ∩ points bs ne b).card else 0 :=
    fun a b => cameraPairs_eq hv n a b fun e => common_iff a b e
  have hfin : ∃ l : List (ℕ × ℕ), ∀ p, p ∈ l ↔ 0 < cameraPairs (computeVisibility bs ne) n p := by
    refine ⟨((List.range n).flatMap fun a => (List.range n).map fun b => (a, b)).filter fun p =>
      0 < cameraPairs (computeVisibility bs ne) n p, fun p => ?_⟩
    obtain ⟨a, b⟩ := p
    simp only [List.mem_filter, List.mem_flatMap, List.mem_map, List.mem_range, Prod.mk.injEq, decide_eq_true_eq]
    refine ⟨fun h => h.2, fun h => ⟨⟨a, ?_, b, ?_, rfl, rfl⟩, h⟩⟩
    all_goals
      rw [hcp] at h
      split_ifs at h <;> omega
  obtain ⟨hnd, hmem⟩ := hok.cameraPairs _ hfin
  have hmem' : ∀ a b, (a, b) ∈ o.cameraPairs (cameraPairs (computeVisibility bs ne) n) ↔
      a < b ∧ b < n ∧ (points bs ne a ∩ points bs ne b).Nonempty := by
    intro a b
    rw [hmem, hcp, ← Finset.card_pos]
    split_ifs with h
    · exact ⟨fun h' => ⟨h.1, h.2, h'⟩, fun h' => h'.2.2⟩
    · exact ⟨fun h' => absurd h' (lt_irrefl 0), fun h' => absurd ⟨h'.1, h'.2.1⟩ h⟩
  unfold schurGraph
  refine ((isGraph_loops n).addEdges _ _ hnd fun p hp => ?_).congr (fun u x => ?_) fun u x => ?_
  · have := (hmem' p.1 p.2).1 hp
    exact ⟨this.1, this.2.1⟩
  · rw [hmem', hmem', similarity_pos, Finset.inter_comm (points bs ne x)]
    constructor
    · rintro (⟨rfl, h⟩ | ⟨h1, h2, h3⟩ | ⟨h1, h2, h3⟩)
      · exact ⟨h, h, Or.inl rfl⟩
      · exact ⟨by omega, h2, Or.inr h3⟩
      · exact ⟨by omega, by omega, Or.inr h3⟩
    · rintro ⟨h1, h2, h3 | h3⟩
      · exact Or.inl ⟨h3, h1⟩
      · rcases lt_trichotomy u x with h | h | h
        · exact Or.inr (Or.inl ⟨h, h2, h3⟩)
        · exact Or.inl ⟨h, h1⟩
        · exact Or.inr (Or.inr ⟨h, h1, h3⟩)
  · have hf : ∀ a b, a < b → b < n → ((cameraPairs (computeVisibility bs ne) n (a, b) : ℕ) : ℝ) /
        Real.sqrt (((computeVisibility bs ne a).length * (computeVisibility bs ne b).length : ℕ) : ℝ) =
        similarity bs ne a b := by
      intro a b hab hb
      unfold similarity
      rw [hcp, if_pos ⟨hab, hb⟩, if_neg (by omega), visibility_card ho, visibility_card ho, Nat.cast_mul]
    by_cases c1 : (u, x) ∈ o.cameraPairs (cameraPairs (computeVisibility bs ne) n)
    · rw [if_pos c1]
      rw [hmem'] at c1
      rw [hf u x c1.1 c1.2.1, if_pos ⟨by omega, c1.2.1⟩]
    · rw [if_neg c1]
      by_cases c2 : (x, u) ∈ o.cameraPairs (cameraPairs (computeVisibility bs ne) n)
      · rw [if_pos c2]
        rw [hmem'] at c2
        rw [hf x u c2.1 c2.2.1, if_pos ⟨by omega, by omega⟩, similarity_symm]
      · rw [if_neg c2]
        by_cases c3 : u < n ∧ x < n
        · rw [if_pos c3]
          by_cases c4 : u = x
          · rw [if_pos ⟨c4, c3.1⟩]
            unfold similarity
            rw [if_pos c4]
          · rw [if_neg fun h => c4 h.1]
            symm
            refine le_antisymm (not_lt.1 fun h => ?_) (similarity_nonneg u x)
            rw [similarity_pos] at h
            rw [hmem'] at c1 c2
            rw [Finset.inter_comm] at c2
            rcases h with h | h
            · exact c4 h
            · rcases lt_trichotomy u x with h' | h' | h'
              · exact c1 ⟨h', c3.2, h⟩
              · exact c4 h'
              · exact c2 ⟨h', c3.1, h⟩
        · rw [if_neg c3, if_neg (c := u = x ∧ u < n) fun h => c3 ⟨h.2, h.1 ▸ h.2⟩]

end Ceres.Visibility
