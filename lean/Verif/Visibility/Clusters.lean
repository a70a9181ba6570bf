import Verif.Visibility.Views

/-!
# C86: the clusters and the pairs of clusters
-/

noncomputable section

namespace Ceres.Visibility

open Ceres.BlockSparse Ceres.Graph Ceres.SchurDirect

variable {bs : BS} {ne n : ℕ}

/-! ## `FlattenMembershipMap` -/

/-- The id that an entry of the membership map is given. -/
def flatId (num : ℕ) (membership : ℕ → ℤ) (a : ℕ) : ℤ :=
  if membership a = -1 then ((a % num : ℕ) : ℤ) else membership a

theorem flatten_spec (num : ℕ) (membership : ℕ → ℤ) (members : List ℕ) (S : Finset ℤ) (hS : S.card ≤ num)
    (hmem : ∀ a ∈ members, flatId num membership a ∈ S) :
    ∃ f, flatten num membership members = some f ∧ ∀ a ∈ members, f a < num ∧
      ∀ b ∈ members, f a = f b ↔ flatId num membership a = flatId num membership b := by
  have key : ∀ (l : List ℕ), (∀ a ∈ l, a ∈ members) → ∀ (ids : List ℤ) (f : ℕ → ℕ) (P : ℕ → Prop), ids.Nodup →
      (∀ x ∈ ids, x ∈ S) →
      (∀ a, P a → flatId num membership a ∈ ids ∧ f a = ids.idxOf (flatId num membership a)) →
      ∃ ids' f', l.foldlM (flattenStep num membership) (ids, f) = some (ids', f') ∧ ids'.Nodup ∧ (∀ x ∈ ids', x ∈ S) ∧
        ∀ a, P a ∨ a ∈ l → flatId num membership a ∈ ids' ∧ f' a = ids'.idxOf (flatId num membership a) := by
    intro l
    induction l with
    | nil => exact fun _ ids f P h1 h2 h3 => ⟨ids, f, rfl, h1, h2, fun a ha => h3 a (by simpa using ha)⟩
    | cons x l ih =>
      intro hl ids f P h1 h2 h3
      have hx := hmem x (hl x (by simp))
      have hlen : ∀ l' : List ℤ, l'.Nodup → (∀ y ∈ l', y ∈ S) → l'.length ≤ num := by
        intro l' hnd hsub
        rw [← List.toFinset_card_of_nodup hnd]
        exact (Finset.card_le_card fun y hy => hsub y (List.mem_toFinset.1 hy)).trans hS
      by_cases hin : flatId num membership x ∈ ids
      · have hlt := List.idxOf_lt_length_of_mem hin
        have e : flattenStep num membership (ids, f) x =
            some (ids, Function.update f x (ids.idxOf (flatId num membership x))) := by
          unfold flattenStep
          have e1 : ¬ids.idxOf (flatId num membership x) = ids.length := by omega
          have e2 : ids.idxOf (flatId num membership x) < num := hlt.trans_le (hlen ids h1 h2)
          unfold flatId at e1 e2 ⊢
          simp only [if_neg e1, if_pos e2]
        rw [List.foldlM_cons, e]
        obtain ⟨ids', f', g1, g2, g3, g4⟩ := ih (fun a ha => hl a (by simp [ha])) ids
          (Function.update f x (ids.idxOf (flatId num membership x))) (fun a => P a ∨ a = x) h1 h2 (by
            intro a ha
            by_cases hax : a = x
            · subst hax; rw [Function.update_self]; exact ⟨hin, rfl⟩
            · rw [Function.update_of_ne hax]; exact h3 a (ha.resolve_right hax))
        refine ⟨ids', f', g1, g2, g3, fun a ha => g4 a ?_⟩
        rw [List.mem_cons] at ha
        tauto
      · have hidx : ids.idxOf (flatId num membership x) = ids.length := List.idxOf_eq_length hin
        have h1' : (ids ++ [flatId num membership x]).Nodup :=
          List.nodup_append.2 ⟨h1, List.nodup_singleton _, fun a ha b hb hab => hin (by
            rw [List.mem_singleton.1 hb] at hab; exact hab ▸ ha)⟩
        have h2' : ∀ y ∈ ids ++ [flatId num membership x], y ∈ S := by
          intro y hy
          rcases List.mem_append.1 hy with hy | hy
          · exact h2 y hy
          · rw [List.mem_singleton.1 hy]; exact hx
        have hlt : ids.length < num := by
          have := hlen _ h1' h2'
          rw [List.length_append] at this
          simpa using this
        have e : flattenStep num membership (ids, f) x =
            some (ids ++ [flatId num membership x], Function.update f x ids.length) := by
          unfold flattenStep
          unfold flatId at hidx ⊢
          simp only [hidx, if_true, if_pos hlt]
        rw [List.foldlM_cons, e]
        obtain ⟨ids', f', g1, g2, g3, g4⟩ := ih (fun a ha => hl a (by simp [ha])) _
          (Function.update f x ids.length) (fun a => P a ∨ a = x) h1' h2' (by
            intro a ha
            by_cases hax : a = x
            · subst hax
              rw [Function.update_self]
              exact ⟨by simp, by rw [List.idxOf_append_of_notMem hin]; simp⟩
            · rw [Function.update_of_ne hax]
              obtain ⟨k1, k2⟩ := h3 a (ha.resolve_right hax)
              exact ⟨by simp [k1], by rw [k2, List.idxOf_append_of_mem k1]⟩)
        refine ⟨ids', f', g1, g2, g3, fun a ha => g4 a ?_⟩
        rw [List.mem_cons] at ha
        tauto
  obtain ⟨ids, f, h1, h2, h3, h4⟩ := key members (fun _ h => h) [] (fun _ => 0) (fun _ => False) List.nodup_nil
    (fun x h => (List.not_mem_nil h).elim) fun a h => h.elim
  refine ⟨f, by unfold flatten; rw [h1]; rfl, fun a ha => ?_⟩
  obtain ⟨k1, k2⟩ := h4 a (Or.inr ha)
  refine ⟨?_, fun b hb => ?_⟩
  · rw [k2]
    refine (List.idxOf_lt_length_of_mem k1).trans_le ?_
    rw [← List.toFinset_card_of_nodup h2]
    exact (Finset.card_le_card fun y hy => h3 y (List.mem_toFinset.1 hy)).trans hS
  · obtain ⟨k3, k4⟩ := h4 b (Or.inr hb)
    rw [k2, k4]
    exact ⟨fun h => (List.idxOf_inj k1).1 h, fun h => by rw [h]⟩

/-! ## `ClusterCameras` -/

/-- **C86.**  The cameras are clustered, in any order of the hash tables: no `CHECK` fails. -/
theorem clusterCameras_spec (ho : SchurOrdered ne bs) (hn : 0 < n) (cfg : Config) {o : Orders} (hok : o.Ok) :
    ∃ num cluster, clusterCameras cfg o (computeVisibility bs ne) n = some (num, cluster) ∧ 0 < num ∧ num ≤ n ∧
      (∀ a < n, cluster a < num) ∧
      if cfg.canonical then CanonicalClusters bs ne n num cluster else LinkageClusters bs ne n num cluster := by
  have hg := (schurGraph_isGraph ho n hok).reordered (hok.graph _)
  unfold clusterCameras
  simp only
  generalize o.graph (schurGraph (computeVisibility bs ne) n
    (o.cameraPairs (cameraPairs (computeVisibility bs ne) n))) = g at hg ⊢
  have hmem : ∀ a, a ∈ o.members g.vertices ↔ a < n := fun a => ((hok.members _).mem_iff).trans (hg.mem a)
  by_cases hc : cfg.canonical = true
  · obtain ⟨C, m, h1, h2, h3⟩ := canonicalViews_spec hg (o.valid g.vertices) (hok.valid _)
    have hpos : 0 < C.length := by
      rcases h2.complete with h | h
      · exact List.length_pos_of_mem (h 0 hn)
      · omega
    have hid : ∀ a < n, ∃ k : ℕ, flatId C.length m a = k ∧ k < C.length ∧ Home bs ne C a k := by
      intro a ha
      unfold flatId
      rcases h3 a ha with ⟨e1, e2⟩ | ⟨k, c, e1, e2, e3, e4⟩
      · rw [if_pos e1]
        refine ⟨a % C.length, rfl, Nat.mod_lt _ hpos, fun _ => rfl, ?_⟩
        rintro ⟨c, hc, hlt⟩
        rw [e2 c hc] at hlt
        exact absurd hlt (lt_irrefl 0)
      · rw [if_neg (by omega), e1]
        refine ⟨k, rfl, ?_, fun h0 => ?_, fun _ => ⟨c, e2, e4⟩⟩
        · by_contra hlt
          rw [List.getElem?_eq_none (by omega)] at e2
          cases e2
        · have := h0 c (List.mem_of_getElem? e2)
          rw [this] at e3
          exact absurd e3 (lt_irrefl 0)
    obtain ⟨f, g1, g2⟩ := flatten_spec C.length m (o.members g.vertices)
      ((Finset.range C.length).image fun k : ℕ => (k : ℤ)) (Finset.card_image_le.trans (by simp)) (by
        intro a ha
        obtain ⟨k, e1, e2, -⟩ := hid a ((hmem a).1 ha)
        rw [e1]
        exact Finset.mem_image_of_mem _ (Finset.mem_range.2 e2))
    refine ⟨C.length, f, ?_, hpos, ?_, fun a ha => (g2 a ((hmem a).2 ha)).1, ?_⟩
    · rw [if_pos hc, h1, Option.map_some, Option.bind_some, if_pos hpos, g1]
      rfl
    · rw [← List.toFinset_card_of_nodup h2.distinct, ← Finset.card_range n]
      exact Finset.card_le_card fun c hcm => Finset.mem_range.2 (h2.cameras c (List.mem_toFinset.1 hcm))
    · rw [if_pos hc]
      refine ⟨C, fun a => (flatId C.length m a).toNat, h2, rfl, fun a ha => ?_, fun a ha b hb => ?_⟩
      · obtain ⟨k, e1, e2, e3⟩ := hid a ha
        simp only [e1, Int.toNat_natCast]
        exact ⟨e2, e3⟩
      · rw [(g2 a ((hmem a).2 ha)).2 b ((hmem b).2 hb)]
        obtain ⟨k, e1, -⟩ := hid a ha
        obtain ⟨k', e1', -⟩ := hid b hb
        simp only [e1, e1', Int.toNat_natCast, Nat.cast_inj]
  · obtain ⟨num, m, h1, h2, h3, h4⟩ := singleLinkage_spec g hg.wf (9 / 10 : ℝ) (o.linkage g.vertices) (hok.linkage _)
      g.vertices.length le_rfl
    have hfid : ∀ a, flatId num (fun v => ((m v : ℕ) : ℤ)) a = (m a : ℤ) := by
      intro a
      unfold flatId
      beta_reduce
      rw [if_neg (by omega)]
    have hcard : num = ((g.vertices.map m).toFinset).card := by
      rw [h4, List.card_toFinset]
    obtain ⟨f, g1, g2⟩ := flatten_spec num (fun v => ((m v : ℕ) : ℤ)) (o.members g.vertices)
      ((g.vertices.map m).toFinset.image fun k : ℕ => (k : ℤ)) (Finset.card_image_le.trans hcard.ge) (by
        intro a ha
        rw [hfid]
        refine Finset.mem_image_of_mem _ (List.mem_toFinset.2 (List.mem_map_of_mem ?_))
        exact (hg.mem a).2 ((hmem a).1 ha))
    have hpos : 0 < num := by
      rw [hcard]
      exact Finset.card_pos.2 ⟨m 0, List.mem_toFinset.2 (List.mem_map_of_mem ((hg.mem 0).2 hn))⟩
    have hlt : ∀ a < n, f a < num := fun a ha => (g2 a ((hmem a).2 ha)).1
    have hsame : ∀ a < n, ∀ b < n, f a = f b ↔ m a = m b := by
      intro a ha b hb
      rw [(g2 a ((hmem a).2 ha)).2 b ((hmem b).2 hb), hfid, hfid, Nat.cast_inj]
    refine ⟨num, f, ?_, hpos, ?_, hlt, ?_⟩
    · rw [if_neg hc, h1, Option.map_some, Option.bind_some, if_pos hpos, g1]
      rfl
    · rw [hcard]
      refine (List.toFinset_card_le _).trans ?_
      rw [List.length_map, hg.length]
    · rw [if_neg hc]
      refine ⟨fun a ha b hb => ?_, fun k hk => ?_⟩
      · rw [hsame a ha b hb, h2 a ((hg.mem a).2 ha) b ((hg.mem b).2 hb)]
        have : Similar g (9 / 10 : ℝ) = fun u x => u < n ∧ x < n ∧ 9 / 10 ≤ similarity bs ne u x := by
          funext u x
          unfold Similar
          rw [hg.nbrs, hg.weight]
          refine propext ⟨?_, ?_⟩
          · rintro ⟨⟨k1, k2, k3⟩, k4⟩
            rw [if_pos ⟨k1, k2⟩] at k4
            exact ⟨k1, k2, k4⟩
          · rintro ⟨k1, k2, k3⟩
            rw [if_pos ⟨k1, k2⟩]
            exact ⟨⟨k1, k2, by linarith⟩, k3⟩
        rw [this]
      · have himg : (Finset.range n).image f = Finset.range num := by
          refine Finset.eq_of_subset_of_card_le ?_ ?_
          · intro y hy
            obtain ⟨a, ha, rfl⟩ := Finset.mem_image.1 hy
            exact Finset.mem_range.2 (hlt a (Finset.mem_range.1 ha))
          · rw [Finset.card_range, hcard]
            have hmi : (g.vertices.map m).toFinset = (Finset.range n).image m := by
              ext y
              rw [List.mem_toFinset, List.mem_map, Finset.mem_image]
              simp only [hg.mem, Finset.mem_range]
            rw [hmi]
            refine Finset.card_le_card_of_injOn (fun y => f y) (fun y hy => ?_) ?_
            · obtain ⟨a, ha, rfl⟩ := Finset.mem_image.1 hy
              have ha := Finset.mem_range.1 ha
              exact Finset.mem_image_of_mem f (Finset.mem_range.2 ((hg.mem _).1 (h3 a ((hg.mem a).2 ha)).1))
            · intro y hy z hz hyz
              obtain ⟨a, ha, rfl⟩ := Finset.mem_image.1 hy
              obtain ⟨b, hb, rfl⟩ := Finset.mem_image.1 hz
              have ha := Finset.mem_range.1 ha
              have hb := Finset.mem_range.1 hb
              obtain ⟨p1, p2, -⟩ := h3 a ((hg.mem a).2 ha)
              obtain ⟨q1, q2, -⟩ := h3 b ((hg.mem b).2 hb)
              have := (hsame (m a) ((hg.mem _).1 p1) (m b) ((hg.mem _).1 q1)).1 hyz
              rw [p2, q2] at this
              exact this
        obtain ⟨a, ha, hak⟩ := Finset.mem_image.1 (himg.symm ▸ Finset.mem_range.2 hk)
        exact ⟨a, Finset.mem_range.1 ha, hak⟩

/-! ## `ComputeClusterTridiagonalSparsity` -/

theorem clusterVisibility_sets (ho : SchurOrdered ne bs) (n : ℕ) (cluster : ℕ → ℕ) :
    Sets (clusterVisibility (computeVisibility bs ne) n cluster) fun c e => ∃ a < n, cluster a = c ∧ Sees bs ne a e := by
  have hv := visibility_sets ho
  unfold clusterVisibility
  have ins : ∀ (l : List ℕ) (t : List ℕ), t.Pairwise (· < ·) →
      (l.foldl (fun l v => insertId v l) t).Pairwise (· < ·) ∧
        ∀ e, e ∈ l.foldl (fun l v => insertId v l) t ↔ e ∈ t ∨ e ∈ l := by
    intro l
    induction l with
    | nil => exact fun t ht => ⟨ht, fun e => by simp⟩
    | cons x l ih =>
      intro t ht
      obtain ⟨h1, h2⟩ := ih _ (insertId_sorted x t ht)
      refine ⟨h1, fun e => ?_⟩
      rw [List.foldl_cons, h2, mem_insertId, List.mem_cons]
      tauto
  have key : ∀ (l : List ℕ) (s : ℕ → List ℕ) (P : ℕ → ℕ → Prop), Sets s P →
      Sets (l.foldl (fun cv i => Function.update cv (cluster i)
        ((computeVisibility bs ne i).foldl (fun l v => insertId v l) (cv (cluster i)))) s)
        fun c e => P c e ∨ ∃ a ∈ l, cluster a = c ∧ Sees bs ne a e := by
    intro l
    induction l with
    | nil => exact fun s P h => h.congr fun c e => by simp
    | cons i l ih =>
      intro s P h
      refine (ih _ (fun c e => P c e ∨ cluster i = c ∧ Sees bs ne i e) fun c => ?_).congr fun c e => ?_
      · beta_reduce
        by_cases hc : c = cluster i
        · subst hc
          rw [Function.update_self]
          obtain ⟨h1, h2⟩ := ins (computeVisibility bs ne i) _ (h (cluster i)).1
          refine ⟨h1, fun e => ?_⟩
          rw [h2, (h _).2, (hv i).2]
          tauto
        · rw [Function.update_of_ne hc]
          refine ⟨(h c).1, fun e => ?_⟩
          rw [(h c).2]
          exact ⟨Or.inl, fun h' => h'.resolve_right fun h'' => hc h''.1.symm⟩
      · simp only [List.mem_cons, exists_eq_or_imp]
        rw [or_assoc]
  exact (key _ _ _ sets_empty).congr fun c e => by simp

theorem mem_clusterPoints (cluster : ℕ → ℕ) (c e : ℕ) :
    e ∈ clusterPoints bs ne n cluster c ↔ ∃ a < n, cluster a = c ∧ Sees bs ne a e := by
  unfold clusterPoints
  rw [Finset.mem_biUnion]
  constructor
  · rintro ⟨a, ha, he⟩
    rw [Finset.mem_filter, Finset.mem_range] at ha
    exact ⟨a, ha.1, ha.2, (mem_points a e).1 he⟩
  · rintro ⟨a, ha, hc, he⟩
    exact ⟨a, Finset.mem_filter.2 ⟨Finset.mem_range.2 ha, hc⟩, (mem_points a e).2 he⟩

theorem intersection_length (ho : SchurOrdered ne bs) (n : ℕ) (cluster : ℕ → ℕ) (c d : ℕ) :
    (intersection (clusterVisibility (computeVisibility bs ne) n cluster c)
      (clusterVisibility (computeVisibility bs ne) n cluster d)).length = common bs ne n cluster c d := by
  have hs := clusterVisibility_sets ho n cluster
  unfold intersection common
  have hnd : (clusterVisibility (computeVisibility bs ne) n cluster c).Nodup := (hs c).1.imp fun h => Nat.ne_of_lt h
  rw [← List.toFinset_card_of_nodup (hnd.filter _)]
  congr 1
  ext e
  rw [List.mem_toFinset, List.mem_filter, Finset.mem_inter, mem_clusterPoints, mem_clusterPoints, (hs c).2,
    decide_eq_true_eq, (hs d).2]

theorem common_symm (cluster : ℕ → ℕ) (c d : ℕ) : common bs ne n cluster c d = common bs ne n cluster d c := by
  unfold common
  rw [Finset.inter_comm]

theorem foldl_flatMap' {α β σ : Type} (f : σ → β → σ) (h : α → List β) (l : List α) (s : σ) :
    (l.flatMap h).foldl f s = l.foldl (fun s a => (h a).foldl f s) s := by
  induction l generalizing s with
  | nil => rfl
  | cons a l ih => rw [List.flatMap_cons, List.foldl_append, ih, List.foldl_cons]

theorem foldl_filterIf {β σ : Type} (f : σ → β → σ) (p : β → Prop) [DecidablePred p] (l : List β) (s : σ) :
    l.foldl (fun s b => if p b then f s b else s) s = (l.filter fun b => p b).foldl f s := by
  induction l generalizing s with
  | nil => rfl
  | cons b l ih =>
    rw [List.foldl_cons, List.filter_cons]
    by_cases h : p b
    · rw [if_pos h, if_pos (by simpa using h), List.foldl_cons, ih]
    · rw [if_neg h, if_neg (by simpa using h), ih]

theorem clusterGraph_isGraph (ho : SchurOrdered ne bs) (n num : ℕ) (cluster : ℕ → ℕ) :
    IsGraph (clusterGraph (clusterVisibility (computeVisibility bs ne) n cluster) num) num
      (fun c d => c < num ∧ d < num ∧ c ≠ d ∧ 0 < common bs ne n cluster c d)
      fun c d => if c < num ∧ d < num ∧ c ≠ d then (common bs ne n cluster c d : ℝ) else 0 := by
  have hrw : clusterGraph (clusterVisibility (computeVisibility bs ne) n cluster) num =
      (((List.range num).flatMap fun i => (List.range' (i + 1) (num - (i + 1))).map fun j => (i, j)).filter
        fun p => 0 < common bs ne n cluster p.1 p.2).foldl
        (fun g p => g.addEdge p.1 p.2 (common bs ne n cluster p.1 p.2 : ℝ))
        ((List.range num).foldl (fun g i => g.addVertex i 1) emptyGraph) := by
    rw [← foldl_filterIf (fun (g : WGraph ℕ ℝ) (p : ℕ × ℕ) => g.addEdge p.1 p.2 (common bs ne n cluster p.1 p.2 : ℝ)),
      foldl_flatMap']
    unfold clusterGraph
    simp only [List.foldl_map, intersection_length ho]
  rw [hrw]
  set l := ((List.range num).flatMap fun i => (List.range' (i + 1) (num - (i + 1))).map fun j => (i, j)).filter
    fun p => 0 < common bs ne n cluster p.1 p.2 with hl
  have hmem : ∀ c d, (c, d) ∈ l ↔ c < d ∧ d < num ∧ 0 < common bs ne n cluster c d := by
    intro c d
    rw [hl, List.mem_filter]
    simp only [List.mem_flatMap, List.mem_range, List.mem_map, List.mem_range'_1, Prod.mk.injEq, decide_eq_true_eq]
    constructor
    · rintro ⟨⟨i, hi, j, hj, rfl, rfl⟩, h⟩
      exact ⟨by omega, by omega, h⟩
    · rintro ⟨h1, h2, h3⟩
      exact ⟨⟨c, by omega, d, by omega, rfl, rfl⟩, h3⟩
  have hnd : l.Nodup := by
    rw [hl]
    refine List.Nodup.filter _ (List.nodup_flatMap.2 ⟨fun i _ => ?_, ?_⟩)
    · exact List.Nodup.map (fun a b h => (Prod.mk.inj h).2) List.nodup_range'
    · refine List.nodup_range.imp fun {a b} hab => ?_
      intro p hp hq
      obtain ⟨x, -, rfl⟩ := List.mem_map.1 hp
      obtain ⟨y, -, hy⟩ := List.mem_map.1 hq
      exact hab (Prod.mk.inj hy).1.symm
  refine ((isGraph_vertices num).addEdges _ l hnd fun p hp => ?_).congr (fun c d => ?_) fun c d => ?_
  · have := (hmem p.1 p.2).1 hp
    exact ⟨this.1, this.2.1⟩
  · rw [hmem, hmem, common_symm cluster d c]
    constructor
    · rintro (h | ⟨h1, h2, h3⟩ | ⟨h1, h2, h3⟩)
      · exact h.elim
      · exact ⟨by omega, h2, by omega, h3⟩
      · exact ⟨by omega, by omega, by omega, h3⟩
    · rintro ⟨h1, h2, h3, h4⟩
      rcases Nat.lt_or_gt_of_ne h3 with h | h
      · exact Or.inr (Or.inl ⟨h, h2, h4⟩)
      · exact Or.inr (Or.inr ⟨h, h1, h4⟩)
  · by_cases c1 : (c, d) ∈ l
    · rw [if_pos c1]
      rw [hmem] at c1
      rw [if_pos ⟨by omega, c1.2.1, by omega⟩]
    · rw [if_neg c1]
      by_cases c2 : (d, c) ∈ l
      · rw [if_pos c2]
        rw [hmem] at c2
        rw [if_pos ⟨by omega, by omega, by omega⟩, common_symm]
      · rw [if_neg c2]
        rw [hmem] at c1 c2
        rw [common_symm cluster d c] at c2
        split_ifs with h
        · have : common bs ne n cluster c d = 0 := by
            by_contra h0
            rcases Nat.lt_or_gt_of_ne h.2.2 with h' | h'
            · exact c1 ⟨h', h.2.1, by omega⟩
            · exact c2 ⟨h', h.1, by omega⟩
          rw [this, Nat.cast_zero]
        · rfl

theorem not_three {l : List ℕ} (h : l.length ≤ 2) {x y z : ℕ} (hx : x ∈ l) (hy : y ∈ l) (hz : z ∈ l) :
    x = y ∨ x = z ∨ y = z := by
  match l, h with
  | [], _ => cases hx
  | [a], _ => simp at hx hy; omega
  | [a, b], _ => simp at hx hy hz; omega

/-- **C86.**  The pairs of clusters: every cluster with itself, and, for CLUSTER_TRIDIAGONAL, the pairs that are joined
into chains. -/
theorem clusterPairs_spec (ho : SchurOrdered ne bs) (cfg : Config) {o : Orders} (hok : o.Ok) (n num : ℕ)
    (cluster : ℕ → ℕ) :
    ∃ ps F, clusterPairs cfg o (computeVisibility bs ne) n num cluster = some ps ∧
      (if cfg.tridiagonal then Chains bs ne n num cluster F else F = ⊥) ∧
      ∀ c d, (c, d) ∈ ps ↔ c < num ∧ (d = c ∨ c < d ∧ F.Adj c d) := by
  unfold clusterPairs
  by_cases ht : cfg.tridiagonal = true
  · have hg := (clusterGraph_isGraph ho n num cluster).reordered (hok.graph _)
    simp only [if_pos ht]
    generalize o.graph (clusterGraph (clusterVisibility (computeVisibility bs ne) n cluster) num) = g at hg ⊢
    obtain ⟨F, h1, h2, -, h4, h5, h6, h7, h8⟩ := spanningForest_spec g hg.wf (o.sort g.candidates) (hok.sort _)
      g.vertices.length le_rfl
    have hr := hok.graph F
    have hadj : ∀ c d, (toSimple F.nbrs).Adj c d ↔ d ∈ F.nbrs c := by
      intro c d
      unfold toSimple
      rw [SimpleGraph.fromRel_adj]
      exact ⟨fun h => h.2.elim id fun h' => h4.symm _ _ h', fun h => ⟨(h5 c d h).1, Or.inl h⟩⟩
    have hE : ∀ c d, d ∈ F.nbrs c → c < num ∧ d < num ∧ c ≠ d ∧ 0 < common bs ne n cluster c d :=
      fun c d h => (hg.nbrs c d).1 (h5 c d h).2.1
    have hkey : ∀ c d, c < num → d < num → c ≠ d → edgeKey g c d = pairKey bs ne n cluster c d := by
      intro c d hc hd hcd
      unfold edgeKey pairKey
      rw [hg.weight, if_pos ⟨hc, hd, hcd⟩]
    refine ⟨(o.graph F).vertices.flatMap fun c =>
      (c, c) :: (((o.graph F).nbrs c).filter fun d => c < d).map fun d => (c, d), toSimple F.nbrs, ?_, ⟨?_, ?_, ?_, h7, ?_⟩, ?_⟩
    rotate_left
    · exact fun c d h => ⟨(hE c d ((hadj c d).1 h)).1, (hE c d ((hadj c d).1 h)).2.1⟩
    · exact fun c d h => (hE c d ((hadj c d).1 h)).2.2.2
    · intro c x y z hx hy hz
      exact not_three (h6 c) ((hadj c x).1 hx) ((hadj c y).1 hy) ((hadj c z).1 hz)
    · intro c d hcd hd hcom
      rw [hadj, h8 c d hcd ((hg.nbrs c d).2 ⟨by omega, hd, by omega, hcom⟩)]
      have hab : ∀ u x, Above g F (edgeKey g c d) u x ↔ (toSimple F.nbrs).Adj u x ∧
          pairLess (pairKey bs ne n cluster c d) (pairKey bs ne n cluster u x) := by
        intro u x
        unfold Above
        rw [hadj]
        refine and_congr_right fun hx => ?_
        obtain ⟨k1, k2, k3, -⟩ := hE u x hx
        rw [hkey c d (by omega) hd (by omega), hkey u x k1 k2 k3]
      have hab' : Above g F (edgeKey g c d) = fun u x => (toSimple F.nbrs).Adj u x ∧
          pairLess (pairKey bs ne n cluster c d) (pairKey bs ne n cluster u x) := by
        funext u x; exact propext (hab u x)
      have e1 : (edgeKey g c d).2.1 = c := min_eq_left hcd.le
      have e2 : (edgeKey g c d).2.2 = d := max_eq_right hcd.le
      unfold Blocked
      rw [e1, e2, hab']
    · intro c d
      rw [List.mem_flatMap]
      have hv : ∀ c, c ∈ (o.graph F).vertices ↔ c < num := fun c => by
        rw [hr.vertices.mem_iff, h2, hg.mem]
      have hn : ∀ c d, d ∈ (o.graph F).nbrs c ↔ (toSimple F.nbrs).Adj c d := fun c d => by
        rw [(hr.nbrs c).mem_iff, hadj]
      constructor
      · rintro ⟨x, hx, hcd⟩
        rw [hv] at hx
        rcases List.mem_cons.1 hcd with h | h
        · obtain ⟨rfl, rfl⟩ := Prod.mk.inj h
          exact ⟨hx, Or.inl rfl⟩
        · obtain ⟨y, hy, h⟩ := List.mem_map.1 h
          obtain ⟨rfl, rfl⟩ := Prod.mk.inj h
          rw [List.mem_filter, hn] at hy
          exact ⟨hx, Or.inr ⟨by simpa using hy.2, hy.1⟩⟩
      · rintro ⟨hc, h⟩
        refine ⟨c, (hv c).2 hc, ?_⟩
        rcases h with rfl | ⟨h1, h2⟩
        · simp
        · refine List.mem_cons_of_mem _ (List.mem_map.2 ⟨d, ?_, rfl⟩)
          rw [List.mem_filter, hn]
          exact ⟨h2, by simpa using h1⟩
    · rw [h1, Option.bind_some, forestPairs, if_pos]
      rw [hr.vertices.length_eq, h2, hg.length]
  · refine ⟨_, ⊥, if_neg ht, by rw [if_neg ht], fun c d => ?_⟩
    simp only [List.mem_map, List.mem_range, Prod.mk.injEq, SimpleGraph.bot_adj, and_false, or_false]
    constructor
    · rintro ⟨x, hx, rfl, rfl⟩
      exact ⟨hx, rfl⟩
    · rintro ⟨hc, rfl⟩
      exact ⟨_, hc, rfl, rfl⟩

/-- A block is in the preconditioner when its cameras are in one cluster, or in clusters that are joined. -/
theorem inPreconditioner_iff {num : ℕ} {cluster : ℕ → ℕ} {ps : List (ℕ × ℕ)} {F : SimpleGraph ℕ}
    (hps : ∀ c d, (c, d) ∈ ps ↔ c < num ∧ (d = c ∨ c < d ∧ F.Adj c d)) {x y : ℕ} (hx : cluster x < num)
    (hy : cluster y < num) :
    inPreconditioner cluster ps x y = true ↔ cluster x = cluster y ∨ F.Adj (cluster x) (cluster y) := by
  unfold inPreconditioner
  split_ifs with h
  · rw [decide_eq_true_eq, hps]
    constructor
    · rintro ⟨-, h1 | ⟨-, h1⟩⟩
      · omega
      · exact Or.inr h1.symm
    · rintro (h1 | h1)
      · omega
      · exact ⟨hy, Or.inr ⟨h, h1.symm⟩⟩
  · rw [decide_eq_true_eq, hps]
    constructor
    · rintro ⟨-, h1 | ⟨-, h1⟩⟩
      · exact Or.inl h1.symm
      · exact Or.inr h1
    · rintro (h1 | h1)
      · exact ⟨hx, Or.inl h1.symm⟩
      · refine ⟨hx, Or.inr ⟨?_, h1⟩⟩
        have := h1.ne
        omega

end Ceres.Visibility
