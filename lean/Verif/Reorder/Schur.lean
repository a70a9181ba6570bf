import Verif.Reorder.Groups

/-!
# C91: the order of the blocks for Schur type solvers
-/
namespace Ceres.Reorder

open Ceres.Graph

variable {B R V : Type} [DecidableEq B] [DecidableEq V]

/-- The parameter blocks of `p` arranged by the groups of `G`. -/
structure Staged (W : World B R V) (p q : Program B R) (G : Groups V) : Prop where
  residuals : q.residuals = p.residuals
  blocks : q.blocks.Perm p.blocks
  indexed : Indexed q
  wf : G.WF
  covers : Covers W G q.blocks
  sorted : q.blocks.Pairwise fun a b => G.groupId (W.user a) ≤ G.groupId (W.user b)
  independent : ∀ g : ℕ, G.minNonZeroGroup = some g → IndependentGroup W p G g

theorem view_wf {W : World B R V} {p : Program B R} (hp : Reduced W p) : (p.view W).WF := by
  refine ⟨hp.nodup, ?_, ?_⟩
  · intro r hr
    obtain ⟨x, hx, rfl⟩ := List.mem_map.1 hr
    exact hp.argsNodup x hx
  · intro r hr b hb hc
    obtain ⟨x, hx, rfl⟩ := List.mem_map.1 hr
    exact hp.closed x hx b hb hc

theorem minGroup_of_cons {G : Groups V} {g : ℕ} {E : List V} {rest : List (ℕ × List V)}
    (hG : G.groupToElements = (g, E) :: rest) : G.minNonZeroGroup = some g := by
  unfold Groups.minNonZeroGroup; rw [hG]; rfl

theorem cons_of_minGroup {G : Groups V} {g : ℕ} (h : G.minNonZeroGroup = some g) :
    ∃ E rest, G.groupToElements = (g, E) :: rest := by
  unfold Groups.minNonZeroGroup at h
  cases hG : G.groupToElements with
  | nil => rw [hG] at h; cases h
  | cons x rest =>
    rw [hG] at h
    simp only [List.head?_cons, Option.map_some, Option.some.injEq] at h
    exact ⟨x.2, rest, by rw [← h]⟩

/-- The blocks that Ceres chooses. -/
theorem chosen_staged {W : World B R V} (hinj : Function.Injective W.user) {p : Program B R} (hp : Reduced W p)
    {G : Groups V} (hG : G.WF) (hall : ∀ v, 0 ≤ G.groupId v → ∃ b ∈ p.blocks, W.user b = v) {ord : List B} {k : ℕ}
    (hord : IsSchurOrdering (p.view W) ord k) :
    Staged W p ({ p with blocks := ord } : Program B R).setIndex (markGroups W ord k G) := by
  have hperm : ord.Perm p.blocks := hord.perm
  have hnd : ord.Nodup := hperm.nodup_iff.2 hp.nodup
  obtain ⟨m1, m2, m3⟩ := markGroups_aux hinj k ord hnd 0 G hG
  have m2' : ∀ i b, ord[i]? = some b → (markGroups W ord k G).groupId (W.user b) = if i < k then 0 else 1 := by
    intro i b hb
    have := m2 i b hb
    rw [Nat.zero_add] at this
    exact this
  have hcov : Covers W (markGroups W ord k G) ord := by
    intro v
    constructor
    · intro hv
      by_contra hno
      have h1 : (markGroups W ord k G).groupId v = G.groupId v := m3 v fun b hb hbv => hno ⟨b, hb, hbv⟩
      rw [h1] at hv
      obtain ⟨b, hb, hbv⟩ := hall v hv
      exact hno ⟨b, hperm.mem_iff.2 hb, hbv⟩
    · rintro ⟨b, hb, rfl⟩
      obtain ⟨i, hi⟩ := List.getElem?_of_mem hb
      rw [m2' i b hi]
      split <;> omega
  have hfirst : ∀ a ∈ ord, (markGroups W ord k G).groupId (W.user a) = 0 → a ∈ ord.take k := by
    intro a ha h0
    obtain ⟨i, hi⟩ := List.getElem?_of_mem ha
    rw [m2' i a hi] at h0
    rw [mem_take_iff hnd hi]
    by_contra hik
    rw [if_neg hik] at h0
    omega
  have hk : 0 < k := by
    by_contra hk
    have hk0 : k = 0 := by omega
    obtain ⟨b, hb⟩ := List.exists_mem_of_ne_nil _ hp.nonempty
    obtain ⟨a, ha, -⟩ := hord.maximal b hb (hp.isVar b hb) (by rw [hk0]; simp)
    rw [hk0] at ha
    simp at ha
  refine ⟨rfl, hperm, setIndex_indexed _ hnd, m1, hcov, ?_, ?_⟩
  · show ord.Pairwise fun a b => (markGroups W ord k G).groupId (W.user a) ≤ (markGroups W ord k G).groupId (W.user b)
    rw [List.pairwise_iff_getElem]
    intro i j hi hj hij
    rw [m2' i _ (List.getElem?_eq_getElem hi), m2' j _ (List.getElem?_eq_getElem hj)]
    split <;> split <;> omega
  · intro g hg r hr a ha b hb hga hgb
    obtain ⟨E, rest, hcons⟩ := cons_of_minGroup hg
    have hlen : 0 < ord.length := by
      have := hperm.length_eq
      have := List.length_pos_of_ne_nil hp.nonempty
      omega
    have hg0 : g = 0 := by
      have h0 := m2' 0 ord[0] (List.getElem?_eq_getElem hlen)
      rw [if_pos hk] at h0
      have := (first_group m1 hcons).2.2 (W.user ord[0]) (by
        show 0 ≤ (markGroups W ord k G).groupId _
        rw [h0])
      change (g : ℤ) ≤ (markGroups W ord k G).groupId _ at this
      rw [h0] at this
      omega
    subst hg0
    have hmem : ∀ c, (markGroups W ord k G).groupId (W.user c) = ((0 : ℕ) : ℤ) → c ∈ ord.take k := by
      intro c hc
      obtain ⟨d, hd, hdc⟩ := (hcov (W.user c)).1 (by omega)
      rw [← hinj hdc]
      exact hfirst d hd (by rw [hinj hdc]; simpa using hc)
    by_contra hab
    exact hord.independent a (hmem a hga) b (hmem b hgb) hab ⟨W.args r, List.mem_map_of_mem hr, ha, hb⟩

/-- The first part of the reordering: it fails exactly for the orderings that cannot be used. -/
theorem schurBlocks_spec {W : World B R V} (hinj : Function.Injective W.user) {L : Library B R} (hL : L.Ok)
    (known : V → Bool) {p : Program B R} (hp : Reduced W p) {G : Groups V} (hG : G.WF)
    (hone : G.numGroups = 1 → ∀ v, 0 ≤ G.groupId v → ∃ b ∈ p.blocks, W.user b = v) :
    (Usable W known G p ∧ ∃ q G', schurBlocks W L known G p = .ok (q, G') ∧ Staged W p q G' ∧
      (G.numGroups ≠ 1 → G' = G)) ∨
    (¬ Usable W known G p ∧ schurBlocks W L known G p = .failed) := by
  unfold schurBlocks
  by_cases hlen : G.numElements ≠ p.blocks.length
  · rw [if_pos hlen]
    exact Or.inr ⟨fun h => hlen h.1, rfl⟩
  rw [if_neg hlen]
  have hlen' : G.numElements = p.blocks.length := not_not.1 hlen
  by_cases h1 : G.numGroups = 1
  · rw [if_pos h1]
    obtain ⟨ord, k, ho, hord, -⟩ := computeStableSchurOrdering_valid (p.view W) (view_wf hp) L.stableSort hL.stableSort
    rw [ho]
    have hl : ord.length = p.blocks.length := hord.perm.length_eq
    simp only [if_pos hl]
    exact Or.inl ⟨⟨hlen', fun h => absurd h1 h⟩, _, _, rfl, chosen_staged hinj hp hG (hone h1) hord, fun h => absurd h1 h⟩
  · rw [if_neg h1]
    obtain ⟨g, E, rest, hcons⟩ := groups_nonempty hG (by
      rw [hlen']
      exact (List.length_pos_of_ne_nil hp.nonempty).ne')
    have hmin := minGroup_of_cons hcons
    rw [hcons]
    simp only
    have hind := isSetIndependent_iff (W := W) hinj hG hcons hp.argsNodup
    by_cases hi : Inner.isSetIndependent (p.view W) W.user E = true
    · rw [if_pos hi]
      rcases applyOrdering_spec known G hG W.user p.blocks (hp.nodup.map hinj) with
        ⟨-, hk, hb, new, hnew, hgr⟩ | ⟨hnot, left, hleft⟩
      · rw [hnew]
        refine Or.inl ⟨⟨hlen', fun _ => ⟨hk, hb, ?_⟩⟩, _, _, rfl, ⟨rfl, hgr.perm, ?_, hG, ?_, hgr.sorted, ?_⟩, fun _ => rfl⟩
        · intro g' hg'
          rw [hmin] at hg'
          cases hg'
          exact hind.1 hi
        · exact setIndex_indexed _ (hgr.perm.nodup_iff.2 hp.nodup)
        · have := covers_of_blocks hinj hG hp.nodup hlen' hb
          intro v
          rw [this v]
          constructor
          · rintro ⟨b, hb, h⟩; exact ⟨b, hgr.perm.mem_iff.2 hb, h⟩
          · rintro ⟨b, hb, h⟩; exact ⟨b, hgr.perm.mem_iff.1 hb, h⟩
        · intro g' hg'
          rw [hmin] at hg'
          cases hg'
          exact hind.1 hi
      · rw [hleft]
        exact Or.inr ⟨fun h => hnot ⟨hlen', (h.2 h1).1, (h.2 h1).2.1⟩, rfl⟩
    · rw [if_neg hi]
      exact Or.inr ⟨fun h => hi (hind.2 ((h.2 h1).2.2 g hmin)), rfl⟩

/-- The blocks to eliminate are in front. -/
structure Front (W : World B R V) (p q : Program B R) (G : Groups V) (g ne : ℕ) : Prop where
  residuals : q.residuals = p.residuals
  blocks : q.blocks.Perm p.blocks
  indexed : Indexed q
  min : G.minNonZeroGroup = some g
  size : (orderingToGroupSizes (some G)).head? = some ne
  take : ∀ b ∈ q.blocks, b ∈ q.blocks.take ne ↔ G.groupId (W.user b) = g
  pos : 1 ≤ ne
  le : ne ≤ q.blocks.length
  independent : IndependentGroup W p G g

theorem Staged.front {W : World B R V} (hinj : Function.Injective W.user) {p q : Program B R} (hp : Reduced W p)
    {G : Groups V} (h : Staged W p q G) : ∃ g ne, firstGroupSize G = some ne ∧ Front W p q G g ne := by
  have hnd : q.blocks.Nodup := h.blocks.nodup_iff.2 hp.nodup
  obtain ⟨b, hb⟩ := List.exists_mem_of_ne_nil _ hp.nonempty
  have hb' := h.blocks.mem_iff.2 hb
  have hne : G.numElements ≠ 0 := by
    intro h0
    have := mem_keys.2 ((h.covers (W.user b)).2 ⟨b, hb', rfl⟩)
    unfold Groups.numElements at h0
    rw [List.length_eq_zero_iff] at h0
    rw [h0] at this
    simp at this
  obtain ⟨g, E, rest, hcons⟩ := groups_nonempty h.wf hne
  have hlen := first_group_length hinj h.wf hcons hnd h.covers
  have htake := take_group (fun b => G.groupId (W.user b)) g q.blocks h.sorted
    (fun b hb => (first_group h.wf hcons).2.2 _ ((h.covers _).2 ⟨b, hb, rfl⟩))
  refine ⟨g, E.length, ?_, h.residuals, h.blocks, h.indexed, minGroup_of_cons hcons, ?_, ?_, ?_, ?_,
    h.independent g (minGroup_of_cons hcons)⟩
  · unfold firstGroupSize; rw [hcons]; rfl
  · unfold orderingToGroupSizes; simp only [hcons]; rfl
  · intro c hc
    rw [hlen, htake, List.mem_filter]
    simp [hc]
  · have := (h.wf.sets g E (by rw [hcons]; simp)).1
    exact List.length_pos_of_ne_nil this
  · rw [hlen]
    exact List.length_filter_le _ _

theorem permuted_perm {l : List B} {o : List ℕ} (ho : o.Perm (List.range l.length)) :
    ∃ new, permuted l o = some new ∧ new.Perm l ∧ new = o.filterMap fun i => l[i]? := by
  have hlt : ∀ i ∈ o, i < l.length := fun i hi => List.mem_range.1 (ho.mem_iff.1 hi)
  have h1 : o.map (fun i => l[i]?) = (o.filterMap fun i => l[i]?).map some := by
    clear ho
    induction o with
    | nil => rfl
    | cons i o ih =>
      have hi := hlt i (by simp)
      rw [List.map_cons, ih fun j hj => hlt j (by simp [hj]), List.getElem?_eq_getElem hi,
        List.filterMap_cons_some (b := l[i]) (List.getElem?_eq_getElem hi), List.map_cons]
  refine ⟨_, mapM_of_map h1, ?_, rfl⟩
  have h2 := ho.filterMap fun i => l[i]?
  refine h2.trans (List.Perm.of_eq ?_)
  have h3 : (List.range l.length).map (fun i => l[i]?) = l.map some := by
    refine List.ext_getElem (by simp) fun i h1 h2 => ?_
    simp at h1 h2
    simp [h1]
  have h4 : (List.range l.length).filterMap (fun i => l[i]?) = ((List.range l.length).map (fun i => l[i]?)).filterMap id := by
    rw [List.filterMap_map]; rfl
  rw [h4, h3, List.filterMap_map]
  exact List.filterMap_some

theorem args_indexed {W : World B R V} {p q : Program B R} (hp : Reduced W p) (hr : q.residuals.Perm p.residuals)
    (hb : q.blocks.Perm p.blocks) (hi : Indexed q) :
    ∀ r ∈ q.residuals, ∀ b ∈ W.args r, W.isConst b = false → ∃ i, q.index b = some i := by
  intro r hr' b hb' hc
  exact Option.isSome_iff_exists.1 (hi.isSome.2 (hb.mem_iff.2 (hp.closed r (hr.mem_iff.1 hr') b hb' hc)))

/-- A permutation sorted by groups leaves the first group in front. -/
theorem Front.sorted {W : World B R V} (hinj : Function.Injective W.user) {p q : Program B R} (hp : Reduced W p)
    {G : Groups V} (h : Staged W p q G) {new : List B} (hperm : new.Perm q.blocks)
    (hs : new.Pairwise fun a b => G.groupId (W.user a) ≤ G.groupId (W.user b)) :
    Staged W p ({ q with blocks := new } : Program B R).setIndex G := by
  have hnd : new.Nodup := hperm.nodup_iff.2 (h.blocks.nodup_iff.2 hp.nodup)
  refine ⟨h.residuals, hperm.trans h.blocks, setIndex_indexed _ hnd, h.wf, ?_, hs, h.independent⟩
  intro v
  rw [h.covers v]
  constructor
  · rintro ⟨b, hb, e⟩; exact ⟨b, hperm.mem_iff.2 hb, e⟩
  · rintro ⟨b, hb, e⟩; exact ⟨b, hperm.mem_iff.1 hb, e⟩

theorem constraintsOf_ok (W : World B R V) (G : Groups V) (blocks : List B) :
    (constraintsOf W G blocks).length = blocks.length ∧ (∀ x ∈ constraintsOf W G blocks, x < blocks.length) ∧
    ∀ i j a b, blocks[i]? = some a → blocks[j]? = some b →
      (constraintsOf W G blocks).getD i 0 ≤ (constraintsOf W G blocks).getD j 0 →
      G.groupId (W.user a) ≤ G.groupId (W.user b) := by
  obtain ⟨h1, h2, h3⟩ := Util.mapToContiguous_spec (blocks.map fun b => G.groupId (W.user b))
  have hlen : (constraintsOf W G blocks).length = blocks.length := by
    unfold constraintsOf; rw [h1, List.length_map]
  refine ⟨hlen, fun x hx => ?_, fun i j a b ha hb hle => ?_⟩
  · have := (h3 x).1 hx
    have h4 := (List.dedup_sublist (blocks.map fun b => G.groupId (W.user b))).length_le
    rw [List.length_map] at h4
    omega
  · obtain ⟨hi, rfl⟩ := List.getElem?_eq_some_iff.1 ha
    obtain ⟨hj, rfl⟩ := List.getElem?_eq_some_iff.1 hb
    have h4 := (h2 j i (by simpa using hj) (by simpa using hi) (by rw [h1]; simpa using hj) (by rw [h1]; simpa using hi)).1
    simp only [List.getElem_map] at h4
    rw [List.getD_eq_getElem?_getD, List.getD_eq_getElem?_getD, List.getElem?_eq_getElem (by rw [hlen]; exact hi),
      List.getElem?_eq_getElem (by rw [hlen]; exact hj)] at hle
    simp only [Option.getD_some] at hle
    by_contra hc
    have := h4.1 (by omega)
    change (constraintsOf W G blocks)[j]'(by rw [hlen]; exact hj) < (constraintsOf W G blocks)[i]'(by rw [hlen]; exact hi)
      at this
    omega

theorem permuted_sorted {key : B → ℤ} {l new : List B} {o : List ℕ} (hnew : new = o.filterMap fun i => l[i]?)
    {c : ℕ → ℕ} (ho : o.Pairwise fun i j => c i ≤ c j)
    (hc : ∀ i j a b, l[i]? = some a → l[j]? = some b → c i ≤ c j → key a ≤ key b) :
    new.Pairwise fun a b => key a ≤ key b := by
  rw [hnew, List.pairwise_filterMap]
  exact ho.imp fun {i j} h a ha b hb => hc i j a b ha hb h

/-- CAMD leaves the first group in front. -/
theorem schurColumnsSuiteSparse_spec {W : World B R V} (hinj : Function.Injective W.user) {L : Library B R} (hL : L.Ok)
    {p q : Program B R} (hp : Reduced W p) {G : Groups V} (h : Staged W p q G) :
    ∃ q', schurColumnsSuiteSparse W L G q = some q' ∧ Staged W p q' G := by
  unfold schurColumnsSuiteSparse
  cases hs : L.suiteSparse with
  | false => exact ⟨q, rfl, h⟩
  | true =>
    obtain ⟨t, ht, -, -, hrows, -⟩ := sparsity_exact W q 0
      (args_indexed hp (List.Perm.of_eq h.residuals) h.blocks h.indexed)
    obtain ⟨c1, c2, c3⟩ := constraintsOf_ok W G q.blocks
    obtain ⟨o, ho, ho1, ho2⟩ := hL.camd t (constraintsOf W G q.blocks) (by rw [c1, hrows]) (by rw [hrows]; exact c2)
    rw [hrows] at ho1
    obtain ⟨new, hnew, hperm, heq⟩ := permuted_perm ho1
    refine ⟨({ q with blocks := new } : Program B R).setIndex, ?_, Front.sorted hinj hp h hperm ?_⟩
    · simp only [if_true, ht, ho, Option.bind_eq_bind, Option.bind_some, Option.getD_some, hnew]
    · exact permuted_sorted heq ho2 c3

/-- Eigen's orderings are applied to the blocks behind the first group. -/
theorem schurColumnsEigen_spec {W : World B R V} {L : Library B R} (hL : L.Ok) (ot : OrderType) {p q : Program B R}
    (hp : Reduced W p) {G : Groups V} {g ne : ℕ} (h : Front W p q G g ne) :
    ∃ q', schurColumnsEigen W L ot ne q = some q' ∧ Front W p q' G g ne := by
  unfold schurColumnsEigen
  cases hs : L.eigenSparse with
  | false => exact ⟨q, rfl, h⟩
  | true =>
    obtain ⟨t, ht, -, -, hrows, -⟩ := sparsity_exact W q 0
      (args_indexed hp (List.Perm.of_eq h.residuals) h.blocks h.indexed)
    have ho := hL.eigen ot (blockSchur t ne)
    have hsize : (blockSchur t ne).size = (q.blocks.drop ne).length := by
      rw [List.length_drop, ← hrows]; rfl
    rw [hsize] at ho
    obtain ⟨new, hnew, hperm, -⟩ := permuted_perm ho
    have hall : (q.blocks.take ne ++ new).Perm q.blocks := by
      have := hperm.append_left (q.blocks.take ne)
      rwa [List.take_append_drop] at this
    have htk : (q.blocks.take ne ++ new).take ne = q.blocks.take ne :=
      List.take_left' (by rw [List.length_take]; exact Nat.min_eq_left h.le)
    refine ⟨({ q with blocks := q.blocks.take ne ++ new } : Program B R).setIndex, ?_,
      h.residuals, hall.trans h.blocks, ?_, h.min, h.size, ?_, h.pos, ?_, h.independent⟩
    · simp only [if_true, ht, Option.bind_eq_bind, Option.bind_some, hnew]
    · exact setIndex_indexed _ ((hall.trans h.blocks).nodup_iff.2 hp.nodup)
    · intro b hb
      show b ∈ (q.blocks.take ne ++ new).take ne ↔ _
      rw [htk]
      exact h.take b (hall.mem_iff.1 hb)
    · show ne ≤ (q.blocks.take ne ++ new).length
      rw [hall.length_eq]; exact h.le

end Ceres.Reorder
