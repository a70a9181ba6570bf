import Verif.Inner.Sweep
import Verif.Graph.Hessian

/-!
# C56: what the set-up of the inner iterations prepares
-/
namespace Ceres.Inner

open Ceres.Graph (Prog Groups groupId_eq)

variable {B V α : Type} [DecidableEq B] [DecidableEq V]

/-! ## The groups -/

/-- The index map is that of the list of blocks. -/
def Indexed (S : Setup B) : Prop := ∀ b i, S.index b = some i ↔ S.blocks[i]? = some b

omit [DecidableEq V] in
theorem addElements_spec (known : V → Option B) (vs : List V) : ∀ S : Setup B,
    (∀ v ∈ vs, (known v).isSome) → Indexed S → (S.blocks ++ vs.filterMap known).Nodup →
    ∃ T, vs.foldlM (addElement known) S = some T ∧ T.blocks = S.blocks ++ vs.filterMap known ∧
      T.offsets = S.offsets ∧ T.residuals = S.residuals ∧ Indexed T := by
  induction vs with
  | nil => intro S _ hi _; exact ⟨S, rfl, by simp, rfl, rfl, hi⟩
  | cons v vs ih =>
    intro S hk hi hnd
    obtain ⟨b, hb⟩ := Option.isSome_iff_exists.1 (hk v List.mem_cons_self)
    have hfm : (v :: vs).filterMap known = b :: vs.filterMap known := by
      rw [List.filterMap_cons, hb]
    rw [hfm] at hnd
    have hbS : b ∉ S.blocks := fun h => by
      have := List.disjoint_of_nodup_append hnd h
      simp at this
    let S1 : Setup B :=
      { S with
        blocks := S.blocks ++ [b]
        index := fun b' => if b' = b then some S.blocks.length else S.index b' }
    have h1 : addElement known S v = some S1 := by unfold addElement; rw [hb]; rfl
    have hi1 : Indexed S1 := by
      intro a i
      simp only [S1]
      by_cases hab : a = b
      · subst hab
        rw [if_pos rfl]
        constructor
        · intro h
          simp only [Option.some.injEq] at h
          subst h
          simp
        · intro h
          by_cases hlt : i < S.blocks.length
          · rw [List.getElem?_append_left hlt] at h
            exact absurd (List.mem_of_getElem? h) hbS
          · have := (List.getElem?_eq_some_iff.1 h).1
            simp at this
            rw [Option.some.injEq]; omega
      · rw [if_neg hab, hi a i]
        constructor
        · intro h
          rw [List.getElem?_append_left (List.getElem?_eq_some_iff.1 h).1]; exact h
        · intro h
          by_cases hlt : i < S.blocks.length
          · rw [List.getElem?_append_left hlt] at h; exact h
          · rw [List.getElem?_append_right (by omega)] at h
            have := List.mem_of_getElem? h
            simp at this
            exact absurd this hab
    obtain ⟨T, t1, t2, t3, t4, t5⟩ := ih S1 (fun v hv => hk v (List.mem_cons_of_mem _ hv)) hi1
      (by simpa [S1] using hnd)
    refine ⟨T, ?_, ?_, t3, t4, t5⟩
    · rw [List.foldlM_cons, h1]; exact t1
    · rw [t2, hfm]; simp [S1]

omit [DecidableEq V] in
theorem addElements_none (known : V → Option B) (vs : List V) (S : Setup B)
    (h : ∃ v ∈ vs, known v = none) : vs.foldlM (addElement known) S = none := by
  induction vs generalizing S with
  | nil => obtain ⟨v, hv, _⟩ := h; simp at hv
  | cons w vs ih =>
    rw [List.foldlM_cons]
    cases hw : known w with
    | none => simp [addElement, hw]
    | some b =>
      obtain ⟨v, hv, hn⟩ := h
      rcases List.mem_cons.1 hv with rfl | hv
      · rw [hw] at hn; simp at hn
      · simp only [addElement, hw, Option.map_some, Option.bind_eq_bind, Option.bind_some]
        exact ih _ ⟨v, hv, hn⟩

omit [DecidableEq B] in
theorem offsetsFrom_snoc (a : ℕ) (gs : List (List B)) (g : List B) :
    offsetsFrom a (gs ++ [g]) = offsetsFrom a gs ++ [a + (gs ++ [g]).flatten.length] ∧
    (offsetsFrom a gs).getLastD 0 = a + gs.flatten.length := by
  induction gs generalizing a with
  | nil => simp [offsetsFrom]
  | cons h gs ih =>
    obtain ⟨i1, i2⟩ := ih (a + h.length)
    constructor
    · rw [List.cons_append, offsetsFrom, i1, offsetsFrom]
      simp [Nat.add_assoc]
    · rw [offsetsFrom]
      have : (a :: offsetsFrom (a + h.length) gs).getLastD 0 =
          (offsetsFrom (a + h.length) gs).getLastD 0 := by
        cases gs with
        | nil => simp [offsetsFrom]
        | cons g gs => simp [offsetsFrom]
      rw [this, i2]; simp [Nat.add_assoc]

omit [DecidableEq V] in
theorem addGroups_spec (known : V → Option B) (gs : List (ℕ × List V)) : ∀ (S : Setup B)
    (done : List (List B)), (∀ g ∈ gs, ∀ v ∈ g.2, (known v).isSome) → Indexed S →
    S.blocks = done.flatten → S.offsets = offsetsFrom 0 done →
    (S.blocks ++ (gs.map fun g => g.2.filterMap known).flatten).Nodup →
    ∃ T, gs.foldlM (addGroup known) S = some T ∧
      T.blocks = (done ++ gs.map fun g => g.2.filterMap known).flatten ∧
      T.offsets = offsetsFrom 0 (done ++ gs.map fun g => g.2.filterMap known) ∧
      T.residuals = S.residuals ∧ Indexed T := by
  induction gs with
  | nil => intro S done _ hi hb ho _; exact ⟨S, rfl, by simpa using hb, by simpa using ho, rfl, hi⟩
  | cons g gs ih =>
    intro S done hk hi hb ho hnd
    rw [List.map_cons, List.flatten_cons, ← List.append_assoc] at hnd
    obtain ⟨T, t1, t2, t3, t4, t5⟩ := addElements_spec known g.2 S (hk g List.mem_cons_self) hi
      (List.Nodup.of_append_left hnd)
    have hlen : (g.2.filterMap known).length = g.2.length := by
      have : ∀ l : List V, (∀ v ∈ l, (known v).isSome) → (l.filterMap known).length = l.length := by
        intro l
        induction l with
        | nil => simp
        | cons v l ih =>
          intro hl
          obtain ⟨b, hb⟩ := Option.isSome_iff_exists.1 (hl v List.mem_cons_self)
          rw [List.filterMap_cons, hb]
          simp [ih fun v hv => hl v (List.mem_cons_of_mem _ hv)]
      exact this _ (hk g List.mem_cons_self)
    let T1 : Setup B := { T with offsets := T.offsets ++ [T.offsets.getLastD 0 + g.2.length] }
    have h1 : addGroup known S g = some T1 := by unfold addGroup; rw [t1]; rfl
    obtain ⟨U, u1, u2, u3, u4, u5⟩ := ih T1 (done ++ [g.2.filterMap known])
      (fun g hg => hk g (List.mem_cons_of_mem _ hg)) t5
      (by simp only [T1, t2, hb]; simp)
      (by
        simp only [T1, t3, ho]
        rw [(offsetsFrom_snoc 0 done (g.2.filterMap known)).1, (offsetsFrom_snoc 0 done []).2]
        simp [hlen])
      (by simp only [T1, t2]; exact hnd)
    refine ⟨U, ?_, ?_, ?_, u4.trans t4, u5⟩
    · rw [List.foldlM_cons, h1]; exact u1
    · rw [u2]; simp
    · rw [u3]; simp

omit [DecidableEq V] in
theorem addGroups_none (known : V → Option B) (gs : List (ℕ × List V)) (S : Setup B)
    (h : ∃ g ∈ gs, ∃ v ∈ g.2, known v = none) : gs.foldlM (addGroup known) S = none := by
  induction gs generalizing S with
  | nil => obtain ⟨g, hg, _⟩ := h; simp at hg
  | cons w gs ih =>
    rw [List.foldlM_cons]
    cases hw : addGroup known S w with
    | none => rfl
    | some T =>
      obtain ⟨g, hg, hn⟩ := h
      rcases List.mem_cons.1 hg with rfl | hg
      · unfold addGroup at hw
        rw [addElements_none known g.2 S hn] at hw
        simp at hw
      · exact ih T ⟨g, hg, hn⟩

/-! ## The other blocks -/

theorem addRest_spec (G : Groups V) (user : B → V) (bs : List B) : ∀ S : Setup B,
    bs.foldl (addRest G user) S =
      { S with
        blocks := S.blocks ++ bs.filter fun b => !G.isMember (user b)
        offsets := S.offsets ++ List.replicate (bs.filter fun b => !G.isMember (user b)).length
          (S.offsets.getLastD 0) } := by
  induction bs with
  | nil => intro S; simp
  | cons b bs ih =>
    intro S
    rw [List.foldl_cons, ih]
    by_cases hm : G.isMember (user b) = true
    · have : addRest G user S b = S := by unfold addRest; rw [if_pos hm]
      rw [this, List.filter_cons_of_neg (by simp [hm])]
    · have : addRest G user S b =
          { S with
            blocks := S.blocks ++ [b]
            offsets := S.offsets ++ [S.offsets.getLastD 0] } := by
        unfold addRest; rw [if_neg hm]
      rw [this, List.filter_cons_of_pos (by simpa using hm)]
      simp [List.replicate_succ]

/-! ## The residual blocks -/

omit [DecidableEq V] in
theorem addResidual_map {S : Setup B} (hi : Indexed S) (hnd : S.blocks.Nodup) (r : ℕ) (b : B)
    (f : B → List ℕ) :
    addResidual S.index r (S.blocks.map f) b =
      S.blocks.map fun b' => if b' = b then f b' ++ [r] else f b' := by
  unfold addResidual
  cases h : S.index b with
  | none =>
    simp only
    apply List.map_congr_left
    intro a ha
    rw [if_neg]
    rintro rfl
    obtain ⟨i, hi', he⟩ := List.getElem_of_mem ha
    have := (hi a i).2 (by rw [List.getElem?_eq_getElem hi', he])
    rw [h] at this; simp at this
  | some i =>
    simp only
    have hb := (hi b i).1 h
    apply List.ext_getElem?
    intro j
    rw [List.getElem?_modify, List.getElem?_map, List.getElem?_map]
    by_cases hij : i = j
    · subst hij
      rw [hb]; simp
    · cases hj : S.blocks[j]? with
      | none => simp
      | some a =>
        have : a ≠ b := by
          rintro rfl
          obtain ⟨i1, i2⟩ := List.getElem?_eq_some_iff.1 hb
          obtain ⟨j1, j2⟩ := List.getElem?_eq_some_iff.1 hj
          exact hij ((hnd.getElem_inj_iff).1 (i2.trans j2.symm))
        simp [hij, this]

omit [DecidableEq V] in
theorem addResiduals_map {S : Setup B} (hi : Indexed S) (hnd : S.blocks.Nodup) (r : ℕ)
    (ps : List B) (hps : ps.Nodup) : ∀ f : B → List ℕ,
    ps.foldl (addResidual S.index r) (S.blocks.map f) =
      S.blocks.map fun b' => if b' ∈ ps then f b' ++ [r] else f b' := by
  induction ps with
  | nil => intro f; simp
  | cons b ps ih =>
    intro f
    rw [List.nodup_cons] at hps
    rw [List.foldl_cons, addResidual_map hi hnd, ih hps.2]
    apply List.map_congr_left
    intro a _
    by_cases hab : a = b
    · subst hab; simp [hps.1]
    · simp [hab]

omit [DecidableEq V] in
theorem residuals_spec {S : Setup B} (hi : Indexed S) (hnd : S.blocks.Nodup)
    (rs : List (List B)) (hrs : ∀ r ∈ rs, r.Nodup) :
    rs.zipIdx.foldl (fun res r => r.1.foldl (addResidual S.index r.2) res)
        (List.replicate S.blocks.length []) =
      S.blocks.map (fun b => (List.range rs.length).filter fun r => decide (b ∈ rs.getD r [])) := by
  induction rs using List.reverseRecOn with
  | nil => simp [List.map_const']
  | append_singleton rs ps ih =>
    rw [List.zipIdx_append, List.foldl_append, ih fun r hr => hrs r (List.mem_append_left _ hr)]
    simp only [List.zipIdx_cons, List.zipIdx_nil, List.foldl_cons, List.foldl_nil]
    rw [addResiduals_map hi hnd _ ps (hrs ps (by simp))]
    apply List.map_congr_left
    intro b _
    rw [List.length_append, List.length_singleton, List.range_succ, List.filter_append]
    have h1 : (List.range rs.length).filter (fun r => decide (b ∈ (rs ++ [ps]).getD r [])) =
        (List.range rs.length).filter (fun r => decide (b ∈ rs.getD r [])) := by
      apply List.filter_congr
      intro r hr
      rw [List.mem_range] at hr
      simp only [List.getD_eq_getElem?_getD, List.getElem?_append_left hr]
    rw [h1]
    by_cases hb : b ∈ ps <;> simp [hb]

/-! ## `Init` -/

theorem mem_groups {G : Groups V} (hG : G.WF) {v : V} :
    (∃ g ∈ G.groupToElements, v ∈ g.2) ↔ 0 ≤ G.groupId v := by
  have hlook := fun k y => Graph.lookup_iff hG.sorted k y
  constructor
  · rintro ⟨⟨k, y⟩, hg, hv⟩
    have : v ∈ Graph.mapGet G.groupToElements k := by
      unfold Graph.mapGet; rw [(hlook k y).2 hg]; exact hv
    have := groupId_eq.2 ((hG.agree v k).1 this)
    omega
  · intro h
    have h0 : ∃ k, G.elementToGroup.lookup v = some k := by
      by_contra hn
      have : G.elementToGroup.lookup v = none := by
        cases hl : G.elementToGroup.lookup v with
        | none => rfl
        | some k => exact absurd ⟨k, hl⟩ hn
      have := Graph.groupId_neg.2 this
      omega
    obtain ⟨k, hk⟩ := h0
    have := (hG.agree v k).2 hk
    unfold Graph.mapGet at this
    cases hl : G.groupToElements.lookup k with
    | none => rw [hl] at this; simp at this
    | some y =>
      rw [hl] at this
      exact ⟨(k, y), (hlook k y).1 hl, this⟩

/-- The members of a group have its number. -/
theorem group_number {G : Groups V} (hG : G.WF) {k : ℕ} {y : List V}
    (h : (k, y) ∈ G.groupToElements) (v : V) : v ∈ y ↔ G.groupId v = k := by
  rw [groupId_eq, ← hG.agree v k]
  unfold Graph.mapGet
  rw [(Graph.lookup_iff hG.sorted k y).2 h]
  rfl

/-- **C56 (which orderings can be set up).**  The set-up is defined iff every address of the ordering
is the address of a block of the problem. -/
theorem init_defined_iff (P : Prog B) (known : V → Option B) {G : Groups V} (hG : G.WF)
    (user : B → V) :
    (init P known G user = none) ↔ ∃ v, 0 ≤ G.groupId v ∧ known v = none := by
  constructor
  · intro h
    by_contra hn
    push Not at hn
    have hex : ∃ S, G.groupToElements.foldlM (addGroup known) ⟨[], [0], fun _ => none, []⟩ = some S := by
      have key : ∀ (gs : List (ℕ × List V)) (S : Setup B), (∀ g ∈ gs, ∀ v ∈ g.2, known v ≠ none) →
          ∃ T, gs.foldlM (addGroup known) S = some T := by
        have key1 : ∀ (vs : List V) (S : Setup B), (∀ v ∈ vs, known v ≠ none) →
            ∃ T, vs.foldlM (addElement known) S = some T := by
          intro vs
          induction vs with
          | nil => intro S _; exact ⟨S, rfl⟩
          | cons v vs ih =>
            intro S hk
            rw [List.foldlM_cons]
            cases hv : known v with
            | none => exact absurd hv (hk v List.mem_cons_self)
            | some b =>
              simp only [addElement, hv, Option.map_some, Option.bind_eq_bind, Option.bind_some]
              exact ih _ fun v hv => hk v (List.mem_cons_of_mem _ hv)
        intro gs
        induction gs with
        | nil => intro S _; exact ⟨S, rfl⟩
        | cons g gs ih =>
          intro S hk
          rw [List.foldlM_cons]
          obtain ⟨T, hT⟩ := key1 g.2 S (hk g List.mem_cons_self)
          unfold addGroup
          rw [hT]
          exact ih _ fun g hg => hk g (List.mem_cons_of_mem _ hg)
      exact key _ _ fun g hg v hv => hn v ((mem_groups hG).1 ⟨g, hg, hv⟩)
    obtain ⟨S, hS⟩ := hex
    unfold init at h
    rw [hS] at h
    simp at h
  · rintro ⟨v, hv, hn⟩
    obtain ⟨g, hg, hvg⟩ := (mem_groups hG).2 hv
    unfold init
    rw [addGroups_none known _ _ ⟨g, hg, v, hvg, hn⟩]
    rfl

theorem groupsOf_flatten_nodup {known : V → Option B} {user : B → V} (hA : Addressed known user)
    {G : Groups V} (hG : G.WF) : (groupsOf known G).flatten.Nodup := by
  have hinj : ∀ v w b, known v = some b → known w = some b → v = w := by
    intro v w b hv hw
    rw [← hA.own v b hv, ← hA.own w b hw]
  have hfm : ∀ l : List V, l.Nodup → (l.filterMap known).Nodup := by
    intro l hl
    refine hl.filterMap ?_
    intro a a' b h1 h2
    exact hinj a a' b h1 h2
  unfold groupsOf
  rw [List.nodup_flatten]
  constructor
  · intro l hl
    obtain ⟨g, hg, rfl⟩ := List.mem_map.1 hl
    exact hfm _ (hG.sets g.1 g.2 ((Graph.lookup_iff hG.sorted _ _).2 hg)).2
  · rw [List.pairwise_map]
    refine hG.sorted.imp_of_mem ?_
    intro p q hp hq hlt b hb hb'
    obtain ⟨v, hv, hvb⟩ := List.mem_filterMap.1 hb
    obtain ⟨w, hw, hwb⟩ := List.mem_filterMap.1 hb'
    have : v = w := hinj v w b hvb hwb
    subst this
    have h1 := (group_number hG (k := p.1) (y := p.2) hp v).1 hv
    have h2 := (group_number hG (k := q.1) (y := q.2) hq v).1 hw
    omega

theorem mem_groupsOf {known : V → Option B} {user : B → V} (hA : Addressed known user)
    {G : Groups V} (hG : G.WF) (b : B) :
    b ∈ (groupsOf known G).flatten ↔ 0 ≤ G.groupId (user b) := by
  unfold groupsOf
  rw [List.mem_flatten]
  constructor
  · rintro ⟨l, hl, hb⟩
    obtain ⟨g, hg, rfl⟩ := List.mem_map.1 hl
    obtain ⟨v, hv, hvb⟩ := List.mem_filterMap.1 hb
    rw [hA.own v b hvb]
    exact (mem_groups hG).1 ⟨g, hg, hv⟩
  · intro h
    obtain ⟨g, hg, hv⟩ := (mem_groups hG).2 h
    exact ⟨_, List.mem_map.2 ⟨g, hg, rfl⟩, List.mem_filterMap.2 ⟨_, hv, hA.found b⟩⟩

/-- **C56 (the set-up).**  For an ordering of blocks of the program, the set-up has the blocks of the
ordering, group by group, followed by the other blocks of the program, and for each block of the
ordering exactly the residual blocks that depend on it. -/
theorem init_serves {P : Prog B} (hP : P.WF) {known : V → Option B} {user : B → V}
    (hA : Addressed known user) {G : Groups V} (hG : G.WF)
    (hin : ∀ v, 0 ≤ G.groupId v → ∃ b ∈ P.blocks, known v = some b) :
    ∃ S, init P known G user = some S ∧ S.Serves P (groupsOf known G) := by
  have hnd := groupsOf_flatten_nodup hA hG
  obtain ⟨S, s1, s2, s3, s4, s5⟩ := addGroups_spec known G.groupToElements
    ⟨[], [0], fun _ => none, []⟩ [] (by
      intro g hg v hv
      obtain ⟨b, _, hb⟩ := hin v ((mem_groups hG).1 ⟨g, hg, hv⟩)
      rw [hb]; rfl) (by intro b i; simp) rfl rfl (by simpa [groupsOf] using hnd)
  have hb : S.blocks = (groupsOf known G).flatten := by rw [s2]; rfl
  have ho : S.offsets = offsetsFrom 0 (groupsOf known G) := by rw [s3]; rfl
  have hmem : ∀ b, b ∈ (groupsOf known G).flatten ↔ G.isMember (user b) = true := by
    intro b
    rw [mem_groupsOf hA hG, (Graph.groups_queries G hG).1]
  refine ⟨_, by unfold init; rw [s1]; rfl, ?_, ?_⟩
  · refine ⟨P.blocks.filter fun b => !G.isMember (user b), ?_, ?_, ?_⟩
    · simp only [addRest_spec, hb]
    · simp only [addRest_spec, hb]
      rw [List.perm_ext_iff_of_nodup]
      · intro b
        rw [List.mem_append, List.mem_filter, hmem]
        constructor
        · rintro (h | h)
          · obtain ⟨a, ha, hk⟩ := hin (user b) (((Graph.groups_queries G hG).1 _).1 h)
            rw [hA.found b, Option.some.injEq] at hk
            exact hk ▸ ha
          · exact h.1
        · intro h
          by_cases hm : G.isMember (user b) = true
          · exact Or.inl hm
          · exact Or.inr ⟨h, by simpa using hm⟩
      · rw [List.nodup_append]
        refine ⟨hnd, hP.nodup.filter _, ?_⟩
        intro a ha b hb' hab
        subst hab
        have := (List.mem_filter.1 hb').2
        rw [(hmem a).1 ha] at this
        simp at this
      · exact hP.nodup
    · simp only [addRest_spec, ho]
      rw [(offsetsFrom_snoc 0 (groupsOf known G) []).2, offsetsFrom_eq]
      simp
  · simp only
    rw [residuals_spec s5 (by rw [hb]; exact hnd) P.residuals hP.residual_nodup, hb]
    rfl

/-! ## `IsOrderingValid` -/

theorem count_sum_le_one {user : B → V} (hinj : Function.Injective user) {set : List V}
    (hset : set.Nodup) {r : List B} (hr : r.Nodup) :
    1 < (r.map fun b => set.count (user b)).sum ↔
      ∃ a ∈ r, ∃ b ∈ r, a ≠ b ∧ user a ∈ set ∧ user b ∈ set := by
  have hcount : ∀ b, set.count (user b) = if user b ∈ set then 1 else 0 := by
    intro b
    by_cases h : user b ∈ set
    · rw [if_pos h]; exact List.count_eq_one_of_mem hset h
    · rw [if_neg h]; exact List.count_eq_zero_of_not_mem h
  have hsum : (r.map fun b => set.count (user b)).sum =
      (r.filter fun b => decide (user b ∈ set)).length := by
    clear hr
    induction r with
    | nil => rfl
    | cons b r ih =>
      rw [List.map_cons, List.sum_cons, ih, hcount]
      by_cases h : user b ∈ set
      · rw [if_pos h, List.filter_cons_of_pos (by simpa using h), List.length_cons]; omega
      · rw [if_neg h, List.filter_cons_of_neg (by simpa using h)]; omega
  rw [hsum]
  have hf := hr.filter fun b => decide (user b ∈ set)
  constructor
  · intro h
    match hl : r.filter (fun b => decide (user b ∈ set)) with
    | [] => rw [hl] at h; simp at h
    | [a] => rw [hl] at h; simp at h
    | a :: b :: l =>
      rw [hl] at hf
      have ha : a ∈ r.filter (fun b => decide (user b ∈ set)) := by rw [hl]; simp
      have hb : b ∈ r.filter (fun b => decide (user b ∈ set)) := by rw [hl]; simp
      rw [List.mem_filter, decide_eq_true_eq] at ha hb
      refine ⟨a, ha.1, b, hb.1, ?_, ha.2, hb.2⟩
      rintro rfl
      simp at hf
  · rintro ⟨a, ha, b, hb, hab, h1, h2⟩
    have ha' : a ∈ r.filter (fun b => decide (user b ∈ set)) := by simp [ha, h1]
    have hb' : b ∈ r.filter (fun b => decide (user b ∈ set)) := by simp [hb, h2]
    match hl : r.filter (fun b => decide (user b ∈ set)) with
    | [] => rw [hl] at ha'; simp at ha'
    | [c] =>
      rw [hl] at ha' hb'
      simp at ha' hb'
      exact absurd (ha'.trans hb'.symm) hab
    | _ :: _ :: l => simp

/-- **C56 (the check).**  The check of the ordering passes iff no residual block depends on two
blocks of one group. -/
theorem isOrderingValid_iff {P : Prog B} (hP : P.WF) {known : V → Option B} {user : B → V}
    (hA : Addressed known user) {G : Groups V} (hG : G.WF) :
    isOrderingValid P user G = true ↔ Independent P (groupsOf known G) := by
  have hinj : Function.Injective user := by
    intro a b h
    have h1 := hA.found a
    rw [h, hA.found b, Option.some.injEq] at h1
    exact h1.symm
  unfold isOrderingValid isSetIndependent Independent groupsOf
  simp only [List.all_eq_true, Bool.not_eq_true', decide_eq_false_iff_not]
  constructor
  · intro h l hl a ha b hb hab hs
    obtain ⟨g, hg, rfl⟩ := List.mem_map.1 hl
    obtain ⟨r, hr, har, hbr⟩ := hs
    obtain ⟨v, hv, hva⟩ := List.mem_filterMap.1 ha
    obtain ⟨w, hw, hwb⟩ := List.mem_filterMap.1 hb
    refine h g hg r hr ((count_sum_le_one hinj
      (hG.sets g.1 g.2 ((Graph.lookup_iff hG.sorted _ _).2 hg)).2 (hP.residual_nodup r hr)).2
      ⟨a, har, b, hbr, hab, ?_, ?_⟩)
    · rw [hA.own v a hva]; exact hv
    · rw [hA.own w b hwb]; exact hw
  · intro h g hg r hr hlt
    obtain ⟨a, ha, b, hb, hab, h1, h2⟩ := (count_sum_le_one hinj
      (hG.sets g.1 g.2 ((Graph.lookup_iff hG.sorted _ _).2 hg)).2 (hP.residual_nodup r hr)).1 hlt
    exact h _ (List.mem_map.2 ⟨g, hg, rfl⟩) a (List.mem_filterMap.2 ⟨_, h1, hA.found a⟩) b
      (List.mem_filterMap.2 ⟨_, h2, hA.found b⟩) hab ⟨r, hr, ha, hb⟩

/-! ## The automatic ordering -/

theorem addRounds_aux (user : B → V) (hinj : Function.Injective user) (groups : List (List B)) :
    ∀ (n : ℕ) (G : Groups V), G.WF → groups.flatten.Nodup →
    ((groups.zipIdx n).foldl (fun G g => g.1.foldl (fun G b => (G.add (user b) g.2).1) G) G).WF ∧
    ∀ v, ((groups.zipIdx n).foldl (fun G g => g.1.foldl (fun G b => (G.add (user b) g.2).1) G)
        G).groupId v =
      (match groups.findIdx? fun g => g.any fun b => decide (user b = v) with
        | some i => ((n + i : ℕ) : ℤ)
        | none => G.groupId v) := by
  have inner : ∀ (g : List B) (n : ℕ) (G : Groups V), G.WF →
      (g.foldl (fun G b => (G.add (user b) n).1) G).WF ∧
      ∀ v, (g.foldl (fun G b => (G.add (user b) n).1) G).groupId v =
        if (g.any fun b => decide (user b = v)) = true then (n : ℤ) else G.groupId v := by
    intro g
    induction g with
    | nil => intro n G h; exact ⟨h, by simp⟩
    | cons b g ih =>
      intro n G h
      obtain ⟨h1, _, h3⟩ := Graph.groups_add_spec G h (user b) n
      obtain ⟨i1, i2⟩ := ih n _ h1
      refine ⟨i1, fun v => ?_⟩
      rw [List.foldl_cons, i2, h3]
      by_cases hg : (g.any fun b => decide (user b = v)) = true
      · rw [if_pos hg, if_pos (by rw [List.any_cons, hg]; simp)]
      · rw [if_neg hg]
        by_cases hb : user b = v
        · rw [if_pos ⟨hb.symm, by omega⟩, if_pos (by rw [List.any_cons]; simp [hb])]
        · rw [if_neg fun h => hb h.1.symm, if_neg (by rw [List.any_cons]; simpa [hb] using hg)]
  induction groups with
  | nil => intro n G h _; exact ⟨h, by simp⟩
  | cons g gs ih =>
    intro n G h hnd
    obtain ⟨h1, h2⟩ := inner g n G h
    rw [List.flatten_cons] at hnd
    obtain ⟨i1, i2⟩ := ih (n + 1) _ h1 (List.Nodup.of_append_right hnd)
    rw [List.zipIdx_cons, List.foldl_cons]
    refine ⟨i1, fun v => ?_⟩
    rw [i2, List.findIdx?_cons]
    by_cases hg : (g.any fun b => decide (user b = v)) = true
    · rw [if_pos hg]
      have hnone : gs.findIdx? (fun g => g.any fun b => decide (user b = v)) = none := by
        rw [List.findIdx?_eq_none_iff]
        intro g' hg'
        rw [List.any_eq_true] at hg
        obtain ⟨b, hb, hbv⟩ := hg
        rw [decide_eq_true_eq] at hbv
        rw [← Bool.not_eq_true, List.any_eq_true]
        rintro ⟨c, hc, hcv⟩
        rw [decide_eq_true_eq] at hcv
        have : b = c := hinj (hbv.trans hcv.symm)
        subst this
        exact List.disjoint_of_nodup_append hnd hb (List.mem_flatten.2 ⟨g', hg', hc⟩)
      rw [hnone, h2, if_pos hg]
      simp
    · rw [if_neg hg]
      cases hf : gs.findIdx? (fun g => g.any fun b => decide (user b = v)) with
      | none => simp only [Option.map_none]; rw [h2, if_neg hg]
      | some i => simp only [Option.map_some]; push_cast; ring

/-- **C56 (the automatic ordering).**  With no ordering from the user, the one computed has every
block of the program in exactly one group, no residual block depends on two blocks of one group, and
set-up succeeds. -/
theorem createOrdering_spec [LinearOrder B] {P : Prog B} (hP : P.WF)
    (hc : ∀ b ∈ P.blocks, P.isConst b = false) {sort : Graph.Graph B → List B}
    (hsort : ∀ g : Graph.Graph B, g.WF → g.TotallySorted (sort g)) {fuel : ℕ}
    (hf : P.blocks.length ≤ fuel) {known : V → Option B} {user : B → V} (hA : Addressed known user) :
    ∃ G, createOrdering sort P user fuel = .done G ∧ G.WF ∧
      (∀ v, 0 ≤ G.groupId v ↔ ∃ b ∈ P.blocks, user b = v) ∧
      Independent P (groupsOf known G) := by
  have hinj : Function.Injective user := by
    intro a b h
    have h1 := hA.found a
    rw [h, hA.found b, Option.some.injEq] at h1
    exact h1.symm
  obtain ⟨groups, g1, g2, g3⟩ := Graph.recursiveOrdering_valid P hP hc sort hsort fuel hf
  have hnd : groups.flatten.Nodup := g2.nodup_iff.2 hP.nodup
  obtain ⟨a1, a2⟩ := addRounds_aux user hinj groups 0 Groups.empty Graph.groups_empty_wf hnd
  rw [show (groups.zipIdx.foldl (fun G g => g.1.foldl (fun G b => (G.add (user b) g.2).1) G)
    Groups.empty) = addRounds user groups from rfl] at a1 a2
  have hpos : ∀ v, 0 ≤ (addRounds user groups).groupId v ↔ ∃ b ∈ P.blocks, user b = v := by
    intro v
    rw [a2]
    cases hfi : groups.findIdx? (fun g => g.any fun b => decide (user b = v)) with
    | none =>
      simp only
      rw [List.findIdx?_eq_none_iff] at hfi
      constructor
      · intro h; simp [Groups.groupId, Groups.empty] at h
      · rintro ⟨b, hb, hbv⟩
        obtain ⟨g, hg, hbg⟩ := List.mem_flatten.1 (g2.mem_iff.2 hb)
        have := hfi g hg
        rw [← Bool.not_eq_true, List.any_eq_true] at this
        exact absurd ⟨b, hbg, by simpa using hbv⟩ this
    | some i =>
      refine ⟨fun _ => ?_, fun _ => by simp⟩
      rw [List.findIdx?_eq_some_iff_getElem] at hfi
      obtain ⟨hi, hany, _⟩ := hfi
      rw [List.any_eq_true] at hany
      obtain ⟨b, hb, hbv⟩ := hany
      exact ⟨b, g2.mem_iff.1 (List.mem_flatten.2 ⟨_, List.getElem_mem hi, hb⟩), by simpa using hbv⟩
  obtain ⟨r1, r2, r3⟩ := Graph.groups_reverse_spec (addRounds user groups) a1
  refine ⟨(addRounds user groups).reverse, by unfold createOrdering; rw [g1], r1,
    fun v => (r2 v).trans (hpos v), ?_⟩
  intro l hl a ha b hb hab
  obtain ⟨⟨k, y⟩, hg, rfl⟩ := List.mem_map.1 hl
  obtain ⟨v, hv, hva⟩ := List.mem_filterMap.1 ha
  obtain ⟨w, hw, hwb⟩ := List.mem_filterMap.1 hb
  have e1 := (group_number r1 hg v).1 hv
  have e2 := (group_number r1 hg w).1 hw
  have p1 := (r2 v).1 (by omega)
  have p2 := (r2 w).1 (by omega)
  have heq : (addRounds user groups).groupId v = (addRounds user groups).groupId w := by
    have h1 := r3 v w p1 p2
    have h2 := r3 w v p2 p1
    rw [e1, e2] at h1 h2
    have n1 := h1.not.1 (by omega)
    have n2 := h2.not.1 (by omega)
    omega
  rw [a2, a2] at heq
  rw [← hA.own v a hva, ← hA.own w b hwb] at heq
  rw [← hA.own v a hva] at p1
  rw [← hA.own w b hwb] at p2
  have hidx : ∀ c, 0 ≤ (addRounds user groups).groupId (user c) →
      ∃ i, groups.findIdx? (fun g => g.any fun b => decide (user b = user c)) = some i ∧
        ∃ h : i < groups.length, c ∈ groups[i] := by
    intro c hc
    rw [a2] at hc
    cases hfi : groups.findIdx? (fun g => g.any fun b => decide (user b = user c)) with
    | none => rw [hfi] at hc; simp [Groups.groupId, Groups.empty] at hc
    | some i =>
      refine ⟨i, rfl, ?_⟩
      rw [List.findIdx?_eq_some_iff_getElem] at hfi
      obtain ⟨hi, hany, _⟩ := hfi
      rw [List.any_eq_true] at hany
      obtain ⟨d, hd, hdv⟩ := hany
      rw [decide_eq_true_eq] at hdv
      exact ⟨hi, hinj hdv ▸ hd⟩
  obtain ⟨i, i1, i2, i3⟩ := hidx a p1
  obtain ⟨j, j1, j2, j3⟩ := hidx b p2
  rw [i1, j1] at heq
  simp only [Nat.zero_add, Nat.cast_inj] at heq
  subst heq
  exact g3.independent groups[i] (List.getElem_mem i2) a i3 b j3 hab

/-! ## `SetupInnerIterationMinimizer` -/

theorem groupsOf_arranged {known : V → Option B} {user : B → V} (hA : Addressed known user)
    {G : Groups V} (hG : G.WF) : Arranged user G (groupsOf known G) := by
  refine ⟨mem_groupsOf hA hG, ?_, ?_⟩
  · intro l hl a ha b hb
    obtain ⟨⟨k, y⟩, hg, rfl⟩ := List.mem_map.1 hl
    obtain ⟨v, hv, hva⟩ := List.mem_filterMap.1 ha
    obtain ⟨w, hw, hwb⟩ := List.mem_filterMap.1 hb
    rw [hA.own v a hva, hA.own w b hwb, (group_number hG hg v).1 hv, (group_number hG hg w).1 hw]
  · unfold groupsOf
    rw [List.pairwise_map]
    refine hG.sorted.imp_of_mem ?_
    intro p q hp hq hlt a ha b hb
    obtain ⟨v, hv, hva⟩ := List.mem_filterMap.1 ha
    obtain ⟨w, hw, hwb⟩ := List.mem_filterMap.1 hb
    rw [hA.own v a hva, hA.own w b hwb, (group_number hG (k := p.1) (y := p.2) hp v).1 hv,
      (group_number hG (k := q.1) (y := q.2) hq w).1 hw]
    exact_mod_cast hlt

/-- The blocks of the problem that are not in the program have been removed from it, and only
these. -/
structure Reduced (P : Prog B) (user : B → V) (removed : List V) : Prop where
  all : ∀ b, b ∈ P.blocks ∨ user b ∈ removed
  only : ∀ b ∈ P.blocks, user b ∉ removed

theorem removeAll_numElements {G : Groups V} (hG : G.WF) (removed : List V) :
    (G.removeAll removed).1.numElements = 0 ↔ ∀ v, 0 ≤ G.groupId v → v ∈ removed := by
  obtain ⟨h1, h2, _⟩ := Graph.groups_removeAll_spec G hG removed
  obtain ⟨l, _, l2, l3⟩ := (Graph.groups_queries _ h1).2.1
  rw [l3, List.length_eq_zero_iff]
  constructor
  · intro h v hv
    by_contra hn
    have : v ∈ l := (l2 v).2 (by rw [h2, if_neg hn]; exact hv)
    rw [h] at this; simp at this
  · intro h
    rw [List.eq_nil_iff_forall_not_mem]
    intro v hv
    have := (l2 v).1 hv
    rw [h2] at this
    by_cases hn : v ∈ removed
    · rw [if_pos hn] at this; omega
    · rw [if_neg hn] at this; exact hn (h v this)

/-- **C56 (the decision with an ordering from the user).**  The inner iterations are off iff nothing
remains of the ordering after the removed blocks are taken out; rejected iff some residual block
depends on two blocks of the program in one group; undefined if the ordering has an address that is
not a block of the problem; and otherwise on, for the blocks of the program that are in the ordering,
arranged by group number.  In every case the removed blocks are gone from the user's own ordering
object afterwards. -/
theorem setupInner_given {P : Prog B} (hP : P.WF) {known : V → Option B} {user : B → V}
    (hA : Addressed known user) {removed : List V} (hR : Reduced P user removed)
    (sort : Graph.Graph B → List B) (fuel : ℕ) {G : Groups V} (hG : G.WF)
    (h1 : P.blocks.length ≠ 1) :
    ∃ result G', setupInner sort fuel true false P known user removed (some G) = (result, some G') ∧
      (∀ v, G'.groupId v = if v ∈ removed then -1 else G.groupId v) ∧
      ((∀ v, 0 ≤ G.groupId v → v ∈ removed) → result = .off) ∧
      ((∃ v, 0 ≤ G.groupId v ∧ v ∉ removed) →
        ((∃ a ∈ P.blocks, ∃ b ∈ P.blocks, a ≠ b ∧ 0 ≤ G.groupId (user a) ∧
            G.groupId (user a) = G.groupId (user b) ∧ P.Share a b) → result = .error) ∧
        (¬ (∃ a ∈ P.blocks, ∃ b ∈ P.blocks, a ≠ b ∧ 0 ≤ G.groupId (user a) ∧
            G.groupId (user a) = G.groupId (user b) ∧ P.Share a b) →
          ((∃ v, 0 ≤ G.groupId v ∧ v ∉ removed ∧ ∀ b, user b ≠ v) → result = .undefined) ∧
          ((∀ v, 0 ≤ G.groupId v → v ∉ removed → ∃ b, user b = v) →
            ∃ S groups, result = .on S ∧ S.Serves P groups ∧ Independent P groups ∧
              Arranged user G' groups ∧
              ∀ b, b ∈ groups.flatten ↔ b ∈ P.blocks ∧ 0 ≤ G.groupId (user b)))) := by
  obtain ⟨w1, w2, _⟩ := Graph.groups_removeAll_spec G hG removed
  have harr := groupsOf_arranged hA w1
  have hmem : ∀ b, 0 ≤ (G.removeAll removed).1.groupId (user b) ↔
      b ∈ P.blocks ∧ 0 ≤ G.groupId (user b) := by
    intro b
    rw [w2]
    rcases hR.all b with hb | hb
    · rw [if_neg (hR.only b hb)]; exact ⟨fun h => ⟨hb, h⟩, fun h => h.2⟩
    · rw [if_pos hb]
      exact ⟨fun h => by omega, fun h => absurd hb (hR.only b h.1)⟩
  have hknown : ∀ v, known v = none ↔ ∀ b, user b ≠ v := by
    intro v
    constructor
    · intro h b hb
      rw [← hb, hA.found] at h; simp at h
    · intro h
      cases hk : known v with
      | none => rfl
      | some b => exact absurd (hA.own v b hk) (h b)
  have hind : isOrderingValid P user (G.removeAll removed).1 = true ↔
      ¬ (∃ a ∈ P.blocks, ∃ b ∈ P.blocks, a ≠ b ∧ 0 ≤ G.groupId (user a) ∧
            G.groupId (user a) = G.groupId (user b) ∧ P.Share a b) := by
    rw [isOrderingValid_iff hP hA w1]
    constructor
    · rintro h ⟨a, ha, b, hb, hab, h0, he, hs⟩
      have ga := (hmem a).2 ⟨ha, h0⟩
      obtain ⟨l, hl, hal⟩ := List.mem_flatten.1 ((mem_groupsOf hA w1 a).2 ga)
      obtain ⟨⟨k, y⟩, hg, rfl⟩ := List.mem_map.1 hl
      obtain ⟨v, hv, hva⟩ := List.mem_filterMap.1 hal
      have hk := (group_number w1 hg v).1 hv
      rw [← hA.own v a hva] at hk
      have hbk : (G.removeAll removed).1.groupId (user b) = k := by
        rw [← hk, w2, w2, if_neg (hR.only a ha), if_neg (hR.only b hb), he]
      refine h _ hl a hal b ?_ hab hs
      exact List.mem_filterMap.2 ⟨user b, (group_number w1 hg _).2 hbk, hA.found b⟩
    · intro h l hl a ha b hb hab hs
      have ma := (hmem a).1 ((harr.mem a).1 (List.mem_flatten.2 ⟨l, hl, ha⟩))
      have mb := (hmem b).1 ((harr.mem b).1 (List.mem_flatten.2 ⟨l, hl, hb⟩))
      refine h ⟨a, ma.1, b, mb.1, hab, ma.2, ?_, hs⟩
      have := harr.same l hl a ha b hb
      rw [w2, w2, if_neg (hR.only a ma.1), if_neg (hR.only b mb.1)] at this
      exact this
  have hun : init P known (G.removeAll removed).1 user = none ↔
      ∃ v, 0 ≤ G.groupId v ∧ v ∉ removed ∧ ∀ b, user b ≠ v := by
    rw [init_defined_iff P known w1 user]
    constructor
    · rintro ⟨v, hv, hn⟩
      rw [w2] at hv
      by_cases hr : v ∈ removed
      · rw [if_pos hr] at hv; omega
      · rw [if_neg hr] at hv; exact ⟨v, hv, hr, (hknown v).1 hn⟩
    · rintro ⟨v, hv, hr, hn⟩
      exact ⟨v, by rw [w2, if_neg hr]; exact hv, (hknown v).2 hn⟩
  unfold setupInner
  simp only [Bool.not_true, Bool.false_eq_true, if_false, if_neg h1]
  by_cases hz : (G.removeAll removed).1.numElements = 0
  · rw [if_pos hz]
    have hz' := (removeAll_numElements hG removed).1 hz
    exact ⟨_, _, rfl, w2, fun _ => rfl, fun ⟨v, hv, hn⟩ => absurd (hz' v hv) hn⟩
  · rw [if_neg hz]
    have hz' : ¬ ∀ v, 0 ≤ G.groupId v → v ∈ removed := fun h =>
      hz ((removeAll_numElements hG removed).2 h)
    by_cases hv : isOrderingValid P user (G.removeAll removed).1 = true
    · rw [if_neg (by simp [hv])]
      have hv' := hind.1 hv
      cases hi : init P known (G.removeAll removed).1 user with
      | none =>
        have hu := hun.1 hi
        refine ⟨_, _, rfl, w2, fun h => absurd h hz', fun _ => ⟨fun h => absurd h hv', fun _ =>
          ⟨fun _ => rfl, fun h => ?_⟩⟩⟩
        obtain ⟨v, a1, a2, a3⟩ := hu
        obtain ⟨b, hb⟩ := h v a1 a2
        exact absurd hb (a3 b)
      | some S =>
        have hnu : ¬ ∃ v, 0 ≤ G.groupId v ∧ v ∉ removed ∧ ∀ b, user b ≠ v := fun h => by
          have := hun.2 h
          rw [hi] at this; simp at this
        refine ⟨_, _, rfl, w2, fun h => absurd h hz', fun _ => ⟨fun h => absurd h hv', fun _ =>
          ⟨fun h => absurd h hnu, fun h => ?_⟩⟩⟩
        obtain ⟨S', s1, s2⟩ := init_serves hP hA w1 (by
          intro v hv0
          rw [w2] at hv0
          by_cases hr : v ∈ removed
          · rw [if_pos hr] at hv0; omega
          · rw [if_neg hr] at hv0
            obtain ⟨b, rfl⟩ := h v hv0 hr
            rcases hR.all b with hb | hb
            · exact ⟨b, hb, hA.found b⟩
            · exact absurd hb hr)
        rw [hi, Option.some.injEq] at s1
        subst s1
        exact ⟨S, _, rfl, s2, (isOrderingValid_iff hP hA w1).1 hv, harr, fun b =>
          (mem_groupsOf hA w1 b).trans (hmem b)⟩
    · rw [if_pos (by simp [hv])]
      exact ⟨_, _, rfl, w2, fun h => absurd h hz', fun _ => ⟨fun _ => rfl, fun h =>
        absurd (hind.2 h) hv⟩⟩

/-- **C56 (the decision without an ordering).**  Set-up always succeeds, for all blocks of the
program. -/
theorem setupInner_automatic [LinearOrder B] {P : Prog B} (hP : P.WF)
    (hc : ∀ b ∈ P.blocks, P.isConst b = false) {sort : Graph.Graph B → List B}
    (hsort : ∀ g : Graph.Graph B, g.WF → g.TotallySorted (sort g)) {fuel : ℕ}
    (hf : P.blocks.length ≤ fuel) {known : V → Option B} {user : B → V} (hA : Addressed known user)
    (removed : List V) (h1 : P.blocks.length ≠ 1) :
    ∃ S groups, setupInner sort fuel true false P known user removed none = (.on S, none) ∧
      S.Serves P groups ∧ Independent P groups ∧ groups.flatten.Perm P.blocks := by
  obtain ⟨G, g1, g2, g3, g4⟩ := createOrdering_spec hP hc hsort hf hA
  obtain ⟨S, s1, s2⟩ := init_serves hP hA g2 (by
    intro v hv
    obtain ⟨b, hb, rfl⟩ := (g3 v).1 hv
    exact ⟨b, hb, hA.found b⟩)
  refine ⟨S, groupsOf known G, ?_, s2, g4, ?_⟩
  · unfold setupInner
    simp only [Bool.not_true, Bool.false_eq_true, if_false, if_neg h1, g1, s1]
  · rw [List.perm_ext_iff_of_nodup (groupsOf_flatten_nodup hA g2) hP.nodup]
    intro b
    rw [mem_groupsOf hA g2, g3]
    constructor
    · rintro ⟨a, ha, he⟩
      have h1 := hA.found a
      rw [he, hA.found b, Option.some.injEq] at h1
      exact h1 ▸ ha
    · intro hb; exact ⟨b, hb, rfl⟩

end Ceres.Inner
