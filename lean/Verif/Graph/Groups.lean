import Verif.Graph.Hessian
import Mathlib.Data.List.Dedup

/-!
# `OrderedGroups` (C69)

The public class `ParameterBlockOrdering` keeps two maps.  The theorems say that after every
sequence of calls they describe one assignment of group numbers to elements, and what each call does
to that assignment.
-/

namespace Ceres.Graph

variable {V : Type} [DecidableEq V]

/-! ## Maps -/

omit [DecidableEq V] in
theorem lookup_mapPut (g : ℕ) (x : List V) (m : List (ℕ × List V)) (k : ℕ) :
    (mapPut g x m).lookup k = if k = g then some x else m.lookup k := by
  induction m with
  | nil => by_cases h : k = g <;> simp [mapPut, List.lookup, h, beq_eq_false_iff_ne.mpr]
  | cons p m ih =>
    obtain ⟨a, y⟩ := p
    unfold mapPut
    by_cases h1 : g = a
    · subst h1
      rw [if_pos rfl]
      by_cases h : k = g
      · subst h; simp
      · rw [if_neg h, List.lookup_cons, List.lookup_cons, beq_eq_false_iff_ne.mpr h]
    · rw [if_neg h1]
      by_cases h2 : g < a
      · rw [if_pos h2, List.lookup_cons]
        by_cases h : k = g
        · subst h; simp
        · rw [if_neg h, beq_eq_false_iff_ne.mpr h]
      · rw [if_neg h2, List.lookup_cons, List.lookup_cons, ih]
        by_cases h : k = a
        · subst h
          simp only [beq_self_eq_true]; rw [if_neg (fun e => h1 e.symm)]
        · rw [beq_eq_false_iff_ne.mpr h]

omit [DecidableEq V] in
theorem mem_mapPut {g : ℕ} {x : List V} {m : List (ℕ × List V)} {p : ℕ × List V}
    (h : p ∈ mapPut g x m) : p = (g, x) ∨ p ∈ m := by
  induction m with
  | nil => exact Or.inl (List.mem_singleton.mp h)
  | cons q m ih =>
    obtain ⟨a, y⟩ := q
    unfold mapPut at h
    by_cases h1 : g = a
    · rw [if_pos h1] at h
      rcases List.mem_cons.mp h with h | h
      · exact Or.inl h
      · exact Or.inr (by simp [h])
    · rw [if_neg h1] at h
      by_cases h2 : g < a
      · rw [if_pos h2] at h
        rcases List.mem_cons.mp h with h | h
        · exact Or.inl h
        · exact Or.inr h
      · rw [if_neg h2] at h
        rcases List.mem_cons.mp h with h | h
        · exact Or.inr (by simp [h])
        · rcases ih h with h | h
          · exact Or.inl h
          · exact Or.inr (by simp [h])

omit [DecidableEq V] in
theorem sorted_mapPut (g : ℕ) (x : List V) {m : List (ℕ × List V)}
    (h : m.Pairwise fun p q => p.1 < q.1) : (mapPut g x m).Pairwise fun p q => p.1 < q.1 := by
  induction m with
  | nil => exact List.pairwise_singleton _ _
  | cons q m ih =>
    obtain ⟨a, y⟩ := q
    have h' := List.pairwise_cons.mp h
    unfold mapPut
    by_cases h1 : g = a
    · rw [if_pos h1]
      exact List.pairwise_cons.mpr ⟨fun p hp => h1 ▸ h'.1 p hp, h'.2⟩
    · rw [if_neg h1]
      by_cases h2 : g < a
      · rw [if_pos h2]
        refine List.pairwise_cons.mpr ⟨fun p hp => ?_, h⟩
        rcases List.mem_cons.mp hp with rfl | hp
        · exact h2
        · exact h2.trans (h'.1 p hp)
      · rw [if_neg h2]
        refine List.pairwise_cons.mpr ⟨fun p hp => ?_, ih h'.2⟩
        rcases mem_mapPut hp with rfl | hp
        · simp only; omega
        · exact h'.1 p hp

omit [DecidableEq V] in
theorem lookup_mapErase (m : List (ℕ × List V)) (g k : ℕ) :
    (mapErase m g).lookup k = if k = g then none else m.lookup k := by
  unfold mapErase
  induction m with
  | nil => simp
  | cons p m ih =>
    obtain ⟨a, y⟩ := p
    by_cases ha : a = g
    · subst ha
      rw [List.filter_cons_of_neg (by simp), ih, List.lookup_cons]
      by_cases h : k = a
      · simp [h]
      · rw [beq_eq_false_iff_ne.mpr h]
    · rw [List.filter_cons_of_pos (by simpa using ha), List.lookup_cons, List.lookup_cons, ih]
      by_cases h : k = a
      · subst h; simp [ha]
      · rw [beq_eq_false_iff_ne.mpr h]

omit [DecidableEq V] in
theorem lookup_iff {m : List (ℕ × List V)} (h : m.Pairwise fun p q => p.1 < q.1) (k : ℕ) (y : List V) :
    m.lookup k = some y ↔ (k, y) ∈ m := by
  induction m with
  | nil => simp
  | cons p m ih =>
    obtain ⟨a, z⟩ := p
    have h' := List.pairwise_cons.mp h
    rw [List.lookup_cons, List.mem_cons, Prod.mk.injEq]
    by_cases hk : k = a
    · subst hk
      simp only [beq_self_eq_true, Option.some.injEq, true_and]
      constructor
      · intro e; exact Or.inl e.symm
      · rintro (e | e)
        · exact e.symm
        · exact absurd (h'.1 _ e) (lt_irrefl k)
    · rw [beq_eq_false_iff_ne.mpr hk]
      simp only [hk, false_and, false_or]
      exact ih h'.2

theorem lookup_hashPut (m : List (V × ℕ)) (e : V) (g : ℕ) (x : V) :
    (hashPut m e g).lookup x = if x = e then some g else m.lookup x := by
  unfold hashPut
  by_cases hm : m.any fun p => decide (p.1 = e)
  · rw [if_pos hm]
    induction m with
    | nil => simp at hm
    | cons p m ih =>
      obtain ⟨a, y⟩ := p
      rw [List.map_cons]
      by_cases ha : a = e
      · subst ha
        simp only [if_true]
        by_cases hx : x = a
        · subst hx; simp
        · rw [List.lookup_cons, List.lookup_cons, beq_eq_false_iff_ne.mpr hx, if_neg hx]
          simp only
          have : ∀ l : List (V × ℕ), (l.map fun p => if p.1 = a then (a, g) else p).lookup x
              = l.lookup x := by
            intro l
            induction l with
            | nil => rfl
            | cons q l ihl =>
              obtain ⟨b, z⟩ := q
              rw [List.map_cons]
              by_cases hb : b = a
              · subst hb
                simp only [if_true]
                rw [List.lookup_cons, List.lookup_cons, beq_eq_false_iff_ne.mpr hx]
                exact ihl
              · simp only [hb, if_false]
                rw [List.lookup_cons, List.lookup_cons, ihl]
          exact this m
      · simp only [ha, if_false]
        have hm' : m.any fun p => decide (p.1 = e) := by simpa [ha] using hm
        rw [List.lookup_cons, List.lookup_cons, ih hm']
        by_cases hx : x = a
        · subst hx; simp [ha]
        · rw [beq_eq_false_iff_ne.mpr hx]
  · rw [if_neg hm]
    induction m with
    | nil =>
      by_cases hx : x = e
      · simp [hx]
      · simp [List.lookup, beq_eq_false_iff_ne.mpr hx, hx]
    | cons p m ih =>
      obtain ⟨a, y⟩ := p
      have hm' : ¬m.any (fun p => decide (p.1 = e)) = true ∧ a ≠ e := by
        simp only [List.any_cons, Bool.or_eq_true, decide_eq_true_eq, not_or] at hm
        exact ⟨hm.2, hm.1⟩
      rw [List.cons_append, List.lookup_cons, List.lookup_cons, ih hm'.1]
      by_cases hx : x = a
      · subst hx; simp [hm'.2]
      · rw [beq_eq_false_iff_ne.mpr hx]

theorem keys_hashPut {m : List (V × ℕ)} (h : (m.map Prod.fst).Nodup) (e : V) (g : ℕ) :
    ((hashPut m e g).map Prod.fst).Nodup := by
  unfold hashPut
  by_cases hm : m.any fun p => decide (p.1 = e)
  · rw [if_pos hm, List.map_map]
    have : (m.map (Prod.fst ∘ fun p => if p.1 = e then (e, g) else p)) = m.map Prod.fst := by
      refine List.map_congr_left fun p _ => ?_
      simp only [Function.comp]
      by_cases hp : p.1 = e
      · rw [if_pos hp, hp]
      · rw [if_neg hp]
    rw [this]; exact h
  · rw [if_neg hm, List.map_append]
    refine List.nodup_append.mpr ⟨h, by simp, ?_⟩
    intro a ha b hb
    simp only [List.map_cons, List.map_nil, List.mem_singleton] at hb
    obtain ⟨p, hp, rfl⟩ := List.mem_map.mp ha
    intro e'
    apply hm
    rw [List.any_eq_true]
    exact ⟨p, hp, by simpa using e'.trans hb⟩

theorem lookup_filter (m : List (V × ℕ)) (e x : V) :
    (m.filter fun p => decide (p.1 ≠ e)).lookup x = if x = e then none else m.lookup x := by
  induction m with
  | nil => simp
  | cons p m ih =>
    obtain ⟨a, y⟩ := p
    by_cases ha : a = e
    · subst ha
      rw [List.filter_cons_of_neg (by simp), ih, List.lookup_cons]
      by_cases h : x = a
      · simp [h]
      · rw [beq_eq_false_iff_ne.mpr h]
    · rw [List.filter_cons_of_pos (by simpa using ha), List.lookup_cons, List.lookup_cons, ih]
      by_cases h : x = a
      · subst h; simp [ha]
      · rw [beq_eq_false_iff_ne.mpr h]

theorem lookup_isSome_iff (m : List (V × ℕ)) (x : V) :
    (∃ g, m.lookup x = some g) ↔ x ∈ m.map Prod.fst := by
  induction m with
  | nil => simp
  | cons p m ih =>
    obtain ⟨a, y⟩ := p
    rw [List.lookup_cons, List.map_cons, List.mem_cons, ← ih]
    by_cases h : x = a
    · subst h; simp
    · rw [beq_eq_false_iff_ne.mpr h]; simp [h]

/-! ## The invariant -/

/-- The two maps agree: the groups have increasing numbers, none is empty, and an element is in the
set of group `g` iff it is mapped to `g`. -/
structure Groups.WF (G : Groups V) : Prop where
  sorted : G.groupToElements.Pairwise fun p q => p.1 < q.1
  sets : ∀ k y, G.groupToElements.lookup k = some y → y ≠ [] ∧ y.Nodup
  keys : (G.elementToGroup.map Prod.fst).Nodup
  agree : ∀ e g, e ∈ mapGet G.groupToElements g ↔ G.elementToGroup.lookup e = some g

theorem groups_empty_wf : (Groups.empty : Groups V).WF :=
  ⟨List.Pairwise.nil, by simp [Groups.empty], by simp [Groups.empty], by simp [Groups.empty, mapGet]⟩

theorem eraseFromGroup_spec {m : List (ℕ × List V)} (hs : m.Pairwise fun p q => p.1 < q.1)
    (hsets : ∀ k y, m.lookup k = some y → y ≠ [] ∧ y.Nodup) (k : ℕ) (e : V) :
    (eraseFromGroup m k e).Pairwise (fun p q => p.1 < q.1) ∧
    (∀ k' y, (eraseFromGroup m k e).lookup k' = some y → y ≠ [] ∧ y.Nodup) ∧
    ∀ k' x, x ∈ mapGet (eraseFromGroup m k e) k' ↔ x ∈ mapGet m k' ∧ ¬(k' = k ∧ x = e) := by
  have hnd : ∀ k', (mapGet m k').Nodup := by
    intro k'
    unfold mapGet
    cases h : m.lookup k' with
    | none => simp
    | some y => exact (hsets _ _ h).2
  have hget : mapGet (mapPut k ((mapGet m k).erase e) m) k = (mapGet m k).erase e := by
    unfold mapGet; rw [lookup_mapPut, if_pos rfl]; rfl
  unfold eraseFromGroup
  simp only [hget]
  by_cases h0 : ((mapGet m k).erase e).length = 0
  · rw [if_pos h0]
    have hnil := List.length_eq_zero_iff.mp h0
    refine ⟨(sorted_mapPut _ _ hs).filter _, ?_, ?_⟩
    · intro k' y h
      rw [lookup_mapErase, lookup_mapPut] at h
      by_cases hk : k' = k
      · rw [if_pos hk] at h; cases h
      · rw [if_neg hk, if_neg hk] at h
        exact hsets k' y h
    · intro k' x
      unfold mapGet
      rw [lookup_mapErase, lookup_mapPut]
      by_cases hk : k' = k
      · subst hk
        simp only [if_true, Option.getD_none, List.not_mem_nil, true_and, false_iff, not_and, not_not]
        intro hx
        by_contra hne
        have : x ∈ (mapGet m k').erase e := (hnd k').mem_erase_iff.mpr ⟨hne, hx⟩
        rw [hnil] at this; simp at this
      · rw [if_neg hk, if_neg hk]; simp [hk]
  · rw [if_neg h0]
    refine ⟨sorted_mapPut _ _ hs, ?_, ?_⟩
    · intro k' y h
      rw [lookup_mapPut] at h
      by_cases hk : k' = k
      · rw [if_pos hk] at h
        cases h
        exact ⟨fun hh => h0 (by rw [hh]; rfl), (hnd k).erase e⟩
      · rw [if_neg hk] at h; exact hsets k' y h
    · intro k' x
      by_cases hk : k' = k
      · subst hk
        rw [hget, (hnd k').mem_erase_iff]
        simp; tauto
      · unfold mapGet
        rw [lookup_mapPut, if_neg hk]; simp [hk]

theorem putInGroup_spec {m : List (ℕ × List V)} (hs : m.Pairwise fun p q => p.1 < q.1)
    (hsets : ∀ k y, m.lookup k = some y → y ≠ [] ∧ y.Nodup) (g : ℕ) (e : V) :
    let m' := mapPut g (insertNew (mapGet m g) e) m
    m'.Pairwise (fun p q => p.1 < q.1) ∧
    (∀ k' y, m'.lookup k' = some y → y ≠ [] ∧ y.Nodup) ∧
    ∀ k' x, x ∈ mapGet m' k' ↔ x ∈ mapGet m k' ∨ (k' = g ∧ x = e) := by
  have hnd : ∀ k', (mapGet m k').Nodup := by
    intro k'
    unfold mapGet
    cases h : m.lookup k' with
    | none => simp
    | some y => exact (hsets _ _ h).2
  refine ⟨sorted_mapPut _ _ hs, ?_, ?_⟩
  · intro k' y h
    rw [lookup_mapPut] at h
    by_cases hk : k' = g
    · rw [if_pos hk] at h
      cases h
      refine ⟨?_, nodup_insertNew (hnd g) e⟩
      exact List.ne_nil_of_mem ((mem_insertNew _ e e).mpr (Or.inr rfl))
    · rw [if_neg hk] at h; exact hsets k' y h
  · intro k' x
    by_cases hk : k' = g
    · subst hk
      unfold mapGet
      rw [lookup_mapPut, if_pos rfl]
      rw [Option.getD_some, mem_insertNew]
      simp
    · unfold mapGet
      rw [lookup_mapPut, if_neg hk]; simp [hk]

/-! ## `AddElementToGroup` -/

theorem groupId_eq {G : Groups V} {e : V} {g : ℕ} :
    G.groupId e = g ↔ G.elementToGroup.lookup e = some g := by
  unfold Groups.groupId
  cases h : G.elementToGroup.lookup e with
  | none => simp
  | some k => simp

theorem groupId_neg {G : Groups V} {e : V} : G.groupId e < 0 ↔ G.elementToGroup.lookup e = none := by
  unfold Groups.groupId
  cases h : G.elementToGroup.lookup e with
  | none => simp
  | some k => simp

theorem groupId_range (G : Groups V) (e : V) : G.groupId e = -1 ∨ 0 ≤ G.groupId e := by
  unfold Groups.groupId
  cases G.elementToGroup.lookup e with
  | none => exact Or.inl rfl
  | some k => exact Or.inr (by simp)

/-- **C69.** Adding an element to a group with a number that is not negative succeeds and changes
the group of this element only; otherwise the call fails and changes nothing. -/
theorem groups_add_spec (G : Groups V) (h : G.WF) (e : V) (group : ℤ) :
    (G.add e group).1.WF ∧ (G.add e group).2 = decide (0 ≤ group) ∧
    ∀ x, (G.add e group).1.groupId x = if x = e ∧ 0 ≤ group then group else G.groupId x := by
  unfold Groups.add
  by_cases hg : group < 0
  · rw [if_pos hg]
    refine ⟨h, by simp; omega, fun x => ?_⟩
    rw [if_neg (by omega)]
  · rw [if_neg hg]
    have hg' : (0 : ℤ) ≤ group := by omega
    have hgn : ((group.toNat : ℕ) : ℤ) = group := Int.toNat_of_nonneg hg'
    simp only
    have idx : ∀ (H : List (V × ℕ)) (M : List (ℕ × List V)) x,
        H = hashPut G.elementToGroup e group.toNat →
        (Groups.mk M H).groupId x = if x = e ∧ 0 ≤ group then group else G.groupId x := by
      rintro H M x rfl
      unfold Groups.groupId
      simp only [lookup_hashPut]
      by_cases hx : x = e
      · rw [if_pos hx, if_pos ⟨hx, hg'⟩]; exact hgn
      · rw [if_neg hx, if_neg (fun hh => hx hh.1)]
    cases hl : G.elementToGroup.lookup e with
    | none =>
      simp only
      obtain ⟨s1, s2, s3⟩ := putInGroup_spec h.sorted h.sets group.toNat e
      refine ⟨⟨s1, s2, keys_hashPut h.keys _ _, ?_⟩, by simpa using hg', fun x => idx _ _ x rfl⟩
      intro x g
      simp only
      rw [s3, h.agree, lookup_hashPut]
      by_cases hx : x = e
      · subst hx
        rw [hl]; simp [eq_comm]
      · simp [hx]
    | some k =>
      simp only
      by_cases hk : k = group.toNat
      · rw [if_pos hk]
        refine ⟨h, by simpa using hg', fun x => ?_⟩
        by_cases hx : x = e
        · rw [if_pos ⟨hx, hg'⟩, hx, groupId_eq.mpr hl, hk, hgn]
        · rw [if_neg (fun hh => hx hh.1)]
      · rw [if_neg hk]
        obtain ⟨t1, t2, t3⟩ := eraseFromGroup_spec h.sorted h.sets k e
        obtain ⟨s1, s2, s3⟩ := putInGroup_spec t1 t2 group.toNat e
        refine ⟨⟨s1, s2, keys_hashPut h.keys _ _, ?_⟩, by simpa using hg', fun x => idx _ _ x rfl⟩
        intro x g
        simp only
        rw [s3, t3, h.agree, lookup_hashPut]
        by_cases hx : x = e
        · subst hx
          rw [hl, if_pos rfl]
          simp only [Option.some.injEq, and_true]
          constructor
          · rintro (⟨h1, h2⟩ | h1)
            · exact absurd h1.symm h2
            · exact h1.symm
          · intro h1; exact Or.inr h1.symm
        · simp [hx]

/-- **C69.** Removing an element reports whether it was in a group; afterwards it is in none, and the
groups of the others have not changed. -/
theorem groups_remove_spec (G : Groups V) (h : G.WF) (e : V) :
    (G.remove e).1.WF ∧ (G.remove e).2 = decide (0 ≤ G.groupId e) ∧
    ∀ x, (G.remove e).1.groupId x = if x = e then -1 else G.groupId x := by
  unfold Groups.remove
  by_cases hg : G.groupId e < 0
  · rw [if_pos hg]
    refine ⟨h, by simp; omega, fun x => ?_⟩
    by_cases hx : x = e
    · rw [if_pos hx, hx]
      have := groupId_range G e
      simp only; omega
    · rw [if_neg hx]
  · rw [if_neg hg]
    obtain ⟨t1, t2, t3⟩ := eraseFromGroup_spec h.sorted h.sets (G.groupId e).toNat e
    have hl : G.elementToGroup.lookup e = some (G.groupId e).toNat := by
      rw [← groupId_eq]; omega
    refine ⟨⟨t1, t2, ?_, ?_⟩, by simp; omega, fun x => ?_⟩
    · exact h.keys.sublist (List.filter_sublist.map _)
    · intro x g
      simp only
      rw [t3, h.agree, lookup_filter]
      by_cases hx : x = e
      · subst hx
        rw [hl]
        simp only [Option.some.injEq, if_true, reduceCtorEq, iff_false, not_and, not_not, and_true]
        exact fun e' => e'.symm
      · simp [hx]
    · unfold Groups.groupId
      simp only [lookup_filter]
      by_cases hx : x = e
      · rw [if_pos hx, if_pos hx]
      · rw [if_neg hx, if_neg hx]

/-- **C69.** Removing many elements removes exactly these, and reports how many different ones were
in a group. -/
theorem groups_removeAll_spec (G : Groups V) (h : G.WF) (l : List V) :
    (G.removeAll l).1.WF ∧
    (∀ x, (G.removeAll l).1.groupId x = if x ∈ l then -1 else G.groupId x) ∧
    (G.removeAll l).2 = (l.dedup.filter fun x => decide (0 ≤ G.groupId x)).length := by
  have main : ∀ (l : List V) (G : Groups V) (n : ℕ), G.WF →
      let r := l.foldl (fun (s : Groups V × ℕ) e =>
        let r := s.1.remove e
        (r.1, s.2 + if r.2 then 1 else 0)) (G, n)
      r.1.WF ∧ (∀ x, r.1.groupId x = if x ∈ l then -1 else G.groupId x) ∧
        r.2 = n + (l.dedup.filter fun x => decide (0 ≤ G.groupId x)).length := by
    intro l
    induction l with
    | nil => intro G n h; exact ⟨h, by simp, by simp⟩
    | cons a l ih =>
      intro G n h
      obtain ⟨r1, r2, r3⟩ := groups_remove_spec G h a
      obtain ⟨i1, i2, i3⟩ := ih (G.remove a).1 (n + if (G.remove a).2 then 1 else 0) r1
      rw [List.foldl_cons]
      refine ⟨i1, fun x => ?_, ?_⟩
      · rw [i2, r3]
        by_cases hx : x ∈ l
        · simp [hx]
        · by_cases hxa : x = a
          · simp [hxa]
          · simp [hx, hxa]
      · refine i3.trans ?_
        have hcount : (l.dedup.filter fun x => decide (0 ≤ (G.remove a).1.groupId x))
            = (l.dedup.filter fun x => decide (0 ≤ G.groupId x)).filter fun x => decide (x ≠ a) := by
          rw [List.filter_filter]
          refine List.filter_congr fun x _ => ?_
          rw [r3]
          by_cases hx : x = a
          · simp [hx]
          · simp [hx]
        rw [hcount, r2]
        by_cases hal : a ∈ l
        · rw [List.dedup_cons_of_mem hal]
          by_cases hG : 0 ≤ G.groupId a
          · have hmem : a ∈ l.dedup.filter fun x => decide (0 ≤ G.groupId x) :=
              List.mem_filter.mpr ⟨List.mem_dedup.mpr hal, by simpa using hG⟩
            have hnd : (l.dedup.filter fun x => decide (0 ≤ G.groupId x)).Nodup :=
              (List.nodup_dedup l).filter _
            have herase : (l.dedup.filter fun x => decide (0 ≤ G.groupId x)).filter
                (fun x => decide (x ≠ a)) = (l.dedup.filter fun x => decide (0 ≤ G.groupId x)).erase a := by
              rw [hnd.erase_eq_filter]
              refine List.filter_congr fun x _ => ?_
              by_cases hx : x = a <;> simp [hx]
            rw [herase, List.length_erase_of_mem hmem]
            have := List.length_pos_of_mem hmem
            simp only [hG, decide_true, if_true]
            omega
          · have : (l.dedup.filter fun x => decide (0 ≤ G.groupId x)).filter (fun x => decide (x ≠ a))
                = l.dedup.filter fun x => decide (0 ≤ G.groupId x) := by
              refine List.filter_eq_self.mpr fun x hx => ?_
              have := (List.mem_filter.mp hx).2
              by_cases hxa : x = a
              · subst hxa; simp at this; omega
              · simp [hxa]
            rw [this]
            simp [hG]
        · rw [List.dedup_cons_of_notMem hal, List.filter_cons]
          have : (l.dedup.filter fun x => decide (0 ≤ G.groupId x)).filter (fun x => decide (x ≠ a))
              = l.dedup.filter fun x => decide (0 ≤ G.groupId x) := by
            refine List.filter_eq_self.mpr fun x hx => ?_
            have := List.mem_dedup.mp (List.mem_filter.mp hx).1
            by_cases hxa : x = a
            · subst hxa; exact absurd this hal
            · simp [hxa]
          rw [this]
          by_cases hG : 0 ≤ G.groupId a
          · simp [hG]; omega
          · simp [hG]
  unfold Groups.removeAll
  by_cases h0 : G.elementToGroup.length = 0 ∨ l.length = 0
  · rw [if_pos h0]
    rcases h0 with h0 | h0
    · have hnil := List.length_eq_zero_iff.mp h0
      have hid : ∀ x, G.groupId x = -1 := by
        intro x; unfold Groups.groupId; rw [hnil]; rfl
      refine ⟨h, fun x => by simp [hid], ?_⟩
      symm
      rw [List.length_eq_zero_iff, List.filter_eq_nil_iff]
      intro x _
      simp [hid]
    · have := List.length_eq_zero_iff.mp h0
      subst this
      exact ⟨h, by simp, by simp⟩
  · rw [if_neg h0]
    have := main l G 0 h
    rw [Nat.zero_add] at this
    exact this

/-! ## `Reverse` -/

omit [DecidableEq V] in
theorem mapPut_last {m : List (ℕ × List V)} {g : ℕ} (x : List V) (h : ∀ p ∈ m, p.1 < g) :
    mapPut g x m = m ++ [(g, x)] := by
  induction m with
  | nil => rfl
  | cons p m ih =>
    obtain ⟨a, y⟩ := p
    have ha : a < g := h (a, y) (by simp)
    unfold mapPut
    rw [if_neg (by omega), if_neg (by omega), ih (fun p hp => h p (by simp [hp]))]
    rfl

theorem foldl_hashPut (g : ℕ) (l : List V) (H : List (V × ℕ)) :
    (∀ x, (l.foldl (fun h e => hashPut h e g) H).lookup x = if x ∈ l then some g else H.lookup x) ∧
    ((H.map Prod.fst).Nodup → ((l.foldl (fun h e => hashPut h e g) H).map Prod.fst).Nodup) := by
  induction l generalizing H with
  | nil => simp
  | cons a l ih =>
    obtain ⟨h1, h2⟩ := ih (hashPut H a g)
    rw [List.foldl_cons]
    refine ⟨fun x => ?_, fun h => h2 (keys_hashPut h _ _)⟩
    rw [h1, lookup_hashPut]
    by_cases hx : x ∈ l
    · simp [hx]
    · by_cases hxa : x = a
      · simp [hxa]
      · simp [hx, hxa]

theorem reverse_loop (rest : List (ℕ × List V)) (M : List (ℕ × List V)) (H : List (V × ℕ)) (n : ℕ)
    (hM : ∀ p ∈ M, p.1 < n) (hdisj : rest.Pairwise fun p q => ∀ e ∈ p.2, e ∉ q.2) :
    let s := rest.foldl (fun (s : List (ℕ × List V) × List (V × ℕ) × ℕ) p =>
      (mapPut s.2.2 p.2 s.1, p.2.foldl (fun h e => hashPut h e s.2.2) s.2.1, s.2.2 + 1)) (M, H, n)
    s.1 = M ++ rest.mapIdx (fun i p => (n + i, p.2)) ∧
    (∀ e, (∀ p ∈ rest, e ∉ p.2) → s.2.1.lookup e = H.lookup e) ∧
    (∀ e i, (hi : i < rest.length) → e ∈ rest[i].2 → s.2.1.lookup e = some (n + i)) ∧
    ((H.map Prod.fst).Nodup → (s.2.1.map Prod.fst).Nodup) := by
  induction rest generalizing M H n with
  | nil => simp
  | cons p rest ih =>
    have hd := List.pairwise_cons.mp hdisj
    rw [List.foldl_cons]
    have hM' : ∀ q ∈ mapPut n p.2 M, q.1 < n + 1 := by
      intro q hq
      rcases mem_mapPut hq with rfl | hq
      · simp
      · have := hM q hq; omega
    obtain ⟨i1, i2, i3, i4⟩ := ih (mapPut n p.2 M) (p.2.foldl (fun h e => hashPut h e n) H) (n + 1) hM' hd.2
    obtain ⟨f1, f2⟩ := foldl_hashPut n p.2 H
    refine ⟨?_, ?_, ?_, fun h => i4 (f2 h)⟩
    · refine i1.trans ?_
      rw [mapPut_last p.2 hM, List.append_assoc, List.mapIdx_cons, List.singleton_append]
      congr 2
      refine List.mapIdx_eq_mapIdx_iff.mpr fun i hi => ?_
      simp only [Nat.add_assoc, Nat.add_comm 1 i]
    · intro e he
      rw [i2 e (fun q hq => he q (by simp [hq])), f1, if_neg (he p (by simp))]
    · intro e i hi he
      cases i with
      | zero =>
        simp only [List.getElem_cons_zero] at he
        rw [i2 e (fun q hq => hd.1 q hq e he), f1, if_pos he]
        rfl
      | succ i =>
        simp only [List.getElem_cons_succ] at he
        have := i3 e i (by simpa using hi) he
        rw [this]
        congr 1; omega

/-- The positions of the groups, from the last to the first. -/
theorem reverse_spec (G : Groups V) (h : G.WF) (L : List (ℕ × List V))
    (hL : G.groupToElements.reverse = L) :
    G.reverse.WF ∧ (∀ e i, (hi : i < L.length) → e ∈ (L[i]).2 →
      G.groupId e = (L[i]).1 ∧ G.reverse.groupId e = ((L[0]'(by omega)).1 + i : ℕ)) ∧
    ∀ e, G.groupId e < 0 → G.reverse.groupId e < 0 := by
  have hpairs : ∀ p ∈ G.groupToElements, mapGet G.groupToElements p.1 = p.2 := by
    intro p hp
    unfold mapGet
    rw [(lookup_iff h.sorted p.1 p.2).mpr hp]; rfl
  have hdisj : G.groupToElements.reverse.Pairwise fun p q => ∀ e ∈ p.2, e ∉ q.2 := by
    rw [List.pairwise_reverse]
    refine List.Pairwise.imp_of_mem ?_ h.sorted
    intro p q hp hq hlt e he he'
    rw [← hpairs q hq, h.agree] at he
    rw [← hpairs p hp, h.agree] at he'
    rw [he] at he'
    have := Option.some.inj he'
    omega
  have hold : ∀ e i, (hi : i < G.groupToElements.reverse.length) →
      e ∈ (G.groupToElements.reverse[i]).2 →
      G.elementToGroup.lookup e = some (G.groupToElements.reverse[i]).1 := by
    intro e i hi he
    have hm : G.groupToElements.reverse[i] ∈ G.groupToElements := by
      rw [← List.mem_reverse]; exact List.getElem_mem hi
    rw [← h.agree, hpairs _ hm]; exact he
  have hcover : ∀ e g, G.elementToGroup.lookup e = some g →
      ∃ i, ∃ hi : i < G.groupToElements.reverse.length, e ∈ (G.groupToElements.reverse[i]).2 := by
    intro e g hg
    rw [← h.agree] at hg
    unfold mapGet at hg
    cases hl : G.groupToElements.lookup g with
    | none => rw [hl] at hg; simp at hg
    | some y =>
      rw [hl] at hg
      have := (lookup_iff h.sorted g y).mp hl
      rw [← List.mem_reverse] at this
      obtain ⟨i, hi, he⟩ := List.getElem_of_mem this
      exact ⟨i, hi, by rw [he]; exact hg⟩
  cases L with
  | nil =>
    have : G.reverse = G := by unfold Groups.reverse; rw [hL]
    rw [this]
    exact ⟨h, fun e i hi => by simp at hi, fun _ h => h⟩
  | cons top rest =>
    have hrev := hL
    rw [hrev] at hdisj
    have hd := List.pairwise_cons.mp hdisj
    have hold' : ∀ e i, (hi : i < (top :: rest).length) → e ∈ ((top :: rest)[i]).2 →
        G.elementToGroup.lookup e = some ((top :: rest)[i]).1 := by
      intro e i hi he
      have := hold e i (by rw [hrev]; exact hi)
      simp only [hrev] at this
      exact this he
    have hcover' : ∀ e g, G.elementToGroup.lookup e = some g →
        ∃ i, ∃ hi : i < (top :: rest).length, e ∈ ((top :: rest)[i]).2 := by
      intro e g hg
      obtain ⟨i, hi, he⟩ := hcover e g hg
      simp only [hrev] at he
      exact ⟨i, by rw [← hrev]; exact hi, he⟩
    have hM : ∀ p ∈ mapPut top.1 top.2 ([] : List (ℕ × List V)), p.1 < top.1 + 1 := by
      intro p hp
      simp only [mapPut, List.mem_singleton] at hp
      rw [hp]; simp
    obtain ⟨s1, s2, s3, s4⟩ := reverse_loop rest (mapPut top.1 top.2 []) G.elementToGroup (top.1 + 1) hM hd.2
    set s := rest.foldl (fun (s : List (ℕ × List V) × List (V × ℕ) × ℕ) p =>
      (mapPut s.2.2 p.2 s.1, p.2.foldl (fun h e => hashPut h e s.2.2) s.2.1, s.2.2 + 1))
      (mapPut top.1 top.2 [], G.elementToGroup, top.1 + 1) with hs
    have hR : G.reverse = ⟨s.1, s.2.1⟩ := by
      unfold Groups.reverse; rw [hrev]
    have hmap : s.1 = (top :: rest).mapIdx fun i p => (top.1 + i, p.2) := by
      rw [s1, List.mapIdx_cons]
      simp only [mapPut, Nat.add_zero]
      rw [List.singleton_append]
      congr 1
      refine List.mapIdx_eq_mapIdx_iff.mpr fun i hi => ?_
      simp only [Nat.add_assoc, Nat.add_comm 1 i]
    have hsorted : s.1.Pairwise fun p q => p.1 < q.1 := by
      rw [hmap, List.pairwise_iff_getElem]
      intro i j hi hj hij
      simp only [List.getElem_mapIdx]
      omega
    have hnew : ∀ e i, (hi : i < (top :: rest).length) → e ∈ ((top :: rest)[i]).2 →
        s.2.1.lookup e = some (top.1 + i) := by
      intro e i hi he
      cases i with
      | zero =>
        simp only [List.getElem_cons_zero] at he
        rw [s2 e (fun p hp => hd.1 p hp e he)]
        exact hold' e 0 hi he
      | succ i =>
        simp only [List.getElem_cons_succ] at he
        rw [s3 e i (by simpa using hi) he]
        congr 1; omega
    have hout : ∀ e, G.elementToGroup.lookup e = none → s.2.1.lookup e = none := by
      intro e he
      rw [s2 e ?_, he]
      intro p hp hep
      obtain ⟨i, hi, rfl⟩ := List.getElem_of_mem hp
      have := hold' e (i + 1) (by simpa using hi) (by simpa using hep)
      rw [he] at this; cases this
    have hget : ∀ e g, e ∈ mapGet s.1 g ↔
        ∃ i, ∃ hi : i < (top :: rest).length, g = top.1 + i ∧ e ∈ ((top :: rest)[i]).2 := by
      intro e g
      unfold mapGet
      cases hl : s.1.lookup g with
      | none =>
        simp only [Option.getD_none, List.not_mem_nil, false_iff]
        rintro ⟨i, hi, rfl, he⟩
        have : (top.1 + i, ((top :: rest)[i]).2) ∈ s.1 := by
          rw [hmap, List.mem_mapIdx]
          exact ⟨i, hi, rfl⟩
        rw [(lookup_iff hsorted _ _).mpr this] at hl
        cases hl
      | some y =>
        have hy := (lookup_iff hsorted _ _).mp hl
        rw [hmap, List.mem_mapIdx] at hy
        obtain ⟨i, hi, hiy⟩ := hy
        simp only [Prod.mk.injEq] at hiy
        simp only [Option.getD_some]
        constructor
        · intro he
          exact ⟨i, hi, hiy.1.symm, by rw [hiy.2]; exact he⟩
        · rintro ⟨j, hj, hgj, he⟩
          have : j = i := by omega
          subst this
          rw [← hiy.2]; exact he
    rw [hR]
    refine ⟨⟨hsorted, ?_, s4 h.keys, ?_⟩, ?_, fun e he => groupId_neg.mpr (hout e (groupId_neg.mp he))⟩
    · intro k y hy
      have hy' := (lookup_iff hsorted _ _).mp hy
      rw [hmap, List.mem_mapIdx] at hy'
      obtain ⟨i, hi, hiy⟩ := hy'
      simp only [Prod.mk.injEq] at hiy
      have hm : (top :: rest)[i] ∈ G.groupToElements := by
        rw [← List.mem_reverse, hrev]; exact List.getElem_mem hi
      have := h.sets _ _ ((lookup_iff h.sorted _ _).mpr hm)
      have e2 : ((top :: rest).get ⟨i, hi⟩).2 = y := hiy.2
      rw [e2] at this; exact this
    · intro e g
      simp only
      rw [hget]
      constructor
      · rintro ⟨i, hi, rfl, he⟩
        exact hnew e i hi he
      · intro he
        cases hl : G.elementToGroup.lookup e with
        | none => rw [hout e hl] at he; cases he
        | some k =>
          obtain ⟨i, hi, hei⟩ := hcover' e k hl
          rw [hnew e i hi hei] at he
          exact ⟨i, hi, (Option.some.inj he).symm, hei⟩
    · intro e i hi he
      refine ⟨groupId_eq.mpr (hold' e i hi he), ?_⟩
      rw [groupId_eq]
      simp only
      rw [hnew e i hi he]; rfl

theorem reverse_member (G : Groups V) (h : G.WF) (e : V) :
    (∃ i, ∃ hi : i < G.groupToElements.reverse.length, e ∈ (G.groupToElements.reverse[i]).2) ↔
      0 ≤ G.groupId e := by
  constructor
  · rintro ⟨i, hi, he⟩
    rw [((reverse_spec G h _ rfl).2.1 e i hi he).1]
    omega
  · intro h0
    have hl : G.elementToGroup.lookup e = some (G.groupId e).toNat := by
      rw [← groupId_eq]; omega
    rw [← h.agree] at hl
    unfold mapGet at hl
    cases hl' : G.groupToElements.lookup (G.groupId e).toNat with
    | none => rw [hl'] at hl; simp at hl
    | some y =>
      rw [hl'] at hl
      have := (lookup_iff h.sorted _ y).mp hl'
      rw [← List.mem_reverse] at this
      obtain ⟨i, hi, he⟩ := List.getElem_of_mem this
      exact ⟨i, hi, by rw [he]; exact hl⟩

/-- **C69.** `Reverse` keeps the elements and the groups, and reverses the order of the groups. -/
theorem groups_reverse_spec (G : Groups V) (h : G.WF) :
    G.reverse.WF ∧
    (∀ e, 0 ≤ G.reverse.groupId e ↔ 0 ≤ G.groupId e) ∧
    (∀ a b, 0 ≤ G.groupId a → 0 ≤ G.groupId b →
      (G.reverse.groupId a < G.reverse.groupId b ↔ G.groupId b < G.groupId a)) := by
  have hspec := reverse_spec G h _ rfl
  have hdec : ∀ i j, (hi : i < G.groupToElements.reverse.length) →
      (hj : j < G.groupToElements.reverse.length) → i < j →
      (G.groupToElements.reverse[j]).1 < (G.groupToElements.reverse[i]).1 := by
    have := List.pairwise_reverse.mpr h.sorted
    intro i j hi hj hij
    exact List.pairwise_iff_getElem.mp this i j hi hj hij
  have hno := hspec.2.2
  refine ⟨hspec.1, ?_, ?_⟩
  · intro e
    constructor
    · intro h0
      by_contra hc
      have := hno e (by omega)
      omega
    · intro h0
      obtain ⟨i, hi, he⟩ := (reverse_member G h e).mpr h0
      rw [(hspec.2.1 e i hi he).2]
      omega
  · intro a b ha hb
    obtain ⟨i, hi, hai⟩ := (reverse_member G h a).mpr ha
    obtain ⟨j, hj, hbj⟩ := (reverse_member G h b).mpr hb
    rw [(hspec.2.1 a i hi hai).1, (hspec.2.1 a i hi hai).2, (hspec.2.1 b j hj hbj).1, (hspec.2.1 b j hj hbj).2]
    rcases lt_trichotomy i j with hij | hij | hij
    · have := hdec i j hi hj hij
      constructor <;> intro <;> omega
    · subst hij
      constructor <;> intro <;> omega
    · have := hdec j i hj hi hij
      constructor <;> intro <;> omega

/-! ## Histories -/

/-- A call that changes an ordering. -/
inductive GroupsOp (V : Type)
  | add (e : V) (group : ℤ)
  | remove (e : V)
  | removeAll (l : List V)
  | reverse
  | clear

/-- The ordering after a call. -/
def GroupsOp.run (G : Groups V) : GroupsOp V → Groups V
  | .add e g => (G.add e g).1
  | .remove e => (G.remove e).1
  | .removeAll l => (G.removeAll l).1
  | .reverse => G.reverse
  | .clear => .empty

/-- **C69.** After every sequence of calls the two maps agree. -/
theorem groups_history_wf (ops : List (GroupsOp V)) : (ops.foldl GroupsOp.run .empty).WF := by
  induction ops using List.reverseRecOn with
  | nil => exact groups_empty_wf
  | append_singleton ops op ih =>
    rw [List.foldl_append, List.foldl_cons, List.foldl_nil]
    cases op with
    | add e g => exact (groups_add_spec _ ih e g).1
    | remove e => exact (groups_remove_spec _ ih e).1
    | removeAll l => exact (groups_removeAll_spec _ ih l).1
    | reverse => exact (groups_reverse_spec _ ih).1
    | clear => exact groups_empty_wf

/-! ## Queries -/

/-- **C69.** The queries answer according to the groups of the elements: membership, the number of
elements, the number of elements of a group, the used group numbers in increasing order with their
count, the least of them, and the sizes of the groups in this order. -/
theorem groups_queries (G : Groups V) (h : G.WF) :
    (∀ e, G.isMember e = true ↔ 0 ≤ G.groupId e) ∧
    (∃ l : List V, l.Nodup ∧ (∀ e, e ∈ l ↔ 0 ≤ G.groupId e) ∧ G.numElements = l.length) ∧
    (∀ g : ℤ, 0 ≤ g → ∃ l : List V, l.Nodup ∧ (∀ e, e ∈ l ↔ G.groupId e = g) ∧
      G.groupSize g = l.length) ∧
    (∀ g : ℤ, g < 0 → G.groupSize g = 0) ∧
    (∃ l : List ℕ, l.Pairwise (· < ·) ∧ (∀ g : ℕ, g ∈ l ↔ ∃ e, G.groupId e = g) ∧
      G.numGroups = l.length ∧ G.minNonZeroGroup = l.head? ∧
      orderingToGroupSizes (some G) = l.map fun g : ℕ => G.groupSize (g : ℤ)) := by
  refine ⟨?_, ?_, ?_, ?_, ?_⟩
  · intro e
    unfold Groups.isMember Groups.groupId
    cases G.elementToGroup.lookup e <;> simp
  · refine ⟨G.elementToGroup.map Prod.fst, h.keys, ?_, by simp [Groups.numElements]⟩
    intro e
    rw [← lookup_isSome_iff]
    constructor
    · rintro ⟨g, hg⟩; rw [groupId_eq.mpr hg]; omega
    · intro h0; exact ⟨(G.groupId e).toNat, by rw [← groupId_eq]; omega⟩
  · intro g hg
    refine ⟨mapGet G.groupToElements g.toNat, ?_, ?_, ?_⟩
    · unfold mapGet
      cases hl : G.groupToElements.lookup g.toNat with
      | none => simp
      | some y => exact (h.sets _ _ hl).2
    · intro e
      rw [h.agree, ← groupId_eq, Int.toNat_of_nonneg hg]
    · unfold Groups.groupSize; rw [if_neg (by omega)]
  · intro g hg
    unfold Groups.groupSize; rw [if_pos hg]
  · refine ⟨G.groupToElements.map Prod.fst, ?_, ?_, by simp [Groups.numGroups], ?_, ?_⟩
    · rw [List.pairwise_map]; exact h.sorted
    · intro g
      rw [List.mem_map]
      constructor
      · rintro ⟨p, hp, rfl⟩
        have hl := (lookup_iff h.sorted p.1 p.2).mpr hp
        obtain ⟨e, he⟩ := List.exists_mem_of_ne_nil _ (h.sets _ _ hl).1
        refine ⟨e, ?_⟩
        rw [groupId_eq, ← h.agree]
        unfold mapGet; rw [hl]; exact he
      · rintro ⟨e, he⟩
        rw [groupId_eq, ← h.agree] at he
        unfold mapGet at he
        cases hl : G.groupToElements.lookup g with
        | none => rw [hl] at he; simp at he
        | some y => exact ⟨(g, y), (lookup_iff h.sorted g y).mp hl, rfl⟩
    · unfold Groups.minNonZeroGroup
      cases G.groupToElements <;> rfl
    · unfold orderingToGroupSizes
      simp only
      rw [List.map_map]
      refine List.map_congr_left fun p hp => ?_
      unfold Groups.groupSize mapGet
      simp only [Function.comp, Int.toNat_natCast]
      rw [if_neg (by omega), (lookup_iff h.sorted p.1 p.2).mpr hp]
      rfl

/-! ## A concrete case -/

/-- Elements `1, 2, 3, 4` in the groups `0, 5, 0, 2`, then `2` moved and `4` removed. -/
def exGroups : Groups ℕ :=
  [GroupsOp.add 1 0, .add 2 5, .add 3 0, .add 4 2, .add 2 1, .remove 4, .add 9 (-3)].foldl GroupsOp.run .empty

example : exGroups.groupToElements = [(0, [1, 3]), (1, [2])] := by decide +kernel

example : exGroups.reverse.groupToElements = [(1, [2]), (2, [1, 3])] := by decide +kernel

example : exGroups.WF := groups_history_wf _

end Ceres.Graph
