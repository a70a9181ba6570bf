import Verif.OrderedGroups.Lemmas
import Mathlib.Data.List.Perm.Basic
/-!
# C25: `OrderedGroups` keeps each element in one group

All statements are about `run ops`, the object after an arbitrary history, and the public
methods.  `(run ops).g2e` is the public accessor `group_to_elements()`.
-/
namespace Ceres.OrderedGroups
variable {T : Type} [DecidableEq T]

/-- **C25, consistency.**  In every reachable object each element is in exactly the group
that `GroupId` names or in none; groups are listed in increasing order, non-empty and without
repetition; all sizes are the numbers of elements they claim to be. -/
theorem groups_consistent (ops : List (Op T)) :
    (∀ e, (isMember (run ops) e = true ↔ 0 ≤ groupId (run ops) e) ∧
          (isMember (run ops) e = false ↔ groupId (run ops) e = -1)) ∧
    (∀ e g, 0 ≤ g → (groupId (run ops) e = g ↔ ∃ t, (g, t) ∈ (run ops).g2e ∧ e ∈ t)) ∧
    ((run ops).g2e.map (·.1)).Pairwise (· < ·) ∧
    (∀ p ∈ (run ops).g2e, p.2 ≠ [] ∧ p.2.Nodup ∧ 0 ≤ p.1) ∧
    (∀ g (l : List T), 0 ≤ g → l.Nodup → (∀ e, e ∈ l ↔ groupId (run ops) e = g) →
      groupSize (run ops) g = l.length) ∧
    (∀ l : List T, l.Nodup → (∀ e, e ∈ l ↔ isMember (run ops) e = true) →
      numElements (run ops) = l.length) ∧
    numElements (run ops) = ((run ops).g2e.map (fun p => p.2.length)).sum ∧
    (∀ m, minNonZeroGroup (run ops) = some m ↔
      (∃ e, groupId (run ops) e = m ∧ 0 ≤ m) ∧
        ∀ e, 0 ≤ groupId (run ops) e → m ≤ groupId (run ops) e) ∧
    (minNonZeroGroup (run ops) = none ↔ numGroups (run ops) = 0) := by
  have h := inv_run ops
  generalize run ops = s at h
  have hmemg : ∀ e g, 0 ≤ g → (groupId s e = g ↔ ∃ t, (g, t) ∈ s.g2e ∧ e ∈ t) := by
    intro e g hg
    rw [groupId_nonneg_iff h e g hg, h.agree]
  have hmember : ∀ e, (isMember s e = true ↔ 0 ≤ groupId s e) ∧
          (isMember s e = false ↔ groupId s e = -1) := by
    intro e
    unfold isMember groupId
    cases hf : eFind s.e2g e with
    | none => simp
    | some g =>
      obtain ⟨t, ht, _⟩ := (h.agree e g).1 hf
      have := (h.sets _ ht).2.2
      simp only at this
      simp only [Option.isSome_some, true_iff, Bool.true_eq_false, false_iff]
      omega
  have hkeys : ∀ e, e ∈ ekeys s.e2g ↔ isMember s e = true := by
    intro e; rw [← eFind_isSome]; rfl
  have hlen : ∀ l : List T, l.Nodup → (∀ e, e ∈ l ↔ isMember s e = true) →
      numElements s = l.length := by
    intro l hl hm
    have : (ekeys s.e2g).Perm l := by
      rw [List.perm_ext_iff_of_nodup h.keys hl]
      intro e; rw [hkeys, hm]
    have := this.length_eq
    unfold ekeys at this
    rw [List.length_map] at this
    exact this
  refine ⟨hmember, hmemg, List.pairwise_map.2 h.sorted, h.sets, ?_, hlen, ?_, ?_, ?_⟩
  · intro g l hg hl hm
    unfold groupSize
    cases hf : s.g2e.find? (fun x => x.1 == g) with
    | none =>
      rw [List.find?_eq_none] at hf
      cases l with
      | nil => rfl
      | cons e l =>
        obtain ⟨t, ht, _⟩ := (hmemg e g hg).1 ((hm e).1 (by simp))
        exact absurd (hf _ ht) (by simp)
    | some p =>
      have hp := List.mem_of_find?_eq_some hf
      have hpg : p.1 = g := by simpa using List.find?_some hf
      obtain ⟨k, t⟩ := p
      simp only at hpg
      subst hpg
      simp only
      apply List.Perm.length_eq
      rw [List.perm_ext_iff_of_nodup (h.sets _ hp).2.1 hl]
      intro e
      rw [hm, hmemg e k hg]
      constructor
      · intro he; exact ⟨t, hp, he⟩
      · rintro ⟨t', ht', he⟩
        rwa [uniq h.sorted hp ht']
  · have hnd : (s.g2e.flatMap (·.2)).Nodup := by
      rw [List.nodup_flatMap]
      refine ⟨fun p hp => (h.sets p hp).2.1, ?_⟩
      refine List.Pairwise.imp_of_mem ?_ h.sorted
      intro a b ha hb hlt
      show List.Disjoint a.2 b.2
      intro x hxa hxb
      have := h.disjoint (g := a.1) (t := a.2) (k := b.1) (t' := b.2) ha hb hxa hxb
      omega
    rw [hlen _ hnd, List.length_flatMap]
    intro e
    rw [List.mem_flatMap, ← hkeys, ← eFind_isSome]
    constructor
    · rintro ⟨p, hp, he⟩
      rw [(h.agree e p.1).2 ⟨p.2, hp, he⟩]; rfl
    · intro he
      cases hf : eFind s.e2g e with
      | none => simp [hf] at he
      | some g =>
        obtain ⟨t, ht, hx⟩ := (h.agree e g).1 hf
        exact ⟨_, ht, hx⟩
  · intro m
    unfold minNonZeroGroup
    cases hg : s.g2e with
    | nil =>
      simp only [List.head?_nil, Option.map_none, reduceCtorEq, false_iff]
      rintro ⟨⟨e, he, hm⟩, _⟩
      obtain ⟨t, ht, _⟩ := (hmemg e m hm).1 he
      simp [hg] at ht
    | cons p rest =>
      obtain ⟨g, t⟩ := p
      have hin : (g, t) ∈ s.g2e := by simp [hg]
      have hs := h.sorted
      rw [hg] at hs
      have hle : ∀ q ∈ s.g2e, g ≤ q.1 := by
        intro q hq
        rw [hg] at hq
        rcases List.mem_cons.1 hq with rfl | hq
        · exact Int.le_refl _
        · have := (List.pairwise_cons.1 hs).1 q hq
          simp only at this; omega
      have hset := h.sets _ hin
      simp only at hset
      obtain ⟨x, hx⟩ := List.exists_mem_of_ne_nil _ hset.1
      have hgx : groupId s x = g := (hmemg x g hset.2.2).2 ⟨t, hin, hx⟩
      have hmin : ∀ e, 0 ≤ groupId s e → g ≤ groupId s e := by
        intro e he
        obtain ⟨t', ht', _⟩ := (hmemg e _ he).1 rfl
        exact hle _ ht'
      simp only [List.head?_cons, Option.map_some, Option.some.injEq]
      constructor
      · rintro rfl
        exact ⟨⟨x, hgx, hset.2.2⟩, hmin⟩
      · rintro ⟨⟨e, he, hm⟩, hall⟩
        have h1 := hmin e (by omega)
        have h2 := hall x (by omega)
        omega
  · unfold minNonZeroGroup numGroups
    cases s.g2e <;> simp

/-- **C25, effects.**  What each call does to the assignment of elements to groups, and what
it returns. -/
theorem groups_effects (ops : List (Op T)) :
    -- adding to a negative group is refused and changes nothing
    (∀ e g, g < 0 → (add (run ops) e g).2 = false ∧ (add (run ops) e g).1 = run ops) ∧
    -- adding moves that element and no other
    (∀ e g, 0 ≤ g → (add (run ops) e g).2 = true ∧
      ∀ x, groupId (add (run ops) e g).1 x = if x = e then g else groupId (run ops) x) ∧
    -- removing
    (∀ e, ((remove (run ops) e).2 = true ↔ isMember (run ops) e = true) ∧
      ∀ x, groupId (remove (run ops) e).1 x = if x = e then -1 else groupId (run ops) x) ∧
    -- bulk removal
    (∀ es : List T, (∀ x, groupId (removeMany (run ops) es).1 x =
        if x ∈ es then -1 else groupId (run ops) x) ∧
      (es.Nodup → (removeMany (run ops) es).2 =
        (es.filter (fun e => isMember (run ops) e)).length)) ∧
    -- clearing
    (∀ x, groupId (clear (run ops)) x = -1) := by
  have h := inv_run ops
  generalize run ops = s at h
  have hrem : ∀ (s : OG T), Inv s → ∀ e, ((remove s e).2 = true ↔ isMember s e = true) ∧
      ∀ x, groupId (remove s e).1 x = if x = e then -1 else groupId s x := by
    intro s h e
    unfold remove
    simp only
    by_cases hg : groupId s e < 0
    · simp only [hg, if_true]
      have hn : eFind s.e2g e = none := by
        cases hf : eFind s.e2g e with
        | none => rfl
        | some g =>
          obtain ⟨t, ht, _⟩ := (h.agree e g).1 hf
          have := (h.sets _ ht).2.2
          have h2 : groupId s e = g := by simp [groupId, hf]
          simp only at this; omega
      refine ⟨by simp [isMember, hn], ?_⟩
      intro x
      by_cases hx : x = e
      · subst hx; simp [groupId, hn]
      · simp [hx]
    · simp only [hg, if_false]
      have hf := (groupId_nonneg_iff h e _ (by omega)).1 rfl
      refine ⟨by simp [isMember, hf], ?_⟩
      intro x
      simp only [groupId, eFind_eErase]
      by_cases hx : x = e <;> simp [hx]
  refine ⟨?_, ?_, hrem s h, ?_, ?_⟩
  · intro e g hg; simp [add, hg]
  · intro e g hg
    have hg' : ¬ g < 0 := by omega
    unfold add
    simp only [hg', if_false]
    split
    · rename_i k hk
      split
      · rename_i hkg
        subst hkg
        refine ⟨rfl, ?_⟩
        intro x
        by_cases hx : x = e
        · subst hx; simp [groupId, hk]
        · simp [hx]
      · refine ⟨rfl, ?_⟩
        intro x
        simp only [groupId, eFind_eSet]
        by_cases hx : x = e <;> simp [hx]
    · refine ⟨rfl, ?_⟩
      intro x
      simp only [groupId, eFind_eSet]
      by_cases hx : x = e <;> simp [hx]
  · intro es
    have hloop : ∀ (es : List T) (s : OG T), Inv s →
        (∀ x, groupId (removeLoop s es).1 x = if x ∈ es then -1 else groupId s x) ∧
        (es.Nodup → (removeLoop s es).2 = (es.filter (fun e => isMember s e)).length) := by
      intro es
      induction es with
      | nil => intro s h; simp [removeLoop]
      | cons e es ih =>
        intro s h
        obtain ⟨ih1, ih2⟩ := ih (remove s e).1 (inv_remove h e)
        obtain ⟨hr1, hr2⟩ := hrem s h e
        simp only [removeLoop]
        constructor
        · intro x
          rw [ih1, hr2]
          by_cases hx : x ∈ es
          · simp [hx]
          · by_cases hxe : x = e <;> simp [hx, hxe]
        · intro hnd
          obtain ⟨hnot, hnd⟩ := List.nodup_cons.1 hnd
          rw [ih2 hnd, List.filter_cons]
          have hsame : es.filter (fun x => isMember (remove s e).1 x) =
              es.filter (fun x => isMember s x) := by
            apply List.filter_congr
            intro x hx
            have hxe : x ≠ e := by rintro rfl; exact hnot hx
            unfold remove
            simp only
            split
            · rfl
            · simp [isMember, eFind_eErase, hxe]
          rw [hsame]
          by_cases hm : isMember s e = true
          · simp only [hr1.2 hm, hm, if_true, List.length_cons]; omega
          · have : ¬ (remove s e).2 = true := fun hh => hm (hr1.1 hh)
            simp [this, hm]
    unfold removeMany
    split
    · rename_i hcase
      rcases hcase with hz | hz
      · have he : s.e2g = [] := List.length_eq_zero_iff.1 hz
        have hid : ∀ x, groupId s x = -1 := by intro x; simp [groupId, he, eFind]
        have him : ∀ x, isMember s x = false := by intro x; simp [isMember, he, eFind]
        refine ⟨fun x => by simp [hid], fun _ => ?_⟩
        simp [him]
      · have : es = [] := List.length_eq_zero_iff.1 hz
        subst this; simp
    · exact hloop es s h
  · intro x; rfl

/-- **C25, Reverse.**  Members stay members; the last group keeps its id and the group that
has `k` groups after it gets that id plus `k`; so contents are kept and the order of the
groups is exactly reversed. -/
theorem groups_reverse (ops : List (Op T)) :
    (∀ e, isMember (reverse (run ops)) e = isMember (run ops) e) ∧
    (∀ e, 0 ≤ groupId (run ops) e → ∃ last,
      (((run ops).g2e.map (·.1)).getLast? = some last) ∧
      groupId (reverse (run ops)) e =
        last + (((run ops).g2e.map (·.1)).filter (fun g => groupId (run ops) e < g)).length) ∧
    (∀ a b, 0 ≤ groupId (run ops) a → 0 ≤ groupId (run ops) b →
      (groupId (reverse (run ops)) a < groupId (reverse (run ops)) b ↔
        groupId (run ops) b < groupId (run ops) a)) := by
  have h := inv_run ops
  generalize run ops = s at h
  have hinv' := inv_reverse h
  obtain ⟨h1, h2, h3⟩ := reverse_spec h
  have key : ∀ e, 0 ≤ groupId s e → ∃ last, ((s.g2e.map (·.1)).getLast? = some last) ∧
      eFind (reverse s).e2g e =
        some (last + ((s.g2e.map (·.1)).filter (fun g => groupId s e < g)).length) := by
    intro e he
    have hf := (groupId_nonneg_iff h e _ he).1 rfl
    obtain ⟨t, ht, hx⟩ := (h.agree e _).1 hf
    have hne : s.g2e ≠ [] := List.ne_nil_of_mem ht
    obtain ⟨hg, hk, hfi⟩ := h2 hne
    refine ⟨(s.g2e.getLast hne).1, ?_, ?_⟩
    · rw [List.getLast?_map, List.getLast?_eq_some_getLast hne]; rfl
    · obtain ⟨i, hi, hpi⟩ := List.mem_iff_getElem.1 ht
      -- position from the end
      have hrev : s.g2e.reverse[s.g2e.length - 1 - i]'(by simp; omega) = (groupId s e, t) := by
        rw [List.getElem_reverse]
        rw [← hpi]
        congr 1
        omega
      rw [hfi e (s.g2e.length - 1 - i) (by omega) (by rw [hrev]; exact hx)]
      congr 2
      -- the groups after position i are exactly those with a larger id
      have hcount : ∀ (l : List (Int × List T)) (i : Nat) (hi : i < l.length),
          l.Pairwise (fun a b => a.1 < b.1) →
          ((l.map (·.1)).filter (fun g => decide (l[i].1 < g))).length = l.length - 1 - i := by
        intro l
        induction l with
        | nil => intro i hi; simp at hi
        | cons p l ih =>
          intro i hi hs
          obtain ⟨hs1, hs2⟩ := List.pairwise_cons.1 hs
          cases i with
          | zero =>
            simp only [List.getElem_cons_zero, List.map_cons, List.filter_cons, Int.lt_irrefl,
              decide_false, Bool.false_eq_true, if_false, List.length_cons, Nat.add_sub_cancel,
              Nat.sub_zero]
            rw [List.filter_eq_self.2]
            · simp
            · intro g hg
              obtain ⟨q, hq, rfl⟩ := List.mem_map.1 hg
              simpa using hs1 q hq
          | succ i =>
            have hi' : i < l.length := by simpa using hi
            have hlt := hs1 _ (List.getElem_mem hi')
            simp only [List.getElem_cons_succ, List.map_cons, List.filter_cons]
            have : ¬ (l[i].1 < p.1) := by omega
            simp only [this, decide_false, Bool.false_eq_true, if_false]
            rw [ih i hi' hs2]
            simp; omega
      have := hcount s.g2e i hi h.sorted
      rw [hpi] at this
      simp only at this
      rw [this]
  refine ⟨?_, ?_, ?_⟩
  · intro e
    unfold isMember
    by_cases he : 0 ≤ groupId s e
    · obtain ⟨last, _, hk⟩ := key e he
      rw [hk, (groupId_nonneg_iff h e _ he).1 rfl]; rfl
    · have hn : eFind s.e2g e = none := by
        cases hf : eFind s.e2g e with
        | none => rfl
        | some g =>
          obtain ⟨t, ht, _⟩ := (h.agree e g).1 hf
          have := (h.sets _ ht).2.2
          have h2 : groupId s e = g := by simp [groupId, hf]
          simp only at this; omega
      rw [hn, h3 e]
      intro p hp hx
      have := (h.agree e p.1).2 ⟨p.2, hp, hx⟩
      rw [hn] at this; simp at this
  · intro e he
    obtain ⟨last, hl, hk⟩ := key e he
    exact ⟨last, hl, by simp [groupId, hk]⟩
  · intro a b ha hb
    obtain ⟨l1, hl1, hk1⟩ := key a ha
    obtain ⟨l2, hl2, hk2⟩ := key b hb
    have : l1 = l2 := by rw [hl1] at hl2; exact Option.some.inj hl2
    subst this
    have e1 : groupId (reverse s) a =
        l1 + ((s.g2e.map (·.1)).filter (fun g => decide (groupId s a < g))).length := by
      rw [groupId, hk1]
    have e2 : groupId (reverse s) b =
        l1 + ((s.g2e.map (·.1)).filter (fun g => decide (groupId s b < g))).length := by
      rw [groupId, hk2]
    rw [e1, e2]
    -- compare the counts
    have hmono : ∀ x y : Int, x ≤ y →
        ((s.g2e.map (·.1)).filter (fun g => decide (y < g))).length ≤
        ((s.g2e.map (·.1)).filter (fun g => decide (x < g))).length := by
      intro x y hxy
      apply List.Sublist.length_le
      apply List.monotone_filter_right
      intro g hg
      simp only [decide_eq_true_eq] at hg ⊢
      omega
    have hstrict : groupId s b < groupId s a →
        ((s.g2e.map (·.1)).filter (fun g => decide (groupId s a < g))).length <
        ((s.g2e.map (·.1)).filter (fun g => decide (groupId s b < g))).length := by
      intro hlt
      have hfa := (groupId_nonneg_iff h a _ ha).1 rfl
      obtain ⟨t, ht, _⟩ := (h.agree a _).1 hfa
      have hmem : groupId s a ∈ s.g2e.map (·.1) := List.mem_map.2 ⟨_, ht, rfl⟩
      generalize s.g2e.map (·.1) = L at hmem hmono
      generalize groupId s a = ga at hmem hlt
      generalize groupId s b = gb at hlt
      have hsub : (L.filter (fun g => decide (ga < g))).Sublist
          (L.filter (fun g => decide (gb < g))) := by
        apply List.monotone_filter_right
        intro g hg
        simp only [decide_eq_true_eq] at hg ⊢
        omega
      rcases Nat.lt_or_ge (L.filter (fun g => decide (ga < g))).length
        (L.filter (fun g => decide (gb < g))).length with hc | hc
      · exact hc
      · have heq := hsub.eq_of_length_le hc
        have : ga ∈ L.filter (fun g => decide (gb < g)) := by
          rw [List.mem_filter]; exact ⟨hmem, by simpa using hlt⟩
        rw [← heq, List.mem_filter] at this
        simp at this
    constructor
    · intro hlt
      by_contra hge
      have := hmono (groupId s a) (groupId s b) (by omega)
      omega
    · intro hlt
      have := hstrict hlt
      omega

/-! ### Non-vacuity -/

/-- A history that moves an element, empties a group and reverses three groups. -/
def exOps : List (Op Nat) :=
  [.add 1 5, .add 2 0, .add 3 2, .add 4 2, .add 2 7, .reverse, .remove 1]

example : (run exOps).g2e = [(7, [2]), (9, [3, 4])] := by decide
example : groupId (run exOps) 3 = 9 ∧ isMember (run exOps) 1 = false ∧
    minNonZeroGroup (run exOps) = some 7 := by decide
example : 0 ≤ groupId (run exOps) 2 ∧ 0 ≤ groupId (run exOps) 3 ∧
    groupId (reverse (run exOps)) 3 < groupId (reverse (run exOps)) 2 := by decide

end Ceres.OrderedGroups
