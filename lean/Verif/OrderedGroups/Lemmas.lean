import Verif.OrderedGroups.Model
import Mathlib.Data.List.Nodup
import Mathlib.Tactic.Common

namespace Ceres.OrderedGroups
variable {T : Type} [DecidableEq T]

theorem eFind_eSet (m : List (T × Int)) (e x : T) (g : Int) :
    eFind (eSet m e g) x = if x = e then some g else eFind m x := by
  induction m with
  | nil => simp [eSet, eFind]
  | cons p m ih =>
    obtain ⟨f, h⟩ := p
    simp only [eSet]
    by_cases hef : e = f
    · subst hef
      simp only [if_true, eFind]
      by_cases hx : x = e <;> simp [hx]
    · simp only [hef, if_false, eFind, ih]
      by_cases hx : x = f
      · subst hx
        have : ¬ x = e := fun h => hef h.symm
        simp [this]
      · simp [hx]

theorem eFind_eErase (m : List (T × Int)) (e x : T) :
    eFind (eErase m e) x = if x = e then none else eFind m x := by
  induction m with
  | nil => simp [eErase, eFind]
  | cons p m ih =>
    obtain ⟨f, h⟩ := p
    unfold eErase at ih ⊢
    by_cases hef : f = e
    · subst hef
      simp only [List.filter_cons, ne_eq, not_true, decide_false, Bool.false_eq_true, if_false,
        eFind]
      rw [ih]
      by_cases hx : x = f <;> simp [hx]
    · simp only [List.filter_cons, ne_eq, hef, not_false_eq_true, decide_true, if_true, eFind]
      rw [ih]
      by_cases hx : x = f
      · subst hx; simp [hef]
      · simp [hx]

/-- Keys of the element map. -/
def ekeys (m : List (T × Int)) : List T := m.map (·.1)

theorem eFind_isSome (m : List (T × Int)) (x : T) : (eFind m x).isSome ↔ x ∈ ekeys m := by
  induction m with
  | nil => simp [eFind, ekeys]
  | cons p m ih =>
    obtain ⟨f, h⟩ := p
    unfold ekeys at ih ⊢
    by_cases hx : x = f <;> simp [eFind, hx, ih]

theorem mem_ekeys_eSet (m : List (T × Int)) (e x : T) (g : Int) :
    x ∈ ekeys (eSet m e g) ↔ x = e ∨ x ∈ ekeys m := by
  rw [← eFind_isSome, eFind_eSet, ← eFind_isSome]
  by_cases hx : x = e <;> simp [hx]

theorem ekeys_eSet_nodup (m : List (T × Int)) (e : T) (g : Int) (h : (ekeys m).Nodup) :
    (ekeys (eSet m e g)).Nodup := by
  induction m with
  | nil => simp [eSet, ekeys]
  | cons p m ih =>
    obtain ⟨f, k⟩ := p
    have hc : ekeys ((f, k) :: m) = f :: ekeys m := rfl
    rw [hc, List.nodup_cons] at h
    simp only [eSet]
    by_cases hef : e = f
    · subst hef; simp only [if_true]; exact List.nodup_cons.2 h
    · simp only [hef, if_false]
      refine List.nodup_cons.2 ⟨?_, ih h.2⟩
      rw [show (List.map (fun x => x.1) (eSet m e g)) = ekeys (eSet m e g) from rfl,
        mem_ekeys_eSet]
      rintro (rfl | hh)
      · exact hef rfl
      · exact h.1 hh

theorem ekeys_eErase_nodup (m : List (T × Int)) (e : T) (h : (ekeys m).Nodup) :
    (ekeys (eErase m e)).Nodup := by
  unfold ekeys eErase
  exact List.Nodup.sublist ((List.filter_sublist).map _) h

/-- The representation invariant. -/
structure Inv (s : OG T) : Prop where
  keys : (ekeys s.e2g).Nodup
  sorted : s.g2e.Pairwise (fun a b => a.1 < b.1)
  sets : ∀ p ∈ s.g2e, p.2 ≠ [] ∧ p.2.Nodup ∧ 0 ≤ p.1
  agree : ∀ e g, eFind s.e2g e = some g ↔ ∃ t, (g, t) ∈ s.g2e ∧ e ∈ t

theorem mem_gInsert (m : List (Int × List T)) (g : Int) (e : T)
    (hs : m.Pairwise (fun a b => a.1 < b.1)) (p : Int × List T) :
    p ∈ gInsert m g e ↔ (p.1 ≠ g ∧ p ∈ m) ∨
      (p.1 = g ∧ ((∀ t, (g, t) ∉ m) ∧ p.2 = [e] ∨
        ∃ t, (g, t) ∈ m ∧ p.2 = if e ∈ t then t else t ++ [e])) := by
  induction m with
  | nil =>
    obtain ⟨a, b⟩ := p
    simp [gInsert, Prod.ext_iff]
  | cons q m ih =>
    obtain ⟨h, s⟩ := q
    rw [List.pairwise_cons] at hs
    obtain ⟨hlt, hs⟩ := hs
    have ih := ih hs
    obtain ⟨a, b⟩ := p
    simp only [gInsert]
    by_cases hgh : g < h
    · simp only [hgh, if_true, List.mem_cons, Prod.mk.injEq]
      have hno : ∀ t, ¬ ((g = h ∧ t = s) ∨ (g, t) ∈ m) := by
        rintro t (⟨rfl, _⟩ | hm)
        · omega
        · have := hlt _ hm; simp only at this; omega
      constructor
      · rintro (⟨rfl, rfl⟩ | ⟨rfl, rfl⟩ | hm)
        · exact Or.inr ⟨rfl, Or.inl ⟨hno, rfl⟩⟩
        · exact Or.inl ⟨by omega, Or.inl ⟨rfl, rfl⟩⟩
        · have := hlt _ hm
          simp only at this
          exact Or.inl ⟨by omega, Or.inr hm⟩
      · rintro (⟨_, h1⟩ | ⟨rfl, (⟨_, rfl⟩ | ⟨t, ht, _⟩)⟩)
        · exact Or.inr h1
        · exact Or.inl ⟨rfl, rfl⟩
        · exact absurd ht (hno t)
    · simp only [hgh, if_false]
      by_cases heq : g = h
      · subst heq
        have hno : ∀ t, (g, t) ∉ m := by
          intro t hm
          have := hlt _ hm
          simp only at this; omega
        simp only [if_true, List.mem_cons, Prod.mk.injEq, true_and]
        constructor
        · rintro (⟨rfl, rfl⟩ | hm)
          · exact Or.inr ⟨rfl, Or.inr ⟨s, Or.inl rfl, rfl⟩⟩
          · refine Or.inl ⟨?_, Or.inr hm⟩
            rintro rfl; exact hno _ hm
        · rintro (⟨hne, (⟨rfl, rfl⟩ | hm)⟩ | ⟨rfl, (⟨hn, _⟩ | ⟨t, (rfl | ht), hb⟩)⟩)
          · exact absurd rfl hne
          · exact Or.inr hm
          · exact absurd (Or.inl rfl) (hn s)
          · exact Or.inl ⟨rfl, hb⟩
          · exact absurd ht (hno t)
      · simp only [heq, if_false, List.mem_cons, Prod.mk.injEq, ih, false_and, false_or]
        constructor
        · rintro (⟨rfl, rfl⟩ | (⟨h1, h2⟩ | h3))
          · exact Or.inl ⟨fun hh => heq hh.symm, Or.inl ⟨rfl, rfl⟩⟩
          · exact Or.inl ⟨h1, Or.inr h2⟩
          · exact Or.inr h3
        · rintro (⟨hne, (⟨rfl, rfl⟩ | hm)⟩ | h3)
          · exact Or.inl ⟨rfl, rfl⟩
          · exact Or.inr (Or.inl ⟨hne, hm⟩)
          · exact Or.inr (Or.inr h3)

theorem gInsert_sorted (m : List (Int × List T)) (g : Int) (e : T)
    (hs : m.Pairwise (fun a b => a.1 < b.1)) :
    (gInsert m g e).Pairwise (fun a b => a.1 < b.1) := by
  induction m with
  | nil => simp [gInsert]
  | cons q m ih =>
    obtain ⟨h, s⟩ := q
    have hs' := hs
    rw [List.pairwise_cons] at hs
    obtain ⟨hlt, hs⟩ := hs
    simp only [gInsert]
    by_cases hgh : g < h
    · simp only [hgh, if_true]
      refine List.pairwise_cons.2 ⟨?_, hs'⟩
      intro p hp
      rcases List.mem_cons.1 hp with rfl | hp
      · exact hgh
      · have := hlt _ hp; simp only at this ⊢; omega
    · simp only [hgh, if_false]
      by_cases heq : g = h
      · simp only [heq, if_true]
        exact List.pairwise_cons.2 ⟨hlt, hs⟩
      · simp only [heq, if_false]
        refine List.pairwise_cons.2 ⟨?_, ih hs⟩
        intro p hp
        rw [mem_gInsert m g e hs] at hp
        rcases hp with ⟨_, hp⟩ | ⟨hp, _⟩
        · exact hlt _ hp
        · simp only; omega

theorem gErase_sublist_keys (m : List (Int × List T)) (g : Int) (e : T) :
    ((gErase m g e).map (·.1)).Sublist (m.map (·.1)) := by
  induction m with
  | nil => simp [gErase]
  | cons q m ih =>
    obtain ⟨h, s⟩ := q
    simp only [gErase]
    split
    · split
      · exact List.sublist_cons_self _ _
      · exact List.Sublist.refl _
    · exact ih.cons_cons _

theorem gErase_sorted (m : List (Int × List T)) (g : Int) (e : T)
    (hs : m.Pairwise (fun a b => a.1 < b.1)) :
    (gErase m g e).Pairwise (fun a b => a.1 < b.1) := by
  have h1 : (m.map (·.1)).Pairwise (· < ·) := List.pairwise_map.2 hs
  exact List.pairwise_map.1 (h1.sublist (gErase_sublist_keys m g e))

theorem mem_gErase (m : List (Int × List T)) (g : Int) (e : T)
    (hs : m.Pairwise (fun a b => a.1 < b.1)) (p : Int × List T) :
    p ∈ gErase m g e ↔ (p.1 ≠ g ∧ p ∈ m) ∨
      (p.1 = g ∧ p.2 ≠ [] ∧ ∃ t, (g, t) ∈ m ∧ p.2 = t.erase e) := by
  induction m with
  | nil => simp [gErase]
  | cons q m ih =>
    obtain ⟨h, s⟩ := q
    rw [List.pairwise_cons] at hs
    obtain ⟨hlt, hs⟩ := hs
    have ih := ih hs
    obtain ⟨a, b⟩ := p
    simp only [gErase]
    by_cases heq : g = h
    · subst heq
      have hno : ∀ t, (g, t) ∉ m := by
        intro t hm
        have := hlt _ hm
        simp only at this; omega
      simp only [if_true]
      by_cases hemp : s.erase e = []
      · simp only [hemp, if_true, List.mem_cons, Prod.mk.injEq, true_and]
        constructor
        · intro hm
          exact Or.inl ⟨by rintro rfl; exact hno _ hm, Or.inr hm⟩
        · rintro (⟨hne, (⟨rfl, rfl⟩ | hm)⟩ | ⟨rfl, hb, t, (rfl | ht), rfl⟩)
          · exact absurd rfl hne
          · exact hm
          · exact absurd hemp hb
          · exact absurd ht (hno t)
      · simp only [hemp, if_false, List.mem_cons, Prod.mk.injEq, true_and]
        constructor
        · rintro (⟨rfl, rfl⟩ | hm)
          · exact Or.inr ⟨rfl, hemp, s, Or.inl rfl, rfl⟩
          · exact Or.inl ⟨by rintro rfl; exact hno _ hm, Or.inr hm⟩
        · rintro (⟨hne, (⟨rfl, rfl⟩ | hm)⟩ | ⟨rfl, hb, t, (rfl | ht), rfl⟩)
          · exact absurd rfl hne
          · exact Or.inr hm
          · exact Or.inl ⟨rfl, rfl⟩
          · exact absurd ht (hno t)
    · simp only [heq, if_false, List.mem_cons, Prod.mk.injEq, ih, false_and, false_or]
      constructor
      · rintro (⟨rfl, rfl⟩ | (⟨h1, h2⟩ | h3))
        · exact Or.inl ⟨fun hh => heq hh.symm, Or.inl ⟨rfl, rfl⟩⟩
        · exact Or.inl ⟨h1, Or.inr h2⟩
        · exact Or.inr h3
      · rintro (⟨hne, (⟨rfl, rfl⟩ | hm)⟩ | h3)
        · exact Or.inl ⟨rfl, rfl⟩
        · exact Or.inr (Or.inl ⟨hne, hm⟩)
        · exact Or.inr (Or.inr h3)

theorem inv_empty : Inv (empty : OG T) := by
  constructor <;> simp [empty, ekeys, eFind]

theorem uniq {m : List (Int × List T)} (hs : m.Pairwise (fun a b => a.1 < b.1)) {g : Int}
    {t t' : List T} (h : (g, t) ∈ m) (h' : (g, t') ∈ m) : t = t' := by
  induction m with
  | nil => simp at h
  | cons q m ih =>
    obtain ⟨hlt, hs⟩ := List.pairwise_cons.1 hs
    rcases List.mem_cons.1 h with rfl | h1 <;> rcases List.mem_cons.1 h' with h2 | h2
    · exact (Prod.mk.inj h2).2.symm
    · have := hlt _ h2; simp only at this; omega
    · subst h2; have := hlt _ h1; simp only at this; omega
    · exact ih hs h1 h2

theorem mem_contents_gInsert {m : List (Int × List T)} {g : Int} {e : T}
    (hs : m.Pairwise (fun a b => a.1 < b.1)) (x : T) (k : Int) :
    (∃ t, (k, t) ∈ gInsert m g e ∧ x ∈ t) ↔ (∃ t, (k, t) ∈ m ∧ x ∈ t) ∨ (k = g ∧ x = e) := by
  constructor
  · rintro ⟨t, ht, hx⟩
    rw [mem_gInsert m g e hs] at ht
    rcases ht with ⟨_, ht⟩ | ⟨hk, (⟨_, hb⟩ | ⟨t', ht', hb⟩)⟩
    · exact Or.inl ⟨t, ht, hx⟩
    · simp only at hb hk; subst hb; subst hk; right; simpa using hx
    · simp only at hb hk
      subst hk
      by_cases he : e ∈ t'
      · rw [if_pos he] at hb; subst hb; exact Or.inl ⟨_, ht', hx⟩
      · rw [if_neg he] at hb; subst hb
        rcases List.mem_append.1 hx with hx | hx
        · exact Or.inl ⟨_, ht', hx⟩
        · exact Or.inr ⟨rfl, by simpa using hx⟩
  · intro h
    by_cases hk : k = g
    · subst hk
      by_cases hex : ∃ t, (k, t) ∈ m
      · obtain ⟨t, ht⟩ := hex
        refine ⟨if e ∈ t then t else t ++ [e],
          (mem_gInsert m k e hs _).2 (Or.inr ⟨rfl, Or.inr ⟨t, ht, rfl⟩⟩), ?_⟩
        rcases h with ⟨t', ht', hx⟩ | ⟨_, rfl⟩
        · have := uniq hs ht ht'; subst this
          split <;> simp [hx]
        · split
          · assumption
          · simp
      · refine ⟨[e], (mem_gInsert m k e hs _).2
          (Or.inr ⟨rfl, Or.inl ⟨fun t ht => hex ⟨t, ht⟩, rfl⟩⟩), ?_⟩
        rcases h with ⟨t', ht', hx⟩ | ⟨_, rfl⟩
        · exact absurd ⟨t', ht'⟩ hex
        · simp
    · rcases h with ⟨t', ht', hx⟩ | ⟨hh, _⟩
      · exact ⟨t', (mem_gInsert m g e hs _).2 (Or.inl ⟨hk, ht'⟩), hx⟩
      · exact absurd hh hk

theorem mem_contents_gErase {m : List (Int × List T)} {g : Int} {e : T}
    (hs : m.Pairwise (fun a b => a.1 < b.1)) (hn : ∀ p ∈ m, p.2.Nodup) (x : T) (k : Int) :
    (∃ t, (k, t) ∈ gErase m g e ∧ x ∈ t) ↔ (∃ t, (k, t) ∈ m ∧ x ∈ t) ∧ ¬ (k = g ∧ x = e) := by
  constructor
  · rintro ⟨t, ht, hx⟩
    rw [mem_gErase m g e hs] at ht
    rcases ht with ⟨hne, ht⟩ | ⟨hk, _, t', ht', hb⟩
    · exact ⟨⟨t, ht, hx⟩, fun h => hne h.1⟩
    · simp only at hb hk
      subst hk; subst hb
      have hnd := hn _ ht'
      simp only at hnd
      rw [hnd.mem_erase_iff] at hx
      exact ⟨⟨t', ht', hx.2⟩, fun h => hx.1 h.2⟩
  · rintro ⟨⟨t, ht, hx⟩, hne⟩
    by_cases hk : k = g
    · subst hk
      have hxe : x ≠ e := fun h => hne ⟨rfl, h⟩
      have hx' : x ∈ t.erase e := ((hn _ ht).mem_erase_iff).2 ⟨hxe, hx⟩
      exact ⟨t.erase e, (mem_gErase m k e hs _).2
        (Or.inr ⟨rfl, List.ne_nil_of_mem hx', t, ht, rfl⟩), hx'⟩
    · exact ⟨t, (mem_gErase m g e hs _).2 (Or.inl ⟨hk, ht⟩), hx⟩

theorem sets_gInsert {m : List (Int × List T)} {g : Int} {e : T} (hg : 0 ≤ g)
    (hs : m.Pairwise (fun a b => a.1 < b.1))
    (h : ∀ p ∈ m, p.2 ≠ [] ∧ p.2.Nodup ∧ 0 ≤ p.1) :
    ∀ p ∈ gInsert m g e, p.2 ≠ [] ∧ p.2.Nodup ∧ 0 ≤ p.1 := by
  intro p hp
  rw [mem_gInsert m g e hs] at hp
  rcases hp with ⟨_, hp⟩ | ⟨hk, (⟨_, hb⟩ | ⟨t, ht, hb⟩)⟩
  · exact h p hp
  · rw [hb, hk]; simp [hg]
  · have := h _ ht
    rw [hb, hk]
    by_cases he : e ∈ t
    · simp only [he, if_true]; exact this
    · simp only [he, if_false]
      refine ⟨by simp, ?_, hg⟩
      exact List.Nodup.append this.2.1 (by simp) (by simpa using he)

theorem sets_gErase {m : List (Int × List T)} {g : Int} {e : T}
    (hs : m.Pairwise (fun a b => a.1 < b.1))
    (h : ∀ p ∈ m, p.2 ≠ [] ∧ p.2.Nodup ∧ 0 ≤ p.1) :
    ∀ p ∈ gErase m g e, p.2 ≠ [] ∧ p.2.Nodup ∧ 0 ≤ p.1 := by
  intro p hp
  rw [mem_gErase m g e hs] at hp
  rcases hp with ⟨_, hp⟩ | ⟨hk, hne, t, ht, hb⟩
  · exact h p hp
  · have := h _ ht
    rw [hk]
    exact ⟨hne, by rw [hb]; exact this.2.1.erase _, this.2.2⟩

theorem inv_add {s : OG T} (h : Inv s) (e : T) (g : Int) : Inv (add s e g).1 := by
  unfold add
  split
  · exact h
  · rename_i hg
    have hg : 0 ≤ g := by omega
    split
    · rename_i k hk
      split
      · exact h
      · rename_i hne
        have hs1 := gErase_sorted s.g2e k e h.sorted
        have hsets1 := sets_gErase (g := k) (e := e) h.sorted h.sets
        refine ⟨ekeys_eSet_nodup _ _ _ h.keys, gInsert_sorted _ _ _ hs1,
          sets_gInsert hg hs1 hsets1, ?_⟩
        intro x j
        simp only
        rw [eFind_eSet, mem_contents_gInsert hs1,
          mem_contents_gErase h.sorted (fun p hp => (h.sets p hp).2.1), ← h.agree]
        by_cases hx : x = e
        · subst hx
          simp only [if_true, Option.some.injEq, and_true]
          rw [hk]
          constructor
          · intro hh; exact Or.inr hh.symm
          · rintro (⟨hh, hn⟩ | hh)
            · have := Option.some.inj hh; exact absurd this.symm hn
            · exact hh.symm
        · simp [hx]
    · rename_i hk
      refine ⟨ekeys_eSet_nodup _ _ _ h.keys, gInsert_sorted _ _ _ h.sorted,
          sets_gInsert hg h.sorted h.sets, ?_⟩
      intro x j
      simp only
      rw [eFind_eSet, mem_contents_gInsert h.sorted, ← h.agree]
      by_cases hx : x = e
      · subst hx
        simp [hk, eq_comm]
      · simp [hx]

theorem groupId_nonneg_iff {s : OG T} (h : Inv s) (e : T) (g : Int) (hg : 0 ≤ g) :
    groupId s e = g ↔ eFind s.e2g e = some g := by
  unfold groupId
  cases he : eFind s.e2g e with
  | none => simp only; constructor
            · intro h; omega
            · intro h; simp at h
  | some k => simp

theorem inv_remove {s : OG T} (h : Inv s) (e : T) : Inv (remove s e).1 := by
  unfold remove
  simp only
  split
  · exact h
  · rename_i hg
    have hg : 0 ≤ groupId s e := by omega
    have hf := (groupId_nonneg_iff h e _ hg).1 rfl
    refine ⟨ekeys_eErase_nodup _ _ h.keys, gErase_sorted _ _ _ h.sorted,
      sets_gErase h.sorted h.sets, ?_⟩
    intro x j
    simp only
    rw [eFind_eErase, mem_contents_gErase h.sorted (fun p hp => (h.sets p hp).2.1), ← h.agree]
    by_cases hx : x = e
    · subst hx
      simp only [if_true, reduceCtorEq, and_true, false_iff, not_and, not_not]
      intro hh
      rw [hf] at hh
      exact (Option.some.inj hh).symm
    · simp [hx]

theorem inv_removeLoop {s : OG T} (h : Inv s) (es : List T) : Inv (removeLoop s es).1 := by
  induction es generalizing s with
  | nil => exact h
  | cons e es ih => exact ih (inv_remove h e)

theorem inv_removeMany {s : OG T} (h : Inv s) (es : List T) : Inv (removeMany s es).1 := by
  unfold removeMany
  split
  · exact h
  · exact inv_removeLoop h es

theorem eFind_foldl (s : List T) (m : List (T × Int)) (k : Int) (x : T) :
    eFind (s.foldl (fun acc e => eSet acc e k) m) x = if x ∈ s then some k else eFind m x := by
  induction s generalizing m with
  | nil => simp
  | cons e s ih =>
    simp only [List.foldl_cons, ih, eFind_eSet, List.mem_cons]
    by_cases hx : x ∈ s
    · simp [hx]
    · by_cases hxe : x = e <;> simp [hx, hxe]

theorem ekeys_foldl (s : List T) (m : List (T × Int)) (k : Int) (h : (ekeys m).Nodup) :
    (ekeys (s.foldl (fun acc e => eSet acc e k) m)).Nodup := by
  induction s generalizing m with
  | nil => exact h
  | cons e s ih => exact ih _ (ekeys_eSet_nodup _ _ _ h)

/-- Renumbered groups. -/
def renumber : Int → List (Int × List T) → List (Int × List T)
  | _, [] => []
  | k, (_, s) :: rest => (k, s) :: renumber (k + 1) rest

theorem reverseLoop_fst (k : Int) (l : List (Int × List T)) (m : List (T × Int)) :
    (reverseLoop k l m).1 = renumber k l := by
  induction l generalizing k m with
  | nil => rfl
  | cons p l ih => obtain ⟨a, s⟩ := p; simp [reverseLoop, renumber, ih]

theorem reverseLoop_keys (k : Int) (l : List (Int × List T)) (m : List (T × Int))
    (h : (ekeys m).Nodup) : (ekeys (reverseLoop k l m).2).Nodup := by
  induction l generalizing k m with
  | nil => exact h
  | cons p l ih =>
    obtain ⟨a, s⟩ := p
    simp only [reverseLoop]
    exact ih _ _ (ekeys_foldl _ _ _ h)

/-- After the loop, an element of the `i`-th remaining group has id `k + i`; others keep
theirs.  Needs the groups to be disjoint. -/
theorem reverseLoop_find (k : Int) (l : List (Int × List T)) (m : List (T × Int))
    (hd : l.Pairwise (fun a b => ∀ x ∈ a.2, x ∉ b.2)) (x : T) :
    (∀ (i : Nat) (hi : i < l.length), x ∈ l[i].2 →
      eFind (reverseLoop k l m).2 x = some (k + i)) ∧
    ((∀ p ∈ l, x ∉ p.2) → eFind (reverseLoop k l m).2 x = eFind m x) := by
  induction l generalizing k m with
  | nil => simp [reverseLoop]
  | cons p l ih =>
    obtain ⟨a, s⟩ := p
    obtain ⟨hd1, hd2⟩ := List.pairwise_cons.1 hd
    simp only [reverseLoop]
    obtain ⟨ih1, ih2⟩ := ih (k + 1) (s.foldl (fun acc e => eSet acc e k) m) hd2
    constructor
    · intro i hi hx
      cases i with
      | zero =>
        simp only [List.getElem_cons_zero] at hx
        rw [ih2 (fun p hp => hd1 p hp x hx), eFind_foldl]
        simp [hx]
      | succ i =>
        simp only [List.getElem_cons_succ] at hx
        rw [ih1 i (by simpa using hi) hx]
        congr 1
        push_cast
        omega
    · intro hx
      rw [ih2 (fun p hp => hx p (by simp [hp])), eFind_foldl]
      have := hx (a, s) (by simp)
      simp only at this
      simp [this]

theorem renumber_length (k : Int) (l : List (Int × List T)) :
    (renumber k l).length = l.length := by
  induction l generalizing k with
  | nil => rfl
  | cons p l ih => obtain ⟨a, s⟩ := p; simp [renumber, ih]

theorem renumber_getElem (k : Int) (l : List (Int × List T)) (i : Nat) (h : i < l.length) :
    (renumber k l)[i]'(by rw [renumber_length]; exact h) = (k + i, l[i].2) := by
  induction l generalizing k i with
  | nil => simp at h
  | cons p l ih =>
    obtain ⟨a, s⟩ := p
    cases i with
    | zero => simp [renumber]
    | succ i =>
      simp only [renumber, List.getElem_cons_succ]
      rw [ih (k + 1) i (by simpa using h)]
      simp only [Prod.mk.injEq, and_true]
      push_cast
      omega

theorem Inv.disjoint {s : OG T} (h : Inv s) {g k : Int} {t t' : List T} (hg : (g, t) ∈ s.g2e)
    (hk : (k, t') ∈ s.g2e) {x : T} (hx : x ∈ t) (hx' : x ∈ t') : g = k := by
  have h1 := (h.agree x g).2 ⟨t, hg, hx⟩
  have h2 := (h.agree x k).2 ⟨t', hk, hx'⟩
  rw [h1] at h2
  exact Option.some.inj h2

/-- Full description of `Reverse`: position `i` from the end of the group list becomes
position `i` with id `last id + i`. -/
theorem reverse_spec {s : OG T} (h : Inv s) :
    (s.g2e = [] → reverse s = s) ∧
    (∀ hne : s.g2e ≠ [],
      (reverse s).g2e = renumber (s.g2e.getLast hne).1 s.g2e.reverse ∧
      (ekeys (reverse s).e2g).Nodup ∧
      ∀ x (i : Nat) (hi : i < s.g2e.length), x ∈ (s.g2e.reverse[i]'(by simpa using hi)).2 →
        eFind (reverse s).e2g x = some ((s.g2e.getLast hne).1 + i)) ∧
    (∀ x, (∀ p ∈ s.g2e, x ∉ p.2) → eFind (reverse s).e2g x = none) := by
  have hrev_dis : s.g2e.reverse.Pairwise (fun a b => ∀ x ∈ a.2, x ∉ b.2) := by
    rw [List.pairwise_reverse]
    refine List.Pairwise.imp_of_mem ?_ h.sorted
    intro a b ha hb hlt x hxb hxa
    have := h.disjoint (g := a.1) (t := a.2) (k := b.1) (t' := b.2) ha hb hxa hxb
    omega
  refine ⟨?_, ?_, ?_⟩
  · intro he; unfold reverse; rw [he]; rfl
  · intro hne
    have hlast : s.g2e.reverse.head? = some (s.g2e.getLast hne) := by
      rw [List.head?_reverse, List.getLast?_eq_some_getLast hne]
    obtain ⟨⟨g, t⟩, rest, hr⟩ : ∃ q rest, s.g2e.reverse = q :: rest := by
      cases hr : s.g2e.reverse with
      | nil => simp [hr] at hlast
      | cons q rest => exact ⟨q, rest, rfl⟩
    rw [hr] at hlast
    simp only [List.head?_cons, Option.some.injEq] at hlast
    rw [← hlast]
    rw [hr] at hrev_dis
    obtain ⟨hd1, hd2⟩ := List.pairwise_cons.1 hrev_dis
    have hrs : reverse s = { g2e := (g, t) :: (reverseLoop (g + 1) rest s.e2g).1,
                             e2g := (reverseLoop (g + 1) rest s.e2g).2 } := by
      unfold reverse; rw [hr]
    rw [hrs]
    refine ⟨?_, ?_, ?_⟩
    · simp [hr, renumber, reverseLoop_fst]
    · exact reverseLoop_keys _ _ _ h.keys
    · intro x i hi hx
      simp only [hr] at hx
      cases i with
      | zero =>
        simp only [List.getElem_cons_zero] at hx
        have hmem : (g, t) ∈ s.g2e := by
          rw [← List.mem_reverse, hr]; simp
        rw [(reverseLoop_find (g + 1) rest s.e2g hd2 x).2 (fun p hp => hd1 p hp x hx)]
        simpa using (h.agree x g).2 ⟨t, hmem, hx⟩
      | succ i =>
        simp only [List.getElem_cons_succ] at hx
        have hlen : s.g2e.length = rest.length + 1 := by
          rw [← List.length_reverse, hr]; simp
        have := (reverseLoop_find (g + 1) rest s.e2g hd2 x).1 i (by omega) hx
        rw [this]
        simp only [Option.some.injEq]
        push_cast
        omega
  · intro x hx
    have hnone : eFind s.e2g x = none := by
      cases hf : eFind s.e2g x with
      | none => rfl
      | some g =>
        obtain ⟨t, ht, hxt⟩ := (h.agree x g).1 hf
        exact absurd hxt (hx _ ht)
    unfold reverse
    cases hr : s.g2e.reverse with
    | nil => exact hnone
    | cons q rest =>
      obtain ⟨g, t⟩ := q
      rw [hr] at hrev_dis
      obtain ⟨hd1, hd2⟩ := List.pairwise_cons.1 hrev_dis
      simp only
      rw [(reverseLoop_find (g + 1) rest s.e2g hd2 x).2 ?_]
      · exact hnone
      · intro p hp
        apply hx p
        rw [← List.mem_reverse, hr]; simp [hp]

theorem inv_reverse {s : OG T} (h : Inv s) : Inv (reverse s) := by
  obtain ⟨h1, h2, h3⟩ := reverse_spec h
  by_cases hne : s.g2e = []
  · rw [h1 hne]; exact h
  obtain ⟨hg, hk, hf⟩ := h2 hne
  have hlen : (reverse s).g2e.length = s.g2e.length := by rw [hg, renumber_length]; simp
  have hget : ∀ (i : Nat) (hi : i < s.g2e.length), (reverse s).g2e[i]'(by omega) =
      ((s.g2e.getLast hne).1 + i, (s.g2e.reverse[i]'(by simpa using hi)).2) := by
    intro i hi
    simp only [hg]
    exact renumber_getElem _ _ _ (by simpa using hi)
  refine ⟨hk, ?_, ?_, ?_⟩
  · rw [List.pairwise_iff_getElem]
    intro i j hi hj hij
    rw [hget i (by omega), hget j (by omega)]
    simp only
    omega
  · intro p hp
    obtain ⟨i, hi, rfl⟩ := List.mem_iff_getElem.1 hp
    rw [hget i (by omega)]
    have hm : s.g2e.reverse[i]'(by simp; omega) ∈ s.g2e := by
      rw [← List.mem_reverse]; exact List.getElem_mem _
    have := h.sets _ hm
    have hl := h.sets _ (List.getLast_mem hne)
    exact ⟨this.1, this.2.1, by simp only; omega⟩
  · intro x g
    constructor
    · intro hx
      by_cases hex : ∃ p ∈ s.g2e, x ∈ p.2
      · obtain ⟨p, hp, hxp⟩ := hex
        rw [← List.mem_reverse] at hp
        obtain ⟨i, hi, hpi⟩ := List.mem_iff_getElem.1 hp
        have hi' : i < s.g2e.length := by simpa using hi
        have := hf x i hi' (by rw [hpi]; exact hxp)
        rw [this] at hx
        have hgi := Option.some.inj hx
        refine ⟨(s.g2e.reverse[i]'hi).2, ?_, by rw [hpi]; exact hxp⟩
        have h5 := hget i hi'
        rw [hgi] at h5
        rw [← h5]
        exact List.getElem_mem _
      · rw [h3 x (fun p hp hxp => hex ⟨p, hp, hxp⟩)] at hx
        simp at hx
    · rintro ⟨t, ht, hx⟩
      obtain ⟨i, hi, hpi⟩ := List.mem_iff_getElem.1 ht
      have hi' : i < s.g2e.length := by omega
      rw [hget i hi'] at hpi
      have hpi := Prod.mk.inj hpi
      rw [hf x i hi' (by rw [hpi.2]; exact hx), hpi.1]

theorem inv_step {s : OG T} (h : Inv s) (o : Op T) : Inv (step s o) := by
  cases o with
  | add e g => exact inv_add h e g
  | remove e => exact inv_remove h e
  | removeMany es => exact inv_removeMany h es
  | reverse => exact inv_reverse h
  | clear => exact inv_empty

theorem inv_run (ops : List (Op T)) : Inv (run ops) := by
  unfold run
  have : ∀ s : OG T, Inv s → Inv (ops.foldl step s) := by
    induction ops with
    | nil => intro s h; exact h
    | cons o os ih => intro s h; exact ih _ (inv_step h o)
  exact this _ inv_empty

end Ceres.OrderedGroups
