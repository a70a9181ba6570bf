import Verif.Problem.Spec
import Mathlib.Tactic.Common
import Mathlib.Data.List.Basic
/-! Helper lemmas for the `Problem` refinement proof. -/
namespace Ceres.Problem

/-! ### Relational lifting -/

def Sim {α β : Type} (R : α → β → Prop) : Except Err α → Except Err β → Prop
  | .ok a, .ok b => R a b
  | .error e, .error e' => e = e'
  | _, _ => False

theorem Sim.bind {α β γ δ : Type} {R : α → β → Prop} {R' : γ → δ → Prop}
    {x : Except Err α} {y : Except Err β} {f : α → Except Err γ} {g : β → Except Err δ}
    (h : Sim R x y) (hf : ∀ a b, x = .ok a → y = .ok b → R a b → Sim R' (f a) (g b)) :
    Sim R' (x >>= f) (y >>= g) := by
  cases x <;> cases y <;> simp_all [Sim, Bind.bind, Except.bind]

@[simp] theorem ok_bind {α β : Type} (a : α) (f : α → Except Err β) :
    (Except.ok a >>= f) = f a := rfl

@[simp] theorem error_bind {α β : Type} (e : Err) (f : α → Except Err β) :
    ((Except.error e : Except Err α) >>= f) = Except.error e := rfl

@[simp] theorem pure_eq_ok {α : Type} (a : α) : (pure a : Except Err α) = Except.ok a := rfl

@[simp] theorem upd_same {α : Type} (f : Nat → α) (k : Nat) (v : α) : upd f k v k = v := by
  simp [upd]

theorem upd_other {α : Type} (f : Nat → α) {k j : Nat} (v : α) (h : j ≠ k) :
    upd f k v j = f j := by
  simp [upd, h]

/-! ### Vector with stored indices -/

/-- `vec` lists exactly the objects with a stored index, each at its index. -/
def VecOk (vec : List Nat) (idx : Nat → Option Nat) : Prop :=
  ∀ i p, vec[i]? = some p ↔ idx p = some i

theorem VecOk.mem {vec idx} (h : VecOk vec idx) (p : Nat) : p ∈ vec ↔ (idx p).isSome := by
  rw [List.mem_iff_getElem?]
  constructor
  · rintro ⟨i, hi⟩; rw [(h i p).1 hi]; rfl
  · intro hp
    obtain ⟨i, hi⟩ := Option.isSome_iff_exists.1 hp
    exact ⟨i, (h i p).2 hi⟩

theorem VecOk.nodup {vec idx} (h : VecOk vec idx) : vec.Nodup := by
  unfold List.Nodup
  rw [List.pairwise_iff_getElem]
  intro i j hi hj hij heq
  have h1 : vec[i]? = some vec[i] := List.getElem?_eq_getElem hi
  have h2 : vec[j]? = some vec[i] := by rw [heq]; exact List.getElem?_eq_getElem hj
  have e1 := (h i _).1 h1
  have e2 := (h j _).1 h2
  rw [e1] at e2
  have : i = j := by simpa using e2
  omega

theorem VecOk.push {vec idx} (h : VecOk vec idx) {p : Nat} (hp : idx p = none) :
    VecOk (vec ++ [p]) (upd idx p (some vec.length)) := by
  intro i q
  rw [List.getElem?_append]
  unfold upd
  split
  · rename_i hi
    rw [h i q]
    by_cases hq : q = p
    · subst hq; simp [hp]; omega
    · simp [hq]
  · rename_i hi
    by_cases hq : q = p
    · subst hq
      simp only [if_true]
      rw [List.getElem?_singleton]
      constructor
      · intro hh
        split at hh <;> simp_all
        omega
      · intro hh
        have : vec.length = i := by simpa using hh
        subst this; simp
    · simp only [hq, if_false]
      rw [← h i q]
      rw [List.getElem?_singleton]
      have : vec[i]? = none := by simp; omega
      rw [this]
      split <;> simp
      exact fun hh => hq hh.symm

theorem VecOk.swapRemove {vec idx} (h : VecOk vec idx) {p i t : Nat}
    (hp : idx p = some i) (ht : vec.getLast? = some t) :
    VecOk ((vec.set i t).dropLast) (upd (upd idx t (some i)) p none) := by
  have hpi := (h i p).2 hp
  have hi : i < vec.length := by
    by_contra hc
    rw [List.getElem?_eq_none (by omega)] at hpi
    simp at hpi
  have htl : vec[vec.length - 1]? = some t := by rw [← List.getLast?_eq_getElem?]; exact ht
  have hti := (h _ t).1 htl
  intro j q
  rw [List.getElem?_dropLast, List.length_set]
  unfold upd
  by_cases hqp : q = p
  · subst hqp
    simp only [if_true]
    constructor
    · intro hh
      split at hh
      · rename_i hj
        rw [List.getElem?_set] at hh
        split at hh
        · rename_i hij
          subst hij
          simp at hh
          obtain ⟨_, rfl⟩ := hh
          rw [hti] at hp
          have : vec.length - 1 = i := by simpa using hp
          omega
        · rename_i hij
          have := (h j q).1 hh
          rw [hp] at this
          exact absurd (by simpa using this) hij
      · simp at hh
    · intro hh; simp at hh
  · simp only [hqp, if_false]
    by_cases hqt : q = t
    · subst hqt
      simp only [if_true]
      constructor
      · intro hh
        split at hh
        · rename_i hj
          rw [List.getElem?_set] at hh
          split at hh
          · rename_i hij; simp [hij]
          · have := (h j q).1 hh
            rw [hti] at this
            have : vec.length - 1 = j := by simpa using this
            omega
        · simp at hh
      · intro hh
        have hij : i = j := by simpa using hh
        subst hij
        have hlt : i < vec.length - 1 := by
          rcases Nat.lt_or_ge i (vec.length - 1) with h1 | h1
          · exact h1
          · exfalso
            have : i = vec.length - 1 := by omega
            rw [this] at hpi
            rw [htl] at hpi
            exact hqp (by simpa using hpi)
        rw [if_pos hlt, List.getElem?_set]
        simp [hi]
    · simp only [hqt, if_false]
      rw [← h j q]
      constructor
      · intro hh
        split at hh
        · rw [List.getElem?_set] at hh
          split at hh
          · simp at hh
            exact absurd hh.symm hqt
          · exact hh
        · simp at hh
      · intro hh
        have hj : j < vec.length := by
          by_contra hc
          rw [List.getElem?_eq_none (by omega)] at hh
          simp at hh
        have hlt : j < vec.length - 1 := by
          rcases Nat.lt_or_ge j (vec.length - 1) with h1 | h1
          · exact h1
          · exfalso
            have : j = vec.length - 1 := by omega
            rw [this, htl] at hh
            exact hqt (by simpa using hh.symm)
        rw [if_pos hlt, List.getElem?_set, if_neg]
        · exact hh
        · intro hij
          subst hij
          rw [hpi] at hh
          exact hqp (by simpa using hh.symm)

/-! ### The ordered map -/

def Sorted (m : List (Nat × Nat)) : Prop := m.Pairwise (fun e f => e.1 < f.1)

theorem mapFind_cons (e : Nat × Nat) (m : List (Nat × Nat)) (a : Nat) :
    mapFind (e :: m) a = if e.1 = a then some e.2 else mapFind m a := by
  unfold mapFind
  rw [List.find?_cons]
  by_cases h : e.1 = a
  · simp [h]
  · have : (e.1 == a) = false := by simpa using h
    simp [this, h]

theorem mapFind_none_of_lt {m : List (Nat × Nat)} {a : Nat} (h : ∀ e ∈ m, a < e.1) :
    mapFind m a = none := by
  induction m with
  | nil => rfl
  | cons e m ih =>
    rw [mapFind_cons]
    have h1 := h e (by simp)
    have : ¬ e.1 = a := by omega
    simp only [this, if_false]
    exact ih (fun e he => h e (by simp [he]))

theorem mapFind_iff {m : List (Nat × Nat)} (hs : Sorted m) (a p : Nat) :
    mapFind m a = some p ↔ (a, p) ∈ m := by
  induction m with
  | nil => simp [mapFind]
  | cons e m ih =>
    rw [mapFind_cons]
    have hs' : Sorted m := (List.pairwise_cons.1 hs).2
    have hlt := (List.pairwise_cons.1 hs).1
    split
    · rename_i h
      constructor
      · intro hh
        have : e.2 = p := by simpa using hh
        have : e = (a, p) := by ext <;> simp [*]
        simp [this]
      · intro hh
        rcases List.mem_cons.1 hh with h1 | h1
        · rw [← h1]
        · have := hlt _ h1
          simp at this
          omega
    · rename_i h
      rw [ih hs']
      simp only [List.mem_cons]
      constructor
      · exact Or.inr
      · rintro (h1 | h1)
        · rw [← h1] at h; exact absurd rfl h
        · exact h1

theorem mem_mapInsert {m : List (Nat × Nat)} {a p : Nat} (hn : mapFind m a = none)
    (e : Nat × Nat) : e ∈ mapInsert m a p ↔ e = (a, p) ∨ e ∈ m := by
  induction m with
  | nil => simp [mapInsert]
  | cons f m ih =>
    rw [mapFind_cons] at hn
    split at hn
    · simp at hn
    · rename_i hf
      unfold mapInsert
      split
      · simp
      · split
        · rename_i h1 h2; exact absurd h2.symm hf
        · simp only [List.mem_cons, ih hn]
          tauto

theorem sorted_mapInsert {m : List (Nat × Nat)} {a p : Nat} (hs : Sorted m)
    (hn : mapFind m a = none) : Sorted (mapInsert m a p) := by
  induction m with
  | nil => simp [mapInsert, Sorted]
  | cons f m ih =>
    have hn0 := hn
    rw [mapFind_cons] at hn
    split at hn
    · simp at hn
    · rename_i hf
      have hs' : Sorted m := (List.pairwise_cons.1 hs).2
      have hlt := (List.pairwise_cons.1 hs).1
      unfold mapInsert
      split
      · rename_i h1
        refine List.pairwise_cons.2 ⟨?_, hs⟩
        intro e he
        rcases List.mem_cons.1 he with rfl | he
        · exact h1
        · have := hlt e he; simp; omega
      · split
        · rename_i h1 h2; exact absurd h2.symm hf
        · rename_i h1 h2
          refine List.pairwise_cons.2 ⟨?_, ih hs' hn⟩
          intro e he
          rcases (mem_mapInsert hn e).1 he with rfl | he
          · simp; omega
          · exact hlt e he

theorem mapFind_insert {m : List (Nat × Nat)} {a p : Nat} (hs : Sorted m)
    (hn : mapFind m a = none) (b : Nat) :
    mapFind (mapInsert m a p) b = if b = a then some p else mapFind m b := by
  have hs' := sorted_mapInsert (p := p) hs hn
  apply Option.ext
  intro q
  rw [mapFind_iff hs', mem_mapInsert hn]
  split
  · rename_i h; subst h
    constructor
    · rintro (h1 | h1)
      · simp at h1; simp [h1]
      · rw [← mapFind_iff hs, hn] at h1; simp at h1
    · intro h1; left; simpa using h1.symm
  · rename_i h
    rw [mapFind_iff hs]
    simp [h]

theorem sorted_mapErase {m : List (Nat × Nat)} (a : Nat) (hs : Sorted m) :
    Sorted (mapErase m a) := List.Pairwise.filter _ hs

theorem mapFind_erase {m : List (Nat × Nat)} (a : Nat) (hs : Sorted m) (b : Nat) :
    mapFind (mapErase m a) b = if b = a then none else mapFind m b := by
  have hs' := sorted_mapErase a hs
  apply Option.ext
  intro q
  rw [mapFind_iff hs']
  simp only [mapErase, List.mem_filter, bne_iff_ne]
  split
  · rename_i h; simp [h]
  · rename_i h; rw [mapFind_iff hs]; simp [h]

theorem mapPrevious_spec {m : List (Nat × Nat)} (hs : Sorted m) (a : Nat) :
    match mapPrevious m a with
    | none => ∀ e ∈ m, a ≤ e.1
    | some e => e ∈ m ∧ e.1 < a ∧ ∀ f ∈ m, f.1 < a → f.1 ≤ e.1 := by
  unfold mapPrevious
  have hsf : (m.filter (fun e => decide (e.1 < a))).Pairwise (fun e f => e.1 < f.1) :=
    List.Pairwise.filter _ hs
  cases h : (m.filter (fun e => decide (e.1 < a))).getLast? with
  | none =>
    rw [List.getLast?_eq_none_iff] at h
    rw [List.filter_eq_nil_iff] at h
    intro e he
    have := h e he
    simpa using this
  | some e =>
    simp only
    have hmem : e ∈ m.filter (fun e => decide (e.1 < a)) := List.mem_of_getLast? h
    have := List.mem_filter.1 hmem
    refine ⟨this.1, by simpa using this.2, ?_⟩
    intro f hf hfa
    have hfm : f ∈ m.filter (fun e => decide (e.1 < a)) := List.mem_filter.2 ⟨hf, by simpa using hfa⟩
    obtain ⟨ys, hys⟩ := List.getLast?_eq_some_iff.1 h
    rw [hys] at hfm hsf
    rcases List.mem_append.1 hfm with h1 | h1
    · have := (List.pairwise_append.1 hsf).2.2 f h1 e (by simp)
      omega
    · simp at h1; subst h1; omega

theorem mapLowerBound_spec {m : List (Nat × Nat)} (hs : Sorted m) (a : Nat) :
    match mapLowerBound m a with
    | none => ∀ e ∈ m, e.1 < a
    | some e => e ∈ m ∧ a ≤ e.1 ∧ ∀ f ∈ m, a ≤ f.1 → e.1 ≤ f.1 := by
  unfold mapLowerBound
  cases h : m.find? (fun e => decide (a ≤ e.1)) with
  | none =>
    rw [List.find?_eq_none] at h
    intro e he
    have := h e he
    simp at this
    exact this
  | some e =>
    simp only
    rw [List.find?_eq_some_iff_append] at h
    obtain ⟨h1, as, bs, rfl, h2⟩ := h
    refine ⟨by simp, by simpa using h1, ?_⟩
    intro f hf hfa
    rcases List.mem_append.1 hf with h3 | h3
    · have := h2 f h3
      simp at this
      omega
    · rcases List.mem_cons.1 h3 with rfl | h3
      · omega
      · have := (List.pairwise_cons.1 (List.pairwise_append.1 hs).2.1).1 f h3
        omega

/-! ### Usage counts -/

def Spec.countC (sp : Spec) (c : Nat) : Nat :=
  (List.range sp.next).countP (fun r => match sp.residuals r with
    | some i => i.cost == c | none => false)

def Spec.countL (sp : Spec) (l : Nat) : Nat :=
  (List.range sp.next).countP (fun r => match sp.residuals r with
    | some i => i.loss == some l | none => false)

theorem countP_upd_range {n r : Nat} (f g : Nat → Bool) (hr : r < n) (hf : f r = true)
    (hg : g r = false) (h : ∀ j, j ≠ r → g j = f j) :
    (List.range n).countP f = (List.range n).countP g + 1 := by
  induction n with
  | zero => omega
  | succ n ih =>
    rw [List.range_succ, List.countP_append, List.countP_append]
    by_cases hrn : r = n
    · subst hrn
      have : (List.range r).countP f = (List.range r).countP g := by
        apply List.countP_congr
        intro x hx
        have : x < r := List.mem_range.1 hx
        rw [h x (by omega)]
      simp [this, hf, hg]
    · have := ih (by omega)
      rw [this]
      have : g n = f n := h n (by omega)
      simp [this]
      omega

theorem Spec.countC_pos {sp : Spec} (hf : ∀ r, sp.next ≤ r → sp.residuals r = none) (c : Nat) :
    0 < sp.countC c ↔ sp.inUseC c := by
  unfold Spec.countC Spec.inUseC
  rw [List.countP_pos_iff]
  constructor
  · rintro ⟨r, _, h⟩
    cases hr : sp.residuals r with
    | none => simp [hr] at h
    | some i => exact ⟨r, i, hr, by simpa [hr] using h⟩
  · rintro ⟨r, i, hr, hi⟩
    refine ⟨r, ?_, by simp [hr, hi]⟩
    rw [List.mem_range]
    by_contra hc
    rw [hf r (by omega)] at hr
    simp at hr

theorem Spec.countL_pos {sp : Spec} (hf : ∀ r, sp.next ≤ r → sp.residuals r = none) (l : Nat) :
    0 < sp.countL l ↔ sp.inUseL l := by
  unfold Spec.countL Spec.inUseL
  rw [List.countP_pos_iff]
  constructor
  · rintro ⟨r, _, h⟩
    cases hr : sp.residuals r with
    | none => simp [hr] at h
    | some i => exact ⟨r, i, hr, by simpa [hr] using h⟩
  · rintro ⟨r, i, hr, hi⟩
    refine ⟨r, ?_, by simp [hr, hi]⟩
    rw [List.mem_range]
    by_contra hc
    rw [hf r (by omega)] at hr
    simp at hr

end Ceres.Problem
