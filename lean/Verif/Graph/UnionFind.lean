import Verif.Graph.Hessian
import Mathlib.Logic.Relation
import Mathlib.Order.Basic
import Mathlib.Data.List.Dedup

/-!
# Union-find and single linkage clustering (C31)
-/

namespace Ceres.Graph

variable {V : Type} [LinearOrder V]

/-! ## Representatives -/

/-- Following the map from `v` one arrives at the root `r`. -/
inductive Rep (p : V → V) : V → V → Prop
  | root {r : V} (h : p r = r) : Rep p r r
  | step {v r : V} (h : p v ≠ v) (hr : Rep p (p v) r) : Rep p v r

/-- Parents are vertices and not larger than their children. -/
structure UFInv (vs : List V) (p : V → V) : Prop where
  le : ∀ v, p v ≤ v
  mem : ∀ v ∈ vs, p v ∈ vs

omit [LinearOrder V] in
theorem Rep.isRoot {p : V → V} {v r : V} (h : Rep p v r) : p r = r := by
  induction h with
  | root h => exact h
  | step _ _ ih => exact ih

omit [LinearOrder V] in
theorem Rep.unique {p : V → V} {v r r' : V} (h : Rep p v r) (h' : Rep p v r') : r = r' := by
  induction h with
  | root h =>
    cases h' with
    | root _ => rfl
    | step hn _ => exact absurd h hn
  | step hn _ ih =>
    cases h' with
    | root h => exact absurd h hn
    | step _ hr => exact ih hr

theorem Rep.le {vs : List V} {p : V → V} (hp : UFInv vs p) {v r : V} (h : Rep p v r) : r ≤ v := by
  induction h with
  | root _ => exact le_refl _
  | step _ _ ih => exact ih.trans (hp.le _)

theorem Rep.mem {vs : List V} {p : V → V} (hp : UFInv vs p) {v r : V} (h : Rep p v r) (hv : v ∈ vs) :
    r ∈ vs := by
  induction h with
  | root _ => exact hv
  | step _ _ ih => exact ih (hp.mem _ hv)

/-- Path compression does not change the representatives. -/
theorem rep_compress {p : V → V} {v r : V} (hr : Rep p v r) (hne : p v ≠ v) (u w : V) :
    Rep (Function.update p v r) u w ↔ Rep p u w := by
  have hrv : r ≠ v := fun e => hne (e ▸ hr.isRoot)
  constructor
  · intro h
    induction h with
    | @root w h =>
      have hw : w ≠ v := by
        rintro rfl
        rw [Function.update_self] at h; exact hrv h
      rw [Function.update_of_ne hw] at h
      exact .root h
    | @step u w h _ ih =>
      by_cases hu : u = v
      · subst hu
        rw [Function.update_self] at ih
        have : r = w := (Rep.root hr.isRoot).unique ih
        exact this ▸ hr
      · rw [Function.update_of_ne hu] at h ih
        exact .step h ih
  · intro h
    have hroot : Rep (Function.update p v r) r r :=
      .root (by rw [Function.update_of_ne hrv]; exact hr.isRoot)
    induction h with
    | @root w h =>
      have hw : w ≠ v := fun e => hne (e ▸ h)
      exact .root (by rw [Function.update_of_ne hw]; exact h)
    | @step u w h hu ih =>
      by_cases huv : u = v
      · subst huv
        have : r = w := hr.unique (.step h hu)
        subst this
        exact .step (by rw [Function.update_self]; exact hrv) (by rw [Function.update_self]; exact hroot)
      · exact .step (by rw [Function.update_of_ne huv]; exact h) (by rw [Function.update_of_ne huv]; exact ih)

/-- The rank of `v`: how many vertices are smaller. -/
def rank (vs : List V) (v : V) : ℕ := vs.countP fun u => decide (u < v)

theorem rank_lt {vs : List V} {u v : V} (h : u < v) (hu : u ∈ vs) : rank vs u < rank vs v := by
  unfold rank
  induction vs with
  | nil => simp at hu
  | cons a l ih =>
    rw [List.countP_cons, List.countP_cons]
    have hmono : l.countP (fun x => decide (x < u)) ≤ l.countP fun x => decide (x < v) :=
      List.countP_mono_left fun x _ hx => by
        simp only [decide_eq_true_eq] at hx ⊢; exact hx.trans h
    rcases List.mem_cons.mp hu with rfl | hu
    · simp only [lt_irrefl, decide_false, Bool.false_eq_true, if_false, h, decide_true, if_true]
      omega
    · have := ih hu
      by_cases h1 : a < u
      · simp only [h1, h1.trans h, decide_true, if_true]; omega
      · simp only [h1, decide_false, Bool.false_eq_true, if_false]; omega

theorem rank_lt_length {vs : List V} {v : V} (hv : v ∈ vs) : rank vs v < vs.length := by
  unfold rank
  refine lt_of_le_of_ne List.countP_le_length fun e => ?_
  have := List.countP_eq_length.mp e v hv
  simp at this

/-- `FindConnectedComponent` returns the root and changes no representative. -/
theorem find_spec {vs : List V} (fuel : ℕ) {p : V → V} (hp : UFInv vs p) {v : V} (hv : v ∈ vs)
    (hf : rank vs v < fuel) :
    ∃ r p', find fuel p v = some (r, p') ∧ Rep p v r ∧ UFInv vs p' ∧ p' v = r ∧
      (∀ u w, Rep p' u w ↔ Rep p u w) ∧ (∀ u, p' u = p u ∨ Rep p u (p' u)) := by
  induction fuel generalizing v with
  | zero => omega
  | succ n ih =>
    unfold find
    by_cases h : p v = v
    · rw [if_neg (by simpa using h)]
      exact ⟨v, p, rfl, .root h, hp, h, fun _ _ => Iff.rfl, fun _ => Or.inl rfl⟩
    · rw [if_pos h]
      have hlt : p v < v := lt_of_le_of_ne (hp.le v) h
      have := rank_lt hlt (hp.mem v hv)
      obtain ⟨r, p', h1, h2, h3, h4, h5, h6⟩ := ih (hp.mem v hv) (by omega)
      have hrep : Rep p v r := .step h h2
      have hrep' : Rep p' v r := (h5 v r).mpr hrep
      have hp'v : p' v ≠ v := fun e => by
        have hv' := (Rep.root e).unique hrep'
        have := h2.le hp
        rw [← hv'] at this
        exact absurd hlt (not_lt.mpr this)
      refine ⟨r, Function.update p' v r, by rw [h1]; rfl, hrep, ⟨?_, ?_⟩, by simp, ?_, ?_⟩
      · intro u
        by_cases hu : u = v
        · subst hu; rw [Function.update_self]; exact hrep.le hp
        · rw [Function.update_of_ne hu]; exact h3.le u
      · intro u hu
        by_cases huv : u = v
        · subst huv; rw [Function.update_self]; exact hrep.mem hp hv
        · rw [Function.update_of_ne huv]; exact h3.mem u hu
      · intro u w
        rw [rep_compress hrep' hp'v, h5]
      · intro u
        by_cases hu : u = v
        · subst hu; rw [Function.update_self]; exact Or.inr hrep
        · rw [Function.update_of_ne hu]; exact h6 u

theorem rep_exists {vs : List V} {p : V → V} (hp : UFInv vs p) {v : V} (hv : v ∈ vs) :
    ∃ r, Rep p v r := by
  obtain ⟨r, _, _, h, _⟩ := find_spec (rank vs v + 1) hp hv (by omega)
  exact ⟨r, h⟩

/-! ## Linking two roots -/

theorem link_inv {vs : List V} {p : V → V} (hp : UFInv vs p) {a b : V} (hab : a < b) (ha : a ∈ vs) :
    UFInv vs (Function.update p b a) := by
  constructor
  · intro u
    by_cases hu : u = b
    · subst hu; rw [Function.update_self]; exact hab.le
    · rw [Function.update_of_ne hu]; exact hp.le u
  · intro u hu
    by_cases hub : u = b
    · subst hub; rw [Function.update_self]; exact ha
    · rw [Function.update_of_ne hub]; exact hp.mem u hu

theorem rep_link {p : V → V} {a b : V} (hab : a ≠ b) (ha : p a = a) (hb : p b = b) (u w : V) :
    Rep (Function.update p b a) u w ↔ (Rep p u w ∧ w ≠ b) ∨ (Rep p u b ∧ w = a) := by
  have hra : Rep (Function.update p b a) a a := .root (by rw [Function.update_of_ne hab]; exact ha)
  have hrb : Rep (Function.update p b a) b a :=
    .step (by rw [Function.update_self]; exact hab) (by rw [Function.update_self]; exact hra)
  constructor
  · intro h
    induction h with
    | @root w h =>
      have hw : w ≠ b := by
        rintro rfl
        rw [Function.update_self] at h; exact hab h
      rw [Function.update_of_ne hw] at h
      exact Or.inl ⟨.root h, hw⟩
    | @step u w h _ ih =>
      by_cases hu : u = b
      · subst hu
        rw [Function.update_self] at ih
        refine Or.inr ⟨.root hb, ?_⟩
        rcases ih with ⟨ih, _⟩ | ⟨ih, e⟩
        · exact ih.unique (.root ha)
        · exact e
      · rw [Function.update_of_ne hu] at h ih
        rcases ih with ⟨ih, hw⟩ | ⟨ih, e⟩
        · exact Or.inl ⟨.step h ih, hw⟩
        · exact Or.inr ⟨.step h ih, e⟩
  · have key : ∀ {u w}, Rep p u w → Rep (Function.update p b a) u (if w = b then a else w) := by
      intro u w h
      induction h with
      | @root w h =>
        by_cases hw : w = b
        · subst hw; rw [if_pos rfl]; exact hrb
        · rw [if_neg hw]
          exact .root (by rw [Function.update_of_ne hw]; exact h)
      | @step u w h _ ih =>
        have hu : u ≠ b := fun e => h (e ▸ hb)
        exact .step (by rw [Function.update_of_ne hu]; exact h)
          (by rw [Function.update_of_ne hu]; exact ih)
    rintro (⟨h, hw⟩ | ⟨h, rfl⟩)
    · have := key h
      rwa [if_neg hw] at this
    · have := key h
      rwa [if_pos rfl] at this

/-! ## Components -/

/-- `p` describes the connected components of the relation `E` on `vs`. -/
structure CompInv (vs : List V) (p : V → V) (E : V → V → Prop) : Prop where
  uf : UFInv vs p
  sub : ∀ u w, E u w → u ∈ vs ∧ w ∈ vs
  comp : ∀ u ∈ vs, ∀ w ∈ vs, (∃ r, Rep p u r ∧ Rep p w r) ↔ Relation.EqvGen E u w

theorem CompInv.congrRep {vs : List V} {p p' : V → V} {E : V → V → Prop} (h : CompInv vs p E)
    (hp' : UFInv vs p') (he : ∀ u w, Rep p' u w ↔ Rep p u w) : CompInv vs p' E :=
  ⟨hp', h.sub, fun u hu w hw => by simp only [he]; exact h.comp u hu w hw⟩

theorem eqvGen_mono {E E' : V → V → Prop} (h : ∀ u w, E u w → E' u w) {u w : V}
    (hu : Relation.EqvGen E u w) : Relation.EqvGen E' u w := by
  induction hu with
  | rel x y hxy => exact .rel _ _ (h _ _ hxy)
  | refl x => exact .refl _
  | symm x y _ ih => exact .symm _ _ ih
  | trans x y z _ _ ih1 ih2 => exact .trans _ _ _ ih1 ih2

theorem compInv_id (vs : List V) : CompInv vs id (fun _ _ => False) where
  uf := ⟨fun _ => le_refl _, fun _ h => h⟩
  sub := by simp
  comp u _ w _ := by
    have hrep : ∀ x y : V, Rep id x y ↔ x = y := by
      intro x y
      constructor
      · intro h
        cases h with
        | root _ => rfl
        | step h _ => exact absurd rfl h
      · rintro rfl; exact .root rfl
    simp only [hrep]
    constructor
    · rintro ⟨r, rfl, rfl⟩; exact .refl _
    · intro h
      have : ∀ x y : V, Relation.EqvGen (fun _ _ => False) x y → x = y := by
        intro x y h
        induction h with
        | rel _ _ h => exact h.elim
        | refl _ => rfl
        | symm _ _ _ ih => exact ih.symm
        | trans _ _ _ _ _ ih1 ih2 => exact ih1.trans ih2
      exact ⟨w, this u w h, rfl⟩

/-- Adding an edge within a component changes nothing. -/
theorem CompInv.addSame {vs : List V} {p : V → V} {E : V → V → Prop} (h : CompInv vs p E) {a b r : V}
    (ha : a ∈ vs) (hb : b ∈ vs) (hra : Rep p a r) (hrb : Rep p b r) :
    CompInv vs p fun u w => E u w ∨ (u = a ∧ w = b) := by
  refine ⟨h.uf, ?_, ?_⟩
  · rintro u w (h' | ⟨rfl, rfl⟩)
    · exact h.sub u w h'
    · exact ⟨ha, hb⟩
  · intro u hu w hw
    rw [h.comp u hu w hw]
    constructor
    · exact eqvGen_mono fun _ _ => Or.inl
    · intro h'
      induction h' with
      | rel x y hxy =>
        rcases hxy with hxy | ⟨rfl, rfl⟩
        · exact .rel _ _ hxy
        · exact (h.comp _ ha _ hb).mp ⟨r, hra, hrb⟩
      | refl x => exact .refl _
      | symm x y _ ih => exact .symm _ _ (ih hw hu)
      | trans x y z h1 h2 ih1 ih2 =>
        by_cases hy : y ∈ vs
        · exact .trans _ _ _ (ih1 hu hy) (ih2 hy hw)
        · have hsub : ∀ x y, Relation.EqvGen (fun u w => E u w ∨ (u = a ∧ w = b)) x y →
              x = y ∨ (x ∈ vs ∧ y ∈ vs) := by
            intro x y hxy
            induction hxy with
            | rel x y hxy =>
              rcases hxy with hxy | ⟨rfl, rfl⟩
              · exact Or.inr (h.sub _ _ hxy)
              · exact Or.inr ⟨ha, hb⟩
            | refl x => exact Or.inl rfl
            | symm x y _ ih =>
              rcases ih with ih | ih
              · exact Or.inl ih.symm
              · exact Or.inr ih.symm
            | trans x y z _ _ ih1 ih2 =>
              rcases ih1 with rfl | ih1
              · exact ih2
              · rcases ih2 with rfl | ih2
                · exact Or.inr ih1
                · exact Or.inr ⟨ih1.1, ih2.2⟩
          rcases hsub _ _ h1 with rfl | h1
          · exact absurd hu hy
          · exact absurd h1.2 hy

/-- Linking the roots of two components adds an edge between them. -/
theorem CompInv.link {vs : List V} {p : V → V} {E : V → V → Prop} (h : CompInv vs p E) {a b : V}
    (ha : a ∈ vs) (hb : b ∈ vs) {ra rb : V} (hra : Rep p a ra) (hrb : Rep p b rb)
    (hne : ra ≠ rb) {s t : V} (hst : (s = ra ∧ t = rb) ∨ (s = rb ∧ t = ra)) (hlt : s < t) :
    CompInv vs (Function.update p t s) fun u w => E u w ∨ (u = a ∧ w = b) := by
  have hs : p s = s := by
    rcases hst with ⟨rfl, rfl⟩ | ⟨rfl, rfl⟩
    · exact hra.isRoot
    · exact hrb.isRoot
  have ht : p t = t := by
    rcases hst with ⟨rfl, rfl⟩ | ⟨rfl, rfl⟩
    · exact hrb.isRoot
    · exact hra.isRoot
  have hsm : s ∈ vs := by
    rcases hst with ⟨rfl, rfl⟩ | ⟨rfl, rfl⟩
    · exact hra.mem h.uf ha
    · exact hrb.mem h.uf hb
  have hrep := rep_link (p := p) hlt.ne hs ht
  have huf := link_inv h.uf hlt hsm
  have hE' : ∀ u w, E u w ∨ (u = a ∧ w = b) → u ∈ vs ∧ w ∈ vs := by
    rintro u w (h' | ⟨rfl, rfl⟩)
    · exact h.sub u w h'
    · exact ⟨ha, hb⟩
  have hab' : Relation.EqvGen (fun u w => E u w ∨ (u = a ∧ w = b)) a b := .rel _ _ (Or.inr ⟨rfl, rfl⟩)
  refine ⟨huf, hE', ?_⟩
  intro u hu w hw
  have lift : ∀ x y, x ∈ vs → y ∈ vs → (∃ r, Rep p x r ∧ Rep p y r) →
      Relation.EqvGen (fun u w => E u w ∨ (u = a ∧ w = b)) x y := fun x y hx hy hr =>
    eqvGen_mono (fun _ _ => Or.inl) ((h.comp x hx y hy).mp hr)
  have hcross : ∀ x y, x ∈ vs → y ∈ vs → Rep p x s → Rep p y t →
      Relation.EqvGen (fun u w => E u w ∨ (u = a ∧ w = b)) x y := by
    intro x y hx hy h1 h2
    rcases hst with ⟨rfl, rfl⟩ | ⟨rfl, rfl⟩
    · exact .trans _ _ _ (lift x a hx ha ⟨_, h1, hra⟩) (.trans _ _ _ hab' (lift b y hb hy ⟨_, hrb, h2⟩))
    · exact .trans _ _ _ (lift x b hx hb ⟨_, h1, hrb⟩)
        (.trans _ _ _ (.symm _ _ hab') (lift a y ha hy ⟨_, hra, h2⟩))
  have hcomp' : ∀ x y, (∃ r, Rep p x r ∧ Rep p y r) →
      ∃ r, Rep (Function.update p t s) x r ∧ Rep (Function.update p t s) y r := by
    rintro x y ⟨r, h1, h2⟩
    by_cases hr : r = t
    · subst hr
      exact ⟨s, (hrep _ _).mpr (Or.inr ⟨h1, rfl⟩), (hrep _ _).mpr (Or.inr ⟨h2, rfl⟩)⟩
    · exact ⟨r, (hrep _ _).mpr (Or.inl ⟨h1, hr⟩), (hrep _ _).mpr (Or.inl ⟨h2, hr⟩)⟩
  have hnewab : ∃ r, Rep (Function.update p t s) a r ∧ Rep (Function.update p t s) b r := by
    refine ⟨s, ?_, ?_⟩
    · rcases hst with ⟨rfl, rfl⟩ | ⟨rfl, rfl⟩
      · exact (hrep _ _).mpr (Or.inl ⟨hra, hlt.ne⟩)
      · exact (hrep _ _).mpr (Or.inr ⟨hra, rfl⟩)
    · rcases hst with ⟨rfl, rfl⟩ | ⟨rfl, rfl⟩
      · exact (hrep _ _).mpr (Or.inr ⟨hrb, rfl⟩)
      · exact (hrep _ _).mpr (Or.inl ⟨hrb, hlt.ne⟩)
  constructor
  · rintro ⟨r, h1, h2⟩
    rcases (hrep _ _).mp h1 with ⟨k1, e1⟩ | ⟨k1, e1⟩ <;> rcases (hrep _ _).mp h2 with ⟨k2, e2⟩ | ⟨k2, e2⟩
    · exact lift u w hu hw ⟨r, k1, k2⟩
    · exact hcross u w hu hw (e2 ▸ k1) k2
    · exact .symm _ _ (hcross w u hw hu (e1 ▸ k2) k1)
    · exact lift u w hu hw ⟨t, k1, k2⟩
  · intro h'
    have main : ∀ x y, Relation.EqvGen (fun u w => E u w ∨ (u = a ∧ w = b)) x y →
        x = y ∨ (x ∈ vs ∧ y ∈ vs ∧
          ∃ r, Rep (Function.update p t s) x r ∧ Rep (Function.update p t s) y r) := by
      intro x y hxy
      induction hxy with
      | rel x y hxy =>
        right
        refine ⟨(hE' x y hxy).1, (hE' x y hxy).2, ?_⟩
        rcases hxy with hxy | ⟨rfl, rfl⟩
        · exact hcomp' x y ((h.comp x (h.sub x y hxy).1 y (h.sub x y hxy).2).mpr (.rel _ _ hxy))
        · exact hnewab
      | refl x => exact Or.inl rfl
      | symm x y _ ih =>
        rcases ih with ih | ⟨h1, h2, r, h3, h4⟩
        · exact Or.inl ih.symm
        · exact Or.inr ⟨h2, h1, r, h4, h3⟩
      | trans x y z _ _ ih1 ih2 =>
        rcases ih1 with rfl | ⟨h1, h2, r, h3, h4⟩
        · exact ih2
        · rcases ih2 with rfl | ⟨g1, g2, r', g3, g4⟩
          · exact Or.inr ⟨h1, h2, r, h3, h4⟩
          · have := h4.unique g3
            subst this
            exact Or.inr ⟨h1, g2, r, h3, g4⟩
    rcases main u w h' with rfl | ⟨_, _, h'⟩
    · obtain ⟨r, hr⟩ := rep_exists huf hu
      exact ⟨r, hr, hr⟩
    · exact h'

/-! ## Single linkage clustering -/

variable {K : Type} [LinearOrder K]

/-- The graph without its weights. -/
def WGraph.toGraph {K : Type} (g : WGraph V K) : Graph V := ⟨g.vertices, g.nbrs⟩

omit [LinearOrder V] in
theorem mem_edges {K : Type} (g : WGraph V K) (e : V × V) :
    e ∈ g.edges ↔ e.1 ∈ g.vertices ∧ e.2 ∈ g.nbrs e.1 := by
  unfold WGraph.edges
  simp only [List.mem_flatMap, List.mem_map]
  constructor
  · rintro ⟨v, hv, w, hw, rfl⟩; exact ⟨hv, hw⟩
  · rintro ⟨h1, h2⟩; exact ⟨e.1, h1, e.2, h2, rfl⟩

theorem clusterStep_spec (g : WGraph V K) (hg : g.toGraph.WF) (minSim : K) {fuel : ℕ}
    (hf : g.vertices.length ≤ fuel) {p : V → V} {E : V → V → Prop} (h : CompInv g.vertices p E)
    {e : V × V} (he : e ∈ g.edges) :
    ∃ p', clusterStep fuel g minSim p e = some p' ∧
      CompInv g.vertices p' fun u w => E u w ∨
        ((u = e.1 ∧ w = e.2) ∧ ¬(e.2 < e.1 ∨ g.edgeWeight e.1 e.2 < minSim)) := by
  obtain ⟨h1, h2⟩ := (mem_edges g e).mp he
  have h2' : e.2 ∈ g.vertices := hg.mem _ _ h2
  unfold clusterStep
  by_cases hc : e.2 < e.1 ∨ g.edgeWeight e.1 e.2 < minSim
  · rw [if_pos hc]
    refine ⟨p, rfl, ?_⟩
    simpa [hc] using h
  · rw [if_neg hc]
    simp only [hc, not_false_eq_true, and_true]
    obtain ⟨r1, p1, f1, f2, f3, _, f5, _⟩ := find_spec fuel h.uf h1 ((rank_lt_length h1).trans_le hf)
    obtain ⟨r2, p2, g1, g2, g3, _, g5, _⟩ := find_spec fuel f3 h2' ((rank_lt_length h2').trans_le hf)
    have hC : CompInv g.vertices p2 E := (h.congrRep f3 f5).congrRep g3 g5
    have hr1 : Rep p2 e.1 r1 := (g5 _ _).mpr ((f5 _ _).mpr f2)
    have hr2 : Rep p2 e.2 r2 := (g5 _ _).mpr g2
    simp only [f1, g1, Option.bind_some]
    by_cases hrr : r1 = r2
    · rw [if_pos hrr]
      exact ⟨p2, rfl, hC.addSame h1 h2' hr1 (hrr ▸ hr2)⟩
    · rw [if_neg hrr]
      by_cases hlt : r1 < r2
      · rw [if_pos hlt]
        exact ⟨_, rfl, hC.link h1 h2' hr1 hr2 hrr (Or.inl ⟨rfl, rfl⟩) hlt⟩
      · rw [if_neg hlt]
        exact ⟨_, rfl, hC.link h1 h2' hr1 hr2 hrr (Or.inr ⟨rfl, rfl⟩)
          (lt_of_le_of_ne (not_lt.mp hlt) (Ne.symm hrr))⟩

theorem clusterFold_spec (g : WGraph V K) (hg : g.toGraph.WF) (minSim : K) {fuel : ℕ}
    (hf : g.vertices.length ≤ fuel) (L : List (V × V)) (hL : ∀ e ∈ L, e ∈ g.edges) {p : V → V}
    {E : V → V → Prop} (h : CompInv g.vertices p E) :
    ∃ p', L.foldlM (clusterStep fuel g minSim) p = some p' ∧
      CompInv g.vertices p' fun u w => E u w ∨
        ((u, w) ∈ L ∧ ¬(w < u ∨ g.edgeWeight u w < minSim)) := by
  induction L generalizing p E with
  | nil => exact ⟨p, rfl, by simpa using h⟩
  | cons e L ih =>
    obtain ⟨p1, h1, h2⟩ := clusterStep_spec g hg minSim hf h (hL e (by simp))
    obtain ⟨p2, h3, h4⟩ := ih (fun e he => hL e (by simp [he])) h2
    refine ⟨p2, by rw [List.foldlM_cons, h1]; exact h3, ?_⟩
    have : (fun u w => E u w ∨ ((u, w) ∈ e :: L ∧ ¬(w < u ∨ g.edgeWeight u w < minSim)))
        = fun u w => (E u w ∨ ((u = e.1 ∧ w = e.2) ∧ ¬(e.2 < e.1 ∨ g.edgeWeight e.1 e.2 < minSim))) ∨
          ((u, w) ∈ L ∧ ¬(w < u ∨ g.edgeWeight u w < minSim)) := by
      funext u w
      rw [List.mem_cons, Prod.ext_iff]
      apply propext
      constructor
      · rintro (h' | ⟨(⟨h', h''⟩ | h'), h3⟩)
        · exact Or.inl (Or.inl h')
        · simp only at h' h''
          subst h'; subst h''
          exact Or.inl (Or.inr ⟨⟨rfl, rfl⟩, h3⟩)
        · exact Or.inr ⟨h', h3⟩
      · rintro ((h' | ⟨⟨rfl, rfl⟩, h3⟩) | ⟨h', h3⟩)
        · exact Or.inl h'
        · exact Or.inr ⟨Or.inl ⟨rfl, rfl⟩, h3⟩
        · exact Or.inr ⟨Or.inr h', h3⟩
    rw [this]
    exact h4

theorem countFold_spec {vs : List V} {fuel : ℕ} (hf : vs.length ≤ fuel) (keys : List V)
    (hk : ∀ v ∈ keys, v ∈ vs) {p : V → V} (hp : UFInv vs p) (n : ℕ) :
    ∃ p', keys.foldlM (countStep fuel) (n, p)
        = some (n + keys.countP (fun v => decide (p v = v)), p') ∧ UFInv vs p' ∧
      (∀ u w, Rep p' u w ↔ Rep p u w) ∧
      (∀ v, (v ∈ keys ∨ Rep p v (p v)) → Rep p v (p' v)) := by
  induction keys generalizing p n with
  | nil => exact ⟨p, rfl, hp, fun _ _ => Iff.rfl, fun v hv => by simpa using hv⟩
  | cons a keys ih =>
    have ha := hk a (by simp)
    obtain ⟨r, p1, f1, f2, f3, f4, f5, f6⟩ := find_spec fuel hp ha ((rank_lt_length ha).trans_le hf)
    have hupd : Function.update p1 a r = p1 := by
      rw [← f4]; exact Function.update_eq_self a p1
    have hroot : ∀ v, p1 v = v ↔ p v = v := by
      intro v
      constructor
      · intro h; exact ((f5 v v).mp (.root h)).isRoot
      · intro h; exact ((f5 v v).mpr (.root h)).isRoot
    have hstep : countStep fuel (n, p) a = some (if a = r then n + 1 else n, p1) := by
      unfold countStep
      simp only [f1, Option.map_some, hupd]
    obtain ⟨p2, g1, g2, g3, g4⟩ := ih (fun v hv => hk v (by simp [hv])) f3 (if a = r then n + 1 else n)
    refine ⟨p2, ?_, g2, fun u w => (g3 u w).trans (f5 u w), ?_⟩
    · rw [List.foldlM_cons, hstep]
      change keys.foldlM (countStep fuel) _ = _
      rw [g1, List.countP_cons]
      have hcnt : keys.countP (fun v => decide (p1 v = v)) = keys.countP fun v => decide (p v = v) :=
        List.countP_congr fun v _ => by simp [hroot v]
      have har : a = r ↔ p a = a := by
        constructor
        · intro e; rw [e]; exact f2.isRoot
        · intro e; exact (Rep.root e).unique f2
      rw [hcnt]
      by_cases h : a = r
      · rw [if_pos h]; simp only [har.mp h, decide_true, if_true]
        congr 2; omega
      · rw [if_neg h]
        have : ¬p a = a := fun e => h (har.mpr e)
        simp [this]
    · intro v hv
      have : v ∈ keys ∨ Rep p1 v (p1 v) := by
        rcases hv with hv | hv
        · rcases List.mem_cons.mp hv with rfl | hv
          · right; rw [f4, f5]; exact f2
          · exact Or.inl hv
        · right
          rw [f5]
          rcases f6 v with h | h
          · rw [h]; exact hv
          · exact h
      exact (f5 _ _).mp (g4 v this)

/-- Two vertices are similar: they are joined by an edge whose weight is not below the threshold. -/
def Similar (g : WGraph V K) (minSim : K) (u w : V) : Prop :=
  w ∈ g.nbrs u ∧ minSim ≤ g.edgeWeight u w

omit [LinearOrder K] in
theorem edgeWeight_symm (g : WGraph V K) (u w : V) : g.edgeWeight u w = g.edgeWeight w u := by
  unfold WGraph.edgeWeight
  rcases lt_trichotomy u w with h | h | h
  · rw [if_pos h, if_neg (not_lt.mpr h.le)]
  · subst h; rfl
  · rw [if_neg (not_lt.mpr h.le), if_pos h]

/-- **C31.** `ComputeSingleLinkageClustering` ends for every weighted graph and threshold.  Two
vertices are in the same cluster iff a path of edges whose weights are not below the threshold joins
them.  A cluster is named by its smallest vertex.  The return value is the number of clusters. -/
theorem singleLinkage_spec (g : WGraph V K) (hg : g.toGraph.WF) (minSim : K) (keys : List V)
    (hk : keys.Perm g.vertices) (fuel : ℕ) (hf : g.vertices.length ≤ fuel) :
    ∃ n m, singleLinkage fuel g minSim keys = some (n, m) ∧
      (∀ u ∈ g.vertices, ∀ w ∈ g.vertices,
        m u = m w ↔ Relation.ReflTransGen (Similar g minSim) u w) ∧
      (∀ u ∈ g.vertices, m u ∈ g.vertices ∧ m (m u) = m u ∧ ∀ w ∈ g.vertices, m w = m u → m u ≤ w) ∧
      n = (g.vertices.map m).dedup.length := by
  obtain ⟨p, h1, h2⟩ := clusterFold_spec g hg minSim hf g.edges (fun _ h => h) (compInv_id g.vertices)
  obtain ⟨m, g1, g2, g3, g4⟩ := countFold_spec hf keys (fun v hv => hk.mem_iff.mp hv) h2.uf 0
  have hm : ∀ v ∈ g.vertices, Rep p v (m v) := fun v hv => g4 v (Or.inl (hk.mem_iff.mpr hv))
  have hsame : ∀ u ∈ g.vertices, ∀ w ∈ g.vertices, m u = m w ↔ ∃ r, Rep p u r ∧ Rep p w r := by
    intro u hu w hw
    constructor
    · intro e; exact ⟨m u, hm u hu, e ▸ hm w hw⟩
    · rintro ⟨r, k1, k2⟩
      exact ((hm u hu).unique k1).trans (k2.unique (hm w hw))
  have hmm : ∀ u ∈ g.vertices, m u ∈ g.vertices ∧ m (m u) = m u := by
    intro u hu
    have hmem := (hm u hu).mem h2.uf hu
    exact ⟨hmem, (hm _ hmem).unique (.root (hm u hu).isRoot)⟩
  refine ⟨_, m, by unfold singleLinkage; rw [h1]; exact g1, ?_, ?_, ?_⟩
  · intro u hu w hw
    rw [hsame u hu w hw, h2.comp u hu w hw]
    have hsymm : ∀ x y, Similar g minSim x y → Similar g minSim y x := by
      rintro x y ⟨k1, k2⟩
      exact ⟨hg.symm _ _ k1, by rwa [edgeWeight_symm]⟩
    have hsymm' : ∀ x y, Relation.ReflTransGen (Similar g minSim) x y →
        Relation.ReflTransGen (Similar g minSim) y x := by
      intro x y h
      induction h with
      | refl => exact .refl
      | tail _ hyz ih => exact .head (hsymm _ _ hyz) ih
    constructor
    · intro h
      induction h with
      | rel x y hxy =>
        simp only [false_or] at hxy
        obtain ⟨k1, k2⟩ := hxy
        have k1' := (mem_edges g _).mp k1
        exact .single ⟨k1'.2, by push Not at k2; exact k2.2⟩
      | refl x => exact .refl
      | symm x y _ ih => exact hsymm' _ _ (ih hw hu)
      | trans x y z hxy hyz ih1 ih2 =>
        by_cases hy : y ∈ g.vertices
        · exact (ih1 hu hy).trans (ih2 hy hw)
        · have hsub : ∀ x y, Relation.EqvGen (fun u w => False ∨
              (u, w) ∈ g.edges ∧ ¬(w < u ∨ g.edgeWeight u w < minSim)) x y →
              x = y ∨ (x ∈ g.vertices ∧ y ∈ g.vertices) := by
            intro x y hxy
            induction hxy with
            | rel x y hxy => exact Or.inr (h2.sub x y hxy)
            | refl x => exact Or.inl rfl
            | symm x y _ ih =>
              rcases ih with ih | ih
              · exact Or.inl ih.symm
              · exact Or.inr ih.symm
            | trans x y z _ _ ih1 ih2 =>
              rcases ih1 with rfl | ih1
              · exact ih2
              · rcases ih2 with rfl | ih2
                · exact Or.inr ih1
                · exact Or.inr ⟨ih1.1, ih2.2⟩
          rcases hsub _ _ hxy with rfl | h'
          · exact absurd hu hy
          · exact absurd h'.2 hy
    · intro h
      have hmem : ∀ x y, Similar g minSim x y → x ∈ g.vertices ∧ y ∈ g.vertices := fun x y hxy =>
        ⟨hg.mem _ _ (hg.symm _ _ hxy.1), hg.mem _ _ hxy.1⟩
      clear hu hw
      induction h with
      | refl => exact .refl _
      | @tail y z _ hyz ih =>
        refine .trans _ _ _ ih ?_
        have hm := hmem y z hyz
        have hno : ¬g.edgeWeight y z < minSim := not_lt.mpr hyz.2
        rcases le_or_gt y z with hle | hlt
        · exact .rel _ _ (Or.inr ⟨(mem_edges g _).mpr ⟨hm.1, hyz.1⟩, by
            push Not; exact ⟨hle, hyz.2⟩⟩)
        · refine .symm _ _ (.rel _ _ (Or.inr ⟨(mem_edges g _).mpr ⟨hm.2, hg.symm _ _ hyz.1⟩, ?_⟩))
          push Not
          exact ⟨hlt.le, by rw [edgeWeight_symm]; exact hyz.2⟩
  · intro u hu
    refine ⟨(hmm u hu).1, (hmm u hu).2, fun w hw e => ?_⟩
    rw [← e]
    exact (hm w hw).le h2.uf
  · have hcount : keys.countP (fun v => decide (p v = v))
        = (g.vertices.filter fun v => decide (m v = v)).length := by
      rw [hk.countP_eq, List.countP_eq_length_filter]
      congr 1
      refine List.filter_congr fun v hv => ?_
      have : p v = v ↔ m v = v := by
        constructor
        · intro e; exact (hm v hv).unique (.root e)
        · intro e; have := (hm v hv).isRoot; rwa [e] at this
      simp [this]
    rw [Nat.zero_add, hcount]
    have hperm : (g.vertices.filter fun v => decide (m v = v)).Perm (g.vertices.map m).dedup := by
      refine (List.perm_ext_iff_of_nodup (hg.nodup.filter _) (List.nodup_dedup _)).mpr fun v => ?_
      rw [List.mem_filter, List.mem_dedup, List.mem_map]
      constructor
      · rintro ⟨hv, e⟩
        exact ⟨v, hv, by simpa using e⟩
      · rintro ⟨u, hu, rfl⟩
        exact ⟨(hmm u hu).1, by simpa using (hmm u hu).2⟩
    exact hperm.length_eq

/-! ## A concrete case -/

/-- Two triangles joined by a weak edge, and an isolated vertex. -/
def exWeighted : WGraph ℕ ℤ :=
  ⟨[5, 0, 3, 1, 4, 2, 6],
    fun v => if v = 0 then [1, 2] else if v = 1 then [2, 0] else if v = 2 then [0, 1, 3] else
      if v = 3 then [2, 5, 4] else if v = 4 then [3, 5] else if v = 5 then [4, 3] else [],
    fun _ => 1, fun e => if e = (2, 3) then 1 else 7⟩

theorem exWeighted_wf : exWeighted.toGraph.WF where
  nodup := by decide
  nbrs_nodup v := by
    unfold exWeighted WGraph.toGraph; dsimp only; split_ifs <;> decide
  symm v w := by
    unfold exWeighted WGraph.toGraph; dsimp only
    split_ifs <;> simp_all <;> omega
  mem v w := by
    unfold exWeighted WGraph.toGraph; dsimp only
    split_ifs <;> simp <;> omega

example : (singleLinkage 7 exWeighted 5 [6, 5, 4, 3, 2, 1, 0]).map
    (fun r => (r.1, exWeighted.vertices.map r.2)) = some (3, [3, 0, 3, 0, 3, 0, 6]) := by decide +kernel

end Ceres.Graph
