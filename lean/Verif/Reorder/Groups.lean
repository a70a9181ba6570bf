import Verif.Reorder.Spec
import Verif.Graph.Hessian
import Verif.Graph.Reorder
import Verif.Inner.Setup
import Verif.Util.Props

/-!
# C91: the parameter blocks in groups
-/
namespace Ceres.Reorder

open Ceres.Graph

variable {B R V : Type} [DecidableEq B] [DecidableEq V]

/-! ## Indices -/

theorem setIndex_aux (l : List B) (hl : l.Nodup) : ∀ (k : ℕ) (f : B → Option ℕ) (b : B),
    ((l.zipIdx k).foldl (fun (f : B → Option ℕ) q => Function.update f q.1 (some q.2)) f) b =
      if b ∈ l then some (k + l.idxOf b) else f b := by
  induction l with
  | nil => intro k f b; simp
  | cons a l ih =>
    intro k f b
    rw [List.zipIdx_cons, List.foldl_cons, ih (List.nodup_cons.1 hl).2]
    by_cases hb : b ∈ l
    · have hne : a ≠ b := fun h => (List.nodup_cons.1 hl).1 (h ▸ hb)
      rw [if_pos hb, if_pos (List.mem_cons_of_mem _ hb), List.idxOf_cons_ne _ hne]
      congr 1; omega
    · rw [if_neg hb]
      by_cases hba : b = a
      · subst hba
        simp
      · rw [Function.update_of_ne hba, if_neg (by simp [hba, hb])]

theorem setIndex_indexed (p : Program B R) (h : p.blocks.Nodup) : Indexed p.setIndex := by
  intro b i
  show (p.blocks.zipIdx.foldl (fun (f : B → Option ℕ) q => Function.update f q.1 (some q.2)) fun _ => none) b = some i ↔
    p.blocks[i]? = some b
  rw [setIndex_aux _ h]
  constructor
  · intro hb
    by_cases hm : b ∈ p.blocks
    · rw [if_pos hm] at hb
      cases hb
      rw [Nat.zero_add]
      exact List.getElem?_idxOf hm
    · rw [if_neg hm] at hb; cases hb
  · intro hb
    have hm : b ∈ p.blocks := List.mem_of_getElem? hb
    obtain ⟨hi, hbi⟩ := List.getElem?_eq_some_iff.1 hb
    rw [if_pos hm, Nat.zero_add, ← hbi, h.idxOf_getElem]

theorem Indexed.isSome {p : Program B R} (h : Indexed p) {b : B} : (p.index b).isSome ↔ b ∈ p.blocks := by
  rw [Option.isSome_iff_exists]
  constructor
  · rintro ⟨i, hi⟩; exact List.mem_of_getElem? ((h b i).1 hi)
  · intro hb
    obtain ⟨i, hi⟩ := List.getElem?_of_mem hb
    exact ⟨i, (h b i).2 hi⟩

theorem mem_take_iff {l : List B} (hl : l.Nodup) {b : B} {i n : ℕ} (hi : l[i]? = some b) : b ∈ l.take n ↔ i < n := by
  obtain ⟨h1, h2⟩ := List.getElem?_eq_some_iff.1 hi
  constructor
  · intro hb
    obtain ⟨j, hj⟩ := List.getElem?_of_mem hb
    rw [List.getElem?_take] at hj
    by_cases hjn : j < n
    · rw [if_pos hjn] at hj
      obtain ⟨h3, h4⟩ := List.getElem?_eq_some_iff.1 hj
      have := (hl.getElem_inj_iff (hi := h1) (hj := h3)).1 (h2.trans h4.symm)
      omega
    · rw [if_neg hjn] at hj; cases hj
  · intro hin
    refine List.mem_of_getElem? (i := i) ?_
    rw [List.getElem?_take, if_pos hin, hi]

/-! ## Groups -/

/-- Arranged by groups, the first group is in front. -/
theorem take_group (key : B → ℤ) (g : ℤ) (l : List B) (hs : l.Pairwise fun a b => key a ≤ key b)
    (hmin : ∀ b ∈ l, g ≤ key b) :
    l.take (l.filter fun b => decide (key b = g)).length = l.filter fun b => decide (key b = g) := by
  induction l with
  | nil => rfl
  | cons a l ih =>
    obtain ⟨h1, h2⟩ := List.pairwise_cons.1 hs
    by_cases ha : key a = g
    · rw [List.filter_cons_of_pos (by simpa using ha), List.length_cons, List.take_succ_cons,
        ih h2 fun b hb => hmin b (by simp [hb])]
    · have hnil : (a :: l).filter (fun b => decide (key b = g)) = [] := by
        rw [List.filter_eq_nil_iff]
        intro b hb
        have h3 : g < key a := lt_of_le_of_ne (hmin a (by simp)) (Ne.symm ha)
        simp only [decide_eq_true_eq]
        rcases List.mem_cons.1 hb with rfl | hb
        · exact ha
        · have := h1 b hb
          omega
      rw [hnil]; rfl

/-- The elements of the ordering are the blocks of the program. -/
def Covers (W : World B R V) (G : Groups V) (blocks : List B) : Prop :=
  ∀ v, 0 ≤ G.groupId v ↔ ∃ b ∈ blocks, W.user b = v

theorem mem_keys {G : Groups V} {v : V} : v ∈ G.elementToGroup.map Prod.fst ↔ 0 ≤ G.groupId v := by
  rw [← lookup_isSome_iff]
  constructor
  · rintro ⟨g, hg⟩; rw [groupId_eq.2 hg]; omega
  · intro hv
    exact ⟨(G.groupId v).toNat, by rw [← groupId_eq, Int.toNat_of_nonneg hv]⟩

theorem covers_of_blocks {W : World B R V} (hinj : Function.Injective W.user) {G : Groups V} (h : G.WF) {blocks : List B}
    (hn : blocks.Nodup) (hlen : G.numElements = blocks.length) (hall : ∀ b ∈ blocks, 0 ≤ G.groupId (W.user b)) :
    Covers W G blocks := by
  have hsub : (blocks.map W.user) ⊆ G.elementToGroup.map Prod.fst := by
    intro v hv
    obtain ⟨b, hb, rfl⟩ := List.mem_map.1 hv
    exact mem_keys.2 (hall b hb)
  have hperm := ((hn.map hinj).subperm hsub).perm_of_length_le (by
    simp only [List.length_map]; exact le_of_eq hlen)
  intro v
  rw [← mem_keys, ← hperm.mem_iff, List.mem_map]

theorem covers_of_elements {W : World B R V} (hinj : Function.Injective W.user) {G : Groups V} (h : G.WF) {blocks : List B}
    (hn : blocks.Nodup) (hlen : G.numElements = blocks.length)
    (hall : ∀ v, 0 ≤ G.groupId v → ∃ b ∈ blocks, W.user b = v) : Covers W G blocks := by
  have hsub : G.elementToGroup.map Prod.fst ⊆ blocks.map W.user := by
    intro v hv
    exact List.mem_map.2 (hall v (mem_keys.1 hv))
  have hperm := (h.keys.subperm hsub).perm_of_length_le (by
    simp only [List.length_map]; exact le_of_eq hlen.symm)
  intro v
  rw [← mem_keys, hperm.mem_iff, List.mem_map]

/-- The first group of an ordering. -/
theorem first_group {G : Groups V} (h : G.WF) {g : ℕ} {E : List V} {rest : List (ℕ × List V)}
    (hG : G.groupToElements = (g, E) :: rest) :
    E.Nodup ∧ (∀ v, v ∈ E ↔ G.groupId v = g) ∧ ∀ v, 0 ≤ G.groupId v → (g : ℤ) ≤ G.groupId v := by
  have hlook : G.groupToElements.lookup g = some E := by rw [hG]; simp
  refine ⟨(h.sets g E hlook).2, fun v => ?_, fun v hv => ?_⟩
  · rw [groupId_eq, ← h.agree, mapGet, hlook]; rfl
  · have hv' : G.elementToGroup.lookup v = some (G.groupId v).toNat := by
      rw [← groupId_eq, Int.toNat_of_nonneg hv]
    have hm := (h.agree v _).2 hv'
    unfold mapGet at hm
    cases hl : G.groupToElements.lookup (G.groupId v).toNat with
    | none => rw [hl] at hm; simp at hm
    | some E' =>
      have := (lookup_iff h.sorted _ _).1 hl
      rw [hG] at this
      have hs := h.sorted
      rw [hG] at hs
      rcases List.mem_cons.1 this with h1 | h1
      · have := congrArg Prod.fst h1
        simp only at this
        omega
      · have := (List.pairwise_cons.1 hs).1 _ h1
        simp only at this
        omega

theorem first_group_length {W : World B R V} (hinj : Function.Injective W.user) {G : Groups V} (h : G.WF) {g : ℕ}
    {E : List V} {rest : List (ℕ × List V)} (hG : G.groupToElements = (g, E) :: rest) {blocks : List B}
    (hn : blocks.Nodup) (hc : Covers W G blocks) :
    E.length = (blocks.filter fun b => decide (G.groupId (W.user b) = g)).length := by
  obtain ⟨h1, h2, -⟩ := first_group h hG
  have : E.Perm ((blocks.filter fun b => decide (G.groupId (W.user b) = g)).map W.user) := by
    rw [List.perm_ext_iff_of_nodup h1 ((hn.filter _).map hinj)]
    intro v
    rw [h2, List.mem_map]
    constructor
    · intro hv
      obtain ⟨b, hb, rfl⟩ := (hc v).1 (by omega)
      exact ⟨b, by simp [hb, hv], rfl⟩
    · rintro ⟨b, hb, rfl⟩
      simpa using (List.mem_filter.1 hb).2
  simpa using this.length_eq

theorem groups_nonempty {G : Groups V} (h : G.WF) (hn : G.numElements ≠ 0) :
    ∃ g E rest, G.groupToElements = (g, E) :: rest := by
  cases hG : G.groupToElements with
  | cons p rest => exact ⟨p.1, p.2, rest, rfl⟩
  | nil =>
    exfalso
    unfold Groups.numElements at hn
    obtain ⟨p, hp⟩ := List.exists_mem_of_ne_nil G.elementToGroup (fun e => hn (by rw [e]; rfl))
    obtain ⟨g, hg⟩ := (lookup_isSome_iff G.elementToGroup p.1).2 (List.mem_map_of_mem hp)
    have := (h.agree _ _).2 hg
    rw [hG] at this
    simp [mapGet] at this

/-- The check of the first group. -/
theorem isSetIndependent_iff {W : World B R V} (hinj : Function.Injective W.user) {G : Groups V} (h : G.WF) {g : ℕ}
    {E : List V} {rest : List (ℕ × List V)} (hG : G.groupToElements = (g, E) :: rest) {p : Program B R}
    (hargs : ∀ r ∈ p.residuals, (W.args r).Nodup) :
    Inner.isSetIndependent (p.view W) W.user E = true ↔ IndependentGroup W p G g := by
  obtain ⟨h1, h2, -⟩ := first_group h hG
  unfold Inner.isSetIndependent IndependentGroup Program.view
  simp only [List.all_eq_true, Bool.not_eq_true', decide_eq_false_iff_not, List.mem_map]
  constructor
  · intro hall r hr a ha b hb hga hgb
    by_contra hab
    exact hall _ ⟨r, hr, rfl⟩ ((Inner.count_sum_le_one hinj h1 (hargs r hr)).2
      ⟨a, ha, b, hb, hab, (h2 _).2 hga, (h2 _).2 hgb⟩)
  · rintro hall _ ⟨r, hr, rfl⟩ hlt
    obtain ⟨a, ha, b, hb, hab, h3, h4⟩ := (Inner.count_sum_le_one hinj h1 (hargs r hr)).1 hlt
    exact hab (hall r hr a ha b hb ((h2 _).1 h3) ((h2 _).1 h4))

/-! ## The blocks found by Ceres -/

theorem markGroups_aux {W : World B R V} (hinj : Function.Injective W.user) (k : ℕ) (ord : List B) :
    ord.Nodup → ∀ (n : ℕ) (G : Groups V), G.WF →
    ((ord.zipIdx n).foldl (fun G q => (G.add (W.user q.1) (if q.2 < k then 0 else 1)).1) G).WF ∧
    (∀ i b, ord[i]? = some b →
      ((ord.zipIdx n).foldl (fun G q => (G.add (W.user q.1) (if q.2 < k then 0 else 1)).1) G).groupId (W.user b) =
        if n + i < k then 0 else 1) ∧
    ∀ v, (∀ b ∈ ord, W.user b ≠ v) →
      ((ord.zipIdx n).foldl (fun G q => (G.add (W.user q.1) (if q.2 < k then 0 else 1)).1) G).groupId v = G.groupId v := by
  induction ord with
  | nil => intro _ n G h; exact ⟨h, by simp, by simp⟩
  | cons a ord ih =>
    intro hn n G h
    obtain ⟨h1, h2⟩ := List.nodup_cons.1 hn
    obtain ⟨a1, -, a3⟩ := groups_add_spec G h (W.user a) (if n < k then 0 else 1)
    obtain ⟨i1, i2, i3⟩ := ih h2 (n + 1) _ a1
    rw [List.zipIdx_cons, List.foldl_cons]
    refine ⟨i1, ?_, ?_⟩
    · intro i b hb
      cases i with
      | zero =>
        simp only [List.getElem?_cons_zero, Option.some.injEq] at hb
        subst hb
        rw [i3 _ (fun b hb hab => h1 ((hinj hab : b = a) ▸ hb)), a3, if_pos ⟨rfl, by split <;> omega⟩]
        rfl
      | succ i =>
        rw [i2 i b (by simpa using hb)]
        have : n + 1 + i = n + (i + 1) := by omega
        rw [this]
    · intro v hv
      rw [i3 v fun b hb => hv b (by simp [hb]), a3, if_neg]
      rintro ⟨rfl, -⟩
      exact hv a (by simp) rfl

end Ceres.Reorder
