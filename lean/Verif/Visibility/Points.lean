import Verif.Visibility.Spec
import Verif.SchurDirect.Spec
import Mathlib.Data.List.Count

/-!
# C86: visibility and the weights of the graph of cameras
-/

noncomputable section

namespace Ceres.Visibility

open Ceres.BlockSparse Ceres.Graph Ceres.SchurDirect

/-! ## Sets -/

theorem mem_insertId (x y : ℕ) (l : List ℕ) : y ∈ insertId x l ↔ y = x ∨ y ∈ l := by
  induction l with
  | nil => simp [insertId]
  | cons a l ih =>
    unfold insertId
    split_ifs with h1 h2
    · simp
    · subst h2; simp
    · simp only [List.mem_cons, ih]; tauto

theorem insertId_sorted (x : ℕ) (l : List ℕ) (h : l.Pairwise (· < ·)) : (insertId x l).Pairwise (· < ·) := by
  induction l with
  | nil => simp [insertId]
  | cons a l ih =>
    rw [List.pairwise_cons] at h
    unfold insertId
    split_ifs with h1 h2
    · refine List.pairwise_cons.2 ⟨fun b hb => ?_, List.pairwise_cons.2 h⟩
      rcases List.mem_cons.1 hb with rfl | hb
      · exact h1
      · exact h1.trans (h.1 b hb)
    · exact List.pairwise_cons.2 h
    · refine List.pairwise_cons.2 ⟨fun b hb => ?_, ih h.2⟩
      rcases (mem_insertId x b l).1 hb with rfl | hb
      · omega
      · exact h.1 b hb

/-- A family of sets. -/
def Sets (s : ℕ → List ℕ) (P : ℕ → ℕ → Prop) : Prop := ∀ a, (s a).Pairwise (· < ·) ∧ ∀ e, e ∈ s a ↔ P a e

theorem Sets.congr {s : ℕ → List ℕ} {P Q : ℕ → ℕ → Prop} (h : Sets s P) (hpq : ∀ a e, P a e ↔ Q a e) : Sets s Q :=
  fun a => ⟨(h a).1, fun e => ((h a).2 e).trans (hpq a e)⟩

theorem Sets.insert {s : ℕ → List ℕ} {P : ℕ → ℕ → Prop} (h : Sets s P) (b v : ℕ) :
    Sets (Function.update s b (insertId v (s b))) fun a e => P a e ∨ a = b ∧ e = v := by
  intro a
  by_cases hab : a = b
  · subst hab
    rw [Function.update_self]
    refine ⟨insertId_sorted v _ (h a).1, fun e => ?_⟩
    rw [mem_insertId, (h a).2]
    tauto
  · rw [Function.update_of_ne hab]
    refine ⟨(h a).1, fun e => ?_⟩
    rw [(h a).2]
    tauto

/-- Insertions into a family of sets. -/
theorem Sets.foldl {α : Type} (key val : α → ℕ) (l : List α) {s : ℕ → List ℕ} {P : ℕ → ℕ → Prop} (h : Sets s P) :
    Sets (l.foldl (fun s x => Function.update s (key x) (insertId (val x) (s (key x)))) s)
      fun a e => P a e ∨ ∃ x ∈ l, a = key x ∧ e = val x := by
  induction l generalizing s P with
  | nil => exact h.congr fun a e => by simp
  | cons x l ih =>
    refine (ih (h.insert (key x) (val x))).congr fun a e => ?_
    simp only [List.mem_cons, exists_eq_or_imp]
    tauto

theorem sets_empty : Sets (fun _ => []) fun _ _ => False := fun _ => ⟨List.Pairwise.nil, fun _ => by simp⟩

theorem Sets.finset {s : ℕ → List ℕ} {P : ℕ → ℕ → Prop} (h : Sets s P) (a : ℕ) {F : Finset ℕ}
    (hF : ∀ e, e ∈ F ↔ P a e) : (s a).length = F.card := by
  have hnd : (s a).Nodup := (h a).1.imp fun h => Nat.ne_of_lt h
  rw [← List.toFinset_card_of_nodup hnd]
  congr 1
  ext e
  rw [List.mem_toFinset, (h a).2, hF]

/-! ## `ComputeVisibility` -/

variable {bs : BS} {ne : ℕ}

theorem first_e (ho : SchurOrdered ne bs) {r : BRow} (hr : r ∈ bs.rows) {c : Cell} {cs : List Cell}
    (h : r.cells = c :: cs) : (∀ d ∈ cs, c.blockId < d.blockId) ∧ (c.blockId < ne → ∀ d ∈ cs, ne ≤ d.blockId) ∧
      (ne ≤ c.blockId → ∀ d ∈ r.cells, ne ≤ d.blockId) := by
  have hs := ho.sorted r hr
  rw [h, List.map_cons, List.pairwise_cons] at hs
  have h1 : ∀ d ∈ cs, c.blockId < d.blockId := fun d hd => hs.1 _ (List.mem_map_of_mem hd)
  refine ⟨h1, fun hc d hd => ?_, fun hc d hd => ?_⟩
  · by_contra hlt
    have := ho.independent r hr c (by rw [h]; simp) d (by rw [h]; simp [hd]) hc (by omega)
    have := h1 d hd
    omega
  · rw [h] at hd
    rcases List.mem_cons.1 hd with rfl | hd
    · exact hc
    · have := h1 d hd
      omega

theorem visibilityRow_sets (ho : SchurOrdered ne bs) {r : BRow} (hr : r ∈ bs.rows) {s : ℕ → List ℕ}
    {P : ℕ → ℕ → Prop} (h : Sets s P) :
    Sets (visibilityRow ne s r) fun a e => P a e ∨
      e < ne ∧ (∃ c ∈ r.cells, c.blockId = e) ∧ ∃ d ∈ r.cells, d.blockId = ne + a := by
  unfold visibilityRow
  split
  · next hc => exact h.congr fun a e => by rw [hc]; simp
  · next c cs hc =>
    obtain ⟨h1, h2, h3⟩ := first_e ho hr hc
    split_ifs with hlt
    · refine h.congr fun a e => ⟨Or.inl, ?_⟩
      rintro (h | ⟨he, ⟨d, hd, rfl⟩, -⟩)
      · exact h
      · have := h3 hlt d hd
        omega
    · have h2 := h2 (by omega)
      refine (Sets.foldl (fun d : Cell => d.blockId - ne) (fun _ => c.blockId) cs h).congr fun a e => ?_
      rw [hc]
      constructor
      · rintro (h | ⟨d, hd, rfl, rfl⟩)
        · exact Or.inl h
        · refine Or.inr ⟨by omega, ⟨c, by simp, rfl⟩, d, by simp [hd], ?_⟩
          have := h2 d hd
          omega
      · rintro (h | ⟨he, ⟨d, hd, rfl⟩, d', hd', hda⟩)
        · exact Or.inl h
        · right
          have e1 : d = c := by
            rcases List.mem_cons.1 hd with rfl | hd
            · rfl
            · have := h2 d hd
              omega
          subst e1
          rcases List.mem_cons.1 hd' with rfl | hd'
          · omega
          · exact ⟨d', hd', by omega, rfl⟩

/-- **C86.**  `ComputeVisibility` finds exactly the points that a camera sees. -/
theorem visibility_sets (ho : SchurOrdered ne bs) : Sets (computeVisibility bs ne) (Sees bs ne) := by
  unfold computeVisibility
  have key : ∀ l : List BRow, (∀ r ∈ l, r ∈ bs.rows) → ∀ (s : ℕ → List ℕ) (P : ℕ → ℕ → Prop), Sets s P →
      Sets (l.foldl (visibilityRow ne) s) fun a e => P a e ∨ e < ne ∧ ∃ r ∈ l,
        (∃ c ∈ r.cells, c.blockId = e) ∧ ∃ d ∈ r.cells, d.blockId = ne + a := by
    intro l
    induction l with
    | nil => exact fun _ s P h => h.congr fun a e => by simp
    | cons r l ih =>
      intro hl s P h
      refine (ih (fun r hr => hl r (List.mem_cons_of_mem _ hr)) _ _
        (visibilityRow_sets ho (hl r (by simp)) h)).congr fun a e => ?_
      simp only [List.mem_cons, exists_eq_or_imp]
      rw [or_assoc, ← and_or_left]
  exact (key bs.rows (fun _ h => h) _ _ sets_empty).congr fun a e => by simp [Sees]

theorem mem_points (a e : ℕ) : e ∈ points bs ne a ↔ Sees bs ne a e := by
  classical
  unfold points
  rw [Finset.mem_filter, Finset.mem_range]
  exact ⟨fun h => h.2, fun h => ⟨h.1, h⟩⟩

theorem visibility_card (ho : SchurOrdered ne bs) (a : ℕ) :
    (computeVisibility bs ne a).length = (points bs ne a).card :=
  (visibility_sets ho).finset a fun e => mem_points a e

/-! ## `camera_pairs` -/

theorem lt_numPoints {vis : ℕ → List ℕ} {P : ℕ → ℕ → Prop} (h : Sets vis P) {n a e : ℕ} (ha : a < n) (he : P a e) :
    e < numPoints vis n := by
  unfold numPoints
  have hmono : ∀ (l : List ℕ) (p : ℕ), p ≤ l.foldl
      (fun p i => match (vis i).getLast? with | none => p | some v => max p (v + 1)) p := by
    intro l
    induction l with
    | nil => exact fun p => le_rfl
    | cons i l ih =>
      intro p
      refine le_trans ?_ (ih _)
      beta_reduce
      cases (vis i).getLast? with
      | none => exact le_rfl
      | some v => exact le_max_left _ _
  have key : ∀ (l : List ℕ) (p : ℕ), a ∈ l → e < l.foldl
      (fun p i => match (vis i).getLast? with | none => p | some v => max p (v + 1)) p := by
    intro l
    induction l with
    | nil => exact fun p h => nomatch h
    | cons i l ih =>
      intro p hi
      rcases List.mem_cons.1 hi with rfl | hi
      · refine lt_of_lt_of_le ?_ (hmono l _)
        have hmem := ((h a).2 e).2 he
        beta_reduce
        cases hl : (vis a).getLast? with
        | none => rw [List.getLast?_eq_none_iff] at hl; rw [hl] at hmem; cases hmem
        | some v =>
          have hle : e ≤ v := by
            obtain ⟨l', hl'⟩ := List.getLast?_eq_some_iff.1 hl
            have hs := (h a).1
            rw [hl'] at hs hmem
            rcases List.mem_append.1 hmem with hm | hm
            · exact (List.pairwise_append.1 hs).2.2 e hm v (by simp) |>.le
            · simp at hm; omega
          exact lt_of_lt_of_le (Nat.lt_succ_of_le hle) (le_max_right _ _)
      · exact ih _ hi
  exact key _ _ (List.mem_range.2 ha)

theorem inverse_sets {vis : ℕ → List ℕ} {P : ℕ → ℕ → Prop} (h : Sets vis P) (n : ℕ) :
    Sets (inverseVisibility vis n) fun e a => a < n ∧ P a e := by
  unfold inverseVisibility
  have key : ∀ (l : List ℕ) (s : ℕ → List ℕ) (Q : ℕ → ℕ → Prop), Sets s Q →
      Sets (l.foldl (fun inv i => (vis i).foldl (fun inv v => Function.update inv v (insertId i (inv v))) inv) s)
        fun e a => Q e a ∨ a ∈ l ∧ P a e := by
    intro l
    induction l with
    | nil => exact fun s Q h => h.congr fun a e => by simp
    | cons i l ih =>
      intro s Q hs
      refine (ih _ _ (Sets.foldl (fun v : ℕ => v) (fun _ => i) (vis i) hs)).congr fun e a => ?_
      simp only [List.mem_cons, exists_eq_right_right']
      constructor
      · rintro ((h1 | ⟨x, hx, rfl, rfl⟩) | h1)
        · exact Or.inl h1
        · exact Or.inr ⟨Or.inl rfl, ((h a).2 e).1 hx⟩
        · exact Or.inr ⟨Or.inr h1.1, h1.2⟩
      · rintro (h1 | ⟨rfl | h1, h2⟩)
        · exact Or.inl (Or.inl h1)
        · exact Or.inl (Or.inr ⟨e, ((h a).2 e).2 h2, rfl, rfl⟩)
        · exact Or.inr ⟨h1, h2⟩
  exact (key _ _ _ sets_empty).congr fun e a => by simp

theorem mem_upper {l : List ℕ} (h : l.Pairwise (· < ·)) (p : ℕ × ℕ) :
    p ∈ Schur.upperPairs l ↔ p.1 ∈ l ∧ p.2 ∈ l ∧ p.1 < p.2 := by
  induction l with
  | nil => simp [Schur.upperPairs]
  | cons a l ih =>
    rw [List.pairwise_cons] at h
    rw [Schur.upperPairs, List.mem_append, List.mem_map, ih h.2]
    constructor
    · rintro (⟨b, hb, rfl⟩ | ⟨h1, h2, h3⟩)
      · exact ⟨by simp, by simp [hb], h.1 b hb⟩
      · exact ⟨by simp [h1], by simp [h2], h3⟩
    · rintro ⟨h1, h2, h3⟩
      rcases List.mem_cons.1 h1 with h1 | h1 <;> rcases List.mem_cons.1 h2 with h2 | h2
      · omega
      · exact Or.inl ⟨p.2, h2, by rw [← h1]⟩
      · have := h.1 _ h1
        omega
      · exact Or.inr ⟨h1, h2, h3⟩

theorem upper_nodup {l : List ℕ} (h : l.Pairwise (· < ·)) : (Schur.upperPairs l).Nodup := by
  induction l with
  | nil => simp [Schur.upperPairs]
  | cons a l ih =>
    rw [List.pairwise_cons] at h
    rw [Schur.upperPairs, List.nodup_append]
    refine ⟨List.Nodup.map (fun b c h => (Prod.mk.inj h).2) (h.2.imp fun h => Nat.ne_of_lt h), ih h.2, ?_⟩
    intro p hp q hq hpq
    subst hpq
    obtain ⟨b, hb, rfl⟩ := List.mem_map.1 hp
    have := h.1 a ((mem_upper h.2 _).1 hq).1
    omega

theorem count_foldl (l : List (ℕ × ℕ)) (m : ℕ × ℕ → ℕ) (p : ℕ × ℕ) :
    l.foldl (fun m p => Function.update m p (m p + 1)) m p = m p + l.count p := by
  induction l generalizing m with
  | nil => simp
  | cons q l ih =>
    rw [List.foldl_cons, ih, List.count_cons]
    by_cases h : p = q
    · subst h; simp; omega
    · rw [Function.update_of_ne h, if_neg (by simpa using fun h' => h h'.symm)]
      omega

theorem cameraPairs_eq {vis : ℕ → List ℕ} {P : ℕ → ℕ → Prop} (h : Sets vis P) (n a b : ℕ) {F : Finset ℕ}
    (hF : ∀ e, e ∈ F ↔ P a e ∧ P b e) :
    cameraPairs vis n (a, b) = if a < b ∧ b < n then F.card else 0 := by
  have hinv := inverse_sets h n
  unfold cameraPairs
  have key : ∀ (l : List ℕ), l.Nodup → ∀ (m : ℕ × ℕ → ℕ),
      l.foldl (fun m v => (Schur.upperPairs (inverseVisibility vis n v)).foldl
        (fun m p => Function.update m p (m p + 1)) m) m (a, b) =
      m (a, b) + if a < b ∧ b < n then (F.filter fun e => e ∈ l).card else 0 := by
    intro l
    induction l with
    | nil => intro _ m; simp
    | cons v l ih =>
      intro hnd m
      rw [List.nodup_cons] at hnd
      rw [List.foldl_cons, ih hnd.2, count_foldl]
      have hc : (Schur.upperPairs (inverseVisibility vis n v)).count (a, b) =
          if (a < b ∧ b < n) ∧ v ∈ F then 1 else 0 := by
        rw [List.Nodup.count (upper_nodup (hinv v).1), if_congr (Q := (a < b ∧ b < n) ∧ v ∈ F) _ rfl rfl]
        rw [mem_upper (hinv v).1, (hinv v).2, (hinv v).2, hF]
        constructor
        · rintro ⟨⟨h1, h2⟩, ⟨h3, h4⟩, h5⟩
          exact ⟨⟨h5, h3⟩, h2, h4⟩
        · rintro ⟨⟨h5, h3⟩, h2, h4⟩
          have h5 : a < b := h5
          exact ⟨⟨by omega, h2⟩, ⟨h3, h4⟩, h5⟩
      rw [hc]
      by_cases hab : a < b ∧ b < n
      · rw [if_pos hab, if_pos hab]
        by_cases hv : v ∈ F
        · rw [if_pos ⟨hab, hv⟩]
          have : F.filter (fun e => e ∈ v :: l) = insert v (F.filter fun e => e ∈ l) := by
            ext e
            simp only [Finset.mem_filter, List.mem_cons, Finset.mem_insert]
            constructor
            · rintro ⟨h1, rfl | h2⟩
              · exact Or.inl rfl
              · exact Or.inr ⟨h1, h2⟩
            · rintro (rfl | h1)
              · exact ⟨hv, Or.inl rfl⟩
              · exact ⟨h1.1, Or.inr h1.2⟩
          rw [this, Finset.card_insert_of_notMem (by simp [hnd.1])]
          omega
        · rw [if_neg fun h => hv h.2]
          rw [add_zero]
          refine congrArg (fun G : Finset ℕ => m (a, b) + G.card) ?_
          ext e
          simp only [Finset.mem_filter, List.mem_cons]
          constructor
          · exact fun h => ⟨h.1, Or.inr h.2⟩
          · rintro ⟨h1, rfl | h2⟩
            · exact absurd h1 hv
            · exact ⟨h1, h2⟩
      · rw [if_neg hab, if_neg hab, if_neg fun h => hab h.1]
  rw [key _ List.nodup_range, zero_add]
  split_ifs with hab
  · congr 1
    refine Finset.filter_true_of_mem fun e he => List.mem_range.2 ?_
    exact lt_numPoints h hab.2 ((hF e).1 he).2
  · rfl

end Ceres.Visibility
