import Verif.Visibility.CameraGraph

/-!
# C86: canonical views clustering
-/

noncomputable section

namespace Ceres.Visibility

open Ceres.BlockSparse Ceres.Graph Ceres.SchurDirect

variable {bs : BS} {ne n : ℕ} {g : WGraph ℕ ℝ}

theorem closest_append (C : List ℕ) (c a : ℕ) :
    closest bs ne (C ++ [c]) a = max (closest bs ne C a) (similarity bs ne a c) := by
  unfold closest
  induction C with
  | nil => simp only [List.nil_append, List.foldr]; rw [max_comm]
  | cons d C ih => rw [List.cons_append, List.foldr_cons, ih, List.foldr_cons, max_assoc]

theorem closest_nonneg (C : List ℕ) (a : ℕ) : 0 ≤ closest bs ne C a := by
  unfold closest
  induction C with
  | nil => exact le_rfl
  | cons d C ih => rw [List.foldr_cons]; exact ih.trans (le_max_right _ _)

theorem le_closest {C : List ℕ} {c : ℕ} (hc : c ∈ C) (a : ℕ) : similarity bs ne a c ≤ closest bs ne C a := by
  unfold closest
  induction C with
  | nil => cases hc
  | cons d C ih =>
    rw [List.foldr_cons]
    rcases List.mem_cons.1 hc with rfl | hc
    · exact le_max_left _ _
    · exact (ih hc).trans (le_max_right _ _)

/-- The graph on which the views are found. -/
abbrev CameraGraph (bs : BS) (ne n : ℕ) (g : WGraph ℕ ℝ) : Prop :=
  IsGraph g n (fun u x => u < n ∧ x < n ∧ 0 < similarity bs ne u x)
    fun u x => if u < n ∧ x < n then similarity bs ne u x else 0

/-- What is known about the assignment when the views are `C`. -/
structure Assigned (bs : BS) (ne n : ℕ) (C : List ℕ) (s : Assignment) : Prop where
  value : ∀ a < n, s.similarity a = closest bs ne C a
  unassigned : ∀ a < n, s.view a = none → closest bs ne C a = 0
  assigned : ∀ a < n, ∀ c, s.view a = some c → c ∈ C ∧ 0 < closest bs ne C a ∧
    similarity bs ne a c = closest bs ne C a

theorem update_fold (w : ℕ → ℝ) (c : ℕ) (l : List ℕ) (hnd : l.Nodup) (s : Assignment) (a : ℕ) :
    let s' := l.foldl (fun s x => if s.similarity x < w x then
      ⟨Function.update s.view x (some c), Function.update s.similarity x (w x)⟩ else s) s
    s'.similarity a = (if a ∈ l ∧ s.similarity a < w a then w a else s.similarity a) ∧
      s'.view a = if a ∈ l ∧ s.similarity a < w a then some c else s.view a := by
  induction l generalizing s with
  | nil => simp
  | cons x l ih =>
    rw [List.nodup_cons] at hnd
    intro s'
    have := ih hnd.2 (if s.similarity x < w x then
      ⟨Function.update s.view x (some c), Function.update s.similarity x (w x)⟩ else s)
    refine ⟨this.1.trans ?_, this.2.trans ?_⟩
    all_goals
      by_cases hax : a = x
      · subst hax
        by_cases hs : s.similarity a < w a
        · simp [hs, hnd.1]
        · simp [hs]
      · by_cases hs : s.similarity x < w x
        · simp [hs, hax]
        · simp [hs, hax]

theorem Assigned.update (hg : CameraGraph bs ne n g) {C : List ℕ} {s : Assignment} (h : Assigned bs ne n C s) {c : ℕ}
    (hc : c < n) : Assigned bs ne n (C ++ [c]) (updateAssignments g s c) := by
  have hw : ∀ a < n, g.edgeWeight a c = similarity bs ne a c := fun a ha => by
    rw [hg.weight, if_pos ⟨ha, hc⟩]
  have key : ∀ a < n, (updateAssignments g s c).similarity a =
        (if closest bs ne C a < similarity bs ne a c then similarity bs ne a c else closest bs ne C a) ∧
      (updateAssignments g s c).view a =
        if closest bs ne C a < similarity bs ne a c then some c else s.view a := by
    intro a ha
    have := update_fold (fun x => g.edgeWeight x c) c (g.nbrs c) (hg.nbrs_nodup c) s a
    have hiff : (a ∈ g.nbrs c ∧ s.similarity a < g.edgeWeight a c) ↔
        closest bs ne C a < similarity bs ne a c := by
      rw [hg.nbrs, hw a ha, h.value a ha, similarity_symm c a]
      exact ⟨fun h => h.2, fun h' => ⟨⟨hc, ha, (closest_nonneg C a).trans_lt h'⟩, h'⟩⟩
    refine ⟨this.1.trans ?_, this.2.trans (if_congr hiff rfl rfl)⟩
    rw [if_congr hiff rfl rfl, hw a ha, h.value a ha]
  constructor
  · intro a ha
    rw [(key a ha).1, closest_append]
    split_ifs with hlt
    · rw [max_eq_right hlt.le]
    · rw [max_eq_left (not_lt.1 hlt)]
  · intro a ha hv
    rw [(key a ha).2] at hv
    split_ifs at hv with hlt
    have h0 := h.unassigned a ha hv
    rw [closest_append, max_eq_left (not_lt.1 hlt), h0]
  · intro a ha d hv
    rw [(key a ha).2] at hv
    rw [closest_append]
    split_ifs at hv with hlt
    · obtain rfl := Option.some.inj hv
      refine ⟨by simp, ?_, ?_⟩
      · exact (closest_nonneg C a).trans_lt (lt_max_of_lt_right hlt)
      · rw [max_eq_right hlt.le]
    · obtain ⟨h1, h2, h3⟩ := h.assigned a ha d hv
      rw [max_eq_left (not_lt.1 hlt)]
      exact ⟨by simp [h1], h2, h3⟩

theorem sum_fold (f w : ℕ → ℝ) (l : List ℕ) (d : ℝ) :
    l.foldl (fun d x => if f x < w x then d + (w x - f x) else d) d =
      d + (l.map fun x => max 0 (w x - f x)).sum := by
  induction l generalizing d with
  | nil => simp
  | cons x l ih =>
    rw [List.foldl_cons, ih, List.map_cons, List.sum_cons]
    split_ifs with h
    · rw [max_eq_right (by linarith)]; ring
    · rw [max_eq_left (by linarith)]; ring

/-- **C86.**  The quality difference is the difference of the qualities. -/
theorem difference_eq (hg : CameraGraph bs ne n g) {C : List ℕ} {s : Assignment} (h : Assigned bs ne n C s) {c : ℕ}
    (hc : c < n) :
    qualityDifference viewOptions g s c C = quality bs ne n (C ++ [c]) - quality bs ne n C := by
  unfold qualityDifference
  have h0 : ∀ (l : List ℕ) (d : ℝ),
      l.foldl (fun d c' => d - viewOptions.similarityPenaltyWeight * g.edgeWeight c' c) d = d := by
    intro l
    induction l with
    | nil => exact fun _ => rfl
    | cons x l ih => intro d; rw [List.foldl_cons, ih]; simp [viewOptions]
  simp only
  rw [h0, sum_fold (fun x => s.similarity x) (fun x => g.edgeWeight x c)]
  have h1 : ((g.nbrs c).map fun x => max 0 (g.edgeWeight x c - s.similarity x)).sum =
      ∑ a ∈ Finset.range n, max 0 (similarity bs ne a c - closest bs ne C a) := by
    rw [← List.sum_toFinset _ (hg.nbrs_nodup c)]
    have hsub : (g.nbrs c).toFinset ⊆ Finset.range n := by
      intro a ha
      rw [List.mem_toFinset, hg.nbrs] at ha
      exact Finset.mem_range.2 ha.2.1
    rw [← Finset.sum_subset hsub (f := fun a => max 0 (similarity bs ne a c - closest bs ne C a))]
    · refine Finset.sum_congr rfl fun a ha => ?_
      have ha := Finset.mem_range.1 (hsub ha)
      rw [hg.weight, if_pos ⟨ha, hc⟩, h.value a ha]
    · intro a ha hna
      rw [List.mem_toFinset, hg.nbrs] at hna
      rw [Finset.mem_range] at ha
      have : similarity bs ne c a ≤ 0 := not_lt.1 fun hlt => hna ⟨hc, ha, hlt⟩
      rw [similarity_symm] at this
      exact max_eq_left (by linarith [closest_nonneg (bs := bs) (ne := ne) C a])
  rw [h1]
  unfold quality
  have h2 : ∀ a, closest bs ne (C ++ [c]) a =
      closest bs ne C a + max 0 (similarity bs ne a c - closest bs ne C a) := by
    intro a
    rw [closest_append]
    rcases le_total (closest bs ne C a) (similarity bs ne a c) with hle | hle
    · rw [max_eq_right hle, max_eq_right (by linarith)]; ring
    · rw [max_eq_left hle, max_eq_left (by linarith)]; ring
  simp only [h2, Finset.sum_add_distrib, List.length_append, List.length_singleton, Nat.cast_add, Nat.cast_one,
    viewOptions]
  ring

theorem bestView_spec (f : ℕ → ℝ) (l : List ℕ) (hl : l ≠ []) :
    ∃ v ∈ l, bestView f l = some (f v, v) ∧ ∀ a ∈ l, f a ≤ f v := by
  unfold bestView
  have key : ∀ (l : List ℕ) (v : ℕ), ∃ v', (v' = v ∨ v' ∈ l) ∧ l.foldl (fun best v =>
      match best with
      | none => some (f v, v)
      | some b => if b.1 < f v then some (f v, v) else some b) (some (f v, v)) = some (f v', v') ∧
      f v ≤ f v' ∧ ∀ a ∈ l, f a ≤ f v' := by
    intro l
    induction l with
    | nil => exact fun v => ⟨v, Or.inl rfl, rfl, le_rfl, fun a h => nomatch h⟩
    | cons x l ih =>
      intro v
      rw [List.foldl_cons]
      by_cases hlt : f v < f x
      · obtain ⟨v', h1, h2, h3, h4⟩ := ih x
        refine ⟨v', ?_, ?_, hlt.le.trans h3, fun a ha => ?_⟩
        · rcases h1 with rfl | h1
          · exact Or.inr (by simp)
          · exact Or.inr (by simp [h1])
        · simp only [if_pos hlt]
          exact h2
        · rcases List.mem_cons.1 ha with rfl | ha
          · exact h3
          · exact h4 a ha
      · obtain ⟨v', h1, h2, h3, h4⟩ := ih v
        refine ⟨v', ?_, ?_, h3, fun a ha => ?_⟩
        · rcases h1 with rfl | h1
          · exact Or.inl rfl
          · exact Or.inr (by simp [h1])
        · simp only [if_neg hlt]
          exact h2
        · rcases List.mem_cons.1 ha with rfl | ha
          · exact (not_lt.1 hlt).trans h3
          · exact h4 a ha
  cases l with
  | nil => exact absurd rfl hl
  | cons x l =>
    obtain ⟨v, h1, h2, h3, h4⟩ := key l x
    refine ⟨v, ?_, h2, fun a ha => ?_⟩
    · rcases h1 with rfl | h1
      · simp
      · simp [h1]
    · rcases List.mem_cons.1 ha with rfl | ha
      · exact h3
      · exact h4 a ha

/-- The views found so far. -/
structure GreedyPart (bs : BS) (ne n : ℕ) (centers : List ℕ) : Prop where
  cameras : ∀ c ∈ centers, c < n
  distinct : centers.Nodup
  best : ∀ k c, centers[k]? = some c → ∀ a < n, a ∉ centers.take k →
    quality bs ne n (centers.take k ++ [a]) ≤ quality bs ne n (centers.take k ++ [c])
  useful : ∀ k c, centers[k]? = some c → 3 ≤ k →
    quality bs ne n (centers.take k) < quality bs ne n (centers.take k ++ [c])

theorem GreedyPart.snoc {C : List ℕ} (h : GreedyPart bs ne n C) {c : ℕ} (hc : c < n) (hnc : c ∉ C)
    (hb : ∀ a < n, a ∉ C → quality bs ne n (C ++ [a]) ≤ quality bs ne n (C ++ [c]))
    (hu : 3 ≤ C.length → quality bs ne n C < quality bs ne n (C ++ [c])) : GreedyPart bs ne n (C ++ [c]) := by
  have hsplit : ∀ k d, (C ++ [c])[k]? = some d → (C[k]? = some d ∧ (C ++ [c]).take k = C.take k) ∨
      (d = c ∧ k = C.length ∧ (C ++ [c]).take k = C) := by
    intro k d hd
    rcases lt_trichotomy k C.length with hk | hk | hk
    · rw [List.getElem?_append_left hk] at hd
      exact Or.inl ⟨hd, List.take_append_of_le_length hk.le⟩
    · subst hk
      rw [List.getElem?_append_right le_rfl] at hd
      simp at hd
      exact Or.inr ⟨hd.symm, rfl, List.take_left⟩
    · rw [List.getElem?_eq_none (by simp; omega)] at hd
      cases hd
  constructor
  · intro d hd
    rcases List.mem_append.1 hd with hd | hd
    · exact h.cameras d hd
    · rw [List.mem_singleton.1 hd]; exact hc
  · exact List.nodup_append.2 ⟨h.distinct, List.nodup_singleton c, fun a ha b hb hab => hnc (by
      rw [List.mem_singleton.1 hb] at hab; exact hab ▸ ha)⟩
  · intro k d hd
    rcases hsplit k d hd with ⟨h1, h2⟩ | ⟨rfl, h1, h2⟩
    · rw [h2]; exact h.best k d h1
    · rw [h2]; exact hb
  · intro k d hd
    rcases hsplit k d hd with ⟨h1, h2⟩ | ⟨rfl, h1, h2⟩
    · rw [h2]; exact h.useful k d h1
    · rw [h2, h1]; exact hu

theorem canonicalLoop_spec (hg : CameraGraph bs ne n g) (fuel : ℕ) (valid C : List ℕ) (s : Assignment)
    (hf : valid.length ≤ fuel) (hnd : valid.Nodup) (hv : ∀ v, v ∈ valid ↔ v < n ∧ v ∉ C)
    (hC : GreedyPart bs ne n C) (hs : Assigned bs ne n C s) :
    ∃ C' s', canonicalLoop viewOptions g fuel valid C s = some (C', s') ∧ Greedy bs ne n C' ∧
      Assigned bs ne n C' s' := by
  induction fuel generalizing valid C s with
  | zero =>
    have : valid = [] := List.eq_nil_of_length_eq_zero (by omega)
    refine ⟨C, s, by rw [canonicalLoop, if_pos this], ⟨hC.cameras, hC.distinct, hC.best, hC.useful, Or.inl ?_⟩, hs⟩
    intro a ha
    by_contra hna
    have := (hv a).2 ⟨ha, hna⟩
    simp_all
  | succ fuel ih =>
    by_cases hval : valid = []
    · refine ⟨C, s, by rw [canonicalLoop, if_pos hval],
        ⟨hC.cameras, hC.distinct, hC.best, hC.useful, Or.inl ?_⟩, hs⟩
      intro a ha
      by_contra hna
      have := (hv a).2 ⟨ha, hna⟩
      simp_all
    · obtain ⟨b, hb, hbe, hbest⟩ := bestView_spec (fun v => qualityDifference viewOptions g s v C) valid hval
      obtain ⟨hbn, hbC⟩ := (hv b).1 hb
      have hdiff : ∀ a < n, qualityDifference viewOptions g s a C = quality bs ne n (C ++ [a]) - quality bs ne n C :=
        fun a ha => difference_eq hg hs ha
      have hbest' : ∀ a < n, a ∉ C → quality bs ne n (C ++ [a]) ≤ quality bs ne n (C ++ [b]) := by
        intro a ha hna
        have := hbest a ((hv a).2 ⟨ha, hna⟩)
        simp only [hdiff a ha, hdiff b hbn] at this
        linarith
      rw [canonicalLoop, if_neg hval, hbe, Option.bind_some]
      simp only
      split_ifs with hstop
      · refine ⟨C, s, rfl, ⟨hC.cameras, hC.distinct, hC.best, hC.useful, Or.inr ⟨hstop.2, fun a ha hna => ?_⟩⟩, hs⟩
        have h1 := hbest' a ha hna
        have h2 := hstop.1
        rw [hdiff b hbn] at h2
        linarith
      · refine ih (valid.erase b) (C ++ [b]) _ ?_ (hnd.erase b) (fun v => ?_) (hC.snoc hbn hbC hbest' fun h3 => ?_)
          (hs.update hg hbn)
        · rw [List.length_erase_of_mem hb]; omega
        · rw [hnd.mem_erase_iff, hv, List.mem_append, List.mem_singleton]; tauto
        · have : ¬qualityDifference viewOptions g s b C ≤ 0 := fun h => hstop ⟨h, h3⟩
          rw [hdiff b hbn] at this
          linarith

theorem clusterIdOf_spec {C : List ℕ} {c : ℕ} (hc : c ∈ C) : ∃ k, clusterIdOf C c = some k ∧ C[k]? = some c := by
  unfold clusterIdOf
  obtain ⟨k, hk⟩ := List.mem_iff_getElem?.1 hc
  have hne : ((List.range C.length).filter fun i => C[i]? = some c) ≠ [] := by
    refine List.ne_nil_of_mem (a := k) ?_
    rw [List.mem_filter, List.mem_range]
    refine ⟨?_, by simpa using hk⟩
    by_contra hlt
    rw [List.getElem?_eq_none (by omega)] at hk
    cases hk
  refine ⟨_, List.getLast?_eq_getLast_of_ne_nil hne, ?_⟩
  have := List.getLast_mem hne
  rw [List.mem_filter] at this
  simpa using this.2

/-- The index of a closest view, or -1 for a camera that is similar to no view. -/
def Member (bs : BS) (ne : ℕ) (centers : List ℕ) (a : ℕ) (m : ℤ) : Prop :=
  m = -1 ∧ (∀ c ∈ centers, similarity bs ne a c = 0) ∨
    ∃ k c : ℕ, m = k ∧ centers[k]? = some c ∧ 0 < similarity bs ne a c ∧
      ∀ c' ∈ centers, similarity bs ne a c' ≤ similarity bs ne a c

theorem canonicalViews_spec (hg : CameraGraph bs ne n g) (valid : List ℕ) (hv : valid.Perm g.vertices) :
    ∃ C m, canonicalViews viewOptions g valid = some (C, m) ∧ Greedy bs ne n C ∧
      ∀ a < n, Member bs ne C a (m a) := by
  obtain ⟨C, s, h1, h2, h3⟩ := canonicalLoop_spec hg valid.length valid [] ⟨fun _ => none, fun _ => 0⟩ le_rfl
    (hv.nodup_iff.2 hg.nodup) (fun v => by rw [hv.mem_iff, hg.mem]; simp)
    ⟨fun c h => (List.not_mem_nil h).elim, List.nodup_nil, fun k c h => by simp at h, fun k c h => by simp at h⟩
    ⟨fun a _ => rfl, fun a _ _ => rfl, fun a _ c h => by cases h⟩
  have key : ∀ a < n, ∃ m, clusterId C s a = some m ∧ Member bs ne C a m := by
    intro a ha
    unfold clusterId
    cases hva : s.view a with
    | none =>
      refine ⟨-1, rfl, Or.inl ⟨rfl, fun c hc => le_antisymm ?_ (similarity_nonneg a c)⟩⟩
      rw [← h3.unassigned a ha hva]
      exact le_closest hc a
    | some c =>
      obtain ⟨g1, g2, g3⟩ := h3.assigned a ha c hva
      obtain ⟨k, e1, e2⟩ := clusterIdOf_spec g1
      refine ⟨k, by simp [e1], Or.inr ⟨k, c, rfl, e2, by rw [g3]; exact g2, fun c' hc' => ?_⟩⟩
      rw [g3]
      exact le_closest hc' a
  unfold canonicalViews
  rw [h1, Option.bind_some]
  refine ⟨C, fun v => (clusterId C s v).getD (-1), ?_, h2, fun a ha => ?_⟩
  · rw [if_pos]
    rw [List.all_eq_true]
    intro v hv
    obtain ⟨m, e, -⟩ := key v ((hg.mem v).1 hv)
    simp only [e, Option.isSome_some]
  · obtain ⟨m, e, hm⟩ := key a ha
    simp only [e, Option.getD_some]
    exact hm

end Ceres.Visibility
