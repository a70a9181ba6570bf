import Verif.Jet.AutoDiff
import Mathlib.Data.Nat.Count

/-! # `DynamicAutoDiffCostFunction`

The strided passes fill in exactly the Jacobians asked for, for every stride, every list of parameter
blocks and every choice of constant blocks. -/

namespace Ceres.Jet

noncomputable section

variable {sizes : List ℕ}

/-! ## The scalars -/

theorem foldl_inv {α σ : Type} (L : List α) (f : σ → α → σ) (s0 : σ) (Inv : ℕ → σ → Prop)
    (h0 : Inv 0 s0)
    (hstep : ∀ (c : ℕ) (h : c < L.length) (s : σ), Inv c s → Inv (c + 1) (f s L[c])) :
    Inv L.length (L.foldl f s0) := by
  have key : ∀ c, c ≤ L.length → Inv c ((L.take c).foldl f s0) := by
    intro c
    induction c with
    | zero => intro _; simpa using h0
    | succ c ih =>
      intro hc
      rw [List.take_succ_eq_append_getElem (by omega), List.foldl_append]
      exact hstep c (by omega) _ (ih (by omega))
  have := key L.length le_rfl
  rwa [List.take_length] at this

theorem scalars_prefix (m : ℕ) (hm : m ≤ sizes.length) :
    (((List.range m).flatMap fun i => (List.range (sizes.getD i 0)).map fun j => (i, j)).length
        = blockOffset sizes m)
      ∧ ∀ i j, i < m → j < sizes.getD i 0 →
        ((List.range m).flatMap fun i => (List.range (sizes.getD i 0)).map fun j => (i, j))[
          blockOffset sizes i + j]? = some (i, j) := by
  induction m with
  | zero => exact ⟨by simp [blockOffset], fun i j h => by omega⟩
  | succ m ih =>
    obtain ⟨hl, hg⟩ := ih (by omega)
    rw [List.range_succ, List.flatMap_append]
    refine ⟨?_, fun i j hi hj => ?_⟩
    · rw [List.length_append, hl, blockOffset_succ (by omega)]
      simp
    · by_cases him : i = m
      · subst him
        rw [List.getElem?_append_right (by omega), hl]
        simp only [add_tsub_cancel_left, List.flatMap_cons, List.flatMap_nil, List.append_nil,
          List.getElem?_map]
        rw [List.getElem?_range hj]
        rfl
      · have h1 : blockOffset sizes (i + 1) ≤ blockOffset sizes m := blockOffset_mono (by omega)
        rw [blockOffset_succ (by omega)] at h1
        rw [List.getElem?_append_left (by omega)]
        exact hg i j (by omega) hj

theorem scalars_length : (scalars sizes).length = sizes.sum := by
  rw [scalars, (scalars_prefix _ le_rfl).1, blockOffset_length]

theorem scalars_get {i j : ℕ} (hi : i < sizes.length) (hj : j < sizes.getD i 0) :
    (scalars sizes)[blockOffset sizes i + j]? = some (i, j) :=
  (scalars_prefix _ le_rfl).2 i j hi hj

theorem scalars_mem {c : ℕ} (hc : c < (scalars sizes).length) :
    (scalars sizes)[c].1 < sizes.length ∧ (scalars sizes)[c].2 < sizes.getD (scalars sizes)[c].1 0
      ∧ c = blockOffset sizes (scalars sizes)[c].1 + (scalars sizes)[c].2 := by
  have hm : (scalars sizes)[c] ∈ scalars sizes := List.getElem_mem hc
  have hm2 : (scalars sizes)[c] ∈ (List.range sizes.length).flatMap fun i =>
      (List.range (sizes.getD i 0)).map fun j => (i, j) := hm
  rw [List.mem_flatMap] at hm2
  obtain ⟨i, hi, hm2⟩ := hm2
  obtain ⟨j, hj, he⟩ := List.mem_map.1 hm2
  rw [List.mem_range] at hi hj
  have hg := scalars_get hi hj
  refine ⟨by rw [← he]; exact hi, by rw [← he]; exact hj, ?_⟩
  rw [← he]
  -- `c` is the only position of `(i, j)`
  have hex : ∀ c (hc : c < (scalars sizes).length), ∃ i j, i < sizes.length ∧ j < sizes.getD i 0
      ∧ c = blockOffset sizes i + j := by
    intro c hc
    rw [scalars_length, ← blockOffset_length] at hc
    have : ∀ m, m ≤ sizes.length → c < blockOffset sizes m → ∃ i j, i < sizes.length
        ∧ j < sizes.getD i 0 ∧ c = blockOffset sizes i + j := by
      intro m
      induction m with
      | zero => intro _ h; simp [blockOffset] at h
      | succ m ih =>
        intro hm h
        by_cases h2 : c < blockOffset sizes m
        · exact ih (by omega) h2
        · rw [blockOffset_succ (by omega)] at h
          exact ⟨m, c - blockOffset sizes m, by omega, by omega, by omega⟩
    exact this _ le_rfl hc
  obtain ⟨i', j', hi', hj', hc'⟩ := hex c hc
  have hg' := scalars_get hi' hj'
  rw [← hc', List.getElem?_eq_getElem hc] at hg'
  have := (Option.some.inj hg').symm.trans he.symm
  cases this
  exact hc'

/-- Whether the scalar at a position of the concatenated blocks is in a block whose Jacobian is asked
for. -/
def act (sizes : List ℕ) (jacobians : ℕ → Option (ℕ → ℝ)) (c : ℕ) : Prop :=
  ∃ ij, (scalars sizes)[c]? = some ij ∧ (jacobians ij.1).isSome

open Classical in
instance (jacobians : ℕ → Option (ℕ → ℝ)) : DecidablePred (act sizes jacobians) :=
  fun _ => inferInstance

variable {jacobians : ℕ → Option (ℕ → ℝ)}

theorem act_get {c : ℕ} (hc : c < (scalars sizes).length) :
    act sizes jacobians c ↔ (jacobians (scalars sizes)[c].1).isSome := by
  unfold act
  rw [List.getElem?_eq_getElem hc]
  simp

theorem act_block {i j : ℕ} (hi : i < sizes.length) (hj : j < sizes.getD i 0) :
    act sizes jacobians (blockOffset sizes i + j) ↔ (jacobians i).isSome := by
  unfold act
  rw [scalars_get hi hj]
  simp

theorem act_lt {c : ℕ} (h : act sizes jacobians c) : c < sizes.sum := by
  obtain ⟨ij, h, _⟩ := h
  rw [← scalars_length]
  exact (List.getElem?_eq_some_iff.1 h).1

theorem act_congr {jacobians' : ℕ → Option (ℕ → ℝ)}
    (h : ∀ i, (jacobians i).isSome = (jacobians' i).isSome) (c : ℕ) :
    act sizes jacobians c ↔ act sizes jacobians' c := by
  unfold act; simp only [h]

/-- The number of active scalars before a position. -/
def count (sizes : List ℕ) (jacobians : ℕ → Option (ℕ → ℝ)) (c : ℕ) : ℕ :=
  Nat.count (act sizes jacobians) c

theorem count_succ_act {c : ℕ} (h : act sizes jacobians c) :
    count sizes jacobians (c + 1) = count sizes jacobians c + 1 := by
  rw [count, Nat.count_succ, if_pos h]; rfl

theorem count_succ_not {c : ℕ} (h : ¬ act sizes jacobians c) :
    count sizes jacobians (c + 1) = count sizes jacobians c := by
  rw [count, Nat.count_succ, if_neg h]; rfl

theorem count_mono {a b : ℕ} (h : a ≤ b) : count sizes jacobians a ≤ count sizes jacobians b :=
  Nat.count_monotone _ h

theorem count_const {a b : ℕ} (h : a ≤ b) (hn : ∀ d, a ≤ d → d < b → ¬ act sizes jacobians d) :
    count sizes jacobians b = count sizes jacobians a := by
  induction b, h using Nat.le_induction with
  | base => rfl
  | succ b hb ih =>
    rw [count_succ_not (hn b hb (by omega)), ih fun d h1 h2 => hn d h1 (by omega)]

theorem count_all {a b : ℕ} (h : a ≤ b) (hn : ∀ d, a ≤ d → d < b → act sizes jacobians d) :
    count sizes jacobians b = count sizes jacobians a + (b - a) := by
  induction b, h using Nat.le_induction with
  | base => simp
  | succ b hb ih =>
    rw [count_succ_act (hn b hb (by omega)), ih fun d h1 h2 => hn d h1 (by omega)]
    omega

theorem count_inj {a b : ℕ} (ha : act sizes jacobians a) (hb : act sizes jacobians b)
    (h : count sizes jacobians a = count sizes jacobians b) : a = b :=
  Nat.count_injective ha hb h

theorem count_lt_of_act {a b : ℕ} (ha : act sizes jacobians a) (h : a < b) :
    count sizes jacobians a < count sizes jacobians b :=
  Nat.count_strict_mono ha h

theorem count_congr {jacobians' : ℕ → Option (ℕ → ℝ)}
    (h : ∀ i, (jacobians i).isSome = (jacobians' i).isSome) (c : ℕ) :
    count sizes jacobians c = count sizes jacobians' c := by
  induction c with
  | zero => rfl
  | succ c ih =>
    by_cases hc : act sizes jacobians c
    · rw [count_succ_act hc, count_succ_act ((act_congr h c).1 hc), ih]
    · rw [count_succ_not hc, count_succ_not (fun hh => hc ((act_congr h c).2 hh)), ih]

/-! ## Discovery of the derivative sections -/

/-- What the passes need to know about the starts of the sections: the first is not after the first
active scalar, and from a section's end on there is no active scalar before the next start. -/
structure StartsOk (sizes : List ℕ) (jacobians : ℕ → Option (ℕ → ℝ)) (starts : List ℕ) (N : ℕ) :
    Prop where
  ne : starts ≠ []
  first : ∀ d, d < starts.getD 0 0 → ¬ act sizes jacobians d
  next : ∀ k c, k < starts.length → starts.getD k 0 ≤ c → c < N →
    (∀ d, starts.getD k 0 ≤ d → d < c → act sizes jacobians d) → ¬ act sizes jacobians c →
    k + 1 < starts.length ∧ c < starts.getD (k + 1) 0
      ∧ ∀ d, c ≤ d → d < starts.getD (k + 1) 0 → ¬ act sizes jacobians d

/-- The state of the discovery after `m` blocks. -/
structure DiscoverInv (sizes : List ℕ) (parameters : ℕ → ℕ → ℝ) (jacobians : ℕ → Option (ℕ → ℝ))
    (m : ℕ) (d : Discover) : Prop where
  cursor : d.cursor = blockOffset sizes m
  offsets : d.offsets = (List.range m).map (blockOffset sizes)
  active : d.numActive = count sizes jacobians (blockOffset sizes m)
  values : ∀ i j, i < m → j < sizes.getD i 0 → d.values (blockOffset sizes i + j) = parameters i j
  bound : ∀ k, k < d.starts.length → d.starts.getD k 0 ≤ blockOffset sizes m
  sep : ∀ k, k + 1 < d.starts.length → ∃ c, d.starts.getD k 0 ≤ c ∧ c < d.starts.getD (k + 1) 0
    ∧ ¬ act sizes jacobians c
  inside : d.inSection = true → d.starts ≠ [] ∧ ∀ c, d.starts.getD (d.starts.length - 1) 0 ≤ c →
    c < blockOffset sizes m → act sizes jacobians c
  outside : d.inSection = false → d.starts ≠ [] →
    ∃ c, d.starts.getD (d.starts.length - 1) 0 ≤ c ∧ c < blockOffset sizes m
      ∧ ¬ act sizes jacobians c
  ok : StartsOk sizes jacobians (d.starts ++ [blockOffset sizes m]) (blockOffset sizes m)

theorem getD_append_lt {l : List ℕ} {a k : ℕ} (h : k < l.length) : (l ++ [a]).getD k 0 = l.getD k 0 := by
  simp [List.getD, List.getElem?_append_left h]

theorem getD_append_self (l : List ℕ) (a : ℕ) : (l ++ [a]).getD l.length 0 = a := by
  simp [List.getD]

/-- The inner loop of the discovery. -/
theorem discover_values (parameters : ℕ → ℕ → ℝ) (i : ℕ) (d : Discover) (k : ℕ) :
    forRange k d (fun j (d : Discover) =>
      { d with values := Function.update d.values d.cursor (parameters i j)
               cursor := d.cursor + 1 })
    = { d with cursor := d.cursor + k, values := fun p =>
        if d.cursor ≤ p ∧ p < d.cursor + k then parameters i (p - d.cursor) else d.values p } := by
  induction k with
  | zero =>
    rw [forRange_zero]
    have : (fun p => if d.cursor ≤ p ∧ p < d.cursor + 0 then parameters i (p - d.cursor)
        else d.values p) = d.values := by
      funext p; rw [if_neg (by omega)]
    rw [this]; rfl
  | succ k ih =>
    rw [forRange_succ, ih]
    simp only
    congr 1
    funext p
    rw [Function.update_apply]
    by_cases h : p = d.cursor + k
    · rw [if_pos h, if_pos (by omega)]; congr 1; omega
    · rw [if_neg h]
      by_cases h2 : d.cursor ≤ p ∧ p < d.cursor + k
      · rw [if_pos h2, if_pos (by omega)]
      · rw [if_neg h2, if_neg (by omega)]

theorem discoverStep_inv (parameters : ℕ → ℕ → ℝ) {m : ℕ} {d : Discover}
    (hm : m < sizes.length) (hpos : 0 < sizes.getD m 0)
    (h : DiscoverInv sizes parameters jacobians m d) :
    DiscoverInv sizes parameters jacobians (m + 1) (discoverStep sizes parameters jacobians m d) := by
  have hN : blockOffset sizes (m + 1) = blockOffset sizes m + sizes.getD m 0 := blockOffset_succ hm
  have hblk : ∀ c, blockOffset sizes m ≤ c → c < blockOffset sizes (m + 1) →
      (act sizes jacobians c ↔ (jacobians m).isSome) := by
    intro c h1 h2
    have := act_block (jacobians := jacobians) hm (j := c - blockOffset sizes m) (by omega)
    rwa [Nat.add_sub_cancel' h1] at this
  have hvals : ∀ i j, i < m + 1 → j < sizes.getD i 0 →
      (if blockOffset sizes m ≤ blockOffset sizes i + j
          ∧ blockOffset sizes i + j < blockOffset sizes m + sizes.getD m 0
        then parameters m (blockOffset sizes i + j - blockOffset sizes m)
        else d.values (blockOffset sizes i + j)) = parameters i j := by
    intro i j hi hj
    by_cases him : i = m
    · subst him
      rw [if_pos (by omega)]; congr 1; omega
    · have h1 : blockOffset sizes (i + 1) ≤ blockOffset sizes m := blockOffset_mono (by omega)
      rw [blockOffset_succ (by omega)] at h1
      rw [if_neg (by omega)]
      exact h.values i j (by omega) hj
  have hoff : d.offsets ++ [d.cursor] = (List.range (m + 1)).map (blockOffset sizes) := by
    rw [h.offsets, h.cursor, List.range_succ]; simp
  have hlen : 0 < d.starts.length → d.starts ≠ [] := fun h e => by rw [e] at h; simp at h
  by_cases hj : (jacobians m).isSome
  · have hact : ∀ c, blockOffset sizes m ≤ c → c < blockOffset sizes (m + 1) →
        act sizes jacobians c := fun c h1 h2 => (hblk c h1 h2).2 hj
    have hcount : count sizes jacobians (blockOffset sizes (m + 1))
        = count sizes jacobians (blockOffset sizes m) + sizes.getD m 0 := by
      rw [count_all (by omega) hact]; omega
    cases hin : d.inSection with
    | true =>
      obtain ⟨hne, hall⟩ := h.inside hin
      have hl : 0 < d.starts.length := List.length_pos_iff.2 hne
      have e : discoverStep sizes parameters jacobians m d
          = ⟨d.numActive + sizes.getD m 0, d.starts, true, d.cursor + sizes.getD m 0,
              d.offsets ++ [d.cursor], fun p =>
                if d.cursor ≤ p ∧ p < d.cursor + sizes.getD m 0 then parameters m (p - d.cursor)
                else d.values p⟩ := by
        unfold discoverStep
        simp only [hj, hin, if_true, Bool.not_true, Bool.false_eq_true, if_false]
        rw [discover_values]
      rw [e]
      refine ⟨by simp only [h.cursor, hN], hoff, by simp only [h.active, hcount], ?_, ?_, h.sep, ?_,
        fun hh => by simp at hh, ?_⟩
      · intro i j hi hj'
        simp only [h.cursor]
        exact hvals i j hi hj'
      · intro k hk
        have := h.bound k hk
        simp only
        omega
      · intro _
        refine ⟨hne, fun c h1 h2 => ?_⟩
        by_cases hc : c < blockOffset sizes m
        · exact hall c h1 hc
        · exact hact c (by omega) h2
      · refine ⟨by simp, ?_, ?_⟩
        · intro c hc
          rw [getD_append_lt hl] at hc
          have := h.ok.first c
          rw [getD_append_lt hl] at this
          exact this hc
        · intro k c hk h1 h2 hall' hna
          simp only [List.length_append, List.length_singleton] at hk
          by_cases hk2 : k = d.starts.length
          · subst hk2; rw [getD_append_self] at h1; omega
          · have hkl : k < d.starts.length := by omega
            rw [getD_append_lt hkl] at h1 hall'
            have hc : c < blockOffset sizes m := by
              by_contra hc
              exact hna (hact c (by omega) h2)
            have := h.ok.next k c (by simp; omega) (by rw [getD_append_lt hkl]; exact h1) hc
              (by rw [getD_append_lt hkl]; exact hall') hna
            by_cases hk3 : k + 1 < d.starts.length
            · rw [getD_append_lt hk3] at this ⊢
              exact ⟨by simp; omega, this.2⟩
            · have : k = d.starts.length - 1 := by omega
              subst this
              exact absurd (hall c h1 hc) hna
    | false =>
      have e : discoverStep sizes parameters jacobians m d
          = ⟨d.numActive + sizes.getD m 0, d.starts ++ [d.cursor], true, d.cursor + sizes.getD m 0,
              d.offsets ++ [d.cursor], fun p =>
                if d.cursor ≤ p ∧ p < d.cursor + sizes.getD m 0 then parameters m (p - d.cursor)
                else d.values p⟩ := by
        unfold discoverStep
        simp only [hj, hin, if_true, Bool.not_false]
        rw [discover_values]
      rw [e]
      simp only [h.cursor]
      refine ⟨by simp only [hN], by rw [← h.cursor]; exact hoff, by simp only [h.active, hcount],
        hvals, ?_, ?_, ?_, fun hh => by simp at hh, ?_⟩
      · intro k hk
        simp only [List.length_append, List.length_singleton] at hk
        by_cases hk2 : k = d.starts.length
        · subst hk2; simp only [getD_append_self]; omega
        · simp only [getD_append_lt (show k < d.starts.length by omega)]
          have := h.bound k (by omega)
          omega
      · intro k hk
        simp only [List.length_append, List.length_singleton] at hk
        simp only [getD_append_lt (show k < d.starts.length by omega)]
        by_cases hk2 : k + 1 = d.starts.length
        · simp only [hk2, getD_append_self]
          have hk3 : k = d.starts.length - 1 := by omega
          obtain ⟨c, h1, h2, h3⟩ := h.outside hin (hlen (by omega))
          exact ⟨c, by rw [hk3]; exact h1, h2, h3⟩
        · simp only [getD_append_lt (show k + 1 < d.starts.length by omega)]
          exact h.sep k (by omega)
      · intro _
        refine ⟨by simp, fun c h1 h2 => ?_⟩
        simp only [List.length_append, List.length_singleton, Nat.add_sub_cancel,
          getD_append_self] at h1
        exact hact c h1 h2
      · refine ⟨by simp, ?_, ?_⟩
        · intro c hc
          simp only at hc
          rw [getD_append_lt (by simp)] at hc
          exact h.ok.first c hc
        · intro k c hk h1 h2 hall' hna
          simp only [List.length_append, List.length_singleton] at hk
          simp only at h1 hall' ⊢
          by_cases hk2 : k = d.starts.length + 1
          · subst hk2
            have := getD_append_self (d.starts ++ [blockOffset sizes m]) (blockOffset sizes (m + 1))
            simp only [List.length_append, List.length_singleton] at this
            rw [this] at h1; omega
          · rw [getD_append_lt (by simp; omega)] at h1 hall'
            have hc : c < blockOffset sizes m := by
              by_contra hc
              exact hna (hact c (by omega) h2)
            have := h.ok.next k c (by simp; omega) h1 hc hall' hna
            have hk3 := this.1
            rw [getD_append_lt hk3]
            exact ⟨by simp at hk3 ⊢; omega, this.2⟩
  · have hact : ∀ c, blockOffset sizes m ≤ c → c < blockOffset sizes (m + 1) →
        ¬ act sizes jacobians c := fun c h1 h2 hh => hj ((hblk c h1 h2).1 hh)
    have hcount : count sizes jacobians (blockOffset sizes (m + 1))
        = count sizes jacobians (blockOffset sizes m) := count_const (by omega) hact
    have e : discoverStep sizes parameters jacobians m d
        = ⟨d.numActive, d.starts, false, d.cursor + sizes.getD m 0,
            d.offsets ++ [d.cursor], fun p =>
              if d.cursor ≤ p ∧ p < d.cursor + sizes.getD m 0 then parameters m (p - d.cursor)
              else d.values p⟩ := by
      unfold discoverStep
      simp only [hj, if_false, Bool.false_eq_true]
      rw [discover_values]
    rw [e]
    refine ⟨by simp only [h.cursor, hN], hoff, by simp only [h.active, hcount], ?_, ?_, h.sep,
      fun hh => by simp at hh, ?_, ?_⟩
    · intro i j hi hj'
      simp only [h.cursor]
      exact hvals i j hi hj'
    · intro k hk
      have := h.bound k hk
      simp only
      omega
    · intro _ hne
      have hl : 0 < d.starts.length := List.length_pos_iff.2 hne
      have := h.bound (d.starts.length - 1) (by omega)
      exact ⟨blockOffset sizes m, this, by omega, hact _ le_rfl (by omega)⟩
    · refine ⟨by simp, ?_, ?_⟩
      · intro c hc
        by_cases hcm : c < blockOffset sizes m
        · apply h.ok.first c
          by_cases hl : 0 < d.starts.length
          · simp only [getD_append_lt hl] at hc ⊢; exact hc
          · have h0 : d.starts = [] := List.eq_nil_of_length_eq_zero (by omega)
            rw [h0]; simpa using hcm
        · by_cases hl : 0 < d.starts.length
          · simp only [getD_append_lt hl] at hc
            have := h.bound 0 hl
            omega
          · have h0 : d.starts = [] := List.eq_nil_of_length_eq_zero (by omega)
            simp only [h0] at hc
            exact hact c (by omega) (by simpa using hc)
      · intro k c hk h1 h2 hall' hna
        simp only [List.length_append, List.length_singleton] at hk
        simp only at h1 hall' ⊢
        by_cases hk2 : k = d.starts.length
        · subst hk2; rw [getD_append_self] at h1; omega
        have hkl : k < d.starts.length := by omega
        rw [getD_append_lt hkl] at h1 hall'
        by_cases hc : c < blockOffset sizes m
        · have := h.ok.next k c (by simp; omega) (by rw [getD_append_lt hkl]; exact h1) hc
              (by rw [getD_append_lt hkl]; exact hall') hna
          by_cases hk3 : k + 1 < d.starts.length
          · rw [getD_append_lt hk3] at this ⊢
            exact ⟨by simp; omega, this.2⟩
          · have hk4 : k + 1 = d.starts.length := by omega
            rw [hk4, getD_append_self] at this ⊢
            refine ⟨by simp, by omega, fun x hx1 hx2 => ?_⟩
            by_cases hx : x < blockOffset sizes m
            · exact this.2.2 x hx1 hx
            · exact hact x (by omega) hx2
        · by_cases hk3 : k + 1 < d.starts.length
          · obtain ⟨x, hx1, hx2, hx3⟩ := h.sep k hk3
            have := h.bound (k + 1) hk3
            exact absurd (hall' x hx1 (by omega)) hx3
          · have hk4 : k + 1 = d.starts.length := by omega
            rw [hk4, getD_append_self]
            exact ⟨by simp, h2, fun x hx1 hx2 => hact x (by omega) hx2⟩

theorem discover_inv (parameters : ℕ → ℕ → ℝ) (hpos : ∀ s ∈ sizes, 0 < s) :
    DiscoverInv sizes parameters jacobians sizes.length (discover sizes parameters jacobians) := by
  unfold discover
  have key : ∀ m, m ≤ sizes.length → DiscoverInv sizes parameters jacobians m
      (forRange m {} (discoverStep sizes parameters jacobians)) := by
    intro m
    induction m with
    | zero =>
      intro _
      rw [forRange_zero]
      refine ⟨by simp [blockOffset], rfl, by simp [blockOffset, count], fun i j h => by omega,
        fun k hk => by simp at hk, fun k hk => by simp at hk, fun h => by simp at h,
        fun _ h => by simp at h, ⟨by simp, fun c hc => by simp [blockOffset] at hc, ?_⟩⟩
      intro k c _ _ h
      simp [blockOffset] at h
    | succ m ih =>
      intro hm
      rw [forRange_succ]
      refine discoverStep_inv parameters (by omega) ?_ (ih (by omega))
      apply hpos
      have hml : m < sizes.length := by omega
      have : sizes.getD m 0 = sizes[m] := by simp [List.getD, hml]
      rw [this]
      exact List.getElem_mem hml
  exact key _ le_rfl

end

end Ceres.Jet
