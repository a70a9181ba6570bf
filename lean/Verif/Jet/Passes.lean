import Verif.Jet.Dynamic

/-! # The passes of `DynamicAutoDiffCostFunction` -/

namespace Ceres.Jet

noncomputable section

variable {sizes : List ℕ} {jacobians : ℕ → Option (ℕ → ℝ)}

theorem position_inj {i j i' j' : ℕ} (hi : i < sizes.length) (hj : j < sizes.getD i 0)
    (hi' : i' < sizes.length) (hj' : j' < sizes.getD i' 0)
    (h : blockOffset sizes i + j = blockOffset sizes i' + j') : i = i' ∧ j = j' := by
  have h1 := scalars_get hi hj
  rw [h, scalars_get hi' hj'] at h1
  cases h1
  exact ⟨rfl, rfl⟩

/-! ## The bookkeeping shared by the two loops of a pass -/

/-- The sections of a pass that starts with the `B`-th active scalar, before the scalar `c`. -/
structure Ctl (sizes : List ℕ) (jacobians : ℕ → Option (ℕ → ℝ)) (stride : ℕ) (starts : List ℕ) (B c : ℕ)
    (s : Section) : Prop where
  cursor : s.cursor = c
  index : s.index < starts.length
  covered : ∀ d, starts.getD s.index 0 ≤ d → d < starts.getD s.index 0 + s.offset →
    act sizes jacobians d
  rank : count sizes jacobians (starts.getD s.index 0 + s.offset) = B + s.active
  active : s.active = min stride (count sizes jacobians c - B)
  ahead : s.active < stride → c ≤ starts.getD s.index 0 + s.offset

variable {stride B c : ℕ} {starts : List ℕ} {s : Section}

theorem Ctl.ready_act (h : Ctl sizes jacobians stride starts B c s) (hr : s.ready stride starts)
    (ha : act sizes jacobians c) :
    count sizes jacobians c = B + s.active ∧ s.active < stride
      ∧ Ctl sizes jacobians stride starts B (c + 1) ⟨s.active + 1, s.index, s.offset + 1, s.cursor + 1⟩ := by
  obtain ⟨hr1, hr2⟩ := hr
  have hτ : starts.getD s.index 0 + s.offset = c := by
    have := h.ahead hr1
    have := h.cursor
    omega
  have hcount := h.rank
  rw [hτ] at hcount
  have hc1 := count_succ_act ha
  refine ⟨hcount, hr1, ⟨by simp [h.cursor], h.index, fun d h1 h2 => ?_, ?_, ?_, ?_⟩⟩
  · simp only at h1 h2
    by_cases hd : d = c
    · rw [hd]; exact ha
    · exact h.covered d h1 (by omega)
  · simp only
    rw [← add_assoc, hτ, hc1, hcount, add_assoc]
  · simp only
    rw [hc1, hcount]
    omega
  · intro _
    simp only
    omega

theorem Ctl.ready_not {N : ℕ} (ho : StartsOk sizes jacobians starts N)
    (h : Ctl sizes jacobians stride starts B c s) (hr : s.ready stride starts)
    (hN : c < N) (ha : ¬ act sizes jacobians c) :
    Ctl sizes jacobians stride starts B (c + 1) ⟨s.active, s.index + 1, 0, s.cursor + 1⟩ := by
  obtain ⟨hr1, hr2⟩ := hr
  have hτ : starts.getD s.index 0 + s.offset = c := by
    have := h.ahead hr1
    have := h.cursor
    omega
  have hcount := h.rank
  rw [hτ] at hcount
  obtain ⟨h1, h2, h3⟩ := ho.next s.index c h.index (by omega) hN
    (fun d h1 h2 => h.covered d h1 (by omega)) ha
  have hnext : count sizes jacobians (starts.getD (s.index + 1) 0) = count sizes jacobians c :=
    count_const h2.le h3
  refine ⟨by simp [h.cursor], h1, fun d h1 h2 => by simp only at h1 h2; omega, ?_, ?_, ?_⟩
  · simp only [add_zero]
    rw [hnext, hcount]
  · simp only
    rw [count_succ_not ha]
    exact h.active
  · intro _
    simp only
    omega

theorem Ctl.waiting (h : Ctl sizes jacobians stride starts B c s) (hr : ¬ s.ready stride starts) :
    ¬ (act sizes jacobians c ∧ B ≤ count sizes jacobians c ∧ count sizes jacobians c < B + stride)
      ∧ Ctl sizes jacobians stride starts B (c + 1) ⟨s.active, s.index, s.offset, s.cursor + 1⟩ := by
  have hact := h.active
  have hmono : count sizes jacobians c ≤ count sizes jacobians (c + 1) := count_mono (by omega)
  by_cases h1 : s.active < stride
  · have hc : c < starts.getD s.index 0 + s.offset := by
      by_contra hc
      exact hr ⟨h1, by rw [h.cursor]; omega⟩
    have hle : count sizes jacobians (c + 1) ≤ B + s.active := by
      rw [← h.rank]; exact count_mono hc
    have hnot : ¬ (act sizes jacobians c ∧ B ≤ count sizes jacobians c
        ∧ count sizes jacobians c < B + stride) := by
      rintro ⟨ha, hb, hb2⟩
      have := count_succ_act ha
      omega
    refine ⟨hnot, ⟨by simp [h.cursor], h.index, h.covered, h.rank, ?_, fun _ => by simp only; omega⟩⟩
    simp only
    omega
  · refine ⟨fun ⟨_, hb, hb2⟩ => by omega, ⟨by simp [h.cursor], h.index, h.covered, h.rank, ?_,
      fun hh => absurd hh h1⟩⟩
    simp only
    omega

/-- A full pass ends where the next one has to start. -/
theorem Ctl.next_pass {N : ℕ} (h : Ctl sizes jacobians stride starts B N s)
    (hB : B + stride ≤ count sizes jacobians N) :
    Ctl sizes jacobians stride starts (B + stride) 0 ⟨0, s.index, s.offset, 0⟩ := by
  have ha : s.active = stride := by have := h.active; omega
  refine ⟨rfl, h.index, h.covered, ?_, ?_, fun _ => Nat.zero_le _⟩
  · simp only
    rw [h.rank, ha, add_zero]
  · simp [count]

theorem Ctl.start {N : ℕ} (ho : StartsOk sizes jacobians starts N) :
    Ctl sizes jacobians stride starts 0 0 ⟨0, 0, 0, 0⟩ := by
  refine ⟨rfl, List.length_pos_iff.2 ho.ne, fun d h1 h2 => by simp only at h1 h2; omega, ?_, ?_,
    fun _ => Nat.zero_le _⟩
  · simp only [add_zero]
    rw [count_const (Nat.zero_le _) fun d _ h2 => ho.first d h2]
    simp [count]
  · simp [count]

/-! ## The seeding loop -/

/-- After the seeding loop, the scalar parameters whose rank among the active ones is in this pass's
range carry the unit vectors, and no other carries anything. -/
theorem seed_loop (ho : StartsOk sizes jacobians starts sizes.sum) (v : ℕ → Fin stride → ℝ)
    (h0 : Ctl sizes jacobians stride starts B 0 s) :
    let r := (scalars sizes).foldl (seedStep stride starts jacobians) (s, v)
    Ctl sizes jacobians stride starts B sizes.sum r.1
      ∧ ∀ d, d < sizes.sum → ∀ k : Fin stride, r.2 d k
        = if act sizes jacobians d ∧ count sizes jacobians d = B + k then 1 else 0 := by
  intro r
  have key := foldl_inv (scalars sizes) (seedStep stride starts jacobians) (s, v)
    (fun c st => Ctl sizes jacobians stride starts B c st.1 ∧ ∀ d, d < c → ∀ k : Fin stride, st.2 d k
        = if act sizes jacobians d ∧ count sizes jacobians d = B + k then 1 else 0)
    ⟨h0, fun d hd => by omega⟩ ?_
  · rw [scalars_length] at key
    exact key
  · rintro c hc ⟨t, w⟩ ⟨hctl, hv⟩
    simp only at hctl hv
    have hcN : c < sizes.sum := by rw [← scalars_length]; exact hc
    have hcur := hctl.cursor
    unfold seedStep
    simp only
    by_cases hr : t.ready stride starts
    · rw [if_pos hr]
      by_cases ha : act sizes jacobians c
      · obtain ⟨h1, h2, h3⟩ := hctl.ready_act hr ha
        rw [if_pos ((act_get hc).1 ha)]
        refine ⟨h3, fun d hd k => ?_⟩
        simp only [hcur]
        by_cases hdc : d = c
        · subst hdc
          simp only [Function.update_self]
          have : (↑k = t.active) ↔ (act sizes jacobians d ∧ count sizes jacobians d = B + k) := by
            constructor
            · intro e; exact ⟨ha, by omega⟩
            · intro e; omega
          simp only [this]
        · rw [Function.update_of_ne hdc, Function.update_of_ne hdc]
          exact hv d (by omega) k
      · rw [if_neg (fun hh => ha ((act_get hc).2 hh))]
        refine ⟨hctl.ready_not ho hr hcN ha, fun d hd k => ?_⟩
        simp only [hcur]
        by_cases hdc : d = c
        · subst hdc
          rw [Function.update_self, if_neg (fun hh => ha hh.1)]
        · rw [Function.update_of_ne hdc]
          exact hv d (by omega) k
    · rw [if_neg hr]
      obtain ⟨h1, h2⟩ := hctl.waiting hr
      refine ⟨h2, fun d hd k => ?_⟩
      simp only [hcur]
      by_cases hdc : d = c
      · subst hdc
        rw [Function.update_self, if_neg]
        rintro ⟨ha, hk⟩
        have := k.2
        exact h1 ⟨ha, by omega, by omega⟩
      · rw [Function.update_of_ne hdc]
        exact hv d (by omega) k

/-! ## The copying loop -/

theorem forRange_column (m size j : ℕ) (hj : j < size) (f : ℕ → ℝ) (buf : ℕ → ℝ) (q : ℕ) :
    forRange m buf (fun k buf => Function.update buf (k * size + j) (f k)) q
      = if q < size * m ∧ q % size = j then f (q / size) else buf q := by
  induction m with
  | zero => rw [forRange_zero, if_neg (by omega)]
  | succ m ih =>
    rw [forRange_succ, Function.update_apply, ih]
    have hm : size * (m + 1) = size * m + size := by ring
    by_cases h : q = m * size + j
    · subst h
      have h1 : (m * size + j) % size = j := by
        rw [mul_comm, Nat.mul_add_mod, Nat.mod_eq_of_lt hj]
      have h2 : (m * size + j) / size = m := by
        rw [mul_comm, Nat.mul_add_div (by omega), Nat.div_eq_of_lt hj, add_zero]
      rw [if_pos rfl, if_pos ⟨by rw [hm, mul_comm m]; omega, h1⟩, h2]
    · rw [if_neg h]
      by_cases h2 : q < size * m ∧ q % size = j
      · rw [if_pos h2, if_pos ⟨by omega, h2.2⟩]
      · rw [if_neg h2, if_neg]
        rintro ⟨h3, h4⟩
        have h5 := Nat.div_add_mod q size
        have hq : q / size < m + 1 := Nat.div_lt_of_lt_mul h3
        have hq2 : ¬ q / size < m := by
          intro hlt
          apply h2
          refine ⟨?_, h4⟩
          have : size * (q / size + 1) ≤ size * m := Nat.mul_le_mul_left _ hlt
          rw [Nat.mul_succ] at this
          omega
        have hq3 : q / size = m := by omega
        rw [hq3, h4] at h5
        apply h
        rw [mul_comm, h5]

/-- After the copying loop, the entries of the active scalar parameters of this pass are those of the
output, all others are unchanged. -/
theorem copy_loop (m : ℕ) (output : ℕ → Jet stride)
    (ho : StartsOk sizes jacobians starts sizes.sum)
    (h0 : Ctl sizes jacobians stride starts B 0 s) :
    let r := (scalars sizes).foldl (copyStep sizes stride starts m output) (s, jacobians)
    Ctl sizes jacobians stride starts B sizes.sum r.1
      ∧ ∀ i, r.2 i = (jacobians i).map fun buf q =>
        if i < sizes.length ∧ q < sizes.getD i 0 * m
          ∧ B ≤ count sizes jacobians (blockOffset sizes i + q % sizes.getD i 0)
          ∧ count sizes jacobians (blockOffset sizes i + q % sizes.getD i 0) < B + stride
        then (output (q / sizes.getD i 0)).part
          (count sizes jacobians (blockOffset sizes i + q % sizes.getD i 0) - B)
        else buf q := by
  intro r
  have key := foldl_inv (scalars sizes) (copyStep sizes stride starts m output) (s, jacobians)
    (fun c st => Ctl sizes jacobians stride starts B c st.1
      ∧ ∀ i, st.2 i = (jacobians i).map fun buf q =>
        if (i < sizes.length ∧ q < sizes.getD i 0 * m
          ∧ B ≤ count sizes jacobians (blockOffset sizes i + q % sizes.getD i 0)
          ∧ count sizes jacobians (blockOffset sizes i + q % sizes.getD i 0) < B + stride)
          ∧ blockOffset sizes i + q % sizes.getD i 0 < c
        then (output (q / sizes.getD i 0)).part
          (count sizes jacobians (blockOffset sizes i + q % sizes.getD i 0) - B)
        else buf q) ⟨h0, fun i => ?_⟩ ?_
  · rw [scalars_length] at key
    refine ⟨key.1, fun i => ?_⟩
    rw [show r.2 i = _ from key.2 i]
    congr 1
    funext buf q
    by_cases hc : i < sizes.length ∧ q < sizes.getD i 0 * m
          ∧ B ≤ count sizes jacobians (blockOffset sizes i + q % sizes.getD i 0)
          ∧ count sizes jacobians (blockOffset sizes i + q % sizes.getD i 0) < B + stride
    · rw [if_pos hc, if_pos]
      refine ⟨hc, ?_⟩
      have hpos : 0 < sizes.getD i 0 := by
        rcases Nat.eq_zero_or_pos (sizes.getD i 0) with h | h
        · rw [h] at hc; omega
        · exact h
      have hb : blockOffset sizes (i + 1) ≤ blockOffset sizes sizes.length :=
        blockOffset_mono (by omega)
      rw [blockOffset_succ hc.1, blockOffset_length] at hb
      have := Nat.mod_lt q hpos
      omega
    · rw [if_neg hc, if_neg (fun hh => hc hh.1)]
  · simp only [Nat.not_lt_zero, and_false, if_false]
    cases jacobians i <;> rfl
  · rintro c hc ⟨t, J⟩ ⟨hctl, hJ⟩
    simp only at hctl hJ
    have hcN : c < sizes.sum := by rw [← scalars_length]; exact hc
    obtain ⟨hi, hj, hcij⟩ := scalars_mem hc
    -- the window of other entries does not change
    have hother : ∀ i q, i < sizes.length → q < sizes.getD i 0 * m →
        ¬ (i = (scalars sizes)[c].1 ∧ q % sizes.getD i 0 = (scalars sizes)[c].2) →
        (blockOffset sizes i + q % sizes.getD i 0 < c + 1
          ↔ blockOffset sizes i + q % sizes.getD i 0 < c) := by
      intro i q hi' hq hne
      have hpos : 0 < sizes.getD i 0 := by
        rcases Nat.eq_zero_or_pos (sizes.getD i 0) with h | h
        · rw [h] at hq; omega
        · exact h
      have : blockOffset sizes i + q % sizes.getD i 0 ≠ c := by
        intro he
        rw [hcij] at he
        obtain ⟨h1, h2⟩ := position_inj hi' (Nat.mod_lt q hpos) hi hj he
        exact hne ⟨h1, h2⟩
      omega
    have hstay : ¬ (act sizes jacobians c ∧ B ≤ count sizes jacobians c
          ∧ count sizes jacobians c < B + stride) → ∀ i, J i = (jacobians i).map fun buf q =>
        if (i < sizes.length ∧ q < sizes.getD i 0 * m
          ∧ B ≤ count sizes jacobians (blockOffset sizes i + q % sizes.getD i 0)
          ∧ count sizes jacobians (blockOffset sizes i + q % sizes.getD i 0) < B + stride)
          ∧ blockOffset sizes i + q % sizes.getD i 0 < c + 1
        then (output (q / sizes.getD i 0)).part
          (count sizes jacobians (blockOffset sizes i + q % sizes.getD i 0) - B)
        else buf q := by
      intro hw i
      rw [hJ i]
      cases hji : jacobians i with
      | none => rfl
      | some buf =>
        simp only [Option.map_some, Option.some.injEq]
        funext q
        by_cases hh : i < sizes.length ∧ q < sizes.getD i 0 * m
          ∧ B ≤ count sizes jacobians (blockOffset sizes i + q % sizes.getD i 0)
          ∧ count sizes jacobians (blockOffset sizes i + q % sizes.getD i 0) < B + stride
        · refine if_congr (and_congr_right fun _ => (hother i q hh.1 hh.2.1 ?_).symm) rfl rfl
          rintro ⟨h1, h2⟩
          apply hw
          have hcc : blockOffset sizes i + q % sizes.getD i 0 = c := by rw [h2, h1, ← hcij]
          rw [hcc] at hh
          exact ⟨(act_get hc).2 (by rw [← h1, hji]; rfl), hh.2.2⟩
        · rw [if_neg (fun h => hh h.1), if_neg (fun h => hh h.1)]
    unfold copyStep
    simp only
    by_cases hr : t.ready stride starts
    · rw [if_pos hr]
      cases hbuf : jacobians (scalars sizes)[c].1 with
      | none =>
        have ha : ¬ act sizes jacobians c := by
          rw [act_get hc, hbuf]; simp
        have hJn : J (scalars sizes)[c].1 = none := by rw [hJ, hbuf]; rfl
        rw [hJn]
        exact ⟨hctl.ready_not ho hr hcN ha, hstay fun hh => ha hh.1⟩
      | some buf =>
        have ha : act sizes jacobians c := by
          rw [act_get hc, hbuf]; rfl
        obtain ⟨h1, h2, h3⟩ := hctl.ready_act hr ha
        have hJs := hJ (scalars sizes)[c].1
        rw [hbuf, Option.map_some] at hJs
        rw [hJs]
        refine ⟨h3, fun i => ?_⟩
        simp only
        by_cases hic : i = (scalars sizes)[c].1
        · rw [hic, Function.update_self, hbuf, Option.map_some]
          congr 1
          funext q
          rw [forRange_column m _ _ hj]
          by_cases hq : q < sizes.getD (scalars sizes)[c].1 0 * m
              ∧ q % sizes.getD (scalars sizes)[c].1 0 = (scalars sizes)[c].2
          · rw [if_pos hq, hq.2, ← hcij, if_pos ⟨⟨hi, hq.1, by omega, by omega⟩, by omega⟩, h1]
            congr 1
            omega
          · rw [if_neg hq]
            by_cases hq2 : q < sizes.getD (scalars sizes)[c].1 0 * m
            · exact if_congr (and_congr_right fun _ =>
                (hother _ q hi hq2 (fun hh => hq ⟨hq2, hh.2⟩)).symm) rfl rfl
            · rw [if_neg (fun hh => hq2 hh.1.2.1), if_neg (fun hh => hq2 hh.1.2.1)]
        · rw [Function.update_of_ne hic, hJ i]
          congr 1
          funext buf q
          by_cases hh : i < sizes.length ∧ q < sizes.getD i 0 * m
          · exact if_congr (and_congr_right fun _ =>
              (hother i q hh.1 hh.2 (fun h => hic h.1)).symm) rfl rfl
          · rw [if_neg (fun h => hh ⟨h.1.1, h.1.2.1⟩), if_neg (fun h => hh ⟨h.1.1, h.1.2.1⟩)]
    · rw [if_neg hr]
      obtain ⟨h1, h2⟩ := hctl.waiting hr
      exact ⟨h2, hstay h1⟩

/-! ## The passes -/

theorem StartsOk.congr {jacobians' : ℕ → Option (ℕ → ℝ)}
    (h : ∀ i, (jacobians i).isSome = (jacobians' i).isSome) {N : ℕ}
    (ho : StartsOk sizes jacobians starts N) : StartsOk sizes jacobians' starts N := by
  obtain ⟨h1, h2, h3⟩ := ho
  refine ⟨h1, ?_, ?_⟩
  · simpa only [act_congr h] using h2
  · simpa only [act_congr h] using h3

theorem Ctl.congr {jacobians' : ℕ → Option (ℕ → ℝ)}
    (h : ∀ i, (jacobians i).isSome = (jacobians' i).isSome)
    (hc : Ctl sizes jacobians stride starts B c s) : Ctl sizes jacobians' stride starts B c s := by
  obtain ⟨h1, h2, h3, h4, h5, h6⟩ := hc
  refine ⟨h1, h2, ?_, ?_, ?_, h6⟩
  · simpa only [act_congr h] using h3
  · simpa only [count_congr h] using h4
  · simpa only [count_congr h] using h5

open Classical in
/-- The partial derivative of output `k` with respect to entry `j` of block `i`. -/
def partialDeriv (fn : Functor sizes) (x : Slot sizes → ℝ) (k i j : ℕ) : ℝ :=
  if h : k < fn.out.length ∧ ∃ hi : i < sizes.length, j < sizes.get ⟨i, hi⟩ then
    deriv (fun y => (fn.out[k]'h.1).real (Function.update x ⟨⟨i, h.2.1⟩, ⟨j, h.2.2⟩⟩ y))
      (x ⟨⟨i, h.2.1⟩, ⟨j, h.2.2⟩⟩)
  else 0

theorem partialDeriv_slot (fn : Functor sizes) (x : Slot sizes → ℝ) {k : ℕ} (hk : k < fn.out.length)
    (s : Slot sizes) : partialDeriv fn x k s.1 s.2
      = deriv (fun y => (fn.out[k]).real (Function.update x s y)) (x s) := by
  classical
  rw [partialDeriv, dif_pos ⟨hk, s.1.2, s.2.2⟩]

theorem regular_hasDerivAt {fn : Functor sizes} {x : Slot sizes → ℝ}
    (hreg : ∀ e ∈ fn.out, e.Regular (fun y : Slot sizes → ℝ => y) x) {k : ℕ} (hk : k < fn.out.length)
    (s : Slot sizes) :
    HasDerivAt (fun y => (fn.out[k]).real (Function.update x s y)) (partialDeriv fn x k s.1 s.2) (x s) := by
  classical
  rw [partialDeriv_slot fn x hk s]
  have := Expr.seeded_deriv 0 0 x (fun s => some (⟨flatIndex s, flatIndex_lt s⟩ : Fin sizes.sum))
    (fun p q k hp hq => by
        simp only [Option.some.injEq, Fin.ext_iff] at hp hq
        exact flatIndex_inj (hp.trans hq.symm)) fn.out[k] (hreg _ (List.getElem_mem hk)) s
          ⟨flatIndex s, flatIndex_lt s⟩ rfl
  exact this.differentiableAt.hasDerivAt

/-- The buffers after the passes that cover the first `done` active scalars. -/
def filled (fn : Functor sizes) (x : Slot sizes → ℝ) (jacobians : ℕ → Option (ℕ → ℝ)) (done : ℕ)
    (i : ℕ) : Option (ℕ → ℝ) :=
  (jacobians i).map fun buf q =>
    if i < sizes.length ∧ q < sizes.getD i 0 * fn.out.length
      ∧ count sizes jacobians (blockOffset sizes i + q % sizes.getD i 0) < done
    then partialDeriv fn x (q / sizes.getD i 0) i (q % sizes.getD i 0) else buf q

theorem filled_isSome (fn : Functor sizes) (x : Slot sizes → ℝ) (done i : ℕ) :
    (jacobians i).isSome = (filled fn x jacobians done i).isSome := by
  simp [filled]

theorem passes_spec (nan inf : ℝ) (fn : Functor sizes) (parameters : ℕ → ℕ → ℝ) {d : Discover}
    {starts : List ℕ} (stride numStrides : ℕ)
    (hd : DiscoverInv sizes parameters jacobians sizes.length d)
    (ho : StartsOk sizes jacobians starts sizes.sum)
    (hreg : ∀ e ∈ fn.out, e.Regular (fun y : Slot sizes → ℝ => y) (inputs sizes parameters))
    (hok : fn.real (inputs sizes parameters) ≠ none)
    (hall : (numStrides - 1) * stride < count sizes jacobians sizes.sum) :
    ∀ (left pass : ℕ) (io : ℕ × ℕ) (v : ℕ → Fin stride → ℝ) (residuals : ℕ → ℝ),
      pass + left = numStrides →
      (0 < left → Ctl sizes jacobians stride starts (pass * stride) 0 ⟨0, io.1, io.2, 0⟩) →
      passes nan inf fn stride numStrides d starts left pass io v residuals
          (filled fn (inputs sizes parameters) jacobians (pass * stride))
        = ⟨true, fun i => if h : 0 < left ∧ i < fn.out.length
            then (fn.out[i]'h.2).real (inputs sizes parameters) else residuals i,
          filled fn (inputs sizes parameters) jacobians (numStrides * stride)⟩ := by
  classical
  intro left
  induction left with
  | zero =>
    intro pass io v residuals hp _
    rw [passes]
    have : pass = numStrides := by omega
    subst this
    simp
  | succ left ih =>
    intro pass io v residuals hp hctl
    obtain ⟨index, offset⟩ := io
    have hctl := hctl (by omega)
    simp only at hctl
    set x := inputs sizes parameters with hx
    set B := pass * stride with hB
    set J := filled fn x jacobians B with hJ
    have hsome : ∀ i, (jacobians i).isSome = (J i).isSome := fun i => filled_isSome fn x B i
    obtain ⟨_, hv⟩ := seed_loop (ho.congr hsome) v (hctl.congr hsome)
    rw [passes]
    simp only
    set v' := ((scalars sizes).foldl (seedStep stride starts J) (⟨0, index, offset, 0⟩, v)).2 with hv'
    let idx : Slot sizes → Option (Fin stride) := fun s =>
      if h : act sizes jacobians (flatIndex s) ∧ B ≤ count sizes jacobians (flatIndex s)
          ∧ count sizes jacobians (flatIndex s) - B < stride
      then some ⟨count sizes jacobians (flatIndex s) - B, h.2.2⟩ else none
    have hidx : ∀ s k, idx s = some k ↔ (act sizes jacobians (flatIndex s)
        ∧ count sizes jacobians (flatIndex s) = B + k) := by
      intro s k
      simp only [idx]
      by_cases h : act sizes jacobians (flatIndex s) ∧ B ≤ count sizes jacobians (flatIndex s)
          ∧ count sizes jacobians (flatIndex s) - B < stride
      · rw [dif_pos h, Option.some.injEq, Fin.ext_iff]
        simp only
        constructor
        · intro e; exact ⟨h.1, by omega⟩
        · intro e; omega
      · rw [dif_neg h]
        constructor
        · intro e; cases e
        · intro e
          have := k.2
          exact absurd ⟨e.1, by omega, by omega⟩ h
    have hin : (fun s : Slot sizes =>
        (⟨d.values (d.offsets.getD s.1 0 + s.2), v' (d.offsets.getD s.1 0 + s.2)⟩ : Jet stride))
          = seeded x idx := by
      funext s
      have hoff : d.offsets.getD s.1 0 = blockOffset sizes s.1 := by
        rw [hd.offsets]
        simp [List.getD]
      have hj : (s.2 : ℕ) < sizes.getD s.1 0 := by rw [getD_slot]; exact s.2.2
      rw [hoff]
      refine Jet.ext (hd.values s.1 s.2 s.1.2 hj) (funext fun k => ?_)
      simp only [seeded]
      rw [show blockOffset sizes s.1 + s.2 = flatIndex s from rfl, hv _ (flatIndex_lt s) k]
      simp only [hidx, ← act_congr hsome, ← count_congr hsome]
    rw [hin, Functor.jet_eq]
    have hxa : (fun s => (seeded x idx s).a) = x := rfl
    rw [hxa]
    cases hr : fn.real x with
    | none => exact absurd hr hok
    | some r =>
      simp only [Option.map_some]
      obtain ⟨hc2, hj2⟩ := copy_loop fn.out.length
        (asArray (Jet.const 0) (fn.out.map (Expr.jet nan inf (seeded x idx)))) (ho.congr hsome)
        (hctl.congr hsome)
      set rr := (scalars sizes).foldl (copyStep sizes stride starts fn.out.length
        (asArray (Jet.const 0) (fn.out.map (Expr.jet nan inf (seeded x idx)))))
        (⟨0, index, offset, 0⟩, J) with hrr
      have hB1 : (pass + 1) * stride = B + stride := by rw [hB]; ring
      have hJ' : rr.2 = filled fn x jacobians ((pass + 1) * stride) := by
        funext i
        rw [hj2 i]
        simp only [← count_congr hsome]
        simp only [hJ, filled]
        cases hji : jacobians i with
        | none => rfl
        | some buf =>
          simp only [Option.map_some, Option.some.injEq]
          funext q
          by_cases hiq : i < sizes.length ∧ q < sizes.getD i 0 * fn.out.length
          · have hpos : 0 < sizes.getD i 0 := by
              rcases Nat.eq_zero_or_pos (sizes.getD i 0) with h | h
              · rw [h] at hiq; omega
              · exact h
            have hmod := Nat.mod_lt q hpos
            have hdiv : q / sizes.getD i 0 < fn.out.length := Nat.div_lt_of_lt_mul hiq.2
            have hget : sizes.getD i 0 = sizes.get ⟨i, hiq.1⟩ := by simp [List.getD, hiq.1]
            set cc := count sizes jacobians (blockOffset sizes i + q % sizes.getD i 0) with hcc
            by_cases hw : B ≤ cc ∧ cc < B + stride
            · rw [if_pos ⟨hiq.1, hiq.2, hw⟩, if_pos ⟨hiq.1, hiq.2, by omega⟩, asArray_map _ _ _ _ hdiv]
              let s : Slot sizes := ⟨⟨i, hiq.1⟩, ⟨q % sizes.getD i 0, by rw [← hget]; exact hmod⟩⟩
              have hs : idx s = some ⟨cc - B, by omega⟩ := by
                rw [hidx]
                refine ⟨(act_block hiq.1 hmod).2 (by rw [hji]; rfl), ?_⟩
                simp only
                change cc = _
                omega
              have h1 := Expr.seeded_deriv nan inf x idx (fun p q k hp hq => by
                rw [hidx] at hp hq
                exact flatIndex_inj (count_inj hp.1 hq.1 (hp.2.trans hq.2.symm)))
                fn.out[q / sizes.getD i 0] (hreg _ (List.getElem_mem hdiv)) s ⟨cc - B, by omega⟩ hs
              have h2 := partialDeriv_slot fn x hdiv s
              rw [h1.deriv, ← part_eq] at h2
              exact h2.symm
            · rw [if_neg (fun h => hw h.2.2)]
              exact if_congr (and_congr_right fun _ => and_congr_right fun _ => by omega) rfl rfl
          · rw [if_neg (fun h => hiq ⟨h.1, h.2.1⟩), if_neg (fun h => hiq ⟨h.1, h.2.1⟩),
              if_neg (fun h => hiq ⟨h.1, h.2.1⟩)]
      rw [hJ', ih (pass + 1) _ _ _ (by omega)]
      · congr 1
        funext i
        by_cases hi : i < fn.out.length
        · rw [dif_pos (show 0 < left + 1 ∧ i < fn.out.length from ⟨by omega, hi⟩)]
          by_cases hl : 0 < left
          · rw [dif_pos ⟨hl, hi⟩]
          · rw [dif_neg (fun h => hl h.1), if_pos (by omega), forRange_update0, if_pos hi,
              asArray_map _ _ _ _ hi, Expr.jet_value, hxa]
        · rw [dif_neg (fun h => hi h.2), dif_neg (fun h => hi h.2)]
          by_cases hl : pass = numStrides - 1
          · rw [if_pos hl, forRange_update0, if_neg hi]
          · rw [if_neg hl]
      · intro hl
        have hc3 := hc2.congr (jacobians' := jacobians) fun i => (hsome i).symm
        rw [hB1]
        apply hc3.next_pass
        have : (pass + 1) * stride ≤ (numStrides - 1) * stride := Nat.mul_le_mul_right _ (by omega)
        omega

/-- **The strided passes.**  For every stride, whatever blocks are constant and however the active
parameters fall into passes, the dynamically sized cost function returns the functor's outputs and their
partial derivatives, like the statically sized one. -/
theorem dynamicEvaluate_spec (nan inf : ℝ) (stride : ℕ) (hstride : 0 < stride) (fn : Functor sizes)
    (parameters : ℕ → ℕ → ℝ) (residuals : ℕ → ℝ) (jacobians : ℕ → Option (ℕ → ℝ))
    (hpos : ∀ s ∈ sizes, 0 < s)
    (hreg : ∀ e ∈ fn.out, e.Regular (fun y : Slot sizes → ℝ => y) (inputs sizes parameters)) :
    Differentiates fn parameters residuals jacobians
      (dynamicEvaluate nan inf stride fn parameters residuals (some jacobians)) := by
  classical
  have hd := discover_inv (jacobians := jacobians) parameters hpos
  have hact : (discover sizes parameters jacobians).numActive = count sizes jacobians sizes.sum := by
    rw [hd.active, blockOffset_length]
  have hslot : ∀ s : Slot sizes, (s.2 : ℕ) < sizes.getD s.1 0 := fun s => by
    rw [getD_slot]; exact s.2.2
  have hnull_act : ∀ s : Slot sizes, (jacobians s.1).isSome →
      count sizes jacobians (flatIndex s) < count sizes jacobians sizes.sum := fun s hs =>
    count_lt_of_act ((act_block s.1.2 (hslot s)).2 hs) (flatIndex_lt s)
  unfold dynamicEvaluate
  simp only
  by_cases h0 : (discover sizes parameters jacobians).numActive = 0
  · rw [if_pos h0]
    obtain ⟨h1, h2, h3⟩ := evaluateReals_spec fn parameters residuals jacobians
    refine ⟨h1, fun h => (h2 h).1, fun h => (h2 h).2, fun b => by rw [h3], fun _ s J hJ => ?_,
      fun b J J' hJ hJ' => ?_⟩
    · rw [h3] at hJ
      have := hnull_act s (by rw [hJ]; rfl)
      omega
    · rw [h3, hJ] at hJ'
      cases hJ'
      intro q _
      rfl
  · rw [if_neg h0]
    have ho : StartsOk sizes jacobians ((discover sizes parameters jacobians).starts
        ++ [(discover sizes parameters jacobians).cursor]) sizes.sum := by
      have := hd.ok
      rw [← hd.cursor] at this
      rw [hd.cursor, blockOffset_length] at this ⊢
      exact this
    set d := discover sizes parameters jacobians with hdd
    set numStrides := (d.numActive + stride - 1) / stride with hns
    have hn1 : d.numActive ≤ numStrides * stride := by
      have h1 := Nat.div_add_mod (d.numActive + stride - 1) stride
      have h2 := Nat.mod_lt (d.numActive + stride - 1) hstride
      rw [← hns, mul_comm] at h1
      omega
    have hn0 : 0 < numStrides := by
      rcases Nat.eq_zero_or_pos numStrides with h | h
      · rw [h] at hn1; omega
      · exact h
    have hn2 : (numStrides - 1) * stride < count sizes jacobians sizes.sum := by
      have h1 := Nat.div_mul_le_self (d.numActive + stride - 1) stride
      rw [← hns] at h1
      rw [Nat.sub_mul, ← hact]
      omega
    cases hr : fn.real (inputs sizes parameters) with
    | none =>
      have hfail : passes nan inf fn stride numStrides d (d.starts ++ [d.cursor]) numStrides 0 (0, 0)
          (fun _ _ => 0) residuals jacobians = ⟨false, residuals, jacobians⟩ := by
        obtain ⟨k, hk⟩ : ∃ k, numStrides = k + 1 := ⟨numStrides - 1, by omega⟩
        rw [hk, passes]
        simp only
        rw [Functor.jet_eq]
        have hxa : (fun s : Slot sizes => d.values (d.offsets.getD s.1 0 + s.2))
            = inputs sizes parameters := by
          funext s
          have hoff : d.offsets.getD s.1 0 = blockOffset sizes s.1 := by
            rw [hd.offsets]
            simp [List.getD]
          rw [hoff]
          exact hd.values s.1 s.2 s.1.2 (hslot s)
        simp only
        rw [hxa, hr]
        rfl
      rw [hfail]
      exact ⟨fun _ => rfl, fun h => absurd hr h, fun h => absurd hr h, fun b => Iff.rfl,
        fun h => absurd hr h, fun b J J' h h' q _ => by
          simp only at h'
          rw [h] at h'
          cases h'
          rfl⟩
    | some r =>
      have hok : fn.real (inputs sizes parameters) ≠ none := by rw [hr]; simp
      have hz : jacobians = filled fn (inputs sizes parameters) jacobians (0 * stride) := by
        funext i
        simp only [filled, Nat.zero_mul, Nat.not_lt_zero, and_false, if_false]
        cases jacobians i <;> rfl
      have hp := passes_spec nan inf fn parameters stride numStrides hd ho hreg hok hn2 numStrides 0
        (0, 0) (fun _ _ => 0) residuals (by omega) (fun _ => by rw [Nat.zero_mul]; exact Ctl.start ho)
      rw [← hz] at hp
      rw [hp]
      refine ⟨fun h => absurd h hok, fun _ => rfl, fun _ i => ?_, fun b => ?_,
        fun _ s J hJ i hi => ?_, fun b J J' hJ hJ' q hq => ?_⟩
      · simp only
        by_cases hi : i < fn.out.length
        · rw [dif_pos ⟨hn0, hi⟩, dif_pos hi]
        · rw [dif_neg (fun h => hi h.2), dif_neg hi]
      · simp [filled]
      · simp only [filled] at hJ
        obtain ⟨dst, hdst, hJ⟩ := Option.map_eq_some_iff.1 hJ
        subst hJ
        have hj := hslot s
        have hpos' : 0 < sizes.getD s.1 0 := by omega
        have hlt : sizes.getD s.1 0 * i + s.2 < sizes.getD s.1 0 * fn.out.length := by
          have : sizes.getD s.1 0 * (i + 1) ≤ sizes.getD s.1 0 * fn.out.length :=
            Nat.mul_le_mul_left _ hi
          rw [Nat.mul_succ] at this
          omega
        have hcnt := hnull_act s (by rw [hdst]; rfl)
        simp only
        rw [if_pos, Nat.mul_add_div hpos', Nat.div_eq_of_lt hj, add_zero, Nat.mul_add_mod,
          Nat.mod_eq_of_lt hj]
        · exact regular_hasDerivAt hreg hi s
        · rw [Nat.mul_add_mod, Nat.mod_eq_of_lt hj]
          refine ⟨s.1.2, hlt, ?_⟩
          change count sizes jacobians (flatIndex s) < _
          omega
      · simp only [filled, hJ, Option.map_some, Option.some.injEq] at hJ'
        rw [← hJ']
        simp only
        rw [if_neg (by tauto)]

/-- Without Jacobians the functor is called on doubles. -/
theorem dynamicEvaluate_no_jacobians (nan inf : ℝ) (stride : ℕ) (fn : Functor sizes)
    (parameters : ℕ → ℕ → ℝ) (residuals : ℕ → ℝ) :
    dynamicEvaluate nan inf stride fn parameters residuals none
      = evaluateReals fn parameters residuals fun _ => none := rfl

/-- The hypotheses are met: three blocks, the functor `(x₀ y₀ + sin z₀, √x₁)` at a point where `x₁ = 4`. -/
example : let fn : Functor [2, 1, 2] := ⟨[(.gt, .var ⟨0, ⟨1, by decide⟩⟩, .const 0)],
      [.bin .add (.bin .mul (.var ⟨0, ⟨0, by decide⟩⟩) (.var ⟨1, ⟨0, by decide⟩⟩)) (.un .sin (.var ⟨2, ⟨0, by decide⟩⟩)),
        .un .sqrt (.var ⟨0, ⟨1, by decide⟩⟩)]⟩
    (∀ s ∈ [2, 1, 2], 0 < s)
      ∧ (∀ e ∈ fn.out, e.Regular (fun y : Slot [2, 1, 2] → ℝ => y)
          (inputs [2, 1, 2] fun _ j => if j = 1 then 4 else 3))
      ∧ fn.real (inputs [2, 1, 2] fun _ j => if j = 1 then 4 else 3) ≠ none := by
  intro fn
  refine ⟨by decide, ?_, ?_⟩
  · intro e he
    simp only [fn, List.mem_cons, List.not_mem_nil, or_false] at he
    rcases he with rfl | rfl <;>
      simp [Expr.Regular, Un.Ok, Bin.Ok, Expr.real, inputs]
  · simp [fn, Functor.real, Cmp.holds, Expr.real, inputs]

/-- **Finding.**  With blocks of size zero the sections are miscounted: an active and a constant block
of size zero, then an active, a constant and an active block, one derivative per pass.  The derivative of
`x ↦ x` with respect to the last scalar is 1, but its entry is left as it was. -/
theorem dynamicEvaluate_empty_block :
    let fn : Functor [0, 0, 1, 1, 2] := ⟨[], [.var ⟨4, ⟨1, by decide⟩⟩]⟩
    let res := dynamicEvaluate 0 0 1 fn (fun _ _ => 0) (fun _ => 0)
      (some fun b => if b = 1 ∨ b = 3 then none else some fun _ => 7)
    res.ok = true ∧ ∃ J, res.jacobians 4 = some J ∧ J 1 = 7 := by
  intro fn res
  refine ⟨?_, ?_⟩ <;>
  simp [res, fn, dynamicEvaluate, discover, discoverStep, forRange, passes, scalars, List.range_succ, seedStep, copyStep,
    Section.ready, Functor.jet, Expr.jet]

end

end Ceres.Jet
