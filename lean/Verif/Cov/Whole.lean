import Verif.Cov.Lookup
import Verif.Util.Props
import Verif.Parallel.Props

/-! # Blocks that were not requested, and whole matrices -/

namespace Ceres.Cov

variable {K : Type} {P : Prob K} [Field K]

/-- The pair can be read: a block is fixed, or the pair was requested. -/
def Available (P : Prob K) (pairs : List (ℕ × ℕ)) (p q : ℕ) : Prop :=
  p ∈ P.ptrs ∧ q ∈ P.ptrs ∧ (P.Varies p → P.Varies q → Requested pairs p q)

theorem Available.symm {pairs : List (ℕ × ℕ)} {p q : ℕ} (h : Available P pairs p q) :
    Available P pairs q p := ⟨h.2.1, h.1, fun h1 h2 => (h.2.2 h2 h1).symm⟩

/-- **C57.** What `GetCovarianceBlock` writes. -/
theorem getBlock_available (hP : P.WellFormed) {pairs : List (ℕ × ℕ)} {f : ℕ → ℕ → K}
    (hf : Symmetric P.numColumns f) {st : State K} (h : Holds P pairs f st) {p q : ℕ}
    (ha : Available P pairs p q) (lift : Bool) (buf : ℕ → K) :
    getBlock P st p q lift buf =
      .ok (true, writeMat buf (P.extent lift p) (P.extent lift q) (P.expected f lift p q)) := by
  by_cases hv : P.Varies p ∧ P.Varies q
  · exact getBlock_requested hP hf h hv.1 hv.2 (ha.2.2 hv.1 hv.2) lift buf
  · rw [getBlock_constant h ha.1 ha.2.1 hv]
    refine congrArg (fun x => Except.ok (true, x)) (writeMat_congr fun i _ j _ => ?_)
    unfold Prob.expected
    rw [if_pos hv]

/-! ### Missing blocks -/

theorem search_missing (hP : P.ptrs.Nodup) {pairs blocks : List (ℕ × ℕ)} {m : Csr}
    (h : Stored P pairs blocks m) {p q : ℕ} (hp : p ∈ P.active) (hq : q ∈ P.active)
    (hr : ¬Requested pairs p q) :
    findOffset m.cols (m.rows (colAt P p)) (colAt P q)
        (m.rows (colAt P p + 1) - m.rows (colAt P p)) 0 =
      if m.rows (colAt P p + 1) < m.cols.length then
        .ok (m.rows (colAt P p + 1) - m.rows (colAt P p)) else .error .outOfBounds := by
  have tp := active_tangent hp
  have hn0 := h.next p hp 0 tp
  simp only [Nat.add_zero] at hn0
  set row := colsOf P (blocks.filter fun q => decide (q.1 = p)) with hrow
  have hsz : m.rows (colAt P p + 1) - m.rows (colAt P p) = row.length := by
    rw [hn0, Nat.add_sub_cancel_left]
  have hmiss : colAt P q ∉ row := by
    refine colsOf_missing hP hq (fun x hx => ?_) (fun x hx he => ?_)
    · rw [List.mem_filter] at hx
      exact ((h.mem x.1 x.2).1 hx.1).2.1
    · rw [List.mem_filter] at hx
      have := (h.mem x.1 x.2).1 hx.1
      have h1 : x.1 = p := by simpa using hx.2
      rw [h1, he] at this
      exact hr this.2.2.2
  rw [hsz, findOffset_missing 0 (fun t ht => ?_)]
  · rw [hn0, Nat.zero_add]
  · have hg := h.get p hp 0 tp t ht
    rw [← hrow, Nat.add_zero] at hg
    refine ⟨row[t], ?_, fun he => hmiss (he ▸ List.getElem_mem ht)⟩
    rw [Nat.zero_add, hg, List.getElem?_eq_getElem ht]

theorem rows_lt_iff {m : Csr} (h : m.Ordered) {s n : ℕ} (hs : s ≤ n) (hn : n ≤ m.numRows) :
    m.rows s < m.rows n ↔ ∃ r, s ≤ r ∧ r < n ∧ m.rows r < m.rows (r + 1) := by
  constructor
  · intro hlt
    by_contra hno
    push Not at hno
    have : ∀ k, s + k ≤ n → m.rows (s + k) ≤ m.rows s := by
      intro k
      induction k with
      | zero => intro _; exact le_rfl
      | succ k ih =>
        intro hk
        have h1 := hno (s + k) (by omega) (by omega)
        have h2 := ih (by omega)
        rw [← Nat.add_assoc]
        omega
    have := this (n - s) (by omega)
    rw [Nat.add_sub_cancel' hs] at this
    omega
  · rintro ⟨r, h1, h2, h3⟩
    have h4 := h.mono h1 (by omega)
    have h5 := h.mono (show r + 1 ≤ n by omega) hn
    omega

/-- Something is stored behind the first row of block `p`. -/
def StoredLater (P : Prob K) (pairs : List (ℕ × ℕ)) (p : ℕ) : Prop :=
  ∃ x y, P.Varies x ∧ P.Varies y ∧ x ≤ y ∧ Requested pairs x y ∧
    (p < x ∨ (p = x ∧ 2 ≤ P.tangent p))

theorem storedLater_iff (hP : P.ptrs.Nodup) {pairs blocks : List (ℕ × ℕ)} {m : Csr}
    (h : Stored P pairs blocks m) {p : ℕ} (hp : p ∈ P.active) :
    m.rows (colAt P p + 1) < m.cols.length ↔ StoredLater P pairs p := by
  have tp := active_tangent hp
  have bp := colAt_le hP hp
  have hord := h.ordered hP
  have hpos : ∀ x, (colsOf P (blocks.filter fun q => decide (q.1 = x))).length ≠ 0 ↔
      ∃ y, (x, y) ∈ blocks := by
    intro x
    constructor
    · intro hne
      cases hb : blocks.filter fun q => decide (q.1 = x) with
      | nil => rw [hb] at hne; exact absurd rfl hne
      | cons z zs =>
        have hz : z ∈ blocks.filter fun q => decide (q.1 = x) := by
          rw [hb]
          exact List.mem_cons_self ..
        rw [List.mem_filter] at hz
        refine ⟨z.2, ?_⟩
        have : z.1 = x := by simpa using hz.2
        rw [← this]
        exact hz.1
    · rintro ⟨y, hy⟩ h0
      have hz : (x, y) ∈ blocks.filter fun q => decide (q.1 = x) := List.mem_filter.2 ⟨hy, by simp⟩
      have ht := active_tangent ((h.mem x y).1 hy).2.1
      have hmem : colAt P y ∈ colsOf P (blocks.filter fun q => decide (q.1 = x)) :=
        List.mem_flatMap.2 ⟨_, hz, List.mem_range'_1.2 ⟨le_rfl, Nat.lt_add_of_pos_right ht⟩⟩
      rw [List.length_eq_zero_iff] at h0
      rw [h0] at hmem
      cases hmem
  rw [← h.total, rows_lt_iff hord (by omega) (by rw [h.rowsEq])]
  constructor
  · rintro ⟨r, h1, h2, h3⟩
    obtain ⟨x, b, hx, hb1, hb2⟩ := exists_block P.active 0 r (Nat.zero_le _) h2
    have hxa := mem_index_keys hx
    have hcb := colAt_eq hP hx
    have hn := h.next x hxa (r - b) (by omega)
    rw [hcb, Nat.add_sub_cancel' hb1] at hn
    obtain ⟨y, hy⟩ := (hpos x).1 (by omega)
    have hm := (h.mem x y).1 hy
    refine ⟨x, y, varies_iff.2 hm.1, varies_iff.2 hm.2.1, hm.2.2.1, hm.2.2.2, ?_⟩
    rcases Nat.lt_trichotomy p x with hlt | heq | hgt
    · exact .inl hlt
    · right
      subst heq
      exact ⟨rfl, by omega⟩
    · have := colAt_lt hP hxa hp hgt
      omega
  · rintro ⟨x, y, hx, hy, hxy, hreq, hcase⟩
    have hxa := varies_iff.1 hx
    have hne := (hpos x).2 ⟨y, (h.mem x y).2 ⟨hxa, varies_iff.1 hy, hxy, hreq⟩⟩
    have bx := colAt_le hP hxa
    have tx := active_tangent hxa
    rcases hcase with hlt | ⟨rfl, h2⟩
    · have := colAt_lt hP hp hxa hlt
      have hn := h.next x hxa 0 tx
      simp only [Nat.add_zero] at hn
      exact ⟨colAt P x, by omega, by omega, by omega⟩
    · have hn := h.next p hxa 1 (by omega)
      exact ⟨colAt P p + 1, by omega, by omega, by omega⟩

/-- **C57.** A pair of variable blocks that was not requested: `GetCovarianceBlock` returns false
only if something is stored behind the first row of the block with the smaller address; otherwise
it reads past the end of the array of columns, and if nothing at all is stored it follows a null
pointer. -/
theorem getBlock_missing (hP : P.WellFormed) {pairs : List (ℕ × ℕ)} {f : ℕ → ℕ → K} {st : State K}
    (h : Holds P pairs f st) {p q : ℕ} (hp : P.Varies p) (hq : P.Varies q)
    (hr : ¬Requested pairs p q) (lift : Bool) (buf : ℕ → K) :
    ((∃ x y, P.Varies x ∧ P.Varies y ∧ Requested pairs x y) → StoredLater P pairs (min p q) →
      getBlock P st p q lift buf = .ok (false, buf)) ∧
    ((∃ x y, P.Varies x ∧ P.Varies y ∧ Requested pairs x y) → ¬StoredLater P pairs (min p q) →
      getBlock P st p q lift buf = .error .outOfBounds) ∧
    ((¬∃ x y, P.Varies x ∧ P.Varies y ∧ Requested pairs x y) →
      getBlock P st p q lift buf = .error .nullMatrix) := by
  have hN := hP.nodup
  have hpa := varies_iff.1 hp
  have hqa := varies_iff.1 hq
  have hnc : ∀ x, x ∈ P.active → x ∉ P.constants := by
    intro x hx hx'
    rw [mem_active] at hx
    rw [mem_constants, hx.2] at hx'
    exact absurd hx'.2 (by simp)
  have fp := findRow_active hN hpa
  have fq := findRow_active hN hqa
  rcases h.matrix with ⟨hm, hno⟩ | ⟨m, blocks, hm, hne, hst, -⟩
  · have hnone : ¬∃ x y, P.Varies x ∧ P.Varies y ∧ Requested pairs x y := by
      rintro ⟨x, y, hx, hy, hxy⟩
      exact hno x (varies_iff.1 hx) y (varies_iff.1 hy) hxy
    refine ⟨fun h => absurd h hnone, fun h => absurd h hnone, fun _ => ?_⟩
    unfold getBlock
    rw [h.valid, h.constants, h.index, hm]
    simp only [Bool.not_true, Bool.false_eq_true, if_false]
    rw [if_neg (by simp [hnc p hpa, hnc q hqa])]
    by_cases hlt : p > q
    · simp only [show decide (p > q) = true by simpa using hlt, if_true, fp, fq, bind, Except.bind]
    · simp only [show decide (p > q) = false by simpa using hlt, Bool.false_eq_true, if_false, fp,
        fq, bind, Except.bind]
  · have hsome : ∃ x y, P.Varies x ∧ P.Varies y ∧ Requested pairs x y := by
      obtain ⟨z, hz⟩ := List.exists_mem_of_ne_nil _ hne
      have := (hst.mem z.1 z.2).1 hz
      exact ⟨z.1, z.2, varies_iff.2 this.1, varies_iff.2 this.2.1, this.2.2.2⟩
    have key : ∀ a b, a ∈ P.active → b ∈ P.active → ¬Requested pairs a b →
        findOffset m.cols (m.rows (colAt P a)) (colAt P b)
          (m.rows (colAt P a + 1) - m.rows (colAt P a)) 0 =
        if m.rows (colAt P a + 1) < m.cols.length then
          .ok (m.rows (colAt P a + 1) - m.rows (colAt P a)) else .error .outOfBounds :=
      fun a b ha hb hab => search_missing hN hst ha hb hab
    have hmain : getBlock P st p q lift buf =
        if m.rows (colAt P (min p q) + 1) < m.cols.length then .ok (false, buf)
        else .error .outOfBounds := by
      unfold getBlock
      rw [h.valid, h.constants, h.index, hm]
      simp only [Bool.not_true, Bool.false_eq_true, if_false]
      rw [if_neg (by simp [hnc p hpa, hnc q hqa])]
      by_cases hlt : p > q
      · have hmin : min p q = q := min_eq_right (by omega)
        simp only [show decide (p > q) = true by simpa using hlt, if_true, fp, fq, bind,
          Except.bind, key q p hqa hpa (fun h => hr h.symm), hmin]
        by_cases hl : m.rows (colAt P q + 1) < m.cols.length
        · simp only [if_pos hl, if_true]
        · simp only [if_neg hl]
      · have hmin : min p q = p := min_eq_left (by omega)
        simp only [show decide (p > q) = false by simpa using hlt, Bool.false_eq_true, if_false, fp,
          fq, bind, Except.bind, key p q hpa hqa hr, hmin]
        by_cases hl : m.rows (colAt P p + 1) < m.cols.length
        · simp only [if_pos hl, if_true]
        · simp only [if_neg hl]
    have hmin : min p q ∈ P.active := by
      rcases min_choice p q with h | h <;> rw [h] <;> assumption
    have hiff := storedLater_iff hN hst hmin
    refine ⟨fun _ hs => ?_, fun _ hs => ?_, fun h => absurd hsome h⟩
    · rw [hmain, if_pos (hiff.2 hs)]
    · rw [hmain, if_neg fun h => hs (hiff.1 h)]

/-- **C57.** When `GetCovarianceBlock` returns, it returns true exactly for the pairs that are
available. -/
theorem getBlock_true_iff (hP : P.WellFormed) {pairs : List (ℕ × ℕ)} {f : ℕ → ℕ → K}
    (hf : Symmetric P.numColumns f) {st : State K} (h : Holds P pairs f st) {p q : ℕ} {lift : Bool}
    {buf out : ℕ → K} {b : Bool} (hg : getBlock P st p q lift buf = .ok (b, out)) :
    b = true ↔ Available P pairs p q := by
  constructor
  · rintro rfl
    have hmem : p ∈ P.ptrs ∧ q ∈ P.ptrs := by
      unfold getBlock at hg
      rw [h.valid, h.constants, h.index] at hg
      simp only [Bool.not_true, Bool.false_eq_true, if_false] at hg
      have hidx : ∀ x a, findRow (idx P) x = .ok a → x ∈ P.ptrs := fun x a hx =>
        (mem_active.1 (mem_index_keys (findRow_ok hx))).1
      split at hg
      · simp only [bind_ok] at hg
        obtain ⟨b1, h1, b2, h2, -⟩ := hg
        unfold Prob.find at h1 h2
        constructor
        · by_contra hn
          rw [if_neg hn] at h1
          cases h1
        · by_contra hn
          rw [if_neg hn] at h2
          cases h2
      · simp only [bind_ok] at hg
        obtain ⟨r, h1, c, h2, -⟩ := hg
        have m1 := hidx _ _ h1
        have m2 := hidx _ _ h2
        by_cases hlt : p > q
        · simp only [show decide (p > q) = true by simpa using hlt, if_true] at m1 m2
          exact ⟨m2, m1⟩
        · simp only [show decide (p > q) = false by simpa using hlt, Bool.false_eq_true,
            if_false] at m1 m2
          exact ⟨m1, m2⟩
    refine ⟨hmem.1, hmem.2, fun hp hq => ?_⟩
    by_contra hr
    obtain ⟨h1, h2, h3⟩ := getBlock_missing hP h hp hq hr lift buf
    by_cases he : ∃ x y, P.Varies x ∧ P.Varies y ∧ Requested pairs x y
    · by_cases hs : StoredLater P pairs (min p q)
      · rw [h1 he hs] at hg
        cases hg
      · rw [h2 he hs] at hg
        cases hg
    · rw [h3 he] at hg
      cases hg
  · intro ha
    rw [getBlock_available hP hf h ha] at hg
    cases hg
    rfl

/-! ### Whole matrices -/

theorem paramSizes_ok (lift : Bool) {params : List ℕ} (h : ∀ p ∈ params, p ∈ P.ptrs) :
    paramSizes P lift params = .ok (params.map (P.extent lift)) := by
  induction params with
  | nil => rfl
  | cons p ps ih =>
    rw [List.forall_mem_cons] at h
    unfold paramSizes Prob.find
    rw [if_pos h.1, ih h.2]
    rfl

/-- First row of the `i`-th parameter block of a list in the result. -/
def place (P : Prob K) (lift : Bool) (params : List ℕ) (i : ℕ) : ℕ :=
  ((params.take i).map (P.extent lift)).sum

theorem take_sum_succ (l : List ℕ) (i : ℕ) (h : i < l.length) :
    (l.take (i + 1)).sum = (l.take i).sum + l.getD i 0 := by
  rw [List.take_succ, List.sum_append, List.getD_eq_getElem?_getD, List.getElem?_eq_getElem h]
  simp

theorem take_sum_mono (l : List ℕ) {i j : ℕ} (h : i ≤ j) : (l.take i).sum ≤ (l.take j).sum := by
  have : l.take i = (l.take j).take i := by rw [List.take_take, min_eq_left h]
  rw [this]
  conv_rhs => rw [← List.take_append_drop i (l.take j), List.sum_append]
  exact Nat.le_add_right _ _

theorem take_sum_total (l : List ℕ) {i : ℕ} (h : i < l.length) :
    (l.take i).sum + l.getD i 0 ≤ l.sum := by
  rw [← take_sum_succ l i h]
  have := take_sum_mono l (show i + 1 ≤ l.length by omega)
  rwa [List.take_length] at this

/-- Ranges of different blocks are disjoint. -/
theorem place_unique (l : List ℕ) {i i' a : ℕ} (hi : i < l.length) (hi' : i' < l.length)
    (ha : a < l.getD i 0) (h1 : (l.take i').sum ≤ (l.take i).sum + a)
    (h2 : (l.take i).sum + a < (l.take i').sum + l.getD i' 0) : i' = i := by
  rcases Nat.lt_trichotomy i' i with h | h | h
  · have := take_sum_mono l (show i' + 1 ≤ i by omega)
    rw [take_sum_succ l i' hi'] at this
    omega
  · exact h
  · have := take_sum_mono l (show i + 1 ≤ i' by omega)
    rw [take_sum_succ l i hi] at this
    omega

theorem writeBlock_get (l : List ℕ) (buf : ℕ → K) (M : ℕ → ℕ → K) {i j i' j' a b : ℕ}
    (hi : i < l.length) (hj : j < l.length) (hi' : i' < l.length) (hj' : j' < l.length)
    (ha : a < l.getD i 0) (hb : b < l.getD j 0) :
    writeBlock l.sum buf (l.take i').sum (l.take j').sum (l.getD i' 0) (l.getD j' 0) M
        (((l.take i).sum + a) * l.sum + ((l.take j).sum + b)) =
      if i' = i ∧ j' = j then M a b
      else buf (((l.take i).sum + a) * l.sum + ((l.take j).sum + b)) := by
  have ti := take_sum_total l hi
  have tj := take_sum_total l hj
  have hN : 0 < l.sum := by omega
  have hlt : ((l.take i).sum + a) * l.sum + ((l.take j).sum + b) < l.sum * l.sum := by
    calc ((l.take i).sum + a) * l.sum + ((l.take j).sum + b)
        < ((l.take i).sum + a) * l.sum + l.sum := by omega
      _ = ((l.take i).sum + a + 1) * l.sum := by ring
      _ ≤ _ := Nat.mul_le_mul_right _ (by omega)
  have hd : (((l.take i).sum + a) * l.sum + ((l.take j).sum + b)) / l.sum = (l.take i).sum + a := by
    rw [Nat.mul_comm, Nat.mul_add_div hN, Nat.div_eq_of_lt (by omega), Nat.add_zero]
  have hm : (((l.take i).sum + a) * l.sum + ((l.take j).sum + b)) % l.sum = (l.take j).sum + b := by
    rw [Nat.mul_comm, Nat.mul_add_mod, Nat.mod_eq_of_lt (by omega)]
  unfold writeBlock
  rw [hd, hm]
  by_cases h : i' = i ∧ j' = j
  · rw [if_pos h]
    obtain ⟨rfl, rfl⟩ := h
    rw [if_pos ⟨hlt, by omega, by omega, by omega, by omega⟩, Nat.add_sub_cancel_left,
      Nat.add_sub_cancel_left]
  · rw [if_neg h, if_neg]
    rintro ⟨-, h1, h2, h3, h4⟩
    exact h ⟨place_unique l hi hi' ha h1 h2, place_unique l hj hj' hb h3 h4⟩

theorem writeBlock_outside (n : ℕ) (buf : ℕ → K) (r0 c0 h w : ℕ) (M : ℕ → ℕ → K) {x : ℕ}
    (hx : n * n ≤ x) : writeBlock n buf r0 c0 h w M x = buf x := by
  unfold writeBlock
  rw [if_neg]
  rintro ⟨h1, -⟩
  omega

/-- The effect of an iteration that finds its block. -/
theorem matrixStep_ok (hP : P.WellFormed) {pairs : List (ℕ × ℕ)} {f : ℕ → ℕ → K}
    (hf : Symmetric P.numColumns f) {st : State K} (h : Holds P pairs f st) (lift : Bool)
    {params : List ℕ} (ws : ℕ → ℕ → K) (s : Bool × (ℕ → K)) {i j k : ℕ}
    (hk : Util.linearToUpper k params.length = (i, j)) (hi : i < params.length)
    (hj : j < params.length)
    (ha : Available P pairs (params.getD i 0) (params.getD j 0)) :
    ∃ buf', matrixStep P st lift params (params.map (P.extent lift)) ws s k = .ok (s.1, buf') ∧
      (∀ i' < params.length, ∀ j' < params.length, ∀ a < P.extent lift (params.getD i' 0),
        ∀ b < P.extent lift (params.getD j' 0),
        buf' ((place P lift params i' + a) * (params.map (P.extent lift)).sum +
          (place P lift params j' + b)) =
        if (i = i' ∧ j = j') ∨ (j = i' ∧ i = j') then
          P.expected f lift (params.getD i' 0) (params.getD j' 0) a b
        else s.2 ((place P lift params i' + a) * (params.map (P.extent lift)).sum +
          (place P lift params j' + b))) ∧
      ∀ x, (params.map (P.extent lift)).sum * (params.map (P.extent lift)).sum ≤ x →
        buf' x = s.2 x := by
  set l := params.map (P.extent lift) with hl
  have hlen : l.length = params.length := by rw [hl, List.length_map]
  have hget : ∀ i, i < params.length → l.getD i 0 = P.extent lift (params.getD i 0) := by
    intro i hi
    rw [hl, List.getD_eq_getElem?_getD, List.getElem?_map, List.getD_eq_getElem?_getD,
      List.getElem?_eq_getElem hi]
    rfl
  have hplace : ∀ i, place P lift params i = (l.take i).sum := by
    intro i
    rw [hl, ← List.map_take]
    rfl
  unfold matrixStep
  rw [hk]
  simp only [getBlock_available hP hf h ha lift (ws k), bind, Except.bind, Bool.and_true]
  refine ⟨_, rfl, fun i' hi' j' hj' a ha' b hb' => ?_, fun x hx => ?_⟩
  · rw [hplace, hplace]
    rw [← hget i' hi'] at ha'
    rw [← hget j' hj'] at hb'
    set M : ℕ → ℕ → K := fun a b => writeMat (ws k) (P.extent lift (params.getD i 0))
      (P.extent lift (params.getD j 0)) (P.expected f lift (params.getD i 0) (params.getD j 0))
      (a * l.getD j 0 + b) with hM
    have hMv : ∀ a < l.getD i 0, ∀ b < l.getD j 0, M a b =
        P.expected f lift (params.getD i 0) (params.getD j 0) a b := by
      intro a ha b hb
      rw [hget i hi] at ha
      rw [hM]
      simp only []
      rw [hget j hj] at hb ⊢
      exact writeMat_get ha hb
    have w1 := writeBlock_get l s.2 M (i := i') (j := j') (i' := i) (j' := j) (by omega) (by omega)
      (by omega) (by omega) ha' hb'
    have htr : ∀ a < l.getD j 0, ∀ b < l.getD i 0, tr M a b =
        P.expected f lift (params.getD j 0) (params.getD i 0) a b := by
      intro a ha b hb
      change M b a = _
      rw [hMv b hb a ha]
      rw [hget i hi] at hb
      rw [hget j hj] at ha
      refine expected_transpose hP.nodup (by rwa [dim_eq]) lift _ _ b a ?_ ?_
      · rintro rfl; exact hb
      · rintro rfl; exact ha
    by_cases hij : i = j
    · rw [if_neg (not_not.2 hij), w1]
      subst hij
      by_cases hc : i = i' ∧ i = j'
      · rw [if_pos hc, if_pos (.inl hc)]
        obtain ⟨rfl, rfl⟩ := hc
        exact hMv a ha' b hb'
      · rw [if_neg hc, if_neg (by tauto)]
    · rw [if_pos hij]
      have w2 := writeBlock_get l
        (writeBlock l.sum s.2 (l.take i).sum (l.take j).sum (l.getD i 0) (l.getD j 0) M) (tr M)
        (i := i') (j := j') (i' := j) (j' := i) (by omega) (by omega) (by omega) (by omega) ha' hb'
      rw [w2, w1]
      by_cases hc : j = i' ∧ i = j'
      · rw [if_pos hc, if_pos (.inr hc)]
        obtain ⟨rfl, rfl⟩ := hc
        exact htr a ha' b hb'
      · rw [if_neg hc]
        by_cases hc' : i = i' ∧ j = j'
        · rw [if_pos hc', if_pos (.inl hc')]
          obtain ⟨rfl, rfl⟩ := hc'
          exact hMv a ha' b hb'
        · rw [if_neg hc', if_neg (by tauto)]
  · split
    · rw [writeBlock_outside _ _ _ _ _ _ _ hx, writeBlock_outside _ _ _ _ _ _ _ hx]
    · rw [writeBlock_outside _ _ _ _ _ _ _ hx]

/-- **C57.** `GetCovarianceMatrix` for a list of blocks all of whose pairs are available: whatever
the order of the iterations and whatever the workspaces hold, the result consists of the blocks of
the covariance, and nothing behind it is written. -/
theorem getMatrix_spec (hP : P.WellFormed) {pairs : List (ℕ × ℕ)} {f : ℕ → ℕ → K}
    (hf : Symmetric P.numColumns f) {st : State K} (h : Holds P pairs f st) (lift : Bool)
    {params : List ℕ} (hne : params ≠ []) (ha : ∀ p ∈ params, ∀ q ∈ params, Available P pairs p q)
    (ws : ℕ → ℕ → K) {order : List ℕ}
    (ho : order.Perm (List.range (params.length * (params.length + 1) / 2))) (buf : ℕ → K) :
    ∃ out, getMatrix P st params lift ws order buf = .ok (true, out) ∧
      (∀ i < params.length, ∀ j < params.length, ∀ a < P.extent lift (params.getD i 0),
        ∀ b < P.extent lift (params.getD j 0),
        out ((place P lift params i + a) * (params.map (P.extent lift)).sum +
          (place P lift params j + b)) =
        P.expected f lift (params.getD i 0) (params.getD j 0) a b) ∧
      ∀ x, (params.map (P.extent lift)).sum * (params.map (P.extent lift)).sum ≤ x →
        out x = buf x := by
  have hmem : ∀ i < params.length, params.getD i 0 ∈ params := by
    intro i hi
    rw [List.getD_eq_getElem?_getD, List.getElem?_eq_getElem hi]
    exact List.getElem_mem hi
  have hsizes := paramSizes_ok lift fun p hp => (ha p hp p hp).1
  have hhalf : ∀ k, k < params.length * (params.length + 1) / 2 ↔
      2 * k < params.length * (params.length + 1) := by
    intro k
    have := Nat.even_mul_succ_self params.length
    obtain ⟨c, hc⟩ := this
    rw [hc]
    omega
  have key : ∀ (l : List ℕ) (s : Bool × (ℕ → K)),
      (∀ k ∈ l, 2 * k < params.length * (params.length + 1)) → s.1 = true →
      ∃ out, l.foldlM (matrixStep P st lift params (params.map (P.extent lift)) ws) s
          = .ok (true, out) ∧
        (∀ i < params.length, ∀ j < params.length, ∀ a < P.extent lift (params.getD i 0),
          ∀ b < P.extent lift (params.getD j 0),
          ((∃ k ∈ l, Util.linearToUpper k params.length = (i, j) ∨
            Util.linearToUpper k params.length = (j, i)) ∨
            s.2 ((place P lift params i + a) * (params.map (P.extent lift)).sum +
              (place P lift params j + b)) =
            P.expected f lift (params.getD i 0) (params.getD j 0) a b) →
          out ((place P lift params i + a) * (params.map (P.extent lift)).sum +
            (place P lift params j + b)) =
          P.expected f lift (params.getD i 0) (params.getD j 0) a b) ∧
        ∀ x, (params.map (P.extent lift)).sum * (params.map (P.extent lift)).sum ≤ x →
          out x = s.2 x := by
    intro l
    induction l with
    | nil =>
      intro s _ hs
      refine ⟨s.2, ?_, fun i hi j hj a ha b hb h => ?_, fun x _ => rfl⟩
      · rw [List.foldlM_nil, ← hs]
        rfl
      · simpa using h
    | cons k l ih =>
      intro s hk hs
      rw [List.forall_mem_cons] at hk
      obtain ⟨hv1, hv2, -⟩ := Util.linearToUpper_valid params.length k hk.1
      cases hu : Util.linearToUpper k params.length with
      | mk i0 j0 =>
        rw [hu] at hv1 hv2
        simp only [] at hv1 hv2
        have hi0 : i0 < params.length := by omega
        obtain ⟨buf', g1, g2, g3⟩ := matrixStep_ok hP hf h lift ws s hu hi0 hv2
          (ha _ (hmem _ hi0) _ (hmem _ hv2))
        obtain ⟨out, r1, r2, r3⟩ := ih (s.1, buf') hk.2 hs
        refine ⟨out, ?_, fun i hi j hj a ha b hb hor => ?_, fun x hx => ?_⟩
        · rw [List.foldlM_cons, g1]
          exact r1
        · refine r2 i hi j hj a ha b hb ?_
          by_cases hc : (i0 = i ∧ j0 = j) ∨ (j0 = i ∧ i0 = j)
          · right
            simp only []
            rw [g2 i hi j hj a ha b hb, if_pos hc]
          · rcases hor with ⟨k', hk', hor⟩ | hor
            · rcases List.mem_cons.1 hk' with rfl | hk'
              · exfalso
                rw [hu] at hor
                simp only [Prod.mk.injEq] at hor
                exact hc (by tauto)
              · exact .inl ⟨k', hk', hor⟩
            · right
              simp only []
              rw [g2 i hi j hj a ha b hb, if_neg hc, hor]
        · exact (r3 x hx).trans (g3 x hx)
  obtain ⟨out, r1, r2, r3⟩ := key order (true, buf) (fun k hk => by
    rw [ho.mem_iff, List.mem_range, hhalf] at hk
    exact hk) rfl
  refine ⟨out, ?_, fun i hi j hj a ha' b hb' => r2 i hi j hj a ha' b hb' (.inl ?_), r3⟩
  · unfold getMatrix
    rw [h.valid]
    simp only [Bool.not_true, Bool.false_eq_true, if_false, hsizes, bind, Except.bind, if_neg hne]
    exact r1
  · rcases Nat.le_total i j with hij | hij
    · obtain ⟨h1, h2⟩ := Util.upperToLinear_valid params.length i j hij hj
      exact ⟨_, ho.mem_iff.2 (List.mem_range.2 ((hhalf _).2 h1)), .inl h2⟩
    · obtain ⟨h1, h2⟩ := Util.upperToLinear_valid params.length j i hij hi
      exact ⟨_, ho.mem_iff.2 (List.mem_range.2 ((hhalf _).2 h1)), .inr h2⟩

/-- **C57.** Every execution of the parallel loop returns that result. -/
theorem getMatrix_parallel (hP : P.WellFormed) {pairs : List (ℕ × ℕ)} {f : ℕ → ℕ → K}
    (hf : Symmetric P.numColumns f) {st : State K} (h : Holds P pairs f st) (lift : Bool)
    {params : List ℕ} (hne : params ≠ []) (ha : ∀ p ∈ params, ∀ q ∈ params, Available P pairs p q)
    (ws : ℕ → ℕ → K) {threads : ℕ} {log : List (ℕ × ℕ)}
    (hlog : Parallel.Outcome 0 (params.length * (params.length + 1) / 2) threads 1 log)
    (buf : ℕ → K) :
    ∃ out, getMatrix P st params lift ws (log.map (·.2)) buf = .ok (true, out) ∧
      ∀ i < params.length, ∀ j < params.length, ∀ a < P.extent lift (params.getD i 0),
        ∀ b < P.extent lift (params.getD j 0),
        out ((place P lift params i + a) * (params.map (P.extent lift)).sum +
          (place P lift params j + b)) =
        P.expected f lift (params.getD i 0) (params.getD j 0) a b := by
  have hp := Parallel.parallelFor_permutation Nat.one_pos hlog
  rw [Nat.sub_zero, ← List.range_eq_range'] at hp
  obtain ⟨out, h1, h2, -⟩ := getMatrix_spec hP hf h lift hne ha ws hp buf
  exact ⟨out, h1, h2⟩

/-- **C57.** When `GetCovarianceMatrix` returns, it returns true exactly if all pairs are
available. -/
theorem getMatrix_true_iff (hP : P.WellFormed) {pairs : List (ℕ × ℕ)} {f : ℕ → ℕ → K}
    (hf : Symmetric P.numColumns f) {st : State K} (h : Holds P pairs f st) {lift : Bool}
    {params : List ℕ} {ws : ℕ → ℕ → K} {order : List ℕ}
    (ho : order.Perm (List.range (params.length * (params.length + 1) / 2))) {buf out : ℕ → K}
    {b : Bool} (hg : getMatrix P st params lift ws order buf = .ok (b, out)) :
    b = true ↔ ∀ p ∈ params, ∀ q ∈ params, Available P pairs p q := by
  unfold getMatrix at hg
  rw [h.valid] at hg
  simp only [Bool.not_true, Bool.false_eq_true, if_false, bind_ok] at hg
  obtain ⟨sizes, -, hg⟩ := hg
  split at hg
  · cases hg
  have hhalf : ∀ k, k < params.length * (params.length + 1) / 2 ↔
      2 * k < params.length * (params.length + 1) := by
    intro k
    obtain ⟨c, hc⟩ := Nat.even_mul_succ_self params.length
    rw [hc]
    omega
  have key : ∀ (l : List ℕ) (s : Bool × (ℕ → K)) (r : Bool × (ℕ → K)),
      l.foldlM (matrixStep P st lift params sizes ws) s = .ok r →
      (r.1 = true ↔ s.1 = true ∧ ∀ k ∈ l, Available P pairs
        (params.getD (Util.linearToUpper k params.length).1 0)
        (params.getD (Util.linearToUpper k params.length).2 0)) := by
    intro l
    induction l with
    | nil =>
      intro s r hr
      rw [List.foldlM_nil] at hr
      cases hr
      simp
    | cons k l ih =>
      intro s r hr
      rw [List.foldlM_cons, bind_ok] at hr
      obtain ⟨s', h1, h2⟩ := hr
      rw [ih s' r h2, List.forall_mem_cons]
      unfold matrixStep at h1
      simp only [bind_ok] at h1
      obtain ⟨⟨ok, cb⟩, h3, h4⟩ := h1
      have := getBlock_true_iff hP hf h h3
      cases h4
      simp only [Bool.and_eq_true]
      rw [this, and_assoc]
  rw [key order (true, buf) (b, out) hg]
  simp only [true_and]
  constructor
  · intro hall p hp q hq
    obtain ⟨i, hi, rfl⟩ := List.mem_iff_getElem.1 hp
    obtain ⟨j, hj, rfl⟩ := List.mem_iff_getElem.1 hq
    rcases Nat.le_total i j with hij | hij
    · obtain ⟨h1, h2⟩ := Util.upperToLinear_valid params.length i j hij hj
      have := hall _ (ho.mem_iff.2 (List.mem_range.2 ((hhalf _).2 h1)))
      rw [h2, List.getD_eq_getElem?_getD, List.getD_eq_getElem?_getD, List.getElem?_eq_getElem hi,
        List.getElem?_eq_getElem hj] at this
      exact this
    · obtain ⟨h1, h2⟩ := Util.upperToLinear_valid params.length j i hij hi
      have := hall _ (ho.mem_iff.2 (List.mem_range.2 ((hhalf _).2 h1)))
      rw [h2, List.getD_eq_getElem?_getD, List.getD_eq_getElem?_getD, List.getElem?_eq_getElem hi,
        List.getElem?_eq_getElem hj] at this
      exact this.symm
  · intro hall k hk
    rw [ho.mem_iff, List.mem_range, hhalf] at hk
    obtain ⟨h1, h2, -⟩ := Util.linearToUpper_valid params.length k hk
    have hm : ∀ i < params.length, params.getD i 0 ∈ params := by
      intro i hi
      rw [List.getD_eq_getElem?_getD, List.getElem?_eq_getElem hi]
      exact List.getElem_mem hi
    exact hall _ (hm _ (by omega)) _ (hm _ h2)

/-- **C57.** After `Compute` for a list of blocks every pair of them is requested. -/
theorem allPairs_requested {blocks : List ℕ} {p q : ℕ} (hp : p ∈ blocks) (hq : q ∈ blocks) :
    Requested (allPairs blocks) p q := by
  induction blocks with
  | nil => cases hp
  | cons x xs ih =>
    unfold Requested at ih ⊢
    simp only [allPairs, List.mem_append, List.mem_map]
    rcases List.mem_cons.1 hp with rfl | hp'
    · exact .inl (.inl ⟨q, hq, rfl⟩)
    · rcases List.mem_cons.1 hq with rfl | hq'
      · exact .inr (.inl ⟨p, hp, rfl⟩)
      · exact (ih hp' hq').imp .inr .inr

/-- And no pair is requested twice. -/
theorem allPairs_nodup {blocks : List ℕ} (h : blocks.Nodup) : (allPairs blocks).Nodup := by
  have hm : ∀ (l : List ℕ) (z : ℕ × ℕ), z ∈ allPairs l → z.1 ∈ l := by
    intro l
    induction l with
    | nil => intro z hz; cases hz
    | cons x xs ih =>
      intro z hz
      simp only [allPairs, List.mem_append, List.mem_map] at hz
      rcases hz with ⟨y, -, rfl⟩ | hz
      · exact List.mem_cons_self ..
      · exact List.mem_cons_of_mem _ (ih z hz)
  induction blocks with
  | nil => exact List.nodup_nil
  | cons x xs ih =>
    rw [allPairs, List.nodup_append]
    have h' := List.nodup_cons.1 h
    refine ⟨h.map fun a b hab => (Prod.mk.inj hab).2, ih h'.2, ?_⟩
    intro a ha b hb hab
    subst hab
    rw [List.mem_map] at ha
    obtain ⟨y, -, rfl⟩ := ha
    exact h'.1 (hm xs _ hb)

end Ceres.Cov
