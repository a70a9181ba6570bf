import Verif.Cov.Spec
import Verif.Cov.Fill

/-! # Reading a block returns the right block -/

namespace Ceres.Cov

variable {K : Type} {P : Prob K}

theorem varies_iff {p : ℕ} : P.Varies p ↔ p ∈ P.active := by
  rw [mem_active]
  unfold Prob.Varies Prob.isActive Block.isConstant
  simp [and_assoc]

/-- The spec's column is the model's. -/
theorem indexRows_firstColumn (ps : List ℕ) (hs : ps.Pairwise (· < ·)) (n p a : ℕ)
    (h : (p, a) ∈ indexRows P ps n) :
    a = n + ((ps.filter fun q => decide (q < p)).map P.tangent).sum := by
  induction ps generalizing n with
  | nil => simp [indexRows] at h
  | cons q ps ih =>
    rw [List.pairwise_cons] at hs
    simp only [indexRows, List.mem_cons, Prod.mk.injEq] at h
    rcases h with ⟨rfl, rfl⟩ | h
    · have : (p :: ps).filter (fun q => decide (q < p)) = [] := by
        rw [List.filter_eq_nil_iff]
        intro x hx
        rcases List.mem_cons.1 hx with rfl | hx
        · simp
        · have := hs.1 x hx
          simp only [decide_eq_true_eq, not_lt]
          omega
      rw [this]
      simp
    · have hlt := hs.1 p (mem_index_keys h)
      rw [ih hs.2 _ h, List.filter_cons_of_pos (by simpa using hlt), List.map_cons, List.sum_cons,
        Nat.add_assoc]

theorem colAt_firstColumn (hP : P.ptrs.Nodup) {p : ℕ} (h : p ∈ P.active) :
    colAt P p = P.firstColumn p := by
  rw [indexRows_firstColumn _ (active_sorted hP) 0 p _ (mem_colAt hP h), Nat.zero_add]
  unfold Prob.firstColumn Prob.active
  refine List.Perm.sum_eq (List.Perm.map _ ?_)
  refine ((List.perm_insertionSort (· ≤ ·) _).filter _).trans ?_
  rw [List.filter_filter]
  refine List.Perm.of_eq (List.filter_congr fun x _ => ?_)
  rw [Bool.and_comm]

theorem numRows_eq (ps : List ℕ) (n : ℕ) : numRows P ps n = n + (ps.map P.tangent).sum := by
  induction ps generalizing n with
  | nil => simp [numRows]
  | cons p ps ih => rw [numRows, ih, List.map_cons, List.sum_cons, Nat.add_assoc]

theorem dim_eq : dim P = P.numColumns := by
  unfold dim
  rw [numRows_eq, Nat.zero_add]
  exact List.Perm.sum_eq (List.Perm.map _ (List.perm_insertionSort (· ≤ ·) _))

/-- Every row belongs to a block. -/
theorem exists_block (ps : List ℕ) (n r : ℕ) (h1 : n ≤ r) (h2 : r < numRows P ps n) :
    ∃ p b, (p, b) ∈ indexRows P ps n ∧ b ≤ r ∧ r < b + P.tangent p := by
  induction ps generalizing n with
  | nil => simp only [numRows] at h2; omega
  | cons p ps ih =>
    by_cases hr : r < n + P.tangent p
    · exact ⟨p, n, List.mem_cons_self .., h1, hr⟩
    · obtain ⟨q, b, h3, h4⟩ := ih (n + P.tangent p) (by omega) h2
      exact ⟨q, b, List.mem_cons_of_mem _ h3, h4⟩

/-! ### The stored matrix -/

/-- What the matrix looks like. `blocks` are the pairs that are stored. -/
structure Stored (P : Prob K) (pairs blocks : List (ℕ × ℕ)) (m : Csr) : Prop where
  mem : ∀ p q, (p, q) ∈ blocks ↔
    p ∈ P.active ∧ q ∈ P.active ∧ p ≤ q ∧ Requested pairs p q
  rowsEq : m.numRows = dim P
  next : ∀ p ∈ P.active, ∀ r < P.tangent p, m.rows (colAt P p + r + 1) =
    m.rows (colAt P p + r) + (colsOf P (blocks.filter fun q => q.1 = p)).length
  get : ∀ p ∈ P.active, ∀ r < P.tangent p, ∀ t,
    t < (colsOf P (blocks.filter fun q => q.1 = p)).length →
    m.cols[m.rows (colAt P p + r) + t]? = (colsOf P (blocks.filter fun q => q.1 = p))[t]?
  total : m.rows (dim P) = m.cols.length

/-- **C57.** `Compute` looks all blocks up, or aborts because it does not know one; the pattern it
then creates has exactly as many entries as were allocated. -/
theorem sparsity_ok (hP : P.ptrs.Nodup) (pairs : List (ℕ × ℕ)) :
    (∃ s, sparsity P pairs = .ok s ∧ (∀ q ∈ pairs, Known P q) ∧
      s.constants = P.constants ∧ s.active = P.active ∧ s.index = idx P ∧
      ((s.matrix = none ∧ ∀ p ∈ P.active, ∀ q ∈ P.active, ¬Requested pairs p q) ∨
        ∃ m blocks, s.matrix = some m ∧ blocks ≠ [] ∧ Stored P pairs blocks m)) ∨
    (sparsity P pairs = .error .unknownBlock ∧ ¬∀ q ∈ pairs, Known P q) := by
  unfold sparsity
  cases hf : flipPairs P (idx P) pairs with
  | error e =>
    right
    have := flipPairs_error hf
    subst this
    refine ⟨by simp only [show flipPairs P (indexRows P P.active 0) pairs = _ from hf, bind,
      Except.bind], fun hk => ?_⟩
    obtain ⟨r, hr⟩ := (flipPairs_defined hP pairs).2 hk
    rw [hf] at hr
    cases hr
  | ok r =>
    obtain ⟨n, blocks⟩ := r
    left
    obtain ⟨hcount, hmem⟩ := flipPairs_ok hP hf
    have hk := (flipPairs_defined hP pairs).1 ⟨_, hf⟩
    simp only [show flipPairs P (indexRows P P.active 0) pairs = _ from hf, bind, Except.bind]
    by_cases hb : blocks = []
    · rw [if_pos hb]
      refine ⟨_, rfl, hk, rfl, rfl, rfl, .inl ⟨rfl, fun p hp q hq hreq => ?_⟩⟩
      subst hb
      rcases Nat.le_total p q with h | h
      · exact absurd ((hmem p q).2 ⟨hp, hq, h, hreq⟩) (by simp)
      · exact absurd ((hmem q p).2 ⟨hq, hp, h, hreq.symm⟩) (by simp)
    · rw [if_neg hb]
      have hperm := List.perm_insertionSort pairLe blocks
      have hpw : (blocks.insertionSort pairLe).Pairwise pairLe := by
        haveI : Std.Total pairLe := ⟨fun a b => by unfold pairLe; omega⟩
        haveI : IsTrans (ℕ × ℕ) pairLe := ⟨fun a b c h1 h2 => by unfold pairLe at *; omega⟩
        exact List.pairwise_insertionSort _ _
      have hmem' : ∀ q, q ∈ blocks.insertionSort pairLe ↔ q ∈ blocks := fun q => hperm.mem_iff
      obtain ⟨rows, cols, h1, ⟨tail, h2, h3⟩, h4, -, h6⟩ := fill_ok hP P.active 0 (active_sorted hP)
        (fun p hp => active_tangent hp) (blocks.insertionSort pairLe)
        (hpw.imp fun h => by unfold pairLe at h; omega)
        (fun q hq => ((hmem q.1 q.2).1 ((hmem' q).1 hq)).1)
        (fun q hq => ((hmem q.1 q.2).1 ((hmem' q).1 hq)).2.1) (fun _ => 0) []
      rw [h1]
      have hlen : cols.length = n := by
        rw [h2, List.nil_append, h3, hcount]
        exact (hperm.map _).sum_eq
      simp only []
      rw [if_neg (by omega)]
      refine ⟨_, rfl, hk, rfl, rfl, rfl, .inr ⟨_, blocks.insertionSort pairLe, rfl, ?_, ?_⟩⟩
      · intro h
        rw [h] at hperm
        exact hb hperm.symm.eq_nil
      · refine ⟨fun p q => by rw [hmem', hmem]; rfl, rfl, fun p hp r hr => ?_,
          fun p hp r hr t ht => ?_, ?_⟩
        · have hm := mem_colAt hP hp
          have hle := colAt_le hP hp
          obtain ⟨g1, g2⟩ := h6.next p _ hm r hr
          simp only []
          rw [Function.update_of_ne (show colAt P p + r ≠ dim P by omega)]
          by_cases hd : colAt P p + r + 1 = dim P
          · rw [hd, Function.update_self, ← g2 hd]
          · rw [Function.update_of_ne hd, g1 (by unfold dim at *; omega)]
        · have hm := mem_colAt hP hp
          have hle := colAt_le hP hp
          simp only []
          rw [Function.update_of_ne (show colAt P p + r ≠ dim P by omega), hlen, Nat.sub_self,
            List.replicate_zero, List.append_nil]
          exact h6.get p _ hm r hr t ht
        · simp only []
          rw [Function.update_self, hlen, Nat.sub_self, List.replicate_zero, List.append_nil, hlen]

theorem Stored.ordered (hP : P.ptrs.Nodup) {pairs blocks : List (ℕ × ℕ)} {m : Csr}
    (h : Stored P pairs blocks m) : m.Ordered := by
  intro r hr
  rw [h.rowsEq] at hr
  obtain ⟨p, b, h1, h2, h3⟩ := exists_block P.active 0 r (Nat.zero_le _) hr
  have hb := colAt_eq hP h1
  have := h.next p (mem_index_keys h1) (r - b) (by omega)
  rw [hb] at this
  have e : b + (r - b) = r := by omega
  rw [e] at this
  omega

theorem Csr.Ordered.mono {m : Csr} (h : m.Ordered) {r s : ℕ} (hrs : r ≤ s) (hs : s ≤ m.numRows) :
    m.rows r ≤ m.rows s := by
  induction s with
  | zero => rw [Nat.le_zero.1 hrs]
  | succ s ih =>
    rcases Nat.lt_or_ge r (s + 1) with hlt | hge
    · exact (ih (by omega) (by omega)).trans (h s (by omega))
    · rw [le_antisymm hrs hge]

/-! ### Values -/

theorem foldl_update_get {f : ℕ → K} {l : List ℕ} {v : ℕ → K} {i : ℕ} :
    (l.foldl (fun v idx => Function.update v idx (f idx)) v) i = if i ∈ l then f i else v i := by
  induction l generalizing v with
  | nil => simp
  | cons x l ih =>
    rw [List.foldl_cons, ih]
    by_cases hi : i ∈ l
    · rw [if_pos hi, if_pos (List.mem_cons_of_mem _ hi)]
    · rw [if_neg hi]
      by_cases hx : i = x
      · subst hx
        rw [Function.update_self, if_pos (List.mem_cons_self ..)]
      · rw [Function.update_of_ne hx, if_neg (by simp [hx, hi])]

theorem copyRow_get {m : Csr} {f : ℕ → ℕ → K} {r : ℕ} {v : ℕ → K} {i : ℕ} :
    copyRow m f r v i =
      if m.rows r ≤ i ∧ i < m.rows (r + 1) then f r (m.cols.getD i 0) else v i := by
  unfold copyRow
  rw [foldl_update_get (f := fun idx => f r (m.cols.getD idx 0))]
  refine if_congr ?_ rfl rfl
  rw [List.mem_range'_1]
  omega

/-- Whatever the order in which the rows are computed, every entry gets its value. -/
theorem copyRows_get [Zero K] {m : Csr} (hm : m.Ordered) {f : ℕ → ℕ → K} {order : List ℕ}
    (ho : ∀ r, r ∈ order ↔ r < m.numRows) {r : ℕ} (hr : r < m.numRows) {i : ℕ}
    (h1 : m.rows r ≤ i) (h2 : i < m.rows (r + 1)) :
    copyRows m f order i = f r (m.cols.getD i 0) := by
  have huniq : ∀ s < m.numRows, m.rows s ≤ i → i < m.rows (s + 1) → s = r := by
    intro s hs h3 h4
    rcases Nat.lt_trichotomy s r with h | h | h
    · have := hm.mono (show s + 1 ≤ r by omega) hr.le
      omega
    · exact h
    · have := hm.mono (show r + 1 ≤ s by omega) hs.le
      omega
  have key : ∀ (l : List ℕ) (v : ℕ → K), (∀ s ∈ l, s < m.numRows) →
      (r ∈ l ∨ v i = f r (m.cols.getD i 0)) →
      (l.foldl (fun v r => copyRow m f r v) v) i = f r (m.cols.getD i 0) := by
    intro l
    induction l with
    | nil => intro v _ h; simpa using h
    | cons s l ih =>
      intro v hl h
      rw [List.foldl_cons]
      rw [List.forall_mem_cons] at hl
      refine ih _ hl.2 ?_
      by_cases hsi : m.rows s ≤ i ∧ i < m.rows (s + 1)
      · right
        rw [copyRow_get, if_pos hsi, huniq s hl.1 hsi.1 hsi.2]
      · rcases h with h | h
        · rcases List.mem_cons.1 h with rfl | h
          · exact absurd ⟨h1, h2⟩ hsi
          · exact .inl h
        · right
          rw [copyRow_get, if_neg hsi, h]
  exact key order _ (fun s hs => (ho s).1 hs) (.inl ((ho r).2 hr))

/-! ### The search -/

theorem findOffset_found {cols : List ℕ} {start target n o : ℕ} (off : ℕ) (hn : o < n)
    (h1 : ∀ t < o, ∃ c, cols[start + (off + t)]? = some c ∧ c ≠ target)
    (h2 : cols[start + (off + o)]? = some target) :
    findOffset cols start target n off = .ok (off + o) := by
  induction n generalizing off o with
  | zero => omega
  | succ n ih =>
    unfold findOffset
    cases o with
    | zero =>
      rw [Nat.add_zero] at h2
      rw [h2]
      simp
    | succ o =>
      obtain ⟨c, h3, h4⟩ := h1 0 (by omega)
      rw [Nat.add_zero] at h3
      rw [h3]
      simp only [ne_eq, h4, not_false_eq_true, if_true]
      rw [ih (o := o) (off + 1) (by omega)]
      · congr 1
        omega
      · intro t ht
        obtain ⟨c, h5, h6⟩ := h1 (t + 1) (by omega)
        exact ⟨c, by rw [← h5]; congr 1; omega, h6⟩
      · rw [← h2]
        congr 1
        omega

theorem findOffset_missing {cols : List ℕ} {start target n : ℕ} (off : ℕ)
    (h1 : ∀ t < n, ∃ c, cols[start + (off + t)]? = some c ∧ c ≠ target) :
    findOffset cols start target n off =
      if start + (off + n) < cols.length then .ok (off + n) else .error .outOfBounds := by
  induction n generalizing off with
  | zero =>
    unfold findOffset
    rw [Nat.add_zero]
    by_cases h : start + off < cols.length
    · rw [if_pos h, List.getElem?_eq_getElem h]
    · rw [if_neg h, List.getElem?_eq_none (by omega)]
  | succ n ih =>
    unfold findOffset
    obtain ⟨c, h3, h4⟩ := h1 0 (by omega)
    rw [Nat.add_zero] at h3
    rw [h3]
    simp only [ne_eq, h4, not_false_eq_true, if_true]
    rw [ih (off + 1)]
    · have : off + 1 + n = off + (n + 1) := by omega
      rw [this]
    · intro t ht
      obtain ⟨c, h5, h6⟩ := h1 (t + 1) (by omega)
      exact ⟨c, by rw [← h5]; congr 1; omega, h6⟩

/-- The columns of a block are found where its first column first occurs. -/
theorem colsOf_found (hP : P.ptrs.Nodup) {q : ℕ} {mine : List (ℕ × ℕ)}
    (ha : ∀ x ∈ mine, x.2 ∈ P.active) (hq : ∃ x ∈ mine, x.2 = q) :
    ∃ o, (∀ j < P.tangent q, (colsOf P mine)[o + j]? = some (colAt P q + j)) ∧
      (∀ t < o, (colsOf P mine)[t]? ≠ some (colAt P q)) ∧
      o + P.tangent q ≤ (colsOf P mine).length := by
  induction mine with
  | nil => simp at hq
  | cons x xs ih =>
    rw [List.forall_mem_cons] at ha
    have hc : colsOf P (x :: xs) = List.range' (colAt P x.2) (P.tangent x.2) ++ colsOf P xs := rfl
    rw [hc]
    by_cases hx : x.2 = q
    · subst hx
      refine ⟨0, fun j hj => ?_, fun t ht => absurd ht (by omega), ?_⟩
      · rw [Nat.zero_add, List.getElem?_append_left (by simpa using hj), List.getElem?_range' hj]
        simp
      · simp
    · have hq' : ∃ y ∈ xs, y.2 = q := by
        obtain ⟨y, hy, rfl⟩ := hq
        rcases List.mem_cons.1 hy with rfl | hy
        · exact absurd rfl hx
        · exact ⟨y, hy, rfl⟩
      have haq : q ∈ P.active := by
        obtain ⟨y, hy, rfl⟩ := hq'
        exact ha.2 y hy
      obtain ⟨o, h1, h2, h3⟩ := ih ha.2 hq'
      refine ⟨P.tangent x.2 + o, fun j hj => ?_, fun t ht => ?_, ?_⟩
      · rw [List.getElem?_append_right (by rw [List.length_range']; omega), List.length_range',
          ← h1 j hj]
        congr 1
        omega
      · by_cases htx : t < P.tangent x.2
        · rw [List.getElem?_append_left (by simpa using htx), List.getElem?_range' htx]
          simp only [one_mul, ne_eq, Option.some.injEq]
          have hpos := active_tangent haq
          rcases Nat.lt_or_ge x.2 q with h | h
          · have := colAt_lt hP ha.1 haq h
            omega
          · have := colAt_lt hP haq ha.1 (by omega)
            omega
        · rw [List.getElem?_append_right (by rw [List.length_range']; omega), List.length_range']
          exact h2 _ (by omega)
      · rw [List.length_append, List.length_range']
        omega

theorem colsOf_missing (hP : P.ptrs.Nodup) {q : ℕ} (haq : q ∈ P.active) {mine : List (ℕ × ℕ)}
    (ha : ∀ x ∈ mine, x.2 ∈ P.active) (hq : ∀ x ∈ mine, x.2 ≠ q) :
    colAt P q ∉ colsOf P mine := by
  unfold colsOf
  rw [List.mem_flatMap]
  rintro ⟨x, hx, hm⟩
  rw [List.mem_range'_1] at hm
  have hpos := active_tangent haq
  rcases Nat.lt_or_ge x.2 q with h | h
  · have := colAt_lt hP (ha x hx) haq h
    omega
  · have := colAt_lt hP haq (ha x hx) (lt_of_le_of_ne h (hq x hx).symm)
    omega

/-! ### The theorems -/

/-- What `Compute` has established when it has returned true. -/
structure Holds (P : Prob K) (pairs : List (ℕ × ℕ)) (f : ℕ → ℕ → K) (st : State K) : Prop where
  valid : st.valid = true
  constants : st.sparsity.constants = P.constants
  index : st.sparsity.index = idx P
  known : ∀ q ∈ pairs, Known P q
  matrix : (st.sparsity.matrix = none ∧ ∀ p ∈ P.active, ∀ q ∈ P.active, ¬Requested pairs p q) ∨
    ∃ m blocks, st.sparsity.matrix = some m ∧ blocks ≠ [] ∧ Stored P pairs blocks m ∧
      ∀ r < dim P, ∀ i, m.rows r ≤ i → i < m.rows (r + 1) → st.values i = f r (m.cols.getD i 0)

theorem compute_holds [Zero K] (hP : P.ptrs.Nodup) {A : Algorithm K} {pairs : List (ℕ × ℕ)}
    {f : ℕ → ℕ → K} (hA : A.Computes (dim P) f) {st : State K}
    (h : compute P A pairs = .ok st) (hv : st.valid = true) : Holds P pairs f st := by
  unfold compute at h
  split at h
  · cases h
  rcases sparsity_ok hP pairs with ⟨s, h1, h2, h3, h4, h5, h6⟩ | ⟨h1, -⟩
  · rw [h1] at h
    simp only [bind, Except.bind] at h
    split at h
    · cases h
      cases hv
    rcases h6 with ⟨h6, h7⟩ | ⟨m, blocks, h6, h7, h8⟩
    · rw [h6] at h
      cases h
      exact ⟨rfl, h3, h5, h2, .inl ⟨h6, h7⟩⟩
    · rw [h6] at h
      simp only [] at h
      cases hval : A.values m with
      | error e => rw [hval] at h; cases h
      | ok o =>
        rw [hval] at h
        cases o with
        | none => cases h; cases hv
        | some v =>
          cases h
          exact ⟨rfl, h3, h5, h2, .inr ⟨m, blocks, h6, h7, h8, fun r hr i hi1 hi2 =>
            hA m v h8.rowsEq (h8.ordered hP) hval r hr i hi1 hi2⟩⟩
  · rw [h1] at h
    cases h

theorem writeMat_congr {buf : ℕ → K} {r c : ℕ} {M N : ℕ → ℕ → K}
    (h : ∀ i < r, ∀ j < c, M i j = N i j) : writeMat buf r c M = writeMat buf r c N := by
  funext k
  unfold writeMat
  split
  · rename_i hk
    have hc : 0 < c := Nat.pos_of_ne_zero (by rintro rfl; simp at hk)
    exact h _ ((Nat.div_lt_iff_lt_mul hc).2 hk) _ (Nat.mod_lt _ hc)
  · rfl

section
variable [Field K]

theorem expected_of_varies (P : Prob K) (f : ℕ → ℕ → K) (lift : Bool) {p q : ℕ}
    (hp : P.Varies p) (hq : P.Varies q) (i j : ℕ) :
    P.expected f lift p q i j = if lift then
      ∑ k ∈ Finset.range (P.tangent p), ∑ l ∈ Finset.range (P.tangent q),
        (P.block p).jacobian i k * f (P.firstColumn p + k) (P.firstColumn q + l) *
          (P.block q).jacobian j l
      else f (P.firstColumn p + i) (P.firstColumn q + j) := by
  unfold Prob.expected
  rw [if_neg (not_not.2 ⟨hp, hq⟩)]

/-- Turning the arguments round transposes the block. -/
theorem expected_transpose (hP : P.ptrs.Nodup) {f : ℕ → ℕ → K} (hf : Symmetric (dim P) f)
    (lift : Bool) (p q : ℕ) (i j : ℕ) (hi : lift = false → i < P.tangent p)
    (hj : lift = false → j < P.tangent q) :
    P.expected f lift p q i j = P.expected f lift q p j i := by
  by_cases h : P.Varies p ∧ P.Varies q
  · have b1 := colAt_le hP (varies_iff.1 h.1)
    have b2 := colAt_le hP (varies_iff.1 h.2)
    rw [colAt_firstColumn hP (varies_iff.1 h.1)] at b1
    rw [colAt_firstColumn hP (varies_iff.1 h.2)] at b2
    rw [expected_of_varies P f lift h.1 h.2, expected_of_varies P f lift h.2 h.1]
    cases lift
    · have := hi rfl
      have := hj rfl
      exact hf _ (by omega) _ (by omega)
    · simp only [if_true]
      rw [Finset.sum_comm]
      refine Finset.sum_congr rfl fun l hl => Finset.sum_congr rfl fun k hk => ?_
      rw [Finset.mem_range] at hl hk
      rw [hf _ (by omega) _ (by omega)]
      ring
  · unfold Prob.expected
    rw [if_pos h, if_pos (fun h' => h h'.symm)]

/-- Without manifolds there is nothing to lift. -/
theorem expected_plain (f : ℕ → ℕ → K) {p q : ℕ}
    (hp : P.Varies p) (hq : P.Varies q) (h1 : (P.block p).plusJacobian = none)
    (h2 : (P.block q).plusJacobian = none) {i j : ℕ} (hi : i < P.tangent p) (hj : j < P.tangent q) :
    P.expected f true p q i j = f (P.firstColumn p + i) (P.firstColumn q + j) := by
  rw [expected_of_varies P f true hp hq]
  simp only [if_true, Block.jacobian, h1, h2]
  rw [Finset.sum_eq_single i, Finset.sum_eq_single j]
  · simp
  · intro l _ hl
    simp [hl.symm]
  · intro h
    exact absurd (Finset.mem_range.2 hj) h
  · intro k _ hk
    refine Finset.sum_eq_zero fun l _ => ?_
    simp [hk.symm]
  · intro h
    exact absurd (Finset.mem_range.2 hi) h

theorem triple_product (n m : ℕ) (A B C : ℕ → ℕ → K) (i j : ℕ) :
    mul m (mul n A B) (tr C) i j =
      ∑ k ∈ Finset.range n, ∑ l ∈ Finset.range m, A i k * B k l * C j l := by
  unfold mul tr
  rw [Finset.sum_comm]
  refine Finset.sum_congr rfl fun l _ => ?_
  rw [Finset.sum_mul]

/-- **C57.** A block with a fixed member is zero. -/
theorem getBlock_constant {pairs : List (ℕ × ℕ)} {f : ℕ → ℕ → K} {st : State K}
    (h : Holds P pairs f st) {p q : ℕ} (hp : p ∈ P.ptrs) (hq : q ∈ P.ptrs)
    (hpq : ¬(P.Varies p ∧ P.Varies q)) (lift : Bool) (buf : ℕ → K) :
    getBlock P st p q lift buf =
      .ok (true, writeMat buf (P.extent lift p) (P.extent lift q) fun _ _ => 0) := by
  have hc : p ∈ P.constants ∨ q ∈ P.constants := by
    rw [varies_iff, varies_iff, mem_active, mem_active] at hpq
    rw [mem_constants, mem_constants]
    cases h1 : P.isActive p <;> cases h2 : P.isActive q <;> simp_all
  unfold getBlock
  rw [h.valid, h.constants]
  simp only [Bool.not_true, Bool.false_eq_true, if_false]
  rw [if_pos (by simpa using hc)]
  unfold Prob.find
  rw [if_pos hp, if_pos hq]
  cases lift <;> rfl

/-- What the search returns for two variable blocks in the order of their addresses. -/
theorem search_found (hP : P.ptrs.Nodup) {pairs : List (ℕ × ℕ)} {blocks : List (ℕ × ℕ)} {m : Csr}
    (h : Stored P pairs blocks m) {p q : ℕ} (hp : p ∈ P.active) (hq : q ∈ P.active) (hpq : p ≤ q)
    (hr : Requested pairs p q) :
    ∃ o, findOffset m.cols (m.rows (colAt P p)) (colAt P q)
        (m.rows (colAt P p + 1) - m.rows (colAt P p)) 0 = .ok o ∧
      o < m.rows (colAt P p + 1) - m.rows (colAt P p) ∧
      ∀ i < P.tangent p, ∀ j < P.tangent q,
        m.rows (colAt P p + i) ≤ m.rows (colAt P p) +
          (i * (m.rows (colAt P p + 1) - m.rows (colAt P p)) + (o + j)) ∧
        m.rows (colAt P p) + (i * (m.rows (colAt P p + 1) - m.rows (colAt P p)) + (o + j)) <
          m.rows (colAt P p + i + 1) ∧
        m.cols.getD (m.rows (colAt P p) +
          (i * (m.rows (colAt P p + 1) - m.rows (colAt P p)) + (o + j))) 0 = colAt P q + j := by
  have ha : ∀ x ∈ blocks.filter (fun q => decide (q.1 = p)), x.2 ∈ P.active := by
    intro x hx
    rw [List.mem_filter] at hx
    exact ((h.mem x.1 x.2).1 hx.1).2.1
  have hmem : ∃ x ∈ blocks.filter (fun q => decide (q.1 = p)), x.2 = q :=
    ⟨(p, q), List.mem_filter.2 ⟨(h.mem p q).2 ⟨hp, hq, hpq, hr⟩, by simp⟩, rfl⟩
  obtain ⟨o, h1, h2, h3⟩ := colsOf_found hP ha hmem
  set row := colsOf P (blocks.filter fun q => decide (q.1 = p)) with hrow
  have tp := active_tangent hp
  have tq := active_tangent hq
  have hn0 := h.next p hp 0 tp
  rw [← hrow] at hn0
  simp only [Nat.add_zero] at hn0
  have hsz : m.rows (colAt P p + 1) - m.rows (colAt P p) = row.length := by
    rw [hn0, Nat.add_sub_cancel_left]
  have hbase : ∀ i < P.tangent p, m.rows (colAt P p + i) = m.rows (colAt P p) + i * row.length := by
    intro i hi
    induction i with
    | zero => simp
    | succ i ih =>
      have := h.next p hp i (by omega)
      rw [← hrow] at this
      rw [← Nat.add_assoc, this, ih (by omega)]
      ring
  refine ⟨o, ?_, by omega, fun i hi j hj => ?_⟩
  · rw [hsz]
    have := findOffset_found (cols := m.cols) (start := m.rows (colAt P p)) (target := colAt P q)
      (n := row.length) (o := o) 0 (by omega) (fun t ht => ?_) ?_
    · rw [this, Nat.zero_add]
    · have hg := h.get p hp 0 tp t (by rw [← hrow]; omega)
      rw [← hrow, Nat.add_zero] at hg
      have hlt : t < row.length := by omega
      refine ⟨row[t], ?_, ?_⟩
      · rw [Nat.zero_add, hg, List.getElem?_eq_getElem hlt]
      · intro he
        refine h2 t ht ?_
        rw [List.getElem?_eq_getElem hlt, he]
    · have hg := h.get p hp 0 tp o (by rw [← hrow]; omega)
      rw [← hrow, Nat.add_zero] at hg
      rw [Nat.zero_add, hg]
      simpa using h1 0 tq
  · have hnx := h.next p hp i hi
    have hg := h.get p hp i hi (o + j) (by rw [← hrow]; omega)
    rw [← hrow] at hnx hg
    rw [hbase i hi] at hnx hg ⊢
    rw [hsz, hnx]
    refine ⟨by omega, by omega, ?_⟩
    rw [← Nat.add_assoc (m.rows (colAt P p))] at *
    rw [List.getD_eq_getElem?_getD, hg, h1 j hj]
    rfl

theorem writeMat_get {buf : ℕ → K} {r c : ℕ} {M : ℕ → ℕ → K} {i j : ℕ} (hi : i < r)
    (hj : j < c) : writeMat buf r c M (i * c + j) = M i j := by
  unfold writeMat
  have hc : 0 < c := by omega
  rw [if_pos]
  · rw [Nat.mul_comm, Nat.mul_add_div hc, Nat.div_eq_of_lt hj, Nat.add_zero, Nat.mul_add_mod,
      Nat.mod_eq_of_lt hj]
  · calc i * c + j < i * c + c := by omega
      _ = (i + 1) * c := by ring
      _ ≤ r * c := Nat.mul_le_mul_right _ hi

/-- In the cases of the fast path nothing has to be lifted. -/
theorem plain_block (hP : P.WellFormed) (f : ℕ → ℕ → K) {p q : ℕ} (hp : P.Varies p)
    (hq : P.Varies q) (lift : Bool)
    (h : ((P.block p).plusJacobian.isNone && (P.block q).plusJacobian.isNone || !lift) = true) :
    P.extent lift p = (P.block p).tangent ∧ P.extent lift q = (P.block q).tangent ∧
      ∀ i < (P.block p).tangent, ∀ j < (P.block q).tangent,
        P.expected f lift p q i j = f (P.firstColumn p + i) (P.firstColumn q + j) := by
  cases lift
  · refine ⟨rfl, rfl, fun i _ j _ => ?_⟩
    rw [expected_of_varies P f false hp hq]
    simp
  · simp only [Bool.not_true, Bool.or_false, Bool.and_eq_true, Option.isNone_iff_eq_none] at h
    exact ⟨hP.plain p hp.1 h.1, hP.plain q hq.1 h.2, fun i hi j hj =>
      expected_plain f hp hq h.1 h.2 hi hj⟩

/-- **C57.** A requested block is returned, whichever of the two orders was requested and
whichever is asked for. -/
theorem getBlock_requested (hP : P.WellFormed) {pairs : List (ℕ × ℕ)} {f : ℕ → ℕ → K}
    (hf : Symmetric P.numColumns f) {st : State K}
    (h : Holds P pairs f st) {p q : ℕ} (hp : P.Varies p) (hq : P.Varies q)
    (hr : Requested pairs p q) (lift : Bool) (buf : ℕ → K) :
    getBlock P st p q lift buf =
      .ok (true, writeMat buf (P.extent lift p) (P.extent lift q) (P.expected f lift p q)) := by
  have hN := hP.nodup
  rw [← dim_eq] at hf
  have hpa := varies_iff.1 hp
  have hqa := varies_iff.1 hq
  have hnc : ∀ x, x ∈ P.active → x ∉ P.constants := by
    intro x hx hx'
    rw [mem_active] at hx
    rw [mem_constants, hx.2] at hx'
    exact absurd hx'.2 (by simp)
  have fp := findRow_active hN hpa
  have fq := findRow_active hN hqa
  have cp := colAt_firstColumn hN hpa
  have cq := colAt_firstColumn hN hqa
  have bp := colAt_le hN hpa
  have bq := colAt_le hN hqa
  rcases h.matrix with ⟨-, hno⟩ | ⟨m, blocks, hm, -, hst, hval⟩
  · exact absurd hr (hno p hpa q hqa)
  unfold getBlock
  rw [h.valid, h.constants, h.index, hm]
  simp only [Bool.not_true, Bool.false_eq_true, if_false]
  rw [if_neg (by simp [hnc p hpa, hnc q hqa])]
  unfold Prob.find
  by_cases hlt : p > q
  · have hd : decide (p > q) = true := by simpa using hlt
    obtain ⟨o, s1, s2, s3⟩ := search_found hN hst hqa hpa hlt.le hr.symm
    have hcov : ∀ i < P.tangent q, ∀ j < P.tangent p,
        st.values (m.rows (colAt P q) +
          (i * (m.rows (colAt P q + 1) - m.rows (colAt P q)) + (o + j))) =
        f (P.firstColumn q + i) (P.firstColumn p + j) := by
      intro i hi j hj
      obtain ⟨t1, t2, t3⟩ := s3 i hi j hj
      rw [hval (colAt P q + i) (by omega) _ t1 t2, t3, cp, cq]
    simp only [hd, if_true, fp, fq, bind, Except.bind, s1, if_neg (Nat.ne_of_lt s2), if_pos hq.1,
      if_pos hp.1]
    by_cases hplain : ((P.block q).plusJacobian.isNone && (P.block p).plusJacobian.isNone ||
        !lift) = true
    · rw [if_pos hplain]
      obtain ⟨e1, e2, e3⟩ := plain_block hP f hp hq lift
        (by rw [Bool.and_comm ((P.block p).plusJacobian.isNone)]; exact hplain)
      rw [e1, e2]
      refine congrArg (fun x => Except.ok (true, x)) (writeMat_congr fun i hi j hj => ?_)
      rw [e3 i hi j hj]
      refine (hcov j hj i hi).trans (hf _ ?_ _ ?_)
      · rw [← cq]
        exact lt_of_lt_of_le (Nat.add_lt_add_left hj _) bq
      · rw [← cp]
        exact lt_of_lt_of_le (Nat.add_lt_add_left hi _) bp
    · rw [if_neg hplain]
      have hlift : lift = true := by
        cases lift
        · simp at hplain
        · rfl
      subst hlift
      have hne : q ≠ p := by omega
      refine congrArg (fun x => Except.ok (true, x)) (writeMat_congr fun i _ j _ => ?_)
      rw [if_neg hne, triple_product, expected_of_varies P f true hp hq]
      simp only [if_true]
      refine Finset.sum_congr rfl fun k hk => Finset.sum_congr rfl fun l hl => ?_
      rw [Finset.mem_range] at hk hl
      congr 2
      refine (hcov l hl k hk).trans (hf _ ?_ _ ?_)
      · rw [← cq]
        exact lt_of_lt_of_le (Nat.add_lt_add_left hl _) bq
      · rw [← cp]
        exact lt_of_lt_of_le (Nat.add_lt_add_left hk _) bp
  · have hd : decide (p > q) = false := by simpa using hlt
    obtain ⟨o, s1, s2, s3⟩ := search_found hN hst hpa hqa (not_lt.1 hlt) hr
    have hcov : ∀ i < P.tangent p, ∀ j < P.tangent q,
        st.values (m.rows (colAt P p) +
          (i * (m.rows (colAt P p + 1) - m.rows (colAt P p)) + (o + j))) =
        f (P.firstColumn p + i) (P.firstColumn q + j) := by
      intro i hi j hj
      obtain ⟨t1, t2, t3⟩ := s3 i hi j hj
      rw [hval (colAt P p + i) (by omega) _ t1 t2, t3, cp, cq]
    simp only [hd, Bool.false_eq_true, if_false, fp, fq, bind, Except.bind, s1,
      if_neg (Nat.ne_of_lt s2), if_pos hq.1, if_pos hp.1]
    by_cases hplain : ((P.block p).plusJacobian.isNone && (P.block q).plusJacobian.isNone ||
        !lift) = true
    · rw [if_pos hplain]
      obtain ⟨e1, e2, e3⟩ := plain_block hP f hp hq lift hplain
      rw [e1, e2]
      refine congrArg (fun x => Except.ok (true, x)) (writeMat_congr fun i hi j hj => ?_)
      rw [e3 i hi j hj]
      exact hcov i hi j hj
    · rw [if_neg hplain]
      have hlift : lift = true := by
        cases lift
        · simp at hplain
        · rfl
      subst hlift
      refine congrArg (fun x => Except.ok (true, x)) (writeMat_congr fun i _ j _ => ?_)
      have hJ : (if p = q then (P.block p).jacobian else (P.block q).jacobian) =
          (P.block q).jacobian := by
        split
        · rename_i h
          rw [h]
        · rfl
      rw [hJ, triple_product, expected_of_varies P f true hp hq]
      simp only [if_true]
      refine Finset.sum_congr rfl fun k hk => Finset.sum_congr rfl fun l hl => ?_
      rw [Finset.mem_range] at hk hl
      congr 2
      exact hcov k hk l hl

/-- **C57.** Turning the arguments round transposes the answer. -/
theorem getBlock_transpose (hP : P.WellFormed) {pairs : List (ℕ × ℕ)} {f : ℕ → ℕ → K}
    (hf : Symmetric P.numColumns f) {st : State K} (h : Holds P pairs f st) {p q : ℕ}
    (hp : p ∈ P.ptrs) (hq : q ∈ P.ptrs)
    (hr : P.Varies p → P.Varies q → Requested pairs p q) (lift : Bool) (buf buf' : ℕ → K) :
    ∃ out out', getBlock P st p q lift buf = .ok (true, out) ∧
      getBlock P st q p lift buf' = .ok (true, out') ∧
      ∀ i < P.extent lift p, ∀ j < P.extent lift q,
        out (i * P.extent lift q + j) = out' (j * P.extent lift p + i) := by
  have hw : ∀ (b : ℕ → K) (r c : ℕ) (M : ℕ → ℕ → K), ∀ i < r, ∀ j < c,
      writeMat b r c M (i * c + j) = M i j := fun b r c M i hi j hj => writeMat_get hi hj
  by_cases hv : P.Varies p ∧ P.Varies q
  · refine ⟨_, _, getBlock_requested hP hf h hv.1 hv.2 (hr hv.1 hv.2) lift buf,
      getBlock_requested hP hf h hv.2 hv.1 (hr hv.1 hv.2).symm lift buf', fun i hi j hj => ?_⟩
    rw [hw _ _ _ _ i hi j hj, hw _ _ _ _ j hj i hi]
    refine expected_transpose hP.nodup (by rwa [dim_eq]) lift p q i j ?_ ?_
    · rintro rfl; exact hi
    · rintro rfl; exact hj
  · refine ⟨_, _, getBlock_constant h hp hq hv lift buf,
      getBlock_constant h hq hp (fun h' => hv h'.symm) lift buf', fun i hi j hj => ?_⟩
    rw [hw _ _ _ _ i hi j hj, hw _ _ _ _ j hj i hi]

end

end Ceres.Cov
