import Verif.Program.Model
import Mathlib.Data.List.Basic
import Mathlib.Algebra.BigOperators.Group.List.Basic

/-!
# C06: the packed state vector
-/
namespace Ceres.Program

variable {α : Type}

/-! ### Specification -/

/-- Offset of block `i` in a packed vector in which block `k` takes `sz k` cells. -/
def offsetOf (bs : List (PB α)) (sz : PB α → Nat) (i : Nat) : Nat := ((bs.take i).map sz).sum

/-- Two address ranges do not meet. -/
def Apart (a n b m : Nat) : Prop := a + n ≤ b ∨ b + m ≤ a

/-! ### Memory lemmas -/

theorem writeMem_out (m : Mem α) (a : Nat) (l : List α) (i : Nat)
    (h : i < a ∨ a + l.length ≤ i) : writeMem m a l i = m i := by
  unfold writeMem
  by_cases ha : a ≤ i
  · rw [if_pos ha]
    have : l[i - a]? = none := List.getElem?_eq_none (by omega)
    rw [this]
  · rw [if_neg ha]

theorem writeMem_in (m : Mem α) (a : Nat) (l : List α) (j : Nat) (h : j < l.length) :
    writeMem m a l (a + j) = l[j] := by
  unfold writeMem
  rw [if_pos (by omega), Nat.add_sub_cancel_left, List.getElem?_eq_getElem h]

theorem readMem_length (m : Mem α) (a n : Nat) : (readMem m a n).length = n := by
  simp [readMem]

theorem readMem_get (m : Mem α) (a n j : Nat) (h : j < (readMem m a n).length) :
    (readMem m a n)[j] = m (a + j) := by
  simp [readMem]

theorem writeMem_read_in (m m' : Mem α) (a s n j : Nat) (h : j < n) :
    writeMem m a (readMem m' s n) (a + j) = m' (s + j) := by
  rw [writeMem_in _ _ _ _ (by rw [readMem_length]; exact h), readMem_get]

theorem getState_in (b : PB α) (m : Mem α) (x j : Nat) (h : j < b.size) :
    b.getState m x (x + j) = m (b.state + j) := by
  unfold PB.getState
  split
  · exact writeMem_read_in _ _ _ _ _ _ h
  · rename_i hx
    have : x = b.state := by omega
    rw [this]

theorem getState_out (b : PB α) (m : Mem α) (x i : Nat) (h : i < x ∨ x + b.size ≤ i) :
    b.getState m x i = m i := by
  unfold PB.getState
  split
  · exact writeMem_out _ _ _ _ (by rw [readMem_length]; exact h)
  · rfl

theorem offsetOf_zero (bs : List (PB α)) (sz) : offsetOf bs sz 0 = 0 := by simp [offsetOf]

theorem offsetOf_cons (b : PB α) (bs : List (PB α)) (sz) (i : Nat) :
    offsetOf (b :: bs) sz (i + 1) = sz b + offsetOf bs sz i := by
  simp [offsetOf]

/-! ### Offsets -/

theorem setOffsets_get (bs : List (PB α)) (i0 : Int) (s0 d0 i : Nat) (b : PB α)
    (h : bs[i]? = some b) : (setOffsets bs i0 s0 d0)[i]? = some { b with
      index := i0 + i
      stateOff := s0 + offsetOf bs PB.size i
      deltaOff := d0 + offsetOf bs PB.tangentSize i } := by
  induction bs generalizing i i0 s0 d0 with
  | nil => simp at h
  | cons c bs ih =>
    cases i with
    | zero =>
      simp only [List.getElem?_cons_zero, Option.some.injEq] at h
      subst h
      simp [setOffsets, offsetOf_zero]
    | succ i =>
      simp only [List.getElem?_cons_succ] at h
      simp only [setOffsets, List.getElem?_cons_succ, ih _ _ _ _ h, offsetOf_cons]
      simp only [Option.some.injEq, PB.mk.injEq, true_and]
      refine ⟨?_, ?_, ?_⟩
      · push_cast; omega
      · omega
      · omega

/-- **C06 (offsets).**  After setting offsets, block `i` of the program keeps everything except
its index, which is `i`, its state offset, the sum of the sizes of the blocks before it, and
its tangent offset, the sum of the tangent sizes of the blocks before it. -/
theorem setOffsets_spec (bs : List (PB α)) :
    (setOffsets bs 0 0 0).length = bs.length ∧
    ∀ (i : Nat) (b : PB α), bs[i]? = some b → (setOffsets bs 0 0 0)[i]? = some { b with
      index := (i : Int)
      stateOff := ((bs.take i).map PB.size).sum
      deltaOff := ((bs.take i).map PB.tangentSize).sum } := by
  constructor
  · have : ∀ (bs : List (PB α)) (i0 s0 d0), (setOffsets bs i0 s0 d0).length = bs.length := by
      intro bs
      induction bs with
      | nil => intros; rfl
      | cons b bs ih => intros; simp [setOffsets, ih]
    exact this _ _ _ _
  · intro i b h
    rw [setOffsets_get bs 0 0 0 i b h]
    simp [offsetOf]

theorem offsetOf_succ (bs : List (PB α)) (sz) (i : Nat) (b : PB α) (h : bs[i]? = some b) :
    offsetOf bs sz (i + 1) = offsetOf bs sz i + sz b := by
  unfold offsetOf
  rw [List.take_add_one, h]
  simp

theorem offsetOf_mono (bs : List (PB α)) (sz) {i j : Nat} (h : i ≤ j) :
    offsetOf bs sz i ≤ offsetOf bs sz j := by
  unfold offsetOf
  obtain ⟨k, rfl⟩ := Nat.le.dest h
  rw [List.take_add, List.map_append, List.sum_append]
  omega

/-- **C06 (slices).**  The slices of two different blocks do not meet, and every slice lies
inside the vector; the same holds for the tangent vector. -/
theorem slices_disjoint (bs : List (PB α)) (sz : PB α → Nat) (i j : Nat) (b c : PB α)
    (hi : bs[i]? = some b) (hj : bs[j]? = some c) (hne : i ≠ j) :
    Apart (offsetOf bs sz i) (sz b) (offsetOf bs sz j) (sz c) ∧
    offsetOf bs sz i + sz b ≤ (bs.map sz).sum := by
  constructor
  · rcases Nat.lt_or_gt_of_ne hne with h | h
    · left
      have := offsetOf_mono bs sz (show i + 1 ≤ j from h)
      rw [offsetOf_succ bs sz i b hi] at this
      exact this
    · right
      have := offsetOf_mono bs sz (show j + 1 ≤ i from h)
      rw [offsetOf_succ bs sz j c hj] at this
      exact this
  · have hlt : i < bs.length := (List.getElem?_eq_some_iff.1 hi).1
    have := offsetOf_mono bs sz (show i + 1 ≤ bs.length from hlt)
    rw [offsetOf_succ bs sz i b hi] at this
    unfold offsetOf at this ⊢
    rwa [List.take_length] at this

/-! ### Packing and unpacking -/

theorem pack_out (bs : List (PB α)) (m : Mem α) (v a : Nat)
    (h : a < v ∨ v + (bs.map PB.size).sum ≤ a) :
    parameterBlocksToStateVector bs m v a = m a := by
  induction bs generalizing m v with
  | nil => rfl
  | cons b bs ih =>
    simp only [List.map_cons, List.sum_cons] at h
    simp only [parameterBlocksToStateVector]
    rw [ih _ _ (by omega), getState_out _ _ _ _ (by omega)]

/-- **C06 (packing).**  Packing copies the state of block `i` into the slice of block `i` and
changes no memory outside the vector, provided the states being read are not inside the
vector (unless a block's state pointer is exactly its own slice). -/
theorem pack_spec (bs : List (PB α)) (m : Mem α) (v : Nat)
    (hsep : ∀ (i : Nat) (b : PB α), bs[i]? = some b → b.state = v + offsetOf bs PB.size i ∨
      Apart b.state b.size v (bs.map PB.size).sum) :
    (∀ (i : Nat) (b : PB α), bs[i]? = some b → ∀ k < b.size,
      parameterBlocksToStateVector bs m v (v + offsetOf bs PB.size i + k) = m (b.state + k)) ∧
    (∀ a, a < v ∨ v + (bs.map PB.size).sum ≤ a → parameterBlocksToStateVector bs m v a = m a) := by
  refine ⟨?_, fun a ha => pack_out bs m v a ha⟩
  induction bs generalizing m v with
  | nil => intro i b h; simp at h
  | cons c bs ih =>
    intro i b h k hk
    simp only [parameterBlocksToStateVector]
    cases i with
    | zero =>
      simp only [List.getElem?_cons_zero, Option.some.injEq] at h
      subst h
      rw [offsetOf_zero, pack_out _ _ _ _ (by omega), Nat.add_zero, getState_in _ _ _ _ hk]
    | succ i =>
      simp only [List.getElem?_cons_succ] at h
      have hs : ∀ (i : Nat) (b : PB α), bs[i]? = some b →
          b.state = v + c.size + offsetOf bs PB.size i ∨
          Apart b.state b.size v (c.size + (bs.map PB.size).sum) := by
        intro j d hd
        have := hsep (j + 1) d (by simpa using hd)
        rw [offsetOf_cons] at this
        simp only [List.map_cons, List.sum_cons] at this
        rcases this with h1 | h1
        · left; omega
        · right; exact h1
      have hi := ih (c.getState m v) (v + c.size) (fun j d hd => by
        rcases hs j d hd with h1 | h1
        · left; exact h1
        · right
          rcases h1 with h2 | h2
          · left; omega
          · right; omega) i b h k hk
      rw [offsetOf_cons]
      have e : v + (c.size + offsetOf bs PB.size i) + k =
        v + c.size + offsetOf bs PB.size i + k := by omega
      rw [e, hi]
      apply getState_out
      rcases hs i b h with h1 | h1 | h1 <;> omega

/-- **C06 (unpacking).**  If unpacking a state vector at `v` succeeds, every non-constant
block's state pointer is its slice of the vector, and nothing else changes. -/
theorem unpack_spec (m : Mem α) (bs : List (PB α)) (v : Nat) (bs' : List (PB α))
    (h : stateVectorToParameterBlocks m bs v = (bs', true)) :
    bs'.length = bs.length ∧ ∀ (i : Nat) (b : PB α), bs[i]? = some b →
      bs'[i]? = some (if b.isConstant then b
        else { b with state := v + offsetOf bs PB.size i }) := by
  induction bs generalizing v bs' with
  | nil =>
    simp only [stateVectorToParameterBlocks, Prod.mk.injEq, and_true] at h
    subst h
    simp
  | cons c bs ih =>
    have key : ∀ c' : PB α, (c' = if c.isConstant then c else { c with state := v }) →
        (c' :: (stateVectorToParameterBlocks m bs (v + c.size)).1,
          (stateVectorToParameterBlocks m bs (v + c.size)).2) = (bs', true) →
        bs'.length = (c :: bs).length ∧ ∀ (i : Nat) (b : PB α), (c :: bs)[i]? = some b →
        bs'[i]? = some (if b.isConstant then b
          else { b with state := v + offsetOf (c :: bs) PB.size i }) := by
      intro c' hc' he
      simp only [Prod.mk.injEq] at he
      obtain ⟨e1, e2⟩ := he
      have := ih (v + c.size) _ (Prod.ext rfl e2)
      rw [← e1]
      refine ⟨by simp [this.1], ?_⟩
      intro i b hb
      cases i with
      | zero =>
        simp only [List.getElem?_cons_zero, Option.some.injEq] at hb ⊢
        subst hb
        rw [hc', offsetOf_zero]; rfl
      | succ i =>
        simp only [List.getElem?_cons_succ] at hb ⊢
        rw [this.2 i b hb, offsetOf_cons, Nat.add_assoc]
    simp only [stateVectorToParameterBlocks] at h
    by_cases hc : c.isConstant = true
    · rw [if_pos hc] at h
      exact key c (by rw [if_pos hc]) h
    · rw [if_neg hc] at h
      by_cases hj : (c.setState m v).2 = true
      · rw [if_pos hj] at h
        exact key _ (by rw [if_neg hc]; rfl) h
      · rw [if_neg hj] at h
        simp at h

theorem userPtrs_spec (m : Mem α) (bs : List (PB α)) (bs' : List (PB α))
    (h : setStatePtrsToUser m bs = (bs', true)) :
    bs' = bs.map (fun b => if b.isConstant then b else { b with state := b.user }) := by
  induction bs generalizing bs' with
  | nil =>
    simp only [setStatePtrsToUser, Prod.mk.injEq, and_true] at h
    simp [← h]
  | cons c bs ih =>
    simp only [setStatePtrsToUser] at h
    rw [List.map_cons]
    by_cases hc : c.isConstant = true
    · rw [if_pos hc] at h
      rw [if_pos hc]
      simp only [Prod.mk.injEq] at h
      rw [← ih _ (Prod.ext rfl h.2), ← h.1]
    · rw [if_neg hc] at h
      rw [if_neg hc]
      by_cases hj : (c.setState m c.user).2 = true
      · rw [if_pos hj] at h
        simp only [Prod.mk.injEq] at h
        rw [← ih _ (Prod.ext rfl h.2), ← h.1]
        rfl
      · rw [if_neg hj] at h
        simp at h

theorem copyUser_out (bs : List (PB α)) (m : Mem α) (a : Nat)
    (h : ∀ b ∈ bs, a < b.user ∨ b.user + b.size ≤ a) : copyToUserState bs m a = m a := by
  induction bs generalizing m with
  | nil => rfl
  | cons b bs ih =>
    simp only [copyToUserState]
    rw [ih _ (fun c hc => h c (List.mem_cons_of_mem _ hc)),
      getState_out _ _ _ _ (h b (List.mem_cons_self ..))]

/-- **C06 (write back).**  Copying the state to the user's memory gives every block's user
memory the value of its state and touches no other memory, provided user memories are pairwise
apart and each state read is either in place or apart from all user memories. -/
theorem copyToUser_spec (bs : List (PB α)) (m : Mem α)
    (hdis : bs.Pairwise (fun b c => Apart b.user b.size c.user c.size))
    (hsep : ∀ b ∈ bs, b.state = b.user ∨ ∀ c ∈ bs, Apart b.state b.size c.user c.size) :
    (∀ b ∈ bs, ∀ k < b.size, copyToUserState bs m (b.user + k) = m (b.state + k)) ∧
    (∀ a, (∀ b ∈ bs, a < b.user ∨ b.user + b.size ≤ a) → copyToUserState bs m a = m a) := by
  refine ⟨?_, copyUser_out bs m⟩
  induction bs generalizing m with
  | nil => simp
  | cons c bs ih =>
    intro b hb k hk
    simp only [copyToUserState]
    have hd := List.pairwise_cons.1 hdis
    rcases List.mem_cons.1 hb with rfl | hb'
    · rw [copyUser_out _ _ _ (fun d hd' => by
        have := hd.1 d hd'
        rcases this with h | h <;> omega), getState_in _ _ _ _ hk]
    · rw [ih (c.getState m c.user) hd.2 (fun d hd' => by
        rcases hsep d (List.mem_cons_of_mem _ hd') with h | h
        · left; exact h
        · right; exact fun e he => h e (List.mem_cons_of_mem _ he)) b hb' k hk]
      apply getState_out
      rcases hsep b hb with h | h
      · rw [h]
        rcases hd.1 b hb' with h1 | h1 <;> omega
      · rcases h c (List.mem_cons_self ..) with h1 | h1 <;> omega

/-- **C06 (round trip).**  Point the blocks at the user's memory, pack, then unpack the same
vector and copy back: if the steps succeed, all the user's memory outside the vector is
unchanged. -/
theorem stateVector_roundtrip (m : Mem α) (bs bs1 bs2 : List (PB α)) (v : Nat)
    (hconst : ∀ b ∈ bs, b.isConstant = true → b.state = b.user)
    (hdis : bs.Pairwise (fun b c => Apart b.user b.size c.user c.size))
    (hvec : ∀ b ∈ bs, Apart b.user b.size v (bs.map PB.size).sum)
    (h1 : setStatePtrsToUser m bs = (bs1, true))
    (h2 : stateVectorToParameterBlocks (parameterBlocksToStateVector bs1 m v) bs1 v =
      (bs2, true)) (a : Nat) (ha : a < v ∨ v + (bs.map PB.size).sum ≤ a) :
    copyToUserState bs2 (parameterBlocksToStateVector bs1 m v) a = m a := by
  have e1 := userPtrs_spec m bs bs1 h1
  -- properties of bs1
  have g1 : ∀ (i : Nat) (b1 : PB α), bs1[i]? = some b1 → ∃ b, bs[i]? = some b ∧
      b1 = { b with state := b.user } := by
    intro i b1 hb1
    rw [e1, List.getElem?_map] at hb1
    cases hb : bs[i]? with
    | none => rw [hb] at hb1; simp at hb1
    | some b =>
      rw [hb] at hb1
      simp only [Option.map_some, Option.some.injEq] at hb1
      refine ⟨b, rfl, ?_⟩
      rw [← hb1]
      split
      · rename_i hc
        have := hconst b (List.mem_of_getElem? hb) hc
        cases b
        simp only at this
        subst this
        rfl
      · rfl
  have hsz : bs1.map PB.size = bs.map PB.size := by
    rw [e1, List.map_map]
    apply List.map_congr_left
    intro b _
    simp only [Function.comp]
    split <;> rfl
  obtain ⟨hlen, hun⟩ := unpack_spec _ _ _ _ h2
  have g2 : ∀ b2 ∈ bs2, ∃ (i : Nat) (b : PB α), bs[i]? = some b ∧ b2.user = b.user ∧
      b2.size = b.size ∧ bs1[i]? = some { b with state := b.user } ∧
      (b2.state = b.user ∨ b2.state = v + offsetOf bs1 PB.size i) := by
    intro b2 hb2
    obtain ⟨i, hi⟩ := List.mem_iff_getElem?.1 hb2
    have hil : i < bs1.length := by
      have := (List.getElem?_eq_some_iff.1 hi).1
      omega
    have hget := List.getElem?_eq_getElem hil
    obtain ⟨b, hb, hbe⟩ := g1 i _ hget
    have := hun i _ hget
    rw [hi, Option.some.injEq] at this
    refine ⟨i, b, hb, ?_, ?_, by rw [hget, hbe], ?_⟩
    · rw [this]; split <;> simp [hbe]
    · rw [this]; split <;> simp [hbe]
    · rw [this]
      split
      · left; simp [hbe]
      · right; rfl
  have hin : ∀ (i : Nat) (b : PB α), bs[i]? = some b → bs1[i]? = some { b with state := b.user } →
      offsetOf bs1 PB.size i + b.size ≤ (bs.map PB.size).sum := by
    intro i b hb hb1
    have hlt : i < bs1.length := (List.getElem?_eq_some_iff.1 hb1).1
    have := offsetOf_mono bs1 PB.size (show i + 1 ≤ bs1.length from hlt)
    rw [offsetOf_succ bs1 PB.size i _ hb1] at this
    simp only at this
    have h3 : offsetOf bs1 PB.size bs1.length = (bs.map PB.size).sum := by
      unfold offsetOf; rw [List.take_length, hsz]
    omega
  have hpack := pack_spec bs1 m v (by
    intro i b1 hb1
    obtain ⟨b, hb, rfl⟩ := g1 i b1 hb1
    right
    rw [hsz]
    exact hvec b (List.mem_of_getElem? hb))
  have hus : bs2.map (fun b => (b.user, b.size)) = bs.map (fun b => (b.user, b.size)) := by
    apply List.ext_getElem?
    intro i
    simp only [List.getElem?_map]
    cases hb2 : bs2[i]? with
    | none =>
      have : bs.length ≤ i := by
        have := List.getElem?_eq_none_iff.1 hb2
        rw [hlen, e1] at this
        simpa using this
      rw [List.getElem?_eq_none this]
    | some b2 =>
      have hil : i < bs1.length := by
        have := (List.getElem?_eq_some_iff.1 hb2).1
        omega
      have hget := List.getElem?_eq_getElem hil
      obtain ⟨b, hb, hbe⟩ := g1 i _ hget
      have := hun i _ hget
      rw [hb2, Option.some.injEq] at this
      rw [hb, this]
      split <;> simp [hbe]
  have hdis2 : bs2.Pairwise (fun b c => Apart b.user b.size c.user c.size) := by
    have : (bs2.map (fun b => (b.user, b.size))).Pairwise
        (fun p q => Apart p.1 p.2 q.1 q.2) := by
      rw [hus, List.pairwise_map]; exact hdis
    rw [List.pairwise_map] at this
    exact this
  have hcopy := copyToUser_spec bs2 (parameterBlocksToStateVector bs1 m v) hdis2 (by
    intro b2 hb2
    obtain ⟨i, b, hb, hu, hs, hb1, hst | hst⟩ := g2 b2 hb2
    · left; rw [hst, hu]
    · right
      intro c2 hc2
      obtain ⟨j, c, hc, hcu, hcs, -, -⟩ := g2 c2 hc2
      have h5 := hvec c (List.mem_of_getElem? hc)
      have h6 := hin i b hb hb1
      rw [hst, hs, hcu, hcs]
      rcases h5 with h5 | h5
      · right; omega
      · left; omega)
  by_cases hx : ∃ b2 ∈ bs2, b2.user ≤ a ∧ a < b2.user + b2.size
  · obtain ⟨b2, hb2, hl, hr⟩ := hx
    have := hcopy.1 b2 hb2 (a - b2.user) (by omega)
    rw [show b2.user + (a - b2.user) = a by omega] at this
    rw [this]
    obtain ⟨i, b, hb, hu, hs, hb1, hst | hst⟩ := g2 b2 hb2
    · rw [hst, ← hu, show b2.user + (a - b2.user) = a by omega]
      exact hpack.2 a (by rw [hsz]; exact ha)
    · rw [hst, hpack.1 i _ hb1 (a - b2.user) (by simp only; omega)]
      simp only
      rw [← hu, show b2.user + (a - b2.user) = a by omega]
  · push Not at hx
    rw [hcopy.2 a (fun b hb => by have := hx b hb; omega)]
    exact hpack.2 a (by rw [hsz]; exact ha)

/-- **C06 (solution write back).**  After unpacking a vector `v` and copying to user memory,
the user's memory of each variable block is its slice of the vector, that of each constant
block is unchanged, and no other memory is touched. -/
theorem solution_writeback (m : Mem α) (bs bs' : List (PB α)) (v : Nat)
    (hconst : ∀ b ∈ bs, b.isConstant = true → b.state = b.user)
    (hdis : bs.Pairwise (fun b c => Apart b.user b.size c.user c.size))
    (hvec : ∀ b ∈ bs, Apart b.user b.size v (bs.map PB.size).sum)
    (h : stateVectorToParameterBlocks m bs v = (bs', true)) :
    (∀ (i : Nat) (b : PB α), bs[i]? = some b → ∀ k < b.size,
      copyToUserState bs' m (b.user + k) =
        if b.isConstant then m (b.user + k) else m (v + offsetOf bs PB.size i + k)) ∧
    (∀ a, (∀ b ∈ bs, a < b.user ∨ b.user + b.size ≤ a) → copyToUserState bs' m a = m a) := by
  obtain ⟨hlen, hun⟩ := unpack_spec _ _ _ _ h
  have g : ∀ b' ∈ bs', ∃ (i : Nat) (b : PB α), bs[i]? = some b ∧ b' = if b.isConstant then b
        else { b with state := v + offsetOf bs PB.size i } := by
    intro b' hb'
    obtain ⟨i, hi⟩ := List.mem_iff_getElem?.1 hb'
    have hil : i < bs.length := by
      have := (List.getElem?_eq_some_iff.1 hi).1
      omega
    have hget := List.getElem?_eq_getElem hil
    have := hun i _ hget
    rw [hi, Option.some.injEq] at this
    exact ⟨i, _, hget, this⟩
  have gu : ∀ (b : PB α) (s : Nat), (if b.isConstant then b else { b with state := s }).user =
      b.user ∧ (if b.isConstant then b else { b with state := s }).size = b.size := by
    intro b s; split <;> simp
  have hus : bs'.map (fun b => (b.user, b.size)) = bs.map (fun b => (b.user, b.size)) := by
    apply List.ext_getElem?
    intro i
    simp only [List.getElem?_map]
    cases hb : bs[i]? with
    | none =>
      have : bs.length ≤ i := List.getElem?_eq_none_iff.1 hb
      rw [List.getElem?_eq_none (by omega)]
    | some b =>
      rw [hun i b hb]
      simp only [Option.map_some, Option.some.injEq, Prod.mk.injEq]
      exact gu b _
  have hdis2 : bs'.Pairwise (fun b c => Apart b.user b.size c.user c.size) := by
    have : (bs'.map (fun b => (b.user, b.size))).Pairwise
        (fun p q => Apart p.1 p.2 q.1 q.2) := by
      rw [hus, List.pairwise_map]; exact hdis
    rw [List.pairwise_map] at this
    exact this
  have hcopy := copyToUser_spec bs' m hdis2 (by
    intro b' hb'
    obtain ⟨i, b, hb, rfl⟩ := g b' hb'
    by_cases hc : b.isConstant = true
    · left; rw [if_pos hc]; exact hconst b (List.mem_of_getElem? hb) hc
    · right
      rw [if_neg hc]
      intro c' hc'
      obtain ⟨j, c, hcg, rfl⟩ := g c' hc'
      have h5 := hvec c (List.mem_of_getElem? hcg)
      have hlt : i < bs.length := (List.getElem?_eq_some_iff.1 hb).1
      have h6 := offsetOf_mono bs PB.size (show i + 1 ≤ bs.length from hlt)
      rw [offsetOf_succ bs PB.size i _ hb] at h6
      have h7 : offsetOf bs PB.size bs.length = (bs.map PB.size).sum := by
        unfold offsetOf; rw [List.take_length]
      rw [(gu c _).1, (gu c _).2]
      simp only
      rcases h5 with h5 | h5
      · right; omega
      · left; omega)
  constructor
  · intro i b hb k hk
    have hb' := hun i b hb
    have := hcopy.1 _ (List.mem_of_getElem? hb') k (by rw [(gu b _).2]; exact hk)
    rw [(gu b _).1] at this
    rw [this]
    by_cases hc : b.isConstant = true
    · rw [if_pos hc, if_pos hc, hconst b (List.mem_of_getElem? hb) hc]
    · rw [if_neg hc, if_neg hc]
  · intro a ha
    apply hcopy.2
    intro b' hb'
    obtain ⟨i, b, hb, rfl⟩ := g b' hb'
    rw [(gu b _).1, (gu b _).2]
    exact ha b (List.mem_of_getElem? hb)

/-! ### Non-vacuity and a finding -/

/-- A block without manifold at address `u`. -/
def plainPB (u n : Nat) : PB Int :=
  ⟨u, n, u, false, none, none, none, -1, 0, 0⟩

/-- A constant block. -/
def constPB (u n : Nat) : PB Int := { plainPB u n with setConst := true }

/-- Blocks at 10 (size 2), 20 (constant, size 1), 30 (size 3), vector at 100: the hypotheses of
`solution_writeback` hold and the third block receives cells 103-105. -/
example : ∃ bs', stateVectorToParameterBlocks (fun a => (a : Int))
      [plainPB 10 2, constPB 20 1, plainPB 30 3] 100 = (bs', true) ∧
    readMem (copyToUserState bs' (fun a => (a : Int))) 10 2 = [100, 101] ∧
    readMem (copyToUserState bs' (fun a => (a : Int))) 20 1 = [20] ∧
    readMem (copyToUserState bs' (fun a => (a : Int))) 30 3 = [103, 104, 105] :=
  ⟨_, rfl, by decide, by decide, by decide⟩

example : [plainPB 10 2, constPB 20 1, plainPB 30 3].Pairwise
      (fun b c => Apart b.user b.size c.user c.size) ∧
    ∀ b ∈ [plainPB 10 2, constPB 20 1, plainPB 30 3], Apart b.user b.size 100
      ([plainPB 10 2, constPB 20 1, plainPB 30 3].map PB.size).sum := by
  simp [Apart, plainPB, constPB]

/-- A block whose manifold's Jacobian always fails. -/
def badPB (u n : Nat) : PB Int :=
  { plainPB u n with
    manifold := some ⟨n, fun x d => some (x.zipWith (· + ·) d), fun _ => false⟩ }

/-- **Finding (C06).**  When a manifold's Jacobian evaluation fails while the state pointers are
being reset to the user's memory, the reset stops: later blocks keep pointing into the
(temporary) state vector. -/
theorem setStatePtrsToUser_failure_leaves_dangling :
    ∃ (m : Mem Int) (bs : List (PB Int)) (v : Nat) (b : PB Int),
      (setStatePtrsToUser m bs).2 = false ∧
      b ∈ (setStatePtrsToUser m bs).1 ∧ b.isConstant = false ∧ b.state = v ∧ b.user ≠ v :=
  ⟨fun _ => 0, [badPB 10 2, { plainPB 30 3 with state := 102 }], 102,
    { plainPB 30 3 with state := 102 }, rfl, by
      simp [setStatePtrsToUser, badPB, plainPB, PB.isConstant, PB.tangentSize, PB.setState, PB.jacOk],
    rfl, rfl, by decide⟩

end Ceres.Program
