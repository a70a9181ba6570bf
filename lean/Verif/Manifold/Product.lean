import Verif.Manifold.Quaternion
import Verif.Manifold.Subset

/-! # Product manifolds and `RightMultiplyByPlusJacobian`

The specification: factor `n` occupies the ambient coordinates from `ambientOffset ms n` and the tangent
coordinates from `tangentOffset ms n`, both sums over the factors before it. -/

namespace Ceres.Manifold

open Matrix

noncomputable section

/-- Where the ambient coordinates of factor `n` start. -/
def ambientOffset (ms : List Manifold) (n : ℕ) : ℕ := ((ms.take n).map Manifold.ambientSize).sum

/-- Where the tangent coordinates of factor `n` start. -/
def tangentOffset (ms : List Manifold) (n : ℕ) : ℕ := ((ms.take n).map Manifold.tangentSize).sum

/-! ## Offsets -/

theorem exclusiveScan_length (l : List ℕ) : ∀ acc, (exclusiveScan acc l).length = l.length := by
  induction l with
  | nil => intro _; rfl
  | cons a l ih => intro acc; simp [exclusiveScan, ih]

theorem exclusiveScan_get (l : List ℕ) : ∀ (acc n : ℕ) (h : n < (exclusiveScan acc l).length),
    (exclusiveScan acc l)[n] = acc + (l.take n).sum := by
  induction l with
  | nil => intro acc n h; simp [exclusiveScan] at h
  | cons a l ih =>
    intro acc n h
    cases n with
    | zero => simp [exclusiveScan]
    | succ n => simp [exclusiveScan, ih, add_assoc]

theorem withOffsets_length (ms : List Manifold) : (withOffsets ms).length = ms.length := by
  simp [withOffsets, exclusiveScan_length]

theorem withOffsets_get (ms : List Manifold) {n : ℕ} (h : n < (withOffsets ms).length) :
    (withOffsets ms)[n]
      = (ms[n]'(by rwa [withOffsets_length] at h), ambientOffset ms n, tangentOffset ms n) := by
  simp [withOffsets, exclusiveScan_get, ambientOffset, tangentOffset, List.map_take]

theorem ambientOffset_succ {ms : List Manifold} {n : ℕ} (h : n < ms.length) :
    ambientOffset ms (n + 1) = ambientOffset ms n + ms[n].ambientSize := by
  rw [ambientOffset, ambientOffset, List.take_succ_eq_append_getElem h, List.map_append, List.sum_append]
  simp only [List.map_cons, List.map_nil, List.sum_cons, List.sum_nil, add_zero]

theorem tangentOffset_succ {ms : List Manifold} {n : ℕ} (h : n < ms.length) :
    tangentOffset ms (n + 1) = tangentOffset ms n + ms[n].tangentSize := by
  rw [tangentOffset, tangentOffset, List.take_succ_eq_append_getElem h, List.map_append, List.sum_append]
  simp only [List.map_cons, List.map_nil, List.sum_cons, List.sum_nil, add_zero]

theorem foldl_add_eq (l : List ℕ) : ∀ a, l.foldl (· + ·) a = a + l.sum := by
  induction l with
  | nil => simp
  | cons b l ih => intro a; simp [ih, add_assoc]

/-- **C72.** The sizes are the sums of the sizes of the factors. -/
theorem product_sizes (ms : List Manifold) :
    productAmbientSize ms = (ms.map Manifold.ambientSize).sum
      ∧ productTangentSize ms = (ms.map Manifold.tangentSize).sum := by
  simp [productAmbientSize, productTangentSize, foldl_add_eq]

theorem ambientOffset_length (ms : List Manifold) : ambientOffset ms ms.length = productAmbientSize ms := by
  rw [(product_sizes ms).1, ambientOffset, List.take_length]

theorem tangentOffset_length (ms : List Manifold) : tangentOffset ms ms.length = productTangentSize ms := by
  rw [(product_sizes ms).2, tangentOffset, List.take_length]

theorem mono_of_succ {f : ℕ → ℕ} {N : ℕ} (h : ∀ n < N, f n ≤ f (n + 1)) {a b : ℕ} (hab : a ≤ b) (hb : b ≤ N) :
    f a ≤ f b := by
  induction b, hab using Nat.le_induction with
  | base => exact le_rfl
  | succ b _ ih => exact (ih (by omega)).trans (h b (by omega))

theorem ambientOffset_mono {ms : List Manifold} {a b : ℕ} (hab : a ≤ b) (hb : b ≤ ms.length) :
    ambientOffset ms a ≤ ambientOffset ms b :=
  mono_of_succ (fun n hn => by rw [ambientOffset_succ hn]; omega) hab hb

theorem tangentOffset_mono {ms : List Manifold} {a b : ℕ} (hab : a ≤ b) (hb : b ≤ ms.length) :
    tangentOffset ms a ≤ tangentOffset ms b :=
  mono_of_succ (fun n hn => by rw [tangentOffset_succ hn]; omega) hab hb

theorem ambient_lt {ms : List Manifold} {n : ℕ} (h : n < ms.length) :
    ambientOffset ms n + ms[n].ambientSize ≤ productAmbientSize ms := by
  rw [← ambientOffset_succ h, ← ambientOffset_length]
  exact ambientOffset_mono (by omega) le_rfl

theorem tangent_lt {ms : List Manifold} {n : ℕ} (h : n < ms.length) :
    tangentOffset ms n + ms[n].tangentSize ≤ productTangentSize ms := by
  rw [← tangentOffset_succ h, ← tangentOffset_length]
  exact tangentOffset_mono (by omega) le_rfl

/-- The blocks do not overlap. -/
theorem ambient_disjoint {ms : List Manifold} {n m : ℕ} (hnm : n < m) (hm : m < ms.length) :
    ambientOffset ms n + (ms[n]'(by omega)).ambientSize ≤ ambientOffset ms m := by
  rw [← ambientOffset_succ (by omega)]
  exact ambientOffset_mono hnm hm.le

theorem tangent_disjoint {ms : List Manifold} {n m : ℕ} (hnm : n < m) (hm : m < ms.length) :
    tangentOffset ms n + (ms[n]'(by omega)).tangentSize ≤ tangentOffset ms m := by
  rw [← tangentOffset_succ (by omega)]
  exact tangentOffset_mono hnm hm.le

theorem exists_block {f : ℕ → ℕ} (f0 : f 0 = 0) : ∀ (N k : ℕ), k < f N → ∃ n < N, f n ≤ k ∧ k < f (n + 1) := by
  intro N
  induction N with
  | zero => intro k h; omega
  | succ N ih =>
    intro k h
    by_cases hk : k < f N
    · obtain ⟨n, hn, h1⟩ := ih k hk
      exact ⟨n, by omega, h1⟩
    · exact ⟨N, by omega, by omega, h⟩

/-- Every ambient coordinate is in some block. -/
theorem exists_ambient {ms : List Manifold} {k : ℕ} (hk : k < productAmbientSize ms) :
    ∃ (n : ℕ) (h : n < ms.length) (i : Fin ms[n].ambientSize), k = ambientOffset ms n + i := by
  rw [← ambientOffset_length] at hk
  obtain ⟨n, hn, h1, h2⟩ := exists_block (f := ambientOffset ms) (by simp [ambientOffset]) _ k hk
  rw [ambientOffset_succ hn] at h2
  exact ⟨n, hn, ⟨k - ambientOffset ms n, by omega⟩, by simp; omega⟩

theorem exists_tangent {ms : List Manifold} {k : ℕ} (hk : k < productTangentSize ms) :
    ∃ (n : ℕ) (h : n < ms.length) (i : Fin ms[n].tangentSize), k = tangentOffset ms n + i := by
  rw [← tangentOffset_length] at hk
  obtain ⟨n, hn, h1, h2⟩ := exists_block (f := tangentOffset ms) (by simp [tangentOffset]) _ k hk
  rw [tangentOffset_succ hn] at h2
  exact ⟨n, hn, ⟨k - tangentOffset ms n, by omega⟩, by simp; omega⟩

/-! ## The loop over the factors -/

theorem allOf_spec {α : Type} {V : α → Type} (f : α → Buf → Bool × Buf) (g : (a : α) → Option (V a))
    (wr : (a : α) → V a → Buf → Buf) (R : α → ℕ → Prop) (val : (a : α) → V a → ℕ → ℝ)
    (hf0 : ∀ a b, g a = none → f a b = (false, b)) (hf1 : ∀ a b w, g a = some w → f a b = (true, wr a w b))
    (hin : ∀ a w b k, R a k → wr a w b k = val a w k) (hout : ∀ a w b k, ¬R a k → wr a w b k = b k)
    (l : List α) (hl : l.Pairwise fun a b => ∀ k, R a k → ¬R b k) : ∀ b0 : Buf,
    ((allOf f l b0).1 = true ↔ ∀ a ∈ l, (g a).isSome)
      ∧ ((allOf f l b0).1 = true → ∀ a ∈ l, ∀ w, g a = some w → ∀ k, R a k → (allOf f l b0).2 k = val a w k)
      ∧ ∀ k, (∀ a ∈ l, ¬R a k) → (allOf f l b0).2 k = b0 k := by
  induction l with
  | nil => intro b0; simp [allOf]
  | cons a l ih =>
    intro b0
    obtain ⟨hl1, hl2⟩ := List.pairwise_cons.1 hl
    cases hg : g a with
    | none =>
      have e : allOf f (a :: l) b0 = (false, b0) := by simp only [allOf, hf0 a b0 hg]
      rw [e]
      simp [hg]
    | some w =>
      have e : allOf f (a :: l) b0 = allOf f l (wr a w b0) := by simp only [allOf, hf1 a b0 w hg]
      rw [e]
      obtain ⟨h1, h2, h3⟩ := ih hl2 (wr a w b0)
      refine ⟨by rw [h1]; simp [hg], ?_, ?_⟩
      · intro ht c hc w' hw k hk
        rcases List.mem_cons.1 hc with rfl | hc
        · rw [hg] at hw
          obtain rfl := Option.some.inj hw
          rw [h3 k fun b hb => hl1 b hb k hk, hin c w b0 k hk]
        · exact h2 ht c hc w' hw k hk
      · intro k hk
        rw [h3 k fun b hb => hk b (by simp [hb]), hout a w b0 k (hk a (by simp))]

theorem pairwise_withOffsets (ms : List Manifold) (P : Manifold × ℕ × ℕ → Manifold × ℕ × ℕ → Prop)
    (h : ∀ n m (hn : n < ms.length) (hm : m < ms.length), n < m →
      P (ms[n], ambientOffset ms n, tangentOffset ms n) (ms[m], ambientOffset ms m, tangentOffset ms m)) :
    (withOffsets ms).Pairwise P := by
  rw [List.pairwise_iff_getElem]
  intro n m hn hm hnm
  rw [withOffsets_get ms hn, withOffsets_get ms hm]
  rw [withOffsets_length] at hn hm
  exact h n m hn hm hnm

theorem forall_withOffsets (ms : List Manifold) (P : Manifold × ℕ × ℕ → Prop) :
    (∀ a ∈ withOffsets ms, P a)
      ↔ ∀ n (hn : n < ms.length), P (ms[n], ambientOffset ms n, tangentOffset ms n) := by
  constructor
  · intro h n hn
    have := h _ (List.getElem_mem (l := withOffsets ms) (n := n) (by rwa [withOffsets_length]))
    rwa [withOffsets_get] at this
  · intro h a ha
    obtain ⟨n, hn, rfl⟩ := List.getElem_of_mem ha
    rw [withOffsets_get]
    exact h n _

theorem writeAt_in {n : ℕ} (p : Buf) (off : ℕ) (x : Vec n) (i : Fin n) : writeAt p off x (off + i) = x i := by
  rw [writeAt, dif_pos (by omega)]
  congr 1
  exact Fin.ext (by simp)

theorem writeAt_out {n : ℕ} (p : Buf) (off : ℕ) (x : Vec n) {k : ℕ} (h : ¬(off ≤ k ∧ k < off + n)) :
    writeAt p off x k = p k := by
  rw [writeAt, dif_neg h]

/-- **C72.** `Plus` succeeds iff it succeeds for every factor; then every block of the result is the
result of its factor, for the blocks of `x` and `delta`; nothing else is written. -/
theorem productPlus_spec (ms : List Manifold) (x delta out : Buf) :
    ((productPlus ms x delta out).1 = true
        ↔ ∀ n (hn : n < ms.length),
            (ms[n].plus (readAt x (ambientOffset ms n) _) (readAt delta (tangentOffset ms n) _)).isSome)
      ∧ ((productPlus ms x delta out).1 = true → ∀ n (hn : n < ms.length) (y : Vec ms[n].ambientSize),
          ms[n].plus (readAt x (ambientOffset ms n) _) (readAt delta (tangentOffset ms n) _) = some y →
          ∀ i : Fin ms[n].ambientSize, (productPlus ms x delta out).2 (ambientOffset ms n + i) = y i)
      ∧ ∀ k, productAmbientSize ms ≤ k → (productPlus ms x delta out).2 k = out k := by
  obtain ⟨h1, h2, h3⟩ := allOf_spec (V := fun p : Manifold × ℕ × ℕ => Vec p.1.ambientSize)
    (fun (p : Manifold × ℕ × ℕ) out =>
      match p.1.plus (readAt x p.2.1 _) (readAt delta p.2.2 _) with
      | none => (false, out)
      | some y => (true, writeAt out p.2.1 y))
    (fun p => p.1.plus (readAt x p.2.1 _) (readAt delta p.2.2 _))
    (fun p w b => writeAt b p.2.1 w) (fun p k => p.2.1 ≤ k ∧ k < p.2.1 + p.1.ambientSize)
    (fun p w k => writeAt 0 p.2.1 w k)
    (by intro a b h; simp only [h]) (by intro a b w h; simp only [h])
    (by intro a w b k h; simp only [writeAt, dif_pos h]) (by intro a w b k h; exact writeAt_out _ _ _ h)
    (withOffsets ms)
    (pairwise_withOffsets ms _ (by
      intro n m hn hm hnm k hk
      have := ambient_disjoint hnm hm
      simp only at hk ⊢; omega)) out
  rw [forall_withOffsets] at h1
  refine ⟨h1, fun ht n hn y hy i => ?_, fun k hk => h3 k ?_⟩
  · have := (forall_withOffsets ms _).1 (h2 ht) n hn y hy (ambientOffset ms n + i) (by simp)
    refine this.trans ?_
    exact writeAt_in _ _ _ i
  · rw [forall_withOffsets]
    intro n hn
    have := ambient_lt hn
    simp only; omega

/-- **C72.** The same for `Minus`. -/
theorem productMinus_spec (ms : List Manifold) (y x out : Buf) :
    ((productMinus ms y x out).1 = true
        ↔ ∀ n (hn : n < ms.length),
            (ms[n].minus (readAt y (ambientOffset ms n) _) (readAt x (ambientOffset ms n) _)).isSome)
      ∧ ((productMinus ms y x out).1 = true → ∀ n (hn : n < ms.length) (d : Vec ms[n].tangentSize),
          ms[n].minus (readAt y (ambientOffset ms n) _) (readAt x (ambientOffset ms n) _) = some d →
          ∀ i : Fin ms[n].tangentSize, (productMinus ms y x out).2 (tangentOffset ms n + i) = d i)
      ∧ ∀ k, productTangentSize ms ≤ k → (productMinus ms y x out).2 k = out k := by
  obtain ⟨h1, h2, h3⟩ := allOf_spec (V := fun p : Manifold × ℕ × ℕ => Vec p.1.tangentSize)
    (fun (p : Manifold × ℕ × ℕ) out =>
      match p.1.minus (readAt y p.2.1 _) (readAt x p.2.1 _) with
      | none => (false, out)
      | some d => (true, writeAt out p.2.2 d))
    (fun p => p.1.minus (readAt y p.2.1 _) (readAt x p.2.1 _))
    (fun p w b => writeAt b p.2.2 w) (fun p k => p.2.2 ≤ k ∧ k < p.2.2 + p.1.tangentSize)
    (fun p w k => writeAt 0 p.2.2 w k)
    (by intro a b h; simp only [h]) (by intro a b w h; simp only [h])
    (by intro a w b k h; simp only [writeAt, dif_pos h]) (by intro a w b k h; exact writeAt_out _ _ _ h)
    (withOffsets ms)
    (pairwise_withOffsets ms _ (by
      intro n m hn hm hnm k hk
      have := tangent_disjoint hnm hm
      simp only at hk ⊢; omega)) out
  rw [forall_withOffsets] at h1
  refine ⟨h1, fun ht n hn y hy i => ?_, fun k hk => h3 k ?_⟩
  · have := (forall_withOffsets ms _).1 (h2 ht) n hn y hy (tangentOffset ms n + i) (by simp)
    refine this.trans ?_
    exact writeAt_in _ _ _ i
  · rw [forall_withOffsets]
    intro n hn
    have := tangent_lt hn
    simp only; omega

/-! ## Jacobians -/

theorem rowMajor_get {a t : ℕ} (J : Matrix (Fin a) (Fin t) ℝ) (b : Buf) (r : Fin a) (c : Fin t) :
    writeAt b 0 (rowMajorOf J) (r * t + c) = J r c := by
  have h : r * t + c < a * t := by
    calc r * t + c < r * t + t := by omega
      _ = (r + 1) * t := by ring
      _ ≤ a * t := Nat.mul_le_mul_right t r.2
  have := writeAt_in b 0 (rowMajorOf J) ⟨r * t + c, h⟩
  rw [zero_add] at this
  rw [this, rowMajorOf]
  congr 1
  · apply Fin.ext
    simp only [Fin.divNat]
    rw [Nat.add_comm, Nat.add_mul_div_right _ _ (by omega), Nat.div_eq_of_lt c.2, Nat.zero_add]
  · apply Fin.ext
    simp only [Fin.modNat]
    rw [Nat.add_comm, Nat.add_mul_mod_self_right, Nat.mod_eq_of_lt c.2]

theorem div_rc {r c cols : ℕ} (hc : c < cols) : (r * cols + c) / cols = r := by
  rw [Nat.add_comm, Nat.add_mul_div_right _ _ (by omega), Nat.div_eq_of_lt hc, Nat.zero_add]

theorem mod_rc {r c cols : ℕ} (hc : c < cols) : (r * cols + c) % cols = c := by
  rw [Nat.add_comm, Nat.add_mul_mod_self_right, Nat.mod_eq_of_lt hc]

/-- **C72.** `PlusJacobian` succeeds iff it succeeds for every factor; then the diagonal blocks are the
Jacobians of the factors and the other entries are zero. -/
theorem productPlusJacobian_spec (ms : List Manifold) (x m : Buf) :
    ((productPlusJacobian ms x m).1 = true
        ↔ ∀ n (hn : n < ms.length), (ms[n].plusJacobian (readAt x (ambientOffset ms n) _)).isSome)
      ∧ ((productPlusJacobian ms x m).1 = true → ∀ n (hn : n < ms.length)
          (J : Matrix (Fin ms[n].ambientSize) (Fin ms[n].tangentSize) ℝ),
          ms[n].plusJacobian (readAt x (ambientOffset ms n) _) = some J →
          ∀ (r : Fin ms[n].ambientSize) (c : ℕ), c < productTangentSize ms →
            (productPlusJacobian ms x m).2 ((ambientOffset ms n + r) * productTangentSize ms + c)
              = if h : tangentOffset ms n ≤ c ∧ c < tangentOffset ms n + ms[n].tangentSize
                then J r ⟨c - tangentOffset ms n, by omega⟩ else 0) := by
  set cols := productTangentSize ms with hcols
  have key := allOf_spec (V := fun p : Manifold × ℕ × ℕ => Matrix (Fin p.1.ambientSize) (Fin p.1.tangentSize) ℝ)
    (fun (p : Manifold × ℕ × ℕ) m =>
      match p.1.plusJacobian (readAt x p.2.1 _) with
      | none => (false, m)
      | some J =>
        (true, writeBlock m cols p.2.1 p.2.2 p.1.ambientSize p.1.tangentSize
          (writeAt (fun _ => 0) 0 (rowMajorOf J))))
    (fun p => p.1.plusJacobian (readAt x p.2.1 _))
    (fun p J m => writeBlock m cols p.2.1 p.2.2 p.1.ambientSize p.1.tangentSize
          (writeAt (fun _ => 0) 0 (rowMajorOf J)))
    (fun p i => p.2.1 ≤ i / cols ∧ i / cols < p.2.1 + p.1.ambientSize ∧ p.2.2 ≤ i % cols
      ∧ i % cols < p.2.2 + p.1.tangentSize)
    (fun p J i => writeAt (fun _ => 0) 0 (rowMajorOf J)
      ((i / cols - p.2.1) * p.1.tangentSize + (i % cols - p.2.2)))
    (by intro a b h; simp only [h]) (by intro a b w h; simp only [h])
    (by intro a w b k h; simp only [writeBlock]; rw [if_pos h])
    (by intro a w b k h; simp only [writeBlock]; rw [if_neg h])
    (withOffsets ms)
    (pairwise_withOffsets ms _ (by
      intro n m hn hm hnm k hk
      have := ambient_disjoint hnm hm
      simp only at hk ⊢; omega)) (setZero (productAmbientSize ms * cols) m)
  obtain ⟨h1, h2, h3⟩ := key
  rw [forall_withOffsets] at h1
  refine ⟨h1, fun ht n hn J hJ r c hc => ?_⟩
  have ha := ambient_lt hn
  have hrow : (ambientOffset ms n + r) * cols + c < productAmbientSize ms * cols := by
    calc (ambientOffset ms n + r) * cols + c < (ambientOffset ms n + r) * cols + cols := by omega
      _ = (ambientOffset ms n + r + 1) * cols := by ring
      _ ≤ _ := Nat.mul_le_mul_right _ (by omega)
  by_cases h : tangentOffset ms n ≤ c ∧ c < tangentOffset ms n + ms[n].tangentSize
  · rw [dif_pos h]
    have := (forall_withOffsets ms _).1 (h2 ht) n hn J hJ ((ambientOffset ms n + r) * cols + c)
      (by rw [div_rc hc, mod_rc hc]; simp only; omega)
    refine this.trans ?_
    rw [div_rc hc, mod_rc hc]
    have := rowMajor_get J (fun _ => 0) r ⟨c - tangentOffset ms n, by omega⟩
    simpa using this
  · rw [dif_neg h]
    refine (h3 _ ?_).trans (by rw [setZero, if_pos hrow])
    rw [forall_withOffsets]
    intro n' hn'
    rw [div_rc hc, mod_rc hc]
    simp only
    rcases lt_trichotomy n n' with hlt | rfl | hlt
    · have := ambient_disjoint hlt hn'; omega
    · omega
    · have := ambient_disjoint hlt hn; omega

/-- **C72.** The same for `MinusJacobian`. -/
theorem productMinusJacobian_spec (ms : List Manifold) (x m : Buf) :
    ((productMinusJacobian ms x m).1 = true
        ↔ ∀ n (hn : n < ms.length), (ms[n].minusJacobian (readAt x (ambientOffset ms n) _)).isSome)
      ∧ ((productMinusJacobian ms x m).1 = true → ∀ n (hn : n < ms.length)
          (J : Matrix (Fin ms[n].tangentSize) (Fin ms[n].ambientSize) ℝ),
          ms[n].minusJacobian (readAt x (ambientOffset ms n) _) = some J →
          ∀ (r : Fin ms[n].tangentSize) (c : ℕ), c < productAmbientSize ms →
            (productMinusJacobian ms x m).2 ((tangentOffset ms n + r) * productAmbientSize ms + c)
              = if h : ambientOffset ms n ≤ c ∧ c < ambientOffset ms n + ms[n].ambientSize
                then J r ⟨c - ambientOffset ms n, by omega⟩ else 0) := by
  set cols := productAmbientSize ms with hcols
  have key := allOf_spec (V := fun p : Manifold × ℕ × ℕ => Matrix (Fin p.1.tangentSize) (Fin p.1.ambientSize) ℝ)
    (fun (p : Manifold × ℕ × ℕ) m =>
      match p.1.minusJacobian (readAt x p.2.1 _) with
      | none => (false, m)
      | some J =>
        (true, writeBlock m cols p.2.2 p.2.1 p.1.tangentSize p.1.ambientSize
          (writeAt (fun _ => 0) 0 (rowMajorOf J))))
    (fun p => p.1.minusJacobian (readAt x p.2.1 _))
    (fun p J m => writeBlock m cols p.2.2 p.2.1 p.1.tangentSize p.1.ambientSize
          (writeAt (fun _ => 0) 0 (rowMajorOf J)))
    (fun p i => p.2.2 ≤ i / cols ∧ i / cols < p.2.2 + p.1.tangentSize ∧ p.2.1 ≤ i % cols
      ∧ i % cols < p.2.1 + p.1.ambientSize)
    (fun p J i => writeAt (fun _ => 0) 0 (rowMajorOf J)
      ((i / cols - p.2.2) * p.1.ambientSize + (i % cols - p.2.1)))
    (by intro a b h; simp only [h]) (by intro a b w h; simp only [h])
    (by intro a w b k h; simp only [writeBlock]; rw [if_pos h])
    (by intro a w b k h; simp only [writeBlock]; rw [if_neg h])
    (withOffsets ms)
    (pairwise_withOffsets ms _ (by
      intro n m hn hm hnm k hk
      have := tangent_disjoint hnm hm
      simp only at hk ⊢; omega)) (setZero (productTangentSize ms * cols) m)
  obtain ⟨h1, h2, h3⟩ := key
  rw [forall_withOffsets] at h1
  refine ⟨h1, fun ht n hn J hJ r c hc => ?_⟩
  have ha := tangent_lt hn
  have hrow : (tangentOffset ms n + r) * cols + c < productTangentSize ms * cols := by
    calc (tangentOffset ms n + r) * cols + c < (tangentOffset ms n + r) * cols + cols := by omega
      _ = (tangentOffset ms n + r + 1) * cols := by ring
      _ ≤ _ := Nat.mul_le_mul_right _ (by omega)
  by_cases h : ambientOffset ms n ≤ c ∧ c < ambientOffset ms n + ms[n].ambientSize
  · rw [dif_pos h]
    have := (forall_withOffsets ms _).1 (h2 ht) n hn J hJ ((tangentOffset ms n + r) * cols + c)
      (by rw [div_rc hc, mod_rc hc]; simp only; omega)
    refine this.trans ?_
    rw [div_rc hc, mod_rc hc]
    have := rowMajor_get J (fun _ => 0) r ⟨c - ambientOffset ms n, by omega⟩
    simpa using this
  · rw [dif_neg h]
    refine (h3 _ ?_).trans (by rw [setZero, if_pos hrow])
    rw [forall_withOffsets]
    intro n' hn'
    rw [div_rc hc, mod_rc hc]
    simp only
    rcases lt_trichotomy n n' with hlt | rfl | hlt
    · have := tangent_disjoint hlt hn'; omega
    · omega
    · have := tangent_disjoint hlt hn; omega

/-! ## The laws of the factors carry over -/

/-- **C43 for products.** `Plus(x, 0) = x`. -/
theorem productPlus_zero (ms : List Manifold) (x out : Buf)
    (h : ∀ n (hn : n < ms.length), ms[n].plus (readAt x (ambientOffset ms n) _) 0
      = some (readAt x (ambientOffset ms n) _)) :
    (productPlus ms x (fun _ => 0) out).1 = true
      ∧ ∀ k < productAmbientSize ms, (productPlus ms x (fun _ => 0) out).2 k = x k := by
  obtain ⟨h1, h2, -⟩ := productPlus_spec ms x (fun _ => 0) out
  have hp : ∀ n (hn : n < ms.length), ms[n].plus (readAt x (ambientOffset ms n) _)
      (readAt (fun _ => 0) (tangentOffset ms n) _) = some (readAt x (ambientOffset ms n) _) := h
  have ht := h1.2 fun n hn => by rw [hp]; rfl
  refine ⟨ht, fun k hk => ?_⟩
  obtain ⟨n, hn, i, rfl⟩ := exists_ambient hk
  rw [h2 ht n hn _ (hp n hn) i]
  rfl

/-- **C43 for products.** `Minus(Plus(x, delta), x) = delta`. -/
theorem productMinus_plus (ms : List Manifold) (x delta out out' : Buf)
    (h : ∀ n (hn : n < ms.length), ∃ y,
      ms[n].plus (readAt x (ambientOffset ms n) _) (readAt delta (tangentOffset ms n) _) = some y
        ∧ ms[n].minus y (readAt x (ambientOffset ms n) _) = some (readAt delta (tangentOffset ms n) _)) :
    (productPlus ms x delta out).1 = true
      ∧ (productMinus ms (productPlus ms x delta out).2 x out').1 = true
      ∧ ∀ k < productTangentSize ms, (productMinus ms (productPlus ms x delta out).2 x out').2 k = delta k := by
  obtain ⟨h1, h2, -⟩ := productPlus_spec ms x delta out
  have ht := h1.2 fun n hn => by obtain ⟨y, hy, -⟩ := h n hn; rw [hy]; rfl
  have hread : ∀ n (hn : n < ms.length), ms[n].minus
      (readAt (productPlus ms x delta out).2 (ambientOffset ms n) _) (readAt x (ambientOffset ms n) _)
        = some (readAt delta (tangentOffset ms n) _) := by
    intro n hn
    obtain ⟨y, hy, hm⟩ := h n hn
    have : readAt (productPlus ms x delta out).2 (ambientOffset ms n) _ = y :=
      funext fun i => h2 ht n hn y hy i
    rw [this, hm]
  obtain ⟨h3, h4, -⟩ := productMinus_spec ms (productPlus ms x delta out).2 x out'
  have ht' := h3.2 fun n hn => by rw [hread]; rfl
  refine ⟨ht, ht', fun k hk => ?_⟩
  obtain ⟨n, hn, i, rfl⟩ := exists_tangent hk
  rw [h4 ht' n hn _ (hread n hn) i]
  rfl

/-- **C43 for products.** `Plus(x, Minus(y, x)) = y`. -/
theorem productPlus_minus (ms : List Manifold) (x y out out' : Buf)
    (h : ∀ n (hn : n < ms.length), ∃ d,
      ms[n].minus (readAt y (ambientOffset ms n) _) (readAt x (ambientOffset ms n) _) = some d
        ∧ ms[n].plus (readAt x (ambientOffset ms n) _) d = some (readAt y (ambientOffset ms n) _)) :
    (productMinus ms y x out).1 = true
      ∧ (productPlus ms x (productMinus ms y x out).2 out').1 = true
      ∧ ∀ k < productAmbientSize ms, (productPlus ms x (productMinus ms y x out).2 out').2 k = y k := by
  obtain ⟨h1, h2, -⟩ := productMinus_spec ms y x out
  have ht := h1.2 fun n hn => by obtain ⟨d, hd, -⟩ := h n hn; rw [hd]; rfl
  have hread : ∀ n (hn : n < ms.length), ms[n].plus (readAt x (ambientOffset ms n) _)
      (readAt (productMinus ms y x out).2 (tangentOffset ms n) _)
        = some (readAt y (ambientOffset ms n) _) := by
    intro n hn
    obtain ⟨d, hd, hp⟩ := h n hn
    have : readAt (productMinus ms y x out).2 (tangentOffset ms n) _ = d :=
      funext fun i => h2 ht n hn d hd i
    rw [this, hp]
  obtain ⟨h3, h4, -⟩ := productPlus_spec ms x (productMinus ms y x out).2 out'
  have ht' := h3.2 fun n hn => by rw [hread]; rfl
  refine ⟨ht, ht', fun k hk => ?_⟩
  obtain ⟨n, hn, i, rfl⟩ := exists_ambient hk
  rw [h4 ht' n hn _ (hread n hn) i]
  rfl

/-- The buffer that holds a vector, followed by zeros. -/
def toBuf {n : ℕ} (v : Vec n) : Buf := fun i => if h : i < n then v ⟨i, h⟩ else 0

/-- The matrix in a row major buffer. -/
def toMatrix (a t : ℕ) (b : Buf) : Matrix (Fin a) (Fin t) ℝ := fun r c => b (r * t + c)

/-- A sum over all columns of something that vanishes outside a block is the sum over the block. -/
theorem sum_block {T o t : ℕ} (h : o + t ≤ T) (f : ℕ → ℝ) (h0 : ∀ c < T, ¬(o ≤ c ∧ c < o + t) → f c = 0) :
    ∑ c : Fin T, f c = ∑ j : Fin t, f (o + j) := by
  rw [Fin.sum_univ_eq_sum_range f T, Fin.sum_univ_eq_sum_range (fun j => f (o + j)) t,
    ← Finset.sum_subset (s₁ := Finset.Ico o (o + t)) (s₂ := Finset.range T)]
  · rw [Finset.sum_Ico_eq_sum_range]; simp
  · intro c hc; simp at hc ⊢; omega
  · intro c hc hn
    simp at hc hn
    exact h0 c hc (by omega)

/-- The coordinates of one block, as a linear map. -/
def blockMap (T o t : ℕ) : Vec T →L[ℝ] Vec t :=
  LinearMap.toContinuousLinearMap
    { toFun := fun v j => toBuf v (o + j)
      map_add' := by
        intro u v; funext j
        by_cases h : o + (j : ℕ) < T <;> simp [toBuf, h]
      map_smul' := by
        intro a v; funext j
        by_cases h : o + (j : ℕ) < T <;> simp [toBuf, h] }

@[simp] theorem blockMap_apply (T o t : ℕ) (v : Vec T) (j : Fin t) : blockMap T o t v j = toBuf v (o + j) := rfl

/-- **C44 for products.** If every factor's `Plus` at its part of `x` has its `PlusJacobian` as derivative
at zero, so has the product. -/
theorem productPlus_hasFDerivAt (ms : List Manifold) (x out m : Buf)
    (h : ∀ n (hn : n < ms.length), ∃ (p : Vec ms[n].tangentSize → Vec ms[n].ambientSize) (J : _),
      (∀ d, ms[n].plus (readAt x (ambientOffset ms n) _) d = some (p d))
        ∧ ms[n].plusJacobian (readAt x (ambientOffset ms n) _) = some J ∧ HasFDerivAt p (asMap J) 0) :
    HasFDerivAt (fun (delta : Vec (productTangentSize ms)) (i : Fin (productAmbientSize ms)) =>
        (productPlus ms x (toBuf delta) out).2 i)
      (asMap (toMatrix (productAmbientSize ms) (productTangentSize ms) (productPlusJacobian ms x m).2)) 0 := by
  rw [hasFDerivAt_pi']
  intro k
  obtain ⟨n, hn, i, hk⟩ := exists_ambient k.2
  obtain ⟨p, J, hp, hJ, hd⟩ := h n hn
  have hT := tangent_lt hn
  have e1 : (fun delta : Vec (productTangentSize ms) => (productPlus ms x (toBuf delta) out).2 k)
      = fun delta => p (blockMap _ (tangentOffset ms n) _ delta) i := by
    funext delta
    obtain ⟨h1, h2, -⟩ := productPlus_spec ms x (toBuf delta) out
    have ht := h1.2 fun n hn => by
      obtain ⟨p, J, hp, -⟩ := h n hn; rw [hp]; rfl
    rw [hk, h2 ht n hn _ (hp _) i]
    rfl
  rw [e1]
  have hd' : HasFDerivAt p (asMap J) (blockMap (productTangentSize ms) (tangentOffset ms n) _ 0) := by
    rwa [map_zero]
  have h3 := (hasFDerivAt_pi'.1 (hd'.comp (0 : Vec (productTangentSize ms))
    (blockMap (productTangentSize ms) (tangentOffset ms n) ms[n].tangentSize).hasFDerivAt)) i
  refine HasFDerivAt.congr_fderiv h3 ?_
  ext1 v
  simp only [ContinuousLinearMap.comp_apply, ContinuousLinearMap.proj_apply, asMap_apply, Matrix.mulVec,
    dotProduct, toMatrix, blockMap_apply]
  obtain ⟨h1, h2⟩ := productPlusJacobian_spec ms x m
  have ht := h1.2 fun n hn => by
    obtain ⟨p, J, -, hJ, -⟩ := h n hn; rw [hJ]; rfl
  have h4 := h2 ht n hn J hJ i
  have e2 : ∀ c : Fin (productTangentSize ms),
      (productPlusJacobian ms x m).2 ((k : ℕ) * productTangentSize ms + c) * v c
        = (fun c => (productPlusJacobian ms x m).2 ((k : ℕ) * productTangentSize ms + c) * toBuf v c) c := by
    intro c; simp [toBuf]
  rw [Finset.sum_congr rfl fun c _ => e2 c, sum_block (o := tangentOffset ms n) hT
    (fun c => (productPlusJacobian ms x m).2 ((k : ℕ) * productTangentSize ms + c) * toBuf v c)]
  · refine Finset.sum_congr rfl fun j _ => ?_
    rw [hk, h4 _ (by omega), dif_pos (by omega)]
    congr 2
    exact Fin.ext (by simp)
  · intro c hc hb
    rw [hk, h4 _ hc, dif_neg hb, zero_mul]

/-- **C44 for products.** The same for `Minus`: the derivative in its first argument at `x`. -/
theorem productMinus_hasFDerivAt (ms : List Manifold) (x out m : Buf)
    (h : ∀ n (hn : n < ms.length), ∃ (p : Vec ms[n].ambientSize → Vec ms[n].tangentSize) (J : _),
      (∀ y, ms[n].minus y (readAt x (ambientOffset ms n) _) = some (p y))
        ∧ ms[n].minusJacobian (readAt x (ambientOffset ms n) _) = some J
        ∧ HasFDerivAt p (asMap J) (readAt x (ambientOffset ms n) _)) :
    HasFDerivAt (fun (y : Vec (productAmbientSize ms)) (i : Fin (productTangentSize ms)) =>
        (productMinus ms (toBuf y) x out).2 i)
      (asMap (toMatrix (productTangentSize ms) (productAmbientSize ms) (productMinusJacobian ms x m).2))
      (readAt x 0 _) := by
  rw [hasFDerivAt_pi']
  intro k
  obtain ⟨n, hn, i, hk⟩ := exists_tangent k.2
  obtain ⟨p, J, hp, hJ, hd⟩ := h n hn
  have hT := ambient_lt hn
  have e1 : (fun y : Vec (productAmbientSize ms) => (productMinus ms (toBuf y) x out).2 k)
      = fun y => p (blockMap _ (ambientOffset ms n) _ y) i := by
    funext y
    obtain ⟨h1, h2, -⟩ := productMinus_spec ms (toBuf y) x out
    have ht := h1.2 fun n hn => by
      obtain ⟨p, J, hp, -⟩ := h n hn; rw [hp]; rfl
    rw [hk, h2 ht n hn _ (hp _) i]
    rfl
  rw [e1]
  have hd' : HasFDerivAt p (asMap J) (blockMap (productAmbientSize ms) (ambientOffset ms n) _ (readAt x 0 _)) := by
    have : blockMap (productAmbientSize ms) (ambientOffset ms n) ms[n].ambientSize (readAt x 0 _)
        = readAt x (ambientOffset ms n) _ := by
      funext j
      rw [blockMap_apply, toBuf, dif_pos (by omega)]
      simp [readAt]
    rwa [this]
  have h3 := (hasFDerivAt_pi'.1 (hd'.comp (readAt x 0 _)
    (blockMap (productAmbientSize ms) (ambientOffset ms n) ms[n].ambientSize).hasFDerivAt)) i
  refine HasFDerivAt.congr_fderiv h3 ?_
  ext1 v
  simp only [ContinuousLinearMap.comp_apply, ContinuousLinearMap.proj_apply, asMap_apply, Matrix.mulVec,
    dotProduct, toMatrix, blockMap_apply]
  obtain ⟨h1, h2⟩ := productMinusJacobian_spec ms x m
  have ht := h1.2 fun n hn => by
    obtain ⟨p, J, -, hJ, -⟩ := h n hn; rw [hJ]; rfl
  have h4 := h2 ht n hn J hJ i
  have e2 : ∀ c : Fin (productAmbientSize ms),
      (productMinusJacobian ms x m).2 ((k : ℕ) * productAmbientSize ms + c) * v c
        = (fun c => (productMinusJacobian ms x m).2 ((k : ℕ) * productAmbientSize ms + c) * toBuf v c) c := by
    intro c; simp [toBuf]
  rw [Finset.sum_congr rfl fun c _ => e2 c, sum_block (o := ambientOffset ms n) hT
    (fun c => (productMinusJacobian ms x m).2 ((k : ℕ) * productAmbientSize ms + c) * toBuf v c)]
  · refine Finset.sum_congr rfl fun j _ => ?_
    rw [hk, h4 _ (by omega), dif_pos (by omega)]
    congr 2
    exact Fin.ext (by simp)
  · intro c hc hb
    rw [hk, h4 _ hc, dif_neg hb, zero_mul]

/-- **C44 for products.** `MinusJacobian(x) * PlusJacobian(x) = I`. -/
theorem productMinusJacobian_mul (ms : List Manifold) (x m m' : Buf)
    (h : ∀ n (hn : n < ms.length), ∃ (J : Matrix (Fin ms[n].ambientSize) (Fin ms[n].tangentSize) ℝ)
      (K : Matrix (Fin ms[n].tangentSize) (Fin ms[n].ambientSize) ℝ),
      ms[n].plusJacobian (readAt x (ambientOffset ms n) _) = some J
        ∧ ms[n].minusJacobian (readAt x (ambientOffset ms n) _) = some K ∧ K * J = 1) :
    toMatrix (productTangentSize ms) (productAmbientSize ms) (productMinusJacobian ms x m).2
      * toMatrix (productAmbientSize ms) (productTangentSize ms) (productPlusJacobian ms x m').2 = 1 := by
  ext k c
  obtain ⟨n, hn, i, hk⟩ := exists_tangent k.2
  obtain ⟨J, K, hJ, hK, hKJ⟩ := h n hn
  have hT := ambient_lt hn
  obtain ⟨h1, h2⟩ := productMinusJacobian_spec ms x m
  have ht := h1.2 fun n hn => by
    obtain ⟨J, K, -, hK, -⟩ := h n hn; rw [hK]; rfl
  have h4 := h2 ht n hn K hK i
  obtain ⟨h5, h6⟩ := productPlusJacobian_spec ms x m'
  have ht' := h5.2 fun n hn => by
    obtain ⟨J, K, hJ, -⟩ := h n hn; rw [hJ]; rfl
  have h7 := fun j => h6 ht' n hn J hJ j c c.2
  simp only [Matrix.mul_apply, toMatrix]
  rw [sum_block (o := ambientOffset ms n) hT (fun j => (productMinusJacobian ms x m).2 (k * productAmbientSize ms + j)
    * (productPlusJacobian ms x m').2 (j * productTangentSize ms + c))]
  · by_cases hb : tangentOffset ms n ≤ c ∧ (c : ℕ) < tangentOffset ms n + ms[n].tangentSize
    · have : ∀ j : Fin ms[n].ambientSize,
          (productMinusJacobian ms x m).2 (k * productAmbientSize ms + (ambientOffset ms n + j))
            * (productPlusJacobian ms x m').2 ((ambientOffset ms n + j) * productTangentSize ms + c)
          = K i j * J j ⟨c - tangentOffset ms n, by omega⟩ := by
        intro j
        rw [hk, h4 _ (by omega), dif_pos (by omega), h7 j, dif_pos hb]
        congr 2
        exact Fin.ext (by simp)
      rw [Finset.sum_congr rfl fun j _ => this j, ← Matrix.mul_apply, hKJ, Matrix.one_apply, Matrix.one_apply]
      congr 1
      simp only [Fin.ext_iff, eq_iff_iff]
      omega
    · rw [Finset.sum_eq_zero, Matrix.one_apply_ne]
      · intro e; subst e; omega
      · intro j _
        rw [h7 j, dif_neg hb, mul_zero]
  · intro j hj hb
    rw [hk, h4 _ hj, dif_neg hb, zero_mul]

/-! ## The default `RightMultiplyByPlusJacobian` -/

/-- **C45.** The default implementation stores the product of the given matrix with `PlusJacobian`, and
succeeds iff `PlusJacobian` does (or the tangent space is trivial). -/
theorem rightMultiply_spec (M : Manifold) (x : Vec M.ambientSize) (numRows : ℕ) (ambient m : Buf) :
    ((M.rightMultiply x numRows ambient m).1 = true ↔ M.tangentSize = 0 ∨ (M.plusJacobian x).isSome)
      ∧ ∀ J, M.plusJacobian x = some J →
          toMatrix numRows M.tangentSize (M.rightMultiply x numRows ambient m).2
            = toMatrix numRows M.ambientSize ambient * J := by
  constructor
  · rw [Manifold.rightMultiply]
    by_cases h : M.tangentSize = 0
    · simp [h]
    · rw [if_neg h]
      cases hJ : M.plusJacobian x <;> simp [h]
  · intro J hJ
    ext r c
    have h : M.tangentSize ≠ 0 := by have := c.2; omega
    rw [toMatrix, Manifold.rightMultiply, if_neg h]
    simp only [hJ]
    rw [rowMajor_get]
    simp [Matrix.mul_apply, toMatrix]

/-! ## Example: a pose -/

/-- `QuaternionManifold` or `EigenQuaternionManifold` (manifold.h:380-434). -/
def quaternionManifold (o : Ceres.Rotation.Order) : Manifold where
  ambientSize := 4
  tangentSize := 3
  plus x d := some (quaternionPlus o x d)
  plusJacobian x := some (quaternionPlusJacobian o x)
  minus y x := some (quaternionMinus o y x)
  minusJacobian x := some (quaternionMinusJacobian o x)

/-- `EuclideanManifold` (manifold.h:250-305). -/
def euclideanManifold (n : ℕ) : Manifold where
  ambientSize := n
  tangentSize := n
  plus x d := some (euclideanPlus x d)
  plusJacobian _ := some (euclideanJacobian n)
  minus y x := some (euclideanMinus y x)
  minusJacobian _ := some (euclideanJacobian n)

/-- The product of a quaternion and a translation, at any unit quaternion, meets the hypotheses of the
derivative laws. -/
theorem pose_plus_hasFDerivAt (x out m : Buf) :
    let ms := [quaternionManifold Ceres.Rotation.ceresOrder, euclideanManifold 3]
    productAmbientSize ms = 7 ∧ productTangentSize ms = 6
      ∧ HasFDerivAt (fun (delta : Vec (productTangentSize ms)) (i : Fin (productAmbientSize ms)) =>
        (productPlus ms x (toBuf delta) out).2 i)
      (asMap (toMatrix (productAmbientSize ms) (productTangentSize ms) (productPlusJacobian ms x m).2)) 0 := by
  refine ⟨by simp [productAmbientSize, quaternionManifold, euclideanManifold],
    by simp [productTangentSize, quaternionManifold, euclideanManifold],
    productPlus_hasFDerivAt _ x out m ?_⟩
  intro n hn
  match n, hn with
  | 0, _ => exact ⟨_, _, fun _ => rfl, rfl, quaternionPlus_hasFDerivAt Ceres.Rotation.ceresOrder_valid _⟩
  | 1, _ => exact ⟨_, _, fun _ => rfl, rfl, (euclidean_laws _ 0 0).2.2.2.1⟩

/-- At a unit quaternion the pose also meets the hypotheses of the laws for `Minus`. -/
theorem pose_minus_hasFDerivAt (x out m m' : Buf)
    (hx : Ceres.Rotation.IsUnitQ Ceres.Rotation.ceresOrder (readAt x 0 4)) :
    let ms := [quaternionManifold Ceres.Rotation.ceresOrder, euclideanManifold 3]
    HasFDerivAt (fun (y : Vec (productAmbientSize ms)) (i : Fin (productTangentSize ms)) =>
        (productMinus ms (toBuf y) x out).2 i)
      (asMap (toMatrix (productTangentSize ms) (productAmbientSize ms) (productMinusJacobian ms x m).2))
      (readAt x 0 _)
    ∧ toMatrix (productTangentSize ms) (productAmbientSize ms) (productMinusJacobian ms x m).2
      * toMatrix (productAmbientSize ms) (productTangentSize ms) (productPlusJacobian ms x m').2 = 1 := by
  refine ⟨productMinus_hasFDerivAt _ x out m ?_, productMinusJacobian_mul _ x m m' ?_⟩
  · intro n hn
    match n, hn with
    | 0, _ => exact ⟨_, _, fun _ => rfl, rfl, quaternionMinus_hasFDerivAt Ceres.Rotation.ceresOrder_valid hx⟩
    | 1, _ => exact ⟨_, _, fun _ => rfl, rfl, (euclidean_laws _ 0 0).2.2.2.2.1⟩
  · intro n hn
    match n, hn with
    | 0, _ => exact ⟨_, _, rfl, rfl, quaternionMinusJacobian_mul Ceres.Rotation.ceresOrder_valid hx⟩
    | 1, _ => exact ⟨_, _, rfl, rfl, (euclidean_laws 0 0 0).2.2.2.2.2⟩

end

end Ceres.Manifold
