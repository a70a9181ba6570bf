import Verif.SmallBlas.Loops
import Mathlib.Data.Fintype.BigOperators

/-!
# A small calculus for "writes exactly these entries"
-/

namespace Ceres.SmallBlas

open Finset

variable {K : Type} [Ring K] {ι : Type}

theorem storeSingle_eq {m : Mem K} {op : ℤ} {p idx : ℕ} {old v : K}
    (h : m (p + idx) = some old) :
    storeSingle op p idx v m =
      some ((), Function.update m (p + idx) (some (combine op old v))) := by
  unfold storeSingle combine
  split_ifs
  · rw [addStore, bind_eq (load_eq h)]; simp [store, h]
  · rw [subStore, bind_eq (load_eq h)]; simp [store, h]
  · simp [store, h]

theorem storePair_seq (op : ℤ) (p idx : ℕ) (v1 v2 : K) :
    storePair op p idx v1 v2 =
      (storeSingle op p idx v1 >>= fun _ => storeSingle op p (idx + 1) v2) := by
  unfold storePair storeSingle
  split_ifs <;> rfl

theorem store1x4_seq (op : ℤ) (c : ℕ) (r : Reg K) :
    store1x4 op c r =
      (storeSingle op c 0 r.c0 >>= fun _ => storeSingle op c 1 r.c1 >>= fun _ =>
        storeSingle op c 2 r.c2 >>= fun _ => storeSingle op c 3 r.c3) := by
  unfold store1x4 storeSingle
  split_ifs <;> rfl

/-- Exactly the entries in `D` have been combined with their value. -/
def Upd (op : ℤ) (addr : ι → ℕ) (v : ι → K) (D : ι → Prop) (m m' : Mem K) : Prop :=
  (∀ i, D i → ∃ old, m (addr i) = some old ∧ m' (addr i) = some (combine op old (v i))) ∧
  ∀ p, (∀ i, D i → p ≠ addr i) → m' p = m p

/-- The setting: the entries `V` of the output live at distinct, allocated addresses. -/
structure Out (addr : ι → ℕ) (V : ι → Prop) (m : Mem K) : Prop where
  inj : ∀ i j, V i → V j → addr i = addr j → i = j
  alloc : ∀ i, V i → ∃ old, m (addr i) = some old

/-- Started in any state in which some entries other than `S` have been written, `act` writes
exactly the entries `S`. -/
def Writes (op : ℤ) (addr : ι → ℕ) (v : ι → K) (V : ι → Prop) (m : Mem K) (act : M K Unit)
    (S : ι → Prop) : Prop :=
  (∀ x, S x → V x) ∧
  ∀ D m', Upd op addr v D m m' → (∀ x, D x → V x) → (∀ x, S x → ¬ D x) →
    ∃ m'', act m' = some ((), m'') ∧ Upd op addr v (fun x => D x ∨ S x) m m''

section

variable {op : ℤ} {addr : ι → ℕ} {v : ι → K} {V : ι → Prop} {m : Mem K}

theorem Upd.congr {D D' : ι → Prop} {m' : Mem K} (h : Upd op addr v D m m')
    (hD : ∀ x, D x ↔ D' x) : Upd op addr v D' m m' := by
  have : D = D' := funext fun x => propext (hD x)
  exact this ▸ h

theorem Upd.read {D : ι → Prop} {m' : Mem K} (h : Upd op addr v D m m') (hD : ∀ x, D x → V x)
    {q : ℕ} (hq : ∀ x, V x → q ≠ addr x) : m' q = m q :=
  h.2 q fun x hx => hq x (hD x hx)

theorem Writes.congr {act : M K Unit} {S S' : ι → Prop} (h : Writes op addr v V m act S)
    (hS : ∀ x, S x ↔ S' x) : Writes op addr v V m act S' := by
  have : S = S' := funext fun x => propext (hS x)
  exact this ▸ h

theorem writes_pure : Writes op addr v V m (pure ()) (fun _ => False) :=
  ⟨fun _ h => h.elim, fun D m' h _ _ => ⟨m', rfl, h.congr fun x => by simp⟩⟩

theorem writes_store (hout : Out addr V m) {p idx : ℕ} {x : ι} {w : K} (hx : V x)
    (haddr : p + idx = addr x) (hw : w = v x) :
    Writes op addr v V m (storeSingle op p idx w) (fun y => y = x) := by
  refine ⟨fun y hy => hy ▸ hx, fun D m' hU hD hS => ?_⟩
  have hxD : ¬ D x := hS x rfl
  obtain ⟨old, hold⟩ := hout.alloc x hx
  have hread : m' (addr x) = some old := by
    rw [← hold]
    exact hU.2 _ fun i hi he => hxD ((hout.inj x i hx (hD i hi) he) ▸ hi)
  have hread' : m' (p + idx) = some old := haddr ▸ hread
  refine ⟨_, storeSingle_eq hread', ?_, ?_⟩
  · rintro i (hi | rfl)
    · obtain ⟨o, h1, h2⟩ := hU.1 i hi
      refine ⟨o, h1, ?_⟩
      have hne : addr i ≠ p + idx := by
        rw [haddr]
        exact fun he => hxD ((hout.inj i x (hD i hi) hx he) ▸ hi)
      rw [Function.update_of_ne hne, h2]
    · exact ⟨old, hold, by rw [haddr, Function.update_self, hw]⟩
  · intro q hq
    have hne : q ≠ p + idx := by rw [haddr]; exact hq x (Or.inr rfl)
    rw [Function.update_of_ne hne]
    exact hU.2 q fun i hi => hq i (Or.inl hi)

theorem Writes.seq {a b : M K Unit} {S T : ι → Prop} (ha : Writes op addr v V m a S)
    (hb : Writes op addr v V m b T) (hd : ∀ x, S x → ¬ T x) :
    Writes op addr v V m (a >>= fun _ => b) (fun x => S x ∨ T x) := by
  refine ⟨fun x hx => hx.elim (ha.1 x) (hb.1 x), fun D m' hU hD hS => ?_⟩
  obtain ⟨m1, e1, h1⟩ := ha.2 D m' hU hD fun x hx => hS x (Or.inl hx)
  obtain ⟨m2, e2, h2⟩ := hb.2 _ m1 h1 (fun x hx => hx.elim (hD x) (ha.1 x))
    fun x hx h => h.elim (hS x (Or.inr hx)) fun h => hd x h hx
  exact ⟨m2, by rw [bind_eq e1, e2], h2.congr fun x => or_assoc⟩

/-- Actions that begin by reading cells outside the output. -/
theorem writes_of_read {a : M K Unit} {S : ι → Prop} {b : M K Unit}
    (hb : Writes op addr v V m b S)
    (h : ∀ m', (∀ q, (∀ x, V x → q ≠ addr x) → m' q = m q) → a m' = b m') :
    Writes op addr v V m a S :=
  ⟨hb.1, fun D m' hU hD hS => by
    obtain ⟨m'', e, h'⟩ := hb.2 D m' hU hD hS
    exact ⟨m'', (h m' fun q hq => hU.read hD hq).trans e, h'⟩⟩

theorem forM_inv {n step : ℕ} {body : ℕ → M K Unit} (hstep : 0 < step) (hn : step ∣ n)
    (I : ℕ → Mem K → Prop)
    (hbody : ∀ i m, i < n → step ∣ i → I i m → ∃ m', body i m = some ((), m') ∧ I (i + step) m')
    {m : Mem K} (h0 : I 0 m) : ∃ m', forM n step body m = some ((), m') ∧ I n m' := by
  obtain ⟨i, m', e, ⟨h1, h2, h3⟩, h4⟩ := whileM_inv
    (cond := fun i : ℕ => decide (i < n))
    (body := fun i => do body i; pure (i + step))
    (fun i m => I i m ∧ i ≤ n ∧ step ∣ i) (fun i => n - i)
    (by
      rintro i m ⟨h1, h2, h3⟩ hc
      have hc : i < n := by simpa using hc
      obtain ⟨m', e, h'⟩ := hbody i m hc h3 h1
      have hle : i + step ≤ n := by
        have : step ∣ n - i := Nat.dvd_sub hn h3
        have := Nat.le_of_dvd (by omega) this
        omega
      exact ⟨i + step, m', by rw [bind_eq e]; rfl,
        ⟨h', hle, Nat.dvd_add h3 (dvd_refl _)⟩, by omega⟩)
    n 0 m ⟨h0, Nat.zero_le _, dvd_zero _⟩ (by simp)
  have hi : i = n := by
    have : ¬ i < n := by simpa using h4
    omega
  exact ⟨m', by rw [forM, bind_eq e]; rfl, hi ▸ h1⟩

theorem writes_forM {n step : ℕ} (hstep : 0 < step) (hn : step ∣ n) {body : ℕ → M K Unit}
    {S : ℕ → ι → Prop} (hb : ∀ i, i < n → step ∣ i → Writes op addr v V m (body i) (S i))
    (hd : ∀ i j x, i < j → S i x → ¬ S j x) :
    Writes op addr v V m (forM n step body) (fun x => ∃ i, i < n ∧ step ∣ i ∧ S i x) := by
  refine ⟨fun x ⟨i, h1, h2, h3⟩ => (hb i h1 h2).1 x h3, fun D m' hU hD hS => ?_⟩
  exact forM_inv hstep hn
    (fun i m'' => Upd op addr v (fun x => D x ∨ ∃ j, j < i ∧ j < n ∧ step ∣ j ∧ S j x) m m'')
    (by
      intro i m1 hi hdi h1
      obtain ⟨m2, e2, h2⟩ := (hb i hi hdi).2 _ m1 h1
        (by
          rintro x (hx | ⟨j, -, hj, hdj, hx⟩)
          · exact hD x hx
          · exact (hb j hj hdj).1 x hx)
        (by
          rintro x hx (h | ⟨j, hj, -, -, h⟩)
          · exact hS x ⟨i, hi, hdi, hx⟩ h
          · exact hd j i x hj h hx)
      refine ⟨m2, e2, h2.congr fun x => ?_⟩
      constructor
      · rintro ((h | ⟨j, h1, h2, h3, h4⟩) | h)
        · exact Or.inl h
        · exact Or.inr ⟨j, by omega, h2, h3, h4⟩
        · exact Or.inr ⟨i, by omega, hi, hdi, h⟩
      · rintro (h | ⟨j, h1, h2, h3, h4⟩)
        · exact Or.inl (Or.inl h)
        · by_cases hji : j < i
          · exact Or.inl (Or.inr ⟨j, hji, h2, h3, h4⟩)
          · have : j = i := by
              have hd' : step ∣ j - i := Nat.dvd_sub h3 hdi
              rcases Nat.eq_zero_or_pos (j - i) with h0 | h0
              · omega
              · have := Nat.le_of_dvd h0 hd'
                omega
            exact Or.inr (this ▸ h4))
    (hU.congr fun x => by simp) |>.imp fun m2 h => ⟨h.1, h.2.congr fun x => by
      constructor
      · rintro (h | ⟨j, h1, -, h3, h4⟩)
        · exact Or.inl h
        · exact Or.inr ⟨j, h1, h3, h4⟩
      · rintro (h | ⟨j, h1, h3, h4⟩)
        · exact Or.inl h
        · exact Or.inr ⟨j, h1, h1, h3, h4⟩⟩

/-- Two neighbouring entries. -/
theorem writes_pair (hout : Out addr V m) {p idx : ℕ} {x y : ι} {w1 w2 : K} (hx : V x) (hy : V y)
    (hxy : x ≠ y) (h1 : p + idx = addr x) (h2 : p + (idx + 1) = addr y) (e1 : w1 = v x)
    (e2 : w2 = v y) :
    Writes op addr v V m (storePair op p idx w1 w2) (fun z => z = x ∨ z = y) := by
  rw [storePair_seq]
  exact (writes_store hout hx h1 e1).seq (writes_store hout hy h2 e2)
    fun z hz hz' => hxy (hz.symm.trans hz')

/-- Four neighbouring entries. -/
theorem writes_four (hout : Out addr V m) {c : ℕ} {r : Reg K} (x : ℕ → ι) (hx : ∀ j < 4, V (x j))
    (hne : ∀ i j, i < j → j < 4 → x i ≠ x j) (ha : ∀ j < 4, c + j = addr (x j))
    (e0 : r.c0 = v (x 0)) (e1 : r.c1 = v (x 1)) (e2 : r.c2 = v (x 2)) (e3 : r.c3 = v (x 3)) :
    Writes op addr v V m (store1x4 op c r) (fun z => ∃ j < 4, z = x j) := by
  rw [store1x4_seq]
  have w0 := writes_store (op := op) hout (hx 0 (by decide)) (ha 0 (by decide)) e0
  have w1 := writes_store (op := op) hout (hx 1 (by decide)) (ha 1 (by decide)) e1
  have w2 := writes_store (op := op) hout (hx 2 (by decide)) (ha 2 (by decide)) e2
  have w3 := writes_store (op := op) hout (hx 3 (by decide)) (ha 3 (by decide)) e3
  refine (w0.seq (w1.seq (w2.seq w3 ?_) ?_) ?_).congr ?_
  · intro z h h'; exact hne 2 3 (by decide) (by decide) (h.symm.trans h')
  · rintro z h (h' | h')
    · exact hne 1 2 (by decide) (by decide) (h.symm.trans h')
    · exact hne 1 3 (by decide) (by decide) (h.symm.trans h')
  · rintro z h (h' | h' | h')
    · exact hne 0 1 (by decide) (by decide) (h.symm.trans h')
    · exact hne 0 2 (by decide) (by decide) (h.symm.trans h')
    · exact hne 0 3 (by decide) (by decide) (h.symm.trans h')
  · intro z
    constructor
    · rintro (h | h | h | h)
      · exact ⟨0, by decide, h⟩
      · exact ⟨1, by decide, h⟩
      · exact ⟨2, by decide, h⟩
      · exact ⟨3, by decide, h⟩
    · rintro ⟨j, hj, h⟩
      interval_cases j <;> simp [h]

/-- The control structure shared by the four functions: an odd remainder, a remainder of two and
the multiples of four. -/
theorem writes_blocked {n : ℕ} {odd pair main : M K Unit} {S : ℕ → ι → Prop}
    (hS : ∀ i j x, i ≠ j → S i x → ¬ S j x)
    (hodd : n % 2 = 1 → Writes op addr v V m odd (S (n - 1)))
    (hpair : 2 ≤ n % 4 → Writes op addr v V m pair (fun x => S (n - n % 4) x ∨ S (n - n % 4 + 1) x))
    (hmain : Writes op addr v V m main (fun x => ∃ j < n - n % 4, S j x)) :
    Writes op addr v V m
      (if n &&& 1 ≠ 0 then
        (do odd; if n = 1 then pure () else
              if n &&& 2 ≠ 0 then (do pair; if n < 4 then pure () else main) else main)
        else if n &&& 2 ≠ 0 then (do pair; if n < 4 then pure () else main) else main)
      (fun x => ∃ j < n, S j x) := by
  -- the part after the odd column
  have hrest : Writes op addr v V m
      (if n &&& 2 ≠ 0 then (do pair; if n < 4 then pure () else main) else main)
      (fun x => ∃ j < n - n % 2, S j x) := by
    by_cases h2 : n &&& 2 ≠ 0
    · rw [if_pos h2]
      have h2' : 2 ≤ n % 4 := (and_two_ne n).1 h2
      by_cases h4 : n < 4
      · rw [if_pos h4]
        refine ((hpair h2').seq writes_pure (fun _ _ h => h)).congr fun x => ?_
        have hn : n % 4 = n := Nat.mod_eq_of_lt h4
        have e : n - n % 2 = 2 := by omega
        rw [e, hn, Nat.sub_self]
        constructor
        · rintro ((h | h) | h)
          · exact ⟨0, by decide, h⟩
          · exact ⟨1, by decide, h⟩
          · exact h.elim
        · rintro ⟨j, hj, h⟩
          interval_cases j
          · exact Or.inl (Or.inl h)
          · exact Or.inl (Or.inr h)
      · rw [if_neg h4]
        refine ((hpair h2').seq hmain ?_).congr fun x => ?_
        · rintro x h ⟨j, hj, h'⟩
          rcases h with h | h
          · exact hS _ _ x (by omega) h h'
          · exact hS _ _ x (by omega) h h'
        · constructor
          · rintro ((h | h) | ⟨j, hj, h⟩)
            · exact ⟨_, by omega, h⟩
            · exact ⟨_, by omega, h⟩
            · exact ⟨j, by omega, h⟩
          · rintro ⟨j, hj, h⟩
            by_cases h1 : j < n - n % 4
            · exact Or.inr ⟨j, h1, h⟩
            · have : j = n - n % 4 ∨ j = n - n % 4 + 1 := by omega
              rcases this with rfl | rfl
              · exact Or.inl (Or.inl h)
              · exact Or.inl (Or.inr h)
    · rw [if_neg h2]
      have h2' : ¬ 2 ≤ n % 4 := fun h => h2 ((and_two_ne n).2 h)
      refine hmain.congr fun x => ?_
      have e : n - n % 4 = n - n % 2 := by omega
      rw [e]
  by_cases h1 : n &&& 1 ≠ 0
  · rw [if_pos h1]
    have h1' : n % 2 = 1 := (and_one_ne n).1 h1
    by_cases hn : n = 1
    · rw [if_pos hn]
      refine ((hodd h1').seq writes_pure (fun _ _ h => h)).congr fun x => ?_
      subst hn
      constructor
      · rintro (h | h)
        · exact ⟨0, by decide, h⟩
        · exact h.elim
      · rintro ⟨j, hj, h⟩
        interval_cases j
        exact Or.inl h
    · rw [if_neg hn]
      refine ((hodd h1').seq hrest ?_).congr fun x => ?_
      · rintro x h ⟨j, hj, h'⟩
        exact hS _ _ x (by omega) h h'
      · constructor
        · rintro (h | ⟨j, hj, h⟩)
          · exact ⟨_, by omega, h⟩
          · exact ⟨j, by omega, h⟩
        · rintro ⟨j, hj, h⟩
          by_cases hj' : j < n - n % 2
          · exact Or.inr ⟨j, hj', h⟩
          · have : j = n - 1 := by omega
            exact Or.inl (this ▸ h)
  · rw [if_neg h1]
    have h1' : ¬ n % 2 = 1 := fun h => h1 ((and_one_ne n).2 h)
    have e : n - n % 2 = n := by omega
    rw [e] at hrest
    exact hrest

/-- From the calculus to the specification. -/
theorem Writes.run {act : M K Unit} {S : ι → Prop} (h : Writes op addr v V m act S) :
    ∃ m', act m = some ((), m') ∧ Upd op addr v S m m' := by
  obtain ⟨m', e, h'⟩ := h.2 (fun _ => False) m ⟨fun _ h => h.elim, fun _ _ => rfl⟩
    (fun _ h => h.elim) (fun _ _ h => h)
  exact ⟨m', e, h'.congr fun x => by simp⟩

end

end Ceres.SmallBlas
