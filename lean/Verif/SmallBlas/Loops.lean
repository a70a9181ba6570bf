import Verif.SmallBlas.Spec
import Mathlib.Algebra.BigOperators.Group.Finset.Basic
import Mathlib.Tactic.Ring
import Mathlib.Tactic.IntervalCases
import Mathlib.Data.Nat.Bitwise

/-!
# The unrolled loops compute inner products
-/

namespace Ceres.SmallBlas

open Finset

variable {K : Type} {α β S : Type}

theorem bind_eq {x : M K α} {f : α → M K β} {m m' : Mem K} {a : α} (h : x m = some (a, m')) :
    (x >>= f) m = f a m' := by
  show (x m).bind _ = _
  rw [h]; rfl

theorem pure_eq (a : α) (m : Mem K) : (pure a : M K α) m = some (a, m) := rfl

theorem load_eq {m : Mem K} {p : ℕ} {x : K} (h : m p = some x) : load p m = some (x, m) := by
  simp [load, h]

/-- Rule for `while` loops with a measure. -/
theorem whileM_inv {cond : S → Bool} {body : S → M K S} (I : S → Mem K → Prop) (μ : S → ℕ)
    (step : ∀ s m, I s m → cond s = true →
      ∃ s' m', body s m = some (s', m') ∧ I s' m' ∧ μ s' < μ s) :
    ∀ n s m, I s m → μ s ≤ n →
      ∃ s' m', whileM cond body n s m = some (s', m') ∧ I s' m' ∧ cond s' = false := by
  intro n
  induction n with
  | zero =>
    intro s m hI hμ
    cases hc : cond s with
    | true =>
      obtain ⟨s', m', -, -, h⟩ := step s m hI hc
      omega
    | false => exact ⟨s, m, by simp [whileM, hc, pure_eq], hI, hc⟩
  | succ n ih =>
    intro s m hI hμ
    cases hc : cond s with
    | true =>
      obtain ⟨s', m', hb, hI', h⟩ := step s m hI hc
      obtain ⟨s'', m'', hw, hI'', hc''⟩ := ih s' m' hI' (by omega)
      exact ⟨s'', m'', by rw [whileM, if_pos hc, bind_eq hb, hw], hI'', hc''⟩
    | false => exact ⟨s, m, by simp [whileM, hc, pure_eq], hI, hc⟩

/-- Rule for loops that only read. -/
theorem whileM_read {cond : S → Bool} {body : S → M K S} {m : Mem K} (I : S → Prop) (μ : S → ℕ)
    (step : ∀ s, I s → cond s = true → ∃ s', body s m = some (s', m) ∧ I s' ∧ μ s' < μ s)
    {n : ℕ} {s : S} (hI : I s) (hμ : μ s ≤ n) :
    ∃ s', whileM cond body n s m = some (s', m) ∧ I s' ∧ cond s' = false := by
  obtain ⟨s', m', h1, ⟨h2, h3⟩, h4⟩ :=
    whileM_inv (cond := cond) (body := body) (fun s m' => I s ∧ m' = m) μ
      (by
        rintro s m' ⟨hI, rfl⟩ hc
        obtain ⟨s', h1, h2, h3⟩ := step s hI hc
        exact ⟨s', m', h1, ⟨h2, rfl⟩, h3⟩) n s m ⟨hI, rfl⟩ hμ
  subst h3
  exact ⟨s', h1, h2, h4⟩

/-! ### Bit masks -/

theorem and_three (n : ℕ) : n &&& 3 = n % 4 := Nat.and_two_pow_sub_one_eq_mod n 2

theorem colR_eq (n : ℕ) : colR n = n % 4 := and_three n

theorem colM_eq (n : ℕ) : colM n = n - n % 4 := by rw [colM, colR_eq]

theorem mask4_eq (n : ℕ) : mask4 n = n - n % 4 := by
  have h : n - n % 4 = n / 4 * 4 := by omega
  rw [h, mask4]
  apply Nat.eq_of_testBit_eq
  intro i
  rw [Nat.testBit_ldiff]
  have h3 : (4 - 1 : ℕ) = 2 ^ 2 - 1 := rfl
  rw [h3, Nat.testBit_two_pow_sub_one]
  have h4 : n / 4 * 4 = 2 ^ 2 * (n / 2 ^ 2) := by ring
  rw [h4, Nat.testBit_two_pow_mul, Nat.testBit_div_two_pow]
  by_cases hi : 2 ≤ i
  · have : ¬ i < 2 := by omega
    simp [hi, Nat.sub_add_cancel hi]
  · have : i < 2 := by omega
    simp [hi, this]

theorem and_one_ne (n : ℕ) : n &&& 1 ≠ 0 ↔ n % 2 = 1 := by
  rw [Nat.and_one_is_mod]; omega

theorem and_two_ne (n : ℕ) : n &&& 2 ≠ 0 ↔ 2 ≤ n % 4 := by
  have h : n &&& 2 = (n % 4) &&& 2 := by
    rw [← and_three, Nat.and_assoc]
    rfl
  rw [h]
  have : n % 4 < 4 := Nat.mod_lt _ (by decide)
  generalize n % 4 = r at *
  interval_cases r <;> decide

variable [Ring K]

/-! ### Remainder loops -/

theorem single_eq {m : Mem K} {n pa sa pb sb : ℕ} {f g : ℕ → K}
    (ha : ∀ k < n, m (pa + k * sa) = some (f k)) (hb : ∀ k < n, m (pb + k * sb) = some (g k)) :
    single n pa sa pb sb m = some (∑ k ∈ range n, f k * g k, m) := by
  unfold single
  obtain ⟨t, h1, ⟨h2, h3, -, -⟩, h5⟩ := whileM_read (m := m)
    (cond := fun t : Tmp K => decide (t.k < n))
    (body := fun t => do
      let x ← load t.pa
      let y ← load t.pb
      pure { t with t1 := t.t1 + x * y, k := t.k + 1, pa := t.pa + sa, pb := t.pb + sb })
    (I := fun t => t.k ≤ n ∧ t.t1 = ∑ k ∈ range t.k, f k * g k ∧
      t.pa = pa + t.k * sa ∧ t.pb = pb + t.k * sb)
    (fun t => n - t.k)
    (by
      rintro t ⟨h1, h2, h3, h4⟩ hc
      have hc : t.k < n := by simpa using hc
      have e1 : m t.pa = some (f t.k) := by rw [h3]; exact ha _ hc
      have e2 : m t.pb = some (g t.k) := by rw [h4]; exact hb _ hc
      refine ⟨_, by rw [bind_eq (load_eq e1), bind_eq (load_eq e2)]; rfl, ⟨?_, ?_, ?_, ?_⟩, ?_⟩
      · exact hc
      · simp only [h2, sum_range_succ]
      · simp only [h3]; ring
      · simp only [h4]; ring
      · simp only; omega)
    (n := n) (s := { t1 := 0, t2 := 0, k := 0, pa := pa, pb := pb })
    ⟨Nat.zero_le _, by simp, by simp, by simp⟩ (by simp)
  rw [bind_eq h1]
  have hk : t.k = n := by
    have : ¬ t.k < n := by simpa using h5
    omega
  rw [h3, hk]; rfl

theorem pairB_eq {m : Mem K} {n pa sa pb sb : ℕ} {f g h : ℕ → K}
    (ha : ∀ k < n, m (pa + k * sa) = some (f k)) (hb : ∀ k < n, m (pb + k * sb) = some (g k))
    (hc : ∀ k < n, m (pb + k * sb + 1) = some (h k)) :
    pairB n pa sa pb sb m =
      some ((∑ k ∈ range n, f k * g k, ∑ k ∈ range n, f k * h k), m) := by
  unfold pairB
  obtain ⟨t, h1, ⟨h2, h3, h4, -, -⟩, h5⟩ := whileM_read (m := m)
    (cond := fun t : Tmp K => decide (t.k < n))
    (body := fun t => do
      let av ← load t.pa
      let y0 ← load t.pb
      let y1 ← load (t.pb + 1)
      pure { t1 := t.t1 + av * y0, t2 := t.t2 + av * y1, k := t.k + 1,
             pa := t.pa + sa, pb := t.pb + sb })
    (I := fun t => t.k ≤ n ∧ t.t1 = ∑ k ∈ range t.k, f k * g k ∧
      t.t2 = ∑ k ∈ range t.k, f k * h k ∧
      t.pa = pa + t.k * sa ∧ t.pb = pb + t.k * sb)
    (fun t => n - t.k)
    (by
      rintro t ⟨h1, h2, h2', h3, h4⟩ hk
      have hk : t.k < n := by simpa using hk
      have e1 : m t.pa = some (f t.k) := by rw [h3]; exact ha _ hk
      have e2 : m t.pb = some (g t.k) := by rw [h4]; exact hb _ hk
      have e3 : m (t.pb + 1) = some (h t.k) := by rw [h4]; exact hc _ hk
      refine ⟨_, by rw [bind_eq (load_eq e1), bind_eq (load_eq e2), bind_eq (load_eq e3)]; rfl,
        ⟨?_, ?_, ?_, ?_, ?_⟩, ?_⟩
      · exact hk
      · simp only [h2, sum_range_succ]
      · simp only [h2', sum_range_succ]
      · simp only [h3]; ring
      · simp only [h4]; ring
      · simp only; omega)
    (n := n) (s := { t1 := 0, t2 := 0, k := 0, pa := pa, pb := pb })
    ⟨Nat.zero_le _, by simp, by simp, by simp, by simp⟩ (by simp)
  rw [bind_eq h1]
  have hk : t.k = n := by
    have : ¬ t.k < n := by simpa using h5
    omega
  rw [h3, h4, hk]; rfl

theorem pairA_eq {m : Mem K} {n pa gap sa pb : ℕ} {f g h : ℕ → K}
    (ha : ∀ k < n, m (pa + k * sa) = some (f k))
    (hc : ∀ k < n, m (pa + k * sa + gap) = some (h k))
    (hb : ∀ k < n, m (pb + k) = some (g k)) :
    pairA n pa gap sa pb m =
      some ((∑ k ∈ range n, f k * g k, ∑ k ∈ range n, h k * g k), m) := by
  unfold pairA
  obtain ⟨t, h1, ⟨h2, h3, h4, -, -⟩, h5⟩ := whileM_read (m := m)
    (cond := fun t : Tmp K => decide (t.k < n))
    (body := fun t => do
      let bv ← load t.pb
      let x0 ← load t.pa
      let x1 ← load (t.pa + gap)
      pure { t1 := t.t1 + x0 * bv, t2 := t.t2 + x1 * bv, k := t.k + 1,
             pa := t.pa + sa, pb := t.pb + 1 })
    (I := fun t => t.k ≤ n ∧ t.t1 = ∑ k ∈ range t.k, f k * g k ∧
      t.t2 = ∑ k ∈ range t.k, h k * g k ∧
      t.pa = pa + t.k * sa ∧ t.pb = pb + t.k)
    (fun t => n - t.k)
    (by
      rintro t ⟨h1, h2, h2', h3, h4⟩ hk
      have hk : t.k < n := by simpa using hk
      have e1 : m t.pa = some (f t.k) := by rw [h3]; exact ha _ hk
      have e2 : m t.pb = some (g t.k) := by rw [h4]; exact hb _ hk
      have e3 : m (t.pa + gap) = some (h t.k) := by rw [h3]; exact hc _ hk
      refine ⟨_, by rw [bind_eq (load_eq e2), bind_eq (load_eq e1), bind_eq (load_eq e3)]; rfl,
        ⟨?_, ?_, ?_, ?_, ?_⟩, ?_⟩
      · exact hk
      · simp only [h2, sum_range_succ]
      · simp only [h2', sum_range_succ]
      · simp only [h3]; ring
      · simp only [h4]; ring
      · simp only; omega)
    (n := n) (s := { t1 := 0, t2 := 0, k := 0, pa := pa, pb := pb })
    ⟨Nat.zero_le _, by simp, by simp, by simp, by simp⟩ (by simp)
  rw [bind_eq h1]
  have hk : t.k = n := by
    have : ¬ t.k < n := by simpa using h5
    omega
  rw [h3, h4, hk]; rfl

/-! ### Unrolled kernels -/

/-- `cvec4` after `n` terms. -/
def Sums (f : ℕ → K) (g : ℕ → ℕ → K) (n : ℕ) (r : Reg K) : Prop :=
  r.c0 = ∑ k ∈ range n, f k * g k 0 ∧ r.c1 = ∑ k ∈ range n, f k * g k 1 ∧
  r.c2 = ∑ k ∈ range n, f k * g k 2 ∧ r.c3 = ∑ k ∈ range n, f k * g k 3

/-- The same with the factors in the other order. -/
def Sums' (f : ℕ → ℕ → K) (g : ℕ → K) (n : ℕ) (r : Reg K) : Prop :=
  r.c0 = ∑ k ∈ range n, f 0 k * g k ∧ r.c1 = ∑ k ∈ range n, f 1 k * g k ∧
  r.c2 = ∑ k ∈ range n, f 2 k * g k ∧ r.c3 = ∑ k ∈ range n, f 3 k * g k

theorem unroll4_inv {m : Mem K} {f : Reg K → M K (Reg K)} {N : ℕ} (I : ℕ → Reg K → Prop)
    (step : ∀ n r, n < N → I n r → ∃ r', f r m = some (r', m) ∧ I (n + 1) r')
    {n : ℕ} {r : Reg K} (hn : n + 4 ≤ N) (h : I n r) :
    ∃ r', unroll4 f r m = some (r', m) ∧ I (n + 4) r' := by
  obtain ⟨r1, e1, h1⟩ := step n r (by omega) h
  obtain ⟨r2, e2, h2⟩ := step (n + 1) r1 (by omega) h1
  obtain ⟨r3, e3, h3⟩ := step (n + 2) r2 (by omega) h2
  obtain ⟨r4, e4, h4⟩ := step (n + 3) r3 (by omega) h3
  exact ⟨r4, by rw [unroll4, bind_eq e1, bind_eq e2, bind_eq e3, e4], h4⟩

theorem twoLoops_inv {m : Mem K} {mul : Reg K → M K (Reg K)} {N : ℕ} (I : ℕ → Reg K → Prop)
    (hk : ∀ n r x, I n r → I n { r with k := x })
    (step : ∀ n r, n < N → I n r → ∃ r', mul r m = some (r', m) ∧ I (n + 1) r' ∧ r'.k = r.k)
    {r : Reg K} (h : I 0 r) :
    ∃ r', twoLoops N mul r m = some (r', m) ∧ I N r' := by
  obtain ⟨r1, e1, ⟨h1, h2, h3⟩, h4⟩ := whileM_read (m := m)
    (cond := fun r : Reg K => decide (r.k < colM N))
    (body := thenStep 4 (unroll4 mul))
    (I := fun r => I r.k r ∧ r.k ≤ colM N ∧ r.k % 4 = 0) (fun r => N - r.k)
    (by
      rintro r ⟨h1, h2, h3⟩ hc
      have hc : r.k < colM N := by simpa using hc
      rw [colM_eq] at *
      obtain ⟨r', e, h', hk'⟩ := unroll4_inv (m := m) (f := mul) (N := N)
        (fun n r' => I n r' ∧ r'.k = r.k)
        (fun n r' hn hr => by
          obtain ⟨r'', e, a, b⟩ := step n r' hn hr.1
          exact ⟨r'', e, a, b.trans hr.2⟩) (n := r.k) (r := r) (by omega) ⟨h1, rfl⟩
      refine ⟨{ r' with k := r'.k + 4 }, by rw [thenStep, bind_eq e]; rfl, ⟨?_, ?_, ?_⟩, ?_⟩
      · simp only [hk']; exact hk _ _ _ h'
      · simp only [hk']; omega
      · simp only [hk']; omega
      · simp only [hk']; omega)
    (n := N) (s := { r with k := 0 }) ⟨hk _ _ _ h, Nat.zero_le _, rfl⟩ (by simp)
  have hr1 : r1.k = colM N := by
    have : ¬ r1.k < colM N := by simpa using h4
    omega
  have hle : colM N ≤ N := by rw [colM_eq]; omega
  obtain ⟨r2, e2, ⟨h1', h2'⟩, h4'⟩ := whileM_read (m := m)
    (cond := fun r : Reg K => decide (r.k < N))
    (body := thenStep 1 mul)
    (I := fun r => I r.k r ∧ r.k ≤ N) (fun r => N - r.k)
    (by
      rintro r ⟨h1, h2⟩ hc
      have hc : r.k < N := by simpa using hc
      obtain ⟨r', e, a, b⟩ := step r.k r hc h1
      refine ⟨{ r' with k := r'.k + 1 }, by rw [thenStep, bind_eq e]; rfl, ⟨?_, ?_⟩, ?_⟩
      · simp only [b]; exact hk _ _ _ a
      · simp only [b]; omega
      · simp only [b]; omega)
    (n := N) (s := { r1 with k := colM N }) ⟨hk _ _ _ (hr1 ▸ h1), hle⟩ (by simp)
  have hr2 : r2.k = N := by
    have : ¬ r2.k < N := by simpa using h4'
    omega
  exact ⟨r2, by rw [twoLoops, bind_eq e1, e2], hr2 ▸ h1'⟩

theorem mmmMul_step {m : Mem K} {N a b sB : ℕ} {f : ℕ → K} {g : ℕ → ℕ → K}
    (ha : ∀ k < N, m (a + k) = some (f k))
    (hb : ∀ k < N, ∀ j < 4, m (b + k * sB + j) = some (g k j)) (n : ℕ) (r : Reg K) (hn : n < N)
    (h : Sums f g n r ∧ r.k = n ∧ r.bi = n * sB) :
    ∃ r', mmmMul a b sB r m = some (r', m) ∧
      (Sums f g (n + 1) r' ∧ r'.k = n + 1 ∧ r'.bi = (n + 1) * sB) := by
  obtain ⟨⟨s0, s1, s2, s3⟩, hk, hbi⟩ := h
  have e : m (a + r.k) = some (f n) := by rw [hk]; exact ha n hn
  have e0 : m (b + r.bi) = some (g n 0) := by rw [hbi]; exact hb n hn 0 (by decide)
  have e1 : m (b + r.bi + 1) = some (g n 1) := by rw [hbi]; exact hb n hn 1 (by decide)
  have e2 : m (b + r.bi + 2) = some (g n 2) := by rw [hbi]; exact hb n hn 2 (by decide)
  have e3 : m (b + r.bi + 3) = some (g n 3) := by rw [hbi]; exact hb n hn 3 (by decide)
  refine ⟨_, by rw [mmmMul, bind_eq (load_eq e), bind_eq (load_eq e0), bind_eq (load_eq e1),
    bind_eq (load_eq e2), bind_eq (load_eq e3)]; rfl, ⟨?_, ?_, ?_, ?_⟩, ?_, ?_⟩
  · simp only [s0, sum_range_succ]
  · simp only [s1, sum_range_succ]
  · simp only [s2, sum_range_succ]
  · simp only [s3, sum_range_succ]
  · simp only [hk]
  · simp only [hbi]; ring

/-- `MMM_mat1x4` stores four inner products. -/
theorem mmmMat1x4_eq {m : Mem K} {op : ℤ} {N a b sB c : ℕ} {f : ℕ → K} {g : ℕ → ℕ → K}
    (ha : ∀ k < N, m (a + k) = some (f k))
    (hb : ∀ k < N, ∀ j < 4, m (b + k * sB + j) = some (g k j)) :
    ∃ r, Sums f g N r ∧ mmmMat1x4 op N a b sB c m = store1x4 op c r m := by
  have hle : colM N ≤ N := by rw [colM_eq]; omega
  obtain ⟨r1, e1, ⟨h1, h2, h3, h5⟩, h4⟩ := whileM_read (m := m)
    (cond := fun r : Reg K => decide (r.k < colM N))
    (body := unroll4 (mmmMul a b sB))
    (I := fun r => Sums f g r.k r ∧ r.bi = r.k * sB ∧ r.k ≤ colM N ∧ r.k % 4 = 0) (fun r => N - r.k)
    (by
      rintro r ⟨h1, h2, h3, h4⟩ hc
      have hc : r.k < colM N := by simpa using hc
      rw [colM_eq] at *
      obtain ⟨r', e, h', hk', hb'⟩ := unroll4_inv (m := m) (f := mmmMul a b sB) (N := N)
        (fun n r' => Sums f g n r' ∧ r'.k = n ∧ r'.bi = n * sB)
        (fun n r' hn hr => mmmMul_step ha hb n r' hn hr) (n := r.k) (r := r) (by omega)
        ⟨h1, rfl, h2⟩
      refine ⟨r', e, ⟨?_, ?_, ?_, ?_⟩, ?_⟩
      · rw [hk']; exact h'
      · rw [hk']; exact hb'
      · rw [hk']; omega
      · rw [hk']; omega
      · simp only [hk']; omega)
    (n := N) (s := { (header a b : Reg K) with k := 0 })
    ⟨by simp [Sums, header], by simp [header], Nat.zero_le _, rfl⟩ (by simp)
  have hr1 : r1.k = colM N := by
    have : ¬ r1.k < colM N := by simpa using h4
    omega
  obtain ⟨r2, e2, ⟨h1', h2', h3'⟩, h4'⟩ := whileM_read (m := m)
    (cond := fun r : Reg K => decide (r.k < N))
    (body := mmmMul a b sB)
    (I := fun r => Sums f g r.k r ∧ r.bi = r.k * sB ∧ r.k ≤ N) (fun r => N - r.k)
    (by
      rintro r ⟨h1, h2, h3⟩ hc
      have hc : r.k < N := by simpa using hc
      obtain ⟨r', e, h', hk', hb'⟩ := mmmMul_step ha hb r.k r hc ⟨h1, rfl, h2⟩
      refine ⟨r', e, ⟨?_, ?_, ?_⟩, ?_⟩
      · rw [hk']; exact h'
      · rw [hk']; exact hb'
      · omega
      · simp only [hk']; omega)
    (n := N) (s := { r1 with k := colM N }) ⟨hr1 ▸ h1, hr1 ▸ h2, hle⟩ (by simp)
  have hr2 : r2.k = N := by
    have : ¬ r2.k < N := by simpa using h4'
    omega
  exact ⟨r2, hr2 ▸ h1', by rw [mmmMat1x4, bind_eq e1, bind_eq e2]⟩

/-- `MTM_mat1x4` stores four inner products. -/
theorem mtmMat1x4_eq {m : Mem K} {op : ℤ} {N a sA b sB c : ℕ} {f : ℕ → K} {g : ℕ → ℕ → K}
    (ha : ∀ k < N, m (a + k * sA) = some (f k))
    (hb : ∀ k < N, ∀ j < 4, m (b + k * sB + j) = some (g k j)) :
    ∃ r, Sums f g N r ∧ mtmMat1x4 op N a sA b sB c m = store1x4 op c r m := by
  obtain ⟨r, e, h, -, -⟩ := twoLoops_inv (m := m) (mul := mtmMul a sA b sB) (N := N)
    (fun n r => Sums f g n r ∧ r.ai = n * sA ∧ r.bi = n * sB)
    (fun n r x h => h)
    (by
      rintro n r hn ⟨⟨s0, s1, s2, s3⟩, hai, hbi⟩
      have e : m (a + r.ai) = some (f n) := by rw [hai]; exact ha n hn
      have e0 : m (b + r.bi) = some (g n 0) := by rw [hbi]; exact hb n hn 0 (by decide)
      have e1 : m (b + r.bi + 1) = some (g n 1) := by rw [hbi]; exact hb n hn 1 (by decide)
      have e2 : m (b + r.bi + 2) = some (g n 2) := by rw [hbi]; exact hb n hn 2 (by decide)
      have e3 : m (b + r.bi + 3) = some (g n 3) := by rw [hbi]; exact hb n hn 3 (by decide)
      refine ⟨_, by rw [mtmMul, bind_eq (load_eq e), bind_eq (load_eq e0), bind_eq (load_eq e1),
        bind_eq (load_eq e2), bind_eq (load_eq e3)]; rfl, ⟨⟨?_, ?_, ?_, ?_⟩, ?_, ?_⟩, ?_⟩
      · simp only [s0, sum_range_succ]
      · simp only [s1, sum_range_succ]
      · simp only [s2, sum_range_succ]
      · simp only [s3, sum_range_succ]
      · simp only [hai]; ring
      · simp only [hbi]; ring
      · rfl)
    (r := header a b) ⟨by simp [Sums, header], by simp [header], by simp [header]⟩
  exact ⟨r, h, by rw [mtmMat1x4, bind_eq e]⟩

/-- `MVM_mat4x1` stores four inner products. -/
theorem mvmMat4x1_eq {m : Mem K} {op : ℤ} {N a sA b c : ℕ} {f : ℕ → ℕ → K} {g : ℕ → K}
    (ha : ∀ k < N, ∀ j < 4, m (a + j * sA + k) = some (f j k))
    (hb : ∀ k < N, m (b + k) = some (g k)) :
    ∃ r, Sums' f g N r ∧ mvmMat4x1 op N a sA b c m = store1x4 op c r m := by
  obtain ⟨r, e, h, -, -⟩ := twoLoops_inv (m := m) (mul := mvmMul sA) (N := N)
    (fun n r => Sums' f g n r ∧ r.pa = a + n ∧ r.pb = b + n)
    (fun n r x h => h)
    (by
      rintro n r hn ⟨⟨s0, s1, s2, s3⟩, hpa, hpb⟩
      have e : m r.pb = some (g n) := by rw [hpb]; exact hb n hn
      have e0 : m r.pa = some (f 0 n) := by
        rw [hpa, ← ha n hn 0 (by decide)]; congr 1; ring
      have e1 : m (r.pa + sA) = some (f 1 n) := by
        rw [hpa, ← ha n hn 1 (by decide)]; congr 1; ring
      have e2 : m (r.pa + sA * 2) = some (f 2 n) := by
        rw [hpa, ← ha n hn 2 (by decide)]; congr 1; ring
      have e3 : m (r.pa + sA * 3) = some (f 3 n) := by
        rw [hpa, ← ha n hn 3 (by decide)]; congr 1; ring
      refine ⟨_, by rw [mvmMul, bind_eq (load_eq e), bind_eq (load_eq e0), bind_eq (load_eq e1),
        bind_eq (load_eq e2), bind_eq (load_eq e3)]; rfl, ⟨⟨?_, ?_, ?_, ?_⟩, ?_, ?_⟩, ?_⟩
      · simp only [s0, sum_range_succ]
      · simp only [s1, sum_range_succ]
      · simp only [s2, sum_range_succ]
      · simp only [s3, sum_range_succ]
      · simp only [hpa]; ring
      · simp only [hpb]; ring
      · rfl)
    (r := header a b) ⟨by simp [Sums', header], by simp [header], by simp [header]⟩
  exact ⟨r, h, by rw [mvmMat4x1, bind_eq e]⟩

/-- `MTV_mat4x1` stores four inner products. -/
theorem mtvMat4x1_eq {m : Mem K} {op : ℤ} {N a sA b c : ℕ} {f : ℕ → ℕ → K} {g : ℕ → K}
    (ha : ∀ k < N, ∀ j < 4, m (a + k * sA + j) = some (f j k))
    (hb : ∀ k < N, m (b + k) = some (g k)) :
    ∃ r, Sums' f g N r ∧ mtvMat4x1 op N a sA b c m = store1x4 op c r m := by
  obtain ⟨r, e, h, -, -⟩ := twoLoops_inv (m := m) (mul := mtvMul sA) (N := N)
    (fun n r => Sums' f g n r ∧ r.pa = a + n * sA ∧ r.pb = b + n)
    (fun n r x h => h)
    (by
      rintro n r hn ⟨⟨s0, s1, s2, s3⟩, hpa, hpb⟩
      have e : m r.pb = some (g n) := by rw [hpb]; exact hb n hn
      have e0 : m r.pa = some (f 0 n) := by rw [hpa]; exact ha n hn 0 (by decide)
      have e1 : m (r.pa + 1) = some (f 1 n) := by rw [hpa]; exact ha n hn 1 (by decide)
      have e2 : m (r.pa + 2) = some (f 2 n) := by rw [hpa]; exact ha n hn 2 (by decide)
      have e3 : m (r.pa + 3) = some (f 3 n) := by rw [hpa]; exact ha n hn 3 (by decide)
      refine ⟨_, by rw [mtvMul, bind_eq (load_eq e), bind_eq (load_eq e0), bind_eq (load_eq e1),
        bind_eq (load_eq e2), bind_eq (load_eq e3)]; rfl, ⟨⟨?_, ?_, ?_, ?_⟩, ?_, ?_⟩, ?_⟩
      · simp only [s0, sum_range_succ]
      · simp only [s1, sum_range_succ]
      · simp only [s2, sum_range_succ]
      · simp only [s3, sum_range_succ]
      · simp only [hpa]; ring
      · simp only [hpb]; ring
      · rfl)
    (r := header a b) ⟨by simp [Sums', header], by simp [header], by simp [header]⟩
  exact ⟨r, h, by rw [mtvMat4x1, bind_eq e]⟩

end Ceres.SmallBlas
