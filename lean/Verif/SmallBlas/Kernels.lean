import Verif.SmallBlas.Writes
import Mathlib.Algebra.BigOperators.Fin

/-!
# The four kernels compute matrix products
-/

namespace Ceres.SmallBlas

open Finset

variable {K : Type} [Ring K]

theorem store1x4_congr {op : ℤ} {c : ℕ} {r s : Reg K} (h0 : r.c0 = s.c0) (h1 : r.c1 = s.c1)
    (h2 : r.c2 = s.c2) (h3 : r.c3 = s.c3) : store1x4 op c r = store1x4 op c s := by
  unfold store1x4; rw [h0, h1, h2, h3]

/-- Address of an entry of the output block, with natural numbers for the indices. -/
def cAddr (C startRow startCol stride : ℕ) (x : ℕ × ℕ) : ℕ :=
  C + index x.1 startRow stride startCol x.2

theorem cAddr_inj {C startRow startCol stride n : ℕ} (h : startCol + n ≤ stride) {x y : ℕ × ℕ}
    (hx : x.2 < n) (hy : y.2 < n)
    (he : cAddr C startRow startCol stride x = cAddr C startRow startCol stride y) : x = y := by
  obtain ⟨i, j⟩ := x
  obtain ⟨i', j'⟩ := y
  simp only [cAddr, index] at *
  have hs : 0 < stride := by omega
  have e : stride * (i + startRow) + (startCol + j) = stride * (i' + startRow) + (startCol + j') := by
    rw [Nat.mul_comm stride, Nat.mul_comm stride]; omega
  have hd := congrArg (· / stride) e
  have hm := congrArg (· % stride) e
  simp only [Nat.mul_add_div hs, Nat.mul_add_mod, Nat.div_eq_of_lt (show startCol + j < stride by omega),
    Nat.div_eq_of_lt (show startCol + j' < stride by omega),
    Nat.mod_eq_of_lt (show startCol + j < stride by omega),
    Nat.mod_eq_of_lt (show startCol + j' < stride by omega)] at hd hm
  have : i = i' := by omega
  have : j = j' := by omega
  simp [*]

theorem dvd_mask (n : ℕ) : 4 ∣ n - n % 4 := ⟨n / 4, by omega⟩

section

variable {op : ℤ} {m : Mem K} {A rowA colA B colB C startRow startCol stride : ℕ}
  {f g : ℕ → ℕ → K}

/-- Everything the matrix-matrix kernels need to know: `R × N` output entries. -/
structure Setting (m : Mem K) (A rowA colA B rowB colB C startRow startCol stride R : ℕ)
    (f g : ℕ → ℕ → K) : Prop where
  hA : ∀ i < rowA, ∀ j < colA, m (A + i * colA + j) = some (f i j)
  hB : ∀ i < rowB, ∀ j < colB, m (B + i * colB + j) = some (g i j)
  fit : startCol + colB ≤ stride
  alloc : ∀ i < R, ∀ j < colB, ∃ old, m (cAddr C startRow startCol stride (i, j)) = some old
  sepA : ∀ i < rowA, ∀ j < colA, ∀ i' < R, ∀ j' < colB,
    A + i * colA + j ≠ cAddr C startRow startCol stride (i', j')
  sepB : ∀ i < rowB, ∀ j < colB, ∀ i' < R, ∀ j' < colB,
    B + i * colB + j ≠ cAddr C startRow startCol stride (i', j')

variable {rowB R : ℕ}

theorem Setting.out (h : Setting m A rowA colA B rowB colB C startRow startCol stride R f g) :
    Out (cAddr C startRow startCol stride) (fun x => x.1 < R ∧ x.2 < colB) m :=
  ⟨fun _ _ hx hy he => cAddr_inj h.fit hx.2 hy.2 he, fun x hx => h.alloc x.1 hx.1 x.2 hx.2⟩

theorem Setting.readA (h : Setting m A rowA colA B rowB colB C startRow startCol stride R f g)
    {m' : Mem K}
    (hm : ∀ q, (∀ x : ℕ × ℕ, x.1 < R ∧ x.2 < colB → q ≠ cAddr C startRow startCol stride x) →
      m' q = m q) {i j : ℕ} (hi : i < rowA) (hj : j < colA) :
    m' (A + i * colA + j) = some (f i j) := by
  rw [hm _ fun x hx => h.sepA i hi j hj x.1 hx.1 x.2 hx.2]
  exact h.hA i hi j hj

theorem Setting.readB (h : Setting m A rowA colA B rowB colB C startRow startCol stride R f g)
    {m' : Mem K}
    (hm : ∀ q, (∀ x : ℕ × ℕ, x.1 < R ∧ x.2 < colB → q ≠ cAddr C startRow startCol stride x) →
      m' q = m q) {i j : ℕ} (hi : i < rowB) (hj : j < colB) :
    m' (B + i * colB + j) = some (g i j) := by
  rw [hm _ fun x hx => h.sepB i hi j hj x.1 hx.1 x.2 hx.2]
  exact h.hB i hi j hj

/-- A loop over the rows whose bodies write the columns `T`. -/
theorem writes_rows {addr : ℕ × ℕ → ℕ} {v : ℕ × ℕ → K} {V : ℕ × ℕ → Prop} {R : ℕ}
    {body : ℕ → M K Unit} {T : ℕ → Prop}
    (hb : ∀ i, i < R → Writes op addr v V m (body i) (fun x => x.1 = i ∧ T x.2)) :
    Writes op addr v V m (forM R 1 body) (fun x => x.1 < R ∧ T x.2) :=
  (writes_forM (S := fun i x => x.1 = i ∧ T x.2) Nat.one_pos (one_dvd _) (fun i hi _ => hb i hi)
    (fun i j x hij h h' => by omega)).congr fun x =>
      ⟨fun ⟨i, hi, _, he, ht⟩ => ⟨he ▸ hi, ht⟩, fun ⟨h, ht⟩ => ⟨x.1, h, one_dvd _, rfl, ht⟩⟩

/-- A loop over groups of four columns. -/
theorem writes_cols {ι : Type} {addr : ι → ℕ} {v : ι → K} {V : ι → Prop} {n : ℕ}
    {body : ℕ → M K Unit} {S : ℕ → ι → Prop} (hS : ∀ i j x, i ≠ j → S i x → ¬ S j x) (hn : 4 ∣ n)
    (hb : ∀ i, i < n → 4 ∣ i → Writes op addr v V m (body i) (fun x => ∃ j < 4, S (i + j) x)) :
    Writes op addr v V m (forM n 4 body) (fun x => ∃ j < n, S j x) := by
  refine (writes_forM (S := fun i x => 4 ∣ i ∧ ∃ j < 4, S (i + j) x) (by decide) hn
    (fun i hi hd => (hb i hi hd).congr fun x => ⟨fun h => ⟨hd, h⟩, fun h => h.2⟩)
    (fun i j x hij h h' => ?_)).congr fun x => ?_
  · obtain ⟨d, k, hk, h⟩ := h
    obtain ⟨d', k', hk', h'⟩ := h'
    exact hS _ _ x (by omega) h h'
  · constructor
    · rintro ⟨i, hi, hd, -, j, hj, h⟩
      exact ⟨i + j, by omega, h⟩
    · rintro ⟨j, hj, h⟩
      refine ⟨j - j % 4, by omega, dvd_mask j, dvd_mask j, j % 4, Nat.mod_lt _ (by decide), ?_⟩
      have : j - j % 4 + j % 4 = j := by omega
      rwa [this]

/-- The entries of the product `f * g`. -/
def prodEntry (f g : ℕ → ℕ → K) (n : ℕ) (x : ℕ × ℕ) : K := ∑ k ∈ range n, f x.1 k * g k x.2

theorem mm_writes (h : Setting m A rowA colA B colA colB C startRow startCol stride rowA f g) :
    Writes op (cAddr C startRow startCol stride) (prodEntry f g colA)
      (fun x => x.1 < rowA ∧ x.2 < colB) m
      (mmNaive op A rowA colA B colB C startRow startCol stride)
      (fun x => ∃ j < colB, x.1 < rowA ∧ x.2 = j) := by
  unfold mmNaive mmRest
  refine writes_blocked (S := fun j (x : ℕ × ℕ) => x.1 < rowA ∧ x.2 = j) (fun i j x hij h h' => ?_) ?_ ?_ ?_
  · omega
  · intro hodd
    unfold mmOdd
    refine writes_rows (T := fun j => j = colB - 1) fun row hrow => ?_
    have hj : colB - 1 < colB := by omega
    refine writes_of_read ((writes_store (x := (row, colB - 1)) h.out ⟨hrow, hj⟩ rfl rfl).congr
      fun x => by simp [Prod.ext_iff]) fun m' hm => ?_
    rw [bind_eq (single_eq (f := fun k => f row k) (g := fun k => g k (colB - 1)) ?_ ?_)]
    · rfl
    · intro k hk
      rw [Nat.mul_one]
      exact h.readA hm hrow hk
    · intro k hk
      rw [← h.readB hm hk hj]
      congr 1; omega
  · intro hpair
    unfold mmPair
    rw [← mask4_eq]
    have h1 : mask4 colB < colB := by rw [mask4_eq]; omega
    have h2 : mask4 colB + 1 < colB := by rw [mask4_eq]; omega
    refine (writes_rows (T := fun j => j = mask4 colB ∨ j = mask4 colB + 1) fun row hrow => ?_).congr
      fun x => by simp only [and_or_left]
    refine writes_of_read ((writes_pair (x := (row, mask4 colB)) (y := (row, mask4 colB + 1)) h.out
      ⟨hrow, h1⟩ ⟨hrow, h2⟩ (by simp) rfl (by simp only [cAddr, index]; omega) rfl rfl).congr
      fun x => by simp only [Prod.ext_iff, and_or_left]) fun m' hm => ?_
    rw [bind_eq (pairB_eq (f := fun k => f row k) (g := fun k => g k (mask4 colB))
      (h := fun k => g k (mask4 colB + 1)) ?_ ?_ ?_)]
    · rfl
    · intro k hk
      rw [Nat.mul_one]
      exact h.readA hm hrow hk
    · intro k hk
      rw [← h.readB hm hk h1]
      congr 1; omega
    · intro k hk
      rw [← h.readB hm hk h2]
      congr 1; omega
  · unfold mmMain
    rw [mask4_eq]
    refine writes_cols (S := fun j (x : ℕ × ℕ) => x.1 < rowA ∧ x.2 = j) (fun i j x hij h h' => by omega)
      (dvd_mask _) fun col hcol hd => ?_
    refine (writes_rows (T := fun j => ∃ k < 4, j = col + k) fun row hrow => ?_).congr
      fun x => ⟨fun ⟨a, k, b, c⟩ => ⟨k, b, a, c⟩, fun ⟨k, b, a, c⟩ => ⟨a, k, b, c⟩⟩
    have hlt : ∀ j < 4, col + j < colB := by omega
    refine writes_of_read ((writes_four (x := fun j => (row, col + j))
      (r := { c0 := prodEntry f g colA (row, col), c1 := prodEntry f g colA (row, col + 1),
              c2 := prodEntry f g colA (row, col + 2), c3 := prodEntry f g colA (row, col + 3) })
      (c := C + index row startRow stride startCol col) h.out
      (fun j hj => ⟨hrow, hlt j hj⟩) (fun i j hij _ he => ?_)
      (fun j _ => ?_) rfl rfl rfl rfl).congr fun x => ?_) fun m' hm => ?_
    · simp only [Prod.mk.injEq] at he; omega
    · simp only [cAddr, index]; omega
    · constructor
      · rintro ⟨j, hj, rfl⟩; exact ⟨rfl, j, hj, rfl⟩
      · rintro ⟨h1, j, hj, h2⟩; exact ⟨j, hj, Prod.ext h1 h2⟩
    · obtain ⟨r, ⟨s0, s1, s2, s3⟩, e⟩ := mmmMat1x4_eq (m := m') (op := op) (N := colA)
        (a := A + row * colA) (b := B + col) (sB := colB)
        (c := C + index row startRow stride startCol col)
        (f := fun k => f row k) (g := fun k j => g k (col + j))
        (fun k hk => h.readA hm hrow hk)
        (fun k hk j hj => by
          rw [← h.readB hm hk (hlt j hj)]
          congr 1; omega)
      rw [e]
      exact congrFun (store1x4_congr s0 s1 s2 s3) m'

theorem mtm_writes (h : Setting m A rowA colA B rowA colB C startRow startCol stride colA f g) :
    Writes op (cAddr C startRow startCol stride) (prodEntry (fun i k => f k i) g rowA)
      (fun x => x.1 < colA ∧ x.2 < colB) m
      (mtmNaive op A rowA colA B colB C startRow startCol stride)
      (fun x => ∃ j < colB, x.1 < colA ∧ x.2 = j) := by
  unfold mtmNaive mtmRest
  have hrA : ∀ {m' : Mem K}, (∀ q, (∀ x : ℕ × ℕ, x.1 < colA ∧ x.2 < colB →
      q ≠ cAddr C startRow startCol stride x) → m' q = m q) → ∀ row, row < colA → ∀ k < rowA,
      m' (A + row + k * colA) = some (f k row) := by
    intro m' hm row hrow k hk
    rw [← h.readA hm hk hrow]
    congr 1; omega
  refine writes_blocked (S := fun j (x : ℕ × ℕ) => x.1 < colA ∧ x.2 = j) (fun i j x hij h h' => ?_) ?_ ?_ ?_
  · omega
  · intro hodd
    unfold mtmOdd
    refine writes_rows (T := fun j => j = colB - 1) fun row hrow => ?_
    have hj : colB - 1 < colB := by omega
    refine writes_of_read ((writes_store (x := (row, colB - 1)) h.out ⟨hrow, hj⟩ rfl rfl).congr
      fun x => by simp [Prod.ext_iff]) fun m' hm => ?_
    rw [bind_eq (single_eq (f := fun k => f k row) (g := fun k => g k (colB - 1)) ?_ ?_)]
    · rfl
    · exact hrA hm row hrow
    · intro k hk
      rw [← h.readB hm hk hj]
      congr 1; omega
  · intro hpair
    unfold mtmPair
    rw [← mask4_eq]
    have h1 : mask4 colB < colB := by rw [mask4_eq]; omega
    have h2 : mask4 colB + 1 < colB := by rw [mask4_eq]; omega
    refine (writes_rows (T := fun j => j = mask4 colB ∨ j = mask4 colB + 1) fun row hrow => ?_).congr
      fun x => by simp only [and_or_left]
    refine writes_of_read ((writes_pair (x := (row, mask4 colB)) (y := (row, mask4 colB + 1)) h.out
      ⟨hrow, h1⟩ ⟨hrow, h2⟩ (by simp) rfl (by simp only [cAddr, index]; omega) rfl rfl).congr
      fun x => by simp only [Prod.ext_iff, and_or_left]) fun m' hm => ?_
    rw [bind_eq (pairB_eq (f := fun k => f k row) (g := fun k => g k (mask4 colB))
      (h := fun k => g k (mask4 colB + 1)) ?_ ?_ ?_)]
    · rfl
    · exact hrA hm row hrow
    · intro k hk
      rw [← h.readB hm hk h1]
      congr 1; omega
    · intro k hk
      rw [← h.readB hm hk h2]
      congr 1; omega
  · unfold mtmMain
    rw [mask4_eq]
    refine writes_cols (S := fun j (x : ℕ × ℕ) => x.1 < colA ∧ x.2 = j) (fun i j x hij h h' => by omega)
      (dvd_mask _) fun col hcol hd => ?_
    refine (writes_rows (T := fun j => ∃ k < 4, j = col + k) fun row hrow => ?_).congr
      fun x => ⟨fun ⟨a, k, b, c⟩ => ⟨k, b, a, c⟩, fun ⟨k, b, a, c⟩ => ⟨a, k, b, c⟩⟩
    have hlt : ∀ j < 4, col + j < colB := by omega
    refine writes_of_read ((writes_four (x := fun j => (row, col + j))
      (r := { c0 := prodEntry (fun i k => f k i) g rowA (row, col),
              c1 := prodEntry (fun i k => f k i) g rowA (row, col + 1),
              c2 := prodEntry (fun i k => f k i) g rowA (row, col + 2),
              c3 := prodEntry (fun i k => f k i) g rowA (row, col + 3) })
      (c := C + index row startRow stride startCol col) h.out
      (fun j hj => ⟨hrow, hlt j hj⟩) (fun i j hij _ he => ?_)
      (fun j _ => ?_) rfl rfl rfl rfl).congr fun x => ?_) fun m' hm => ?_
    · simp only [Prod.mk.injEq] at he; omega
    · simp only [cAddr, index]; omega
    · constructor
      · rintro ⟨j, hj, rfl⟩; exact ⟨rfl, j, hj, rfl⟩
      · rintro ⟨h1, j, hj, h2⟩; exact ⟨j, hj, Prod.ext h1 h2⟩
    · obtain ⟨r, ⟨s0, s1, s2, s3⟩, e⟩ := mtmMat1x4_eq (m := m') (op := op) (N := rowA)
        (a := A + row) (sA := colA) (b := B + col) (sB := colB)
        (c := C + index row startRow stride startCol col)
        (f := fun k => f k row) (g := fun k j => g k (col + j))
        (hrA hm row hrow)
        (fun k hk j hj => by
          rw [← h.readB hm hk (hlt j hj)]
          congr 1; omega)
      rw [e]
      exact congrFun (store1x4_congr s0 s1 s2 s3) m'

end

section

variable {op : ℤ} {m : Mem K} {A rowA colA b c n : ℕ} {f : ℕ → ℕ → K} {x : ℕ → K}

/-- Everything the matrix-vector kernels need to know: `R` output entries, `n` input entries. -/
structure VSetting (m : Mem K) (A rowA colA b n c R : ℕ) (f : ℕ → ℕ → K) (x : ℕ → K) : Prop where
  hA : ∀ i < rowA, ∀ j < colA, m (A + i * colA + j) = some (f i j)
  hB : ∀ i < n, m (b + i) = some (x i)
  alloc : ∀ i < R, ∃ old, m (c + i) = some old
  sepA : ∀ i < rowA, ∀ j < colA, ∀ i' < R, A + i * colA + j ≠ c + i'
  sepB : ∀ i < n, ∀ i' < R, b + i ≠ c + i'

variable {R : ℕ}

theorem VSetting.out (h : VSetting m A rowA colA b n c R f x) :
    Out (fun i => c + i) (fun i => i < R) m :=
  ⟨fun _ _ _ _ he => by omega, h.alloc⟩

theorem VSetting.readA (h : VSetting m A rowA colA b n c R f x) {m' : Mem K}
    (hm : ∀ q, (∀ i, i < R → q ≠ c + i) → m' q = m q) {i j : ℕ} (hi : i < rowA) (hj : j < colA) :
    m' (A + i * colA + j) = some (f i j) := by
  rw [hm _ fun y hy => h.sepA i hi j hj y hy]
  exact h.hA i hi j hj

theorem VSetting.readB (h : VSetting m A rowA colA b n c R f x) {m' : Mem K}
    (hm : ∀ q, (∀ i, i < R → q ≠ c + i) → m' q = m q) {i : ℕ} (hi : i < n) :
    m' (b + i) = some (x i) := by
  rw [hm _ fun y hy => h.sepB i hi y hy]
  exact h.hB i hi

theorem mv_writes (h : VSetting m A rowA colA b colA c rowA f x) :
    Writes op (fun i => c + i) (fun i => ∑ k ∈ range colA, f i k * x k) (fun i => i < rowA) m
      (mvNaive op A rowA colA b c) (fun i => ∃ j < rowA, i = j) := by
  unfold mvNaive mvRest
  refine writes_blocked (S := fun j i => i = j) (fun i j x hij h h' => hij (h.symm.trans h')) ?_ ?_ ?_
  · intro hodd
    have hj : rowA - 1 < rowA := by omega
    refine writes_of_read (writes_store (x := rowA - 1) h.out hj rfl rfl) fun m' hm => ?_
    rw [mvOdd, bind_eq (single_eq (f := fun k => f (rowA - 1) k) (g := x) ?_ ?_)]
    · intro k hk
      rw [Nat.mul_one]
      exact h.readA hm hj hk
    · intro k hk
      rw [Nat.mul_one]
      exact h.readB hm hk
  · intro hpair
    rw [← mask4_eq]
    have h1 : mask4 rowA < rowA := by rw [mask4_eq]; omega
    have h2 : mask4 rowA + 1 < rowA := by rw [mask4_eq]; omega
    refine writes_of_read (writes_pair (x := mask4 rowA) (y := mask4 rowA + 1) h.out h1 h2
      (by simp) rfl rfl rfl rfl) fun m' hm => ?_
    rw [mvPair, bind_eq (pairA_eq (f := fun k => f (mask4 rowA) k) (g := x)
      (h := fun k => f (mask4 rowA + 1) k) ?_ ?_ ?_)]
    · intro k hk
      rw [Nat.mul_one]
      exact h.readA hm h1 hk
    · intro k hk
      rw [← h.readA hm h2 hk, Nat.mul_one, Nat.succ_mul]
      congr 1; omega
    · intro k hk
      exact h.readB hm hk
  · unfold mvMain
    rw [mask4_eq]
    refine writes_cols (S := fun j i => i = j) (fun i j x hij h h' => hij (h.symm.trans h'))
      (dvd_mask _) fun row hrow hd => ?_
    have hlt : ∀ j < 4, row + j < rowA := by omega
    refine writes_of_read (writes_four (x := fun j => row + j)
      (r := { c0 := ∑ k ∈ range colA, f (row + 0) k * x k, c1 := ∑ k ∈ range colA, f (row + 1) k * x k,
              c2 := ∑ k ∈ range colA, f (row + 2) k * x k, c3 := ∑ k ∈ range colA, f (row + 3) k * x k })
      (c := c + row) h.out hlt (fun i j hij _ he => by omega)
      (fun j _ => by omega) rfl rfl rfl rfl) fun m' hm => ?_
    obtain ⟨r, ⟨s0, s1, s2, s3⟩, e⟩ := mvmMat4x1_eq (m := m') (op := op) (N := colA)
      (a := A + row * colA) (sA := colA) (b := b) (c := c + row)
      (f := fun j k => f (row + j) k) (g := x)
      (fun k hk j hj => by
        rw [← h.readA hm (hlt j hj) hk, Nat.add_mul]
        congr 1; omega)
      (fun k hk => h.readB hm hk)
    rw [e]
    exact congrFun (store1x4_congr s0 s1 s2 s3) m'

theorem mtv_writes (h : VSetting m A rowA colA b rowA c colA f x) :
    Writes op (fun i => c + i) (fun i => ∑ k ∈ range rowA, f k i * x k) (fun i => i < colA) m
      (mtvNaive op A rowA colA b c) (fun i => ∃ j < colA, i = j) := by
  unfold mtvNaive mtvRest
  have hrA : ∀ {m' : Mem K}, (∀ q, (∀ i, i < colA → q ≠ c + i) → m' q = m q) →
      ∀ col, col < colA → ∀ k < rowA, m' (A + col + k * colA) = some (f k col) := by
    intro m' hm col hcol k hk
    rw [← h.readA hm hk hcol]
    congr 1; omega
  refine writes_blocked (S := fun j i => i = j) (fun i j x hij h h' => hij (h.symm.trans h')) ?_ ?_ ?_
  · intro hodd
    have hj : colA - 1 < colA := by omega
    refine writes_of_read (writes_store (x := colA - 1) h.out hj rfl rfl) fun m' hm => ?_
    rw [mtvOdd, bind_eq (single_eq (f := fun k => f k (colA - 1)) (g := x) ?_ ?_)]
    · exact hrA hm _ hj
    · intro k hk
      rw [Nat.mul_one]
      exact h.readB hm hk
  · intro hpair
    rw [← mask4_eq]
    have h1 : mask4 colA < colA := by rw [mask4_eq]; omega
    have h2 : mask4 colA + 1 < colA := by rw [mask4_eq]; omega
    refine writes_of_read (writes_pair (x := mask4 colA) (y := mask4 colA + 1) h.out h1 h2
      (by simp) rfl rfl rfl rfl) fun m' hm => ?_
    rw [mtvPair, bind_eq (pairA_eq (f := fun k => f k (mask4 colA)) (g := x)
      (h := fun k => f k (mask4 colA + 1)) ?_ ?_ ?_)]
    · exact hrA hm _ h1
    · intro k hk
      rw [← hrA hm _ h2 k hk]
      congr 1; omega
    · intro k hk
      exact h.readB hm hk
  · unfold mtvMain
    rw [mask4_eq]
    refine writes_cols (S := fun j i => i = j) (fun i j x hij h h' => hij (h.symm.trans h'))
      (dvd_mask _) fun row hrow hd => ?_
    have hlt : ∀ j < 4, row + j < colA := by omega
    refine writes_of_read (writes_four (x := fun j => row + j)
      (r := { c0 := ∑ k ∈ range rowA, f k (row + 0) * x k, c1 := ∑ k ∈ range rowA, f k (row + 1) * x k,
              c2 := ∑ k ∈ range rowA, f k (row + 2) * x k, c3 := ∑ k ∈ range rowA, f k (row + 3) * x k })
      (c := c + row) h.out hlt (fun i j hij _ he => by omega)
      (fun j _ => by omega) rfl rfl rfl rfl) fun m' hm => ?_
    obtain ⟨r, ⟨s0, s1, s2, s3⟩, e⟩ := mtvMat4x1_eq (m := m') (op := op) (N := rowA)
      (a := A + row) (sA := colA) (b := b) (c := c + row)
      (f := fun j k => f k (row + j)) (g := x)
      (fun k hk j hj => by
        rw [← hrA hm _ (hlt j hj) k hk]
        congr 1; omega)
      (fun k hk => h.readB hm hk)
    rw [e]
    exact congrFun (store1x4_congr s0 s1 s2 s3) m'

end

end Ceres.SmallBlas
