import Verif.PartitionedView.Main

/-!
# What the calls of the implicit Schur complement leave in their vectors
-/
namespace Ceres.PartitionedView

open Matrix Ceres.Tasks Ceres.BlockSparse

variable {K : Type}

/-- The call always returns, and always with the same vector: `v` in its first `n` elements, `rest` beyond. -/
def Gives (R : Does (ℕ → K)) (n : ℕ) (v : Fin n → K) (rest : ℕ → K) : Prop :=
  ∃ y, (∀ o, R o ↔ o = some y) ∧ (∀ i : Fin n, y i = v i) ∧ ∀ i, n ≤ i → y i = rest i

theorem bind_iff {α β : Type} {R : Does α} {S : α → Does β} {a : α} (h : ∀ o, R o ↔ o = some a) (o : Option β) :
    Does.bind R S o ↔ S a o := by
  constructor
  · rintro (h1 | ⟨a', o, h1, h2⟩)
    · cases (h _).1 h1
    · have := (h _).1 h1
      injection this with this
      exact this ▸ h2
  · intro h1
    exact .next a o ((h _).2 rfl) h1

theorem Gives.bind {R : Does (ℕ → K)} {S : (ℕ → K) → Does (ℕ → K)} {n n' : ℕ} {v : Fin n → K} {v' : Fin n' → K}
    {rest rest' : ℕ → K} (h : Gives R n v rest)
    (hs : ∀ a, (∀ i : Fin n, a i = v i) → (∀ i, n ≤ i → a i = rest i) → Gives (S a) n' v' rest') :
    Gives (Does.bind R S) n' v' rest' := by
  obtain ⟨y, h1, h2, h3⟩ := h
  obtain ⟨z, g1, g2, g3⟩ := hs y h2 h3
  exact ⟨z, fun o => (bind_iff h1 o).trans (g1 o), g2, g3⟩

section
variable [CommRing K]

theorem onY_iff {R : Option (Mem K) → Prop} {m' : Mem K} (h : ∀ o, R o ↔ o = some m') (o : Option (ℕ → K)) :
    onY R o ↔ o = some fun i => m' (.y i) := by
  constructor
  · rintro ⟨o', h1, rfl⟩
    rw [(h o').1 h1]
    rfl
  · rintro rfl
    exact ⟨some m', (h _).2 rfl, rfl⟩

/-! ## Element by element -/

/-- Index `k` owns element `off + k` of the result. -/
def stepKind (off n : ℕ) (rx rv : Bool) : Loc → Kind Empty
  | .x i => if rx = true ∧ i < n then .fixed else .own n
  | .y i => if off ≤ i then .own (i - off) else .own n
  | .val i => if rv = true ∧ i < n then .fixed else .own n

/-- A body that writes one element. -/
structure Step (off n : ℕ) (rx rv : Bool) (task : ℕ → ℕ → Prog K) (m : Mem K) (g : ℕ → K) : Prop where
  runs : ∀ free i tid, i < n → ∀ p : Mem K, p (.y (off + i)) = m (.y (off + i)) →
    Runs (stepKind off n rx rv) free tid i m none (task tid i) p (upd p (.y (off + i)) (g i)) []

theorem step_disciplined {off n threads : ℕ} {rx rv : Bool} {task : ℕ → ℕ → Prog K} {m : Mem K} {g : ℕ → K}
    (h : Step off n rx rv task m g) : Disciplined (stepKind off n rx rv) task 0 n threads m
      (fun | .y i => g (i - off) | l => m l) fun _ _ => 0 := by
  refine ⟨fun i tid _ hi _ p hm => ⟨_, [], h.runs _ i tid hi p (hm _ ?_), ?_, ?_⟩⟩
  · simp [stepKind]
  · intro l hl
    cases l with
    | y j =>
      simp only [stepKind] at hl
      split_ifs at hl with h1
      · injection hl with hl
        have : j = off + i := by omega
        subst this
        simp [upd]
      · injection hl with hl
        omega
    | x j =>
      simp only [stepKind] at hl
      split_ifs at hl with h1
      injection hl with hl
      omega
    | val j =>
      simp only [stepKind] at hl
      split_ifs at hl with h1
      injection hl with hl
      omega
  · intro l x hl
    cases x

/-- **Assignments element by element** on any number of threads. -/
theorem step_run {off n threads : ℕ} {rx rv : Bool} {task : ℕ → ℕ → Prog K} {m : Mem K} {g : ℕ → K}
    (h : Step off n rx rv task m g) (ht : 0 < threads) (o : Option (ℕ → K)) :
    onY (ForRunMin (2 ^ 16) task 0 n threads m) o ↔
      o = some fun i => if off ≤ i ∧ i < off + n then g (i - off) else m (.y i) := by
  have hD := step_disciplined (threads := threads) h
  have key : ∀ o, onY (ForRunMin (2 ^ 16) task 0 n threads m) o →
      o = some fun i => if off ≤ i ∧ i < off + n then g (i - off) else m (.y i) := by
    rintro o ⟨o', ho, rfl⟩
    obtain ⟨m', rfl, h2⟩ := forRunMin_result (by norm_num) hD ht ho
    rw [Option.map_some]
    congr 1
    funext i
    by_cases hi : off ≤ i
    · rw [h2.own (.y i) (i - off) (if_pos hi)]
      by_cases hn : i < off + n
      · rw [if_pos ⟨Nat.zero_le _, by omega⟩, if_pos ⟨hi, hn⟩]
      · rw [if_neg (by omega), if_neg (by omega)]
    · rw [h2.own (.y i) n (if_neg hi), if_neg (by omega), if_neg (by omega)]
  refine ⟨key o, ?_⟩
  rintro rfl
  obtain ⟨m', hm'⟩ := forRunMin_exists (minBlock := 2 ^ 16) (by norm_num) hD ht
  have := key _ ⟨_, hm', rfl⟩
  rw [← this]
  exact ⟨_, hm', rfl⟩

theorem zero_step (n : ℕ) (m : Mem K) : Step 0 n false false zeroTask m fun _ => 0 where
  runs := fun free i tid hi p hm => by
    rw [Nat.zero_add]
    exact .write (Or.inr (by simp [stepKind])) (.ret _)

theorem neg_step (n : ℕ) (m : Mem K) : Step 0 n false false negTask m fun i => -m (.y i) where
  runs := fun free i tid hi p hm => by
    rw [Nat.zero_add] at hm ⊢
    refine .readMine (Or.inr (by simp [stepKind])) ?_
    rw [hm]
    exact .write (Or.inr (by simp [stepKind])) (.ret _)

theorem sub_step (n : ℕ) (m : Mem K) : Step 0 n true false subTask m fun i => m (.x i) - m (.y i) where
  runs := fun free i tid hi p hm => by
    rw [Nat.zero_add] at hm ⊢
    refine .readFixed (by simp [stepKind, hi]) (.readMine (Or.inr (by simp [stepKind])) ?_)
    rw [hm]
    exact .write (Or.inr (by simp [stepKind])) (.ret _)

theorem scale_step (n : ℕ) (m : Mem K) :
    Step 0 n true true scaleTask m fun i => m (.val i) ^ 2 * m (.x i) where
  runs := fun free i tid hi p hm => by
    rw [Nat.zero_add] at hm ⊢
    exact .readFixed (by simp [stepKind, hi]) (.readFixed (by simp [stepKind, hi])
      (.write (Or.inr (by simp [stepKind])) (.ret _)))

theorem copy_step (off n : ℕ) (m : Mem K) : Step off n true false (copyTask off) m fun i => m (.x i) where
  runs := fun free i tid hi p hm =>
    .readFixed (by simp [stepKind, hi]) (.write (Or.inr (by simp [stepKind])) (.ret _))

/-- No data race, no access out of bounds. -/
theorem step_safe {off n threads : ℕ} {rx rv : Bool} {task : ℕ → ℕ → Prog K} {m : Mem K} {g : ℕ → K}
    (h : Step off n rx rv task m g) {s : St Loc Empty K} (hs : ForReach (2 ^ 16) task 0 n threads m s) :
    ¬ Race s ∧ ∀ l, Touches s l → InBounds (if rx then n else 0) (off + n) (if rv then n else 0) l := by
  have hD := step_disciplined (threads := threads) h
  refine ⟨forReach_race_free (by norm_num) hD hs, fun l hl => ?_⟩
  have := forReach_usable (by norm_num) hD hs hl
  cases l with
  | y i =>
    simp only [Usable, stepKind] at this
    split_ifs at this with h1
    · show i < off + n
      simp only at this
      omega
    · simp only at this
      omega
  | x i =>
    simp only [Usable, stepKind] at this
    split_ifs at this with h1
    · show i < _
      rw [if_pos h1.1]
      exact h1.2
    · simp only at this
      omega
  | val i =>
    simp only [Usable, stepKind] at this
    split_ifs at this with h1
    · show i < _
      rw [if_pos h1.1]
      exact h1.2
    · simp only at this
      omega

/-! ## The calls -/

variable {threads : ℕ}

theorem gives_setZero (ht : 0 < threads) (n : ℕ) (y : ℕ → K) : Gives (setZero threads n y) n 0 y := by
  refine ⟨_, step_run (zero_step n (mem y y y)) ht, fun i => ?_, fun i hi => ?_⟩
  · rw [if_pos ⟨Nat.zero_le _, by omega⟩]; rfl
  · rw [if_neg (by omega)]; rfl

theorem gives_neg (ht : 0 < threads) {n : ℕ} {x y v : ℕ → K} {w : Fin n → K} (hy : ∀ i : Fin n, y i = w i) :
    Gives (assign threads n negTask x y v) n (-w) y := by
  refine ⟨_, step_run (neg_step n (mem x y v)) ht, fun i => ?_, fun i hi => ?_⟩
  · rw [if_pos ⟨Nat.zero_le _, by omega⟩]
    show -y (i - 0) = _
    rw [Nat.sub_zero, hy]
    rfl
  · rw [if_neg (by omega)]; rfl

theorem gives_sub (ht : 0 < threads) {n : ℕ} {x y v : ℕ → K} {u w : Fin n → K} (hx : ∀ i : Fin n, x i = u i)
    (hy : ∀ i : Fin n, y i = w i) : Gives (assign threads n subTask x y v) n (u - w) y := by
  refine ⟨_, step_run (sub_step n (mem x y v)) ht, fun i => ?_, fun i hi => ?_⟩
  · rw [if_pos ⟨Nat.zero_le _, by omega⟩]
    show x (i - 0) - y (i - 0) = _
    rw [Nat.sub_zero, hy, hx]
    rfl
  · rw [if_neg (by omega)]; rfl

theorem gives_scale (ht : 0 < threads) {n : ℕ} {x y v : ℕ → K} {u w : Fin n → K} (hx : ∀ i : Fin n, x i = u i)
    (hv : ∀ i : Fin n, v i = w i) : Gives (assign threads n scaleTask x y v) n (fun i => w i ^ 2 * u i) y := by
  refine ⟨_, step_run (scale_step n (mem x y v)) ht, fun i => ?_, fun i hi => ?_⟩
  · rw [if_pos ⟨Nat.zero_le _, by omega⟩]
    show v (i - 0) ^ 2 * x (i - 0) = _
    rw [Nat.sub_zero, hv, hx]
  · rw [if_neg (by omega)]; rfl

theorem copy_run (ht : 0 < threads) (off n : ℕ) (x y v : ℕ → K) (o : Option (ℕ → K)) :
    assign threads n (copyTask off) x y v o ↔
      o = some fun i => if off ≤ i ∧ i < off + n then x (i - off) else y i :=
  step_run (copy_step off n (mem x y v)) ht o

/-- A sum over the columns as a product with a matrix. -/
theorem sum_mulVec {m n : ℕ} {A : Matrix (Fin m) (Fin n) K} {f : ℕ → K} {x : ℕ → K} {u : Fin n → K} {i : Fin m}
    (hf : ∀ j : Fin n, f j = A i j) (hx : ∀ j : Fin n, x j = u j) :
    ∑ c ∈ Finset.range n, f c * x c = (A *ᵥ u) i := by
  rw [← Fin.sum_univ_eq_sum_range fun c => f c * x c]
  exact Finset.sum_congr rfl fun j _ => by rw [hf, hx]

/-- The product with a block diagonal. -/
theorem mulBlocks_iff {d : BMat K} (hd : d.Ok) (ht : 0 < threads) (x y : ℕ → K) (o : Option (ℕ → K)) :
    mulBlocks threads d x y o ↔ o = some fun r => y r + ∑ c ∈ Finset.range d.numCols, d.entry r c * x c :=
  onY_iff (right_product hd ht x y) o

theorem gives_mulBlocks {d : BMat K} (hd : d.Ok) (ht : 0 < threads) {n : ℕ} (hr : d.numRows = n) (hc : d.numCols = n)
    {G : Matrix (Fin n) (Fin n) K} (hG : ∀ i j : Fin n, d.entry i j = G i j) {x y : ℕ → K} {u w : Fin n → K}
    (hx : ∀ i : Fin n, x i = u i) (hy : ∀ i : Fin n, y i = w i) :
    Gives (mulBlocks threads d x y) n (w + G *ᵥ u) y := by
  refine ⟨_, mulBlocks_iff hd ht x y, fun i => ?_, fun i hi => ?_⟩
  · rw [hc, hy, sum_mulVec (A := G) (i := i) (hG i) hx]
    rfl
  · rw [Finset.sum_eq_zero, add_zero]
    intro c _
    rw [entry_row_ge hd (by omega), zero_mul]

section Products
variable {M : BMat K} {ne : ℕ} {V : View} (hM : M.Ok) (ho : Ordered M.bs ne) (hV : create M ne threads = some V)
  (ht : 0 < threads) {x y : ℕ → K}
include hM ho hV ht

theorem gives_mulE {A : Matrix (Fin M.numRows) (Fin (colsE M.bs ne)) K} (hA : ∀ (i : Fin M.numRows) (j : Fin (colsE M.bs ne)), entryE M i j = A i j)
    {u : Fin (colsE M.bs ne) → K} {w : Fin M.numRows → K} (hx : ∀ i : Fin (colsE M.bs ne), x i = u i) (hy : ∀ i : Fin M.numRows, y i = w i) :
    Gives (mulE V M x y) M.numRows (w + A *ᵥ u) y := by
  refine ⟨_, onY_iff (view_right_e hM ho hV ht x y), fun i => ?_, fun i hi => ?_⟩
  · show y i + ∑ c ∈ _, _ = _
    rw [hy, sum_mulVec (A := A) (i := i) (fun j => hA i j) hx]
    rfl
  · show y i + ∑ c ∈ _, _ = _
    rw [Finset.sum_eq_zero, add_zero]
    intro c _
    unfold entryE
    rw [entry_row_ge hM hi, zero_mul]

theorem gives_mulF {A : Matrix (Fin M.numRows) (Fin (colsF M.bs ne)) K} (hA : ∀ (i : Fin M.numRows) (j : Fin (colsF M.bs ne)), entryF M ne i j = A i j)
    {u : Fin (colsF M.bs ne) → K} {w : Fin M.numRows → K} (hx : ∀ i : Fin (colsF M.bs ne), x i = u i) (hy : ∀ i : Fin M.numRows, y i = w i) :
    Gives (mulF V M x y) M.numRows (w + A *ᵥ u) y := by
  refine ⟨_, onY_iff (view_right_f hM ho hV ht x y), fun i => ?_, fun i hi => ?_⟩
  · show y i + ∑ c ∈ _, _ = _
    rw [hy, sum_mulVec (A := A) (i := i) (fun j => hA i j) hx]
    rfl
  · show y i + ∑ c ∈ _, _ = _
    rw [Finset.sum_eq_zero, add_zero]
    intro c _
    unfold entryF
    rw [entry_row_ge hM hi, zero_mul]

theorem gives_mulEt {A : Matrix (Fin M.numRows) (Fin (colsE M.bs ne)) K} (hA : ∀ (i : Fin M.numRows) (j : Fin (colsE M.bs ne)), entryE M i j = A i j)
    {u : Fin M.numRows → K} {w : Fin (colsE M.bs ne) → K} (hx : ∀ i : Fin M.numRows, x i = u i) (hy : ∀ i : Fin (colsE M.bs ne), y i = w i) :
    Gives (mulEt V M x y) (colsE M.bs ne) (w + Aᵀ *ᵥ u) y := by
  refine ⟨_, onY_iff (view_left_e hM ho hV ht x y), fun i => ?_, fun i hi => ?_⟩
  · show (if _ then y i + ∑ c ∈ _, _ else _) = _
    rw [if_pos i.2, hy, sum_mulVec (A := Aᵀ) (i := i) (f := fun r => entryE M r i) (fun j => hA j i) hx]
    rfl
  · show (if _ then _ else y i) = _
    rw [if_neg (by omega)]

theorem gives_mulFt {A : Matrix (Fin M.numRows) (Fin (colsF M.bs ne)) K} (hA : ∀ (i : Fin M.numRows) (j : Fin (colsF M.bs ne)), entryF M ne i j = A i j)
    {u : Fin M.numRows → K} {w : Fin (colsF M.bs ne) → K} (hx : ∀ i : Fin M.numRows, x i = u i) (hy : ∀ i : Fin (colsF M.bs ne), y i = w i) :
    Gives (mulFt V M x y) (colsF M.bs ne) (w + Aᵀ *ᵥ u) y := by
  refine ⟨_, onY_iff (view_left_f hM ho hV ht x y), fun i => ?_, fun i hi => ?_⟩
  · show y i + ∑ c ∈ _, _ = _
    rw [hy, sum_mulVec (A := Aᵀ) (i := i) (f := fun r => entryF M ne r i) (fun j => hA j i) hx]
    rfl
  · show y i + ∑ c ∈ _, _ = _
    rw [Finset.sum_eq_zero, add_zero]
    intro r _
    unfold entryF
    have h1 := colsE_add_colsF M.bs ne
    have h2 := hM.numCols
    rw [entry_col_ge hM (by omega), zero_mul]

end Products

end

end Ceres.PartitionedView
