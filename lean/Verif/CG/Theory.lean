import Verif.CG.Model
import Mathlib.Tactic.Ring
import Mathlib.Tactic.Linarith
import Mathlib.Tactic.FieldSimp
import Mathlib.LinearAlgebra.LinearIndependent.Lemmas
import Mathlib.LinearAlgebra.FiniteDimensional.Lemmas
import Mathlib.LinearAlgebra.Dimension.Constructions

/-!
# Theory of the conjugate gradients recurrence

The iterates as a sequence `S 0, S 1, …` (what the loop computes while none of its tests
fires), the classical invariants of that sequence, and the statement that the loop returns a
member of it.  Nothing here is part of the model.
-/

noncomputable section

namespace Ceres.CG

open Matrix

variable {n : ℕ}

/-- One full pass through the loop body, ignoring all tests. -/
def nextS (o : Options) (lhs prec : Op n) (b : Vec n) (i : ℕ) (s : State n) : State n :=
  let z := prec s.r 0
  let rho := s.r ⬝ᵥ z
  let p := if i = 1 then z else axpby 1 z (rho / s.rho) s.p
  update o lhs b i s p (lhs p 0) rho (rho / (p ⬝ᵥ lhs p 0))

/-- The sequence of iterates. -/
def S (o : Options) (lhs prec : Op n) (b x0 : Vec n) : ℕ → State n
  | 0 => ⟨x0, axpby 1 b (-1) (lhs x0 0), 0, 1⟩
  | k + 1 => nextS o lhs prec b (k + 1) (S o lhs prec b x0 k)

/-- Iteration `k + 1` passes its numerical checks. -/
def Good (o : Options) (lhs prec : Op n) (b x0 : Vec n) (k : ℕ) : Prop :=
  (S o lhs prec b x0 (k + 1)).rho ≠ 0 ∧
    0 < (S o lhs prec b x0 (k + 1)).p ⬝ᵥ lhs (S o lhs prec b x0 (k + 1)).p 0

theorem pre_go {lhs prec : Op n} {i : ℕ} {s : State n} {p q : Vec n} {rho alpha : ℝ}
    (o : Options) (b : Vec n) (h : pre lhs prec i s = .go p q rho alpha) :
    update o lhs b i s p q rho alpha = nextS o lhs prec b i s ∧ rho ≠ 0 ∧
      0 < p ⬝ᵥ lhs p 0 := by
  unfold pre at h
  simp only at h
  split_ifs at h with h1 h2 h3 h4 h5
  all_goals
    simp only [Pre.go.injEq] at h
    obtain ⟨rfl, rfl, rfl, rfl⟩ := h
    simp_all [nextS]

theorem pre_stop {lhs prec : Op n} {i : ℕ} {s : State n} {t : Term} (o : Options) (b : Vec n)
    (hs : i ≠ 1 → s.rho ≠ 0) (h : pre lhs prec i s = .stop t) :
    (t = .failure ∧ s.r ⬝ᵥ prec s.r 0 = 0) ∨
      (t = .noConvergence ∧ s.r ⬝ᵥ prec s.r 0 ≠ 0 ∧
        (nextS o lhs prec b i s).p ⬝ᵥ lhs (nextS o lhs prec b i s).p 0 ≤ 0) := by
  unfold pre at h
  simp only at h
  split_ifs at h with h1 h2 h3 h4 h5
  all_goals simp only [Pre.stop.injEq] at h
  · exact .inl ⟨h.symm, h1⟩
  · refine .inl ⟨h.symm, ?_⟩
    rcases div_eq_zero_iff.1 h2.2 with h | h
    · exact h
    · exact absurd h (hs h2.1)
  · right; simp_all [nextS, update]
  · right; simp_all [nextS, update]

/-- How a run of the loop can end, in terms of the sequence of iterates. -/
def Outcome (o : Options) (lhs prec : Op n) (b x0 : Vec n) (tolR : ℝ) (res : Summary n) : Prop :=
  ∃ j, (∀ l, l < j → Good o lhs prec b x0 l) ∧ res.x = (S o lhs prec b x0 j).x ∧
    (∀ l, 1 ≤ l → l < j → (l : ℤ) < o.maxNumIterations ∧
      ¬ (norm2 (S o lhs prec b x0 l).r ≤ tolR ∧ o.minNumIterations ≤ l)) ∧
    ((res.termination = .failure ∧ res.numIterations = j + 1 ∧
        (S o lhs prec b x0 j).r ⬝ᵥ prec (S o lhs prec b x0 j).r 0 = 0 ∧
        (1 ≤ j → (j : ℤ) < o.maxNumIterations ∧
          ¬ (norm2 (S o lhs prec b x0 j).r ≤ tolR ∧ o.minNumIterations ≤ j))) ∨
      (res.termination = .noConvergence ∧ res.numIterations = j + 1 ∧
        (S o lhs prec b x0 j).r ⬝ᵥ prec (S o lhs prec b x0 j).r 0 ≠ 0 ∧
        (S o lhs prec b x0 (j + 1)).p ⬝ᵥ lhs (S o lhs prec b x0 (j + 1)).p 0 ≤ 0 ∧
        (1 ≤ j → (j : ℤ) < o.maxNumIterations ∧
          ¬ (norm2 (S o lhs prec b x0 j).r ≤ tolR ∧ o.minNumIterations ≤ j))) ∨
      (res.termination = .success ∧ res.numIterations = j ∧ 1 ≤ j ∧ o.minNumIterations ≤ j ∧
        (zetaTest o j
            (quad b (S o lhs prec b x0 (j - 1)).x (S o lhs prec b x0 (j - 1)).r)
            (quad b (S o lhs prec b x0 j).x (S o lhs prec b x0 j).r) ∨
          norm2 (S o lhs prec b x0 j).r ≤ tolR)) ∨
      (res.termination = .noConvergence ∧ res.numIterations = j ∧ 1 ≤ j ∧
        o.maxNumIterations ≤ j ∧
        ¬ (norm2 (S o lhs prec b x0 j).r ≤ tolR ∧ o.minNumIterations ≤ j)))

/-- The loop returns a member of the sequence, for one of four reasons; it never runs out of
the fuel the model gives it. -/
theorem loop_outcome (o : Options) (lhs prec : Op n) (b x0 : Vec n) (tolR : ℝ) :
    ∀ (fuel k : ℕ), k + fuel = max 1 o.maxNumIterations.toNat → 0 < fuel →
      (∀ l, l < k → Good o lhs prec b x0 l) →
      (∀ l, 1 ≤ l → l < k + 1 → (l : ℤ) < o.maxNumIterations ∧
        ¬ (norm2 (S o lhs prec b x0 l).r ≤ tolR ∧ o.minNumIterations ≤ l)) →
      Outcome o lhs prec b x0 tolR (loop o lhs prec b tolR fuel (k + 1) (S o lhs prec b x0 k)
        (quad b (S o lhs prec b x0 k).x (S o lhs prec b x0 k).r)) := by
  intro fuel
  induction fuel with
  | zero => intro k _ h; exact absurd h (lt_irrefl _)
  | succ fuel ih =>
    intro k hk _ hg hl
    unfold loop
    have hrho : k + 1 ≠ 1 → (S o lhs prec b x0 k).rho ≠ 0 := by
      intro h
      obtain ⟨k', rfl⟩ := Nat.exists_eq_succ_of_ne_zero (show k ≠ 0 by omega)
      exact (hg k' (by omega)).1
    split
    · rename_i t ht
      refine ⟨k, hg, rfl, fun l h1 h2 => hl l h1 (by omega), ?_⟩
      rcases pre_stop o b hrho ht with ⟨rfl, h⟩ | ⟨rfl, h, h'⟩
      · exact .inl ⟨rfl, rfl, h, fun h1 => hl k h1 (by omega)⟩
      · exact .inr (.inl ⟨rfl, rfl, h, h', fun h1 => hl k h1 (by omega)⟩)
    · rename_i p q rho alpha hgo
      obtain ⟨hu, h1, h2⟩ := pre_go o b hgo
      have hp : (update o lhs b (k + 1) (S o lhs prec b x0 k) p q rho alpha).p = p := rfl
      have hr : (update o lhs b (k + 1) (S o lhs prec b x0 k) p q rho alpha).rho = rho := rfl
      have hS : update o lhs b (k + 1) (S o lhs prec b x0 k) p q rho alpha =
          S o lhs prec b x0 (k + 1) := hu
      rw [hS] at hp hr
      have hgk : Good o lhs prec b x0 k := by
        unfold Good
        rw [hp, hr]
        exact ⟨h1, h2⟩
      have hg' : ∀ l, l < k + 1 → Good o lhs prec b x0 l := by
        intro l hlk
        rcases Nat.lt_succ_iff_lt_or_eq.1 hlk with h | rfl
        · exact hg l h
        · exact hgk
      simp only [hS]
      split_ifs with c1 c2 c3
      · exact ⟨k + 1, hg', rfl, hl, .inr (.inr (.inl ⟨rfl, rfl, by omega, c1.2, .inl (by rw [hS] at c1; exact c1.1)⟩))⟩
      · exact ⟨k + 1, hg', rfl, hl, .inr (.inr (.inl ⟨rfl, rfl, by omega, c2.2, .inr c2.1⟩))⟩
      · exact ⟨k + 1, hg', rfl, hl, .inr (.inr (.inr ⟨rfl, rfl, by omega, c3, c2⟩))⟩
      · refine ih (k + 1) (by omega) (by push_cast at c3; omega) hg' ?_
        intro l h1 h2
        rcases Nat.lt_succ_iff_lt_or_eq.1 h2 with h | rfl
        · exact hl l h1 h
        · exact ⟨by push_cast at c3 ⊢; omega, c2⟩

/-- A run of the whole solver. -/
theorem solver_outcome (o : Options) (lhs prec : Op n) (b x0 : Vec n) :
    (norm2 b = 0 ∧ solver o lhs prec b x0 = ⟨.success, 0, 0⟩) ∨
    (norm2 b ≠ 0 ∧ o.minNumIterations = 0 ∧
      norm2 (S o lhs prec b x0 0).r ≤ o.rTolerance * norm2 b ∧
      solver o lhs prec b x0 = ⟨.success, 0, x0⟩) ∨
    (norm2 b ≠ 0 ∧
      ¬ (o.minNumIterations = 0 ∧ norm2 (S o lhs prec b x0 0).r ≤ o.rTolerance * norm2 b) ∧
      Outcome o lhs prec b x0 (o.rTolerance * norm2 b) (solver o lhs prec b x0)) := by
  unfold solver
  simp only
  split_ifs with h1 h2
  · exact .inl ⟨h1, rfl⟩
  · exact .inr (.inl ⟨h1, h2.1, h2.2, rfl⟩)
  · refine .inr (.inr ⟨h1, h2, ?_⟩)
    exact loop_outcome o lhs prec b x0 _ _ 0 (by omega) (by omega)
      (fun l h => absurd h (by omega)) (fun l h h' => absurd h' (by omega))

/-! ## Invariants of the recurrence -/

section Lin

variable {o : Options} {lhs prec : Op n} {A M : Matrix (Fin n) (Fin n) ℝ} {b x0 : Vec n}

/-- The residual is the true one, whether or not it was recomputed. -/
theorem residual_true (hl : ∀ x, lhs x 0 = A *ᵥ x) :
    ∀ k, (S o lhs prec b x0 k).r = b - A *ᵥ (S o lhs prec b x0 k).x := by
  intro k
  induction k with
  | zero => simp [S, axpby, hl, sub_eq_add_neg]
  | succ k ih =>
    rw [S]
    simp only [nextS, update]
    split_ifs <;>
      simp only [axpby, hl, one_smul, mulVec_add, mulVec_smul, ih, neg_smul] <;>
      abel

theorem r_succ (hl : ∀ x, lhs x 0 = A *ᵥ x) (k : ℕ) :
    (S o lhs prec b x0 (k + 1)).r = (S o lhs prec b x0 k).r -
      ((S o lhs prec b x0 (k + 1)).rho / ((S o lhs prec b x0 (k + 1)).p ⬝ᵥ
        A *ᵥ (S o lhs prec b x0 (k + 1)).p)) • A *ᵥ (S o lhs prec b x0 (k + 1)).p := by
  rw [residual_true hl, residual_true hl]
  simp only [S, nextS, update, axpby, hl, one_smul, mulVec_add, mulVec_smul]
  abel

theorem x_succ (hl : ∀ x, lhs x 0 = A *ᵥ x) (k : ℕ) :
    (S o lhs prec b x0 (k + 1)).x = (S o lhs prec b x0 k).x +
      ((S o lhs prec b x0 (k + 1)).rho / ((S o lhs prec b x0 (k + 1)).p ⬝ᵥ
        A *ᵥ (S o lhs prec b x0 (k + 1)).p)) • (S o lhs prec b x0 (k + 1)).p := by
  simp only [S, nextS, update, axpby, hl, one_smul]

theorem rho_succ (k : ℕ) : (S o lhs prec b x0 (k + 1)).rho =
    (S o lhs prec b x0 k).r ⬝ᵥ prec (S o lhs prec b x0 k).r 0 := rfl

theorem p_one : (S o lhs prec b x0 1).p = prec (S o lhs prec b x0 0).r 0 := by
  simp [S, nextS, update]

theorem p_succ (k : ℕ) : (S o lhs prec b x0 (k + 2)).p =
    prec (S o lhs prec b x0 (k + 1)).r 0 +
      ((S o lhs prec b x0 (k + 2)).rho / (S o lhs prec b x0 (k + 1)).rho) •
        (S o lhs prec b x0 (k + 1)).p := by
  simp [S, nextS, update, axpby]

/-- The newest direction is orthogonal to the new residual, and `p·r = rho`. -/
theorem p_dot_r (hl : ∀ x, lhs x 0 = A *ᵥ x) :
    ∀ k, (∀ l, l < k + 1 → Good o lhs prec b x0 l) →
      (S o lhs prec b x0 (k + 1)).p ⬝ᵥ (S o lhs prec b x0 k).r =
        (S o lhs prec b x0 (k + 1)).rho ∧
      (S o lhs prec b x0 (k + 1)).p ⬝ᵥ (S o lhs prec b x0 (k + 1)).r = 0 := by
  intro k
  have second : ∀ k, Good o lhs prec b x0 k →
      (S o lhs prec b x0 (k + 1)).p ⬝ᵥ (S o lhs prec b x0 k).r =
        (S o lhs prec b x0 (k + 1)).rho →
      (S o lhs prec b x0 (k + 1)).p ⬝ᵥ (S o lhs prec b x0 (k + 1)).r = 0 := by
    intro k hg h
    have hpq := hg.2
    rw [hl] at hpq
    rw [r_succ hl, dotProduct_sub, dotProduct_smul, h, smul_eq_mul,
      div_mul_cancel₀ _ hpq.ne', sub_self]
  induction k with
  | zero =>
    intro hg
    have h : (S o lhs prec b x0 (0 + 1)).p ⬝ᵥ (S o lhs prec b x0 0).r =
        (S o lhs prec b x0 (0 + 1)).rho := by
      rw [rho_succ, zero_add, p_one, dotProduct_comm]
    exact ⟨h, second 0 (hg 0 (by omega)) h⟩
  | succ k ih =>
    intro hg
    have h : (S o lhs prec b x0 (k + 1 + 1)).p ⬝ᵥ (S o lhs prec b x0 (k + 1)).r =
        (S o lhs prec b x0 (k + 1 + 1)).rho := by
      rw [p_succ, add_dotProduct, smul_dotProduct,
        (ih fun l hl' => hg l (by omega)).2, smul_zero, add_zero, dotProduct_comm]
      rfl
    exact ⟨h, second _ (hg _ (by omega)) h⟩

/-- The quadratic `xᵀAx - 2bᵀx`. -/
def qf (A : Matrix (Fin n) (Fin n) ℝ) (b x : Vec n) : ℝ := x ⬝ᵥ A *ᵥ x - 2 * (b ⬝ᵥ x)

theorem symm_dot (hA : A.IsSymm) (x y : Vec n) : x ⬝ᵥ A *ᵥ y = y ⬝ᵥ A *ᵥ x := by
  rw [dotProduct_mulVec, ← mulVec_transpose, hA.eq, dotProduct_comm]

theorem qf_add (hA : A.IsSymm) (x d : Vec n) :
    qf A b (x + d) = qf A b x - 2 * (d ⬝ᵥ (b - A *ᵥ x)) + d ⬝ᵥ A *ᵥ d := by
  simp only [qf, mulVec_add, add_dotProduct, dotProduct_add, dotProduct_sub]
  rw [symm_dot hA x d, dotProduct_comm b d]
  ring

theorem quad_eq (x : Vec n) : quad b x (b - A *ᵥ x) = qf A b x := by
  simp only [quad, axpby, one_smul, qf, dotProduct_add, dotProduct_sub]
  rw [dotProduct_comm b x]
  ring

/-- Every completed iteration lowers the quadratic by `rho² / pᵀAp`. -/
theorem qf_succ (hl : ∀ x, lhs x 0 = A *ᵥ x) (hA : A.IsSymm) (k : ℕ)
    (hg : ∀ l, l < k + 1 → Good o lhs prec b x0 l) :
    qf A b (S o lhs prec b x0 (k + 1)).x = qf A b (S o lhs prec b x0 k).x -
      (S o lhs prec b x0 (k + 1)).rho ^ 2 / ((S o lhs prec b x0 (k + 1)).p ⬝ᵥ
        A *ᵥ (S o lhs prec b x0 (k + 1)).p) := by
  have hpq := (hg k (by omega)).2
  rw [hl] at hpq
  rw [x_succ hl, qf_add hA, ← residual_true hl (o := o) (prec := prec) (b := b) (x0 := x0) k,
    smul_dotProduct, (p_dot_r hl k hg).1, mulVec_smul, smul_dotProduct, dotProduct_smul]
  simp only [smul_eq_mul]
  field_simp
  ring

theorem qf_lt (hl : ∀ x, lhs x 0 = A *ᵥ x) (hA : A.IsSymm) (k : ℕ)
    (hg : ∀ l, l < k + 1 → Good o lhs prec b x0 l) :
    qf A b (S o lhs prec b x0 (k + 1)).x < qf A b (S o lhs prec b x0 k).x := by
  rw [qf_succ hl hA k hg]
  have h := hg k (by omega)
  have hpq := h.2
  rw [hl] at hpq
  have := div_pos (pow_pos (abs_pos.2 h.1) 2) hpq
  rw [sq_abs] at this
  linarith

theorem qf_le (hl : ∀ x, lhs x 0 = A *ᵥ x) (hA : A.IsSymm) (j : ℕ) :
    ∀ k, j ≤ k → (∀ l, l < k → Good o lhs prec b x0 l) →
    qf A b (S o lhs prec b x0 k).x ≤ qf A b (S o lhs prec b x0 j).x := by
  intro k hjk
  induction k, hjk using Nat.le_induction with
  | base => intro _; exact le_refl _
  | succ k _ ih =>
    intro hg
    exact (qf_lt hl hA k hg).le.trans (ih fun l h => hg l (by omega))

/-- Span of the first `k` directions. -/
def dirs (o : Options) (lhs prec : Op n) (b x0 : Vec n) (k : ℕ) : Submodule ℝ (Vec n) :=
  Submodule.span ℝ {v | ∃ i, i < k ∧ v = (S o lhs prec b x0 (i + 1)).p}

theorem dirs_mono {j k : ℕ} (h : j ≤ k) : dirs o lhs prec b x0 j ≤ dirs o lhs prec b x0 k :=
  Submodule.span_mono fun _ ⟨i, hi, hv⟩ => ⟨i, by omega, hv⟩

theorem p_mem_dirs {i k : ℕ} (h : i < k) : (S o lhs prec b x0 (i + 1)).p ∈
    dirs o lhs prec b x0 k := Submodule.subset_span ⟨i, h, rfl⟩

/-- The preconditioned residual lies in the span of the directions computed from it. -/
theorem z_mem_dirs (i : ℕ) : prec (S o lhs prec b x0 i).r 0 ∈ dirs o lhs prec b x0 (i + 1) := by
  cases i with
  | zero => rw [← p_one (o := o) (lhs := lhs) (prec := prec) (b := b) (x0 := x0)]; exact p_mem_dirs (by omega)
  | succ i =>
    have h := p_succ (o := o) (lhs := lhs) (prec := prec) (b := b) (x0 := x0) i
    rw [← sub_eq_iff_eq_add] at h
    rw [← h]
    exact Submodule.sub_mem _ (p_mem_dirs (by omega))
      (Submodule.smul_mem _ _ (p_mem_dirs (by omega)))

theorem dirs_orth {k : ℕ} {r : Vec n}
    (h : ∀ i, i < k → (S o lhs prec b x0 (i + 1)).p ⬝ᵥ r = 0) :
    ∀ d ∈ dirs o lhs prec b x0 k, d ⬝ᵥ r = 0 := by
  intro d hd
  induction hd using Submodule.span_induction with
  | mem v hv => obtain ⟨i, hi, rfl⟩ := hv; exact h i hi
  | zero => simp
  | add v w _ _ h1 h2 => simp [add_dotProduct, h1, h2]
  | smul c v _ h1 => simp [smul_dotProduct, h1]

/-- The conjugacy and orthogonality relations: the directions are pairwise `A`-conjugate, and
each residual is orthogonal to all earlier directions. -/
theorem conjugacy (hl : ∀ x, lhs x 0 = A *ᵥ x) (hp : ∀ x, prec x 0 = M *ᵥ x)
    (hA : A.IsSymm) (hM : M.IsSymm) :
    ∀ k, (∀ l, l < k → Good o lhs prec b x0 l) →
      (∀ i, i < k → (S o lhs prec b x0 (i + 1)).p ⬝ᵥ (S o lhs prec b x0 k).r = 0) ∧
      (∀ i j, i < j → j < k → (S o lhs prec b x0 (i + 1)).p ⬝ᵥ
        A *ᵥ (S o lhs prec b x0 (j + 1)).p = 0) := by
  intro k
  induction k using Nat.strong_induction_on with
  | _ k ih =>
  intro hg
  rcases k with _ | k
  · exact ⟨fun i h => absurd h (by omega), fun i j _ h => absurd h (by omega)⟩
  obtain ⟨ho, hc⟩ := ih k (by omega) fun l h => hg l (by omega)
  -- z_i · r_k = 0 for i < k
  have hz : ∀ i, i < k → (S o lhs prec b x0 i).r ⬝ᵥ prec (S o lhs prec b x0 k).r 0 = 0 := by
    intro i hi
    have h1 := dirs_orth ho _ (dirs_mono (show i + 1 ≤ k by omega) (z_mem_dirs i))
    rw [hp] at h1 ⊢
    rw [symm_dot hM, dotProduct_comm]
    exact h1
  have newconj : ∀ i, i < k → (S o lhs prec b x0 (i + 1)).p ⬝ᵥ
      A *ᵥ (S o lhs prec b x0 (k + 1)).p = 0 := by
    intro i hi
    obtain ⟨k', rfl⟩ := Nat.exists_eq_succ_of_ne_zero (show k ≠ 0 by omega)
    have hgi := hg i (by omega)
    have hpq := hgi.2
    rw [hl] at hpq
    -- α_i (z·A p_i) = z·r_i - z·r_{i+1}
    have key : ((S o lhs prec b x0 (i + 1)).rho / ((S o lhs prec b x0 (i + 1)).p ⬝ᵥ
        A *ᵥ (S o lhs prec b x0 (i + 1)).p)) *
        (prec (S o lhs prec b x0 (k' + 1)).r 0 ⬝ᵥ A *ᵥ (S o lhs prec b x0 (i + 1)).p) =
        prec (S o lhs prec b x0 (k' + 1)).r 0 ⬝ᵥ (S o lhs prec b x0 i).r -
        prec (S o lhs prec b x0 (k' + 1)).r 0 ⬝ᵥ (S o lhs prec b x0 (i + 1)).r := by
      rw [r_succ hl (o := o) (prec := prec) (b := b) (x0 := x0) i, dotProduct_sub,
        dotProduct_smul, smul_eq_mul]
      ring
    rw [symm_dot hA, p_succ, add_dotProduct, smul_dotProduct, smul_eq_mul]
    have hz1 := hz i hi
    rw [dotProduct_comm] at hz1
    rcases Nat.lt_or_ge i k' with hik | hik
    · have hz2 := hz (i + 1) (by omega)
      rw [dotProduct_comm] at hz2
      rw [hz1, hz2, sub_zero] at key
      rcases mul_eq_zero.1 key with h | h
      · exact absurd h (div_ne_zero hgi.1 hpq.ne')
      · rw [h, symm_dot hA, hc i k' hik (by omega), mul_zero, add_zero]
    · obtain rfl : i = k' := by omega
      have hrho : prec (S o lhs prec b x0 (i + 1)).r 0 ⬝ᵥ (S o lhs prec b x0 (i + 1)).r =
          (S o lhs prec b x0 (i + 2)).rho := by rw [dotProduct_comm]; rfl
      rw [hz1, hrho] at key
      have h0 := hgi.1
      rw [div_mul_eq_mul_div, div_eq_iff hpq.ne'] at key
      rw [div_mul_eq_mul_div, ← mul_left_inj' h0, add_mul, div_mul_cancel₀ _ h0]
      linarith
  constructor
  · intro i hi
    rcases Nat.lt_succ_iff_lt_or_eq.1 hi with h | rfl
    · rw [r_succ hl, dotProduct_sub, dotProduct_smul, ho i h, newconj i h, smul_zero, sub_zero]
    · exact (p_dot_r hl i hg).2
  · intro i j hij hj
    rcases Nat.lt_succ_iff_lt_or_eq.1 hj with h | rfl
    · exact hc i j hij h
    · exact newconj i hij

end Lin

end Ceres.CG
