import Verif.CG.Cgnr

/-!
# Conjugate gradients with one iteration
-/

noncomputable section

namespace Ceres.CG

open Matrix

variable {n : ℕ} {A M : Matrix (Fin n) (Fin n) ℝ}

/-- At most one iteration, no test of the residual (as in `levenberg_marquardt_strategy.cc:100-104`), and `eta` at most
one. -/
structure Early (o : Options) : Prop where
  max : o.maxNumIterations ≤ 1
  r : o.rTolerance < 0
  q : o.qTolerance ≤ 1

/-- With one iteration there is no success, but a step. -/
theorem cg_early {o : Options} (ho : Early o) {lhs prec : Op n} (hl : Applies lhs A) (hp : Applies prec M) (hA : SPD A)
    (hM : SPD M) {b : Vec n} (hb : b ≠ 0) :
    (solver o lhs prec b 0).termination = .noConvergence ∧ (solver o lhs prec b 0).x ≠ 0 := by
  have hnb : norm2 b ≠ 0 := fun h => hb (norm2_eq_zero.1 h)
  have hpos : 0 < norm2 b := lt_of_le_of_ne (norm2_nonneg b) hnb.symm
  have htol : o.rTolerance * norm2 b < 0 := mul_neg_of_neg_of_pos ho.r hpos
  have hl0 : lhs 0 0 = 0 := by rw [hl, mulVec_zero]
  have hr : axpby 1 b (-1) (lhs 0 0) = b := by
    rw [hl0]
    simp [axpby]
  have hfuel : max 1 o.maxNumIterations.toNat = 0 + 1 := by
    have := ho.max
    omega
  have hz : M *ᵥ b ≠ 0 := by
    intro h
    have := hM.2 b hb
    rw [h, dotProduct_zero] at this
    exact lt_irrefl _ this
  have hrho : 0 < b ⬝ᵥ M *ᵥ b := hM.2 b hb
  have hpq : 0 < (M *ᵥ b) ⬝ᵥ A *ᵥ (M *ᵥ b) := hA.2 _ hz
  set rho := b ⬝ᵥ M *ᵥ b with hrho'
  set pq := (M *ᵥ b) ⬝ᵥ A *ᵥ (M *ᵥ b) with hpq'
  have hpre : pre lhs prec 1 ⟨0, b, 0, 1⟩ = .go (M *ᵥ b) (A *ᵥ (M *ᵥ b)) rho (rho / pq) := by
    unfold pre
    simp only [hp b]
    rw [if_neg hrho.ne', if_neg (by simp)]
    simp only [if_true, hl (M *ᵥ b)]
    rw [if_neg (not_le.2 hpq)]
  have hres : (update o lhs b 1 ⟨0, b, 0, 1⟩ (M *ᵥ b) (A *ᵥ (M *ᵥ b)) rho (rho / pq)).r =
      b - A *ᵥ ((rho / pq) • (M *ᵥ b)) := by
    unfold update
    simp only
    split_ifs
    · rw [hl]
      simp [axpby, sub_eq_add_neg]
    · simp [axpby, mulVec_smul, sub_eq_add_neg]
  have hx : (update o lhs b 1 ⟨0, b, 0, 1⟩ (M *ᵥ b) (A *ᵥ (M *ᵥ b)) rho (rho / pq)).x = (rho / pq) • (M *ᵥ b) := by
    unfold update axpby
    simp
  have hQ : quad b ((rho / pq) • (M *ᵥ b)) (b - A *ᵥ ((rho / pq) • (M *ᵥ b))) = -(rho * rho / pq) := by
    rw [quad_eq]
    unfold qf
    rw [mulVec_smul, dotProduct_smul, smul_dotProduct, dotProduct_smul, ← hpq', ← hrho']
    simp only [smul_eq_mul]
    field_simp
    ring
  have hQ0 : quad b (0 : Vec n) b = 0 := by simp [quad]
  have key : solver o lhs prec b 0 = ⟨.noConvergence, 1, (rho / pq) • (M *ᵥ b)⟩ := by
    unfold solver
    simp only [if_neg hnb]
    rw [hr, if_neg (fun h => absurd h.2 (not_le.2 (htol.trans_le (norm2_nonneg b)))), hfuel]
    unfold loop
    simp only [hpre, hx, hres, hQ, hQ0]
    rw [if_neg, if_neg, if_pos]
    · exact_mod_cast ho.max
    · exact fun h => absurd h.1 (not_le.2 (htol.trans_le (norm2_nonneg _)))
    · rintro ⟨h, -⟩
      have hne : -(rho * rho / pq) ≠ 0 := neg_ne_zero.2 (div_ne_zero (mul_ne_zero hrho.ne' hrho.ne') hpq.ne')
      unfold zetaTest at h
      rw [hx, hres, hQ, hQ0, if_neg hne, Nat.cast_one, one_mul, sub_zero, div_self hne] at h
      exact absurd h (not_lt.2 ho.q)
  rw [key]
  exact ⟨rfl, smul_ne_zero (div_ne_zero hrho.ne' hpq.ne') hz⟩

end Ceres.CG
