import Verif.SchurThreads.Props
import Verif.Schur.Examples

/-!
# C77: a system whose chunks add to the same block, solved on four threads
-/

noncomputable section

namespace Ceres.SchurThreads

open Matrix Ceres.Schur Ceres.Tasks

/-- `e₀ + f = 0`, `e₁ + f = 0` and `f = 1`: blocks 0 and 1 are eliminated. -/
def threeRows : List (Row one) :=
  [⟨1, [scalarCell 0 1, scalarCell 2 1], fun _ => 0⟩, ⟨1, [scalarCell 1 1, scalarCell 2 1], fun _ => 0⟩,
    ⟨1, [scalarCell 2 1], fun _ => 1⟩]

theorem threeRows_ordered : Ordered 2 3 threeRows where
  sorted := by intro r hr; simp [threeRows] at hr; rcases hr with rfl | rfl | rfl <;> simp [scalarCell]
  nonempty := by intro r hr; simp [threeRows] at hr; rcases hr with rfl | rfl | rfl <;> simp
  bound := by
    intro r hr c hc
    simp [threeRows] at hr
    rcases hr with rfl | rfl | rfl <;> simp at hc
    · rcases hc with rfl | rfl <;> simp [scalarCell]
    · rcases hc with rfl | rfl <;> simp [scalarCell]
    · rw [hc]; simp [scalarCell]
  independent := by
    intro r hr c hc d hd h1 h2
    simp [threeRows] at hr
    rcases hr with rfl | rfl | rfl <;> simp at hc hd
    · rcases hc with rfl | rfl <;> rcases hd with rfl | rfl <;> simp [scalarCell] at h1 h2 ⊢
    · rcases hc with rfl | rfl <;> rcases hd with rfl | rfl <;> simp [scalarCell] at h1 h2 ⊢
    · rw [hc, hd]
  eFirst := by simp [threeRows, scalarCell]
  grouped := by
    intro r s t h e he h1 h2
    have := h.eq_of_length (by simp [threeRows])
    simp only [threeRows, List.cons.injEq, and_true] at this
    obtain ⟨rfl, rfl, rfl⟩ := this
    simp [scalarCell] at h1 h2
    omega

/-- Two chunks. -/
theorem threeRows_chunks : (detectChunks 2 threeRows).1.map Prod.fst = [0, 1] := by
  unfold threeRows
  rw [detectChunks]
  simp [Row.front, scalarCell]
  rw [detectChunks]
  simp [Row.front]
  rw [detectChunks]
  simp [Row.front]

theorem threeRows_fullRank : FullRank 3 threeRows none := by
  intro x h
  have e : energy 3 threeRows none x =
      (x 0 (0 : Fin 1) + x 2 (0 : Fin 1)) ^ 2 + ((x 1 (0 : Fin 1) + x 2 (0 : Fin 1)) ^ 2 +
        (x 2 (0 : Fin 1)) ^ 2) := by
    have hs : ∀ f : Fin (one 0) → ℝ, ∑ i, f i = f (0 : Fin 1) := fun f => Fin.sum_univ_one f
    simp [energy, threeRows, Row.apply, scalarCell, mulVec, dotProduct]
    erw [hs, hs, hs]
  rw [e] at h
  have h2 : x 2 (0 : Fin 1) = 0 := by
    nlinarith [sq_nonneg (x 0 (0 : Fin 1) + x 2 (0 : Fin 1)), sq_nonneg (x 1 (0 : Fin 1) + x 2 (0 : Fin 1))]
  rw [h2] at h
  have h1 : x 1 (0 : Fin 1) = 0 := by nlinarith [sq_nonneg (x 0 (0 : Fin 1))]
  have h0 : x 0 (0 : Fin 1) = 0 := by nlinarith [sq_nonneg (x 1 (0 : Fin 1))]
  intro b hb
  funext i
  have hi : i = (0 : Fin 1) := Subsingleton.elim (α := Fin 1) _ _
  subst hi
  interval_cases b
  · exact h0
  · exact h1
  · exact h2

/-- Whatever memory holds before, the solver on four threads has executions, and all of them end with the one
minimiser. -/
example (m : Mem) {reduced : Lhs one → BVec one → Schur.Term × BVec one} (hr : SolvesPosDef 2 3 reduced) :
    (∃ o, SolveRun exactInv 2 3 (sparseHas 2 3 threeRows) threeRows none reduced 4 m o) ∧
    ∀ o, SolveRun exactInv 2 3 (sparseHas 2 3 threeRows) threeRows none reduced 4 m o →
      ∃ x, o = some (.success, x) ∧ ∀ w, cost 3 threeRows none x ≤ cost 3 threeRows none w ∧
        (cost 3 threeRows none w = cost 3 threeRows none x → ∀ b < 3, w b = x b) :=
  ⟨solve_exists threeRows_ordered (by decide) reduced m, fun _ h =>
    schur_full_rank_threads threeRows_ordered (by decide) threeRows_fullRank exactInv_fullRank (Or.inr rfl) hr
      (by decide) h⟩

/-- Its two chunks are eliminated concurrently. -/
example (m : Mem) : ∃ s, Reach ⟨0, (detectChunks 2 threeRows).1.length, 4, 2⟩
    (chunkTask exactInv (sparseHas 2 3 threeRows) none true 4 (detectChunks 2 threeRows).1) m s ∧
    s.par.returned = true :=
  returns (c := ⟨0, (detectChunks 2 threeRows).1.length, 4, 2⟩)
    (chunk_disciplined exactInv _ none true _ 4 m) (by decide) (by decide) (Nat.zero_le _) (.init fun _ => .ret)

end Ceres.SchurThreads
