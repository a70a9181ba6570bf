import Verif.PartitionedView.ImplicitMain
import Verif.BlockSparse.Witness

/-!
# C85: a reduced system, and what the calls do not do
-/
namespace Ceres.PartitionedView

open Matrix Ceres.Tasks Ceres.BlockSparse Ceres.CG

/-- `E = [1 2; 3 4; 5 6; 0 0]`, `F = [7; 8; 9; 10]`. -/
def mixedR : BMat ℝ := BMat.ofStructure apart fun i => i + 1

theorem mixedR_ok : mixedR.Ok :=
  ofStructure_ok ⟨rfl, rfl, trivial⟩ ⟨rfl, rfl, rfl, trivial⟩ (by decide) (by decide)

theorem mixedR_simple : mixedR.bs.Simple := by unfold BS.Simple; decide

theorem mixedR_ordered : Ordered mixedR.bs 1 where
  le := by decide
  cells := by decide
  one := by decide
  first := by
    have h : HasE 1 (apart.rows[0]) ∧ HasE 1 (apart.rows[1]) := ⟨⟨_, rfl, by decide⟩, ⟨_, rfl, by decide⟩⟩
    refine .cons (fun _ _ _ => h.1) (.cons (fun _ _ _ => h.2) (.cons ?_ .nil))
    simp

/-- A factorisation that works. -/
noncomputable def goodLlt (n : ℕ) (A : Matrix (Fin n) (Fin n) ℝ) : Matrix (Fin n) (Fin n) ℝ := A⁻¹

theorem goodLlt_ok : LltOk goodLlt := fun _ _ _ => rfl

/-- On three threads, with a regularisation, from arrays that hold anything: `Init` returns, and whatever `x` solves
the reduced system gives the minimiser. -/
example (oldE oldF oldRhs : ℕ → ℝ) (t : Tmp ℝ) : ∃ V S, create mixedR 1 3 = some V ∧
    (∀ o, init goodLlt V mixedR (some fun _ => 1) (fun i => i) true oldE oldF oldRhs t o ↔ o = some S) ∧
    (∀ x y y' z z', rightMultiply S mixedR t x y (some z) → (∀ i < 1, z i = S.rhs i) →
      backSubstitute S mixedR t x y' (some z') →
      ∀ w, lsCost mixedR (some fun _ => 1) (fun i => i) z' ≤ lsCost mixedR (some fun _ => 1) (fun i => i) w) ∧
    (∀ x y, ∃ z, powerSeriesOperator S mixedR t x y (some z)) := by
  have hi : Independent mixedR (some fun _ => 1) := independent_of_diagonal _ fun _ _ => one_ne_zero
  obtain ⟨V, hV⟩ := create_some (threads := 3) mixedR_ok mixedR_ordered (Or.inr (by omega))
  obtain ⟨S, h1, h2, -⟩ := implicit_init mixedR_ok mixedR_simple mixedR_ordered hV (by omega) goodLlt_ok hi
    (fun i => i) oldE oldF oldRhs true t
  refine ⟨V, S, hV, h1, fun x y y' z z' hx hz hb w => ?_, fun x y => ?_⟩
  · exact (implicit_solves mixedR_ok mixedR_ordered hV (by omega) h2 hi t x y y' z z' hx hz hb w).1
  · obtain ⟨z, f, h, -⟩ := implicit_powerSeries mixedR_ok mixedR_ordered hV (by omega) h2 h2 t x y
    exact ⟨z, (h _).2 rfl⟩

/-- And there is such an `x`, for every well formed problem. -/
theorem implicit_solvable {M : BMat ℝ} {ne threads : ℕ} {V : View} {D : Option (ℕ → ℝ)} {b : ℕ → ℝ} {compute : Bool}
    {S : Implicit ℝ} (hM : M.Ok) (ho : Ordered M.bs ne) (hV : create M ne threads = some V) (ht : 0 < threads)
    (hS : Holds S V M ne D b compute) (hi : Independent M D) (t : Tmp ℝ) (y y' : ℕ → ℝ) : ∃ x z z',
      rightMultiply S M t x y (some z) ∧ (∀ i < colsF M.bs ne, z i = S.rhs i) ∧
        backSubstitute S M t x y' (some z') := by
  have hs : SPD (schurOf M ne D) := by
    rw [← schur_schurOf (b := b) hM ho]
    exact Schur.schur_spd (sys_oneE hM ho) (sys_fullRank hM hi)
  let u := (schurOf M ne D)⁻¹ *ᵥ rhsOf M ne D b
  let x : ℕ → ℝ := fun i => if h : i < colsF M.bs ne then u ⟨i, h⟩ else 0
  have hx : (fun j : Fin (colsF M.bs ne) => x j) = u := by
    funext j
    simp [x]
  obtain ⟨z, h1, h2, -⟩ := implicit_multiply hM ho hV ht hS t x y
  obtain ⟨z', g1, -⟩ := implicit_backSubstitute hM ho hV ht hS hi t x y'
  refine ⟨x, z, z', (h1 _).2 rfl, fun i hlt => ?_, (g1 _).2 rfl⟩
  have := h2 ⟨i, hlt⟩
  simp only at this
  rw [this, hx, mulVec_mulVec, mul_nonsing_inv _ hs.isUnit_det, one_mulVec, ← rhs_rhsOf hM ho,
    ← hS.rhs ⟨i, hlt⟩]

/-! ## What the calls do not do -/

/-- **`RightMultiplyAndAccumulate` does not accumulate**: what `y` held makes no difference. -/
theorem implicit_overwrites {M : BMat ℝ} {ne threads : ℕ} {V : View} {D : Option (ℕ → ℝ)} {b : ℕ → ℝ} {compute : Bool}
    {S : Implicit ℝ} (hM : M.Ok) (ho : Ordered M.bs ne) (hV : create M ne threads = some V) (ht : 0 < threads)
    (hS : Holds S V M ne D b compute) (t : Tmp ℝ) (x y y' z z' : ℕ → ℝ) (h : rightMultiply S M t x y (some z))
    (h' : rightMultiply S M t x y' (some z')) : ∀ i < colsF M.bs ne, z i = z' i := by
  obtain ⟨a, a1, a2, -⟩ := implicit_multiply hM ho hV ht hS t x y
  obtain ⟨c, c1, c2, -⟩ := implicit_multiply hM ho hV ht hS t x y'
  obtain rfl : z = a := by simpa using (a1 _).1 h
  obtain rfl : z' = c := by simpa using (c1 _).1 h'
  intro i hi
  exact (a2 ⟨i, hi⟩).trans (c2 ⟨i, hi⟩).symm

/-- **The power series needs the inverse of the block diagonal of `FᵀF`**: without, the program is aborted. -/
theorem powerSeries_aborts {M : BMat ℝ} {S : Implicit ℝ} (h : S.ftf = none) (t : Tmp ℝ) (x y : ℕ → ℝ)
    (o : Option (ℕ → ℝ)) : powerSeriesOperator S M t x y o ↔ o = none := by
  unfold powerSeriesOperator
  rw [h]

/-- One e column of zeros and one f column. -/
def flatBS : BS := ⟨[⟨1, 0⟩, ⟨1, 1⟩], [⟨⟨1, 0⟩, [⟨0, 0⟩, ⟨1, 1⟩], 0, 0⟩]⟩

/-- **A failed factorisation goes unnoticed**: for a block of zeros the "inverse" is whatever the factorisation
leaves — any number `g` — and the call returns as for a good one. -/
theorem singular_goes_unnoticed (g : ℝ) : ∃ llt, LltOk llt ∧ ∃ y,
    (∀ o, addDiagonalAndInvert llt 3 (BMat.ofStructure (layout flatBS 0 1) fun _ => 0) none (fun _ => 0) o ↔
      o = some y) ∧ y 0 = g := by
  classical
  refine ⟨fun n A => if SPD A then A⁻¹ else Matrix.of fun _ _ => g, fun n A h => if_pos h, ?_⟩
  obtain ⟨y, h1, h2, -⟩ := invert_run (bs := flatBS) (a := 0) (b := 1)
    (fun n (A : Matrix (Fin n) (Fin n) ℝ) => if SPD A then A⁻¹ else Matrix.of fun _ _ => g) (fun _ => 0) none (threads := 3)
    (by omega)
  refine ⟨y, h1, ?_⟩
  have := h2 0 ⟨1, 0⟩ rfl ⟨0, by decide⟩ ⟨0, by decide⟩
  have e : sqOffset (blocksOf flatBS 0 1) 0 + (0 : ℕ) * 1 + 0 = 0 := by decide
  refine (congrArg y e).symm.trans (this.trans ?_)
  refine (congrFun (congrFun (if_neg ?_) _) _).trans rfl
  intro hs
  have := hs.2 (fun _ => 1) (fun h => one_ne_zero (congrFun h ⟨0, by decide⟩))
  have hz : blockMat (blocksOf flatBS 0 1) (fun _ => (0 : ℝ)) none 0 1 = 0 := by
    ext i j
    simp [blockMat]
  rw [hz] at this
  simp at this

end Ceres.PartitionedView
