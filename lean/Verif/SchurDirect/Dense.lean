import Verif.SchurDirect.Core

/-!
# C82: DENSE_SCHUR
-/

noncomputable section

namespace Ceres.SchurDirect

open Matrix Ceres.BlockSparse Ceres.InnerProduct Ceres.Direct Ceres.Schur Ceres.SchurThreads

variable {bs : BS} {ne : ℕ}

theorem dense_has {x y : ℕ} (hx : ne ≤ x) (hy : ne ≤ y) : (denseStorage bs ne).has ne x y = true := by
  unfold Storage.has denseStorage
  simp [hx, hy]

theorem dense_fine (bs : BS) (ne : ℕ) : (denseStorage bs ne).Fine bs ne where
  blocks := rfl
  cols := numScalarEntries_tail bs ne
  diag := fun _ hx _ => dense_has hx hx
  covers := fun _ _ _ _ x y hx hxy _ h => by
    rw [dense_has hx (by omega)] at h
    exact absurd h (by simp)

/-- Where the elements of a dense reduced matrix are. -/
theorem dense_address {x y : ℕ} {c : CellRef} (h : (denseStorage bs ne).cell (x - ne) (y - ne) = some c) (i j : ℕ) :
    c.address i j = (fPos bs ne x + i) * fCols bs ne + (fPos bs ne y + j) := by
  unfold denseStorage at h
  simp only [Option.some.injEq] at h
  subst h
  unfold CellRef.address
  simp only [numScalarEntries_tail, Nat.zero_add]
  rfl

theorem dense_holds (m : SchurThreads.Mem) : ∃ v, (denseStorage bs ne).Holds ne (szOf bs) v m := by
  obtain ⟨H, hH⟩ := exists_buf (bs := bs) (ne := ne) fun x y i j => m (.lhs x y i j)
  refine ⟨fun k => H (k / fCols bs ne) (k % fCols bs ne), fun x y hx hy c hc i hi j hj => ?_⟩
  by_cases hx' : x < bs.cols.length
  · by_cases hy' : y < bs.cols.length
    · rw [dense_address hc]
      beta_reduce
      have h1 := fPos_bound (bs := bs) hy hy'
      have h2 : fPos bs ne y + j < fCols bs ne := by omega
      rw [show ((fPos bs ne x + i) * fCols bs ne + (fPos bs ne y + j)) / fCols bs ne = fPos bs ne x + i by
        rw [mul_comm, Nat.mul_add_div (by omega), Nat.div_eq_of_lt h2, add_zero],
        show ((fPos bs ne x + i) * fCols bs ne + (fPos bs ne y + j)) % fCols bs ne = fPos bs ne y + j by
        rw [mul_comm, Nat.mul_add_mod, Nat.mod_eq_of_lt h2]]
      exact hH x y hx hx' hy hy' ⟨i, hi⟩ ⟨j, hj⟩
    · rw [szOf_out hy'] at hj
      omega
  · rw [szOf_out hx'] at hi
    omega

theorem eqs_congr {n : ℕ} {H H' : Buf} (h : ∀ p < n, ∀ q < n, H p q = H' p q) {z r : Vec} (he : Eqs n H z r) :
    Eqs n H' z r := by
  intro i hi
  rw [← he i hi]
  exact Finset.sum_congr rfl fun j hj => by rw [h i hi j (Finset.mem_range.1 hj)]

theorem posDef_congr {n : ℕ} {H H' : Buf} (h : ∀ p < n, ∀ q < n, H p q = H' p q) (hp : PosDef n H) :
    PosDef n H' := by
  intro x hx
  refine lt_of_lt_of_eq (hp x hx) ?_
  exact Finset.sum_congr rfl fun i hi => Finset.sum_congr rfl fun j hj => by
    rw [h i (Finset.mem_range.1 hi) j (Finset.mem_range.1 hj)]

theorem dense_reduced {c : DenseChol} (hc : c.Correct) :
    ReducedOk (denseStorage bs ne) bs ne (denseReduced c (denseStorage bs ne)) fun _ => True := by
  intro v r H hsym hH
  have hn : (denseStorage bs ne).cols = fCols bs ne := (dense_fine bs ne).cols
  unfold denseReduced
  rw [hn]
  by_cases h0 : fCols bs ne = 0
  · rw [if_pos h0]
    exact ⟨true, _, (), rfl, fun _ i hi => by omega, fun _ => rfl, trivial⟩
  · rw [if_neg h0]
    have e : ∀ p < fCols bs ne, ∀ q < fCols bs ne, symUpper (fun i j => v (i * fCols bs ne + j)) p q = H p q := by
      have key : ∀ p < fCols bs ne, ∀ q < fCols bs ne, p ≤ q → v (p * fCols bs ne + q) = H p q := by
        intro p hp q hq hpq
        obtain ⟨x, hx, hx', i, hi, rfl, -⟩ := f_split hp
        obtain ⟨y, hy, hy', j, hj, rfl, -⟩ := f_split hq
        have hxy := f_block_le hx hx' hy hy' hi hj hpq
        rw [hH x y hx hxy hy' i hi j hj]
        have hcell : (denseStorage bs ne).cell (x - ne) (y - ne) = some _ := rfl
        rw [hcell, Option.elim_some, dense_address hcell]
      intro p hp q hq
      unfold symUpper
      split_ifs with hpq
      · exact key p hp q hq hpq
      · rw [hsym p hp q hq]
        exact key q hq p hp (by omega)
    have e' : ∀ p < fCols bs ne, ∀ q < fCols bs ne, H p q = symUpper (fun i j => v (i * fCols bs ne + j)) p q :=
      fun p hp q hq => (e p hp q hq).symm
    refine ⟨_, _, (), rfl, ?_, ?_, trivial⟩
    · intro hok
      unfold DenseChol.factorAndSolve at hok ⊢
      simp only at hok ⊢
      by_cases hfac : (c.factorize (fCols bs ne) fun i j => v (i * fCols bs ne + j)).1 = true
      · rw [if_pos hfac]
        exact eqs_congr e (hc.solves _ _ r hfac).2
      · rw [if_neg hfac] at hok
        exact absurd hok (by simp)
    · intro hpd
      have hfac := hc.complete _ _ (posDef_congr e' hpd)
      unfold DenseChol.factorAndSolve
      simp only
      rw [if_pos hfac]
      exact (hc.solves _ _ r hfac).1

/-- **DENSE_SCHUR**, from the arrays of the Jacobian to the array of the solution, on any number of threads and for
every schedule: a call returns; success means that `x` minimises `‖A x - b‖² + ‖D x‖²`; and if the minimiser is
unique the call succeeds. -/
theorem dense_schur {c : DenseChol} (hc : c.Correct) {inv : Inverter} (hinv : InvertsFullRank inv) {threads : ℕ}
    (ht : 0 < threads) {call : Call} (hf : Fits ne bs call) :
    (∃ o, DenseSolve c inv ne call threads o) ∧
      ∀ o, DenseSolve c inv ne call threads o → ∃ ok x, o = some (ok, x, ()) ∧ Good call ok x := by
  have hbs := hf.structure_
  unfold DenseSolve
  rw [hbs]
  refine ⟨solve_exists hf (dense_fine bs ne) hinv ht (dense_reduced hc) dense_holds, fun o ho => ?_⟩
  obtain ⟨ok, x, s, h1, h2, -⟩ := solve_good hf (dense_fine bs ne) hinv ht (dense_reduced hc) ho
  exact ⟨ok, x, h1, h2⟩

end Ceres.SchurDirect
