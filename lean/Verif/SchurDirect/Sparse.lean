import Verif.SchurDirect.Convert
import Verif.SchurDirect.Dense

/-!
# C82: SPARSE_SCHUR
-/

noncomputable section

namespace Ceres.SchurDirect

open Ceres.BlockSparse Ceres.InnerProduct Ceres.Direct Ceres.SchurThreads

variable {bs : BS} {ne : ℕ}

theorem sz_pos {call : Call} (hf : Fits ne bs call) {b : ℕ} (hb : b < bs.cols.length) : 0 < szOf bs b :=
  hf.cols _ (col_mem hb)

theorem reduced_square {call : Call} (hf : Fits ne bs call) : Square (reducedStructure bs ne) (fCols bs ne) where
  ok := reduced_ok hf
  rows := reduced_numRows (bs := bs) (ne := ne) fun _ => 0
  cols := tail_sum bs ne
  sorted := reduced_sorted bs ne
  sizes := by
    intro r hr c hc
    have h1 := (reduced_ok hf fun _ => 0).bs.ids r hr c hc
    have h1 : c.blockId < (tail bs.cols ne).length := h1
    rw [tail_length] at h1
    have e : ((reducedStructure bs ne).col (ne + c.blockId - ne)).size = szOf bs (ne + c.blockId) :=
      blockAt_tail (Nat.le_add_right _ _)
    rw [Nat.add_sub_cancel_left] at e
    have := sz_pos hf (b := ne + c.blockId) (by omega)
    omega

theorem find_sum {cells : List Cell} (hs : (cells.map Cell.blockId).Pairwise (· < ·)) (y : ℕ) (g : ℕ → ℝ) :
    (cells.map fun c => if c.blockId = y then g c.position else 0).sum =
      ((cells.find? fun c => c.blockId = y).map Cell.position).elim 0 g := by
  induction cells with
  | nil => rfl
  | cons c cs ih =>
    rw [List.map_cons, List.pairwise_cons] at hs
    rw [List.map_cons, List.sum_cons, List.find?_cons]
    by_cases h : c.blockId = y
    · rw [if_pos h, decide_eq_true h]
      have : (cs.map fun c => if c.blockId = y then g c.position else 0).sum = 0 := by
        refine List.sum_eq_zero fun z hz => ?_
        obtain ⟨d, hd, rfl⟩ := List.mem_map.1 hz
        have := hs.1 _ (List.mem_map_of_mem hd)
        exact if_neg (by omega)
      rw [this]
      simp
    · rw [if_neg h, decide_eq_false h, ih hs.2]
      simp

/-- The elements of the reduced matrix. -/
theorem reduced_entry {call : Call} (hf : Fits ne bs call) (v : Vec) {x y : ℕ} (hx : ne ≤ x)
    (hx' : x < bs.cols.length) (hy : ne ≤ y) (hy' : y < bs.cols.length) {i j : ℕ} (hi : i < szOf bs x)
    (hj : j < szOf bs y) :
    (reducedStructure bs ne).entry v (fPos bs ne x + i) (fPos bs ne y + j) =
      ((sparseStorage bs ne).cell (x - ne) (y - ne)).elim 0 fun c => v (c.address i j) := by
  have hok := reduced_ok hf v
  obtain ⟨r, hr, hb⟩ := reduced_some (bs := bs) hx hx'
  have hcol : (reducedStructure bs ne).col (y - ne) = ⟨szOf bs y, fPos bs ne y⟩ := by
    show (tail bs.cols ne).getD _ _ = _
    rw [List.getD_eq_getElem?_getD, tail_get hy hy']
    rfl
  have hlen : y - ne < (reducedStructure bs ne).cols.length := by
    show y - ne < (tail bs.cols ne).length
    rw [tail_length]
    omega
  have h := entry_row hok.bs.cols hok.bs.rows hok.bs.ids v (List.mem_of_getElem? hr) (k := i) (i := y - ne) (a := j)
    (by rw [hb]; exact hi) hlen (by
      show j < ((reducedStructure bs ne).col (y - ne)).size
      rw [hcol]; exact hj)
  have h : (reducedStructure bs ne).entry v (r.block.position + i) (((reducedStructure bs ne).col (y - ne)).position + j)
    = rowEntry (reducedStructure bs ne) v r i (y - ne) j := h
  rw [hb, hcol] at h
  rw [h]
  unfold rowEntry
  rw [hcol]
  rw [find_sum (reduced_sorted bs ne r (List.mem_of_getElem? hr)) (y - ne) fun p => v (p + i * szOf bs y + j)]
  unfold sparseStorage layoutFind
  simp only
  rw [hr, Option.bind_some, blockAt_tail hy]
  cases (List.find? (fun c => decide (c.blockId = y - ne)) r.cells) with
  | none => rfl
  | some d =>
    simp [CellRef.address]

/-- What is kept between calls. -/
def Inv (c : SparseChol) (bs : BS) (ne : ℕ) (K : Kept c) : Prop :=
  (K.crs = none ∧ K.chol = c.init) ∨
  ∃ A v P, K.crs = some A ∧ CrsOf c.upper (reducedStructure bs ne) (fCols bs ne) A v ∧ Reach c P K.chol ∧ SamePattern P A

theorem pattern_trans {A B C : Sparse.Mat ℝ} (h : SamePattern A B) (hB : B.nnz = A.nnz) (h' : SamePattern B C) :
    SamePattern A C := by
  obtain ⟨a1, a2, a3, a4⟩ := h
  obtain ⟨b1, b2, b3, b4⟩ := h'
  refine ⟨a1.trans b1, a2.trans b2, fun r hr => (a3 r hr).trans (b3 r (by omega)), fun i hi => (a4 i hi).trans (b4 i ?_)⟩
  rw [hB]
  exact hi

theorem pattern_nnz {A B : Sparse.Mat ℝ} (h : SamePattern A B) : B.nnz = A.nnz := by
  unfold Sparse.Mat.nnz
  rw [← h.1, h.2.2.1 _ le_rfl]

theorem sparse_reduced {c : SparseChol} (hc : c.Correct) {call : Call} (hf : Fits ne bs call) {K : Kept c}
    (hK : Inv c bs ne K) (old : Vec) :
    ReducedOk (sparseStorage bs ne) bs ne (sparseReduced c K (reducedStructure bs ne) old) (Inv c bs ne) := by
  intro v r H hsym hH
  have hsq := reduced_square hf
  unfold sparseReduced
  simp only
  rw [reduced_numRows]
  by_cases h0 : fCols bs ne = 0
  · rw [if_pos h0]
    exact ⟨true, _, K, rfl, fun _ i hi => by omega, fun _ => rfl, hK⟩
  rw [if_neg h0]
  obtain ⟨A, hA, hcrs⟩ := theCrs_spec (upper := c.upper) hsq (crs := K.crs) (by
    intro A hA
    rcases hK with ⟨h1, -⟩ | ⟨B, w, P, h1, h2, -⟩
    · rw [h1] at hA; cases hA
    · rw [h1] at hA
      cases hA
      exact ⟨w, h2⟩) v old
  have hin := crs_input hsq hcrs
  obtain ⟨P, hreach, hpat⟩ : ∃ P, Reach c P K.chol ∧ SamePattern P A := by
    rcases hK with ⟨-, h2⟩ | ⟨B, w, P, -, h2, h3, h4⟩
    · exact ⟨A, by rw [h2]; exact .init, rfl, rfl, fun _ _ => rfl, fun _ _ => rfl⟩
    · exact ⟨P, h3, pattern_trans h4 (pattern_nnz h4) (crs_pattern h2 hcrs)⟩
  have e : ∀ p < fCols bs ne, ∀ q < fCols bs ne, A.sym p q = H p q := by
    have key : ∀ p < fCols bs ne, ∀ q < fCols bs ne, p ≤ q → (reducedStructure bs ne).entry v p q = H p q := by
      intro p hp q hq hpq
      obtain ⟨x, hx, hx', i, hi, rfl, -⟩ := f_split hp
      obtain ⟨y, hy, hy', j, hj, rfl, -⟩ := f_split hq
      rw [reduced_entry hf v hx hx' hy hy' hi hj, hH x y hx (f_block_le hx hx' hy hy' hi hj hpq) hy' i hi j hj]
    intro p hp q hq
    rw [crs_sym hsq hcrs hp hq]
    split_ifs with hpq
    · exact key p hp q hq hpq
    · rw [key q hq p hp (by omega), hsym q hq p hp]
  have hn : A.numCols = fCols bs ne := hcrs.numCols
  rw [hA]
  simp only [Option.bind_eq_bind, Option.bind_some]
  refine ⟨_, _, _, rfl, ?_, ?_, Or.inr ⟨A, v, P, rfl, hcrs, ?_, hpat⟩⟩
  · intro hsucc
    unfold SparseChol.factorAndSolve at hsucc ⊢
    simp only at hsucc ⊢
    by_cases hfac : (c.factorize K.chol A).1 = true
    · rw [if_pos hfac]
      have hsol := (hc.solves P K.chol A r hreach hin hpat hfac).2
      rw [hn] at hsol
      exact eqs_congr e hsol
    · rw [if_neg hfac] at hsucc
      cases hsucc
  · intro hpd
    have hpd : PosDef A.numCols A.sym := by
      rw [hn]
      exact posDef_congr (fun p hp q hq => (e p hp q hq).symm) hpd
    have hfac := hc.complete P K.chol A hreach hin hpat hpd
    unfold SparseChol.factorAndSolve
    simp only
    rw [if_pos hfac]
    exact (hc.solves P K.chol A r hreach hin hpat hfac).1
  · show Reach c P (c.factorAndSolve K.chol A r fun _ => 0).2.2
    have : (c.factorAndSolve K.chol A r fun _ => 0).2.2 = (c.factorize K.chol A).2 := by
      unfold SparseChol.factorAndSolve
      simp only
      split_ifs <;> rfl
    rw [this]
    exact .factorize _ hreach hin hpat

theorem after_inv {c : SparseChol} (hc : c.Correct) {inv : Schur.Inverter} (hinv : Schur.InvertsFullRank inv)
    {threads : ℕ} (ht : 0 < threads) {calls : List Call} (hcalls : ∀ call ∈ calls, Fits ne bs call) {K : Kept c}
    (hK : After c inv ne threads calls K) : Inv c bs ne K := by
  induction hK with
  | nil => exact Or.inl ⟨rfl, rfl⟩
  | snoc call ok x K' _ hs ih =>
    have hf := hcalls call (by simp)
    have ih := ih fun call h => hcalls call (List.mem_append_left _ h)
    obtain ⟨old, hs⟩ := hs
    rw [hf.structure_] at hs
    obtain ⟨ok', x', s, he, -, hI⟩ := solve_good hf (sparse_fine bs ne) hinv ht (sparse_reduced hc hf ih old) hs
    cases he
    exact hI

/-- **SPARSE_SCHUR**: for a correct sparse factorisation and a correct inverse of the e blocks, after any history of
calls with one block structure, on any number of threads and for every schedule, a call returns; success means that
`x` minimises `‖A x - b‖² + ‖D x‖²` over all `x`; and if the minimiser is unique the call succeeds. -/
theorem sparse_schur {c : SparseChol} (hc : c.Correct) {inv : Schur.Inverter} (hinv : Schur.InvertsFullRank inv)
    {threads : ℕ} (ht : 0 < threads) {calls : List Call} (hcalls : ∀ call ∈ calls, Fits ne bs call) {K : Kept c}
    (hK : After c inv ne threads calls K) {call : Call} (hf : Fits ne bs call) :
    (∃ o, SparseSolve c K inv ne call threads o) ∧
      ∀ o, SparseSolve c K inv ne call threads o → ∃ ok x K', o = some (ok, x, K') ∧ Good call ok x := by
  have hI := after_inv hc hinv ht hcalls hK
  constructor
  · obtain ⟨o, ho⟩ := solve_exists hf (sparse_fine bs ne) hinv ht (sparse_reduced hc hf hI fun _ => 0)
      (sparse_holds hf)
    refine ⟨o, fun _ => 0, ?_⟩
    rw [hf.structure_]
    exact ho
  · rintro o ⟨old, ho⟩
    rw [hf.structure_] at ho
    obtain ⟨ok, x, s, he, hg, -⟩ := solve_good hf (sparse_fine bs ne) hinv ht (sparse_reduced hc hf hI old) ho
    exact ⟨ok, x, s, he, hg⟩

/-- Such a history is possible. -/
theorem after_exists {c : SparseChol} (hc : c.Correct) {inv : Schur.Inverter} (hinv : Schur.InvertsFullRank inv)
    {threads : ℕ} (ht : 0 < threads) (calls : List Call) (hcalls : ∀ call ∈ calls, Fits ne bs call) :
    ∃ K, After c inv ne threads calls K := by
  induction calls using List.reverseRecOn with
  | nil => exact ⟨_, .nil⟩
  | append_singleton calls call ih =>
    obtain ⟨K, hK⟩ := ih fun call h => hcalls call (List.mem_append_left _ h)
    obtain ⟨⟨o, ho⟩, hall⟩ := sparse_schur hc hinv ht (fun call h => hcalls call (List.mem_append_left _ h)) hK
      (hcalls call (by simp))
    obtain ⟨ok, x, K', rfl, -⟩ := hall o ho
    exact ⟨_, .snoc call ok x K' hK ho⟩

end Ceres.SchurDirect
