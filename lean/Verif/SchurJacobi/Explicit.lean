import Verif.SchurJacobi.Multiply
import Verif.SchurMatrix.Reduced
import Verif.SchurJacobi.ExplicitSpec
import Verif.CG.Early

/-!
# The reduced system by conjugate gradients
-/

noncomputable section

namespace Ceres.SchurJacobi

open Matrix Ceres.BlockSparse Ceres.InnerProduct Ceres.Direct Ceres.Schur Ceres.SchurDirect Ceres.SchurMatrix
open Ceres.CG (SPD)
open Ceres.PartitionedView (Does Gives diagPos offset sqOffset LltOk)

variable {bs : BS} {ne : ℕ}

/-! ## The copy of the diagonal -/

theorem sparse_diag_cell {x : ℕ} (hx : ne ≤ x) (hx' : x < bs.cols.length) :
    ∃ p, (sparseStorage bs ne).cell (x - ne) (x - ne) = some ⟨p, 0, 0, szOf bs x, szOf bs x⟩ := by
  have h := (sparse_fine bs ne).diag x hx hx'
  unfold Storage.has at h
  simp only [hx, decide_true, Bool.true_and] at h
  obtain ⟨c, hc⟩ := Option.isSome_iff_exists.1 h
  have hc' := hc
  unfold sparseStorage at hc'
  obtain ⟨p, -, rfl⟩ := Option.map_eq_some_iff.1 hc'
  refine ⟨p, ?_⟩
  rw [hc, blockAt_tail hx]

theorem copyDiagonal_upTo (v pre : Vec) (m : ℕ) (hm : m ≤ bs.cols.length - ne) :
    ∃ d, (List.range m).foldlM (fun pre i => ((sparseStorage bs ne).cell i i).map fun c =>
        copyBlock (blockAt (tail bs.cols ne) i).size c.values (diagPos (diagonal (tail bs.cols ne)) i) v pre) pre = some d ∧
      ∀ x, ne ≤ x → x < ne + m → ∀ c, (sparseStorage bs ne).cell (x - ne) (x - ne) = some c →
        ∀ i < szOf bs x, ∀ j < szOf bs x, d (sqOffset (tail bs.cols ne) (x - ne) + i * szOf bs x + j) = v (c.address i j) := by
  induction m with
  | zero => exact ⟨pre, rfl, fun x _ _ => by omega⟩
  | succ m ih =>
    obtain ⟨d, h1, h2⟩ := ih (by omega)
    have hx : ne ≤ ne + m := by omega
    have hx' : ne + m < bs.cols.length := by omega
    obtain ⟨p, hp⟩ := sparse_diag_cell hx hx'
    have hbl := blockAt_tail (bs := bs) hx
    rw [Nat.add_sub_cancel_left] at hp hbl
    have hpos : diagPos (diagonal (tail bs.cols ne)) m = sqOffset (tail bs.cols ne) m :=
      diagPos_diagonal (by rw [tail_length]; omega)
    refine ⟨copyBlock (szOf bs (ne + m)) p (sqOffset (tail bs.cols ne) m) v d, ?_, ?_⟩
    · rw [List.range_succ, List.foldlM_append, h1]
      simp only [List.foldlM_cons, List.foldlM_nil, hp, hbl, hpos]
      rfl
    · intro x hx1 hx2 c hc i hi j hj
      unfold copyBlock
      have hslot : i * szOf bs x + j < szOf bs x * szOf bs x := by
        have : (i + 1) * szOf bs x ≤ szOf bs x * szOf bs x := Nat.mul_le_mul_right _ hi
        rw [Nat.add_mul, Nat.one_mul] at this
        omega
      rcases Nat.lt_or_ge x (ne + m) with h | h
      · rw [if_neg, h2 x hx1 h c hc i hi j hj]
        have e := PartitionedView.sqOffset_succ (tail_get hx1 (by omega : x < bs.cols.length))
        have e2 := PartitionedView.sqOffset_mono (tail bs.cols ne) (i := x - ne + 1) (j := m) (by omega)
        simp only at e
        omega
      · obtain rfl : x = ne + m := by omega
        rw [Nat.add_sub_cancel_left] at hc ⊢
        rw [hp] at hc
        cases hc
        rw [if_pos (by omega)]
        unfold CellRef.address
        simp only [Nat.zero_add]
        congr 1
        omega

/-- The copy holds the diagonal blocks. -/
theorem copyDiagonal_holds {v : Vec} {H : Buf}
    (hH : ∀ x y, ne ≤ x → x ≤ y → y < bs.cols.length → ∀ i < szOf bs x, ∀ j < szOf bs y,
      H (fPos bs ne x + i) (fPos bs ne y + j) =
        ((sparseStorage bs ne).cell (x - ne) (y - ne)).elim 0 fun c => v (c.address i j)) (pre : Vec) :
    ∃ d, copyDiagonal (sparseStorage bs ne) v pre = some d ∧ HoldsDiagonal bs ne H d := by
  obtain ⟨d, h1, h2⟩ := copyDiagonal_upTo v pre (bs.cols.length - ne) le_rfl
  refine ⟨d, ?_, fun x hx hx' i hi j hj => ?_⟩
  · unfold copyDiagonal
    have : (sparseStorage bs ne).blocks.length = bs.cols.length - ne := tail_length bs ne
    rw [this]
    exact h1
  · obtain ⟨p, hp⟩ := sparse_diag_cell hx hx'
    rw [h2 x hx (by omega) _ hp i hi j hj, hH x x hx le_rfl hx' i hi j hj, hp]
    rfl

/-! ## Conjugate gradients -/

/-- The value of the reduced problem, without its constant. -/
def reducedCost (n : ℕ) (H : Buf) (r z : Vec) : ℝ := quadratic n H z - 2 * ∑ p ∈ Finset.range n, r p * z p

theorem qf_cost {n : ℕ} (H : Buf) (r : Vec) (x : CG.Vec n) :
    CG.qf (corner n H) (front n r) x = reducedCost n H r (extend x) := by
  have e := corner_quadratic n H (extend x)
  rw [front_extend] at e
  unfold CG.qf reducedCost
  rw [e, dotProduct, Finset.sum_range]
  congr 2
  refine Finset.sum_congr rfl fun i _ => ?_
  have := congrFun (front_extend x) i
  unfold front at this ⊢
  rw [this]

theorem reduced_outcome {call : Call} (hf : Fits ne bs call) {llt : (n : ℕ) → Matrix (Fin n) (Fin n) ℝ → Matrix (Fin n) (Fin n) ℝ}
    {threads : ℕ} (ht : 0 < threads) (o : CG.Options) {v r : Vec} {H : Buf}
    (hs : ∀ p < fCols bs ne, ∀ q < fCols bs ne, H p q = H q p)
    (hH : ∀ x y, ne ≤ x → x ≤ y → y < bs.cols.length → ∀ i < szOf bs x, ∀ j < szOf bs y,
      H (fPos bs ne x + i) (fPos bs ne y + j) =
        ((sparseStorage bs ne).cell (x - ne) (y - ne)).elim 0 fun c => v (c.address i j)) {out : Option (Bool × Vec × CG.Term)}
    (h : Reduced llt o threads (sparseStorage bs ne) (reducedStructure bs ne) v r out) :
    ∃ ok z t, out = some (ok, z, t) ∧ (ok = true ↔ t = .success) ∧ reducedCost (fCols bs ne) H r z ≤ 0 ∧
      (LltOk llt → PosDef (fCols bs ne) H → Exact o (fCols bs ne) → ok = true ∧ Eqs (fCols bs ne) H z r) ∧
      (LltOk llt → PosDef (fCols bs ne) H → CG.Early o → (∃ p < fCols bs ne, r p ≠ 0) →
        t = .noConvergence ∧ ∃ p < fCols bs ne, z p ≠ 0) := by
  have hcols : (sparseStorage bs ne).cols = fCols bs ne := (sparse_fine bs ne).cols
  have hblocks : (sparseStorage bs ne).blocks = tail bs.cols ne := rfl
  unfold Reduced at h
  rw [hblocks] at h
  generalize (sparseStorage bs ne).cols = n at h hcols
  subst hcols
  split_ifs at h with h0
  · refine ⟨true, _, _, h, by simp, ?_, fun _ _ _ => ⟨rfl, fun i hi => by omega⟩,
      fun _ _ _ ⟨p, hp, _⟩ => by omega⟩
    unfold reducedCost quadratic
    rw [h0]
    simp
  · obtain ⟨pre, h⟩ := h
    obtain ⟨d, hd, hdiag⟩ := copyDiagonal_holds hH pre
    rw [hd] at h
    simp only at h
    obtain ⟨e, he, h⟩ := h
    obtain ⟨w, hw, hval⟩ := invert_run (L := tail bs.cols ne) llt d ht
    obtain rfl := (hw e).1 he
    simp only at h
    set G : Matrix (Fin (fCols bs ne)) (Fin (fCols bs ne)) ℝ := Matrix.of fun i j =>
      (BMat.ofStructure (diagonal (tail bs.cols ne)) w).entry i j with hG
    have gives := fun x y => rightMultiply_gives w ht (offset_all bs ne) (G := G) (fun _ _ => rfl) x y
    rcases h with ⟨x, y, h, -⟩ | ⟨prec, hprec, rfl⟩
    · obtain ⟨z, h1, -⟩ := gives x y
      exact nomatch (h1 _).1 h
    set lhs : CG.Op (fCols bs ne) := fun x y => front (fCols bs ne)
      (symmetricMultiply (tail bs.cols ne) (reducedStructure bs ne) v (extend x) (extend y)) with hlhs
    have happ : CG.Applies lhs (corner (fCols bs ne) H) := by
      intro x
      funext i
      show symmetricMultiply _ _ _ _ _ _ = _
      rw [symmetricMultiply_spec hf hs hH _ _ i.2, ← corner_mulVec, front_extend]
      have : extend (0 : CG.Vec (fCols bs ne)) i = 0 := by
        unfold extend
        split <;> rfl
      rw [this, zero_add]
    have hpre : CG.Applies prec G := by
      intro x
      obtain ⟨z, h1, h2⟩ := hprec x 0
      obtain ⟨z', k1, k2, -⟩ := gives (extend x) (extend 0)
      obtain rfl : z = z' := by simpa using (k1 _).1 h1
      rw [h2]
      funext i
      have := k2 i
      rw [front_extend, front_extend, zero_add] at this
      exact this
    have hsymm : (corner (fCols bs ne) H).IsSymm := by
      ext i j
      exact hs j j.2 i i.2
    have hspd := fun hp => corner_spd hs hp
    have hGs : LltOk llt → PosDef (fCols bs ne) H → SPD G := by
      intro hl hp
      have hGe : G = (CG.blockDiag (fun i : Fin (fCols bs ne) => blockOf (tail bs.cols ne) i) (corner (fCols bs ne) H))⁻¹ := by
        obtain ⟨w', k1, k2⟩ := invert_diagonal hl hs hp hdiag ht
        obtain rfl : w = w' := by simpa using (k1 _).1 he
        ext i j
        exact k2 i j
      rw [hGe]
      exact (CG.blockDiag_spd (hspd hp) _).inv
    refine ⟨_, _, _, rfl, by simp, ?_, fun hl hp ho => ?_, fun hl hp ho hr => ?_⟩
    · rw [← qf_cost]
      by_cases hb : front (fCols bs ne) r = 0
      · have : (CG.solver o lhs prec (front (fCols bs ne) r) 0).x = 0 := by
          unfold CG.solver
          simp [hb, CG.norm2]
        rw [this]
        simp [CG.qf]
      · refine (CG.cg_never_worse o happ hsymm _ 0 hb).1.trans (le_of_eq ?_)
        simp [CG.qf]
    · obtain ⟨c1, -, -, c4⟩ := CG.cg_converges o happ hpre (hspd hp) (hGs hl hp) ho.q ho.r.ge ho.min ho.max
        (front (fCols bs ne) r)
      refine ⟨by simpa using c1, fun i hi => ?_⟩
      have := congrFun (c4 ho.r) ⟨i, hi⟩
      rw [← front_extend (CG.solver o lhs prec (front (fCols bs ne) r) 0).x, corner_mulVec] at this
      exact this
    · obtain ⟨p, hp', hr⟩ := hr
      obtain ⟨c1, c2⟩ := CG.cg_early ho happ hpre (hspd hp) (hGs hl hp) (b := front (fCols bs ne) r)
        fun h => hr (congrFun h ⟨p, hp'⟩)
      obtain ⟨i, hi⟩ := Function.ne_iff.1 c2
      refine ⟨c1, i, i.2, ?_⟩
      have := congrFun (front_extend (CG.solver o lhs prec (front (fCols bs ne) r) 0).x) i
      exact fun h0 => hi (this.symm.trans h0)

/-- There are executions. -/
theorem reduced_exists (llt : (n : ℕ) → Matrix (Fin n) (Fin n) ℝ → Matrix (Fin n) (Fin n) ℝ) {threads : ℕ} (ht : 0 < threads)
    (o : CG.Options) (v r : Vec) :
    ∃ out, Reduced llt o threads (sparseStorage bs ne) (reducedStructure bs ne) v r out := by
  have hcols : (sparseStorage bs ne).cols = fCols bs ne := (sparse_fine bs ne).cols
  have hblocks : (sparseStorage bs ne).blocks = tail bs.cols ne := rfl
  unfold Reduced
  rw [hblocks]
  generalize (sparseStorage bs ne).cols = n at hcols
  subst hcols
  split_ifs with h0
  · exact ⟨_, rfl⟩
  · obtain ⟨d, h1, -⟩ := copyDiagonal_upTo (bs := bs) (ne := ne) v (fun _ => 0) (bs.cols.length - ne) le_rfl
    have hd : copyDiagonal (sparseStorage bs ne) v (fun _ => 0) = some d := by
      unfold copyDiagonal
      have : (sparseStorage bs ne).blocks.length = bs.cols.length - ne := tail_length bs ne
      rw [this]
      exact h1
    obtain ⟨w, hw, -⟩ := invert_run (L := tail bs.cols ne) llt d ht
    have gives := fun x y => rightMultiply_gives w ht (offset_all bs ne) (G := Matrix.of fun i j =>
      (BMat.ofStructure (diagonal (tail bs.cols ne)) w).entry i j) (fun _ _ => rfl) x y
    choose z hz using gives
    let s := CG.solver o (fun x y => front (fCols bs ne) (symmetricMultiply (tail bs.cols ne) (reducedStructure bs ne) v
      (extend x) (extend y))) (fun x y => front (fCols bs ne) (z (extend x) (extend y)))
      (front (fCols bs ne) r) 0
    refine ⟨some (decide (s.termination = .success), extend s.x, s.termination), fun _ => 0, ?_⟩
    rw [hd]
    exact ⟨some w, (hw _).2 rfl, .inr ⟨fun x y => front _ (z (extend x) (extend y)),
      fun x y => ⟨_, ((hz (extend x) (extend y)).1 _).2 rfl, rfl⟩, rfl⟩⟩

end Ceres.SchurJacobi
