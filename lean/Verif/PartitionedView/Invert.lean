import Verif.PartitionedView.Calls

/-!
# The loop that inverts the blocks of a block diagonal
-/
namespace Ceres.PartitionedView

open Matrix Ceres.Tasks Ceres.BlockSparse

variable {K : Type} [CommRing K] {bs : BS} {a b : ℕ}

/-- What `AddDiagonalAndInvert` puts in place of a block: block `k` of size `n`, with values `v`. -/
def blockMat (L : List Block) (v : ℕ → K) (D : Option (ℕ → K)) (k n : ℕ) : Matrix (Fin n) (Fin n) K :=
  Matrix.of (fun i j : Fin n => v (sqOffset L k + i * n + j)) +
    D.elim 0 fun d => Matrix.diagonal fun i : Fin n => d (offset L k + i) ^ 2

/-- The index that owns a value. -/
def ownCell (L : List Block) (p : ℕ) : ℕ := blockOf (cellsFrom 0 L) p

theorem ownCell_eq {L : List Block} {k : ℕ} {blk : Block} (h : L[k]? = some blk) {i j : ℕ} (hi : i < blk.size)
    (hj : j < blk.size) : ownCell L (sqOffset L k + i * blk.size + j) = k := by
  have := slot_lt (i := i) (j := j) (n := blk.size) hi hj
  refine blockOf_eq (laid_cells 0 L) (i := k) (b := ⟨blk.size * blk.size, sqOffset L k⟩) ?_ ?_ ?_
  · rw [cellsFrom_get, h]; simp
  · show sqOffset L k ≤ _
    omega
  · show _ < sqOffset L k + blk.size * blk.size
    omega

theorem ownCell_lt {L : List Block} {p : ℕ} (h : ownCell L p < L.length) : p < sqOffset L L.length := by
  have := blockOf_lt (laid_cells 0 L) (r := p) (by rw [cellsFrom_length]; exact h)
  rw [cellsFrom_sum] at this
  omega

section
variable (llt : (n : ℕ) → Matrix (Fin n) (Fin n) K → Matrix (Fin n) (Fin n) K)

/-- The assignments of index `k`. -/
def invEs (L : List Block) (v : ℕ → K) (D : Option (ℕ → K)) (k : ℕ) : List (Loc × K) :=
  match L[k]? with
  | none => []
  | some blk => matEntries (llt blk.size (blockMat L v D k blk.size)) fun i j : Fin blk.size =>
      .y (sqOffset L k + i * blk.size + j)

/-- What the loop leaves. -/
def invFin (L : List Block) (v : ℕ → K) (D : Option (ℕ → K)) : Mem K
  | .y p => setTo (invEs llt L v D (ownCell L p)) (mem (D.getD 0) v v) (.y p)
  | l => mem (D.getD 0) v v l

theorem invEs_mem {L : List Block} {v : ℕ → K} {D : Option (ℕ → K)} {k : ℕ} {e : Loc × K}
    (h : e ∈ invEs llt L v D k) : ∃ p, e.1 = .y p ∧ ownCell L p = k := by
  unfold invEs at h
  cases hb : L[k]? with
  | none => rw [hb] at h; cases h
  | some blk =>
    rw [hb] at h
    obtain ⟨i, j, rfl⟩ := mem_matEntries.1 h
    exact ⟨_, rfl, ownCell_eq hb i.2 j.2⟩

theorem invFin_slot {L : List Block} (v : ℕ → K) (D : Option (ℕ → K)) {k : ℕ} {blk : Block} (h : L[k]? = some blk)
    (i j : Fin blk.size) : invFin llt L v D (.y (sqOffset L k + i * blk.size + j)) =
      llt blk.size (blockMat L v D k blk.size) i j := by
  show setTo (invEs llt L v D (ownCell L _)) _ _ = _
  rw [ownCell_eq h i.2 j.2]
  unfold invEs
  rw [h]
  refine setTo_of_mem (e := (Loc.y (sqOffset L k + i * blk.size + j),
    llt blk.size (blockMat L v D k blk.size) i j)) (matEntries_nodup ?_) (mem_matEntries.2 ⟨i, j, rfl⟩)
  intro i j i' j' he
  injection he with he
  have := slot_inj (n := blk.size) (i := i) (i' := i') j.2 j'.2 (by omega)
  exact ⟨Fin.ext this.1, Fin.ext this.2⟩

theorem invert_disciplined (L : List Block) (hL : L = blocksOf bs a b) (v : ℕ → K) (D : Option (ℕ → K))
    (threads : ℕ) :
    Disciplined (ownKind (ownCell L) (if D.isSome then offset L L.length else 0) 0 L.length)
      (invertTask llt (layout bs a b) D.isSome) 0 L.length threads (mem (D.getD 0) v v)
      (invFin llt L v D) fun _ _ => 0 := by
  refine ⟨fun k tid _ hk _ p hm => ⟨setTo (invEs llt L v D k) p, [], ?_, ?_, ?_⟩⟩
  · obtain ⟨blk, hb⟩ : ∃ blk, L[k]? = some blk := ⟨_, List.getElem?_eq_getElem hk⟩
    have hrow := layout_row bs a b k
    rw [← hL, hb, Option.map_some] at hrow
    have hpos : diagPos (layout bs a b) k = sqOffset L k := by
      rw [hL]; exact diagPos_eq bs (by rw [← hL]; exact hk)
    have hmine : ∀ (i j : Fin blk.size), Mine (ownKind (ownCell L)
        (if D.isSome then offset L L.length else 0) 0 L.length) tid k (.y (sqOffset L k + i * blk.size + j)) :=
      fun i j => Or.inr (by simp only [ownKind]; rw [ownCell_eq hb i.2 j.2])
    have hval : ∀ (i j : Fin blk.size), p (.y (sqOffset L k + i * blk.size + j)) =
        v (sqOffset L k + i * blk.size + j) := fun i j =>
      hm _ (by simp only [ownKind]; rw [ownCell_eq hb i.2 j.2])
    unfold invertTask
    rw [hrow]
    simp only [hpos]
    refine runs_readMat hmine ?_
    have hA : (fun (i j : Fin blk.size) => p (.y (sqOffset L k + i * blk.size + j))) =
        fun i j : Fin blk.size => v (sqOffset L k + i * blk.size + j) := by
      funext i j; exact hval i j
    simp only [hA]
    have hes : ∀ e ∈ invEs llt L v D k, Mine (ownKind (ownCell L)
        (if D.isSome then offset L L.length else 0) 0 L.length) tid k e.1 := by
      intro e he
      obtain ⟨q, h1, h2⟩ := invEs_mem llt he
      exact Or.inr (by rw [h1]; simp only [ownKind]; rw [h2])
    have hE : invEs llt L v D k = matEntries (llt blk.size (blockMat L v D k blk.size))
        fun i j : Fin blk.size => .y (sqOffset L k + i * blk.size + j) := by
      unfold invEs; rw [hb]
    rw [hE] at hes ⊢
    cases D with
    | none =>
      have : blockMat L v none k blk.size = Matrix.of fun i j : Fin blk.size => v (sqOffset L k + i * blk.size + j) := by
        simp [blockMat]
      rw [this] at hes ⊢
      exact runs_writes _ hes (.ret _)
    | some d =>
      simp only [Option.isSome_some, if_true] at hes ⊢
      refine runs_readVec_fixed ?_ ?_
      · intro j
        refine if_pos ?_
        have h1 := offset_succ hb
        have h2 := offset_mono L (i := k + 1) (j := L.length) hk
        have := j.2
        omega
      · exact runs_writes _ hes (.ret _)
  · intro l hl
    cases l with
    | y q =>
      have hq : ownCell L q = k := by
        have : Kind.own (M := Empty) (ownCell L q) = .own k := hl
        injection this
      show _ = setTo (invEs llt L v D (ownCell L q)) _ _
      rw [hq]
      have key : ∀ (es : List (Loc × K)) (p p' : Mem K) (l : Loc), p l = p' l → setTo es p l = setTo es p' l := by
        intro es
        induction es with
        | nil => intro p p' l h; exact h
        | cons e es ih =>
          intro p p' l h
          refine ih (upd p e.1 e.2) (upd p' e.1 e.2) l ?_
          unfold upd
          split_ifs <;> simp [h]
      exact key _ _ _ _ (hm _ hl)
    | x j =>
      simp only [ownKind] at hl
      split_ifs at hl with h1 h1 <;> (injection hl with hl; omega)
    | val j =>
      simp only [ownKind] at hl
      split_ifs at hl with h1
      injection hl with hl
      omega
  · intro l x hl
    cases x

/-- **Every block is replaced by the inverse that the factorisation gives**, on any number of threads. -/
theorem invert_run (v : ℕ → K) (D : Option (ℕ → K)) {threads : ℕ} (ht : 0 < threads) :
    ∃ y, (∀ o, addDiagonalAndInvert llt threads (BMat.ofStructure (layout bs a b) v) D v o ↔ o = some y) ∧
      (∀ k blk, (blocksOf bs a b)[k]? = some blk → ∀ i j : Fin blk.size,
        y (sqOffset (blocksOf bs a b) k + i * blk.size + j) =
          llt blk.size (blockMat (blocksOf bs a b) v D k blk.size) i j) ∧
      ∀ p, sqOffset (blocksOf bs a b) (blocksOf bs a b).length ≤ p → y p = v p := by
  have hD := invert_disciplined (bs := bs) (a := a) (b := b) llt _ rfl v D threads
  have hlen := layout_length bs a b
  refine ⟨fun p => if ownCell (blocksOf bs a b) p < (blocksOf bs a b).length
    then invFin llt (blocksOf bs a b) v D (.y p) else v p, fun o => ?_, ?_, ?_⟩
  · have key : ∀ o, addDiagonalAndInvert llt threads (BMat.ofStructure (layout bs a b) v) D v o →
        o = some fun p => if ownCell (blocksOf bs a b) p < (blocksOf bs a b).length
          then invFin llt (blocksOf bs a b) v D (.y p) else v p := by
      rintro o ⟨o', ho, rfl⟩
      change ForRun (invertTask llt (layout bs a b) D.isSome) 0 (layout bs a b).rows.length threads _ _ at ho
      rw [hlen] at ho
      obtain ⟨m', rfl, h2⟩ := forRun_result hD ht ho
      rw [Option.map_some]
      congr 1
      funext p
      rw [h2.own (.y p) _ rfl]
      by_cases hp : ownCell (blocksOf bs a b) p < (blocksOf bs a b).length
      · rw [if_pos ⟨Nat.zero_le _, hp⟩, if_pos hp]
      · rw [if_neg (by omega), if_neg hp]
        rfl
    refine ⟨key o, ?_⟩
    rintro rfl
    obtain ⟨m', hm'⟩ := Tasks.forRun_exists hD ht
    have h1 : addDiagonalAndInvert llt threads (BMat.ofStructure (layout bs a b) v) D v
        ((some m').map fun m i => m (.y i)) := by
      refine ⟨some m', ?_, rfl⟩
      change ForRun (invertTask llt (layout bs a b) D.isSome) 0 (layout bs a b).rows.length threads _ _
      rw [hlen]
      exact hm'
    rw [← key _ h1]
    exact h1
  · intro k blk hb i j
    have hk : k < (blocksOf bs a b).length := by
      by_contra hge
      rw [List.getElem?_eq_none (by omega)] at hb
      cases hb
    simp only
    rw [ownCell_eq hb i.2 j.2, if_pos hk, invFin_slot llt v D hb]
  · intro p hp
    refine if_neg fun h => ?_
    have := ownCell_lt h
    omega

/-- No data race, no access out of bounds. -/
theorem invert_safe (v : ℕ → K) (D : Option (ℕ → K)) {threads : ℕ} {s : St Loc Empty K}
    (hs : ForReach 1 (invertTask llt (layout bs a b) D.isSome) 0 (layout bs a b).rows.length threads
      (mem (D.getD 0) v v) s) : ¬ Race s ∧ ∀ l, Touches s l →
        InBounds (if D.isSome then (BMat.ofStructure (layout bs a b) v).numCols else 0)
          (BMat.ofStructure (layout bs a b) v).nnz 0 l := by
  have hD := invert_disciplined (bs := bs) (a := a) (b := b) llt _ rfl v D threads
  rw [layout_length] at hs
  refine ⟨forReach_race_free one_pos hD hs, fun l hl => ?_⟩
  rw [layout_nnz, (layout_numCols bs a b v).1]
  exact own_inBounds (fun r _ h => ownCell_lt h) (forReach_usable one_pos hD hs hl)

end

end Ceres.PartitionedView
