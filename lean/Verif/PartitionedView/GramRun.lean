import Verif.PartitionedView.Gram

/-!
# The loops that compute block diagonals
-/
namespace Ceres.PartitionedView

open Matrix Ceres.Tasks Ceres.BlockSparse

variable {K : Type} [CommRing K] {M : BMat K} {ne threads a b : ℕ} {V : View}

/-- The number of values of the block diagonal. -/
def gramSize (M : BMat K) (a b : ℕ) : ℕ := sqOffset (blocksOf M.bs a b) (blocksOf M.bs a b).length

open Classical in
/-- The values that the loops leave. -/
noncomputable def gramVal (M : BMat K) (a b : ℕ) (x y : ℕ → K) (p : ℕ) : K :=
  if p < gramSize M a b then total gramEs (memOf M x y) (gramCells M a b) (.y p) else y p

theorem gramVal_isGram (hM : M.Ok) (hs : M.bs.Simple) (hb : b ≤ M.bs.cols.length) (x y : ℕ → K) :
    IsGram M a b (gramVal M a b x y) := by
  intro i j
  split_ifs with h
  · rw [sameBlock_iff hM.bs.cols hb] at h
    obtain ⟨k, blk, h1, h2, h3, h4, h5⟩ := h
    obtain ⟨i, rfl⟩ := Nat.exists_eq_add_of_le h2
    obtain ⟨j, rfl⟩ := Nat.exists_eq_add_of_le h4
    have hlt : sqOffset (blocksOf M.bs a b) k + i * blk.size + j < gramSize M a b := by
      have e1 := slot_lt (i := i) (j := j) (n := blk.size) (by omega) (by omega)
      have e2 := sqOffset_succ h1
      have hk : k < (blocksOf M.bs a b).length := by
        by_contra hge
        rw [List.getElem?_eq_none (by omega)] at h1
        cases h1
      have := sqOffset_mono (blocksOf M.bs a b) (i := k + 1) (j := (blocksOf M.bs a b).length) hk
      unfold gramSize
      omega
    rw [layout_entry M.bs _ h1 (by omega) (by omega)]
    unfold gramVal
    rw [if_pos hlt, gram_total hM hs x y h1 (by omega) (by omega), (position_eq hM.bs.cols h1).2]
    simp only [Nat.add_assoc]
  · rw [sameBlock_iff hM.bs.cols hb] at h
    exact layout_entry_zero M.bs _ h

/-- The parts of a cell of the block diagonal. -/
theorem mem_gramCells (hM : M.Ok) {t : Triple} (ht : t ∈ gramCells M a b) :
    ∃ r ∈ M.bs.rows, ∃ c ∈ r.cells, a ≤ c.blockId ∧ c.blockId < b ∧ t = gramOf M.bs (layout M.bs a b) a r c ∧
      (blocksOf M.bs a b)[c.blockId - a]? = some (M.bs.col c.blockId) ∧
      t.2.1 = ⟨(M.bs.col c.blockId).size, sqOffset (blocksOf M.bs a b) (c.blockId - a)⟩ := by
  obtain ⟨r, hr, c, hc, hp, rfl⟩ := mem_chosen.1 ht
  have hp := of_decide_eq_true hp
  have hblk := chosen_blk hM hr hc hp.1 hp.2
  refine ⟨r, hr, c, hc, hp.1, hp.2, rfl, hblk, ?_⟩
  unfold gramOf
  rw [diagPos_eq M.bs]
  by_contra hge
  rw [List.getElem?_eq_none (by omega)] at hblk
  cases hblk

theorem gram_reads (hM : M.Ok) {t : Triple} (ht : t ∈ gramCells M a b) {l : Loc} (hl : readsCell t.1 t.2.1 t.2.2 l) :
    ∃ p < M.nnz, l = .val p := by
  obtain ⟨r, hr, c, hc, -, -, rfl, -⟩ := mem_gramCells hM ht
  obtain ⟨i, j, rfl⟩ := hl
  exact ⟨_, (cell_ok hM (mem_triples hr hc)).val i j i.2 j.2, rfl⟩

/-- Which column block a value belongs to. -/
def ownGram (M : BMat K) (a b p : ℕ) : ℕ := a + blockOf (cellsFrom 0 (blocksOf M.bs a b)) p

theorem ownGram_eq {k : ℕ} {blk : Block} (h : (blocksOf M.bs a b)[k]? = some blk) {p : ℕ}
    (h1 : sqOffset (blocksOf M.bs a b) k ≤ p) (h2 : p < sqOffset (blocksOf M.bs a b) k + blk.size * blk.size) :
    ownGram M a b p = a + k := by
  unfold ownGram
  rw [blockOf_eq (laid_cells 0 (blocksOf M.bs a b)) (i := k)
    (b := ⟨blk.size * blk.size, sqOffset (blocksOf M.bs a b) k⟩)]
  · rw [cellsFrom_get, h]; simp
  · exact h1
  · exact h2

theorem ownGram_lt (hab : a ≤ b) (hb : b ≤ M.bs.cols.length) {p : ℕ} (h : ownGram M a b p < b) :
    p < gramSize M a b := by
  have := blockOf_lt (laid_cells 0 (blocksOf M.bs a b)) (r := p) (by
    unfold ownGram at h
    rw [cellsFrom_length, blocksOf_length hab hb]
    omega)
  rw [cellsFrom_sum] at this
  unfold gramSize
  omega

theorem gram_adds (hM : M.Ok) {t : Triple} (ht : t ∈ gramCells M a b) {m : Mem K} {e : Loc × K}
    (he : e ∈ gramEs m t.1 t.2.1 t.2.2) : ∃ p, p < gramSize M a b ∧ e.1 = .y p := by
  obtain ⟨r, hr, c, hc, h1, h2, -, hblk, ht2⟩ := mem_gramCells hM ht
  obtain ⟨i, j, rfl⟩ := mem_matEntries.1 he
  refine ⟨_, ?_, rfl⟩
  have hi := i.2
  have hj := j.2
  generalize (i : ℕ) = i at hi ⊢
  generalize (j : ℕ) = j at hj ⊢
  rw [ht2] at hi hj ⊢
  have e1 := slot_lt hi hj
  have e2 := sqOffset_succ hblk
  have hk : c.blockId - a < (blocksOf M.bs a b).length := by
    by_contra hge
    rw [List.getElem?_eq_none (by omega)] at hblk
    cases hblk
  have := sqOffset_mono (blocksOf M.bs a b) (i := c.blockId - a + 1) (j := (blocksOf M.bs a b).length) hk
  unfold gramSize
  simp only at e1 ⊢
  omega

/-! ## By columns -/

/-- The cells of a column block. -/
def gramCol (M : BMat K) (a b i : ℕ) : List Triple :=
  atRow M.tbs i fun t => t.cells.map (gramOfT M.tbs (layout M.bs a b) (i - a) t)

theorem gramCol_perm (hM : M.Ok) (a n : ℕ) :
    ((List.range' a n).flatMap (gramCol M a (a + n))).Perm (gramCells M a (a + n)) := by
  unfold gramCol
  rw [hM.tbs]
  refine cols_perm M.bs a n (gramOf M.bs (layout M.bs a (a + n)) a)
    (fun j t c => gramOfT (createTranspose M.bs) (layout M.bs a (a + n)) (j - a) t c) ⟨⟨0, 0⟩, [], 0, 0⟩ ?_ hM.bs.ids
  intro j t l ht hl
  obtain ⟨h1, h2⟩ := List.mem_filter.1 hl
  have hid : l.2.2.blockId = j := by simpa using h2
  obtain ⟨h3, h4⟩ := tbs_block M.bs ht
  have := cellT_eq hM ⟨⟨0, 0⟩, [], 0, 0⟩ j t l ht hl
  unfold cellOfT cellOf at this
  simp only [Prod.mk.injEq] at this
  unfold gramOfT gramOf
  simp only
  rw [this.1, this.2.1, hid]

theorem gramCol_block (hM : M.Ok) {i : ℕ} {t : Triple} (hb : b ≤ M.bs.cols.length) (h1 : a ≤ i) (h2 : i < b)
    (h : t ∈ gramCol M a b i) :
    ∃ blk, (blocksOf M.bs a b)[i - a]? = some blk ∧ t.2.1 = ⟨blk.size, sqOffset (blocksOf M.bs a b) (i - a)⟩ := by
  obtain ⟨r, hr, ht⟩ := mem_atRow h
  obtain ⟨c, hc, rfl⟩ := List.mem_map.1 ht
  rw [hM.tbs] at hr
  refine ⟨r.block, ?_, ?_⟩
  · rw [blocksOf_get (by omega), Nat.add_sub_cancel' h1]
    exact (tbs_block M.bs hr).1
  · unfold gramOfT
    rw [diagPos_eq M.bs (by rw [blocksOf_length (by omega) hb]; omega)]

theorem zeroCell_eq (hM : M.Ok) {i : ℕ} (hb : b ≤ M.bs.cols.length) (h1 : a ≤ i) (h2 : i < b) :
    ∃ blk, (blocksOf M.bs a b)[i - a]? = some blk ∧ zeroCell M.tbs (layout M.bs a b) i (i - a) =
      List.range' (sqOffset (blocksOf M.bs a b) (i - a)) (blk.size * blk.size) := by
  have hget : M.bs.cols[i]? = some M.bs.cols[i] := List.getElem?_eq_getElem (by omega)
  refine ⟨M.bs.cols[i], ?_, ?_⟩
  · rw [blocksOf_get (by omega), Nat.add_sub_cancel' h1, hget]
  · unfold zeroCell
    rw [hM.tbs, tbs_row, hget, diagPos_eq M.bs (by rw [blocksOf_length (by omega) hb]; omega)]
    rfl

theorem gram_owned (hM : M.Ok) (hb : a + n ≤ M.bs.cols.length) (m : Mem K) :
    Owned gramEs readsCell (gramCol M a (a + n)) (fun i => zeroCell M.tbs (layout M.bs a (a + n)) i (i - a))
      (ownGram M a (a + n)) a (a + n) 0 M.nnz m where
  reads := fun i h1 h2 t ht l hl => Or.inr (gram_reads hM ((gramCol_perm hM a n).mem_iff.1
      (List.mem_flatMap.2 ⟨i, by rw [List.mem_range'_1]; omega, ht⟩)) hl)
  adds := fun i h1 h2 t ht e he => by
    obtain ⟨blk, g1, g2⟩ := gramCol_block hM hb h1 h2 ht
    obtain ⟨i', j', rfl⟩ := mem_matEntries.1 he
    refine ⟨_, ?_, rfl⟩
    have hi := i'.2
    have hj := j'.2
    generalize (i' : ℕ) = i' at hi ⊢
    generalize (j' : ℕ) = j' at hj ⊢
    rw [g2] at hi hj ⊢
    have e1 := slot_lt hi hj
    simp only at e1 ⊢
    exact (ownGram_eq g1 (by omega) (by omega)).trans (by omega)
  zeros := fun i h1 h2 k hk => by
    obtain ⟨blk, g1, g2⟩ := zeroCell_eq hM hb h1 h2
    rw [g2, List.mem_range'_1] at hk
    rw [ownGram_eq g1 hk.1 hk.2]
    omega

/-- All values are set to zero. -/
theorem gram_zeroed (hM : M.Ok) (hb : a + n ≤ M.bs.cols.length) (p : ℕ) :
    (∃ i, a ≤ i ∧ i < a + n ∧ p ∈ zeroCell M.tbs (layout M.bs a (a + n)) i (i - a)) ↔ p < gramSize M a (a + n) := by
  constructor
  · rintro ⟨i, h1, h2, h3⟩
    have := (gram_owned hM hb (fun _ => 0)).zeros i h1 h2 p h3
    exact ownGram_lt (by omega) hb (by omega)
  · intro h
    obtain ⟨k, blk, i, j, h1, h2, h3, rfl⟩ := layout_slot _ h
    have hk : k < n := by
      have := blocksOf_length (bs := M.bs) (a := a) (b := a + n) (by omega) hb
      by_contra hge
      rw [List.getElem?_eq_none (by omega)] at h1
      cases h1
    obtain ⟨blk', g1, g2⟩ := zeroCell_eq (a := a) (b := a + n) (i := a + k) hM hb (by omega) (by omega)
    rw [Nat.add_sub_cancel_left] at g1 g2
    rw [h1] at g1
    simp only [Option.some.injEq] at g1
    subst g1
    refine ⟨a + k, by omega, by omega, ?_⟩
    rw [Nat.add_sub_cancel_left, g2, List.mem_range'_1]
    have := slot_lt h2 h3
    omega

/-- Memory after the loops. -/
theorem gram_memOf (hM : M.Ok) {x y : ℕ → K} {m' : Mem K} {l : List Triple} {z : Loc → Prop} [DecidablePred z]
    (hl : l.Perm (gramCells M a b)) (hz : ∀ l, z l ↔ ∃ p, l = .y p ∧ p < gramSize M a b)
    (h : ∀ q, m' q = (if z q then 0 else memOf M x y q) + total gramEs (memOf M x y) l q) :
    m' = memOf M x (gramVal M a b x y) := by
  have hoff : ∀ q, (∀ p, p < gramSize M a b → q ≠ .y p) → total gramEs (memOf M x y) l q = 0 := by
    intro q hq
    refine total_zero fun t ht e he heq => ?_
    obtain ⟨p, h1, h2⟩ := gram_adds hM (hl.mem_iff.1 ht) he
    exact hq p h1 (heq ▸ h2)
  funext q
  rw [h q]
  cases q with
  | y p =>
    by_cases hp : p < gramSize M a b
    · rw [if_pos ((hz _).2 ⟨p, rfl, hp⟩), zero_add]
      show _ = gramVal M a b x y p
      unfold gramVal
      rw [if_pos hp]
      exact total_perm _ hl _
    · rw [if_neg (fun hc => by obtain ⟨p', g1, g2⟩ := (hz _).1 hc; injection g1 with g1; omega),
        hoff _ (fun p' h1 h2 => by injection h2 with h2; omega), add_zero]
      show _ = gramVal M a b x y p
      unfold gramVal
      rw [if_neg hp]
      rfl
  | x i =>
    rw [if_neg (fun hc => by obtain ⟨p', g1, g2⟩ := (hz _).1 hc; cases g1),
      hoff _ (fun p' _ h2 => Loc.noConfusion h2), add_zero]
    rfl
  | val i =>
    rw [if_neg (fun hc => by obtain ⟨p', g1, g2⟩ := (hz _).1 hc; cases g1),
      hoff _ (fun p' _ h2 => Loc.noConfusion h2), add_zero]
    rfl

open Classical in
/-- One thread. -/
theorem gram_alone (hM : M.Ok) (x y v : ℕ → K) {l : List Triple} (hl : l.Perm (gramCells M a b)) :
    runAlone (zeros (List.range (BMat.ofStructure (layout M.bs a b) v).nnz) (kernels gramCell l .ret))
      (memOf M x y) = some (memOf M x (gramVal M a b x y)) := by
  obtain ⟨m', e1, e2⟩ := alone_result (m := memOf M x y) gramCell_isAdd
    (List.range (BMat.ofStructure (layout M.bs a b) v).nnz) l
    (fun t ht z hz => by
      obtain ⟨p, -, rfl⟩ := gram_reads hM (hl.mem_iff.1 ht) hz
      exact Or.inr ⟨_, rfl⟩)
    (fun t ht e he => by
      obtain ⟨p, -, h⟩ := gram_adds hM (hl.mem_iff.1 ht) he
      exact ⟨p, h⟩)
  rw [e1]
  congr 1
  refine gram_memOf hM hl (z := fun q => ∃ r ∈ List.range (BMat.ofStructure (layout M.bs a b) v).nnz, q = .y r) ?_ e2
  intro q
  rw [layout_nnz]
  constructor
  · rintro ⟨r, h1, rfl⟩
    exact ⟨r, rfl, List.mem_range.1 h1⟩
  · rintro ⟨p, rfl, hp⟩
    exact ⟨p, List.mem_range.2 hp, rfl⟩

open Classical in
/-- Several threads. -/
theorem gram_parts (hM : M.Ok) {n : ℕ} (hb : a + n ≤ M.bs.cols.length) (x y : ℕ → K) (ht : 0 < threads)
    {parts : List ℕ} {k : ℕ} (hP : a < a + n → Partition.IsPartition a (a + n) k parts) (o : Option (Mem K)) :
    PartRun (fun _ i => zeros (zeroCell M.tbs (layout M.bs a (a + n)) i (i - a))
        (kernels gramCell (gramCol M a (a + n) i) .ret)) a (a + n) threads parts (memOf M x y) o ↔
      o = some (memOf M x (gramVal M a (a + n) x y)) := by
  have hO := gram_owned hM hb (memOf M x y)
  have hD := own_disciplined (threads := threads) gramCell_isAdd hO
  have key : ∀ o, PartRun (fun _ i => zeros (zeroCell M.tbs (layout M.bs a (a + n)) i (i - a))
        (kernels gramCell (gramCol M a (a + n) i) .ret)) a (a + n) threads parts (memOf M x y) o →
      o = some (memOf M x (gramVal M a (a + n) x y)) := by
    intro o h
    obtain ⟨m', rfl, h2⟩ := partRun_result' hD ht (fun h => (hP h).increasing) (fun h => (hP h).first)
      (fun h => (hP h).last) h
    congr 1
    refine gram_memOf hM (gramCol_perm hM a n) (z := fun l => ∃ r, l = .y r ∧ ∃ i, a ≤ i ∧ i < a + n ∧
      r ∈ zeroCell M.tbs (layout M.bs a (a + n)) i (i - a)) ?_ ?_
    · intro l
      simp only [gram_zeroed hM hb]
    · intro q
      have := own_result hO h2 q
      rw [Nat.add_sub_cancel_left] at this
      exact this
  refine ⟨key o, ?_⟩
  rintro rfl
  obtain ⟨m', hm'⟩ := partRun_exists hD ht (fun h => (hP h).increasing) (fun h => (hP h).first)
    (fun h => (hP h).last)
  have := key _ hm'
  rw [← this]
  exact hm'

/-! ## The two calls -/

/-- **`UpdateBlockDiagonalEtE`**: the array holds the block diagonal of `EᵀE` and nothing else changes, whatever
the number of threads and the schedule, and whatever it held before. -/
theorem ete_run (hM : M.Ok) (hs : M.bs.Simple) (ho : Ordered M.bs ne) (hV : IsView M ne threads V) (ht : 0 < threads)
    (x y v : ℕ → K) : ∃ y', IsGram M 0 ne y' ∧ (∀ p, gramSize M 0 ne ≤ p → y' p = y p) ∧ ∀ o,
      EtERun V M (BMat.ofStructure (layout M.bs 0 ne) v) (memOf M x y) o ↔ o = some (memOf M x y') := by
  refine ⟨gramVal M 0 ne x y, gramVal_isGram hM hs ho.le x y, fun p hp => if_neg (by omega), fun o => ?_⟩
  unfold EtERun
  split_ifs with h
  · have e := gram_alone hM x y v (l := (List.range V.numRowBlocksE).flatMap fun i => atRow M.bs i fun r =>
        (r.cells.take 1).map (gramOf M.bs (layout M.bs 0 ne) 0 r)) (a := 0) (b := ne) ?_
    · exact ⟨fun h => h.trans e, fun h => h.trans e.symm⟩
    rw [List.range_eq_range', flatMap_atRow, List.drop_zero, rows_e ho hV]
    refine List.Perm.of_eq (chosen_congr fun r _ c _ => ?_)
    simp
  · have ht1 : 1 < threads := by rw [hV.numThreads] at h; omega
    rw [hV.blocksE, hV.numThreads]
    have := gram_parts (a := 0) (n := ne) hM (by have := ho.le; omega) x y ht (k := threads * 4)
      (parts := V.eColsPartition) (fun _ => by simpa using parts_e hM ho hV ht1) o
    simp only [Nat.zero_add, Nat.sub_zero] at this
    exact this

/-- **`UpdateBlockDiagonalFtF`**, likewise. -/
theorem ftf_run (hM : M.Ok) (hs : M.bs.Simple) (ho : Ordered M.bs ne) (hV : IsView M ne threads V) (ht : 0 < threads)
    (x y v : ℕ → K) : ∃ y', IsGram M ne M.bs.cols.length y' ∧
      (∀ p, gramSize M ne M.bs.cols.length ≤ p → y' p = y p) ∧ ∀ o,
      FtFRun V M (BMat.ofStructure (layout M.bs ne M.bs.cols.length) v) (memOf M x y) o ↔ o = some (memOf M x y') := by
  have hle := ho.le
  refine ⟨gramVal M ne M.bs.cols.length x y, gramVal_isGram hM hs le_rfl x y, fun p hp => if_neg (by omega),
    fun o => ?_⟩
  unfold FtFRun
  rw [hV.blocksE]
  split_ifs with h
  · have e := gram_alone hM x y v
      (l := ((List.range V.numRowBlocksE).flatMap fun i => atRow M.bs i fun r =>
          (r.cells.drop 1).map (gramOf M.bs (layout M.bs ne M.bs.cols.length) ne r)) ++
        ((List.range' V.numRowBlocksE (M.bs.rows.length - V.numRowBlocksE)).flatMap fun i => atRow M.bs i fun r =>
          r.cells.map (gramOf M.bs (layout M.bs ne M.bs.cols.length) ne r))) (a := ne) (b := M.bs.cols.length) ?_
    · exact ⟨fun h => h.trans e, fun h => h.trans e.symm⟩
    have hl : (M.bs.rows.drop V.numRowBlocksE).take (M.bs.rows.length - V.numRowBlocksE) =
        M.bs.rows.drop V.numRowBlocksE := List.take_of_length_le (by rw [List.length_drop])
    rw [List.range_eq_range', flatMap_atRow, flatMap_atRow, List.drop_zero, hl, rows_f ho hV]
    refine List.Perm.of_eq (chosen_congr fun r hr c hc => ?_)
    have := hM.bs.ids r hr c hc
    rw [decide_eq_decide]
    exact ⟨fun h => ⟨h, this⟩, fun h => h.1⟩
  · have ht1 : 1 < threads := by rw [hV.numThreads] at h; omega
    have hP := parts_f hM ho hV ht1
    rw [hV.blocksF, hV.numThreads]
    rw [hV.blocksE, hV.blocksF] at hP
    have := gram_parts (a := ne) (n := M.bs.cols.length - ne) hM (by omega) x y ht (k := threads * 4)
      (parts := V.fColsPartition) hP o
    rw [Nat.add_sub_cancel' hle] at this ⊢
    rw [← this]
    have e : ∀ i, (atRow M.tbs i fun t =>
        (t.cells.takeWhile fun c => decide (c.blockId < V.numRowBlocksE)).map
            (gramOfT M.tbs (layout M.bs ne M.bs.cols.length) (i - ne) t) ++
          (t.cells.dropWhile fun c => decide (c.blockId < V.numRowBlocksE)).map
            (gramOfT M.tbs (layout M.bs ne M.bs.cols.length) (i - ne) t)) =
        gramCol M ne M.bs.cols.length i := by
      intro i
      unfold gramCol atRow
      cases M.tbs.rows[i]? with
      | none => rfl
      | some t => simp only [← List.map_append, List.takeWhile_append_dropWhile]
    have e' : (fun (_ i : ℕ) => zeros (K := K) (zeroCell M.tbs (layout M.bs ne M.bs.cols.length) i (i - ne))
        (kernels gramCell (atRow M.tbs i fun t =>
        (t.cells.takeWhile fun c => decide (c.blockId < V.numRowBlocksE)).map
            (gramOfT M.tbs (layout M.bs ne M.bs.cols.length) (i - ne) t) ++
          (t.cells.dropWhile fun c => decide (c.blockId < V.numRowBlocksE)).map
            (gramOfT M.tbs (layout M.bs ne M.bs.cols.length) (i - ne) t)) .ret)) =
        fun _ i => zeros (zeroCell M.tbs (layout M.bs ne M.bs.cols.length) i (i - ne))
          (kernels gramCell (gramCol M ne M.bs.cols.length i) .ret) := by
      funext _ i
      rw [e i]
    rw [← e']
    rfl

end Ceres.PartitionedView
