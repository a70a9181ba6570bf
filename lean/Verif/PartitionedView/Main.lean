import Verif.PartitionedView.GramRun

/-!
# C84: the partitioned view computes with `E` and `F` for every number of threads and every schedule
-/
namespace Ceres.PartitionedView

open Matrix Ceres.Tasks Ceres.BlockSparse

variable {K : Type} [CommRing K] {M : BMat K} {ne threads : ℕ} {V : View}

/-! ## What is computed -/

/-- **The view can be made** and knows the sizes of `E` and `F`. -/
theorem view_create (hM : M.Ok) (ho : Ordered M.bs ne) (ht : threads ≤ 1 ∨ 0 < ne) :
    ∃ V, create M ne threads = some V ∧ V.numColBlocksE = ne ∧ V.numColBlocksF = M.bs.cols.length - ne ∧
      V.numColsE = colsE M.bs ne ∧ V.numColsF = colsF M.bs ne ∧ colsE M.bs ne + colsF M.bs ne = M.numCols ∧
      V.numRowBlocksE ≤ M.bs.rows.length ∧
      ∀ i r, M.bs.rows[i]? = some r → (i < V.numRowBlocksE ↔ HasE ne r) := by
  obtain ⟨V, hV⟩ := create_some hM ho ht
  have hv := create_isView ho hV
  refine ⟨V, hV, hv.blocksE, hv.blocksF, hv.numColsE, hv.numColsF, ?_, hv.rowsLe, fun i r hr => ?_⟩
  · rw [colsE_add_colsF, hM.numCols]
  · constructor
    · intro hi
      exact hv.rowsE r (List.mem_of_getElem? (by rw [List.getElem?_take, if_pos hi]; exact hr))
    · intro hE
      by_contra hge
      refine hv.rowsF r (List.mem_of_getElem? (i := i - V.numRowBlocksE) ?_) hE
      rw [List.getElem?_drop, Nat.add_sub_cancel' (by omega)]
      exact hr

/-- **`y += E x`**: the only outcome of `RightMultiplyAndAccumulateE`. -/
theorem view_right_e (hM : M.Ok) (ho : Ordered M.bs ne) (hV : create M ne threads = some V) (ht : 0 < threads)
    (x y : ℕ → K) (o : Option (Mem K)) : RightERun V M (memOf M x y) o ↔
      o = some (memOf M x fun r => y r + ∑ c ∈ Finset.range (colsE M.bs ne), entryE M r c * x c) :=
  right_e hM ho (create_isView ho hV) ht x y o

/-- **`y += F x`**: the only outcome of `RightMultiplyAndAccumulateF`. -/
theorem view_right_f (hM : M.Ok) (ho : Ordered M.bs ne) (hV : create M ne threads = some V) (ht : 0 < threads)
    (x y : ℕ → K) (o : Option (Mem K)) : RightFRun V M (memOf M x y) o ↔
      o = some (memOf M x fun r => y r + ∑ c ∈ Finset.range (colsF M.bs ne), entryF M ne r c * x c) :=
  right_f hM ho (create_isView ho hV) ht x y o

/-- **`y += Eᵀ x`**: the only outcome of `LeftMultiplyAndAccumulateE`. -/
theorem view_left_e (hM : M.Ok) (ho : Ordered M.bs ne) (hV : create M ne threads = some V) (ht : 0 < threads)
    (x y : ℕ → K) (o : Option (Mem K)) : LeftERun V M (memOf M x y) o ↔
      o = some (memOf M x fun c =>
        if c < colsE M.bs ne then y c + ∑ r ∈ Finset.range M.numRows, entryE M r c * x r else y c) :=
  left_e hM ho (create_isView ho hV) ht x y o

/-- **`y += Fᵀ x`**: the only outcome of `LeftMultiplyAndAccumulateF`. -/
theorem view_left_f (hM : M.Ok) (ho : Ordered M.bs ne) (hV : create M ne threads = some V) (ht : 0 < threads)
    (x y : ℕ → K) (o : Option (Mem K)) : LeftFRun V M (memOf M x y) o ↔
      o = some (memOf M x fun c => y c + ∑ r ∈ Finset.range M.numRows, entryF M ne r c * x r) :=
  left_f hM ho (create_isView ho hV) ht x y o

/-- The values of a block diagonal are determined by its entries. -/
theorem isGram_unique {a b : ℕ} {v w : ℕ → K} (h : IsGram M a b v) (h' : IsGram M a b w) (p : ℕ)
    (hp : p < (BMat.ofStructure (layout M.bs a b) v).nnz) : v p = w p := by
  rw [layout_nnz] at hp
  obtain ⟨k, blk, i, j, h1, h2, h3, rfl⟩ := layout_slot _ hp
  rw [← layout_entry M.bs v h1 h2 h3, ← layout_entry M.bs w h1 h2 h3, h, h']

/-- **Block diagonal of `EᵀE`**: whatever the array held before, it has one outcome, which is the block diagonal of
`EᵀE`; nothing beyond the array is written.  The matrix of the block diagonal is well formed. -/
theorem view_ete (hM : M.Ok) (hs : M.bs.Simple) (ho : Ordered M.bs ne) (hV : create M ne threads = some V)
    (ht : 0 < threads) (x y v : ℕ → K) : (BMat.ofStructure (layout M.bs 0 ne) v).Ok ∧
      (BMat.ofStructure (layout M.bs 0 ne) v).numCols = colsE M.bs ne ∧
      ∃ y', IsGram M 0 ne y' ∧ (∀ p, (BMat.ofStructure (layout M.bs 0 ne) v).nnz ≤ p → y' p = y p) ∧
        ∀ o, EtERun V M (BMat.ofStructure (layout M.bs 0 ne) v) (memOf M x y) o ↔ o = some (memOf M x y') := by
  refine ⟨layout_ok _ _ _ _, ?_, ?_⟩
  · rw [(layout_numCols M.bs 0 ne v).1]
    unfold offset
    rw [List.take_length]
    simp [blocksOf, colsE]
  · rw [layout_nnz]
    exact ete_run hM hs ho (create_isView ho hV) ht x y v

/-- **Block diagonal of `FᵀF`**, likewise. -/
theorem view_ftf (hM : M.Ok) (hs : M.bs.Simple) (ho : Ordered M.bs ne) (hV : create M ne threads = some V)
    (ht : 0 < threads) (x y v : ℕ → K) : (BMat.ofStructure (layout M.bs ne M.bs.cols.length) v).Ok ∧
      (BMat.ofStructure (layout M.bs ne M.bs.cols.length) v).numCols = colsF M.bs ne ∧
      ∃ y', IsGram M ne M.bs.cols.length y' ∧
        (∀ p, (BMat.ofStructure (layout M.bs ne M.bs.cols.length) v).nnz ≤ p → y' p = y p) ∧
        ∀ o, FtFRun V M (BMat.ofStructure (layout M.bs ne M.bs.cols.length) v) (memOf M x y) o ↔
          o = some (memOf M x y') := by
  refine ⟨layout_ok _ _ _ _, ?_, ?_⟩
  · rw [(layout_numCols M.bs ne M.bs.cols.length v).1]
    simp [offset, blocksOf, colsF, List.take_of_length_le]
  · rw [layout_nnz]
    exact ftf_run hM hs ho (create_isView ho hV) ht x y v

/-! ## No data race, no access out of bounds -/

/-- The states that `RightMultiplyAndAccumulateE` goes through on several threads. -/
def RightEReach (V : View) (M : BMat K) (m : Mem K) (s : St Loc Empty K) : Prop :=
  ForReach 1 (fun _ i => kernels mulCell (rowE M.bs i) .ret) 0 V.numRowBlocksE V.threads m s

/-- The states that `RightMultiplyAndAccumulateF` goes through. -/
inductive RightFReach (V : View) (M : BMat K) (m : Mem K) (s : St Loc Empty K) : Prop where
  | first : ForReach 1 (fun _ i => kernels mulCell ((rowRest M.bs i).map (shiftF V.numColsE)) .ret) 0
      V.numRowBlocksE V.threads m s → RightFReach V M m s
  | second (m1 : Mem K) : ForRun (fun _ i => kernels mulCell ((rowRest M.bs i).map (shiftF V.numColsE)) .ret) 0
      V.numRowBlocksE V.threads m (some m1) →
      ForReach 1 (fun _ i => kernels mulCell ((rowAll M.bs i).map (shiftF V.numColsE)) .ret)
        V.numRowBlocksE M.bs.rows.length V.threads m1 s → RightFReach V M m s

/-- The states that `LeftMultiplyAndAccumulateE` goes through on several threads. -/
def LeftEReach (V : View) (M : BMat K) (m : Mem K) (s : St Loc Empty K) : Prop :=
  PartReach (fun _ i => kernels mulCellTranspose (colE M.tbs V.numRowBlocksE i) .ret) 0 V.numColBlocksE V.threads
    V.eColsPartition m s

/-- The states that `LeftMultiplyAndAccumulateF` goes through on several threads. -/
def LeftFReach (V : View) (M : BMat K) (m : Mem K) (s : St Loc Empty K) : Prop :=
  PartReach (fun _ i => kernels mulCellTranspose ((colF M.tbs V.numRowBlocksE i).map (shiftF V.numColsE)) .ret)
    V.numColBlocksE (V.numColBlocksE + V.numColBlocksF) V.threads V.fColsPartition m s

/-- The states that `UpdateBlockDiagonalEtE` goes through on several threads. -/
def EtEReach (V : View) (M : BMat K) (d : BMat K) (m : Mem K) (s : St Loc Empty K) : Prop :=
  PartReach (fun _ i => zeros (zeroCell M.tbs d.bs i i) (kernels gramCell
      (atRow M.tbs i fun t => t.cells.map (gramOfT M.tbs d.bs i t)) .ret))
    0 V.numColBlocksE V.threads V.eColsPartition m s

/-- The states that `UpdateBlockDiagonalFtF` goes through on several threads. -/
def FtFReach (V : View) (M : BMat K) (d : BMat K) (m : Mem K) (s : St Loc Empty K) : Prop :=
  PartReach (fun _ i => zeros (zeroCell M.tbs d.bs i (i - V.numColBlocksE)) (kernels gramCell
      (atRow M.tbs i fun t =>
        (t.cells.takeWhile fun c => decide (c.blockId < V.numRowBlocksE)).map
            (gramOfT M.tbs d.bs (i - V.numColBlocksE) t) ++
          (t.cells.dropWhile fun c => decide (c.blockId < V.numRowBlocksE)).map
            (gramOfT M.tbs d.bs (i - V.numColBlocksE) t)) .ret))
    V.numColBlocksE (V.numColBlocksE + V.numColBlocksF) V.threads V.fColsPartition m s

theorem ownRow_lt (hM : M.Ok) {r n : ℕ} (hn : n ≤ M.bs.rows.length) (h : ownRow M r < n) : r < M.numRows := by
  have := blockOf_lt hM.bs.rows (r := r) (by
    rw [List.length_map]
    unfold ownRow at h
    omega)
  rw [rows_size hM] at this
  omega

theorem right_e_safe (hM : M.Ok) (ho : Ordered M.bs ne) (hV : create M ne threads = some V) {m : Mem K}
    {s : St Loc Empty K} (hs : RightEReach V M m s) :
    ¬ Race s ∧ ∀ l, Touches s l → InBounds (colsE M.bs ne) M.numRows M.nnz l := by
  have hv := create_isView ho hV
  have hD := own_disciplined (threads := V.threads) mulCell_isAdd (rightE_owned hM ho hv m)
  exact ⟨forReach_race_free one_pos hD hs, fun l hl =>
    own_inBounds (fun r _ h => ownRow_lt hM hv.rowsLe h) (forReach_usable one_pos hD hs hl)⟩

theorem right_f_safe (hM : M.Ok) (ho : Ordered M.bs ne) (hV : create M ne threads = some V) {m : Mem K}
    {s : St Loc Empty K} (hs : RightFReach V M m s) :
    ¬ Race s ∧ ∀ l, Touches s l → InBounds (colsF M.bs ne) M.numRows M.nnz l := by
  have hv := create_isView ho hV
  cases hs with
  | first hs =>
    have hD := own_disciplined (threads := V.threads) mulCell_isAdd (rightF_owned1 hM ho hv m)
    exact ⟨forReach_race_free one_pos hD hs, fun l hl =>
      own_inBounds (fun r _ h => ownRow_lt hM hv.rowsLe h) (forReach_usable one_pos hD hs hl)⟩
  | second m1 _ hs =>
    have hD := own_disciplined (threads := V.threads) mulCell_isAdd (rightF_owned2 hM ho hv m1)
    exact ⟨forReach_race_free one_pos hD hs, fun l hl =>
      own_inBounds (fun r _ h => ownRow_lt hM le_rfl h) (forReach_usable one_pos hD hs hl)⟩

theorem left_e_safe (hM : M.Ok) (ho : Ordered M.bs ne) (hV : create M ne threads = some V) (ht : 1 < threads)
    {m : Mem K} {s : St Loc Empty K} (hs : LeftEReach V M m s) :
    ¬ Race s ∧ ∀ l, Touches s l → InBounds M.numRows (colsE M.bs ne) M.nnz l := by
  have hv := create_isView ho hV
  have hD := own_disciplined (threads := V.threads) mulCellTranspose_isAdd (leftE_owned hM ho hv m)
  have hP := parts_e hM ho hv ht
  unfold LeftEReach at hs
  rw [hv.blocksE] at hs
  refine ⟨partReach_race_free hD (fun _ => hP.increasing) (fun _ => hP.first) (fun _ => hP.last) hs, fun l hl => ?_⟩
  refine own_inBounds (fun r _ h => ?_)
    (partReach_usable hD (fun _ => hP.increasing) (fun _ => hP.first) (fun _ => hP.last) hs hl)
  rw [Nat.zero_add] at h
  obtain ⟨b, hb, h1, h2⟩ := blockOf_mem (lt_of_lt_of_le h ho.le)
  have := (col_e (ne := ne) hM.bs.cols hb).1 h
  omega

theorem left_f_safe (hM : M.Ok) (ho : Ordered M.bs ne) (hV : create M ne threads = some V) (ht : 1 < threads)
    {m : Mem K} {s : St Loc Empty K} (hs : LeftFReach V M m s) :
    ¬ Race s ∧ ∀ l, Touches s l → InBounds M.numRows (colsF M.bs ne) M.nnz l := by
  have hv := create_isView ho hV
  have hD := own_disciplined (threads := V.threads) mulCellTranspose_isAdd (leftF_owned hM ho hv m)
  have hP := parts_f hM ho hv ht
  refine ⟨partReach_race_free hD (fun h => (hP h).increasing) (fun h => (hP h).first) (fun h => (hP h).last) hs,
    fun l hl => ?_⟩
  refine own_inBounds (fun r _ h => ?_)
    (partReach_usable hD (fun h => (hP h).increasing) (fun h => (hP h).first) (fun h => (hP h).last) hs hl)
  have hle := ho.le
  rw [hv.blocksE, hv.blocksF] at h
  have := blockOf_lt hM.bs.cols (r := colsE M.bs ne + r) (by omega)
  have h3 := colsE_add_colsF M.bs ne
  omega

theorem ete_safe (hM : M.Ok) (ho : Ordered M.bs ne) (hV : create M ne threads = some V) (ht : 1 < threads)
    {m : Mem K} {s : St Loc Empty K} {v : ℕ → K}
    (hs : EtEReach V M (BMat.ofStructure (layout M.bs 0 ne) v) m s) :
    ¬ Race s ∧ ∀ l, Touches s l → InBounds 0 (BMat.ofStructure (layout M.bs 0 ne) v).nnz M.nnz l := by
  have hv := create_isView ho hV
  have hle := ho.le
  have hO := gram_owned (a := 0) (n := ne) hM (by omega) m
  have hD := own_disciplined (threads := V.threads) gramCell_isAdd hO
  have hP := parts_e hM ho hv ht
  unfold EtEReach at hs
  rw [hv.blocksE] at hs
  simp only [Nat.zero_add, Nat.sub_zero] at hD
  refine ⟨partReach_race_free hD (fun _ => hP.increasing) (fun _ => hP.first) (fun _ => hP.last) hs, fun l hl => ?_⟩
  refine own_inBounds (fun r _ h => ?_)
    (partReach_usable hD (fun _ => hP.increasing) (fun _ => hP.first) (fun _ => hP.last) hs hl)
  rw [layout_nnz]
  exact ownGram_lt (Nat.zero_le _) hle h

theorem ftf_safe (hM : M.Ok) (ho : Ordered M.bs ne) (hV : create M ne threads = some V) (ht : 1 < threads)
    {m : Mem K} {s : St Loc Empty K} {v : ℕ → K}
    (hs : FtFReach V M (BMat.ofStructure (layout M.bs ne M.bs.cols.length) v) m s) :
    ¬ Race s ∧ ∀ l, Touches s l →
      InBounds 0 (BMat.ofStructure (layout M.bs ne M.bs.cols.length) v).nnz M.nnz l := by
  have hv := create_isView ho hV
  have hle := ho.le
  have hO := gram_owned (a := ne) (n := M.bs.cols.length - ne) hM (by omega) m
  have hD := own_disciplined (threads := V.threads) gramCell_isAdd hO
  have hP := parts_f hM ho hv ht
  unfold FtFReach at hs
  rw [hv.blocksE, hv.blocksF, Nat.add_sub_cancel' hle] at hs
  rw [hv.blocksE, hv.blocksF, Nat.add_sub_cancel' hle] at hP
  simp only [Nat.add_sub_cancel' hle] at hD
  have e : ∀ i, (atRow M.tbs i fun t =>
        (t.cells.takeWhile fun c => decide (c.blockId < V.numRowBlocksE)).map
            (gramOfT M.tbs (layout M.bs ne M.bs.cols.length) (i - ne) t) ++
          (t.cells.dropWhile fun c => decide (c.blockId < V.numRowBlocksE)).map
            (gramOfT M.tbs (layout M.bs ne M.bs.cols.length) (i - ne) t)) =
        gramCol M ne M.bs.cols.length i := by
    intro i
    unfold gramCol atRow
    cases M.tbs.rows[i]? with
    | none => rfl
    | some t => simp only [← List.map_append, List.takeWhile_append_dropWhile]
  have e' : (fun (_ i : ℕ) => zeros (K := K) (zeroCell M.tbs (layout M.bs ne M.bs.cols.length) i (i - ne))
        (kernels gramCell (atRow M.tbs i fun t =>
        (t.cells.takeWhile fun c => decide (c.blockId < V.numRowBlocksE)).map
            (gramOfT M.tbs (layout M.bs ne M.bs.cols.length) (i - ne) t) ++
          (t.cells.dropWhile fun c => decide (c.blockId < V.numRowBlocksE)).map
            (gramOfT M.tbs (layout M.bs ne M.bs.cols.length) (i - ne) t)) .ret)) =
        fun _ i => zeros (zeroCell M.tbs (layout M.bs ne M.bs.cols.length) i (i - ne))
          (kernels gramCell (gramCol M ne M.bs.cols.length i) .ret) := by
    funext _ i
    rw [e i]
  have hs' := hs
  change PartReach (fun (_ i : ℕ) => zeros (K := K) (zeroCell M.tbs (layout M.bs ne M.bs.cols.length) i (i - ne))
        (kernels gramCell (atRow M.tbs i fun t =>
        (t.cells.takeWhile fun c => decide (c.blockId < V.numRowBlocksE)).map
            (gramOfT M.tbs (layout M.bs ne M.bs.cols.length) (i - ne) t) ++
          (t.cells.dropWhile fun c => decide (c.blockId < V.numRowBlocksE)).map
            (gramOfT M.tbs (layout M.bs ne M.bs.cols.length) (i - ne) t)) .ret)) _ _ _ _ _ _ at hs'
  rw [e'] at hs'
  refine ⟨partReach_race_free hD (fun h => (hP h).increasing) (fun h => (hP h).first) (fun h => (hP h).last) hs',
    fun l hl => ?_⟩
  refine own_inBounds (fun r _ h => ?_)
    (partReach_usable hD (fun h => (hP h).increasing) (fun h => (hP h).first) (fun h => (hP h).last) hs' hl)
  rw [layout_nnz]
  exact ownGram_lt hle le_rfl h

/-- **No loop of the view has a data race or leaves its arrays**, on any number of threads. -/
theorem view_safe (hM : M.Ok) (ho : Ordered M.bs ne) (hV : create M ne threads = some V) (ht : 1 < threads)
    (m : Mem K) (v : ℕ → K) (s : St Loc Empty K) :
    (RightEReach V M m s → ¬ Race s ∧ ∀ l, Touches s l → InBounds (colsE M.bs ne) M.numRows M.nnz l) ∧
    (RightFReach V M m s → ¬ Race s ∧ ∀ l, Touches s l → InBounds (colsF M.bs ne) M.numRows M.nnz l) ∧
    (LeftEReach V M m s → ¬ Race s ∧ ∀ l, Touches s l → InBounds M.numRows (colsE M.bs ne) M.nnz l) ∧
    (LeftFReach V M m s → ¬ Race s ∧ ∀ l, Touches s l → InBounds M.numRows (colsF M.bs ne) M.nnz l) ∧
    (EtEReach V M (BMat.ofStructure (layout M.bs 0 ne) v) m s →
      ¬ Race s ∧ ∀ l, Touches s l → InBounds 0 (BMat.ofStructure (layout M.bs 0 ne) v).nnz M.nnz l) ∧
    (FtFReach V M (BMat.ofStructure (layout M.bs ne M.bs.cols.length) v) m s →
      ¬ Race s ∧ ∀ l, Touches s l →
        InBounds 0 (BMat.ofStructure (layout M.bs ne M.bs.cols.length) v).nnz M.nnz l) :=
  ⟨fun h => right_e_safe hM ho hV h, fun h => right_f_safe hM ho hV h, fun h => left_e_safe hM ho hV ht h,
    fun h => left_f_safe hM ho hV ht h, fun h => ete_safe hM ho hV ht h, fun h => ftf_safe hM ho hV ht h⟩

end Ceres.PartitionedView
