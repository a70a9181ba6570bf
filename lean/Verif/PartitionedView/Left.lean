import Verif.PartitionedView.Products
import Verif.PartitionedView.Parts
import Verif.BlockSparse.Races

/-!
# Products with the transposes of `E` and `F`
-/
namespace Ceres.PartitionedView

open Matrix Ceres.Tasks Ceres.BlockSparse

variable {K : Type} [CommRing K] {M : BMat K} {ne threads : ℕ} {V : View}

/-! ## Columns -/

theorem chosen_congr {α : Type} {bs : BS} {p q : ℕ → Bool} {φ : BRow → Cell → α}
    (h : ∀ r ∈ bs.rows, ∀ c ∈ r.cells, p c.blockId = q c.blockId) : chosen bs p φ = chosen bs q φ := by
  unfold chosen
  refine List.flatMap_congr fun r hr => ?_
  rw [List.filter_congr fun c hc => h r hr c hc]

theorem cellT_eq (hM : M.Ok) (d : BRow) (j : ℕ) (t : BRow) (l : ℕ × ℕ × Cell)
    (ht : (createTranspose M.bs).rows[j]? = some t) (hl : l ∈ inCol j M.bs.links) :
    cellOfT (createTranspose M.bs) t ⟨l.1, l.2.2.position⟩ = cellOf M.bs (M.bs.rows.getD l.1 d) l.2.2 := by
  obtain ⟨h1, h2⟩ := List.mem_filter.1 hl
  have hid : l.2.2.blockId = j := by simpa using h2
  obtain ⟨h3, h4⟩ := tbs_block M.bs ht
  unfold cellOfT cellOf
  rw [tbs_col M.bs l.1 d (by
    obtain ⟨-, r, hr, -⟩ := mem_linksFrom h1
    by_contra hge
    rw [List.getElem?_eq_none (by omega)] at hr
    cases hr), h4, hid]

/-- All cells of some column blocks. -/
theorem colAll_perm (hM : M.Ok) (a n : ℕ) :
    ((List.range' a n).flatMap (colAll M.tbs)).Perm
      (chosen M.bs (fun j => decide (a ≤ j ∧ j < a + n)) (cellOf M.bs)) := by
  rw [hM.tbs]
  exact cols_perm M.bs a n (cellOf M.bs) (fun _ t c => cellOfT (createTranspose M.bs) t c) ⟨⟨0, 0⟩, [], 0, 0⟩
    (cellT_eq hM _) hM.bs.ids

theorem colE_eq (hM : M.Ok) (ho : Ordered M.bs ne) (hV : IsView M ne threads V) {j : ℕ} (hj : j < ne) :
    colE M.tbs V.numRowBlocksE j = colAll M.tbs j := by
  unfold colE colAll atRow
  cases h : M.tbs.rows[j]? with
  | none => rfl
  | some t =>
    rw [hM.tbs] at h
    simp only [takeWhile_e ho hV hj h]

theorem colF_eq (tbs : BS) (re j : ℕ) : colF tbs re j = colAll tbs j := by
  unfold colF colAll atRow
  cases h : tbs.rows[j]? with
  | none => rfl
  | some t => simp only [← List.map_append, List.takeWhile_append_dropWhile]

theorem colsE_perm (hM : M.Ok) (ho : Ordered M.bs ne) (hV : IsView M ne threads V) :
    ((List.range' 0 ne).flatMap (colE M.tbs V.numRowBlocksE)).Perm
      (chosen M.bs (fun j => decide (j < ne)) (cellOf M.bs)) := by
  rw [List.flatMap_congr fun j hj => colE_eq hM ho hV (by rw [List.mem_range'_1] at hj; omega)]
  refine (colAll_perm hM 0 ne).trans (List.Perm.of_eq (chosen_congr fun r _ c _ => ?_))
  simp

theorem colsF_perm (hM : M.Ok) (re : ℕ) :
    ((List.range' ne (M.bs.cols.length - ne)).flatMap (colF M.tbs re)).Perm
      (chosen M.bs (fun j => decide (ne ≤ j)) (cellOf M.bs)) := by
  rw [List.flatMap_congr fun j _ => colF_eq M.tbs re j]
  refine (colAll_perm hM ne (M.bs.cols.length - ne)).trans (List.Perm.of_eq (chosen_congr fun r hr c hc => ?_))
  have := hM.bs.ids r hr c hc
  rw [decide_eq_decide]
  omega

theorem col_cell (hM : M.Ok) {j : ℕ} {t : Triple} (h : t ∈ colAll M.tbs j) : M.bs.cols[j]? = some t.2.1 := by
  obtain ⟨r, hr, ht⟩ := mem_atRow h
  obtain ⟨c, hc, rfl⟩ := List.mem_map.1 ht
  rw [hM.tbs] at hr
  exact (tbs_block M.bs hr).1

/-! ## Loops over parts of the columns -/

theorem parts_e (hM : M.Ok) (ho : Ordered M.bs ne) (hV : IsView M ne threads V) (ht : 1 < threads) :
    Partition.IsPartition 0 ne (threads * 4) V.eColsPartition := by
  obtain ⟨h1, h2, -⟩ := hV.parts ht
  rw [h2]
  have hlen : M.tbs.rows.length = M.bs.cols.length := by rw [← tbs_blocks hM, List.length_map]
  have hc := tbs_costs hM
  have hle := ho.le
  exact costs_partition ⟨hc.1, fun i j hij hj => hc.2 i j hij (by omega)⟩ h1 (by omega)

theorem parts_f (hM : M.Ok) (ho : Ordered M.bs ne) (hV : IsView M ne threads V) (ht : 1 < threads)
    (hlt : V.numColBlocksE < V.numColBlocksE + V.numColBlocksF) :
    Partition.IsPartition V.numColBlocksE (V.numColBlocksE + V.numColBlocksF) (threads * 4) V.fColsPartition := by
  obtain ⟨h1, -, h2⟩ := hV.parts ht
  rw [h2]
  have hlen : M.tbs.rows.length = M.bs.cols.length := by rw [← tbs_blocks hM, List.length_map]
  have hc := tbs_costs hM
  have hle := ho.le
  rw [hV.blocksE, hV.blocksF] at hlt ⊢
  exact costs_partition ⟨hc.1, fun i j hij hj => hc.2 i j hij (by omega)⟩ hlt (by omega)

/-- A loop over parts that adds: one outcome. -/
theorem part_loop {f : Block → Block → ℕ → Prog K → Prog K} {es : Mem K → Block → Block → ℕ → List (Loc × K)}
    {reads : Block → Block → ℕ → Loc → Prop} {tri : ℕ → List Triple} {own : ℕ → ℕ} {start stop nx : ℕ}
    {x y : ℕ → K} {parts : List ℕ} (hA : IsAdd f es reads)
    (hO : Owned es reads tri (fun _ => []) own start stop nx M.nnz (memOf M x y)) (ht : 0 < threads)
    {k : ℕ} (hP : start < stop → Partition.IsPartition start stop k parts) (o : Option (Mem K)) :
    PartRun (fun _ i => kernels f (tri i) .ret) start stop threads parts (memOf M x y) o ↔
      o = some (memOf M x fun r => y r +
        total es (memOf M x y) ((List.range' start (stop - start)).flatMap tri) (.y r)) := by
  have hD := own_disciplined (threads := threads) hA hO
  have key : ∀ o, PartRun (fun _ i => kernels f (tri i) .ret) start stop threads parts (memOf M x y) o → o =
      some (memOf M x fun r => y r +
        total es (memOf M x y) ((List.range' start (stop - start)).flatMap tri) (.y r)) := by
    intro o h
    obtain ⟨m', rfl, h2⟩ := partRun_result' hD ht (fun h => (hP h).increasing) (fun h => (hP h).first)
      (fun h => (hP h).last) h
    rw [owned_memOf hO h2]
  refine ⟨key o, ?_⟩
  rintro rfl
  obtain ⟨m', hm'⟩ := partRun_exists hD ht (fun h => (hP h).increasing) (fun h => (hP h).first)
    (fun h => (hP h).last)
  have := key _ hm'
  rw [← this]
  exact hm'

/-- One thread that adds. -/
theorem alone_loop (l : List Triple) (x y : ℕ → K) :
    runAlone (kernels mulCellTranspose l .ret) (memOf M x y) =
      some (memOf M x fun r => y r + total mulTransposeEs (memOf M x y) l (.y r)) := by
  have h2 : ∀ t ∈ l, ∀ e ∈ mulTransposeEs (memOf M x y) t.1 t.2.1 t.2.2, ∃ k, e.1 = .y k := by
    intro t _ e he
    obtain ⟨i, rfl⟩ := mem_vecEntries.1 he
    exact ⟨_, rfl⟩
  obtain ⟨m', e1, e2⟩ := alone_result (m := memOf M x y) mulCellTranspose_isAdd [] l
      (by
        rintro t - l (⟨i, j, rfl⟩ | ⟨i, rfl⟩)
        · exact Or.inr ⟨_, rfl⟩
        · exact Or.inl ⟨_, rfl⟩) h2
  refine Eq.trans e1 ?_
  congr 1
  have hoff : ∀ z, (∀ r, z ≠ .y r) → total mulTransposeEs (memOf M x y) l z = 0 := by
    intro z hz
    refine total_zero fun t ht e he heq => ?_
    obtain ⟨k, hk⟩ := h2 t ht e he
    exact hz k (heq ▸ hk)
  funext z
  rw [e2, if_neg (by simp)]
  cases z with
  | y r => rfl
  | x i => rw [hoff _ (fun r h => Loc.noConfusion h), add_zero]; rfl
  | val i => rw [hoff _ (fun r h => Loc.noConfusion h), add_zero]; rfl

/-! ## `LeftMultiplyAndAccumulateE` -/

theorem leftE_owned (hM : M.Ok) (ho : Ordered M.bs ne) (hV : IsView M ne threads V) (m : Mem K) :
    Owned mulTransposeEs (fun row col pos l => readsCell row col pos l ∨ readsVec row l)
      (colE M.tbs V.numRowBlocksE) (fun _ => []) (fun k => blockOf M.bs.cols (0 + k)) 0 ne M.numRows M.nnz m :=
  left_owned hM _ _
    (fun i _ hi t ht => by
      rw [colE_eq hM ho hV hi] at ht
      exact ⟨_, col_cell hM ht, Nat.zero_le _, rfl⟩)
    (fun i _ hi t ht => ⟨_, cell_e hM ((colsE_perm hM ho hV).mem_iff.1
      (List.mem_flatMap.2 ⟨i, by rw [List.mem_range'_1]; omega, ht⟩))⟩)

theorem chosen_nil_e (hM : M.Ok) (ho : Ordered M.bs ne) (hV : IsView M ne threads V)
    (h : ne = 0 ∨ V.numRowBlocksE = 0) : chosen M.bs (fun j => decide (j < ne)) (cellOf M.bs) = [] := by
  rcases h with h | h
  · subst h
    unfold chosen
    simp
  · rw [← rows_e ho hV, h]
    rfl

/-- **`LeftMultiplyAndAccumulateE`**: `y += Eᵀ x` and nothing else, whatever the number of threads and the
schedule. -/
theorem left_e (hM : M.Ok) (ho : Ordered M.bs ne) (hV : IsView M ne threads V) (ht : 0 < threads) (x y : ℕ → K)
    (o : Option (Mem K)) : LeftERun V M (memOf M x y) o ↔
      o = some (memOf M x fun c =>
        if c < colsE M.bs ne then y c + ∑ r ∈ Finset.range M.numRows, entryE M r c * x r else y c) := by
  have hv : ∀ c, (if c < colsE M.bs ne then y c + ∑ r ∈ Finset.range M.numRows, entryE M r c * x r else y c) =
      y c + total mulTransposeEs (memOf M x y) (chosen M.bs (fun j => decide (j < ne)) (cellOf M.bs)) (.y c) := by
    intro c
    rw [total_left_e hM]
    split_ifs <;> simp
  simp only [hv]
  have hnil : ne = 0 ∨ V.numRowBlocksE = 0 → (o = some (memOf M x y) ↔ o = some (memOf M x fun c =>
      y c + total mulTransposeEs (memOf M x y) (chosen M.bs (fun j => decide (j < ne)) (cellOf M.bs)) (.y c))) := by
    intro h
    rw [chosen_nil_e hM ho hV h]
    simp [total]
  unfold LeftERun
  rw [hV.blocksE]
  split_ifs with h1 h2 h3
  · exact hnil (Or.inl h1)
  · exact hnil (Or.inr h2)
  · rw [alone_loop, ← rows_e ho hV]
    unfold rowE
    rw [List.range_eq_range', flatMap_atRow, List.drop_zero]
  · have ht1 : 1 < threads := by rw [hV.numThreads] at h3; omega
    rw [part_loop mulCellTranspose_isAdd (leftE_owned hM ho hV _) (by rw [hV.numThreads]; exact ht)
      (fun _ => parts_e hM ho hV ht1)]
    simp only [Nat.sub_zero]
    have : ∀ c, total mulTransposeEs (memOf M x y)
        ((List.range' 0 ne).flatMap (colE M.tbs V.numRowBlocksE)) (.y c) =
        total mulTransposeEs (memOf M x y) (chosen M.bs (fun j => decide (j < ne)) (cellOf M.bs)) (.y c) :=
      fun c => total_perm _ (colsE_perm hM ho hV) _
    simp only [this]

/-! ## `LeftMultiplyAndAccumulateF` -/

theorem leftF_owned (hM : M.Ok) (ho : Ordered M.bs ne) (hV : IsView M ne threads V) (m : Mem K) :
    Owned mulTransposeEs (fun row col pos l => readsCell row col pos l ∨ readsVec row l)
      (fun i => (colF M.tbs V.numRowBlocksE i).map (shiftF V.numColsE)) (fun _ => [])
      (fun k => blockOf M.bs.cols (colsE M.bs ne + k)) V.numColBlocksE (V.numColBlocksE + V.numColBlocksF)
      M.numRows M.nnz m := by
  rw [hV.blocksE, hV.blocksF, hV.numColsE]
  refine left_owned hM _ _ (fun i h1 hi t ht => ?_) (fun i h1 hi t ht => ?_)
  · obtain ⟨t', ht', rfl⟩ := List.mem_map.1 ht
    have hc : t' ∈ chosen M.bs (fun j => decide (ne ≤ j)) (cellOf M.bs) := (colsF_perm hM _).mem_iff.1
      (List.mem_flatMap.2 ⟨i, by rw [List.mem_range'_1]; omega, ht'⟩)
    rw [colF_eq] at ht'
    exact ⟨_, col_cell hM ht', (cell_f hM hc).1, rfl⟩
  · obtain ⟨t', ht', rfl⟩ := List.mem_map.1 ht
    have hc : t' ∈ chosen M.bs (fun j => decide (ne ≤ j)) (cellOf M.bs) := (colsF_perm hM _).mem_iff.1
      (List.mem_flatMap.2 ⟨i, by rw [List.mem_range'_1]; omega, ht'⟩)
    exact ⟨_, (cell_f hM hc).2⟩

/-- **`LeftMultiplyAndAccumulateF`**: `y += Fᵀ x` and nothing else, whatever the number of threads and the
schedule. -/
theorem left_f (hM : M.Ok) (ho : Ordered M.bs ne) (hV : IsView M ne threads V) (ht : 0 < threads) (x y : ℕ → K)
    (o : Option (Mem K)) : LeftFRun V M (memOf M x y) o ↔
      o = some (memOf M x fun c => y c + ∑ r ∈ Finset.range M.numRows, entryF M ne r c * x r) := by
  simp only [← total_left_f hM x y]
  unfold LeftFRun
  split_ifs with h1 h3
  · rw [hV.blocksF] at h1
    have : chosen M.bs (fun j => decide (ne ≤ j)) (cellOf M.bs) = [] := by
      have := colsF_perm (ne := ne) hM 0
      rw [h1] at this
      exact this.nil_eq.symm
    rw [this]
    simp [total]
  · rw [alone_loop, ← rows_f ho hV, List.map_append]
    unfold rowRest rowAll
    have hl : (M.bs.rows.drop V.numRowBlocksE).take (M.bs.rows.length - V.numRowBlocksE) =
        M.bs.rows.drop V.numRowBlocksE := List.take_of_length_le (by rw [List.length_drop])
    rw [List.range_eq_range', flatMap_atRow, flatMap_atRow, List.drop_zero, hl, hV.numColsE]
  · have ht1 : 1 < threads := by rw [hV.numThreads] at h3; omega
    rw [part_loop mulCellTranspose_isAdd (leftF_owned hM ho hV _) (by rw [hV.numThreads]; exact ht)
      (fun h => parts_f hM ho hV ht1 h)]
    have : ∀ c, total mulTransposeEs (memOf M x y)
        ((List.range' V.numColBlocksE (V.numColBlocksE + V.numColBlocksF - V.numColBlocksE)).flatMap
          fun i => (colF M.tbs V.numRowBlocksE i).map (shiftF V.numColsE)) (.y c) =
        total mulTransposeEs (memOf M x y)
          ((chosen M.bs (fun j => decide (ne ≤ j)) (cellOf M.bs)).map (shiftF (colsE M.bs ne))) (.y c) := by
      intro c
      rw [← List.map_flatMap, hV.blocksE, hV.blocksF, hV.numColsE, Nat.add_sub_cancel_left]
      exact total_perm _ ((colsF_perm hM _).map _) _
    simp only [this]

end Ceres.PartitionedView
