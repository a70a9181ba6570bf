import Verif.PartitionedView.Cells

/-!
# Products with `E`, `F` and their transposes
-/
namespace Ceres.PartitionedView

open Matrix Ceres.Tasks Ceres.BlockSparse

variable {K : Type} [CommRing K]

/-! ## Where blocks are -/

theorem laid_position {p : ℕ} {bs : List Block} (h : Laid p bs) {j : ℕ} {b : Block} (hb : bs[j]? = some b) :
    b.position = p + ((bs.take j).map Block.size).sum := by
  induction bs generalizing p j with
  | nil => cases hb
  | cons a bs ih =>
    cases j with
    | zero =>
      simp only [List.getElem?_cons_zero, Option.some.injEq] at hb
      subst hb
      simpa using h.1
    | succ j =>
      rw [List.getElem?_cons_succ] at hb
      rw [ih h.2 hb]
      simp [Nat.add_assoc]

theorem blockOf_mem {bs : List Block} {r : ℕ} (hr : blockOf bs r < bs.length) :
    ∃ b, bs[blockOf bs r]? = some b ∧ b.position ≤ r ∧ r < b.position + b.size := by
  have h1 := List.findIdx_getElem (w := hr)
  simp only [decide_eq_true_eq] at h1
  exact ⟨_, List.getElem?_eq_getElem hr, h1.1, h1.2⟩

theorem sum_take_mono (l : List Block) {i j : ℕ} (h : i ≤ j) :
    ((l.take i).map Block.size).sum ≤ ((l.take j).map Block.size).sum := by
  obtain ⟨k, rfl⟩ := Nat.exists_eq_add_of_le h
  rw [List.take_add, List.map_append, List.sum_append]
  omega

theorem sum_take_succ (l : List Block) {j : ℕ} {b : Block} (h : l[j]? = some b) :
    ((l.take (j + 1)).map Block.size).sum = ((l.take j).map Block.size).sum + b.size := by
  rw [List.take_add_one, h]
  simp

/-- The column blocks of `E` come before those of `F`. -/
theorem col_e {bs : BS} (h : Laid 0 bs.cols) {ne j : ℕ} {b : Block} (hb : bs.cols[j]? = some b) :
    (j < ne → b.position + b.size ≤ colsE bs ne) ∧ (ne ≤ j → colsE bs ne ≤ b.position) := by
  have h1 := laid_position h hb
  have h2 := sum_take_succ bs.cols hb
  unfold colsE
  refine ⟨fun hj => ?_, fun hj => ?_⟩
  · have := sum_take_mono bs.cols (i := j + 1) (j := ne) hj
    omega
  · have := sum_take_mono bs.cols hj
    omega

theorem col_get {bs : BS} {j : ℕ} (h : j < bs.cols.length) : bs.cols[j]? = some (bs.col j) := by
  simp [BS.col, List.getD, List.getElem?_eq_getElem h]

/-! ## Cells of `E` and of `F` -/

variable {M : BMat K} {ne threads : ℕ} {V : View}

theorem mem_chosen {α : Type} {bs : BS} {p : ℕ → Bool} {φ : BRow → Cell → α} {a : α} :
    a ∈ chosen bs p φ ↔ ∃ r ∈ bs.rows, ∃ c ∈ r.cells, p c.blockId = true ∧ a = φ r c := by
  unfold chosen
  simp only [List.mem_flatMap, List.mem_map, List.mem_filter]
  constructor
  · rintro ⟨r, hr, c, ⟨hc, hp⟩, rfl⟩
    exact ⟨r, hr, c, hc, hp, rfl⟩
  · rintro ⟨r, hr, c, hc, hp, rfl⟩
    exact ⟨r, hr, c, ⟨hc, hp⟩, rfl⟩

/-- The matrix with another number of columns. -/
def withCols (M : BMat K) (n : ℕ) : BMat K := { M with numCols := n }

theorem cell_e (hM : M.Ok) {t : Triple} (ht : t ∈ chosen M.bs (fun j => decide (j < ne)) (cellOf M.bs)) :
    CellOk (withCols M (colsE M.bs ne)) t := by
  obtain ⟨r, hr, c, hc, hp, rfl⟩ := mem_chosen.1 ht
  have h := cell_ok hM (mem_triples hr hc)
  have := (col_e (ne := ne) hM.bs.cols (col_get (hM.bs.ids r hr c hc))).1 (of_decide_eq_true hp)
  exact ⟨h.row, this, h.val⟩

theorem cell_f (hM : M.Ok) {t : Triple} (ht : t ∈ chosen M.bs (fun j => decide (ne ≤ j)) (cellOf M.bs)) :
    colsE M.bs ne ≤ t.2.1.position ∧ CellOk (withCols M (colsF M.bs ne)) (shiftF (colsE M.bs ne) t) := by
  obtain ⟨r, hr, c, hc, hp, rfl⟩ := mem_chosen.1 ht
  have h := cell_ok hM (mem_triples hr hc)
  have h1 := (col_e (ne := ne) hM.bs.cols (col_get (hM.bs.ids r hr c hc))).2 (of_decide_eq_true hp)
  refine ⟨h1, ⟨h.row, ?_, h.val⟩⟩
  have h2 := h.col
  have h3 := colsE_add_colsF M.bs ne
  have h4 := hM.numCols
  show (M.bs.col c.blockId).position - colsE M.bs ne + (M.bs.col c.blockId).size ≤ colsF M.bs ne
  simp only at h2
  omega

/-- A sum over all cells. -/
theorem sum_split (bs : BS) (g : Triple → K) :
    (bs.triples.map g).sum = ((chosen bs (fun j => decide (j < ne)) (cellOf bs)).map g).sum +
      ((chosen bs (fun j => decide (ne ≤ j)) (cellOf bs)).map g).sum := by
  unfold BS.triples chosen
  induction bs.rows with
  | nil => simp
  | cons r rs ih =>
    simp only [List.flatMap_cons, List.map_append, List.sum_append, ih]
    have : ((r.cells.map fun c => (r.block, bs.col c.blockId, c.position)).map g).sum =
        (((r.cells.filter fun c => decide (c.blockId < ne)).map (cellOf bs r)).map g).sum +
          (((r.cells.filter fun c => decide (ne ≤ c.blockId)).map (cellOf bs r)).map g).sum := by
      induction r.cells with
      | nil => simp
      | cons c cs ih =>
        by_cases h : c.blockId < ne
        · have h' : ¬ ne ≤ c.blockId := by omega
          simp only [List.filter_cons, h, h', decide_true, decide_false, if_true, List.map_cons, List.sum_cons, ih]
          simp [cellOf, add_assoc]
        · have h' : ne ≤ c.blockId := by omega
          simp only [List.filter_cons, h, h', decide_true, decide_false, if_true, List.map_cons, List.sum_cons, ih]
          simp only [cellOf]
          simp
          ring
    rw [this]
    ring

theorem entry_e (hM : M.Ok) {r c : ℕ} (hc : c < colsE M.bs ne) :
    entryE M r c = ((chosen M.bs (fun j => decide (j < ne)) (cellOf M.bs)).map
      fun t => cellAt t.1 t.2.1 t.2.2 M.values r c).sum := by
  unfold entryE BMat.entry
  rw [entry_triples, sum_split (ne := ne), add_eq_left]
  refine List.sum_eq_zero fun z hz => ?_
  obtain ⟨t, ht, rfl⟩ := List.mem_map.1 hz
  have := (cell_f hM ht).1
  exact if_neg (by omega)

theorem entry_f (hM : M.Ok) {r c : ℕ} :
    entryF M ne r c = ((chosen M.bs (fun j => decide (ne ≤ j)) (cellOf M.bs)).map
      fun t => cellAt t.1 t.2.1 t.2.2 M.values r (colsE M.bs ne + c)).sum := by
  unfold entryF BMat.entry
  rw [entry_triples, sum_split (ne := ne), add_eq_right]
  refine List.sum_eq_zero fun z hz => ?_
  obtain ⟨t, ht, rfl⟩ := List.mem_map.1 hz
  have := (cell_e hM ht).col
  exact if_neg (by simp only [withCols] at this; omega)

theorem cellAt_shift {t : Triple} {n : ℕ} (h : n ≤ t.2.1.position) (v : ℕ → K) (r c : ℕ) :
    cellAt (shiftF n t).1 (shiftF n t).2.1 (shiftF n t).2.2 v r c = cellAt t.1 t.2.1 t.2.2 v r (n + c) := by
  unfold cellAt shiftF
  simp only
  have e1 : (t.2.1.position - n ≤ c ∧ c < t.2.1.position - n + t.2.1.size) ↔
      (t.2.1.position ≤ n + c ∧ n + c < t.2.1.position + t.2.1.size) := by omega
  by_cases hc : t.1.position ≤ r ∧ r < t.1.position + t.1.size ∧ t.2.1.position ≤ n + c ∧
      n + c < t.2.1.position + t.2.1.size
  · rw [if_pos hc, if_pos ⟨hc.1, hc.2.1, e1.2 hc.2.2⟩]
    congr 2
    omega
  · rw [if_neg hc, if_neg]
    rintro ⟨a, b, c'⟩
    exact hc ⟨a, b, e1.1 c'⟩

/-! ## Sums of additions -/

theorem total_right_e (hM : M.Ok) (x y : ℕ → K) (r : ℕ) :
    total mulEs (memOf M x y) (chosen M.bs (fun j => decide (j < ne)) (cellOf M.bs)) (.y r) =
      ∑ c ∈ Finset.range (colsE M.bs ne), entryE M r c * x c := by
  unfold total
  refine (congrArg List.sum (List.map_congr_left fun t ht =>
    mulEs_sum (M := withCols M (colsE M.bs ne)) (x := x) (y := y) (cell_e hM ht) r)).trans ?_
  rw [list_sum_comm]
  refine Finset.sum_congr rfl fun c hc => ?_
  rw [list_sum_mul, entry_e hM (Finset.mem_range.1 hc)]
  rfl

theorem total_right_f (hM : M.Ok) (x y : ℕ → K) (r : ℕ) :
    total mulEs (memOf M x y)
        ((chosen M.bs (fun j => decide (ne ≤ j)) (cellOf M.bs)).map (shiftF (colsE M.bs ne))) (.y r) =
      ∑ c ∈ Finset.range (colsF M.bs ne), entryF M ne r c * x c := by
  unfold total
  rw [List.map_map]
  refine (congrArg List.sum (List.map_congr_left fun t ht =>
    mulEs_sum (M := withCols M (colsF M.bs ne)) (x := x) (y := y) (cell_f hM ht).2 r)).trans ?_
  rw [list_sum_comm]
  refine Finset.sum_congr rfl fun c _ => ?_
  rw [list_sum_mul, entry_f hM]
  congr 2
  exact List.map_congr_left fun t ht => cellAt_shift (cell_f hM ht).1 _ _ _

theorem total_left_e (hM : M.Ok) (x y : ℕ → K) (c : ℕ) :
    total mulTransposeEs (memOf M x y) (chosen M.bs (fun j => decide (j < ne)) (cellOf M.bs)) (.y c) =
      if c < colsE M.bs ne then ∑ r ∈ Finset.range M.numRows, entryE M r c * x r else 0 := by
  unfold total
  refine (congrArg List.sum (List.map_congr_left fun t ht =>
    mulTransposeEs_sum (M := withCols M (colsE M.bs ne)) (x := x) (y := y) (cell_e hM ht) c)).trans ?_
  rw [list_sum_comm]
  by_cases hc : c < colsE M.bs ne
  · rw [if_pos hc]
    refine Finset.sum_congr rfl fun r _ => ?_
    rw [list_sum_mul, entry_e hM hc]
    rfl
  · rw [if_neg hc]
    refine Finset.sum_eq_zero fun r _ => ?_
    refine List.sum_eq_zero fun z hz => ?_
    obtain ⟨t, ht, rfl⟩ := List.mem_map.1 hz
    have := (cell_e hM ht).col
    simp only [withCols] at this
    rw [show cellAt t.1 t.2.1 t.2.2 _ r c = (0 : K) from if_neg (by omega), zero_mul]

theorem total_left_f (hM : M.Ok) (x y : ℕ → K) (c : ℕ) :
    total mulTransposeEs (memOf M x y)
        ((chosen M.bs (fun j => decide (ne ≤ j)) (cellOf M.bs)).map (shiftF (colsE M.bs ne))) (.y c) =
      ∑ r ∈ Finset.range M.numRows, entryF M ne r c * x r := by
  unfold total
  rw [List.map_map]
  refine (congrArg List.sum (List.map_congr_left fun t ht =>
    mulTransposeEs_sum (M := withCols M (colsF M.bs ne)) (x := x) (y := y) (cell_f hM ht).2 c)).trans ?_
  rw [list_sum_comm]
  refine Finset.sum_congr rfl fun r _ => ?_
  rw [list_sum_mul, entry_f hM]
  congr 2
  exact List.map_congr_left fun t ht => cellAt_shift (cell_f hM ht).1 _ _ _

/-! ## Which index owns what -/

theorem mem_atRow {bs : BS} {i : ℕ} {g : BRow → List Triple} {t : Triple} (h : t ∈ atRow bs i g) :
    ∃ r, bs.rows[i]? = some r ∧ t ∈ g r := by
  unfold atRow at h
  cases hr : bs.rows[i]? with
  | none => rw [hr] at h; cases h
  | some r => rw [hr] at h; exact ⟨r, rfl, h⟩

theorem row_cell {i : ℕ} {t : Triple} (h : t ∈ rowAll M.bs i) :
    ∃ r, M.bs.rows[i]? = some r ∧ ∃ c ∈ r.cells, t = cellOf M.bs r c := by
  obtain ⟨r, hr, ht⟩ := mem_atRow h
  obtain ⟨c, hc, rfl⟩ := List.mem_map.1 ht
  exact ⟨r, hr, c, hc, rfl⟩

theorem rowE_sub {i : ℕ} {t : Triple} (h : t ∈ rowE M.bs i) : t ∈ rowAll M.bs i := by
  obtain ⟨r, hr, ht⟩ := mem_atRow h
  obtain ⟨c, hc, rfl⟩ := List.mem_map.1 ht
  unfold rowAll atRow
  rw [hr]
  exact List.mem_map.2 ⟨c, List.mem_of_mem_take hc, rfl⟩

theorem rowRest_sub {i : ℕ} {t : Triple} (h : t ∈ rowRest M.bs i) : t ∈ rowAll M.bs i := by
  obtain ⟨r, hr, ht⟩ := mem_atRow h
  obtain ⟨c, hc, rfl⟩ := List.mem_map.1 ht
  unfold rowAll atRow
  rw [hr]
  exact List.mem_map.2 ⟨c, List.mem_of_mem_drop hc, rfl⟩

/-- The element of the result that a row block owns. -/
def ownRow (M : BMat K) (r : ℕ) : ℕ := blockOf (M.bs.rows.map BRow.block) r

/-- Loops over row blocks. -/
theorem right_owned (hM : M.Ok) {start stop nx : ℕ} (tri : ℕ → List Triple) (m : Mem K)
    (h1 : ∀ i, start ≤ i → i < stop → ∀ t ∈ tri i, ∃ r, M.bs.rows[i]? = some r ∧ t.1 = r.block)
    (h2 : ∀ i, start ≤ i → i < stop → ∀ t ∈ tri i, CellOk (withCols M nx) t) :
    Owned mulEs (fun row col pos l => readsCell row col pos l ∨ readsVec col l) tri (fun _ => []) (ownRow M)
      start stop nx M.nnz m where
  reads := fun i a b t ht l hl => by
    rcases hl with hl | ⟨k, rfl⟩
    · exact Or.inr (reads_ok (M := withCols M nx) (h2 i a b t ht) hl)
    · exact Or.inl ⟨_, by have := (h2 i a b t ht).col; simp only [withCols] at this; omega, rfl⟩
  adds := fun i a b t ht e he => by
    obtain ⟨k, rfl⟩ := mem_vecEntries.1 he
    obtain ⟨r, hr, ht1⟩ := h1 i a b t ht
    refine ⟨_, ?_, rfl⟩
    unfold ownRow
    have hk := k.2
    generalize (k : ℕ) = k at hk ⊢
    rw [ht1] at hk ⊢
    exact blockOf_eq hM.bs.rows (i := i) (b := r.block) (by simp [hr]) (by omega) (by omega)
  zeros := fun i _ _ k hk => by cases hk

/-- Loops over column blocks, whose first column is column `off` of the result. -/
theorem left_owned (hM : M.Ok) {start stop off : ℕ} (tri : ℕ → List Triple) (m : Mem K)
    (h1 : ∀ i, start ≤ i → i < stop → ∀ t ∈ tri i, ∃ b, M.bs.cols[i]? = some b ∧ off ≤ b.position ∧
      t.2.1 = ⟨b.size, b.position - off⟩)
    (h2 : ∀ i, start ≤ i → i < stop → ∀ t ∈ tri i, ∃ nx, CellOk (withCols M nx) t) :
    Owned mulTransposeEs (fun row col pos l => readsCell row col pos l ∨ readsVec row l) tri (fun _ => [])
      (fun k => blockOf M.bs.cols (off + k)) start stop M.numRows M.nnz m where
  reads := fun i a b t ht l hl => by
    obtain ⟨nx, h2⟩ := h2 i a b t ht
    rcases hl with hl | ⟨k, rfl⟩
    · exact Or.inr (reads_ok (M := withCols M nx) h2 hl)
    · exact Or.inl ⟨_, by have := h2.row; simp only [withCols] at this; omega, rfl⟩
  adds := fun i a b t ht e he => by
    obtain ⟨k, rfl⟩ := mem_vecEntries.1 he
    obtain ⟨b, hb, hpos, ht1⟩ := h1 i a b t ht
    refine ⟨_, ?_, rfl⟩
    have hk := k.2
    generalize (k : ℕ) = k at hk ⊢
    rw [ht1] at hk ⊢
    simp only at hk ⊢
    exact blockOf_eq hM.bs.cols (i := i) (b := b) hb (by omega) (by omega)
  zeros := fun i _ _ k hk => by cases hk

/-- What a loop without zeroing leaves. -/
theorem owned_memOf {es : Mem K → Block → Block → ℕ → List (Loc × K)} {reads : Block → Block → ℕ → Loc → Prop}
    {tri : ℕ → List Triple} {own : ℕ → ℕ} {start stop nx nv : ℕ} {x y : ℕ → K}
    (ho : Owned es reads tri (fun _ => []) own start stop nx nv (memOf M x y)) {m' : Mem K} {inc : ℕ → Mem K}
    (h : Result (ownKind own nx nv stop) start stop (memOf M x y)
      (ownFin es tri (fun _ => []) own (memOf M x y)) inc m') :
    m' = memOf M x fun r =>
      y r + total es (memOf M x y) ((List.range' start (stop - start)).flatMap tri) (.y r) := by
  have hoff : ∀ l, (∀ r, l ≠ .y r) →
      total es (memOf M x y) ((List.range' start (stop - start)).flatMap tri) l = 0 := by
    intro l hl
    refine total_zero fun t ht e he heq => ?_
    obtain ⟨i, hi, ht⟩ := List.mem_flatMap.1 ht
    rw [List.mem_range'_1] at hi
    obtain ⟨k, -, k2⟩ := ho.adds i hi.1 (by omega) t ht e he
    exact hl k (heq ▸ k2)
  funext l
  rw [own_result ho h l, if_neg (by rintro ⟨r, -, i, -, -, h⟩; cases h)]
  cases l with
  | y r => rfl
  | x i => rw [hoff _ (fun r h => Loc.noConfusion h), add_zero]; rfl
  | val i => rw [hoff _ (fun r h => Loc.noConfusion h), add_zero]; rfl

/-! ## Products with `E` -/

theorem rowsE_cell (hM : M.Ok) (ho : Ordered M.bs ne) (hV : IsView M ne threads V) {i : ℕ} (hi : i < V.numRowBlocksE)
    {t : Triple} (ht : t ∈ rowE M.bs i) : t ∈ chosen M.bs (fun j => decide (j < ne)) (cellOf M.bs) := by
  rw [← rows_e ho hV]
  have : t ∈ (List.range' 0 V.numRowBlocksE).flatMap (rowE M.bs) :=
    List.mem_flatMap.2 ⟨i, by rw [List.mem_range'_1]; omega, ht⟩
  unfold rowE at this
  rw [flatMap_atRow, List.drop_zero] at this
  exact this

theorem rightE_owned (hM : M.Ok) (ho : Ordered M.bs ne) (hV : IsView M ne threads V) (m : Mem K) :
    Owned mulEs (fun row col pos l => readsCell row col pos l ∨ readsVec col l) (rowE M.bs) (fun _ => []) (ownRow M)
      0 V.numRowBlocksE (colsE M.bs ne) M.nnz m :=
  right_owned hM _ _
    (fun i _ _ t ht => by
      obtain ⟨r, hr, c, -, rfl⟩ := row_cell (rowE_sub ht)
      exact ⟨r, hr, rfl⟩)
    (fun i _ hi t ht => cell_e hM (rowsE_cell hM ho hV hi ht))

/-- **`RightMultiplyAndAccumulateE`**: `y += E x` and nothing else, whatever the number of threads and the
schedule. -/
theorem right_e (hM : M.Ok) (ho : Ordered M.bs ne) (hV : IsView M ne threads V) (ht : 0 < threads) (x y : ℕ → K)
    (o : Option (Mem K)) : RightERun V M (memOf M x y) o ↔
      o = some (memOf M x fun r => y r + ∑ c ∈ Finset.range (colsE M.bs ne), entryE M r c * x c) := by
  have hO := rightE_owned hM ho hV (memOf M x y)
  have hD := own_disciplined (threads := V.threads) mulCell_isAdd hO
  have ht' : 0 < V.threads := by rw [hV.numThreads]; exact ht
  have key : ∀ o, RightERun V M (memOf M x y) o →
      o = some (memOf M x fun r => y r + ∑ c ∈ Finset.range (colsE M.bs ne), entryE M r c * x c) := by
    intro o h
    obtain ⟨m', rfl, h2⟩ := forRun_result hD ht' h
    rw [owned_memOf hO h2]
    congr 2
    funext r
    rw [← total_right_e hM x y r, ← rows_e ho hV]
    unfold rowE
    rw [flatMap_atRow]
    simp
  refine ⟨key o, ?_⟩
  rintro rfl
  obtain ⟨m', hm'⟩ := Tasks.forRun_exists hD ht'
  have := key _ hm'
  rw [← this]
  exact hm'

/-! ## Products with `F` -/

theorem rowsF_cell (ho : Ordered M.bs ne) (hV : IsView M ne threads V) {t : Triple} {i : ℕ}
    (h : (i < V.numRowBlocksE ∧ t ∈ rowRest M.bs i) ∨ (V.numRowBlocksE ≤ i ∧ t ∈ rowAll M.bs i)) :
    t ∈ chosen M.bs (fun j => decide (ne ≤ j)) (cellOf M.bs) := by
  rw [← rows_f ho hV, List.mem_append]
  rcases h with ⟨hi, ht⟩ | ⟨hi, ht⟩
  · left
    have : t ∈ (List.range' 0 V.numRowBlocksE).flatMap (rowRest M.bs) :=
      List.mem_flatMap.2 ⟨i, by rw [List.mem_range'_1]; omega, ht⟩
    unfold rowRest at this
    rw [flatMap_atRow, List.drop_zero] at this
    exact this
  · right
    obtain ⟨r, hr, -⟩ := row_cell ht
    have hlt : i < M.bs.rows.length := by
      by_contra hge
      rw [List.getElem?_eq_none (by omega)] at hr
      cases hr
    have : t ∈ (List.range' V.numRowBlocksE (M.bs.rows.length - V.numRowBlocksE)).flatMap (rowAll M.bs) :=
      List.mem_flatMap.2 ⟨i, by rw [List.mem_range'_1]; omega, ht⟩
    unfold rowAll at this
    rw [flatMap_atRow, List.take_of_length_le (by rw [List.length_drop])] at this
    exact this

theorem rightF_owned1 (hM : M.Ok) (ho : Ordered M.bs ne) (hV : IsView M ne threads V) (m : Mem K) :
    Owned mulEs (fun row col pos l => readsCell row col pos l ∨ readsVec col l)
      (fun i => (rowRest M.bs i).map (shiftF V.numColsE)) (fun _ => []) (ownRow M)
      0 V.numRowBlocksE (colsF M.bs ne) M.nnz m :=
  right_owned hM _ _
    (fun i _ _ t ht => by
      obtain ⟨t', ht', rfl⟩ := List.mem_map.1 ht
      obtain ⟨r, hr, c, -, rfl⟩ := row_cell (rowRest_sub ht')
      exact ⟨r, hr, rfl⟩)
    (fun i _ hi t ht => by
      obtain ⟨t', ht', rfl⟩ := List.mem_map.1 ht
      rw [hV.numColsE]
      exact (cell_f hM (rowsF_cell ho hV (Or.inl ⟨hi, ht'⟩))).2)

theorem rightF_owned2 (hM : M.Ok) (ho : Ordered M.bs ne) (hV : IsView M ne threads V) (m : Mem K) :
    Owned mulEs (fun row col pos l => readsCell row col pos l ∨ readsVec col l)
      (fun i => (rowAll M.bs i).map (shiftF V.numColsE)) (fun _ => []) (ownRow M)
      V.numRowBlocksE M.bs.rows.length (colsF M.bs ne) M.nnz m :=
  right_owned hM _ _
    (fun i _ _ t ht => by
      obtain ⟨t', ht', rfl⟩ := List.mem_map.1 ht
      obtain ⟨r, hr, c, -, rfl⟩ := row_cell ht'
      exact ⟨r, hr, rfl⟩)
    (fun i hi _ t ht => by
      obtain ⟨t', ht', rfl⟩ := List.mem_map.1 ht
      rw [hV.numColsE]
      exact (cell_f hM (rowsF_cell ho hV (Or.inr ⟨hi, ht'⟩))).2)

/-- Two loops, each of which does one thing. -/
theorem then_iff {R : Option (Mem K) → Prop} {S : Mem K → Option (Mem K) → Prop} {m1 m2 : Mem K}
    (hR : ∀ o, R o ↔ o = some m1) (hS : ∀ o, S m1 o ↔ o = some m2) (o : Option (Mem K)) :
    Then R S o ↔ o = some m2 := by
  constructor
  · intro h
    cases h with
    | stuck h => exact absurd ((hR _).1 h) (by simp)
    | next m o h1 h2 =>
      have := (hR _).1 h1
      simp only [Option.some.injEq] at this
      subst this
      exact (hS _).1 h2
  · rintro rfl
    exact .next m1 _ ((hR _).2 rfl) ((hS _).2 rfl)

/-- A loop over row blocks that adds: one outcome. -/
theorem right_loop {tri : ℕ → List Triple} {start stop nx : ℕ} {x y : ℕ → K}
    (hO : Owned mulEs (fun row col pos l => readsCell row col pos l ∨ readsVec col l) tri (fun _ => []) (ownRow M)
      start stop nx M.nnz (memOf M x y)) (ht : 0 < threads) (o : Option (Mem K)) :
    ForRun (fun _ i => kernels mulCell (tri i) .ret) start stop threads (memOf M x y) o ↔
      o = some (memOf M x fun r => y r +
        total mulEs (memOf M x y) ((List.range' start (stop - start)).flatMap tri) (.y r)) := by
  have hD := own_disciplined (threads := threads) mulCell_isAdd hO
  have key : ∀ o, ForRun (fun _ i => kernels mulCell (tri i) .ret) start stop threads (memOf M x y) o → o =
      some (memOf M x fun r => y r +
        total mulEs (memOf M x y) ((List.range' start (stop - start)).flatMap tri) (.y r)) := by
    intro o h
    obtain ⟨m', rfl, h2⟩ := forRun_result hD ht h
    rw [owned_memOf hO h2]
  refine ⟨key o, ?_⟩
  rintro rfl
  obtain ⟨m', hm'⟩ := Tasks.forRun_exists hD ht
  have := key _ hm'
  rw [← this]
  exact hm'

theorem total_mulEs_y (l : List Triple) (x y y' : ℕ → K) (r : ℕ) :
    total mulEs (memOf M x y) l (.y r) = total mulEs (memOf M x y') l (.y r) := rfl

/-- **`RightMultiplyAndAccumulateF`**: `y += F x` and nothing else, whatever the number of threads and the
schedule. -/
theorem right_f (hM : M.Ok) (ho : Ordered M.bs ne) (hV : IsView M ne threads V) (ht : 0 < threads) (x y : ℕ → K)
    (o : Option (Mem K)) : RightFRun V M (memOf M x y) o ↔
      o = some (memOf M x fun r => y r + ∑ c ∈ Finset.range (colsF M.bs ne), entryF M ne r c * x c) := by
  have ht' : 0 < V.threads := by rw [hV.numThreads]; exact ht
  unfold RightFRun
  rw [then_iff (right_loop (rightF_owned1 hM ho hV _) ht') (right_loop (rightF_owned2 hM ho hV _) ht')]
  have hval : ∀ r, (y r + total mulEs (memOf M x y)
      ((List.range' 0 (V.numRowBlocksE - 0)).flatMap fun i => (rowRest M.bs i).map (shiftF V.numColsE)) (.y r)) +
      total mulEs (memOf M x y) ((List.range' V.numRowBlocksE (M.bs.rows.length - V.numRowBlocksE)).flatMap
        fun i => (rowAll M.bs i).map (shiftF V.numColsE)) (.y r) =
      y r + ∑ c ∈ Finset.range (colsF M.bs ne), entryF M ne r c * x c := by
    intro r
    rw [← total_right_f hM x y r, ← rows_f ho hV, add_assoc, ← total_append, Nat.sub_zero]
    congr 2
    rw [List.map_append, hV.numColsE]
    congr 1
    · rw [← List.map_flatMap]
      unfold rowRest
      rw [flatMap_atRow, List.drop_zero]
    · rw [← List.map_flatMap]
      unfold rowAll
      rw [flatMap_atRow, List.take_of_length_le (by rw [List.length_drop])]
  constructor
  · rintro rfl
    congr 2
    funext r
    exact hval r
  · rintro rfl
    congr 2
    funext r
    exact (hval r).symm

end Ceres.PartitionedView
