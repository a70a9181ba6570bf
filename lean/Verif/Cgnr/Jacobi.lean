import Verif.Cgnr.Model
import Verif.SchurJacobi.Props
import Verif.PartitionedView.GramRun
import Verif.Direct.Sparse

/-!
# The JACOBI preconditioner of CGNR
-/

noncomputable section

namespace Ceres.Cgnr

open Matrix Ceres.Tasks Ceres.BlockSparse Ceres.Direct Ceres.InnerProduct
open Ceres.CG (SPD)
open Ceres.PartitionedView (Does Gives layout diagPos gramOf onY setZero assign gramEs gramCells gramSize ownGram ownGram_eq
  total total_zero total_perm sqOffset offset sqOffset_succ sqOffset_mono slot_lt slot_inj LltOk bind_iff onY_iff
  chosen mem_gramCells gram_adds gram_total position_eq)
open Ceres.SchurJacobi (diagonal invert front extend corner diagPos_diagonal)

variable {M : BMat ℝ} {threads : ℕ}

theorem blocks_all (bs : BS) : PartitionedView.blocksOf bs 0 bs.cols.length = bs.cols := by
  unfold PartitionedView.blocksOf
  simp

theorem size_all (M : BMat ℝ) : gramSize M 0 M.bs.cols.length = sqOffset M.bs.cols M.bs.cols.length := by
  unfold gramSize
  rw [blocks_all]

theorem simple_of_sorted {bs : BS} (h : CellsSorted bs) : bs.Simple := fun row hr => (h row hr).imp fun h => Nat.ne_of_lt h

/-! ## The loop over the row blocks -/

/-- Values are only read; the blocks of `m_` are guarded by their mutexes; nothing else is touched. -/
def jacobiKind (M : BMat ℝ) : Loc → Kind ℕ
  | .x _ => .own M.bs.rows.length
  | .y p => if p < gramSize M 0 M.bs.cols.length then .guarded (ownGram M 0 M.bs.cols.length p) else .own M.bs.rows.length
  | .val p => if p < M.nnz then .fixed else .own M.bs.rows.length

/-- The triple of a cell. -/
abbrev cellTriple (M : BMat ℝ) (r : BRow) (c : Cell) : PartitionedView.Triple := gramOf M.bs (diagonal M.bs.cols) 0 r c

/-- What the cells of a row block add. -/
def rowEs (M : BMat ℝ) (m : Mem ℝ) (r : BRow) (cells : List Cell) : List (Loc × ℝ) :=
  cells.flatMap fun c => gramEs m (cellTriple M r c).1 (cellTriple M r c).2.1 (cellTriple M r c).2.2

theorem triple_mem (h : M.Ok) {r : BRow} (hr : r ∈ M.bs.rows) {c : Cell} (hc : c ∈ r.cells) :
    cellTriple M r c ∈ gramCells M 0 M.bs.cols.length :=
  PartitionedView.mem_chosen.2 ⟨r, hr, c, hc, by simp [h.bs.ids r hr c hc], rfl⟩

theorem cell_guarded (h : M.Ok) {r : BRow} (hr : r ∈ M.bs.rows) {c : Cell} (hc : c ∈ r.cells) (m : Mem ℝ) {e : Loc × ℝ}
    (he : e ∈ gramEs m (cellTriple M r c).1 (cellTriple M r c).2.1 (cellTriple M r c).2.2) :
    jacobiKind M e.1 = .guarded c.blockId := by
  have hid := h.bs.ids r hr c hc
  obtain ⟨p, hp, hpe⟩ := gram_adds h (triple_mem h hr hc) he
  have hblk := PartitionedView.chosen_blk h hr hc (Nat.zero_le _) hid
  obtain ⟨i, j, rfl⟩ := mem_matEntries.1 he
  have hpos : (cellTriple M r c).2.1.position = sqOffset M.bs.cols c.blockId := diagPos_diagonal hid
  have hsz : (cellTriple M r c).2.1.size = (M.bs.col c.blockId).size := rfl
  simp only at hpe ⊢
  injection hpe with hpe
  show (if _ < _ then _ else _) = _
  rw [hpe, if_pos hp, ownGram_eq hblk]
  · simp
  · rw [blocks_all, Nat.sub_zero]
    omega
  · rw [blocks_all, Nat.sub_zero]
    have h1 : (i : ℕ) * (M.bs.col c.blockId).size + j < (M.bs.col c.blockId).size * (M.bs.col c.blockId).size := slot_lt i.2 j.2
    have h2 : (cellTriple M r c).2.1.position + i * (M.bs.col c.blockId).size + j = p := hpe
    omega

theorem cell_reads (h : M.Ok) {r : BRow} (hr : r ∈ M.bs.rows) {c : Cell} (hc : c ∈ r.cells)
    (i : Fin (cellTriple M r c).1.size) (j : Fin (cellTriple M r c).2.1.size) :
    jacobiKind M (valLoc (cellTriple M r c).2.2 i j) = .fixed := by
  obtain ⟨p, hp, he⟩ := PartitionedView.gram_reads h (triple_mem h hr hc) (l := valLoc (cellTriple M r c).2.2 i j) ⟨i, j, rfl⟩
  rw [he]
  exact if_pos hp

theorem cell_runs (h : M.Ok) {r : BRow} (hr : r ∈ M.bs.rows) {c : Cell} (hc : c ∈ r.cells) {free : Bool} {tid i : ℕ}
    {m p p' : Mem ℝ} {k : Locked} {a : List (Loc × ℝ)} (hf : threads = 1 → free = true)
    (hk : Runs (jacobiKind M) free tid i m none k p p' a) :
    Runs (jacobiKind M) free tid i m none (jacobiCell threads M.bs (diagonal M.bs.cols) r c k) p p'
      (gramEs m (cellTriple M r c).1 (cellTriple M r c).2.1 (cellTriple M r c).2.2 ++ a) := by
  unfold jacobiCell condLock
  have hg := fun e he => cell_guarded h hr hc m (e := e) he
  have hr := cell_reads h hr hc
  by_cases ht : threads = 1
  · simp only [if_pos ht]
    refine runs_readMat_fixed hr (runs_readMat_fixed hr ?_)
    refine runs_adds_guarded c.blockId _ hg (Or.inr ⟨rfl, hf ht⟩) ?_
    unfold condUnlock
    rw [if_pos ht]
    exact hk
  · simp only [if_neg ht]
    refine .lock (runs_readMat_fixed hr (runs_readMat_fixed hr ?_))
    refine runs_adds_guarded c.blockId _ hg (Or.inl rfl) ?_
    unfold condUnlock
    rw [if_neg ht]
    exact .unlock hk

theorem row_runs (h : M.Ok) {r : BRow} (hr : r ∈ M.bs.rows) {free : Bool} {tid i : ℕ} (m p : Mem ℝ)
    (hf : threads = 1 → free = true) (cells : List Cell) (hc : ∀ c ∈ cells, c ∈ r.cells) :
    Runs (jacobiKind M) free tid i m none
      (cells.foldr (jacobiCell threads M.bs (diagonal M.bs.cols) r) .ret) p p (rowEs M m r cells) := by
  induction cells with
  | nil => exact .ret p
  | cons c cells ih =>
    rw [List.foldr_cons, rowEs, List.flatMap_cons]
    exact cell_runs h hr (hc c (by simp)) hf (ih fun c' h' => hc c' (by simp [h']))

/-- What row block `i` adds. -/
def rowInc (M : BMat ℝ) (m : Mem ℝ) (i : ℕ) (l : Loc) : ℝ :=
  total gramEs m (PartitionedView.atRow M.bs i fun r => r.cells.map (cellTriple M r)) l

theorem jacobi_disciplined (h : M.Ok) (threads : ℕ) (m : Mem ℝ) :
    Disciplined (jacobiKind M) (jacobiTask threads M.bs (diagonal M.bs.cols)) 0 M.bs.rows.length threads m m (rowInc M m) := by
  refine ⟨fun i tid _ hi _ p hp => ?_⟩
  have hget : M.bs.rows[i]? = some M.bs.rows[i] := List.getElem?_eq_getElem hi
  refine ⟨p, rowEs M m M.bs.rows[i] M.bs.rows[i].cells, ?_, hp, fun l x _ => ?_⟩
  · unfold jacobiTask
    rw [hget]
    exact row_runs h (List.getElem_mem hi) m p (by simp) _ fun _ h => h
  · unfold rowInc PartitionedView.atRow rowEs
    rw [hget, sumAt_flatMap]
    unfold total
    rw [List.map_map]
    rfl

theorem row_total (h : M.Ok) (m : Mem ℝ) (l : Loc) :
    ∑ i ∈ Finset.Ico 0 M.bs.rows.length, rowInc M m i l = total gramEs m (gramCells M 0 M.bs.cols.length) l := by
  have e : ∀ f : ℕ → ℝ, ∑ i ∈ Finset.Ico 0 M.bs.rows.length, f i = ((List.range' 0 M.bs.rows.length).map f).sum := by
    intro f
    rw [Nat.Ico_zero_eq_range, ← List.range_eq_range', ← List.sum_toFinset _ List.nodup_range, List.toFinset_range]
  rw [e]
  unfold rowInc
  rw [← PartitionedView.total_flatMap, PartitionedView.flatMap_atRow, List.drop_zero, List.take_length]
  congr 1
  unfold gramCells chosen
  refine List.flatMap_congr fun r hr => ?_
  rw [List.filter_eq_self.2 fun c hc => by simp [h.bs.ids r hr c hc]]
  rfl

/-- **The loop** adds the blocks on the diagonal of `A'A`, for every schedule. -/
theorem jacobi_loop (h : M.Ok) (ht : 0 < threads) (v : Vec) (o : Option Vec) :
    onY (ForRun (jacobiTask threads M.bs (diagonal M.bs.cols)) 0 M.bs.rows.length threads
        (PartitionedView.mem v v M.values)) o ↔
      o = some fun p => v p + total gramEs (memOf M v v) (gramCells M 0 M.bs.cols.length) (.y p) := by
  have hm : PartitionedView.mem v v M.values = memOf M v v := by funext l; cases l <;> rfl
  rw [hm]
  have hD := jacobi_disciplined h threads (memOf M v v)
  have key : ∀ o, onY (ForRun (jacobiTask threads M.bs (diagonal M.bs.cols)) 0 M.bs.rows.length threads
        (memOf M v v)) o →
      o = some fun p => v p + total gramEs (memOf M v v) (gramCells M 0 M.bs.cols.length) (.y p) := by
    rintro o ⟨o', ho, rfl⟩
    obtain ⟨m', rfl, h2⟩ := forRun_result hD ht ho
    rw [Option.map_some]
    congr 1
    funext p
    by_cases hp : p < gramSize M 0 M.bs.cols.length
    · rw [h2.sum (.y p) _ (if_pos hp), row_total h]
      rfl
    · rw [h2.own (.y p) _ (if_neg hp), if_neg (by omega), total_zero, add_zero]
      · rfl
      · intro t htm e he heq
        obtain ⟨q, h3, h4⟩ := gram_adds h htm he
        rw [h4] at heq
        injection heq with heq
        omega
  refine ⟨key o, ?_⟩
  rintro rfl
  obtain ⟨m', hm'⟩ := forRun_exists hD ht
  have := key _ ⟨_, hm', rfl⟩
  rw [← this]
  exact ⟨_, hm', rfl⟩

/-- **No data race and no access out of bounds** in the loop over the row blocks. -/
theorem jacobi_race_free (h : M.Ok) (m : Mem ℝ) {s : St Loc ℕ ℝ}
    (hs : ForReach 1 (jacobiTask threads M.bs (diagonal M.bs.cols)) 0 M.bs.rows.length threads m s) :
    ¬Race s ∧ ∀ l, Touches s l → InBounds 0 (sqOffset M.bs.cols M.bs.cols.length) M.nnz l := by
  have hD := jacobi_disciplined h threads m
  refine ⟨forReach_race_free (by norm_num) hD hs, fun l hl => ?_⟩
  have := forReach_usable (by norm_num) hD hs hl
  cases l with
  | x i => simp [Usable, jacobiKind] at this
  | y p =>
    simp only [Usable, jacobiKind] at this
    split_ifs at this with h1
    · rw [size_all] at h1
      exact h1
    · simp at this
  | val p =>
    simp only [Usable, jacobiKind] at this
    split_ifs at this with h1
    · exact h1
    · simp at this

/-! ## The loop that adds the squares -/

/-- What column block `i` adds. -/
def squareEs (bs : BS) (m : Mem ℝ) (i : ℕ) : List (Loc × ℝ) :=
  vecEntries (fun k : Fin (bs.col i).size => m (.x ((bs.col i).position + k)) ^ 2)
    fun k => .y (diagPos (diagonal bs.cols) i + k * (bs.col i).size + k)

/-- Every index has its block; `D` is only read. -/
def squareKind (M : BMat ℝ) : Loc → Kind ℕ
  | .x i => if i < M.numCols then .fixed else .own M.bs.cols.length
  | .y p => .own (ownGram M 0 M.bs.cols.length p)
  | .val _ => .own M.bs.cols.length

theorem square_own {i : ℕ} (hi : i < M.bs.cols.length) {m : Mem ℝ} {e : Loc × ℝ} (he : e ∈ squareEs M.bs m i) :
    ∃ p, e.1 = .y p ∧ ownGram M 0 M.bs.cols.length p = i := by
  obtain ⟨k, rfl⟩ := mem_vecEntries.1 he
  refine ⟨_, rfl, ?_⟩
  rw [diagPos_diagonal hi]
  have := slot_lt k.2 k.2
  rw [ownGram_eq (k := i) (blk := M.bs.col i) (by rw [blocks_all]; exact InnerProduct.col_getElem hi), Nat.zero_add] <;>
    rw [blocks_all] <;> omega

theorem square_disciplined (h : M.Ok) (threads : ℕ) (m : Mem ℝ) :
    Disciplined (squareKind M) (squareTask M.bs (diagonal M.bs.cols)) 0 M.bs.cols.length threads m
      (fun | .y p => m (.y p) + sumAt (squareEs M.bs m (ownGram M 0 M.bs.cols.length p)) (.y p) | l => m l)
      fun _ _ => 0 := by
  refine ⟨fun i tid _ hi _ p hp => ⟨addTo (squareEs M.bs m i) p, [], ?_, fun l hl => ?_, fun l x hl => ?_⟩⟩
  · unfold squareTask
    refine runs_readVec_fixed (fun k => ?_) (runs_adds_mine (squareEs M.bs m i) (fun e he => ?_) (.ret _))
    · refine if_pos ?_
      have := (laid_bounds h.bs.cols (List.mem_of_getElem? (InnerProduct.col_getElem hi))).2
      rw [← h.numCols] at this
      have := k.2
      omega
    · obtain ⟨q, hq, ho⟩ := square_own hi he
      refine Or.inr ?_
      rw [hq]
      show Kind.own _ = _
      rw [ho]
  · rw [addTo_eq]
    cases l with
    | y q =>
      have hq : ownGram M 0 M.bs.cols.length q = i := by
        simp only [squareKind] at hl
        injection hl
      show _ = m (.y q) + _
      rw [hp _ hl, hq]
    | x q =>
      simp only [squareKind] at hl
      split_ifs at hl
      injection hl with hl
      omega
    | val q =>
      simp only [squareKind] at hl
      injection hl with hl
      omega
  · cases l with
    | y q => cases hl
    | x q => simp only [squareKind] at hl; split_ifs at hl
    | val q => cases hl

/-- **The loop** adds the squares on the diagonal, for every schedule. -/
theorem square_loop (h : M.Ok) (ht : 0 < threads) (D v : Vec) :
    ∃ w, (∀ o, onY (ForRun (squareTask M.bs (diagonal M.bs.cols)) 0 M.bs.cols.length threads
        (PartitionedView.mem D v v)) o ↔ o = some w) ∧
      ∀ k blk, M.bs.cols[k]? = some blk → ∀ i < blk.size, ∀ j < blk.size,
        w (sqOffset M.bs.cols k + i * blk.size + j) =
          v (sqOffset M.bs.cols k + i * blk.size + j) + if i = j then D (blk.position + i) ^ 2 else 0 := by
  have hD := square_disciplined h threads (PartitionedView.mem D v v)
  refine ⟨fun p => if ownGram M 0 M.bs.cols.length p < M.bs.cols.length then
    v p + sumAt (squareEs M.bs (PartitionedView.mem D v v) (ownGram M 0 M.bs.cols.length p)) (.y p) else v p, ?_, ?_⟩
  · have key : ∀ o, onY (ForRun (squareTask M.bs (diagonal M.bs.cols)) 0 M.bs.cols.length threads
        (PartitionedView.mem D v v)) o → o = some fun p =>
        if ownGram M 0 M.bs.cols.length p < M.bs.cols.length then
        v p + sumAt (squareEs M.bs (PartitionedView.mem D v v) (ownGram M 0 M.bs.cols.length p)) (.y p) else v p := by
      rintro o ⟨o', ho, rfl⟩
      obtain ⟨m', rfl, h2⟩ := forRun_result hD ht ho
      rw [Option.map_some]
      congr 1
      funext p
      rw [h2.own (.y p) _ rfl]
      by_cases hp : ownGram M 0 M.bs.cols.length p < M.bs.cols.length
      · rw [if_pos ⟨Nat.zero_le _, hp⟩, if_pos hp]
        rfl
      · rw [if_neg fun h => hp h.2, if_neg hp]
        rfl
    intro o
    refine ⟨key o, ?_⟩
    rintro rfl
    obtain ⟨m', hm'⟩ := forRun_exists hD ht
    have := key _ ⟨_, hm', rfl⟩
    rw [← this]
    exact ⟨_, hm', rfl⟩
  · intro k blk hk i hi j hj
    have hlt : k < M.bs.cols.length := PartitionedView.get_lt hk
    have hown : ownGram M 0 M.bs.cols.length (sqOffset M.bs.cols k + i * blk.size + j) = k := by
      have := slot_lt hi hj
      rw [ownGram_eq (k := k) (blk := blk) (by rw [blocks_all]; exact hk), Nat.zero_add] <;> rw [blocks_all] <;> omega
    have hcol : M.bs.col k = blk := by
      have := InnerProduct.col_getElem hlt
      rw [hk] at this
      injection this with this
      exact this.symm
    beta_reduce
    rw [hown, if_pos hlt]
    congr 1
    unfold squareEs
    rw [hcol, diagPos_diagonal hlt]
    split_ifs with hij
    · subst hij
      exact sumAt_vecEntries (fun k => PartitionedView.mem D v v (.x (blk.position + k)) ^ 2)
        (loc := fun x : Fin blk.size => Loc.y (sqOffset M.bs.cols k + x * blk.size + x)) (fun a b hab => by
          injection hab with hab
          exact Fin.ext (slot_inj a.2 b.2 (by omega)).1) ⟨i, hi⟩
    · refine sumAt_of_not_mem fun e he heq => hij ?_
      obtain ⟨a, rfl⟩ := mem_vecEntries.1 he
      simp only at heq
      injection heq with heq
      have := slot_inj a.2 hj (i := a) (i' := i) (by omega)
      omega

theorem square_race_free (h : M.Ok) (m : Mem ℝ) {s : St Loc ℕ ℝ}
    (hs : ForReach 1 (squareTask M.bs (diagonal M.bs.cols)) 0 M.bs.cols.length threads m s) :
    ¬Race s ∧ ∀ l, Touches s l → InBounds M.numCols (sqOffset M.bs.cols M.bs.cols.length) 0 l := by
  have hD := square_disciplined h threads m
  refine ⟨forReach_race_free (by norm_num) hD hs, fun l hl => ?_⟩
  have := forReach_usable (by norm_num) hD hs hl
  cases l with
  | x i =>
    simp only [Usable, squareKind] at this
    split_ifs at this with h1
    · exact h1
    · simp at this
  | y p =>
    simp only [Usable, squareKind] at this
    have := PartitionedView.ownGram_lt (Nat.zero_le _) le_rfl this.2
    rw [size_all] at this
    exact this
  | val p => simp [Usable, squareKind] at this

/-! ## The update -/

theorem normal_symm (m : ℕ) (E : Buf) (D : Option Vec) (i j : ℕ) : normalMat m E D i j = normalMat m E D j i := by
  unfold normalMat
  congr 1
  · exact Finset.sum_congr rfl fun k _ => mul_comm _ _
  · by_cases h : i = j
    · rw [h]
    · rw [if_neg h, if_neg (Ne.symm h)]

theorem offset_cols (h : M.Ok) : offset M.bs.cols M.bs.cols.length = M.numCols := by
  unfold offset
  rw [List.take_length, h.numCols]

/-- **What `Update` leaves**: before `Invert`, the blocks on the diagonal of `A'A + D'D`; then what the small
factorisations make of them. -/
theorem jacobi_update (h : M.Ok) (hs : M.bs.Simple) (ht : 0 < threads)
    (llt : (n : ℕ) → Matrix (Fin n) (Fin n) ℝ → Matrix (Fin n) (Fin n) ℝ) (D : Option Vec) (old : Vec) :
    ∃ w, (∀ o, jacobiUpdate llt threads M D old o ↔ o = some w) ∧
      (LltOk llt → PosDef M.numCols (normalMat M.numRows M.entry D) → ∀ i j : Fin M.numCols,
        (BMat.ofStructure (diagonal M.bs.cols) w).entry i j =
          (CG.blockDiag (fun i : Fin M.numCols => blockOf M.bs.cols i)
            (corner M.numCols (normalMat M.numRows M.entry D)))⁻¹ i j) := by
  -- zeros
  obtain ⟨v0, z1, z2, -⟩ := PartitionedView.gives_setZero ht (BMat.ofStructure (diagonal M.bs.cols) old).nnz old
  have hnnz : (BMat.ofStructure (diagonal M.bs.cols) old).nnz = sqOffset M.bs.cols M.bs.cols.length := by
    have := PartitionedView.layout_nnz M.bs 0 M.bs.cols.length old
    rw [blocks_all] at this
    exact this
  have hv0 : ∀ p < sqOffset M.bs.cols M.bs.cols.length, v0 p = 0 := fun p hp => z2 ⟨p, by rw [hnnz]; exact hp⟩
  -- the squares
  set v1 : Vec := fun p => v0 p + total gramEs (memOf M v0 v0) (gramCells M 0 M.bs.cols.length) (.y p) with hv1
  have hsq : ∃ v2, (∀ o : Option Vec, (match D with
      | some D => onY (ForRun (squareTask M.bs (diagonal M.bs.cols)) 0 M.bs.cols.length threads
          (PartitionedView.mem D v1 v1))
      | none => fun o => o = some v1) o ↔ o = some v2) ∧
      ∀ k blk, M.bs.cols[k]? = some blk → ∀ i < blk.size, ∀ j < blk.size,
        v2 (sqOffset M.bs.cols k + i * blk.size + j) =
          v1 (sqOffset M.bs.cols k + i * blk.size + j) + if i = j then dsq D (blk.position + i) else 0 := by
    cases D with
    | none => exact ⟨v1, fun o => Iff.rfl, fun k blk _ i _ j _ => by simp [dsq]⟩
    | some D => exact square_loop h ht D v1
  obtain ⟨v2, s1, s2⟩ := hsq
  obtain ⟨w, w1, w2⟩ := SchurJacobi.invert_run (L := M.bs.cols) llt v2 ht
  refine ⟨w, fun o => ?_, fun hl hp i j => ?_⟩
  · unfold jacobiUpdate
    rw [bind_iff z1, bind_iff (jacobi_loop h ht v0)]
    cases D with
    | none => rw [bind_iff s1, w1]
    | some D => rw [bind_iff s1, w1]
  · refine SchurJacobi.inverse_entry hl h.bs.cols (offset_cols h)
      (SchurJacobi.corner_spd (fun p _ q _ => normal_symm _ _ _ p q) hp) (v := v2) ?_ w2 i j
    intro k blk hk i j p q hp' hq'
    have hslot : sqOffset M.bs.cols k + i * blk.size + j < sqOffset M.bs.cols M.bs.cols.length := by
      have e1 := slot_lt i.2 j.2
      have e2 := sqOffset_succ hk
      have := sqOffset_mono M.bs.cols (i := k + 1) (j := M.bs.cols.length) (PartitionedView.get_lt hk)
      omega
    obtain ⟨-, hpos⟩ := position_eq h.bs.cols (a := 0) (b := M.bs.cols.length) (k := k) (blk := blk)
      (by rw [blocks_all]; exact hk)
    rw [blocks_all] at hpos
    have hz : PartitionedView.colsE M.bs 0 = 0 := by simp [PartitionedView.colsE]
    have htot := gram_total h hs v0 v0 (a := 0) (b := M.bs.cols.length) (k := k) (blk := blk)
      (by rw [blocks_all]; exact hk) i.2 j.2
    rw [blocks_all] at htot
    rw [s2 k blk hk i i.2 j j.2]
    show v0 _ + total _ _ _ _ + _ = normalMat _ _ _ (p : ℕ) (q : ℕ)
    rw [hv0 _ hslot, zero_add, htot]
    unfold normalMat
    have e1 : (p : ℕ) = blk.position + i := by omega
    have e2 : (q : ℕ) = blk.position + j := by omega
    rw [e1, e2]
    congr 1
    by_cases hij : (i : ℕ) = j
    · rw [if_pos hij, if_pos (by omega)]
    · rw [if_neg hij, if_neg (by omega)]

end Ceres.Cgnr
