import Verif.CudaCgnr.Build
import Verif.Cgnr.Main
import Verif.Sparse.Products

/-!
# The update of the preconditioner
-/

noncomputable section

namespace Ceres.CudaCgnr

open Matrix Ceres.Tasks Ceres.BlockSparse Ceres.Direct
open Ceres.CG (SPD)
open Ceres.PartitionedView (Does onY sqOffset offset sqOffset_succ sqOffset_mono slot_lt slot_inj LltOk bind_iff ownCell
  ownCell_eq ownCell_lt get_lt blockMat laid_position offset_slot)
open Ceres.SchurJacobi (diagonal front extend corner)
open Ceres.Cgnr (Locked)

variable {cols : List Block} {S : List (Block × List ℕ)} {A : Crs} {m : Sparse.Mat ℝ} {threads : ℕ}

/-! ## The loop over the row blocks -/

/-- Values are only read; the blocks of `m_` are guarded by the mutexes of their first columns. -/
def kind (cols : List Block) (nnz n : ℕ) : Loc → Kind ℕ
  | .x _ => .own n
  | .y p => if p < sqOffset cols cols.length then .guarded (blk cols (ownCell cols p)).position else .own n
  | .val p => if p < nnz then .fixed else .own n

/-- What a cell adds. -/
def cellEs (cols : List Block) (base nnz : ℕ) (row : Block) (mem : Mem ℝ) (e : ℕ × ℕ) : List (Loc × ℝ) :=
  let B : Matrix (Fin row.size) (Fin (blk cols e.1).size) ℝ := fun i j => mem (.val (base + i * nnz + (e.2 + j)))
  matEntries (Bᵀ * B) fun i j => .y (sqOffset cols e.1 + i * (blk cols e.1).size + j)

theorem slot_bound {id : ℕ} {b : Block} (h : cols[id]? = some b) {i j : ℕ} (hi : i < b.size) (hj : j < b.size) :
    sqOffset cols id + i * b.size + j < sqOffset cols cols.length := by
  have e1 := slot_lt hi hj
  have e2 := sqOffset_succ h
  have := sqOffset_mono cols (i := id + 1) (j := cols.length) (get_lt h)
  omega

theorem cell_guarded {id : ℕ} (hid : id < cols.length) (nnz' n base nnz : ℕ) (row : Block) (mem : Mem ℝ) (o : ℕ)
    {e : Loc × ℝ} (he : e ∈ cellEs cols base nnz row mem (id, o)) :
    kind cols nnz' n e.1 = .guarded (blk cols id).position := by
  obtain ⟨i, j, rfl⟩ := mem_matEntries.1 he
  have hi := i.2
  have hj := j.2
  generalize (i : ℕ) = i at hi ⊢
  generalize (j : ℕ) = j at hj ⊢
  show (if _ then _ else _) = _
  rw [if_pos (slot_bound (blk_get hid) hi hj), ownCell_eq (blk_get hid) hi hj]

theorem cellStep_runs {id : ℕ} (hid : id < cols.length) {nnz' n base nnz c : ℕ} {row : Block} {free : Bool} {tid i : ℕ}
    {mem p p' : Mem ℝ} {k : Locked} {a : List (Loc × ℝ)} (hf : threads = 1 → free = true)
    (hr : ∀ (i : Fin row.size) (j : Fin (blk cols id).size), base + i * nnz + (c + j) < nnz')
    (hk : Runs (kind cols nnz' n) free tid i mem none k p p' a) :
    Runs (kind cols nnz' n) free tid i mem none
      (cellStep threads base nnz c (blk cols id).position (blk cols id).size (sqOffset cols id) row k) p p'
      (cellEs cols base nnz row mem (id, c) ++ a) := by
  unfold cellStep condLock
  have hg := fun e he => cell_guarded hid nnz' n base nnz row mem c (e := e) he
  have hr' : ∀ (i : Fin row.size) (j : Fin (blk cols id).size), kind cols nnz' n (.val (base + i * nnz + (c + j))) = .fixed :=
    fun i j => if_pos (hr i j)
  by_cases ht : threads = 1
  · simp only [if_pos ht]
    refine runs_readMat_fixed hr' (runs_readMat_fixed hr' ?_)
    refine runs_adds_guarded (blk cols id).position _ hg (Or.inr ⟨rfl, hf ht⟩) ?_
    unfold condUnlock
    rw [if_pos ht]
    exact hk
  · simp only [if_neg ht]
    refine .lock (runs_readMat_fixed hr' (runs_readMat_fixed hr' ?_))
    refine runs_adds_guarded (blk cols id).position _ hg (Or.inl rfl) ?_
    unfold condUnlock
    rw [if_neg ht]
    exact .unlock hk

theorem cellLoop_runs (hm : Blocks cols m) (hpos : ∀ b ∈ cols, 0 < b.size) {A : Sparse.Mat ℝ} {row : Block}
    {nnz' n nnz : ℕ} {free : Bool} {tid i : ℕ} {mem p : Mem ℝ} (hf : threads = 1 → free = true)
    (hr : ∀ r < row.size, ∀ t < nnz, A.rows row.position + r * nnz + t < nnz') (ids : List ℕ)
    (hids : ∀ id ∈ ids, id < cols.length) (c fuel : ℕ) (hfuel : ids.length ≤ fuel)
    (hc : (List.range' (A.rows row.position + c) (columnsOf cols ids).length).map A.cols = columnsOf cols ids)
    (hend : c + (columnsOf cols ids).length = nnz) :
    Runs (kind cols nnz' n) free tid i mem none (cellLoop threads A m.rows row nnz fuel c) p p
      ((places cols c ids).flatMap (cellEs cols (A.rows row.position) nnz row mem)) := by
  induction ids generalizing c fuel with
  | nil =>
    have : c = nnz := by simpa [columnsOf] using hend
    cases fuel with
    | zero => exact .ret p
    | succ fuel =>
      rw [cellLoop, if_neg (by omega)]
      exact .ret p
  | cons id ids ih =>
    cases fuel with
    | zero => simp at hfuel
    | succ fuel =>
      have hid := hids id (by simp)
      have hb := blk_get hid
      have hsz := hpos _ (List.mem_of_getElem? hb)
      rw [columnsOf_cons, List.length_append, List.length_range', ← List.range'_append_1, List.map_append] at hc
      obtain ⟨h1, h2⟩ := List.append_inj hc (by simp)
      rw [columnsOf_cons, List.length_append, List.length_range'] at hend
      have hcol : A.cols (A.rows row.position + c) = (blk cols id).position := by
        obtain ⟨w, hw⟩ : ∃ w, (blk cols id).size = w + 1 := ⟨_, (Nat.succ_pred_eq_of_pos hsz).symm⟩
        rw [hw, List.range'_succ, List.range'_succ, List.map_cons] at h1
        injection h1
      have hrow := hm.rows id _ hb
      have e0 : m.rows (blk cols id).position = sqOffset cols id := by simpa using hrow 0 (by omega)
      have e1 := hrow 1 (by omega)
      have hsize : m.rows ((blk cols id).position + 1) - m.rows (blk cols id).position = (blk cols id).size := by
        rw [e0, e1]; omega
      rw [cellLoop, if_pos (by omega)]
      simp only
      rw [hcol, hsize, e0, places, List.flatMap_cons]
      refine cellStep_runs hid hf (fun r j => hr r r.2 (c + j) (by have := j.2; omega)) ?_
      exact ih (fun id h => hids id (by simp [h])) _ _ (by simpa using hfuel) (by rw [← Nat.add_assoc]; exact h2) (by omega)

/-- What row block `i` adds. -/
def rowInc (cols : List Block) (S : List (Block × List ℕ)) (A : Crs) (mem : Mem ℝ) (i : ℕ) (l : Loc) : ℝ :=
  match S[i]? with
  | some s => sumAt ((places cols 0 s.2).flatMap
      (cellEs cols (A.mat.rows s.1.position) (columnsOf cols s.2).length s.1 mem)) l
  | none => 0

theorem ids_length (hpos : ∀ b ∈ cols, 0 < b.size) (ids : List ℕ) (hids : ∀ id ∈ ids, id < cols.length) :
    ids.length ≤ (columnsOf cols ids).length := by
  induction ids with
  | nil => simp
  | cons id ids ih =>
    have := ih fun id h => hids id (by simp [h])
    have := hpos _ (List.mem_of_getElem? (blk_get (hids id (by simp))))
    rw [columnsOf_cons, List.length_append, List.length_range', List.length_cons]
    omega

theorem row_disciplined (h : IsJacobian cols S A) (hm : Blocks cols m) (threads : ℕ) (mem : Mem ℝ) :
    Disciplined (kind cols A.mat.nnz S.length) (rowTask threads A m.rows) 0 S.length threads mem mem
      (rowInc cols S A mem) := by
  refine ⟨fun i tid _ hi _ p hp => ?_⟩
  have hget : S[i]? = some S[i] := List.getElem?_eq_getElem hi
  have hs : S[i] ∈ S := List.getElem_mem hi
  have hsize := h.rowsPos _ hs
  have hstep := row_step h hs (k := 0) hsize
  refine ⟨p, (places cols 0 S[i].2).flatMap
    (cellEs cols (A.mat.rows S[i].1.position) (columnsOf cols S[i].2).length S[i].1 mem), ?_, hp, fun l x _ => ?_⟩
  · unfold rowTask
    rw [h.rowBlocks, List.getElem?_map, hget, Option.map_some]
    simp only
    rw [hstep, Nat.add_zero, Nat.add_sub_cancel_left]
    have hc := row_cols h hs (k := 0) hsize
    rw [Nat.add_zero] at hc
    exact cellLoop_runs hm h.colsPos (by simp) (fun r hr t ht => value_bound h hs hr ht) _ (h.ids _ hs) 0 _
      (ids_length h.colsPos _ (h.ids _ hs)) hc (by omega)
  · unfold rowInc
    rw [hget]

/-! ## What it adds -/

theorem cell_sum {id o : ℕ} (hid : id < cols.length) (base nnz : ℕ) (row : Block) (mem : Mem ℝ) {id' : ℕ} {b : Block}
    (hb : cols[id']? = some b) {i j : ℕ} (hi : i < b.size) (hj : j < b.size) :
    sumAt (cellEs cols base nnz row mem (id, o)) (.y (sqOffset cols id' + i * b.size + j)) =
      if id = id' then ∑ k ∈ Finset.range row.size,
        mem (.val (base + k * nnz + (o + i))) * mem (.val (base + k * nnz + (o + j))) else 0 := by
  split_ifs with hii
  · subst hii
    obtain rfl := blk_eq hb
    unfold cellEs
    rw [Finset.sum_range]
    exact sumAt_matEntries (i := ⟨i, hi⟩) (j := ⟨j, hj⟩)
      (loc := fun (i j : Fin (blk cols id).size) => Loc.y (sqOffset cols id + i * (blk cols id).size + j)) _
      (fun a b a' b' hab => by
        injection hab with hab
        have := slot_inj b.2 b'.2 (i := a) (i' := a') (by omega)
        exact ⟨Fin.ext this.1, Fin.ext this.2⟩)
  · refine sumAt_of_not_mem fun e he heq => hii ?_
    obtain ⟨a, c, rfl⟩ := mem_matEntries.1 he
    simp only at heq
    injection heq with heq
    have e1 := ownCell_eq (blk_get hid) a.2 c.2
    have e2 := ownCell_eq hb hi hj
    rw [← heq, e1] at e2
    exact e2

theorem sum_mul_pick {α : Type} (l : List α) (key : α → ℕ) (hn : (l.map key).Nodup) (id : ℕ) (f g : α → ℝ) :
    (l.map fun e => if key e = id then f e else 0).sum * (l.map fun e => if key e = id then g e else 0).sum =
      (l.map fun e => if key e = id then f e * g e else 0).sum := by
  induction l with
  | nil => simp
  | cons a l ih =>
    rw [List.map_cons, List.nodup_cons] at hn
    rw [List.map_cons, List.map_cons, List.map_cons, List.sum_cons, List.sum_cons, List.sum_cons]
    by_cases ha : key a = id
    · have hz : ∀ F : α → ℝ, (l.map fun e => if key e = id then F e else 0).sum = 0 := fun F =>
        List.sum_eq_zero fun x hx => by
          obtain ⟨e, he, rfl⟩ := List.mem_map.1 hx
          exact if_neg fun hk => hn.1 (by rw [ha, ← hk]; exact List.mem_map_of_mem he)
      rw [hz, hz, hz, if_pos ha, if_pos ha, if_pos ha]
      ring
    · rw [if_neg ha, if_neg ha, if_neg ha, zero_add, zero_add, zero_add, ih hn.2]

theorem list_sum_finset {α : Type} (l : List α) (n : ℕ) (f : α → ℕ → ℝ) :
    (l.map fun e => ∑ k ∈ Finset.range n, f e k).sum = ∑ k ∈ Finset.range n, (l.map fun e => f e k).sum := by
  induction l with
  | nil => simp
  | cons a l ih => simp only [List.map_cons, List.sum_cons, Finset.sum_add_distrib, ih]

theorem sum_rows (L : List Block) (p : ℕ) (hL : Laid p L) (f : ℕ → ℝ) :
    (L.map fun b => ∑ k ∈ Finset.range b.size, f (b.position + k)).sum =
      ∑ R ∈ Finset.range (L.map Block.size).sum, f (p + R) := by
  induction L generalizing p with
  | nil => simp
  | cons b L ih =>
    rw [List.map_cons, List.sum_cons, List.map_cons, List.sum_cons, Finset.sum_range_add, ih _ hL.2, hL.1]
    simp only [Nat.add_assoc]

/-- **What the row blocks add**: the entries of `A'A`. -/
theorem row_total (h : IsJacobian cols S A) (mem : Mem ℝ) (hmem : ∀ p, mem (.val p) = A.mat.values p) {id : ℕ} {b : Block}
    (hb : cols[id]? = some b) {i j : ℕ} (hi : i < b.size) (hj : j < b.size) :
    ∑ r ∈ Finset.Ico 0 S.length, rowInc cols S A mem r (.y (sqOffset cols id + i * b.size + j)) =
      ∑ R ∈ Finset.range A.mat.numRows, A.mat.entry R (b.position + i) * A.mat.entry R (b.position + j) := by
  have e : ∀ f : Block × List ℕ → ℝ, ∑ r ∈ Finset.range S.length, (match S[r]? with | some s => f s | none => 0) =
      (S.map f).sum := by
    intro f
    rw [Finset.sum_range, ← Fin.sum_univ_fun_getElem]
    exact Finset.sum_congr rfl fun n _ => by rw [List.getElem?_eq_getElem n.2]
  rw [Nat.Ico_zero_eq_range]
  unfold rowInc
  rw [e, h.numRows]
  have := sum_rows (S.map Prod.fst) 0 h.rowsLaid fun R => A.mat.entry R (b.position + i) * A.mat.entry R (b.position + j)
  simp only [Nat.zero_add] at this
  rw [← this, List.map_map]
  refine congrArg List.sum (List.map_congr_left fun s hs => ?_)
  rw [sumAt_flatMap]
  have hcell : ∀ e ∈ places cols 0 s.2, sumAt (cellEs cols (A.mat.rows s.1.position) (columnsOf cols s.2).length s.1 mem e)
      (.y (sqOffset cols id + i * b.size + j)) = ∑ k ∈ Finset.range s.1.size, if e.1 = id then
        A.mat.values (A.mat.rows s.1.position + k * (columnsOf cols s.2).length + (e.2 + i)) *
          A.mat.values (A.mat.rows s.1.position + k * (columnsOf cols s.2).length + (e.2 + j)) else 0 := by
    intro e he
    have hid : e.1 < cols.length := h.ids s hs e.1 (by
      have := List.mem_map_of_mem (f := Prod.fst) he
      rwa [places_ids] at this)
    rw [show e = (e.1, e.2) from rfl, cell_sum hid _ _ _ _ hb hi hj]
    simp only [hmem]
    split_ifs with hei
    · rfl
    · simp
  rw [List.map_congr_left hcell, list_sum_finset]
  refine Finset.sum_congr rfl fun k hk => ?_
  have hk := Finset.mem_range.1 hk
  show _ = A.mat.entry (s.1.position + k) _ * A.mat.entry (s.1.position + k) _
  rw [entry_eq h hs hk hb hi, entry_eq h hs hk hb hj,
    sum_mul_pick (places cols 0 s.2) Prod.fst (by rw [places_ids]; exact h.nodup s hs)]

/-- **The loop over the row blocks**, for every schedule. -/
theorem row_loop (h : IsJacobian cols S A) (hm : Blocks cols m) (ht : 0 < threads) (v : Vec) :
    ∃ w, (∀ o, onY (ForRun (rowTask threads A m.rows) 0 A.rowBlocks.length threads
        (PartitionedView.mem v v A.mat.values)) o ↔ o = some w) ∧
      ∀ id b, cols[id]? = some b → ∀ i < b.size, ∀ j < b.size, w (sqOffset cols id + i * b.size + j) =
        v (sqOffset cols id + i * b.size + j) +
          ∑ R ∈ Finset.range A.mat.numRows, A.mat.entry R (b.position + i) * A.mat.entry R (b.position + j) := by
  have hlen : A.rowBlocks.length = S.length := by rw [h.rowBlocks, List.length_map]
  rw [hlen]
  have hD := row_disciplined h hm threads (PartitionedView.mem v v A.mat.values)
  have key : ∀ o, onY (ForRun (rowTask threads A m.rows) 0 S.length threads (PartitionedView.mem v v A.mat.values)) o →
      o = some fun p => if p < sqOffset cols cols.length then v p + ∑ r ∈ Finset.Ico 0 S.length,
        rowInc cols S A (PartitionedView.mem v v A.mat.values) r (.y p) else v p := by
    rintro o ⟨o', ho, rfl⟩
    obtain ⟨m', rfl, h2⟩ := forRun_result hD ht ho
    rw [Option.map_some]
    congr 1
    funext p
    by_cases hp : p < sqOffset cols cols.length
    · rw [h2.sum (.y p) _ (if_pos hp), if_pos hp]
      rfl
    · rw [h2.own (.y p) _ (if_neg hp), if_neg (by omega), if_neg hp]
      rfl
  refine ⟨_, fun o => ⟨key o, ?_⟩, fun id b hb i hi j hj => ?_⟩
  · rintro rfl
    obtain ⟨m', hm'⟩ := forRun_exists hD ht
    have := key _ ⟨_, hm', rfl⟩
    rw [← this]
    exact ⟨_, hm', rfl⟩
  · rw [if_pos (slot_bound hb hi hj), row_total h _ (fun _ => rfl) hb hi hj]

/-- **No data race and no access out of bounds** in the loop over the row blocks. -/
theorem row_race_free (h : IsJacobian cols S A) (hm : Blocks cols m) (mem : Mem ℝ) {s : St Loc ℕ ℝ}
    (hs : ForReach 1 (rowTask threads A m.rows) 0 A.rowBlocks.length threads mem s) :
    ¬Race s ∧ ∀ l, Touches s l → InBounds 0 m.nnz A.mat.nnz l := by
  have hlen : A.rowBlocks.length = S.length := by rw [h.rowBlocks, List.length_map]
  rw [hlen] at hs
  have hD := row_disciplined h hm threads mem
  refine ⟨forReach_race_free (by norm_num) hD hs, fun l hl => ?_⟩
  have := forReach_usable (by norm_num) hD hs hl
  cases l with
  | x i => simp [Usable, kind] at this
  | y p =>
    simp only [Usable, kind] at this
    split_ifs at this with h1
    · show p < m.nnz
      rw [hm.nnz]
      exact h1
    · simp at this
  | val p =>
    simp only [Usable, kind] at this
    split_ifs at this with h1
    · exact h1
    · simp at this

/-! ## The loop over the column blocks -/

theorem colTask_eq (hl : Laid 0 cols) (hm : Blocks cols m) (llt : (n : ℕ) → Matrix (Fin n) (Fin n) ℝ → Matrix (Fin n) (Fin n) ℝ)
    (hasD : Bool) : colTask llt cols m.rows hasD = PartitionedView.invertTask llt (diagonal cols) hasD := by
  funext tid i
  unfold colTask PartitionedView.invertTask
  have hrow : (diagonal cols).rows[i]? = cols[i]?.map fun b => ⟨⟨b.size, offset cols i⟩, [⟨i, sqOffset cols i⟩], 0, 0⟩ := by
    have := PartitionedView.layout_row ⟨cols, []⟩ 0 cols.length i
    rw [SchurJacobi.blocks_self] at this
    exact this
  rw [hrow]
  cases hb : cols[i]? with
  | none => rfl
  | some b =>
    rw [Option.map_some]
    have e1 : m.rows b.position = sqOffset cols i := by simpa using hm.rows i b hb 0 (by omega)
    have e2 := SchurJacobi.diagPos_diagonal (L := cols) (get_lt hb)
    have e3 : b.position = offset cols i := by
      have := laid_position hl hb
      rw [Nat.zero_add] at this
      exact this
    simp only [e1, e2, ← e3]

/-- **The update**: the blocks of `m_` are what the small factorisations make of the blocks of `A'A + D'D`. -/
theorem update_spec (h : IsJacobian cols S A) (hm : Blocks cols m) (ht : 0 < threads)
    (llt : (n : ℕ) → Matrix (Fin n) (Fin n) ℝ → Matrix (Fin n) (Fin n) ℝ) (D : Option Vec) :
    ∃ w, (∀ o, update llt threads A D m o ↔ o = some w) ∧
      ∀ id b, cols[id]? = some b → ∀ i j : Fin b.size, w (sqOffset cols id + i * b.size + j) =
        llt b.size (Matrix.of fun i j : Fin b.size =>
          normalMat A.mat.numRows A.mat.entry D (b.position + i) (b.position + j)) i j := by
  set v0 : Vec := fun p => if p < m.nnz then 0 else m.values p with hv0
  obtain ⟨v1, a1, a2⟩ := row_loop h hm ht v0
  obtain ⟨w, w1, w2, -⟩ := PartitionedView.invert_run (bs := ⟨cols, []⟩) (a := 0) (b := cols.length) llt v1 D ht
  rw [SchurJacobi.blocks_self] at w2
  refine ⟨w, fun o => ?_, fun id b hb i j => ?_⟩
  · unfold update
    rw [bind_iff a1, h.colBlocks, colTask_eq h.colsLaid hm, ← w1 o]
    unfold PartitionedView.addDiagonalAndInvert
    have hl : (PartitionedView.layout ⟨cols, []⟩ 0 cols.length).rows.length = cols.length := by
      rw [PartitionedView.layout_length, SchurJacobi.blocks_self]
    show _ ↔ onY (ForRun (PartitionedView.invertTask llt (PartitionedView.layout ⟨cols, []⟩ 0 cols.length) D.isSome) 0
      (PartitionedView.layout ⟨cols, []⟩ 0 cols.length).rows.length threads _) o
    rw [hl]
    rfl
  · rw [w2 id b hb i j]
    congr 1
    ext i j
    have hoff : b.position = offset cols id := by
      have := laid_position h.colsLaid hb
      rw [Nat.zero_add] at this
      exact this
    unfold blockMat normalMat
    have hz : v0 (sqOffset cols id + i * b.size + j) = 0 := if_pos (by rw [hm.nnz]; exact slot_bound hb i.2 j.2)
    rw [Matrix.add_apply, Matrix.of_apply, Matrix.of_apply, a2 id b hb i i.2 j j.2, hz, zero_add]
    congr 1
    cases D with
    | none => simp [dsq]
    | some d =>
      simp only [Option.elim, Matrix.diagonal_apply, dsq]
      by_cases hij : i = j
      · rw [if_pos hij, if_pos (by rw [hij]), hoff]
      · rw [if_neg hij, if_neg fun h => hij (Fin.ext (by omega))]

end Ceres.CudaCgnr
