import Verif.BlockSparse.Scale

/-!
# No data race and no access out of bounds
-/
namespace Ceres.BlockSparse

open Ceres.Tasks

variable {K : Type} [CommRing K]

/-- The states that a right product on several threads goes through. -/
def RightReach (M : BMat K) (threads : ℕ) (m : Mem K) (s : St Loc Empty K) : Prop :=
  ForReach 1 (rowTask mulCell M.bs) 0 M.bs.rows.length threads m s

/-- The states that a left product on several threads goes through. -/
def LeftReach (M : BMat K) (threads : ℕ) (m : Mem K) (s : St Loc Empty K) : Prop :=
  CostReach (cumOf M.tbs) (colTask mulCellTranspose M.tbs) 0 M.tbs.rows.length threads m s

/-- The states that the computation of column norms on several threads goes through. -/
inductive NormReach (M : BMat K) (threads : ℕ) (m : Mem K) (s : St Loc Empty K) : Prop where
  | zero : ForReach (2 ^ 16) zeroTask 0 M.numCols threads m s → NormReach M threads m s
  | sum (m1 : Mem K) : SetZeroRun M.numCols threads m (some m1) →
      CostReach (cumOf M.tbs) (colTask normCell M.tbs) 0 M.tbs.rows.length threads m1 s →
      NormReach M threads m s

/-- The states that scaling columns on several threads goes through. -/
def ScaleReach (M : BMat K) (threads : ℕ) (m : Mem K) (s : St Loc Empty K) : Prop :=
  CostReach (cumOf M.tbs) (colTask scaleCell M.tbs) 0 M.tbs.rows.length threads m s

/-- Within a vector `x` of `nx`, a vector `y` of `ny` and `nv` values. -/
def InBounds (nx ny nv : ℕ) : Loc → Prop
  | .x i => i < nx
  | .y i => i < ny
  | .val p => p < nv

theorem loop_inBounds {blocks : List Block} (h : Laid 0 blocks) {nx nv n : ℕ} (hn : n = blocks.length) {l : Loc}
    (hl : Usable (loopKind blocks nx nv) 0 n l) : InBounds nx (blocks.map Block.size).sum nv l := by
  subst hn
  cases l with
  | x i =>
    by_contra hi
    have hi' : ¬ i < nx := hi
    simp only [Usable, loopKind, if_neg hi'] at hl
    omega
  | val p =>
    by_contra hi
    have hi' : ¬ p < nv := hi
    simp only [Usable, loopKind, if_neg hi'] at hl
    omega
  | y r =>
    simp only [Usable, loopKind] at hl
    have := blockOf_lt h hl.2
    show r < _
    omega

theorem rows_size {M : BMat K} (h : M.Ok) : ((M.bs.rows.map BRow.block).map Block.size).sum = M.numRows := by
  rw [h.numRows, List.map_map]; rfl

theorem tbs_blocks {M : BMat K} (h : M.Ok) : M.tbs.rows.map BRow.block = M.bs.cols := by
  rw [h.tbs, createTranspose_eq]
  have : ∀ (s : ℕ) (rows : List BRow), (cumulateFrom s rows).map BRow.block = rows.map BRow.block := by
    intro s rows
    induction rows generalizing s with
    | nil => rfl
    | cons r rs ih => simp [cumulateFrom, ih]
  show (cumulate _).map BRow.block = _
  rw [cumulate, this]
  refine List.ext_getElem? fun j => ?_
  simp only [addLinks, emptyCols, List.getElem?_map, List.getElem?_mapIdx]
  cases M.bs.cols[j]? <;> rfl

/-- **Right products have no data race** and stay within the vectors and the values. -/
theorem right_safe {M : BMat K} (h : M.Ok) {threads : ℕ} {m : Mem K} {s : St Loc Empty K}
    (hs : RightReach M threads m s) :
    ¬ Race s ∧ ∀ l, Touches s l → InBounds M.numCols M.numRows M.nnz l := by
  have hD := loop_disciplined (threads := threads) mulCell_isAdd (right_fits h m)
  refine ⟨forReach_race_free one_pos hD hs, fun l hl => ?_⟩
  have := loop_inBounds h.bs.rows (by simp) (forReach_usable one_pos hD hs hl)
  rwa [rows_size h] at this

/-- **Left products have no data race** and stay within the vectors and the values. -/
theorem left_safe {M : BMat K} (h : M.Ok) {threads : ℕ} {m : Mem K} {s : St Loc Empty K}
    (hs : LeftReach M threads m s) :
    ¬ Race s ∧ ∀ l, Touches s l → InBounds M.numRows M.numCols M.nnz l := by
  have hD := loop_disciplined (threads := threads) mulCellTranspose_isAdd.flip (left_fits h m)
  refine ⟨costReach_race_free hD (tbs_costs h) hs, fun l hl => ?_⟩
  have := loop_inBounds (left_fits h m).laid (by simp) (costReach_usable hD (tbs_costs h) hs hl)
  rwa [tbs_blocks h, ← h.numCols] at this

/-- **Column norms have no data race** and stay within the result and the values. -/
theorem norm_safe {M : BMat K} (h : M.Ok) {threads : ℕ} {m : Mem K} {s : St Loc Empty K}
    (hs : NormReach M threads m s) :
    ¬ Race s ∧ ∀ l, Touches s l → InBounds 0 M.numCols M.nnz l := by
  cases hs with
  | zero hs =>
    have hD := zero_disciplined M.numCols threads m
    refine ⟨forReach_race_free (by norm_num) hD hs, fun l hl => ?_⟩
    have := forReach_usable (by norm_num) hD hs hl
    cases l with
    | y i => exact this.2
    | x i => simp only [Usable, zeroKind] at this; omega
    | val i => simp only [Usable, zeroKind] at this; omega
  | sum m1 _ hs =>
    have hF : Fits (fun m row col pos => normEs m col row pos) (fun row col pos l => readsCell col row pos l)
        M.tbs 0 M.nnz m1 :=
      ⟨(norm_fits h m1).laid, fun t ht l hl => Or.inr (reads_ok (tcell_ok h ht) hl), (norm_fits h m1).adds⟩
    have hD := loop_disciplined (threads := threads) normCell_isAdd.flip hF
    refine ⟨costReach_race_free hD (tbs_costs h) hs, fun l hl => ?_⟩
    have := loop_inBounds hF.laid (by simp) (costReach_usable hD (tbs_costs h) hs hl)
    rwa [tbs_blocks h, ← h.numCols] at this

/-- **Scaling columns has no data race** and stays within the scales and the values. -/
theorem scale_safe {M : BMat K} (h : M.Ok) {threads : ℕ} {m : Mem K} {s : St Loc Empty K}
    (hs : ScaleReach M threads m s) :
    ¬ Race s ∧ ∀ l, Touches s l → InBounds M.numCols 0 M.nnz l := by
  have hnt := (tslots h).nodup_iff.2 List.nodup_range
  have hD := scale_disciplined (nx := M.numCols) (threads := threads) (m := m) hnt fun r hr hc => tblock_ok h hr hc
  refine ⟨costReach_race_free hD (tbs_costs h) hs, fun l hl => ?_⟩
  have := costReach_usable hD (tbs_costs h) hs hl
  cases l with
  | x i =>
    by_contra hi
    have hi' : ¬ i < M.numCols := hi
    simp only [Usable, scaleKind, if_neg hi'] at this
    omega
  | y i =>
    simp only [Usable, scaleKind] at this
    omega
  | val q =>
    simp only [Usable, scaleKind] at this
    have h1 := List.findIdx_getElem (w := this.2)
    have h2 : q ∈ M.tbs.rows.flatMap fun r => slotsOf (colTriples M.tbs r) :=
      List.mem_flatMap.2 ⟨_, List.getElem_mem this.2, of_decide_eq_true h1⟩
    exact List.mem_range.1 ((tslots h).mem_iff.1 h2)

end Ceres.BlockSparse
