import Verif.CrsView.Copy
import Verif.CrsView.Permute

/-!
# C94: the view on the GPU is the matrix
-/
namespace Ceres.CrsView

open Ceres.BlockSparse

variable {K : Type}

/-- The structure of a view is that of the block sparse matrix. -/
structure Fits (bs : BS) (nR nC : ℕ) (v : View K) : Prop where
  flat : v.flat = flatOf bs
  numRows : v.numRows = nR
  numCols : v.numCols = nC
  len : nR = (rowLists false bs bs.rows).length
  rows : ∀ k ≤ (rowLists false bs bs.rows).length,
    v.rows k = (((rowLists false bs bs.rows).take k).map List.length).sum
  cols : ∀ q < (rowLists false bs bs.rows).flatten.length,
    v.cols q = ((rowLists false bs bs.rows).flatten.getD q (0, 0)).1

variable [CommRing K]

theorem nnz_flatten {M : BMat K} (h : M.Ok) : (rowLists false M.bs M.bs.rows).flatten.length = M.nnz := by
  rw [flatten_total, nnz_eq h]

omit [CommRing K] in
theorem callOk {bs : BS} {numRows numCols : ℕ} {v : View K} (hv : Fits bs numRows numCols v) {M : BMat K}
    (hN : (rowLists false bs bs.rows).flatten.length = M.nnz) (hf : Full bs) (hi : InOrder bs)
    (hl : Laid 0 (bs.rows.map BRow.block)) (viaPinned : Bool) : (v.call M viaPinned).Ok := by
  have hspec : ∀ id < M.nnz, ∃ q col, (v.call M viaPinned).dest id = some (some q) ∧
      (rowLists false bs bs.rows).flatten[q]? = some (col, id) := by
    intro id hid
    have := permute_spec hf hi hl hv.rows (by rw [hN]; exact hid)
    show ∃ q col, v.flat.permute v.rows id = _ ∧ _
    rw [hv.flat]
    exact this
  refine ⟨by show 0 < maxTemporaryArraySize / numBatches; decide, fun id hid h => ?_, fun id hid id' hid' q h1 h2 => ?_⟩
  · obtain ⟨q, col, h1, -⟩ := hspec id hid
    rw [h] at h1
    cases h1
  · obtain ⟨q1, c1, a1, b1⟩ := hspec id hid
    obtain ⟨q2, c2, a2, b2⟩ := hspec id' hid'
    rw [h1] at a1
    rw [h2] at a2
    injection a1 with a1
    injection a1 with a1
    injection a2 with a2
    injection a2 with a2
    subst a1 a2
    rw [b1] at b2
    injection b2 with b2
    injection b2

/-- An update leaves the values in the order of the rows. -/
theorem update_stores {M : BMat K} (hM : M.Ok) (hf : Full M.bs) (hi : InOrder M.bs) {v : View K}
    (hv : Fits M.bs M.numRows M.numCols v) {o : Option (View K)} (h : UpdateRun v M o) :
    ∃ v', o = some v' ∧ Fits M.bs M.numRows M.numCols v' ∧
      Stores v'.mat (rowLists false M.bs M.bs.rows) M.values := by
  have hN := nnz_flatten hM
  have mk : ∀ a : ℕ → K, (∀ q < (rowLists false M.bs M.bs.rows).flatten.length,
      a q = M.values ((rowLists false M.bs M.bs.rows).flatten.getD q (0, 0)).2) →
      Fits M.bs M.numRows M.numCols { v with values := a } ∧
      Stores ({ v with values := a } : View K).mat (rowLists false M.bs M.bs.rows) M.values := fun a ha =>
    ⟨⟨hv.flat, hv.numRows, hv.numCols, hv.len, hv.rows, hv.cols⟩,
      ⟨hv.numRows.trans hv.len, hv.rows, hv.cols, ha⟩⟩
  cases h with
  | @copy a hcomp hrun =>
    refine ⟨_, rfl, mk a fun q hq => ?_⟩
    rw [hv.flat] at hcomp
    have hsnd := fits_rows M.bs M.bs.rows hcomp 0 hi
    have : ((rowLists false M.bs M.bs.rows).flatten.getD q (0, 0)).2 = q := by
      have h1 : ((rowLists false M.bs M.bs.rows).flatten.map Prod.snd)[q]? = some q := by
        rw [hsnd, List.getElem?_range' (by rw [← flatten_length]; exact hq)]
        simp
      rw [List.getElem?_map, List.getElem?_eq_getElem hq] at h1
      rw [List.getD_eq_getElem?_getD, List.getElem?_eq_getElem hq]
      simpa using h1
    rw [this]
    refine hrun.get ?_ ⟨(q, M.values q), List.mem_map.2 ⟨q, List.mem_range.2 (by omega), rfl⟩, rfl⟩
    intro w hw he
    obtain ⟨i, -, rfl⟩ := List.mem_map.1 hw
    simp only at he
    rw [he]
  | @streamed viaPinned pinned gpu s hcomp hr hd =>
    refine ⟨_, rfl, mk s.out fun q hq => ?_⟩
    obtain ⟨id, col, k1, k2, k3⟩ := permute_onto hf hi hM.bs.rows hv.rows hq
    have := (copy_correct (callOk hv hN hf hi hM.bs.rows viaPinned) hr hd).1 id
      (by show id < M.nnz; omega) q (by
        show v.flat.permute v.rows id = _
        rw [hv.flat]
        exact k2)
    rw [this, List.getD_eq_getElem?_getD, k3]
    rfl
  | @undefined viaPinned pinned gpu s hcomp hr hd =>
    exact absurd hd (copy_defined (callOk hv hN hf hi hM.bs.rows viaPinned) hr)

theorem build_stores {M : BMat K} (hM : M.Ok) (hf : Full M.bs) (hi : InOrder M.bs) {o : Option (View K)}
    (h : BuildRun M o) :
    ∃ v', o = some v' ∧ Fits M.bs M.numRows M.numCols v' ∧
      Stores v'.mat (rowLists false M.bs M.bs.rows) M.values := by
  have hlen : M.numRows = (rowLists false M.bs M.bs.rows).length := by
    rw [rowLists_length]
    exact hM.numRows
  cases h with
  | fails h =>
    rw [flatten_some hf hi] at h
    cases h
  | built h1 h2 h3 h4 h5 =>
    rw [flatten_some hf hi] at h1
    injection h1 with h1
    subst h1
    refine update_stores hM hf hi ⟨rfl, rfl, rfl, hlen, fun k hk => ?_, fun q hq => ?_⟩ h5
    · exact rows_get hM.bs.rows h2 hlen (by omega)
    · exact cols_get hM.bs.rows hM.bs.cols hlen h2 h3 h4 hq

theorem after_stores {l : List (BMat K)} {o : Option (View K)} (h : After l o) :
    ∀ (M : BMat K) (l' : List (BMat K)), l = l' ++ [M] → (∀ N ∈ l, N.Ok ∧ N.bs = M.bs) → Full M.bs →
      InOrder M.bs → ∃ v, o = some v ∧ Fits M.bs M.numRows M.numCols v ∧
        Stores v.mat (rowLists false M.bs M.bs.rows) M.values := by
  induction h with
  | @build M0 o h =>
    intro M l' hl hall hf hi
    have : M0 = M := by
      have := congrArg List.getLast? hl
      simpa using this
    subst this
    exact build_stores (hall M0 (by simp)).1 hf hi h
  | @update l v M0 o hprev hup ih =>
    intro M l' hl hall hf hi
    obtain ⟨rfl, hM⟩ := List.append_inj' hl rfl
    have hM : M0 = M := by simpa using hM
    subst hM
    have hM0 := (hall M0 (by simp)).1
    obtain ⟨l1, P, rfl⟩ : ∃ l1 P, l = l1 ++ [P] := by
      rcases List.eq_nil_or_concat l with rfl | ⟨l1, P, hP⟩
      · generalize hnil : ([] : List (BMat K)) = e at hprev
        cases hprev with
        | build => cases hnil
        | update => simp at hnil
      · exact ⟨l1, P, by simpa using hP⟩
    obtain ⟨hP, hPbs⟩ := hall P (by simp)
    obtain ⟨v', hv', hfit, -⟩ := ih P l1 rfl
      (fun N hN => ⟨(hall N (by simp at hN ⊢; tauto)).1, ((hall N (by simp at hN ⊢; tauto)).2).trans hPbs.symm⟩)
      (hPbs ▸ hf) (hPbs ▸ hi)
    injection hv' with hv'
    subst hv'
    have hr : P.numRows = M0.numRows := by rw [hP.numRows, hM0.numRows, hPbs]
    have hc : P.numCols = M0.numCols := by rw [hP.numCols, hM0.numCols, hPbs]
    rw [hPbs, hr, hc] at hfit
    exact update_stores hM0 hf hi hfit hup
  | @stuck l M0 hprev ih =>
    intro M l' hl hall hf hi
    exfalso
    obtain ⟨rfl, hM⟩ := List.append_inj' hl rfl
    have hM : M0 = M := by simpa using hM
    subst hM
    obtain ⟨l1, P, rfl⟩ : ∃ l1 P, l = l1 ++ [P] := by
      rcases List.eq_nil_or_concat l with rfl | ⟨l1, P, hP⟩
      · generalize hnil : ([] : List (BMat K)) = e at hprev
        cases hprev with
        | build => cases hnil
        | update => simp at hnil
        | stuck => simp at hnil
      · exact ⟨l1, P, by simpa using hP⟩
    obtain ⟨hP, hPbs⟩ := hall P (by simp)
    obtain ⟨v', hv', -⟩ := ih P l1 rfl
      (fun N hN => ⟨(hall N (by simp at hN ⊢; tauto)).1, ((hall N (by simp at hN ⊢; tauto)).2).trans hPbs.symm⟩)
      (hPbs ▸ hf) (hPbs ▸ hi)
    cases hv'

/-- **The view is the matrix, after every update**: a view is made for a block sparse matrix whose cells are
stored in order and then updated any number of times with matrices of the same structure; whatever the arrays
held before, whether the values are page-locked or not and for every schedule of the host and the device, the
matrix on the GPU is the last one. -/
theorem view_is_matrix {l : List (BMat K)} {M : BMat K} {o : Option (View K)} (h : After (l ++ [M]) o)
    (hall : ∀ N ∈ l ++ [M], N.Ok ∧ N.bs = M.bs) (hf : Full M.bs) (hi : InOrder M.bs) :
    ∃ v, o = some v ∧ v.mat.WF ∧ v.mat.numRows = M.numRows ∧ v.mat.numCols = M.numCols ∧
      v.mat.nnz = M.nnz ∧ ∀ r < M.numRows, ∀ c, v.mat.entry r c = M.entry r c := by
  obtain ⟨v, rfl, hfit, hs⟩ := after_stores h M l rfl hall hf hi
  have hM := (hall M (by simp)).1
  refine ⟨v, rfl, hs.wf ?_, hfit.numRows, hfit.numCols, ?_, fun r hr c => ?_⟩
  · intro e he
    obtain ⟨r, hr, c, hc, h1, -⟩ := mem_rowLists he
    have := (cell_ok hM (mem_triples_iff.2 ⟨r, hr, c, hc, rfl⟩)).col
    simp only at this
    show e.1 < v.numCols
    rw [hfit.numCols]
    omega
  · rw [hs.nnz, nnz_flatten hM]
  · rw [hs.entry hM.bs.rows (by show r < v.numRows; rw [hfit.numRows]; exact hr), entryT_false]
    rfl

/-- **A matrix whose cells are not stored in order is refused** (a `CHECK` fails). -/
theorem view_refuses {M : BMat K} (hf : Full M.bs) (hi : ¬ InOrder M.bs) {o : Option (View K)}
    (h : BuildRun M o) : o = none := by
  cases h with
  | fails h => rfl
  | built h1 => rw [flatten_none hf hi] at h1; cases h1

omit [CommRing K] in
theorem kernel_exists {α : Type} (stores : List (ℕ × α)) (a : ℕ → α) : ∃ a', KernelRun stores a a' :=
  ⟨_, stores, List.Perm.refl _, rfl⟩

theorem update_exists {M : BMat K} (hM : M.Ok) (hf : Full M.bs) (hi : InOrder M.bs) {v : View K}
    (hv : Fits M.bs M.numRows M.numCols v) : ∃ o, UpdateRun v M o := by
  cases hc : v.flat.compatible with
  | true =>
    obtain ⟨a, ha⟩ := kernel_exists ((List.range M.nnz).map fun i => (i, M.values i)) v.values
    exact ⟨_, .copy hc ha⟩
  | false =>
    obtain ⟨s, h1, h2⟩ := copy_returns (callOk hv (nnz_flatten hM) hf hi hM.bs.rows true) 0 0 v.values
    exact ⟨_, .streamed hc h1 h2⟩

/-- There is a run. -/
theorem view_exists {M : BMat K} {l : List (BMat K)} (hall : ∀ N ∈ M :: l, N.Ok ∧ N.bs = M.bs)
    (hf : Full M.bs) (hi : InOrder M.bs) : ∃ o, After (M :: l) o := by
  induction l using List.reverseRecOn with
  | nil =>
    have hM := (hall M (by simp)).1
    obtain ⟨a, ha⟩ := kernel_exists (flatOf M.bs).nnzStores 0
    obtain ⟨b, hb⟩ := kernel_exists (flatOf M.bs).idStores 0
    obtain ⟨c, hc⟩ := kernel_exists ((flatOf M.bs).columnStores M.numRows b (inclusiveScan M.numRows a)) 0
    have hlen : M.numRows = (rowLists false M.bs M.bs.rows).length := by
      rw [rowLists_length]
      exact hM.numRows
    obtain ⟨o, ho⟩ := update_exists hM hf hi
      (v := ⟨flatOf M.bs, M.numRows, M.numCols, inclusiveScan M.numRows a, c, 0⟩)
      ⟨rfl, rfl, rfl, hlen, fun k hk => rows_get hM.bs.rows ha hlen (by omega),
        fun q hq => cols_get hM.bs.rows hM.bs.cols hlen ha hb hc hq⟩
    exact ⟨o, .build (.built (flatten_some hf hi) ha hb hc ho)⟩
  | append_singleton l N ih =>
    obtain ⟨o, ho⟩ := ih fun P hP => hall P (by simp at hP ⊢; tauto)
    obtain ⟨hN, hNbs⟩ := hall N (by simp)
    cases o with
    | none => exact ⟨none, by simpa using After.stuck ho (M := N)⟩
    | some v =>
      obtain ⟨l1, P, hP⟩ : ∃ l1 P, M :: l = l1 ++ [P] := by
        rcases List.eq_nil_or_concat (M :: l) with h | ⟨l1, P, hP⟩
        · cases h
        · exact ⟨l1, P, by simpa using hP⟩
      have hPm : P ∈ M :: l := by rw [hP]; simp
      have hPall := hall P (by simp at hPm ⊢; tauto)
      obtain ⟨v', hv', hfit, -⟩ := after_stores ho P l1 hP
        (fun Q hQ => ⟨(hall Q (by simp at hQ ⊢; tauto)).1, ((hall Q (by simp at hQ ⊢; tauto)).2).trans hPall.2.symm⟩)
        (hPall.2 ▸ hf) (hPall.2 ▸ hi)
      injection hv' with hv'
      subst hv'
      have hr : P.numRows = N.numRows := by rw [hPall.1.numRows, hN.numRows, hPall.2, hNbs]
      have hc : P.numCols = N.numCols := by rw [hPall.1.numCols, hN.numCols, hPall.2, hNbs]
      have hb : P.bs = N.bs := hPall.2.trans hNbs.symm
      rw [hb, hr, hc] at hfit
      obtain ⟨o, ho'⟩ := update_exists hN (hNbs.symm ▸ hf) (hNbs.symm ▸ hi) hfit
      exact ⟨o, by simpa using After.update ho ho'⟩

end Ceres.CrsView
