import Verif.SchurDirect.Sparse
import Verif.Direct.Exact

/-!
# C82: concrete calls
-/

noncomputable section

namespace Ceres.SchurDirect

open Ceres.BlockSparse Ceres.InnerProduct Ceres.Direct

/-- A diagonal without zeros makes the e blocks regular. -/
theorem regularE_diagonal {ne : ℕ} {A : BMat ℝ} (h : A.Ok) {d : Vec} (hd : ∀ j < A.numCols, d j ≠ 0) :
    RegularE ne A (some d) := by
  intro x _ _ hx r hr c hc _ i hi
  have hb := (laid_bounds h.bs.cols (col_mem (h.bs.ids r hr c hc))).2
  rw [← h.numCols] at hb
  have hlt : (A.bs.col c.blockId).position + i < A.numCols := by omega
  exact (mul_eq_zero.1 (hx _ hlt)).resolve_left (hd _ hlt)

/-- Two e blocks and two f blocks; the cells of e blocks are stored first; the last row block has no e block. -/
def points : BS where
  cols := [⟨1, 0⟩, ⟨2, 1⟩, ⟨2, 3⟩, ⟨1, 5⟩]
  rows := [⟨⟨2, 0⟩, [⟨0, 0⟩, ⟨2, 5⟩], 0, 0⟩, ⟨⟨1, 2⟩, [⟨0, 2⟩, ⟨3, 9⟩], 0, 0⟩,
    ⟨⟨1, 3⟩, [⟨1, 3⟩, ⟨2, 10⟩, ⟨3, 12⟩], 0, 0⟩, ⟨⟨1, 4⟩, [⟨2, 13⟩], 0, 0⟩]

theorem points_ok (v : Vec) : (BMat.ofStructure points v).Ok :=
  ofStructure_ok (by simp [points, Laid]) (by simp [points, Laid]) (by decide) (by decide)

theorem sublist3 {α : Type} {l : List α} {P : α → α → α → Prop}
    (h : ∀ i < l.length, ∀ j < l.length, ∀ k < l.length, i < j → j < k →
      ∀ a ∈ l[i]?.toList, ∀ b ∈ l[j]?.toList, ∀ c ∈ l[k]?.toList, P a b c)
    (a b c : α) (hs : [a, b, c].Sublist l) : P a b c := by
  obtain ⟨f, hf⟩ := List.sublist_iff_exists_orderEmbedding_getElem?_eq.1 hs
  have h0 := hf 0
  have h1 := hf 1
  have h2 := hf 2
  simp only [List.getElem?_cons_zero, List.getElem?_cons_succ] at h0 h1 h2
  refine h (f 0) ?_ (f 1) ?_ (f 2) ?_ (f.lt_iff_lt.2 (by decide)) (f.lt_iff_lt.2 (by decide)) a
    (by rw [← h0]; simp) b (by rw [← h1]; simp) c (by rw [← h2]; simp)
  · exact (List.getElem?_eq_some_iff.1 h0.symm).1
  · exact (List.getElem?_eq_some_iff.1 h1.symm).1
  · exact (List.getElem?_eq_some_iff.1 h2.symm).1

/-- The e blocks of the outer rows are in the one between. -/
def Between (ne : ℕ) (r s t : BRow) : Prop := ∀ e < ne, (∃ c ∈ r.cells, c.blockId = e) →
  (∃ c ∈ t.cells, c.blockId = e) → ∃ c ∈ s.cells, c.blockId = e

instance (ne : ℕ) (r s t : BRow) : Decidable (Between ne r s t) := by
  unfold Between
  infer_instance

set_option synthInstance.maxHeartbeats 200000 in
set_option synthInstance.maxSize 1024 in
theorem points_ordered : SchurOrdered 2 points where
  sorted := by unfold CellsSorted; decide
  nonempty := by decide
  independent := by decide
  eFirst := by decide
  grouped := sublist3 (P := Between 2) (by decide)

/-- A call with a diagonal. -/
theorem points_fits (v b d : Vec) (hd : ∀ j < 6, d j ≠ 0) :
    Fits 2 points ⟨BMat.ofStructure points v, b, some d⟩ where
  ok := points_ok v
  structure_ := rfl
  ordered := points_ordered
  blocks := by decide
  cols := by decide
  rows := by decide
  first := by decide
  regular := regularE_diagonal (points_ok v) hd

/-- DENSE_SCHUR on any such call, on three threads. -/
example (v b d : Vec) (hd : ∀ j < 6, d j ≠ 0) :
    ∃ x, DenseSolve exactDense Schur.exactInv 2 ⟨BMat.ofStructure points v, b, some d⟩ 3 (some (true, x, ())) ∧
      Minimises 5 6 (BMat.ofStructure points v).entry b (some d) x := by
  obtain ⟨⟨o, ho⟩, hall⟩ := dense_schur exactDense_correct Schur.exactInv_fullRank (by decide : 0 < 3)
    (points_fits v b d hd)
  obtain ⟨ok, x, rfl, hg⟩ := hall o ho
  have hok : ok = true := hg.unique fun y _ hy j hj => (mul_eq_zero.1 (hy j hj)).resolve_left (hd j hj)
  subst hok
  exact ⟨x, ho, hg.solves rfl⟩

/-- SPARSE_SCHUR after another call, with refinement. -/
example (upper : Bool) (v b d v' b' d' : Vec) (hd : ∀ j < 6, d j ≠ 0) (hd' : ∀ j < 6, d' j ≠ 0) :
    ∃ K, After ((exactSparse upper).refined 2) Schur.exactInv 2 3 [⟨BMat.ofStructure points v, b, some d⟩] K ∧
      ∃ x K', SparseSolve ((exactSparse upper).refined 2) K Schur.exactInv 2 ⟨BMat.ofStructure points v', b', some d'⟩ 3
        (some (true, x, K')) ∧ Minimises 5 6 (BMat.ofStructure points v').entry b' (some d') x := by
  have hc := refined_correct (exactSparse_correct upper) 2
  have hcalls : ∀ call ∈ [(⟨BMat.ofStructure points v, b, some d⟩ : Call)], Fits 2 points call := by
    intro call h
    rw [List.mem_singleton] at h
    rw [h]
    exact points_fits v b d hd
  obtain ⟨K, hK⟩ := after_exists hc Schur.exactInv_fullRank (by decide : 0 < 3) _ hcalls
  refine ⟨K, hK, ?_⟩
  obtain ⟨⟨o, ho⟩, hall⟩ := sparse_schur hc Schur.exactInv_fullRank (by decide : 0 < 3) hcalls hK
    (points_fits v' b' d' hd')
  obtain ⟨ok, x, K', rfl, hg⟩ := hall o ho
  have hok : ok = true := hg.unique fun y _ hy j hj => (mul_eq_zero.1 (hy j hj)).resolve_left (hd' j hj)
  subst hok
  exact ⟨x, K', ho, hg.solves rfl⟩

/-- The structure of the reduced matrix of the example: all three pairs of f blocks. -/
theorem points_reduced : reducedStructure points 2 = ⟨[⟨2, 0⟩, ⟨1, 2⟩],
    [⟨⟨2, 0⟩, [⟨0, 0⟩, ⟨1, 4⟩], 0, 0⟩, ⟨⟨1, 2⟩, [⟨1, 6⟩], 0, 0⟩]⟩ := by
  have h : pairSet points 2 = [(0, 0), (0, 1), (1, 1)] := by
    unfold pairSet Schur.blockPairs rowsOf
    simp [Schur.detectChunks, points, rowOf, Schur.Row.front, Schur.bufferKeys, Schur.insertKey, Schur.upperPairs,
      Schur.rowPairs, List.range']
    decide
  unfold reducedStructure
  rw [h]
  rfl

/-- One f block of six columns: the special eliminator. -/
def camera : BS where
  cols := [⟨3, 0⟩, ⟨6, 3⟩]
  rows := [⟨⟨2, 0⟩, [⟨0, 0⟩, ⟨1, 6⟩], 0, 0⟩, ⟨⟨2, 2⟩, [⟨0, 18⟩, ⟨1, 24⟩], 0, 0⟩]

theorem camera_eliminator : eliminatorOf camera 1 = some (.oneFBlock ⟨2, 3, 6⟩) := by rfl

theorem camera_ok (v : Vec) : (BMat.ofStructure camera v).Ok :=
  ofStructure_ok (by simp [camera, Laid]) (by simp [camera, Laid]) (by decide) (by decide)

set_option synthInstance.maxHeartbeats 200000 in
set_option synthInstance.maxSize 1024 in
theorem camera_fits (v b d : Vec) (hd : ∀ j < 9, d j ≠ 0) :
    Fits 1 camera ⟨BMat.ofStructure camera v, b, some d⟩ where
  ok := camera_ok v
  structure_ := rfl
  ordered :=
    { sorted := by unfold CellsSorted; decide
      nonempty := by decide
      independent := by decide
      eFirst := by decide
      grouped := sublist3 (P := Between 1) (by decide) }
  blocks := by decide
  cols := by decide
  rows := by decide
  first := by decide
  regular := regularE_diagonal (camera_ok v) hd

/-- Both solvers with the special eliminator. -/
example (v b d : Vec) (hd : ∀ j < 9, d j ≠ 0) :
    (∃ x, DenseSolve exactDense Schur.exactInv 1 ⟨BMat.ofStructure camera v, b, some d⟩ 1 (some (true, x, ())) ∧
      Minimises 4 9 (BMat.ofStructure camera v).entry b (some d) x) ∧
    ∃ x K, SparseSolve (exactSparse true) ⟨none, (exactSparse true).init⟩ Schur.exactInv 1
      ⟨BMat.ofStructure camera v, b, some d⟩ 1 (some (true, x, K)) ∧
      Minimises 4 9 (BMat.ofStructure camera v).entry b (some d) x := by
  have hu : Regular 4 9 (BMat.ofStructure camera v).entry (some d) := fun y _ hy j hj =>
    (mul_eq_zero.1 (hy j hj)).resolve_left (hd j hj)
  constructor
  · obtain ⟨⟨o, ho⟩, hall⟩ := dense_schur exactDense_correct Schur.exactInv_fullRank (by decide : 0 < 1)
      (camera_fits v b d hd)
    obtain ⟨ok, x, rfl, hg⟩ := hall o ho
    obtain rfl : ok = true := hg.unique hu
    exact ⟨x, ho, hg.solves rfl⟩
  · obtain ⟨⟨o, ho⟩, hall⟩ := sparse_schur (exactSparse_correct true) Schur.exactInv_fullRank (by decide : 0 < 1)
      (by simp) .nil (camera_fits v b d hd)
    obtain ⟨ok, x, K, rfl, hg⟩ := hall o ho
    obtain rfl : ok = true := hg.unique hu
    exact ⟨x, K, ho, hg.solves rfl⟩

/-- **A Jacobian whose first row block has no e block** is not solved: a `CHECK` fails. -/
theorem no_e_block_aborts {σ : Type} {inv : Schur.Inverter} {ne threads : ℕ} {S : Storage}
    {reduced : Vec → Vec → Option (Bool × Vec × σ)} {call : Call}
    (h : ∀ r ∈ call.A.bs.rows.head?, ∀ c ∈ r.cells, ne ≤ c.blockId) {o : Option (Bool × Vec × σ)}
    (ho : Solve inv ne S reduced call threads o) : o = none := by
  have he : eliminatorOf call.A.bs ne = none := by
    unfold eliminatorOf Detect.chooseEliminator Detect.detectStructure
    have : Detect.loop (shape call.A.bs).cols ne (shape call.A.bs).rows ⟨0, 0, 0⟩ = ⟨0, 0, 0⟩ := by
      unfold shape
      cases hr : call.A.bs.rows with
      | nil => rfl
      | cons r rs =>
        cases hc : r.cells with
        | nil => simp [Detect.loop, hc]
        | cons c cs =>
          have := h r (by rw [hr]; rfl) c (by rw [hc]; simp)
          simp [Detect.loop, hc, this]
    simp only
    rw [this]
    rfl
  have hno : ∀ {m m1}, ¬ Eliminates inv call.A.bs ne (S.has ne) (rowsOf call.A.bs call.A.values call.b)
      (call.D.map (blocksOf call.A.bs)) threads m (some m1) := by
    intro m m1 hh
    cases hh with
    | general t _ h1 => rw [he] at h1; cases h1
    | one t h1 => rw [he] at h1; cases h1
  cases ho with
  | stuck => rfl
  | aborts => rfl
  | backStuck => rfl
  | failed _ _ _ _ _ _ _ h1 => exact absurd h1 hno
  | done _ _ _ _ _ _ _ _ h1 => exact absurd h1 hno

end Ceres.SchurDirect
