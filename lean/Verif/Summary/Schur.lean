import Verif.Summary.Props

/-!
# C95: the structure of the Schur complement
-/
namespace Ceres.Summary

open Ceres.Reorder (World Library Prepared Solver SparseLib OrderType Rearranged Ready)
open Ceres.Graph (Groups orderingToGroupSizes)
open Ceres.Detect (Sizes dynamic detectStructure)
open Ceres.Program (RB Prog Used Depends)
open Ceres.BlockSparse

variable {X C V : Type}

section

variable {B R : Type} [DecidableEq B] [DecidableEq V] {W : World B R V} {q : Reorder.Program B R} {ne : ℕ}

/-- The structure with sizes also where there is no column. -/
def shapeFull (bs : BS) : Detect.Structure where
  cols := fun b => if b < bs.cols.length then (bs.col b).size else 1
  rows := (SchurDirect.shape bs).rows

theorem detect_full {bs : BS} (hids : ∀ row ∈ bs.rows, ∀ cell ∈ row.cells, cell.blockId < bs.cols.length) :
    detectStructure (SchurDirect.shape bs) ne = detectStructure (shapeFull bs) ne := by
  unfold detectStructure shapeFull
  simp only
  rw [loop_congr ne (SchurDirect.shape bs).rows (cols := (SchurDirect.shape bs).cols)
    (cols' := fun b => if b < bs.cols.length then ((bs.col b).size : ℤ) else 1)]
  intro r hr c hc
  obtain ⟨row, hrow, rfl⟩ := List.mem_map.1 hr
  obtain ⟨cell, hcell, rfl⟩ := List.mem_map.1 hc
  rw [if_pos (hids row hrow cell hcell)]
  rfl

/-- The rows, one for each residual block. -/
theorem row_iff {r : Detect.Row} : r ∈ (shapeFull (Reorder.structureOf (q.toEval W) ne)).rows ↔
    ∃ (i : ℕ) (x : R), q.residuals[i]? = some x ∧ r = ⟨W.numResiduals x,
      (Reorder.rowOf (q.toEval W) ne i (Reorder.evalOf W q x)).cells.map Cell.blockId⟩ := by
  show r ∈ ((Reorder.structureOf (q.toEval W) ne).rows.map _) ↔ _
  rw [Reorder.structureOf_rows, List.map_map, List.mem_map]
  constructor
  · rintro ⟨⟨a, i⟩, ha, rfl⟩
    rw [List.mem_zipIdx_iff_getElem?, Reorder.toEval_residuals, List.getElem?_map] at ha
    obtain ⟨x, hx, rfl⟩ := Option.map_eq_some_iff.1 ha
    exact ⟨i, x, hx, rfl⟩
  · rintro ⟨i, x, hx, rfl⟩
    refine ⟨(Reorder.evalOf W q x, i), ?_, rfl⟩
    rw [List.mem_zipIdx_iff_getElem?, Reorder.toEval_residuals, List.getElem?_map]
    simp [hx]

theorem mem_ids (hq : Reorder.Reduced W q) {i : ℕ} {x : R} {k : ℕ} :
    k ∈ (Reorder.rowOf (q.toEval W) ne i (Reorder.evalOf W q x)).cells.map Cell.blockId ↔
      ∃ b ∈ W.args x, W.isConst b = false ∧ q.blocks[k]? = some b := by
  rw [List.mem_map, Reorder.mem_row]
  simp only [hq.indexed _ _]

theorem mem_take {b : B} : b ∈ q.blocks.take ne ↔ ∃ k < ne, q.blocks[k]? = some b := by
  rw [List.mem_iff_getElem?]
  constructor
  · rintro ⟨k, hk⟩
    rw [List.getElem?_take] at hk
    split_ifs at hk with h
    exact ⟨k, h, hk⟩
  · rintro ⟨k, h, hk⟩
    exact ⟨k, by rw [List.getElem?_take, if_pos h, hk]⟩

theorem col_size {k : ℕ} {b : B} (hk : q.blocks[k]? = some b) :
    (shapeFull (Reorder.structureOf (q.toEval W) ne)).cols k = W.tangentSize b := by
  have hlt : k < (q.toEval W).sizes.length := by
    show k < (q.blocks.map W.tangentSize).length
    rw [List.length_map]
    exact (List.getElem?_eq_some_iff.1 hk).1
  unfold shapeFull
  simp only
  rw [Reorder.structureOf_cols_length, if_pos hlt, Reorder.structureOf_col _ ne hlt, Reorder.size_eq hk]

/-- A row whose first column is eliminated. -/
theorem hasE_iff {l : List ℕ} (hs : l.Pairwise (· < ·)) {size : ℤ} :
    (⟨size, l⟩ : Detect.Row).hasE ne ↔ ∃ k ∈ l, k < ne := by
  constructor
  · rintro ⟨e, cs, h, he⟩
    simp only at h
    exact ⟨e, by rw [h]; simp, he⟩
  · rintro ⟨k, hk, hlt⟩
    cases l with
    | nil => simp at hk
    | cons e cs =>
      refine ⟨e, cs, rfl, ?_⟩
      rcases List.mem_cons.1 hk with rfl | hk
      · exact hlt
      · exact ((List.pairwise_cons.1 hs).1 k hk).trans hlt

/-- What `DetectStructure` finds in the Jacobian of a program that is ready for a Schur solver. -/
theorem detect_says {K : Type} {v : ℕ → K} {J : BMat K} (hq : Reorder.Reduced W q)
    (hJ : Reorder.SchurJacobian W q ne v J) :
    ∃ s, detectStructure (SchurDirect.shape (Reorder.structureOf (q.toEval W) ne)) ne = some s ∧
      Detect.Describes (fun n => ∃ r ∈ q.residuals, ∃ e ∈ W.args r, e ∈ q.blocks.take ne ∧ (W.numResiduals r : ℤ) = n)
        s.row ∧
      Detect.Describes (fun n => ∃ r ∈ q.residuals, ∃ e ∈ W.args r, e ∈ q.blocks.take ne ∧ (W.tangentSize e : ℤ) = n)
        s.e ∧
      Detect.Describes (fun n => ∃ r ∈ q.residuals, ∃ e ∈ W.args r, e ∈ q.blocks.take ne ∧
        ∃ b ∈ W.args r, b ≠ e ∧ W.isConst b = false ∧ (W.tangentSize b : ℤ) = n) s.f := by
  have hbs : J.bs = Reorder.structureOf (q.toEval W) ne := by
    have := hJ.made
    rw [Reorder.createJacobian_made hq, Option.some.injEq] at this
    rw [← this]; rfl
  have hord := hJ.ordered
  have hcols := hJ.cols
  have hfirst := hJ.first
  rw [hbs] at hord hcols hfirst
  have hids := Reorder.structureOf_ids ne (Reorder.toEval_ok hq)
  have hsorted : ∀ (i : ℕ) (x : R), q.residuals[i]? = some x →
      ((Reorder.rowOf (q.toEval W) ne i (Reorder.evalOf W q x)).cells.map Cell.blockId).Pairwise (· < ·) := by
    intro i x hx
    refine hord.sorted _ ?_
    rw [Reorder.structureOf_rows, List.mem_map]
    refine ⟨(Reorder.evalOf W q x, i), ?_, rfl⟩
    rw [List.mem_zipIdx_iff_getElem?, Reorder.toEval_residuals, List.getElem?_map]
    simp [hx]
  have hpos : Detect.Positive (shapeFull (Reorder.structureOf (q.toEval W) ne)) := by
    constructor
    · intro b
      unfold shapeFull
      simp only
      split_ifs with h
      · have := hcols _ (List.mem_of_getElem? (InnerProduct.col_getElem h))
        exact_mod_cast this
      · omega
    · intro r hr
      obtain ⟨i, x, hx, rfl⟩ := row_iff.1 hr
      exact Int.natCast_pos.2 (hq.residualSizes x (List.mem_of_getElem? hx))
  have hhas : ∀ row ∈ (Reorder.structureOf (q.toEval W) ne).rows,
      (⟨row.block.size, row.cells.map Cell.blockId⟩ : Detect.Row).hasE ne ↔ ∃ c ∈ row.cells, c.blockId < ne := by
    intro row hrow
    rw [hasE_iff (hord.sorted row hrow)]
    simp
  have hE : Detect.EFirst ne (shapeFull (Reorder.structureOf (q.toEval W) ne)).rows := by
    show ((Reorder.structureOf (q.toEval W) ne).rows.map _).Pairwise _
    rw [List.pairwise_map]
    refine List.Pairwise.imp_of_mem ?_ hord.eFirst
    intro a b ha hb hab h
    exact (hhas a ha).2 (hab ((hhas b hb).1 h))
  have hsome : detectStructure (shapeFull (Reorder.structureOf (q.toEval W) ne)) ne ≠ none := by
    rw [Ne, Detect.detectStructure_none hpos hE]
    push Not
    obtain ⟨r, hr, c, hc, hlt⟩ := hfirst
    have hr' := List.mem_of_mem_head? hr
    exact ⟨_, List.mem_map_of_mem hr', (hhas r hr').2 ⟨c, hc, hlt⟩⟩
  obtain ⟨s, hs⟩ := Option.ne_none_iff_exists'.1 hsome
  obtain ⟨h1, h2, h3⟩ := Detect.detectStructure_sound hpos hE hs
  -- the head of a row
  have hhead : ∀ (i : ℕ) (x : R), q.residuals[i]? = some x → ∀ e ∈ W.args x, e ∈ q.blocks.take ne →
      ∃ k cs, (Reorder.rowOf (q.toEval W) ne i (Reorder.evalOf W q x)).cells.map Cell.blockId = k :: cs ∧ k < ne ∧
        q.blocks[k]? = some e := by
    intro i x hx e he het
    obtain ⟨k, hk, hke⟩ := mem_take.1 het
    have hm := (mem_ids (ne := ne) (i := i) hq).2 ⟨e, he, hq.isVar e (List.mem_of_mem_take het), hke⟩
    obtain ⟨k', cs, hcs, hk'⟩ := (hasE_iff (ne := ne) (size := 0) (hsorted i x hx)).2 ⟨k, hm, hk⟩
    simp only at hcs
    have hm' : k' ∈ (Reorder.rowOf (q.toEval W) ne i (Reorder.evalOf W q x)).cells.map Cell.blockId := by rw [hcs]; simp
    have heq : k = k' := by
      obtain ⟨c, hc, rfl⟩ := List.mem_map.1 hm
      obtain ⟨d, hd, rfl⟩ := List.mem_map.1 hm'
      refine hord.independent _ ?_ c hc d hd hk hk'
      rw [Reorder.structureOf_rows, List.mem_map]
      refine ⟨(Reorder.evalOf W q x, i), ?_, rfl⟩
      rw [List.mem_zipIdx_iff_getElem?, Reorder.toEval_residuals, List.getElem?_map]
      simp [hx]
    exact ⟨k', cs, hcs, hk', heq ▸ hke⟩
  have hback : ∀ (i : ℕ) (x : R), q.residuals[i]? = some x → ∀ k cs,
      (Reorder.rowOf (q.toEval W) ne i (Reorder.evalOf W q x)).cells.map Cell.blockId = k :: cs → k < ne →
      ∃ e ∈ W.args x, e ∈ q.blocks.take ne ∧ q.blocks[k]? = some e := by
    intro i x hx k cs hcs hk
    obtain ⟨e, he, -, hke⟩ := (mem_ids (ne := ne) (i := i) (x := x) (k := k) hq).1 (by rw [hcs]; simp)
    exact ⟨e, he, mem_take.2 ⟨k, hk, hke⟩, hke⟩
  refine ⟨s, (detect_full hids).trans hs, h1.congr fun n => ?_, h2.congr fun n => ?_, h3.congr fun n => ?_⟩
  · constructor
    · rintro ⟨r, hr, ⟨k, cs, hcs, hk⟩, rfl⟩
      obtain ⟨i, x, hx, rfl⟩ := row_iff.1 hr
      obtain ⟨e, he, het, -⟩ := hback i x hx k cs hcs hk
      exact ⟨x, List.mem_of_getElem? hx, e, he, het, rfl⟩
    · rintro ⟨x, hx, e, he, het, rfl⟩
      obtain ⟨i, hi⟩ := List.getElem?_of_mem hx
      obtain ⟨k, cs, hcs, hk, -⟩ := hhead i x hi e he het
      exact ⟨_, row_iff.2 ⟨i, x, hi, rfl⟩, ⟨k, cs, hcs, hk⟩, rfl⟩
  · constructor
    · rintro ⟨r, hr, ⟨k, cs, hcs, hk⟩, k', hk', rfl⟩
      obtain ⟨i, x, hx, rfl⟩ := row_iff.1 hr
      obtain ⟨e, he, het, hke⟩ := hback i x hx k cs hcs hk
      simp only at hcs hk'
      rw [hcs, List.head?_cons, Option.some.injEq] at hk'
      exact ⟨x, List.mem_of_getElem? hx, e, he, het, by rw [← hk', col_size hke]⟩
    · rintro ⟨x, hx, e, he, het, rfl⟩
      obtain ⟨i, hi⟩ := List.getElem?_of_mem hx
      obtain ⟨k, cs, hcs, hk, hke⟩ := hhead i x hi e he het
      exact ⟨_, row_iff.2 ⟨i, x, hi, rfl⟩, ⟨k, cs, hcs, hk⟩, k, by simp only; rw [hcs]; rfl, col_size hke⟩
  · constructor
    · rintro ⟨r, hr, ⟨k, cs, hcs, hk⟩, k', hk', rfl⟩
      obtain ⟨i, x, hx, rfl⟩ := row_iff.1 hr
      obtain ⟨e, he, het, hke⟩ := hback i x hx k cs hcs hk
      have hs' := hsorted i x hx
      simp only at hcs hk'
      rw [hcs] at hk' hs'
      obtain ⟨b, hb, hc, hkb⟩ := (mem_ids (ne := ne) (i := i) (x := x) (k := k') hq).1
        (by rw [hcs]; exact List.mem_cons_of_mem _ hk')
      refine ⟨x, List.mem_of_getElem? hx, e, he, het, b, hb, ?_, hc, (col_size hkb).symm⟩
      rintro rfl
      have h1 := (hq.indexed _ _).2 hkb
      have h2 := (hq.indexed _ _).2 hke
      rw [h1, Option.some.injEq] at h2
      have := (List.pairwise_cons.1 hs').1 k' hk'
      omega
    · rintro ⟨x, hx, e, he, het, b, hb, hbe, hc, rfl⟩
      obtain ⟨i, hi⟩ := List.getElem?_of_mem hx
      obtain ⟨k, cs, hcs, hk, hke⟩ := hhead i x hi e he het
      obtain ⟨k', hk'⟩ := List.getElem?_of_mem (hq.closed x hx b hb hc)
      have hm := (mem_ids (ne := ne) (i := i) (x := x) (k := k') hq).2 ⟨b, hb, hc, hk'⟩
      refine ⟨_, row_iff.2 ⟨i, x, hi, rfl⟩, ⟨k, cs, hcs, hk⟩, k', ?_, col_size hk'⟩
      simp only
      rw [hcs] at hm ⊢
      rcases List.mem_cons.1 hm with rfl | hm
      · rw [hk', Option.some.injEq] at hke
        exact absurd hke hbe
      · exact hm

end

section Prepared

variable [AddCommMonoid C] [DecidableEq V] {W : World ℕ (RB X C) V} {L : Library ℕ (RB X C)} {x : ℕ → X}
  {known : V → Bool} {sparse : Bool} {lib : SparseLib} {ot : OrderType} {bottom : RB X C → Bool}
  {G : Option (Groups V)} {p : Prog X C}

/-- **C95.**  With a Schur solver: the first number of `linear_solver_ordering_used` is the number of parameter blocks
that are eliminated, which are the first group of that ordering; `schur_structure_given` says what these blocks are;
and `schur_structure_used` is the specialisation of the code that the linear solver runs. -/
theorem report_schur (size : ℕ → ℕ) (hW : WellFormed W p) (hL : L.Ok) (hG : GivenOk W p G) (user : Option (Groups V))
    {r : Prepared ℕ (RB X C) V} (h : prepare W L x known (.schur sparse) lib ot bottom G p = .ready r) :
    ∃ (E : List ℕ) (g : ℕ) (s t : Sizes),
      (report W size (.schur sparse) p user (.ready r)).orderingUsed.head? = some E.length ∧
      (∀ b, b ∈ E ↔ b ∈ optimised W p ∧ r.ordering.groupId (W.user b) = g) ∧ E.Nodup ∧
      r.ordering.minNonZeroGroup = some g ∧
      (report W size (.schur sparse) p user (.ready r)).schur = some (some (written s, written t)) ∧
      SaysStructure W p (· ∈ E) s ∧
      (SchurDirect.eliminatorOf (Reorder.structureOf (r.program.toEval W) r.numEliminate) r.numEliminate =
          some (.general t) ∨
        SchurDirect.eliminatorOf (Reorder.structureOf (r.program.toEval W) r.numEliminate) r.numEliminate =
          some (.oneFBlock t)) := by
  obtain ⟨q, hb, hres, hq, hready⟩ := prepare_ready hW hL (by intro h; cases h) hG h
  have hq' := hq.rearranged hready.same
  obtain ⟨hs, hJ⟩ := hready.schur sparse rfl
  obtain ⟨J, hJ⟩ := hJ ℕ fun _ => 0
  obtain ⟨s, hdet, h1, h2, h3⟩ := detect_says hq' hJ
  obtain ⟨g, hg, hhead, hgroup⟩ := hs.group
  have hmem : ∀ b, b ∈ r.program.blocks ↔ b ∈ optimised W p := fun b => by
    rw [hready.same.blocks.mem_iff, hb]
  refine ⟨r.program.blocks.take r.numEliminate, g, s, best s, ?_, ?_, ?_, hg, ?_, ⟨?_, ?_, ?_⟩, ?_⟩
  · rw [List.length_take, min_eq_left hs.le]; exact hhead
  · intro b
    constructor
    · intro hbt
      have := List.mem_of_mem_take hbt
      exact ⟨(hmem b).1 this, (hgroup b this).1 hbt⟩
    · rintro ⟨hbo, hbg⟩
      exact (hgroup b ((hmem b).2 hbo)).2 hbg
  · exact hq'.nodup.sublist (List.take_sublist _ _)
  · show some (schurStrings _ _) = _
    unfold schurStrings
    rw [hdet, ← structureString_eq, ← structureString_eq]
    rfl
  all_goals first
    | (refine Detect.Describes.congr (fun n => ?_) (by assumption)
       have hr : ∀ y, y ∈ r.program.residuals ↔ y ∈ dependent W p := fun y => by
         rw [hready.same.residuals.mem_iff, hres]
       have hdep : ∀ y, y ∈ p.rblocks → ∀ e ∈ y.params, e ∈ r.program.blocks.take r.numEliminate →
           y ∈ r.program.residuals := by
         classical
         intro y hy e he het
         rw [hr]
         unfold dependent
         rw [List.mem_filter]
         exact ⟨hy, by simpa using ⟨e, he, hq'.isVar e (List.mem_of_mem_take het)⟩⟩
       have hsub : ∀ y, y ∈ r.program.residuals → y ∈ p.rblocks := by
         classical
         intro y hy
         rw [hr] at hy
         exact (List.mem_filter.1 hy).1
       rw [hW.args]
       constructor
       · rintro ⟨y, hy, e, he, hrest⟩
         exact ⟨y, hsub y hy, e, he, hrest⟩
       · rintro ⟨y, hy, e, he, hrest⟩
         exact ⟨y, hdep y hy e he hrest.1, e, he, hrest⟩)
    | skip
  · unfold SchurDirect.eliminatorOf Detect.chooseEliminator
    rw [hdet, Option.map_some, best_eq_create]
    split_ifs with h6
    · right
      obtain ⟨a, b, c, -⟩ := h6
      obtain ⟨sr, se, sf⟩ := s
      simp only at a b c
      subst a b c
      rfl
    · exact .inl rfl

end Prepared

end Ceres.Summary
