import Verif.Reorder.Step
import Verif.IterSchur.Main
import Verif.Cgnr.Main

/-!
# C91: the iterative solvers

The same as `Verif.Reorder.Step` for ITERATIVE_SCHUR (C92) and CGNR (C90).
-/
noncomputable section

namespace Ceres.Reorder

open Ceres.Graph Ceres.BlockSparse Ceres.InnerProduct Ceres.Direct

variable {B R V : Type} [DecidableEq B] [DecidableEq V]

/-! ## The columns of the blocks that are not eliminated -/

theorem eCols_structure (W : World B R V) (q : Program B R) (ne : ℕ) :
    SchurDirect.eCols (structureOf (q.toEval W) ne) ne = ((q.blocks.take ne).map W.tangentSize).sum := by
  unfold SchurDirect.eCols
  show (((laidFrom 0 (q.toEval W).sizes).take ne).map Block.size).sum = _
  rw [List.map_take, laidFrom_sizes, List.map_take]
  rfl

theorem fCols_structure (W : World B R V) (q : Program B R) (ne : ℕ) :
    SchurDirect.fCols (structureOf (q.toEval W) ne) ne = ((q.blocks.drop ne).map W.tangentSize).sum := by
  unfold SchurDirect.fCols
  show (((laidFrom 0 (q.toEval W).sizes).drop ne).map Block.size).sum = _
  rw [List.map_drop, laidFrom_sizes, List.map_drop]
  rfl

/-- A column behind those of the first `ne` blocks belongs to one of the others. -/
theorem column_of (size : B → ℕ) : ∀ (l : List B) (ne j : ℕ), ((l.take ne).map size).sum ≤ j → j < (l.map size).sum →
    ∃ i b, ne ≤ i ∧ l[i]? = some b ∧ ∃ c < size b, j = ((l.take i).map size).sum + c
  | [], _, j, _, h => by simp at h
  | a :: l, 0, j, _, h => by
    rw [List.map_cons, List.sum_cons] at h
    by_cases ha : j < size a
    · exact ⟨0, a, le_rfl, rfl, j, ha, by simp⟩
    · obtain ⟨i, b, -, h2, c, h3, h4⟩ := column_of size l 0 (j - size a) (by simp) (by omega)
      exact ⟨i + 1, b, Nat.zero_le _, by simpa using h2, c, h3, by
        rw [List.take_succ_cons, List.map_cons, List.sum_cons]; omega⟩
  | a :: l, ne + 1, j, hle, h => by
    rw [List.take_succ_cons, List.map_cons, List.sum_cons] at hle
    rw [List.map_cons, List.sum_cons] at h
    obtain ⟨i, b, h1, h2, c, h3, h4⟩ := column_of size l ne (j - size a) (by omega) (by omega)
    exact ⟨i + 1, b, by omega, by simpa using h2, c, h3, by
      rw [List.take_succ_cons, List.map_cons, List.sum_cons]; omega⟩

theorem agree_behind {W : World B R V} {q : Program B R} (hq : Reduced W q) {ne n : ℕ}
    (hn : n = (q.blocks.map W.tangentSize).sum) {x : Vec} {δ : B → ℕ → ℝ}
    (h : ∀ b ∈ q.blocks.drop ne, ∀ c < W.tangentSize b, stepOf W q x b c = δ b c) {y : Vec}
    (hy : ∀ b ∈ q.blocks.drop ne, ∀ c < W.tangentSize b, stepOf W q y b c = δ b c) :
    ∀ j, SchurDirect.eCols (structureOf (q.toEval W) ne) ne ≤ j → j < n → y j = x j := by
  intro j hj hjn
  rw [eCols_structure] at hj
  rw [hn] at hjn
  obtain ⟨i, b, h1, h2, c, h3, rfl⟩ := column_of W.tangentSize q.blocks ne j hj hjn
  have hmem : b ∈ q.blocks.drop ne := by
    rw [List.mem_iff_getElem?]
    exact ⟨i - ne, by rw [List.getElem?_drop, Nat.add_sub_cancel' h1]; exact h2⟩
  have hx := h b hmem c h3
  rw [← hy b hmem c h3] at hx
  unfold stepOf at hx
  rw [(hq.indexed b i).2 h2] at hx
  exact hx.symm

/-- If no residual block depends on two blocks that are not eliminated, then no row block has two f blocks. -/
theorem oneF_structure {W : World B R V} {q : Program B R} (hq : Reduced W q) {ne : ℕ}
    (h : ∀ r ∈ q.residuals, ∀ a ∈ W.args r, ∀ b ∈ W.args r, a ∈ q.blocks.drop ne → b ∈ q.blocks.drop ne → a = b) :
    IterSchur.OneFBlock ne (structureOf (q.toEval W) ne) := by
  intro row hrow c hc d hd hce hde
  rw [structureOf_rows] at hrow
  obtain ⟨⟨e, i⟩, he, rfl⟩ := List.mem_map.1 hrow
  rw [List.mk_mem_zipIdx_iff_getElem?, toEval_residuals, List.getElem?_map, Option.map_eq_some_iff] at he
  obtain ⟨r, hr, rfl⟩ := he
  obtain ⟨a, ha, -, hai⟩ := (mem_row (W := W) (q := q) ne i (r := r)).1 ⟨c, hc, rfl⟩
  obtain ⟨b, hb, -, hbi⟩ := (mem_row (W := W) (q := q) ne i (r := r)).1 ⟨d, hd, rfl⟩
  have mem : ∀ {b : B} {k : ℕ}, q.index b = some k → ne ≤ k → b ∈ q.blocks.drop ne := by
    intro b k hk hle
    rw [List.mem_iff_getElem?]
    exact ⟨k - ne, by rw [List.getElem?_drop, Nat.add_sub_cancel' hle]; exact (hq.indexed b k).1 hk⟩
  have := h r (List.mem_of_getElem? hr) a ha b hb (mem hai hce) (mem hbi hde)
  subst this
  rw [hai] at hbi
  exact Option.some.inj hbi

/-! ## ITERATIVE_SCHUR -/

/-- What ITERATIVE_SCHUR returns for the problem.  `others` are the blocks that are not eliminated. -/
structure IterativeStep {c : SparseChol} (W : World B R V) (p : Program B R) (others : List B) (Λ : Linearised B R)
    (o : IterSchur.Options) (step : B → ℕ → ℝ) (t : CG.Term) (kept : Prop) : Prop where
  /-- After a failure nothing is written. -/
  failed : t = .failure → kept
  /-- The eliminated blocks move as is best for the others. -/
  best : t ≠ .failure → ∀ δ, (∀ b ∈ others, ∀ k < W.tangentSize b, step b k = δ b k) → Λ.cost W p step ≤ Λ.cost W p δ
  /-- The step is as good as every one that moves eliminated blocks only, for example none. -/
  descends : t ≠ .failure → o.init = none ∨ (∀ r ∈ p.residuals, ∀ a ∈ W.args r, ∀ b ∈ W.args r, a ∈ others → b ∈ others →
    a = b) → ∀ δ, (∀ b ∈ others, ∀ k < W.tangentSize b, δ b k = 0) → Λ.cost W p step ≤ Λ.cost W p δ
  /-- Run to the end it minimises the model. -/
  solves : SchurJacobi.Exact o.cg ((others.map W.tangentSize).sum) → o.init = none →
    (o.kind.Tridiagonal → Visibility.Definite c) →
    t = .success ∧ (∀ δ, Λ.cost W p step ≤ Λ.cost W p δ) ∨ t = .failure ∧ o.kind.Tridiagonal

/-- **C91, ITERATIVE_SCHUR** with an implicit Schur complement and any preconditioner, after any history of calls. -/
theorem iterative_schur_step {W : World B R V} {p : Program B R} (hp : Reduced W p) {bottom : R → Bool} {sparse : Bool}
    {r : Prepared B R V} (hr : Ready W p (.schur sparse) bottom r) {c : SparseChol} (hc : c.Correct)
    {llt : (n : ℕ) → Matrix (Fin n) (Fin n) ℝ → Matrix (Fin n) (Fin n) ℝ} (hl : PartitionedView.LltOk llt)
    {inv : Schur.Inverter} (hinv : Schur.InvertsFullRank inv) {threads : ℕ} (ht : 0 < threads) (o : IterSchur.Options)
    {calls : List Call}
    (hcalls : ∀ call ∈ calls, ∃ Λ : Linearised B R, Λ.Damped ∧ IsCall W r.program r.numEliminate Λ call)
    {st : IterSchur.State c} (hst : IterSchur.After c llt inv o r.numEliminate threads calls st) {Λ : Linearised B R}
    (hd : Λ.Damped) {call : Call} (hcall : IsCall W r.program r.numEliminate Λ call) (before : Vec) :
    (∃ out, IterSchur.Solve llt inv o r.numEliminate threads st call before out) ∧
    ∀ out, IterSchur.Solve llt inv o r.numEliminate threads st call before out → ∃ s, out = some s ∧
      IterativeStep (c := c) W p (r.program.blocks.drop r.numEliminate) Λ o (stepOf W r.program s.x) s.termination
        (s.x = before) := by
  have hq := hp.rearranged hr.same
  obtain ⟨J, hJ⟩ := (hr.schur sparse rfl).2 ℝ fun _ => 0
  have hask : ∀ (Λ : Linearised B R) (call : Call), Λ.Damped → IsCall W r.program r.numEliminate Λ call →
      IterSchur.Asked r.numEliminate (structureOf (r.program.toEval W) r.numEliminate) call := by
    intro Λ call hd hcall
    obtain ⟨D, hD, hD'⟩ := hd.call hq hcall
    exact ⟨call_fits hq hJ hd hcall, by rw [hD]; exact regular_damped hD'⟩
  obtain ⟨h1, h2⟩ := IterSchur.iterative_schur_solves hl hinv hc ht o (fun call h => by
    obtain ⟨Λ', hd', hc'⟩ := hcalls call h
    exact hask Λ' call hd' hc') hst (hask Λ call hd hcall) o.cg before
  refine ⟨h1, fun out hout => ?_⟩
  obtain ⟨s, rfl, hg⟩ := h2 out hout
  obtain ⟨-, -, -, hcols⟩ := call_dims hq hcall
  have hcost : ∀ x, lsq call.A.numRows call.A.numCols call.A.entry call.b call.D x = Λ.cost W p (stepOf W r.program x) :=
    fun x => (lsq_eq hq hcall x).trans (cost_rearranged hr.same Λ _)
  have hdrop : ∀ b ∈ r.program.blocks.drop r.numEliminate, b ∈ r.program.blocks := fun b hb => List.mem_of_mem_drop hb
  have hvec : ∀ δ : B → ℕ → ℝ, ∃ y, Λ.cost W p (stepOf W r.program y) = Λ.cost W p δ ∧
      ∀ b ∈ r.program.blocks, ∀ c < W.tangentSize b, stepOf W r.program y b c = δ b c := by
    intro δ
    obtain ⟨y, hy⟩ := exists_vec hq δ
    refine ⟨y, ?_, hy⟩
    rw [← cost_rearranged hr.same, cost_congr hq Λ hy, cost_rearranged hr.same]
  refine ⟨s, rfl, ⟨hg.unwritten, fun hf δ hδ => ?_, fun hf hi δ hδ => ?_, fun he hi hk => ?_⟩⟩
  · obtain ⟨y, hy1, hy2⟩ := hvec δ
    have := hg.best hf y (agree_behind hq hcols hδ fun b hb => hy2 b (hdrop b hb))
    rw [hcost, hcost, hy1] at this
    exact this
  · obtain ⟨y, hy1, hy2⟩ := hvec δ
    have := hg.descends hf (hi.imp id fun h => oneF_structure hq fun r' hr' => h r' (hr.same.residuals.mem_iff.1 hr')) y
      (agree_behind (x := fun _ => 0) (δ := fun _ _ => 0) hq hcols (fun _ _ _ _ => rfl) fun b hb c hc =>
        (hy2 b (hdrop b hb) c hc).trans (hδ b hb c hc))
    rw [hcost, hcost, hy1] at this
    exact this
  · rcases hg.solves (by rw [fCols_structure]; exact he) hi hk with ⟨h3, h4⟩ | h
    · exact .inl ⟨h3, (minimises_iff hp hr.same hcall s.x).1 h4⟩
    · exact .inr h

/-! ## CGNR -/

/-- **C91, CGNR**, after any history of calls.  With SUBSET the rows of the preconditioner are those of the residual
blocks the user has chosen (`Ready.subset`). -/
theorem cgnr_step {W : World B R V} {p : Program B R} (hp : Reduced W p) {bottom : R → Bool} {subset : Bool}
    {r : Prepared B R V} (hr : Ready W p (.cgnr subset) bottom r) {c : SparseChol}
    {llt : (n : ℕ) → Matrix (Fin n) (Fin n) ℝ → Matrix (Fin n) (Fin n) ℝ}
    {threads : ℕ} (ht : 0 < threads) (o : CG.Options) {prec : Cgnr.Prec}
    (hprec : ∀ start, prec = .subset start → subset = true ∧ start = r.startRowBlock) {calls : List Call}
    (hcalls : ∀ call ∈ calls, ∃ Λ : Linearised B R, Λ.Damped ∧ IsCall W r.program r.numEliminate Λ call)
    {S : Cgnr.State c} (hS : Cgnr.After c llt prec threads calls S) {Λ : Linearised B R}
    (hd : Λ.Damped) {call : Call} (hcall : IsCall W r.program r.numEliminate Λ call) :
    (∃ out, Cgnr.Solve llt o prec threads S call out) ∧
    ∀ out, Cgnr.Solve llt o prec threads S call out → ∃ s, out = some s ∧
      Λ.cost W p (stepOf W r.program s.x) ≤ Λ.cost W p (fun _ _ => 0) ∧
      (PartitionedView.LltOk llt → c.Correct → SchurJacobi.Exact o ((p.blocks.map W.tangentSize).sum) →
        s.termination = .success ∧ ∀ δ, Λ.cost W p (stepOf W r.program s.x) ≤ Λ.cost W p δ) := by
  have hq := hp.rearranged hr.same
  have hfits : ∀ (Λ : Linearised B R) (call : Call), Λ.Damped → IsCall W r.program r.numEliminate Λ call →
      Cgnr.Fits prec (structureOf (r.program.toEval W) r.numEliminate) true call := by
    intro Λ call hd hcall
    obtain ⟨hok, hbs, -, -⟩ := call_dims hq hcall
    obtain ⟨D, hD, -⟩ := hd.call hq hcall
    refine ⟨hok, hbs, structureOf_sorted _ (toEval_ok hq), fun start hs => ?_⟩
    obtain ⟨h1, rfl⟩ := hprec start hs
    subst h1
    refine ⟨?_, call_nnz hq hcall, by rw [hD]; rfl⟩
    rw [structureOf_rows, List.length_map, List.length_zipIdx, toEval_residuals, List.length_map]
    exact (hr.subset rfl).1
  obtain ⟨h1, h2⟩ := Cgnr.cgnr_solves (llt := llt) ht o (fun call h => by
    obtain ⟨Λ', hd', hc'⟩ := hcalls call h
    exact hfits Λ' call hd' hc') hS (hfits Λ call hd hcall)
  refine ⟨h1, fun out hout => ?_⟩
  obtain ⟨s, rfl, hg⟩ := h2 out hout
  obtain ⟨-, -, -, hcols⟩ := call_dims hq hcall
  obtain ⟨D, hD, hD'⟩ := hd.call hq hcall
  refine ⟨s, rfl, ?_, fun hl hc he => ?_⟩
  · have := hg.descends
    rw [lsq_eq hq hcall, lsq_eq hq hcall, cost_rearranged hr.same, cost_rearranged hr.same] at this
    exact this
  · have hsolv : Cgnr.Solvable prec call.A call.D := by
      rw [hD]
      cases prec <;> exact regular_damped hD'
    obtain ⟨h3, h4⟩ := hg.solves hl hc hsolv (by
      rw [hcols, (hr.same.blocks.map W.tangentSize).sum_eq]
      exact he)
    exact ⟨h3, (minimises_iff hp hr.same hcall s.x).1 h4⟩

end Ceres.Reorder
