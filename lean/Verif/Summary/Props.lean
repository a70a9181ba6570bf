import Verif.Summary.Spec
import Verif.Reorder.Witness

/-!
# C95: what the summary says is so
-/
namespace Ceres.Summary

open Ceres.Reorder (World Library Prepared Solver SparseLib OrderType Rearranged Ready)
open Ceres.Graph (Groups orderingToGroupSizes)
open Ceres.Detect (Sizes dynamic detectStructure)
open Ceres.Program (RB Prog Used Depends)
open Ceres.BlockSparse

variable {X C V : Type}

/-! ## Counts -/

theorem accumulate_eq {α : Type} (f : α → ℕ) (l : List α) : accumulate f l = (l.map f).sum := by
  unfold accumulate
  rw [← List.foldl_map (f := f) (g := (· + ·)), List.sum_eq_foldl]

theorem countsOf_eq {B R : Type} (W : World B R V) (size : B → ℕ) (bs : List B) (rs : List R) :
    countsOf W size bs rs = ⟨bs.length, (bs.map size).sum, (bs.map W.tangentSize).sum, rs.length,
      (rs.map W.numResiduals).sum⟩ := by
  unfold countsOf
  simp only [accumulate_eq]

theorem countsOf_perm {B R : Type} (W : World B R V) (size : B → ℕ) {bs bs' : List B} {rs rs' : List R}
    (hb : bs.Perm bs') (hr : rs.Perm rs') : countsOf W size bs rs = countsOf W size bs' rs' := by
  rw [countsOf_eq, countsOf_eq]
  congr 1
  · exact hb.length_eq
  · exact (hb.map _).sum_eq
  · exact (hb.map _).sum_eq
  · exact hr.length_eq
  · exact (hr.map _).sum_eq

/-- **C95.**  The numbers of the given problem. -/
theorem report_given (W : World ℕ (RB X C) V) (size : ℕ → ℕ) (solver : Solver) (p : Prog X C) (user : Option (Groups V))
    (r : Preparation V X C) : (report W size solver p user r).given = given W size p := countsOf_eq W size _ _

section Prepared

variable [AddCommMonoid C] [DecidableEq V] {W : World ℕ (RB X C) V} {L : Library ℕ (RB X C)} {x : ℕ → X}
  {known : V → Bool} {solver : Solver} {lib : SparseLib} {ot : OrderType} {bottom : RB X C → Bool}
  {G : Option (Groups V)} {p : Prog X C}

theorem removed_eq {red : Program.Reduced X C} (h : Program.removeFixedBlocks W.isConst x p = .ok red) :
    red.prog.pblocks = optimised W p ∧ red.prog.rblocks = dependent W p := by
  classical
  obtain ⟨⟨sr, hsr, hr⟩, ⟨sb, hsb, hb, -⟩, -⟩ := Program.removeFixedBlocks_preserves W.isConst x p red h
  constructor
  · rw [hb]
    refine List.filter_congr fun b _ => ?_
    rw [Bool.eq_iff_iff, hsb]; simp [Used]
  · rw [hr]
    refine List.filter_congr fun r _ => ?_
    rw [Bool.eq_iff_iff, hsr]; simp [Depends]

/-- The orderings that can be given: valid, and without the removed blocks. -/
def GivenOk (W : World ℕ (RB X C) V) (p : Prog X C) (G : Option (Groups V)) : Prop :=
  ∀ G' ∈ G, G'.WF ∧ (G'.numGroups = 1 → ∀ v, 0 ≤ G'.groupId v → ∃ b ∈ optimised W p, W.user b = v)

theorem prepare_ready (hW : WellFormed W p) (hL : L.Ok) (hlib : solver.factorises = true → Reorder.Available L lib ot)
    (hG : GivenOk W p G) {r : Prepared ℕ (RB X C) V} (h : prepare W L x known solver lib ot bottom G p = .ready r) :
    ∃ q : Reorder.Program ℕ (RB X C), q.blocks = optimised W p ∧ q.residuals = dependent W p ∧ Reorder.Reduced W q ∧
      Ready W q solver bottom r := by
  unfold prepare at h
  cases hred : Program.removeFixedBlocks W.isConst x p with
  | error e => rw [hred] at h; cases h
  | ok red =>
    rw [hred] at h
    simp only at h
    obtain ⟨h1, h2⟩ := removed_eq hred
    split_ifs at h with h0
    have hleft : red.prog.pblocks ≠ [] := fun h => h0 (by rw [h]; rfl)
    have hq := Reorder.reduced_of_removeFixedBlocks W.isConst x p red hred hW.nodup hW.closed hW.argsNodup hleft
      W.numResiduals hW.residuals W.tangentSize hW.sizes W.user
    have hWeq : (⟨fun r => r.params, W.numResiduals, W.isConst, W.tangentSize, W.user⟩ : World ℕ (RB X C) V) = W := by
      have := hW.args
      cases W
      simp only at this
      subst this
      rfl
    rw [hWeq] at hq
    refine ⟨_, h1, h2, hq, ?_⟩
    rcases Reorder.reorderProgram_spec hW.injective hL known solver lib ot hlib bottom hq G (by
      intro G' hG'
      refine ⟨(hG G' hG').1, fun hone v hv => ?_⟩
      obtain ⟨b, hb, hbv⟩ := (hG G' hG').2 hone v hv
      exact ⟨b, by show b ∈ red.prog.pblocks; rw [h1]; exact hb, hbv⟩) with ⟨-, r', hr', hready⟩ | ⟨-, hf⟩
    · rw [hr'] at h
      simp only [Preparation.ready.injEq] at h
      exact h ▸ hready
    · rw [hf] at h; cases h

/-- **C95.**  The numbers of the reduced problem, when the preparation succeeds. -/
theorem report_reduced (size : ℕ → ℕ) (hW : WellFormed W p) (hL : L.Ok)
    (hlib : solver.factorises = true → Reorder.Available L lib ot) (hG : GivenOk W p G) (user : Option (Groups V))
    (h : prepare W L x known solver lib ot bottom G p ≠ .failed) :
    (report W size solver p user (prepare W L x known solver lib ot bottom G p)).reduced = some (reduced W size p) := by
  cases hr : prepare W L x known solver lib ot bottom G p with
  | failed => exact absurd hr h
  | trivial p' =>
    show some (countsOf W size p'.pblocks p'.rblocks) = _
    unfold prepare at hr
    cases hred : Program.removeFixedBlocks W.isConst x p with
    | error e => rw [hred] at hr; cases hr
    | ok red =>
      rw [hred] at hr
      simp only at hr
      obtain ⟨h1, h2⟩ := removed_eq hred
      split_ifs at hr with h0
      · injection hr with hr
        rw [← hr, h1, h2, countsOf_eq]
        rfl
      · split at hr <;> cases hr
  | ready r =>
    obtain ⟨q, hb, hres, hq, hready⟩ := prepare_ready hW hL hlib hG hr
    show some (countsOf W size r.program.blocks r.program.residuals) = _
    rw [countsOf_perm W size hready.same.blocks hready.same.residuals, hb, hres, countsOf_eq]
    rfl

/-- **C95.**  The Jacobian given to the linear solver has `num_residuals_reduced` rows and
`num_effective_parameters_reduced` columns. -/
theorem jacobian_dims (size : ℕ → ℕ) (hW : WellFormed W p) (hL : L.Ok)
    (hlib : solver.factorises = true → Reorder.Available L lib ot) (hG : GivenOk W p G) (user : Option (Groups V))
    {r : Prepared ℕ (RB X C) V} (h : prepare W L x known solver lib ot bottom G p = .ready r) (K : Type) (values : ℕ → K) :
    ∃ (J : BMat K) (c : Counts), Reorder.createJacobian W r.numEliminate r.program values = some J ∧
      (report W size solver p user (.ready r)).reduced = some c ∧
      J.numRows = c.residuals ∧ J.numCols = c.effectiveParameters ∧
      J.bs.rows.length = c.residualBlocks ∧ J.bs.cols.length = c.parameterBlocks := by
  obtain ⟨q, hb, hres, hq, hready⟩ := prepare_ready hW hL hlib hG h
  have hq' := hq.rearranged hready.same
  refine ⟨_, _, Reorder.createJacobian_made hq' _ values, rfl, ?_, ?_, ?_, ?_⟩
  · show ((Reorder.structureOf (r.program.toEval W) _).rows.map fun r => r.block.size).sum = accumulate _ _
    have := congrArg (List.map Block.size) (Reorder.structureOf_blocks (P := r.program.toEval W) r.numEliminate)
    rw [List.map_map, Reorder.laidFrom_sizes, Reorder.toEval_residuals, List.map_map] at this
    rw [accumulate_eq]
    exact congrArg List.sum this
  · show ((Reorder.laidFrom 0 (r.program.toEval W).sizes).map Block.size).sum = accumulate _ _
    rw [Reorder.laidFrom_sizes, accumulate_eq]; rfl
  · have := congrArg List.length (Reorder.structureOf_blocks (P := r.program.toEval W) r.numEliminate)
    rw [List.length_map, Reorder.laidFrom_length, List.length_map, Reorder.toEval_residuals, List.length_map] at this
    exact this
  · show (Reorder.structureOf (r.program.toEval W) _).cols.length = r.program.blocks.length
    rw [Reorder.structureOf_cols_length]
    exact List.length_map _

end Prepared

/-! ## The structure -/

theorem best_eq_create (o : Sizes) : best o = Detect.create o := by
  have key : ∀ l : List Sizes, bestFrom o l = match l.find? (Detect.matchesSpec o) with
      | some t => t
      | none => ⟨dynamic, dynamic, dynamic⟩ := by
    intro l
    induction l with
    | nil => rfl
    | cons t l ih =>
      unfold bestFrom
      by_cases h : applies o t
      · have hm : Detect.matchesSpec o t = true := by
          unfold applies at h; unfold Detect.matchesSpec; simpa [and_assoc] using h
        rw [if_pos h, List.find?_cons_of_pos hm]
      · have hm : ¬ Detect.matchesSpec o t = true := by
          unfold applies at h; unfold Detect.matchesSpec; simpa [and_assoc] using h
        rw [if_neg h, List.find?_cons_of_neg hm, ih]
  exact key bestCases

theorem structureString_eq (s : Sizes) : structureString s = written s := by
  unfold structureString sizeString written
  simp only [List.map_cons, List.map_nil, String.intercalate_cons_cons, String.intercalate_singleton, dynamic,
    String.append_assoc]
  rfl

theorem fLoop_congr {cols cols' : ℕ → ℤ} (cs : List ℕ) (h : ∀ c ∈ cs, cols c = cols' c) (f : ℤ) :
    Detect.fLoop cols cs f = Detect.fLoop cols' cs f := by
  induction cs generalizing f with
  | nil => rfl
  | cons c cs ih =>
    unfold Detect.fLoop
    rw [h c (by simp)]
    split_ifs <;> first | rfl | exact ih (fun c hc => h c (List.mem_cons_of_mem _ hc)) _

theorem loop_congr {cols cols' : ℕ → ℤ} (ne : ℕ) (rows : List Detect.Row) (h : ∀ r ∈ rows, ∀ c ∈ r.cells, cols c = cols' c)
    (s : Sizes) : Detect.loop cols ne rows s = Detect.loop cols' ne rows s := by
  induction rows generalizing s with
  | nil => rfl
  | cons r rs ih =>
    have hr := h r (by simp)
    have hf : Detect.fUpdate cols r.cells s.f = Detect.fUpdate cols' r.cells s.f := by
      unfold Detect.fUpdate
      split
      · next c d cs hcells =>
        rw [hcells] at hr
        simp only
        rw [hr d (by simp)]
        exact fLoop_congr _ (fun c hc => hr c (List.mem_cons_of_mem _ hc)) _
      · rfl
    unfold Detect.loop
    split
    · rfl
    · next e cs hcells =>
      rw [hcells] at hr hf
      have he := hr e (by simp)
      simp only [he, hcells, hf]
      split_ifs <;> first | rfl | exact ih (fun r hr => h r (List.mem_cons_of_mem _ hr)) _

end Ceres.Summary
