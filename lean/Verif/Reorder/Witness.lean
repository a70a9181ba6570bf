import Verif.Reorder.Step
import Verif.Program.Reduce

/-!
# C91: concrete cases, and what goes wrong
-/
namespace Ceres.Reorder

open Ceres.Graph Ceres.BlockSparse Ceres.InnerProduct Ceres.Direct

/-! ## Programs come out of the removal of the fixed blocks -/

/-- What C05 leaves of a problem is a reduced program, if anything is left. -/
theorem reduced_of_removeFixedBlocks {X C V : Type} [AddCommMonoid C] (isConst : ℕ → Bool) (x : ℕ → X)
    (p : Ceres.Program.Prog X C) (red : Ceres.Program.Reduced X C)
    (h : Ceres.Program.removeFixedBlocks isConst x p = .ok red)
    (hnd : p.pblocks.Nodup) (hwf : ∀ r ∈ p.rblocks, ∀ b ∈ r.params, b ∈ p.pblocks)
    (hargs : ∀ r ∈ p.rblocks, r.params.Nodup) (hleft : red.prog.pblocks ≠ [])
    (numResiduals : Ceres.Program.RB X C → ℕ) (hnum : ∀ r ∈ p.rblocks, 0 < numResiduals r)
    (tangentSize : ℕ → ℕ) (hsize : ∀ b, isConst b = false → 0 < tangentSize b) (user : ℕ → V) :
    Reduced (⟨fun r => r.params, numResiduals, isConst, tangentSize, user⟩ : World ℕ (Ceres.Program.RB X C) V)
      (⟨red.prog.pblocks, red.prog.rblocks, fun _ => none⟩ : Program ℕ (Ceres.Program.RB X C)).setIndex := by
  obtain ⟨⟨sr, hsr, hr⟩, ⟨sb, hsb, hb, -⟩, -⟩ := Ceres.Program.removeFixedBlocks_preserves isConst x p red h
  have hbnd : red.prog.pblocks.Nodup := by rw [hb]; exact hnd.filter _
  have hmem : ∀ b, b ∈ red.prog.pblocks ↔ b ∈ p.pblocks ∧ Ceres.Program.Used isConst p.rblocks b := by
    intro b; rw [hb, List.mem_filter, hsb]
  have hmemr : ∀ r, r ∈ red.prog.rblocks ↔ r ∈ p.rblocks ∧ Ceres.Program.Depends isConst r := by
    intro r; rw [hr, List.mem_filter, hsr]
  refine ⟨hleft, hbnd, setIndex_indexed _ hbnd, ?_, ?_, ?_, ?_, ?_, ?_, ?_⟩
  · intro b hb'; exact ((hmem b).1 hb').2.1
  · intro b hb'
    obtain ⟨-, hc, r, hr', hbr⟩ := (hmem b).1 hb'
    exact ⟨r, (hmemr r).2 ⟨hr', b, hbr, hc⟩, hbr⟩
  · intro r hr'; exact hargs r ((hmemr r).1 hr').1
  · intro r hr' b hb' hc
    have := ((hmemr r).1 hr').1
    exact (hmem b).2 ⟨hwf r this b hb', hc, r, this, hb'⟩
  · intro r hr'
    obtain ⟨b, hb', hc⟩ := ((hmemr r).1 hr').2
    exact ⟨b, hb', hc⟩
  · intro b hb'; exact hsize b ((hmem b).1 hb').2.1
  · intro r hr'; exact hnum r ((hmemr r).1 hr').1

/-! ## A library -/

/-- A stable sort. -/
def sortByDegree (g : Graph.Graph ℕ) (l : List ℕ) : List ℕ := l.insertionSort fun a b => g.degree a ≤ g.degree b

theorem sortByDegree_stable (g : Graph.Graph ℕ) (l : List ℕ) : g.StablySorted l (sortByDegree g l) := by
  have : Std.Total fun a b => g.degree a ≤ g.degree b := ⟨fun a b => Nat.le_total _ _⟩
  have : IsTrans ℕ fun a b => g.degree a ≤ g.degree b := ⟨fun a b c => Nat.le_trans⟩
  refine ⟨List.perm_insertionSort _ _, ?_, fun d => ?_⟩
  · refine (List.pairwise_insertionSort (fun a b => g.degree a ≤ g.degree b) l).imp fun {a b} h => ?_
    unfold Graph.Graph.degreeLess
    omega
  · have h1 : (l.filter fun v => decide (g.degree v = d)).Sublist (sortByDegree g l) := by
      refine List.sublist_insertionSort ?_ List.filter_sublist
      rw [List.pairwise_filter]
      refine List.pairwise_of_forall fun a b ha hb => ?_
      simp only [decide_eq_true_eq] at ha hb
      omega
    have h2 := h1.filter fun v => decide (g.degree v = d)
    rw [List.filter_filter] at h2
    simp only [Bool.and_self] at h2
    refine (h2.eq_of_length ?_).symm
    exact (((List.perm_insertionSort (fun a b => g.degree a ≤ g.degree b) l).filter _).length_eq).symm

/-- A library that returns permutations. -/
def goodLib : Library ℕ ℕ where
  suiteSparse := true
  nestedDissection := true
  eigenSparse := true
  cholmodOrder := fun _ t => some (List.range t.numRows).reverse
  camd := fun t c => some ((List.range t.numRows).insertionSort fun i j => c.getD i 0 ≤ c.getD j 0)
  eigenOrder := fun _ M => List.range M.size
  stableSort := sortByDegree
  partition := fun f l => l.filter f ++ l.filter fun r => !f r

theorem goodLib_ok : goodLib.Ok where
  cholmod := fun _ t => ⟨_, rfl, List.reverse_perm _⟩
  camd := fun t c _ _ => by
    have : Std.Total fun i j => c.getD i 0 ≤ c.getD j 0 := ⟨fun a b => Nat.le_total _ _⟩
    have : IsTrans ℕ fun i j => c.getD i 0 ≤ c.getD j 0 := ⟨fun a b c => Nat.le_trans⟩
    exact ⟨_, rfl, List.perm_insertionSort _ _, List.pairwise_insertionSort _ _⟩
  eigen := fun _ _ => List.Perm.refl _
  stableSort := sortByDegree_stable
  partition := fun f l => ⟨List.filter_append_perm f l, l.filter f, l.filter fun r => !f r, rfl,
    fun r hr => (List.mem_filter.1 hr).2, fun r hr => by simpa using (List.mem_filter.1 hr).2⟩

/-! ## A problem: two points, two cameras and a constant block -/

/-- Blocks 0 and 1 are cameras, 2 and 3 points, 9 is constant. -/
def scene : World ℕ ℕ ℕ where
  args := fun r => [[0, 3], [1, 2, 9], [0, 1], [0, 2], [1, 3]].getD r []
  numResiduals := fun r => if r = 2 then 1 else 2
  isConst := fun b => b == 9
  tangentSize := fun b => if b < 2 then 6 else 3
  user := fun b => 100 + b

def sceneProgram : Program ℕ ℕ := (⟨[0, 1, 2, 3], [0, 1, 2, 3, 4], fun _ => none⟩ : Program ℕ ℕ).setIndex

theorem scene_injective : Function.Injective scene.user := fun a b h => by
  have : 100 + a = 100 + b := h
  omega

theorem scene_reduced : Reduced scene sceneProgram where
  nonempty := by decide
  nodup := by decide
  indexed := setIndex_indexed _ (by decide)
  isVar := by decide
  used := by decide
  argsNodup := by decide
  closed := by decide
  depends := by decide
  sizes := by decide
  residualSizes := by decide

/-- The points are eliminated first. -/
def sceneGroups : Groups ℕ := ((((Groups.empty.add 102 0).1.add 103 0).1.add 100 1).1.add 101 1).1

theorem sceneGroups_wf : sceneGroups.WF :=
  (groups_add_spec _ (groups_add_spec _ (groups_add_spec _ (groups_add_spec _ groups_empty_wf _ _).1 _ _).1 _ _).1 _ _).1

theorem sceneGroups_usable : Usable scene (fun v => 100 ≤ v && v < 104) sceneGroups sceneProgram := by
  refine ⟨by decide, fun _ => ⟨?_, by decide, ?_⟩⟩
  · intro v hv
    have := mem_keys.2 hv
    have hk : sceneGroups.elementToGroup.map Prod.fst = [102, 103, 100, 101] := by decide
    rw [hk] at this
    fin_cases this <;> decide
  · intro g hg
    have : g = 0 := by
      have : sceneGroups.minNonZeroGroup = some 0 := by decide
      rw [this] at hg
      exact (Option.some.inj hg).symm
    subst this
    unfold IndependentGroup
    decide

/-- All of the hypotheses hold for a problem that is not trivial, and the points come first. -/
theorem scene_prepared : ∃ r, reorderProgram scene goodLib (fun v => 100 ≤ v && v < 104) (.schur true) .SUITE_SPARSE .AMD
    (fun _ => false) (some sceneGroups) sceneProgram = .ok r ∧ Ready scene sceneProgram (.schur true) (fun _ => false) r := by
  rcases reorderProgram_spec scene_injective goodLib_ok (fun v => 100 ≤ v && v < 104) (.schur true) .SUITE_SPARSE .AMD
    (by simp [Solver.factorises]) (fun _ => false) scene_reduced (some sceneGroups) (by
      intro G hG
      obtain rfl : sceneGroups = G := Option.some.inj hG
      exact ⟨sceneGroups_wf, fun h => absurd h (by decide)⟩) with ⟨-, h⟩ | ⟨⟨G, hG, h⟩, -⟩
  · exact h
  · obtain rfl : sceneGroups = G := Option.some.inj hG
    exact (h sceneGroups_usable).elim

/-- What comes out with the default ordering: the points, found to be independent, and then the cameras; the residual
block that depends on no point comes last. -/
example : (match reorderProgram scene goodLib (fun _ => true) (.schur false) .EIGEN_SPARSE .AMD (fun _ => false) none
    sceneProgram with
    | .ok r => some (r.program.blocks, r.program.residuals, r.numEliminate)
    | _ => none) = some ([2, 3, 0, 1], [3, 1, 4, 0, 2], 2) := by decide +kernel

/-- SUBSET: residual blocks 1 and 3 are for the preconditioner. -/
example : (match reorderProgram scene goodLib (fun _ => true) (.cgnr true) .SUITE_SPARSE .AMD (fun r => r == 1 || r == 3)
    none sceneProgram with
    | .ok r => some (r.program.blocks, r.program.residuals, r.startRowBlock)
    | _ => none) = some ([3, 2, 1, 0], [0, 2, 4, 1, 3], 3) := by decide +kernel

/-! ## Calls of the linear solver exist -/

theorem exists_flat {α : Type} (sz : α → ℕ) (g : α → ℕ → ℝ) (l : List α) : ∃ x : ℕ → ℝ, ∀ (i : ℕ) (a : α),
    l[i]? = some a → ∀ c < sz a, x (((l.take i).map sz).sum + c) = g a c := by
  induction l with
  | nil => exact ⟨fun _ => 0, by simp⟩
  | cons a l ih =>
    obtain ⟨x, hx⟩ := ih
    refine ⟨fun k => if k < sz a then g a k else x (k - sz a), ?_⟩
    intro i b hb c hc
    cases i with
    | zero =>
      simp only [List.getElem?_cons_zero, Option.some.injEq] at hb
      subst hb
      simp [hc]
    | succ i =>
      rw [List.take_succ_cons, List.map_cons, List.sum_cons]
      beta_reduce
      rw [if_neg (by omega), ← hx i b (by simpa using hb) c hc]
      congr 1
      omega

/-- Every linearisation of a reduced program gives a call. -/
theorem exists_call {B R V : Type} [DecidableEq B] [DecidableEq V] {W : World B R V} {q : Program B R} (hq : Reduced W q)
    (ne : ℕ) (Λ : Linearised B R) : ∃ call, IsCall W q ne Λ call := by
  obtain ⟨b, hb⟩ := exists_flat W.numResiduals Λ.rhs q.residuals
  let jac : ℕ → ℕ → ℕ → ℝ := fun i j m =>
    match q.residuals[i]? with
    | none => 0
    | some r => match (W.args r)[j]? with
      | none => 0
      | some b => Λ.der r b (m / W.tangentSize b) (m % W.tangentSize b)
  have hjac : ∀ (i : ℕ) (r : R) (j : ℕ) (b : B), q.residuals[i]? = some r → (W.args r)[j]? = some b →
      ∀ k < W.numResiduals r, ∀ c < W.tangentSize b, jac i j (k * W.tangentSize b + c) = Λ.der r b k c := by
    intro i r j b hr hb k _ c hc
    simp only [jac, hr, hb]
    rw [show (k * W.tangentSize b + c) / W.tangentSize b = k by
        rw [mul_comm, Nat.mul_add_div (by omega), Nat.div_eq_of_lt hc, add_zero],
      show (k * W.tangentSize b + c) % W.tangentSize b = c by
        rw [mul_comm, Nat.mul_add_mod, Nat.mod_eq_of_lt hc]]
  have hjacobian : ∀ (b : Vec) (D : Option Vec), ∃ (jac : ℕ → ℕ → ℕ → ℝ) (init : ℕ → ℝ) (ws : List (ℕ × ℝ)),
      (∀ (i : ℕ) (r : R) (j : ℕ) (b : B), q.residuals[i]? = some r → (W.args r)[j]? = some b → ∀ k < W.numResiduals r,
        ∀ c < W.tangentSize b, jac i j (k * W.tangentSize b + c) = Λ.der r b k c) ∧
      ws.Perm (Evaluator.allBlockStores (q.toEval W) ne jac) ∧
      createJacobian W ne q (Evaluator.exec ws init) = some (BMat.ofStructure (structureOf (q.toEval W) ne)
        (Evaluator.exec (Evaluator.allBlockStores (q.toEval W) ne jac) fun _ => 0)) :=
    fun _ _ => ⟨jac, fun _ => 0, _, hjac, List.Perm.refl _, createJacobian_made hq ne _⟩
  have hA := createJacobian_made hq ne (Evaluator.exec (Evaluator.allBlockStores (q.toEval W) ne jac) fun _ => 0)
  cases hd : Λ.diag with
  | none =>
    refine ⟨⟨_, b, none⟩, ⟨jac, fun _ => 0, _, hjac, List.Perm.refl _, hA⟩, hb, ?_⟩
    rw [hd]
    trivial
  | some d =>
    obtain ⟨D, hD⟩ := exists_flat W.tangentSize d q.blocks
    refine ⟨⟨_, b, some D⟩, ⟨jac, fun _ => 0, _, hjac, List.Perm.refl _, hA⟩, hb, ?_⟩
    rw [hd]
    exact hD

/-! ## What goes wrong -/

theorem permuted_zeros {B : Type} {l : List B} {b : B} (h : l[0]? = some b) (n : ℕ) :
    permuted l (List.replicate n 0) = some (List.replicate n b) := by
  unfold permuted
  refine mapM_of_map ?_
  rw [List.map_replicate, List.map_replicate, h]

/-- **The result of the library is not checked.**  If CHOLMOD fails, then `ordering` has the zeros it was created with,
and the program gets as many copies of its first parameter block as it had parameter blocks.  No error is reported. -/
theorem failed_library_loses_blocks {B R V : Type} [DecidableEq B] [DecidableEq V] {W : World B R V} {L : Library B R}
    (hs : L.suiteSparse = true) (hf : ∀ t, L.cholmodOrder .AMD t = none) {G : Groups V} (hG : G.numGroups ≤ 1)
    (start : ℕ) {p : Program B R} (hp : Reduced W p) (hlen : G.numElements = p.blocks.length) (h2 : 2 ≤ p.blocks.length) :
    ∃ q b, reorderCholesky W L .SUITE_SPARSE .AMD G start p = .ok q ∧ q.blocks = List.replicate p.blocks.length b ∧
      ¬ Rearranged p q := by
  obtain ⟨t, ht, -⟩ := sparsity_exact W p start (args_indexed hp (List.Perm.refl _) (List.Perm.refl _) hp.indexed)
  have h0 : p.blocks[0]? = some (p.blocks[0]'(by omega)) := List.getElem?_eq_getElem _
  refine ⟨({ p with blocks := List.replicate p.blocks.length p.blocks[0] } : Program B R).setIndex, p.blocks[0], ?_, rfl, ?_⟩
  · unfold reorderCholesky
    rw [if_neg (by omega), ht]
    simp only [Option.bind_eq_bind, Option.bind_some]
    unfold orderingSuiteSparse
    simp only [hs, Bool.not_true, Bool.false_eq_true, if_false, hG, if_true, hf, Option.getD_none, Option.bind_some]
    rw [permuted_zeros h0]
    rfl
  · intro h
    have hnd := h.blocks.nodup_iff.2 hp.nodup
    change (List.replicate p.blocks.length p.blocks[0]).Nodup at hnd
    rw [List.nodup_replicate] at hnd
    omega

/-- An ordering with one group that has element 107, which is no block of the problem, instead of 102. -/
def foreignGroups : Groups ℕ := ((((Groups.empty.add 107 0).1.add 103 0).1.add 100 0).1.add 101 0).1

theorem foreignGroups_wf : foreignGroups.WF :=
  (groups_add_spec _ (groups_add_spec _ (groups_add_spec _ (groups_add_spec _ groups_empty_wf _ _).1 _ _).1 _ _).1 _ _).1

/-- **An ordering with one group is not checked.**  It must have as many elements as the program has blocks, but they
need not be these blocks.  Element 107 stays in group 0, so that the first elimination group is counted one too large:
block 0 is eliminated together with block 3, although residual block 0 depends on both. -/
theorem foreign_element_accepted : foreignGroups.numElements = sceneProgram.blocks.length ∧
    foreignGroups.numGroups = 1 ∧
    (match reorderProgram scene goodLib (fun v => 100 ≤ v && v < 104) (.schur false) .SUITE_SPARSE .AMD (fun _ => false)
      (some foreignGroups) sceneProgram with
    | .ok r => decide (0 ∈ r.program.residuals ∧ 0 ∈ scene.args 0 ∧ 3 ∈ scene.args 0 ∧
        0 ∈ r.program.blocks.take r.numEliminate ∧ 3 ∈ r.program.blocks.take r.numEliminate)
    | _ => false) = true :=
  ⟨by decide, by decide, by decide +kernel⟩

/-- The same problem, but the third residual block depends on one camera only. -/
def scene2 : World ℕ ℕ ℕ := { scene with args := fun r => [[0, 3], [1, 2, 9], [0], [0, 2], [1, 3]].getD r [] }

/-- In another problem the same ordering makes a `CHECK` fail. -/
theorem foreign_element_aborts :
    (match reorderProgram scene2 goodLib (fun v => 100 ≤ v && v < 104) (.schur false) .SUITE_SPARSE .AMD (fun _ => false)
      (some foreignGroups) sceneProgram with
    | .aborted => true
    | _ => false) = true := by decide +kernel

end Ceres.Reorder
