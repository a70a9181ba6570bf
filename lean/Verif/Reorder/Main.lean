import Verif.Reorder.Lex

/-!
# C91: preparing a program for its linear solver
-/
namespace Ceres.Reorder

open Ceres.Graph Ceres.BlockSparse Ceres.InnerProduct

variable {B R V : Type} [DecidableEq B] [DecidableEq V]

theorem Front.rearranged {W : World B R V} {p q : Program B R} {G : Groups V} {g ne : ℕ} (h : Front W p q G g ne) :
    Rearranged p q := ⟨h.blocks, List.Perm.of_eq h.residuals, h.indexed⟩

theorem Front.frontal {W : World B R V} {p q : Program B R} (hp : Reduced W p) {G : Groups V} {g ne : ℕ}
    (h : Front W p q G g ne) : Frontal W q ne where
  reduced := hp.rearranged h.rearranged
  pos := h.pos
  le := h.le
  independent := fun r hr a ha b hb hta htb => by
    have hma := List.mem_of_mem_take hta
    have hmb := List.mem_of_mem_take htb
    exact h.independent r (h.residuals ▸ hr) a ha b hb ((h.take a hma).1 hta) ((h.take b hmb).1 htb)

theorem lex_ready {W : World B R V} {p q : Program B R} (hp : Reduced W p) {G : Groups V} {g ne : ℕ}
    (h : Front W p q G g ne) :
    ∃ q', lexOrder W ne q = some q' ∧ SchurReady W p q' G ne ∧
      ∀ (K : Type) (values : ℕ → K), ∃ J, SchurJacobian W q' ne values J := by
  have hf := h.frontal hp
  obtain ⟨rs, hlex, hperm, hsort⟩ := lexOrder_spec hf
  have hre : Rearranged q { q with residuals := rs } := ⟨List.Perm.refl _, hperm, h.indexed⟩
  have hf' : Frontal W { q with residuals := rs } ne :=
    ⟨hf.reduced.rearranged hre, h.pos, h.le, fun r hr => hf.independent r (hperm.mem_iff.1 hr)⟩
  refine ⟨_, hlex, ⟨⟨h.blocks, ?_, h.indexed⟩, ⟨g, h.min, h.size, h.take⟩, h.pos, h.le, hf'.independent⟩, ?_⟩
  · exact hperm.trans (List.Perm.of_eq h.residuals)
  · intro K values
    exact schurJacobian hf' hsort values

/-- **C91.**  For every problem, every ordering, every kind of sparse library and every result of the
library: if the ordering can be used, then the program is rearranged such that the first elimination
group is in front, no residual block depends on two blocks of it, and the Jacobian that is then made
for it has all that the Schur complement solvers need; if it cannot be used, the preparation fails.
It never ends in a failed `CHECK` or an access out of bounds.  An ordering with several groups is
left as it is. -/
theorem reorderSchur_spec {W : World B R V} (hinj : Function.Injective W.user) {L : Library B R} (hL : L.Ok)
    (known : V → Bool) (sparse : Bool) (lib : SparseLib) (ot : OrderType) {p : Program B R} (hp : Reduced W p)
    {G : Groups V} (hG : G.WF)
    (hone : G.numGroups = 1 → ∀ v, 0 ≤ G.groupId v → ∃ b ∈ p.blocks, W.user b = v) :
    (Usable W known G p ∧ ∃ q G' ne, reorderSchur W L known sparse lib ot G p = .ok (q, G', ne) ∧
      SchurReady W p q G' ne ∧ (G.numGroups ≠ 1 → G' = G) ∧
      ∀ (K : Type) (values : ℕ → K), ∃ J, SchurJacobian W q ne values J) ∨
    (¬ Usable W known G p ∧ reorderSchur W L known sparse lib ot G p = .failed) := by
  unfold reorderSchur
  rcases schurBlocks_spec hinj hL known hp hG hone with ⟨hu, q, G', hok, hst, hsame⟩ | ⟨hu, hf⟩
  · refine Or.inl ⟨hu, ?_⟩
    rw [hok]
    obtain ⟨g, ne, hne, hfront⟩ := hst.front hinj hp
    have key : ∃ q', schurColumns W L sparse lib ot G' ne q = some q' ∧ Front W p q' G' g ne := by
      unfold schurColumns
      cases sparse with
      | false => exact ⟨q, rfl, hfront⟩
      | true =>
        rw [if_pos rfl]
        by_cases h1 : lib = .SUITE_SPARSE ∧ ot = .AMD
        · rw [if_pos h1]
          obtain ⟨q', hq', hst'⟩ := schurColumnsSuiteSparse_spec hinj hL hp hst
          obtain ⟨g', ne', hne', hfront'⟩ := hst'.front hinj hp
          rw [hne] at hne'
          cases hne'
          have hg := hfront'.min
          rw [hfront.min] at hg
          cases hg
          exact ⟨q', hq', hfront'⟩
        · rw [if_neg h1]
          by_cases h2 : lib = .EIGEN_SPARSE
          · rw [if_pos h2]
            exact schurColumnsEigen_spec hL ot hp hfront
          · rw [if_neg h2]
            exact ⟨q, rfl, hfront⟩
    obtain ⟨q', hq', hfront'⟩ := key
    obtain ⟨q'', hlex, hready, hjac⟩ := lex_ready hp hfront'
    refine ⟨q'', G', ne, ?_, hready, hsame, hjac⟩
    dsimp only
    rw [hne]
    simp only [Option.bind_eq_bind, Option.bind_some, hq', hlex]
    rfl
  · refine Or.inr ⟨hu, ?_⟩
    rw [hf]

/-! ## Sparse Cholesky factorisations -/

/-- The libraries that can be used for a sparse factorisation: `Solver::Options::IsValid` (C43)
accepts no other. -/
def Available (L : Library B R) (lib : SparseLib) (ot : OrderType) : Prop :=
  match lib with
  | .SUITE_SPARSE => L.suiteSparse = true ∧ (ot = .NESDIS → L.nestedDissection = true)
  | .EIGEN_SPARSE => L.eigenSparse = true
  | .ACCELERATE_SPARSE | .CUDA_SPARSE => True
  | .NO_SPARSE => False

/-- The columns are permuted, the residual blocks stay where they are. -/
theorem reorderCholesky_spec {W : World B R V} {L : Library B R} (hL : L.Ok) {lib : SparseLib} {ot : OrderType}
    (hlib : Available L lib ot) (G : Groups V) (start : ℕ) {p : Program B R} (hp : Reduced W p) :
    (G.numElements = p.blocks.length ∧ ∃ q, reorderCholesky W L lib ot G start p = .ok q ∧ Rearranged p q ∧
      q.residuals = p.residuals) ∨
    (G.numElements ≠ p.blocks.length ∧ reorderCholesky W L lib ot G start p = .failed) := by
  unfold reorderCholesky
  by_cases hlen : G.numElements ≠ p.blocks.length
  · rw [if_pos hlen]
    exact Or.inr ⟨hlen, rfl⟩
  rw [if_neg hlen]
  refine Or.inl ⟨not_not.1 hlen, ?_⟩
  obtain ⟨t, ht, -, -, hrows, -⟩ := sparsity_exact W p start
    (args_indexed hp (List.Perm.refl _) (List.Perm.refl _) hp.indexed)
  rw [ht]
  simp only [Option.bind_eq_bind, Option.bind_some]
  have happly : ∀ o : List ℕ, o.Perm (List.range p.blocks.length) →
      ∃ q, ((permuted p.blocks o).map fun new => ({ p with blocks := new } : Program B R).setIndex) = some q ∧
        Rearranged p q ∧ q.residuals = p.residuals := by
    intro o ho
    obtain ⟨new, hnew, hperm, -⟩ := permuted_perm ho
    refine ⟨({ p with blocks := new } : Program B R).setIndex, by rw [hnew]; rfl, ⟨hperm, List.Perm.refl _, ?_⟩, rfl⟩
    exact setIndex_indexed _ (hperm.nodup_iff.2 hp.nodup)
  have hself : Rearranged p p := ⟨List.Perm.refl _, List.Perm.refl _, hp.indexed⟩
  cases lib with
  | SUITE_SPARSE =>
    obtain ⟨hs, hn⟩ := hlib
    have hord : ∃ o, orderingSuiteSparse W L ot G p.blocks t = some o ∧ o.Perm (List.range p.blocks.length) := by
      unfold orderingSuiteSparse
      rw [hs]
      cases ot with
      | AMD =>
        by_cases hg : G.numGroups ≤ 1
        · obtain ⟨l, hl, hperm⟩ := hL.cholmod .AMD t
          exact ⟨l, by simp [hg, hl], by rw [← hrows]; exact hperm⟩
        · obtain ⟨c1, c2, -⟩ := constraintsOf_ok W G p.blocks
          obtain ⟨l, hl, hperm, -⟩ := hL.camd t (constraintsOf W G p.blocks) (by rw [c1, hrows]) (by rw [hrows]; exact c2)
          exact ⟨l, by simp [hg, hl], by rw [← hrows]; exact hperm⟩
      | NESDIS =>
        obtain ⟨l, hl, hperm⟩ := hL.cholmod .NESDIS t
        exact ⟨l, by simp [hn rfl, hl], by rw [← hrows]; exact hperm⟩
    obtain ⟨o, ho, hperm⟩ := hord
    obtain ⟨q, hq, hr⟩ := happly o hperm
    refine ⟨q, ?_, hr⟩
    dsimp only
    rw [ho, Option.bind_some, hq]; rfl
  | EIGEN_SPARSE =>
    have hsize : (blockHessian t).size = p.blocks.length := by rw [← hrows]; rfl
    obtain ⟨q, hq, hr⟩ := happly _ (hsize ▸ hL.eigen ot (blockHessian t))
    refine ⟨q, ?_, hr⟩
    dsimp only
    have hlib' : L.eigenSparse = true := hlib
    rw [if_pos hlib', hq]; rfl
  | ACCELERATE_SPARSE => exact ⟨p, rfl, hself, rfl⟩
  | CUDA_SPARSE => exact ⟨p, rfl, hself, rfl⟩
  | NO_SPARSE => exact hlib.elim

/-- The residual blocks that were chosen for the SUBSET preconditioner are the ones from the start row
block on. -/
theorem partitionResiduals_spec {L : Library B R} (hL : L.Ok) (bottom : R → Bool) (p : Program B R) :
    (partitionResiduals L bottom p).1.blocks = p.blocks ∧ (partitionResiduals L bottom p).1.index = p.index ∧
    (partitionResiduals L bottom p).1.residuals.Perm p.residuals ∧
    (∀ r ∈ (partitionResiduals L bottom p).1.residuals.take (partitionResiduals L bottom p).2, bottom r = false) ∧
    (∀ r ∈ (partitionResiduals L bottom p).1.residuals.drop (partitionResiduals L bottom p).2, bottom r = true) ∧
    (partitionResiduals L bottom p).2 ≤ p.residuals.length := by
  obtain ⟨hperm, yes, no, heq, hyes, hno⟩ := hL.partition (fun r => !bottom r) p.residuals
  refine ⟨rfl, rfl, hperm, ?_⟩
  have hlen : (partitionResiduals L bottom p).2 = yes.length := by
    have h1 := (hperm.filter fun r => !bottom r).length_eq
    rw [heq, List.filter_append, List.filter_eq_self.2 hyes,
      List.filter_eq_nil_iff.2 fun r hr => by simpa using hno r hr, List.append_nil] at h1
    exact h1.symm
  have hres : (partitionResiduals L bottom p).1.residuals = yes ++ no := heq
  rw [hlen, hres]
  refine ⟨fun r hr => ?_, fun r hr => ?_, ?_⟩
  · rw [List.take_left] at hr
    simpa using hyes r hr
  · rw [List.drop_left] at hr
    simpa using hno r hr
  · rw [← hlen]; exact List.length_filter_le _ _

/-! ## The default ordering -/

theorem addAll (user : B → V) (l : List B) : ∀ (G : Groups V), G.WF →
    (l.foldl (fun G b => (G.add (user b) 0).1) G).WF ∧
    ∀ v, (l.foldl (fun G b => (G.add (user b) 0).1) G).groupId v = if v ∈ l.map user then 0 else G.groupId v := by
  induction l with
  | nil => intro G h; exact ⟨h, by simp⟩
  | cons a l ih =>
    intro G h
    obtain ⟨a1, -, a3⟩ := groups_add_spec G h (user a) 0
    obtain ⟨i1, i2⟩ := ih _ a1
    rw [List.foldl_cons]
    refine ⟨i1, fun v => ?_⟩
    rw [i2, a3]
    by_cases h1 : v ∈ l.map user
    · simp [h1]
    · by_cases h2 : v = user a <;> simp [h1, h2]

/-- The default ordering has one group, with all blocks of the program. -/
theorem defaultOrdering_spec {W : World B R V} (hinj : Function.Injective W.user) {p : Program B R} (hp : Reduced W p) :
    (defaultOrdering W p).WF ∧ (defaultOrdering W p).numElements = p.blocks.length ∧
    (defaultOrdering W p).numGroups = 1 ∧
    ∀ v, 0 ≤ (defaultOrdering W p).groupId v → ∃ b ∈ p.blocks, W.user b = v := by
  obtain ⟨hwf, hid⟩ := addAll W.user p.blocks Groups.empty groups_empty_wf
  change (defaultOrdering W p).WF at hwf
  change ∀ v, (defaultOrdering W p).groupId v = _ at hid
  have hmem : ∀ v, 0 ≤ (defaultOrdering W p).groupId v ↔ v ∈ p.blocks.map W.user := by
    intro v
    rw [hid]
    by_cases h : v ∈ p.blocks.map W.user <;> simp [h, Groups.empty, Groups.groupId]
  have hlen : (defaultOrdering W p).numElements = p.blocks.length := by
    unfold Groups.numElements
    rw [← List.length_map (f := Prod.fst), ← List.length_map (f := W.user) (as := p.blocks)]
    refine List.Perm.length_eq ((List.perm_ext_iff_of_nodup hwf.keys (hp.nodup.map hinj)).2 fun v => ?_)
    rw [mem_keys, hmem]
  have hpos : 0 < p.blocks.length := List.length_pos_of_ne_nil hp.nonempty
  refine ⟨hwf, hlen, ?_, fun v hv => List.mem_map.1 ((hmem v).1 hv)⟩
  obtain ⟨g, E, rest, hcons⟩ := groups_nonempty hwf (by omega)
  have hzero : ∀ x ∈ (defaultOrdering W p).groupToElements, x.1 = 0 := by
    intro x hx
    have hlook := (lookup_iff hwf.sorted x.1 x.2).2 hx
    obtain ⟨e, he⟩ := List.exists_mem_of_ne_nil _ (hwf.sets _ _ hlook).1
    have h1 := (hwf.agree e x.1).1 (by unfold mapGet; rw [hlook]; exact he)
    have h2 := groupId_eq.2 h1
    rw [hid] at h2
    by_cases h : e ∈ p.blocks.map W.user
    · rw [if_pos h] at h2; omega
    · rw [if_neg h] at h2; simp [Groups.empty, Groups.groupId] at h2
  unfold Groups.numGroups
  have hs := hwf.sorted
  rw [hcons] at hzero hs ⊢
  cases rest with
  | nil => rfl
  | cons y rest =>
    have h1 := (List.pairwise_cons.1 hs).1 y (by simp)
    have h2 := hzero y (by simp)
    have h3 := hzero (g, E) (by simp)
    omega

/-! ## All linear solvers -/

/-- What the linear solver can rely on. -/
structure Ready (W : World B R V) (p : Program B R) (solver : Solver) (bottom : R → Bool)
    (r : Prepared B R V) : Prop where
  same : Rearranged p r.program
  /-- the Jacobian can be made, is well formed, and has sorted cells -/
  jacobian : ∀ (K : Type) (values : ℕ → K), ∃ J, createJacobian W r.numEliminate r.program values = some J ∧ J.Ok ∧
    CellsSorted J.bs
  schur : ∀ sparse, solver = .schur sparse → SchurReady W p r.program r.ordering r.numEliminate ∧
    ∀ (K : Type) (values : ℕ → K), ∃ J, SchurJacobian W r.program r.numEliminate values J
  /-- the residual blocks of the SUBSET preconditioner are the last ones -/
  subset : solver = .cgnr true → r.startRowBlock ≤ r.program.residuals.length ∧
    (∀ x ∈ r.program.residuals.take r.startRowBlock, bottom x = false) ∧
    ∀ x ∈ r.program.residuals.drop r.startRowBlock, bottom x = true
  /-- other solvers eliminate nothing -/
  others : (∀ sparse, solver ≠ .schur sparse) → r.numEliminate = 0

/-- The solvers that reorder for a sparse factorisation. -/
def Solver.factorises : Solver → Bool
  | .sparseNormalCholesky false => true
  | .cgnr true => true
  | _ => false

/-- An ordering that the solver can use. -/
def Solver.Usable (solver : Solver) (W : World B R V) (known : V → Bool) (G : Groups V) (p : Program B R) : Prop :=
  match solver with
  | .schur _ => Reorder.Usable W known G p
  | .sparseNormalCholesky false => G.numElements = p.blocks.length
  | .cgnr true => G.numElements = p.blocks.length
  | _ => True

theorem jacobian_of_reduced {W : World B R V} {q : Program B R} (hq : Reduced W q) (ne : ℕ) (K : Type) (values : ℕ → K) :
    ∃ J, createJacobian W ne q values = some J ∧ J.Ok ∧ CellsSorted J.bs :=
  ⟨_, createJacobian_made hq ne values, structureOf_ok ne (toEval_ok hq) values, structureOf_sorted ne (toEval_ok hq)⟩

/-- **C91.**  For every problem, linear solver, library and ordering: preparing the program either
gives a program that is the same up to the order and is what the solver needs, or fails, and it fails
only if the ordering that was given cannot be used.  It never aborts. -/
theorem reorderProgram_spec {W : World B R V} (hinj : Function.Injective W.user) {L : Library B R} (hL : L.Ok)
    (known : V → Bool) (solver : Solver) (lib : SparseLib) (ot : OrderType)
    (hlib : solver.factorises = true → Available L lib ot) (bottom : R → Bool) {p : Program B R} (hp : Reduced W p)
    (given : Option (Groups V)) (hG : ∀ G ∈ given, G.WF ∧
      (G.numGroups = 1 → ∀ v, 0 ≤ G.groupId v → ∃ b ∈ p.blocks, W.user b = v)) :
    ((∀ G ∈ given, solver.Usable W known G p) ∧
      ∃ r, reorderProgram W L known solver lib ot bottom given p = .ok r ∧ Ready W p solver bottom r) ∨
    ((∃ G ∈ given, ¬ solver.Usable W known G p) ∧
      reorderProgram W L known solver lib ot bottom given p = .failed) := by
  obtain ⟨G, hgiven, hwf, hone, huse⟩ : ∃ G, given.getD (defaultOrdering W p) = G ∧ G.WF ∧
      (G.numGroups = 1 → ∀ v, 0 ≤ G.groupId v → ∃ b ∈ p.blocks, W.user b = v) ∧
      ((solver.Usable W known G p → ∀ G ∈ given, solver.Usable W known G p) ∧
       (¬ solver.Usable W known G p → ∃ G ∈ given, ¬ solver.Usable W known G p)) := by
    cases given with
    | some G =>
      obtain ⟨h1, h2⟩ := hG G rfl
      exact ⟨G, rfl, h1, h2, by simp, fun h => ⟨G, rfl, h⟩⟩
    | none =>
      obtain ⟨h1, h2, h3, h4⟩ := defaultOrdering_spec hinj hp
      refine ⟨_, rfl, h1, fun _ => h4, by simp, fun h => (h ?_).elim⟩
      unfold Solver.Usable
      split
      · exact ⟨h2, fun h => (h h3).elim⟩
      · exact h2
      · exact h2
      · trivial
  have hself : Rearranged p p := ⟨List.Perm.refl _, List.Perm.refl _, hp.indexed⟩
  have hplain : (∀ s, solver ≠ .schur s) → solver ≠ .cgnr true → Ready W p solver bottom ⟨p, G, 0, 0⟩ := fun h1 h2 =>
    ⟨hself, jacobian_of_reduced hp 0, fun s h => (h1 s h).elim, fun h => (h2 h).elim, fun _ => rfl⟩
  unfold reorderProgram
  rw [hgiven]
  match solver with
  | .schur sparse =>
    rcases reorderSchur_spec hinj hL known sparse lib ot hp hwf hone with ⟨hu, q, G', ne, hq, hr, -, hj⟩ | ⟨hu, hf⟩
    · refine Or.inl ⟨huse.1 hu, ⟨q, G', ne, 0⟩, by dsimp only; rw [hq]; rfl, hr.same,
        jacobian_of_reduced (hp.rearranged hr.same) ne, fun s _ => ⟨hr, hj⟩, by simp, fun h => (h sparse rfl).elim⟩
    · exact Or.inr ⟨huse.2 hu, by dsimp only; rw [hf]; rfl⟩
  | .sparseNormalCholesky false =>
    rcases reorderCholesky_spec hL (hlib rfl) G 0 hp with ⟨hu, q, hq, hr, -⟩ | ⟨hu, hf⟩
    · exact Or.inl ⟨huse.1 hu, ⟨q, G, 0, 0⟩, by dsimp only; rw [hq]; rfl, hr,
        jacobian_of_reduced (hp.rearranged hr) 0, by simp, by simp, fun _ => rfl⟩
    · exact Or.inr ⟨huse.2 hu, by dsimp only; rw [hf]; rfl⟩
  | .cgnr true =>
    obtain ⟨h1, h2, h3, h4, h5, h6⟩ := partitionResiduals_spec hL bottom p
    have hre : Rearranged p (partitionResiduals L bottom p).1 := ⟨List.Perm.of_eq h1, h3, by
      intro b i; rw [h2, h1]; exact hp.indexed b i⟩
    rcases reorderCholesky_spec hL (hlib rfl) G (partitionResiduals L bottom p).2 (hp.rearranged hre) with
      ⟨hu, q, hq, hr, hres⟩ | ⟨hu, hf⟩
    · rw [h1] at hu
      have hre' : Rearranged p q := ⟨hr.blocks.trans hre.blocks, hr.residuals.trans hre.residuals, hr.indexed⟩
      refine Or.inl ⟨huse.1 hu, ⟨q, G, 0, (partitionResiduals L bottom p).2⟩, by dsimp only; rw [hq]; rfl, hre',
        jacobian_of_reduced (hp.rearranged hre') 0, by simp, fun _ => ?_, fun _ => rfl⟩
      show (partitionResiduals L bottom p).2 ≤ q.residuals.length ∧
        (∀ x ∈ q.residuals.take (partitionResiduals L bottom p).2, bottom x = false) ∧
        ∀ x ∈ q.residuals.drop (partitionResiduals L bottom p).2, bottom x = true
      rw [hres]
      exact ⟨by rw [h3.length_eq]; exact h6, h4, h5⟩
    · rw [h1] at hu
      exact Or.inr ⟨huse.2 hu, by dsimp only; rw [hf]; rfl⟩
  | .sparseNormalCholesky true => exact Or.inl ⟨fun _ _ => trivial, _, rfl, hplain (by simp) (by simp)⟩
  | .cgnr false => exact Or.inl ⟨fun _ _ => trivial, _, rfl, hplain (by simp) (by simp)⟩
  | .other => exact Or.inl ⟨fun _ _ => trivial, _, rfl, hplain (by simp) (by simp)⟩

end Ceres.Reorder
