import Verif.Reorder.Schur
import Verif.Reorder.Structure

/-!
# C91: the order of the residual blocks and the Jacobian
-/
namespace Ceres.Reorder

open Ceres.Graph Ceres.BlockSparse Ceres.InnerProduct

variable {B R V : Type} [DecidableEq B] [DecidableEq V]

theorem Reduced.rearranged {W : World B R V} {p q : Program B R} (hp : Reduced W p) (h : Rearranged p q) :
    Reduced W q where
  nonempty := fun e => hp.nonempty (by have := h.blocks; rw [e] at this; exact this.nil_eq.symm)
  nodup := h.blocks.nodup_iff.2 hp.nodup
  indexed := h.indexed
  isVar := fun b hb => hp.isVar b (h.blocks.mem_iff.1 hb)
  used := fun b hb => by
    obtain ⟨r, hr, hbr⟩ := hp.used b (h.blocks.mem_iff.1 hb)
    exact ⟨r, h.residuals.mem_iff.2 hr, hbr⟩
  argsNodup := fun r hr => hp.argsNodup r (h.residuals.mem_iff.1 hr)
  closed := fun r hr b hb hc => h.blocks.mem_iff.2 (hp.closed r (h.residuals.mem_iff.1 hr) b hb hc)
  depends := fun r hr => hp.depends r (h.residuals.mem_iff.1 hr)
  sizes := fun b hb => hp.sizes b (h.blocks.mem_iff.1 hb)
  residualSizes := fun r hr => hp.residualSizes r (h.residuals.mem_iff.1 hr)

/-! ## The Jacobian of a program -/

theorem activeFrom_fst (j : ℕ) (l : List (Option ℕ)) : (Evaluator.activeFrom j l).map Prod.fst = l.filterMap id := by
  induction l generalizing j with
  | nil => rfl
  | cons a l ih =>
    cases a with
    | none => rw [Evaluator.activeFrom_none, ih]; rfl
    | some i => rw [Evaluator.activeFrom_some, List.map_cons, ih]; rfl

/-- The residual block as the writers see it. -/
def evalOf (W : World B R V) (q : Program B R) (r : R) : Evaluator.RB :=
  ⟨W.numResiduals r, (W.args r).map fun b => if W.isConst b then none else q.index b⟩

theorem mem_active {W : World B R V} {q : Program B R} {r : R} {i : ℕ} :
    i ∈ (Evaluator.activeArgs (evalOf W q r)).map Prod.fst ↔ ∃ b ∈ W.args r, W.isConst b = false ∧ q.index b = some i := by
  rw [Evaluator.activeArgs_eq, activeFrom_fst]
  unfold evalOf
  simp only [List.filterMap_map, List.mem_filterMap, Function.comp, id]
  constructor
  · rintro ⟨b, hb, h⟩
    by_cases hc : W.isConst b = true
    · rw [if_pos hc] at h; cases h
    · rw [if_neg hc] at h
      exact ⟨b, hb, by simpa using hc, h⟩
  · rintro ⟨b, hb, hc, h⟩
    exact ⟨b, hb, by rw [hc]; exact h⟩

theorem toEval_ok {W : World B R V} {q : Program B R} (hq : Reduced W q) : (q.toEval W).Ok := by
  intro rb hrb
  obtain ⟨r, hr, rfl⟩ := List.mem_map.1 hrb
  change ((Evaluator.activeArgs (evalOf W q r)).map Prod.fst).Nodup ∧
    ∀ p ∈ Evaluator.activeArgs (evalOf W q r), p.1 < (q.toEval W).sizes.length
  constructor
  · rw [Evaluator.activeArgs_eq, activeFrom_fst]
    unfold evalOf
    rw [List.filterMap_map]
    refine List.Nodup.filterMap ?_ (hq.argsNodup r hr)
    intro a a' i h1 h2
    simp only [Function.comp, id, Option.mem_def] at h1 h2
    split at h1
    · cases h1
    split at h2
    · cases h2
    have h1 := (hq.indexed a i).1 h1
    have h2 := (hq.indexed a' i).1 h2
    rw [h1] at h2
    exact Option.some.inj h2
  · intro a ha
    obtain ⟨b, -, -, hb⟩ := mem_active.1 (List.mem_map_of_mem ha)
    obtain ⟨h, -⟩ := List.getElem?_eq_some_iff.1 ((hq.indexed b a.1).1 hb)
    simpa [Program.toEval] using h

/-- For a reduced program the Jacobian is made, and it is in order. -/
theorem createJacobian_made {K : Type} {W : World B R V} {q : Program B R} (hq : Reduced W q) (ne : ℕ) (values : ℕ → K) :
    createJacobian W ne q values = some (BMat.ofStructure (structureOf (q.toEval W) ne) values) := by
  unfold createJacobian
  have hidx : ∀ r ∈ q.residuals, ∀ b ∈ W.args r, (q.index b).isSome = !W.isConst b := by
    intro r hr b hb
    cases hc : W.isConst b with
    | false => exact hq.indexed.isSome.2 (hq.closed r hr b hb hc)
    | true =>
      cases hi : (q.index b).isSome with
      | false => rfl
      | true =>
        have := hq.isVar b (hq.indexed.isSome.1 hi)
        rw [hc] at this; cases this
  rw [if_pos]
  simp only [Bool.and_eq_true, List.all_eq_true, decide_eq_true_eq]
  refine ⟨⟨fun b hb => ?_, fun r hr b hb => ?_⟩, fun r hr => ?_⟩
  · have h1 := hq.indexed.isSome.2 hb
    simp [h1, hq.isVar b hb]
  · rw [hidx r hr b hb]
    cases W.isConst b <;> rfl
  · congr 1
    exact List.filter_congr fun b hb => hidx r hr b hb

theorem toEval_residuals (W : World B R V) (q : Program B R) : (q.toEval W).residuals = q.residuals.map (evalOf W q) := rfl

/-- The columns in which row block `i` has cells. -/
theorem mem_row {W : World B R V} {q : Program B R} (ne i : ℕ) {r : R} {e : ℕ} :
    (∃ c ∈ (rowOf (q.toEval W) ne i (evalOf W q r)).cells, c.blockId = e) ↔
      ∃ b ∈ W.args r, W.isConst b = false ∧ q.index b = some e := by
  rw [← mem_active, ← (rowCells_ids (evalOf W q r) (Evaluator.layoutOf (q.toEval W) ne i)).mem_iff]
  unfold rowOf
  simp only [List.mem_map]
  constructor
  · rintro ⟨c, ⟨a, ha, rfl⟩, rfl⟩; exact ⟨a, ha, rfl⟩
  · rintro ⟨a, ha, rfl⟩; exact ⟨_, ⟨a, ha, rfl⟩, rfl⟩

theorem pairwise_rows {W : World B R V} {q : Program B R} {ne : ℕ} {S : BRow → BRow → Prop} {T : R → R → Prop}
    (h : q.residuals.Pairwise T)
    (hTS : ∀ r r' i i', T r r' → S (rowOf (q.toEval W) ne i (evalOf W q r)) (rowOf (q.toEval W) ne i' (evalOf W q r'))) :
    (structureOf (q.toEval W) ne).rows.Pairwise S := by
  rw [structureOf_rows, List.pairwise_map, toEval_residuals, List.zipIdx_map, List.pairwise_map]
  have h' : q.residuals.zipIdx.Pairwise fun a b => T a.1 b.1 := by
    rw [← List.pairwise_map (f := Prod.fst), List.zipIdx_map_fst]; exact h
  exact h'.imp fun {a b} hab => hTS a.1 b.1 a.2 b.2 hab

theorem mem_rows {W : World B R V} {q : Program B R} {ne : ℕ} {row : BRow}
    (h : row ∈ (structureOf (q.toEval W) ne).rows) :
    ∃ i, ∃ r ∈ q.residuals, row = rowOf (q.toEval W) ne i (evalOf W q r) := by
  rw [structureOf_rows] at h
  obtain ⟨x, hx, rfl⟩ := List.mem_map.1 h
  have hmem : x.1 ∈ (q.toEval W).residuals := by
    obtain ⟨_, _, h⟩ := List.mem_zipIdx hx
    rw [h]; exact List.getElem_mem _
  obtain ⟨r, hr, hrx⟩ := List.mem_map.1 hmem
  exact ⟨x.2, r, hr, by rw [← hrx]; rfl⟩

/-! ## The order of the residual blocks -/

/-- What `MinParameterBlock` sees of the arguments of a residual block. -/
def refs (W : World B R V) (q : Program B R) (r : R) : List PRef := (W.args r).map fun b => ⟨W.isConst b, q.index b⟩

/-- A program whose first `ne` parameter blocks are independent. -/
structure Frontal (W : World B R V) (q : Program B R) (ne : ℕ) : Prop where
  reduced : Reduced W q
  pos : 1 ≤ ne
  le : ne ≤ q.blocks.length
  independent : ∀ r ∈ q.residuals, ∀ a ∈ W.args r, ∀ b ∈ W.args r, a ∈ q.blocks.take ne → b ∈ q.blocks.take ne → a = b

theorem isFirstE_of_has {W : World B R V} {q : Program B R} {ne : ℕ} (h : Frontal W q ne) {r : R} (hr : r ∈ q.residuals)
    {e : ℕ} (he : e < ne) (hh : ∃ b ∈ W.args r, W.isConst b = false ∧ q.index b = some e) :
    IsFirstE ne (refs W q r) e := by
  obtain ⟨b, hb, hc, hi⟩ := hh
  refine ⟨Or.inl ⟨he, ⟨_, _⟩, List.mem_map_of_mem hb, hc, hi⟩, ?_⟩
  intro x hx hxc i hxi
  obtain ⟨a, ha, rfl⟩ := List.mem_map.1 hx
  simp only at hxi
  by_contra hlt
  have hn := h.reduced.nodup
  have h1 := (h.reduced.indexed a i).1 hxi
  have h2 := (h.reduced.indexed b e).1 hi
  have := h.independent r hr a ha b hb ((mem_take_iff hn h1).2 (by omega)) ((mem_take_iff hn h2).2 he)
  subst this
  rw [hi] at hxi
  cases hxi
  omega

theorem lexReady {W : World B R V} {q : Program B R} {ne : ℕ} (h : Frontal W q ne) :
    LexReady ne (refs W q) q.residuals := by
  refine ⟨h.pos, ?_, ?_⟩
  · intro r hr x hx hxc
    obtain ⟨b, hb, rfl⟩ := List.mem_map.1 hx
    exact Option.isSome_iff_exists.1 (h.reduced.indexed.isSome.2 (h.reduced.closed r hr b hb hxc))
  · intro e he
    have hlt : e < q.blocks.length := lt_of_lt_of_le he h.le
    obtain ⟨r, hr, hb⟩ := h.reduced.used _ (List.getElem_mem hlt)
    exact ⟨r, hr, isFirstE_of_has h hr he ⟨_, hb, h.reduced.isVar _ (List.getElem_mem hlt),
      (h.reduced.indexed _ _).2 (List.getElem?_eq_getElem hlt)⟩⟩

/-- The residual blocks are put in order, and none of the `CHECK`s fails. -/
theorem lexOrder_spec {W : World B R V} {q : Program B R} {ne : ℕ} (h : Frontal W q ne) :
    ∃ rs, lexOrder W ne q = some { q with residuals := rs } ∧ rs.Perm q.residuals ∧
      rs.Pairwise fun r r' => ∀ b b', IsFirstE ne (refs W q r) b → IsFirstE ne (refs W q r') b' → b ≤ b' := by
  rcases lexicographicOrder_spec ne (refs W q) q.residuals with ⟨-, pos, -, heq⟩ | ⟨hno, -⟩
  · obtain ⟨h1, h2⟩ := lexicographicOrder_sorted ne (refs W q) q.residuals _ heq
    refine ⟨_, ?_, h1, h2⟩
    unfold lexOrder
    change (lexicographicOrder ne (refs W q) q.residuals).map _ = _
    rw [heq]; rfl
  · exact absurd (lexReady h) hno

theorem exists_firstE {W : World B R V} {q : Program B R} (ne : ℕ) (hq : Reduced W q) {r : R} (hr : r ∈ q.residuals) :
    ∃ e, IsFirstE ne (refs W q r) e := by
  rcases minParameterBlock_spec ne (refs W q r) with ⟨-, e, -, he⟩ | ⟨⟨x, hx, hxc, hxi⟩, -⟩
  · exact ⟨e, he⟩
  · obtain ⟨b, hb, rfl⟩ := List.mem_map.1 hx
    have := hq.indexed.isSome.2 (hq.closed r hr b hb hxc)
    simp only at hxi
    rw [hxi] at this
    cases this

theorem has_of_firstE {W : World B R V} {q : Program B R} {ne e : ℕ} {r : R} (h : IsFirstE ne (refs W q r) e) (he : e < ne) :
    ∃ b ∈ W.args r, W.isConst b = false ∧ q.index b = some e := by
  rcases h.1 with ⟨-, x, hx, hxc, hxi⟩ | h1
  · obtain ⟨b, hb, rfl⟩ := List.mem_map.1 hx
    exact ⟨b, hb, hxc, hxi⟩
  · omega

/-- With the first `ne` parameter blocks independent and the residual blocks in order, the Jacobian is
what the Schur complement solvers need. -/
theorem schurJacobian {K : Type} {W : World B R V} {q : Program B R} {ne : ℕ} (h : Frontal W q ne)
    (hs : q.residuals.Pairwise fun r r' => ∀ b b', IsFirstE ne (refs W q r) b → IsFirstE ne (refs W q r') b' → b ≤ b')
    (values : ℕ → K) : ∃ J, SchurJacobian W q ne values J := by
  have hq := h.reduced
  have hok := toEval_ok hq
  have hsize : (q.toEval W).sizes.length = q.blocks.length := by simp [Program.toEval]
  -- what a row block with an e block is
  have hrow : ∀ i, ∀ r ∈ q.residuals, ∀ e < ne,
      (∃ c ∈ (rowOf (q.toEval W) ne i (evalOf W q r)).cells, c.blockId = e) ↔ IsFirstE ne (refs W q r) e := by
    intro i r hr e he
    rw [mem_row]
    exact ⟨fun hh => isFirstE_of_has h hr he hh, fun hf => has_of_firstE hf he⟩
  have hs' : q.residuals.Pairwise fun r r' => r ∈ q.residuals ∧ r' ∈ q.residuals ∧
      ∀ b b', IsFirstE ne (refs W q r) b → IsFirstE ne (refs W q r') b' → b ≤ b' := by
    have := List.Pairwise.and_mem.1 hs
    exact this.imp fun h => ⟨h.1, h.2.1, h.2.2⟩
  refine ⟨_, createJacobian_made hq ne values, structureOf_ok ne hok values, ⟨structureOf_sorted ne hok, ?_, ?_, ?_, ?_⟩,
    ?_, ?_, ?_, ?_⟩
  · -- no row block is empty
    intro row hrow'
    obtain ⟨i, r, hr, rfl⟩ := mem_rows hrow'
    obtain ⟨b, hb, hc⟩ := hq.depends r hr
    obtain ⟨j, hj⟩ := Option.isSome_iff_exists.1 (hq.indexed.isSome.2 (hq.closed r hr b hb hc))
    obtain ⟨c, hc', -⟩ := (mem_row (W := W) (q := q) ne i (r := r)).2 ⟨b, hb, hc, hj⟩
    exact List.ne_nil_of_mem hc'
  · -- at most one e block
    intro row hrow' c hc d hd hce hde
    obtain ⟨i, r, hr, rfl⟩ := mem_rows hrow'
    exact ((hrow i r hr _ hce).1 ⟨c, hc, rfl⟩).unique ((hrow i r hr _ hde).1 ⟨d, hd, rfl⟩)
  · -- row blocks with e blocks first
    refine pairwise_rows hs' ?_
    rintro r r' i i' ⟨hr, hr', hle⟩ ⟨c, hc, hce⟩
    have h1 := (hrow i' r' hr' _ hce).1 ⟨c, hc, rfl⟩
    obtain ⟨e, he⟩ := exists_firstE ne hq hr
    have := hle e _ he h1
    obtain ⟨d, hd, hde⟩ := (hrow i r hr e (by omega)).2 he
    exact ⟨d, hd, by omega⟩
  · -- grouped
    intro x y z hsub e he hx hz
    have hpw : (structureOf (q.toEval W) ne).rows.Pairwise fun x y =>
        ((∃ c ∈ x.cells, c.blockId = e) → ∀ e' ≤ e, (∃ c ∈ y.cells, c.blockId = e') → e' = e) ∧
        ((∃ c ∈ y.cells, c.blockId = e) → ∃ e' ≤ e, ∃ c ∈ x.cells, c.blockId = e') := by
      refine pairwise_rows hs' ?_
      rintro r r' i i' ⟨hr, hr', hle⟩
      constructor
      · intro h1 e' he' h2
        have := hle e e' ((hrow i r hr e he).1 h1) ((hrow i' r' hr' e' (by omega)).1 h2)
        omega
      · intro h2
        obtain ⟨e', hf⟩ := exists_firstE ne hq hr
        have := hle e' e hf ((hrow i' r' hr' e he).1 h2)
        exact ⟨e', this, (hrow i r hr e' (by omega)).2 hf⟩
    have hpw' := hpw.sublist hsub
    simp only [List.pairwise_cons, List.mem_cons, List.not_mem_nil, or_false, forall_eq_or_imp, forall_eq] at hpw'
    obtain ⟨⟨hxy, -⟩, hyz, -⟩ := hpw'
    obtain ⟨e', he', hy⟩ := hyz.2 hz
    have := hxy.1 hx e' he' hy
    subst this
    exact hy
  · show ne ≤ (structureOf (q.toEval W) ne).cols.length
    rw [structureOf_cols_length, hsize]; exact h.le
  · intro b hb
    have : b.size ∈ ((structureOf (q.toEval W) ne).cols).map Block.size := List.mem_map_of_mem hb
    rw [show (structureOf (q.toEval W) ne).cols = laidFrom 0 (q.toEval W).sizes from rfl, laidFrom_sizes] at this
    obtain ⟨a, ha, hab⟩ := List.mem_map.1 this
    rw [← hab]
    exact hq.sizes a ha
  · intro row hrow'
    obtain ⟨i, r, hr, rfl⟩ := mem_rows hrow'
    exact hq.residualSizes r hr
  · -- the first row block has an e block
    have hlt : 0 < q.blocks.length := List.length_pos_of_ne_nil hq.nonempty
    obtain ⟨r, hr, hb⟩ := hq.used _ (List.getElem_mem hlt)
    have hr0 : IsFirstE ne (refs W q r) 0 := isFirstE_of_has h hr h.pos ⟨_, hb, hq.isVar _ (List.getElem_mem hlt),
      (hq.indexed _ _).2 (List.getElem?_eq_getElem hlt)⟩
    show ∃ x ∈ (structureOf (q.toEval W) ne).rows.head?, _
    rw [structureOf_rows, toEval_residuals]
    cases hres : q.residuals with
    | nil => rw [hres] at hr; simp at hr
    | cons r₀ rest =>
      have hmem : r₀ ∈ q.residuals := by rw [hres]; simp
      have hfirst : IsFirstE ne (refs W q r₀) 0 := by
        rw [hres] at hr hs
        rcases List.mem_cons.1 hr with rfl | hr
        · exact hr0
        · obtain ⟨e, he⟩ := exists_firstE ne hq hmem
          have := (List.pairwise_cons.1 hs).1 r hr e 0 he hr0
          have : e = 0 := by omega
          subst this
          exact he
      obtain ⟨c, hc, hce⟩ := (hrow 0 r₀ hmem 0 h.pos).2 hfirst
      refine ⟨_, rfl, c, hc, ?_⟩
      rw [hce]; exact h.pos

end Ceres.Reorder
