import Verif.Graph.Indep

/-!
# The Hessian graph and the orderings computed from it (C27, C68)
-/

namespace Ceres.Graph

variable {B : Type} [DecidableEq B]

/-! ## Specification -/

/-- The parameter blocks of the program are distinct, as are those of each residual block, and every
variable parameter block that a residual block depends on is in the program. -/
structure Prog.WF (P : Prog B) : Prop where
  nodup : P.blocks.Nodup
  residual_nodup : ∀ r ∈ P.residuals, r.Nodup
  closed : ∀ r ∈ P.residuals, ∀ b ∈ r, P.isConst b = false → b ∈ P.blocks

/-- Some residual block depends on both `a` and `b`. -/
def Prog.Share (P : Prog B) (a b : B) : Prop := ∃ r ∈ P.residuals, a ∈ r ∧ b ∈ r

/-! ## Edges -/

theorem mem_insertNew (l : List B) (x y : B) : y ∈ insertNew l x ↔ y ∈ l ∨ y = x := by
  unfold insertNew
  by_cases h : x ∈ l
  · rw [if_pos h]
    constructor
    · exact Or.inl
    · rintro (h' | rfl)
      · exact h'
      · exact h
  · rw [if_neg h]; simp

theorem nodup_insertNew {l : List B} (h : l.Nodup) (x : B) : (insertNew l x).Nodup := by
  unfold insertNew
  by_cases hx : x ∈ l
  · rw [if_pos hx]; exact h
  · rw [if_neg hx]
    exact List.nodup_append.mpr ⟨h, by simp, by simpa using fun a ha (e : a = x) => hx (e ▸ ha)⟩

/-- The neighbours are sets described by the relation `E`. -/
structure EdgeInv (g : Graph B) (E : B → B → Prop) : Prop where
  mem : ∀ u x, x ∈ g.nbrs u ↔ E u x
  nodup : ∀ u, (g.nbrs u).Nodup

theorem EdgeInv.congr {g : Graph B} {E E' : B → B → Prop} (h : EdgeInv g E)
    (he : ∀ u x, E u x ↔ E' u x) : EdgeInv g E' := ⟨fun u x => (h.mem u x).trans (he u x), h.nodup⟩

theorem addEdge_inv {g : Graph B} {E : B → B → Prop} (h : EdgeInv g E) (hs : ∀ u x, E u x → E x u)
    (v w : B) :
    EdgeInv (g.addEdge v w) fun u x => E u x ∨ (u = v ∧ x = w) ∨ (u = w ∧ x = v) := by
  unfold Graph.addEdge
  by_cases hw : w ∈ g.nbrs v
  · rw [if_pos hw]
    refine h.congr fun u x => ⟨Or.inl, ?_⟩
    rintro (h' | ⟨rfl, rfl⟩ | ⟨rfl, rfl⟩)
    · exact h'
    · exact (h.mem _ _).mp hw
    · exact hs _ _ ((h.mem _ _).mp hw)
  · rw [if_neg hw]
    constructor
    · intro u x
      simp only
      by_cases h1 : u = w
      · subst h1
        rw [Function.update_self, mem_insertNew]
        by_cases h2 : u = v
        · subst h2
          rw [Function.update_self, mem_insertNew, h.mem]
          tauto
        · rw [Function.update_of_ne h2, h.mem]
          tauto
      · rw [Function.update_of_ne h1]
        by_cases h2 : u = v
        · subst h2
          rw [Function.update_self, mem_insertNew, h.mem]
          tauto
        · rw [Function.update_of_ne h2, h.mem]
          tauto
    · intro u
      simp only
      by_cases h1 : u = w
      · subst h1
        rw [Function.update_self]
        refine nodup_insertNew ?_ _
        by_cases h2 : u = v
        · subst h2
          rw [Function.update_self]; exact nodup_insertNew (h.nodup _) _
        · rw [Function.update_of_ne h2]; exact h.nodup _
      · rw [Function.update_of_ne h1]
        by_cases h2 : u = v
        · subst h2
          rw [Function.update_self]; exact nodup_insertNew (h.nodup _) _
        · rw [Function.update_of_ne h2]; exact h.nodup _

omit [DecidableEq B] in
theorem before_cons (a : B) (l : List B) (u x : B) :
    Before (a :: l) u x ↔ (u = a ∧ x ∈ l) ∨ Before l u x := by
  unfold Before
  rw [List.cons_sublist_cons']
  simp only [List.singleton_sublist]
  tauto

theorem innerEdges_inv (c : B → Bool) (a : B) (l : List B) {g : Graph B} {E : B → B → Prop}
    (h : EdgeInv g E) (hs : ∀ u x, E u x → E x u) :
    EdgeInv (l.foldl (fun g b => if c b then g else g.addEdge a b) g) fun u x =>
      E u x ∨ (u = a ∧ x ∈ l ∧ c x = false) ∨ (x = a ∧ u ∈ l ∧ c u = false) := by
  induction l generalizing g E with
  | nil => exact h.congr fun u x => by simp
  | cons b l ih =>
    rw [List.foldl_cons]
    by_cases hb : c b
    · rw [if_pos hb]
      refine (ih h hs).congr fun u x => ?_
      have : ∀ y, y = b → c y = true := fun y e => e ▸ hb
      constructor
      · rintro (h' | ⟨h1, h2, h3⟩ | ⟨h1, h2, h3⟩)
        · exact Or.inl h'
        · exact Or.inr (Or.inl ⟨h1, by simp [h2], h3⟩)
        · exact Or.inr (Or.inr ⟨h1, by simp [h2], h3⟩)
      · rintro (h' | ⟨h1, h2, h3⟩ | ⟨h1, h2, h3⟩)
        · exact Or.inl h'
        · rcases List.mem_cons.mp h2 with h2 | h2
          · rw [this _ h2] at h3; cases h3
          · exact Or.inr (Or.inl ⟨h1, h2, h3⟩)
        · rcases List.mem_cons.mp h2 with h2 | h2
          · rw [this _ h2] at h3; cases h3
          · exact Or.inr (Or.inr ⟨h1, h2, h3⟩)
    · rw [if_neg hb]
      have hb' : c b = false := by simpa using hb
      refine (ih (addEdge_inv h hs a b) (by intro u x; have := hs u x; tauto)).congr fun u x => ?_
      constructor
      · rintro ((h' | ⟨h1, h2⟩ | ⟨h1, h2⟩) | ⟨h1, h2, h3⟩ | ⟨h1, h2, h3⟩)
        · exact Or.inl h'
        · exact Or.inr (Or.inl ⟨h1, by simp [h2], h2 ▸ hb'⟩)
        · exact Or.inr (Or.inr ⟨h2, by simp [h1], h1 ▸ hb'⟩)
        · exact Or.inr (Or.inl ⟨h1, by simp [h2], h3⟩)
        · exact Or.inr (Or.inr ⟨h1, by simp [h2], h3⟩)
      · rintro (h' | ⟨h1, h2, h3⟩ | ⟨h1, h2, h3⟩)
        · exact Or.inl (Or.inl h')
        · rcases List.mem_cons.mp h2 with h2 | h2
          · exact Or.inl (Or.inr (Or.inl ⟨h1, h2⟩))
          · exact Or.inr (Or.inl ⟨h1, h2, h3⟩)
        · rcases List.mem_cons.mp h2 with h2 | h2
          · exact Or.inl (Or.inr (Or.inr ⟨h2, h1⟩))
          · exact Or.inr (Or.inr ⟨h1, h2, h3⟩)

theorem residualEdges_inv (c : B → Bool) (r : List B) {g : Graph B} {E : B → B → Prop}
    (h : EdgeInv g E) (hs : ∀ u x, E u x → E x u) :
    EdgeInv (residualEdges c g r) fun u x =>
      E u x ∨ (c u = false ∧ c x = false ∧ (Before r u x ∨ Before r x u)) := by
  induction r generalizing g E with
  | nil => exact h.congr fun u x => by simp [Before]
  | cons a l ih =>
    unfold residualEdges
    by_cases ha : c a
    · rw [if_pos ha]
      refine (ih h hs).congr fun u x => ?_
      rw [before_cons, before_cons]
      have : ∀ y, y = a → c y = true := fun y e => e ▸ ha
      have hu := this u
      have hx := this x
      constructor
      · tauto
      · rintro (h' | ⟨h1, h2, h3⟩)
        · exact Or.inl h'
        · refine Or.inr ⟨h1, h2, ?_⟩
          rw [h1] at hu; rw [h2] at hx
          simp only [Bool.false_eq_true, imp_false] at hu hx
          tauto
    · rw [if_neg ha]
      have ha' : c a = false := by simpa using ha
      refine (ih (innerEdges_inv c a l h hs) (by intro u x; have := hs u x; tauto)).congr fun u x => ?_
      rw [before_cons, before_cons]
      have hu : u = a → c u = false := fun e => e ▸ ha'
      have hx : x = a → c x = false := fun e => e ▸ ha'
      tauto

theorem residualEdges_vertices (c : B → Bool) (g : Graph B) (r : List B) :
    (residualEdges c g r).vertices = g.vertices := by
  induction r generalizing g with
  | nil => rfl
  | cons a l ih =>
    unfold residualEdges
    rw [ih]
    by_cases ha : c a
    · rw [if_pos ha]
    · rw [if_neg ha]
      clear ih
      induction l generalizing g with
      | nil => rfl
      | cons b l ih =>
        rw [List.foldl_cons, ih]
        by_cases hb : c b
        · rw [if_pos hb]
        · rw [if_neg hb]
          unfold Graph.addEdge
          by_cases hw : b ∈ g.nbrs a
          · rw [if_pos hw]
          · rw [if_neg hw]

theorem addVertices_spec (c : B → Bool) (l : List B) (hl : l.Nodup) :
    let g := l.foldl (fun g b => if c b then g else g.addVertex b) (Graph.empty : Graph B)
    g.vertices = l.filter (fun b => !c b) ∧ ∀ v, g.nbrs v = [] := by
  induction l using List.reverseRecOn with
  | nil => exact ⟨rfl, fun _ => rfl⟩
  | append_singleton l a ih =>
    have hl' := List.nodup_append.mp hl
    obtain ⟨h1, h2⟩ := ih hl'.1
    simp only [List.foldl_append, List.foldl_cons, List.foldl_nil]
    set g := l.foldl (fun g b => if c b then g else g.addVertex b) (Graph.empty : Graph B)
    by_cases ha : c a
    · rw [if_pos ha]
      refine ⟨?_, h2⟩
      rw [h1, List.filter_append]
      simp [ha]
    · rw [if_neg ha]
      unfold Graph.addVertex
      have : a ∉ g.vertices := by
        rw [h1]
        intro hm
        exact hl'.2.2 a (List.mem_filter.mp hm).1 a (by simp) rfl
      rw [if_neg this]
      refine ⟨?_, ?_⟩
      · simp only [h1, List.filter_append]
        simp [ha]
      · intro v
        simp only
        by_cases hv : v = a
        · subst hv; simp
        · rw [Function.update_of_ne hv]; exact h2 v

/-- The Hessian graph: the vertices are the variable blocks in the order of the program, and two
blocks are adjacent iff they are variable and some residual block lists them at two places. -/
theorem hessianGraph_spec (P : Prog B) (h : P.blocks.Nodup) :
    (createHessianGraph P).vertices = P.blocks.filter (fun b => !P.isConst b) ∧
    EdgeInv (createHessianGraph P) fun u x => P.isConst u = false ∧ P.isConst x = false ∧
      ∃ r ∈ P.residuals, Before r u x ∨ Before r x u := by
  have h0 := addVertices_spec P.isConst P.blocks h
  unfold createHessianGraph
  set g := P.blocks.foldl (fun g b => if P.isConst b then g else g.addVertex b) (Graph.empty : Graph B)
  simp only at h0
  have main : ∀ L : List (List B), (L.foldl (residualEdges P.isConst) g).vertices = g.vertices ∧
      EdgeInv (L.foldl (residualEdges P.isConst) g) fun u x => P.isConst u = false ∧
        P.isConst x = false ∧ ∃ r ∈ L, Before r u x ∨ Before r x u := by
    intro L
    induction L using List.reverseRecOn with
    | nil => exact ⟨rfl, ⟨fun u x => by simp [h0.2], fun u => by simp [h0.2]⟩⟩
    | append_singleton L r ih =>
      rw [List.foldl_append, List.foldl_cons, List.foldl_nil]
      refine ⟨(residualEdges_vertices _ _ _).trans ih.1, ?_⟩
      refine (residualEdges_inv P.isConst r ih.2 ?_).congr ?_
      · rintro u x ⟨h1, h2, r, hr, h3⟩
        exact ⟨h2, h1, r, hr, h3.symm⟩
      · intro u x
        constructor
        · rintro (⟨h1, h2, r', hr, h3⟩ | ⟨h1, h2, h3⟩)
          · exact ⟨h1, h2, r', by simp [hr], h3⟩
          · exact ⟨h1, h2, r, by simp, h3⟩
        · rintro ⟨h1, h2, r', hr, h3⟩
          rcases List.mem_append.mp hr with hr | hr
          · exact Or.inl ⟨h1, h2, r', hr, h3⟩
          · rw [List.mem_singleton.mp hr] at h3
            exact Or.inr ⟨h1, h2, h3⟩
  exact ⟨(main P.residuals).1.trans h0.1, (main P.residuals).2⟩

omit [DecidableEq B] in
theorem before_or {l : List B} (hl : l.Nodup) (u x : B) :
    Before l u x ∨ Before l x u ↔ u ≠ x ∧ u ∈ l ∧ x ∈ l := by
  induction l with
  | nil => simp [Before]
  | cons a l ih =>
    have hl' := List.nodup_cons.mp hl
    rw [before_cons, before_cons, List.mem_cons, List.mem_cons]
    have := ih hl'.2
    by_cases hu : u = a <;> by_cases hx : x = a
    · rw [hu, hx]
      have : ¬Before l a a := fun hb => hl'.1 (hb.subset (by simp))
      simp [hl'.1, this]
    · subst hu
      have h1 : ¬Before l u x := fun hb => hl'.1 (hb.subset (by simp))
      have h2 : ¬Before l x u := fun hb => hl'.1 (hb.subset (by simp))
      simp [hx, h1, h2]; tauto
    · subst hx
      have h1 : ¬Before l u x := fun hb => hl'.1 (hb.subset (by simp))
      have h2 : ¬Before l x u := fun hb => hl'.1 (hb.subset (by simp))
      simp [hu, h1, h2]
    · simp only [hu, hx, false_and, false_or]; exact this

/-- For a well formed program, two blocks are adjacent in the Hessian graph iff they are variable,
different, and share a residual block. -/
theorem hessianGraph_adj (P : Prog B) (h : P.WF) (u x : B) :
    x ∈ (createHessianGraph P).nbrs u ↔
      u ≠ x ∧ P.isConst u = false ∧ P.isConst x = false ∧ P.Share u x := by
  rw [(hessianGraph_spec P h.nodup).2.mem]
  constructor
  · rintro ⟨h1, h2, r, hr, hb⟩
    have := (before_or (h.residual_nodup r hr) u x).mp hb
    exact ⟨this.1, h1, h2, r, hr, this.2⟩
  · rintro ⟨hne, h1, h2, r, hr, hm⟩
    exact ⟨h1, h2, r, hr, (before_or (h.residual_nodup r hr) u x).mpr ⟨hne, hm⟩⟩

theorem Prog.share_symm (P : Prog B) {a b : B} (h : P.Share a b) : P.Share b a := by
  obtain ⟨r, hr, ha, hb⟩ := h
  exact ⟨r, hr, hb, ha⟩

theorem hessianGraph_wf (P : Prog B) (h : P.WF) : (createHessianGraph P).WF where
  nodup := by rw [(hessianGraph_spec P h.nodup).1]; exact h.nodup.filter _
  nbrs_nodup := (hessianGraph_spec P h.nodup).2.nodup
  symm v w := by
    rw [hessianGraph_adj P h, hessianGraph_adj P h]
    rintro ⟨h1, h2, h3, h4⟩
    exact ⟨h1.symm, h3, h2, P.share_symm h4⟩
  mem v w := by
    rw [hessianGraph_adj P h, (hessianGraph_spec P h.nodup).1]
    rintro ⟨h1, h2, h3, r, hr, _, hw⟩
    exact List.mem_filter.mpr ⟨h.closed r hr w hw h3, by simp [h3]⟩

theorem hessianGraph_noLoops (P : Prog B) (h : P.WF) : (createHessianGraph P).NoLoops := by
  intro v hv
  exact ((hessianGraph_adj P h v v).mp hv).1 rfl

/-- With safety checks disabled a residual block may list a variable block twice; then the
Hessian graph has a loop. -/
theorem hessianGraph_loop (P : Prog B) (h : P.blocks.Nodup) (b : B) (hb : P.isConst b = false) (r : List B)
    (hr : r ∈ P.residuals) (h2 : Before r b b) : b ∈ (createHessianGraph P).nbrs b :=
  ((hessianGraph_spec P h).2.mem b b).mpr ⟨hb, hb, r, hr, Or.inl h2⟩

/-! ## Schur orderings (C68) -/

/-- What a Schur solver needs of an ordering `ord` of which the first `k` blocks are eliminated. -/
structure IsSchurOrdering (P : Prog B) (ord : List B) (k : ℕ) : Prop where
  /-- the ordering lists the blocks of the program -/
  perm : ord.Perm P.blocks
  le : k ≤ ord.length
  /-- the constant blocks come last -/
  const_last : ∃ n, k ≤ n ∧ (∀ b ∈ ord.take n, P.isConst b = false) ∧
    ord.drop n = P.blocks.filter P.isConst
  /-- no residual block depends on two of the first `k` blocks -/
  independent : ∀ a ∈ ord.take k, ∀ b ∈ ord.take k, a ≠ b → ¬P.Share a b
  /-- no further variable block could be eliminated with them -/
  maximal : ∀ b ∈ P.blocks, P.isConst b = false → b ∉ ord.take k → ∃ a ∈ ord.take k, P.Share a b

theorem schur_of_maximal (P : Prog B) (h : P.WF) {ord : List B} {k : ℕ}
    (hp : ord.Perm (createHessianGraph P).vertices) (hk : k ≤ ord.length)
    (hm : (createHessianGraph P).IsMaximalIndependent (ord.take k)) :
    IsSchurOrdering P (ord ++ P.blocks.filter P.isConst) k := by
  have hv := (hessianGraph_spec P h.nodup).1
  have hnc : ∀ b ∈ ord, P.isConst b = false := by
    intro b hb
    have := hp.mem_iff.mp hb
    rw [hv] at this
    simpa using (List.mem_filter.mp this).2
  have htk : (ord ++ P.blocks.filter P.isConst).take k = ord.take k :=
    List.take_append_of_le_length hk
  refine ⟨?_, by simp; omega, ⟨ord.length, hk, ?_, ?_⟩, ?_, ?_⟩
  · rw [hv] at hp
    refine (hp.append_right _).trans (List.perm_append_comm.trans ?_)
    exact List.filter_append_perm P.isConst P.blocks
  · rw [List.take_left' rfl]; exact hnc
  · rw [List.drop_left' rfl]
  · rw [htk]
    intro a ha b hb hne hs
    exact hm.independent a ha b hb ((hessianGraph_adj P h a b).mpr
      ⟨hne, hnc a (List.mem_of_mem_take ha), hnc b (List.mem_of_mem_take hb), hs⟩)
  · rw [htk]
    intro b hb hc hb'
    obtain ⟨s, hs, hsb⟩ := hm.maximal b (by rw [hv]; exact List.mem_filter.mpr ⟨hb, by simp [hc]⟩) hb'
    exact ⟨s, hs, P.share_symm ((hessianGraph_adj P h b s).mp hsb).2.2.2⟩

/-- **C68.** `ComputeSchurOrdering` does not abort, and its result is a Schur ordering. -/
theorem computeSchurOrdering_valid [LinearOrder B] (P : Prog B) (h : P.WF) (sort : Graph B → List B)
    (hsort : ∀ g : Graph B, g.WF → g.TotallySorted (sort g)) :
    ∃ ord k, computeSchurOrdering sort P = some (ord, k) ∧ IsSchurOrdering P ord k := by
  obtain ⟨ord, k, he, hp, hk, hm, -⟩ := independentSetOrdering_valid _ (hessianGraph_wf P h)
    (hessianGraph_noLoops P h) _ (hsort _ (hessianGraph_wf P h))
  refine ⟨ord ++ P.blocks.filter P.isConst, k, ?_, schur_of_maximal P h hp hk hm⟩
  simp only [computeSchurOrdering, he, Option.map_some]

/-- **C68.** `ComputeStableSchurOrdering` does not abort, and its result is a Schur ordering.  Among
eliminated blocks, and among the others, those that share residual blocks with equally many blocks
keep the order that they have in the program. -/
theorem computeStableSchurOrdering_valid (P : Prog B) (h : P.WF)
    (stableSort : Graph B → List B → List B)
    (hsort : ∀ (g : Graph B) l, g.StablySorted l (stableSort g l)) :
    ∃ ord k, computeStableSchurOrdering stableSort P = some (ord, k) ∧ IsSchurOrdering P ord k ∧
      ∀ a b, Before (ord.take k) a b ∨
          (P.isConst a = false ∧ P.isConst b = false ∧ Before (ord.drop k) a b) →
        (createHessianGraph P).degree a < (createHessianGraph P).degree b ∨
        (createHessianGraph P).degree a = (createHessianGraph P).degree b ∧ Before P.blocks a b := by
  have hv := (hessianGraph_spec P h.nodup).1
  set g := createHessianGraph P with hg
  have hpre : P.blocks.filter (fun b => decide (b ∈ g.vertices)) = g.vertices := by
    conv_rhs => rw [hv]
    refine List.filter_congr fun b hb => ?_
    rw [hv]
    simp [List.mem_filter, hb]
  obtain ⟨ord, k, he, hp, hk, hm, -, hst⟩ := stableIndependentSetOrdering_valid g (hessianGraph_wf P h)
    (hessianGraph_noLoops P h) g.vertices (stableSort g g.vertices) (.refl _) (hsort _ _)
  have hvs : g.vertices.Sublist P.blocks := by rw [hv]; exact List.filter_sublist
  refine ⟨ord ++ P.blocks.filter P.isConst, k, ?_, schur_of_maximal P h hp hk hm, ?_⟩
  · unfold computeStableSchurOrdering
    rw [← hg]
    simp only [hpre, he, Option.map_some]
  · intro a b hab
    have : g.degree a < g.degree b ∨ g.degree a = g.degree b ∧ Before g.vertices a b := by
      refine hst a b ?_
      rcases hab with hab | ⟨ha, hb, hab⟩
      · left
        rwa [List.take_append_of_le_length hk] at hab
      · right
        rw [List.drop_append_of_le_length hk] at hab
        have h1 := List.Sublist.filter (fun v => !P.isConst v) hab
        rw [List.filter_append] at h1
        have h2 : (P.blocks.filter P.isConst).filter (fun v => !P.isConst v) = [] := by
          rw [List.filter_eq_nil_iff]
          intro x hx
          simp [(List.mem_filter.mp hx).2]
        have h3 : [a, b].filter (fun v => !P.isConst v) = [a, b] := by simp [ha, hb]
        rw [h2, h3, List.append_nil] at h1
        exact h1.trans List.filter_sublist
    rcases this with h' | ⟨h', h''⟩
    · exact Or.inl h'
    · exact Or.inr ⟨h', h''.trans hvs⟩

/-! ## Removing vertices -/

theorem foldl_erase (v : B) (l : List B) (hl : l.Nodup) (n : B → List B) (u : B) :
    l.foldl (fun n s => Function.update n s ((n s).erase v)) n u
      = if u ∈ l then (n u).erase v else n u := by
  induction l generalizing n with
  | nil => simp
  | cons a l ih =>
    have hl' := List.nodup_cons.mp hl
    rw [List.foldl_cons, ih hl'.2]
    by_cases hu : u = a
    · subst hu
      simp [hl'.1]
    · rw [Function.update_of_ne hu]
      simp [hu]

/-- Removing a vertex leaves the graph induced on the others. -/
theorem removeVertex_spec {g : Graph B} (h : g.WF) (hl : g.NoLoops) {v : B} (hv : v ∈ g.vertices) :
    (g.removeVertex v).vertices = g.vertices.erase v ∧
    (∀ u x, x ∈ (g.removeVertex v).nbrs u ↔ x ∈ g.nbrs u ∧ u ≠ v ∧ x ≠ v) ∧
    (g.removeVertex v).WF ∧ (g.removeVertex v).NoLoops := by
  have hn : ∀ u, (g.removeVertex v).nbrs u
      = if u = v then [] else if u ∈ g.nbrs v then (g.nbrs u).erase v else g.nbrs u := by
    intro u
    unfold Graph.removeVertex
    rw [if_pos hv]
    simp only
    by_cases hu : u = v
    · subst hu; simp
    · rw [Function.update_of_ne hu, foldl_erase v _ (h.nbrs_nodup v), if_neg hu]
  have hvs : (g.removeVertex v).vertices = g.vertices.erase v := by
    unfold Graph.removeVertex
    rw [if_pos hv]
  have hmem : ∀ u x, x ∈ (g.removeVertex v).nbrs u ↔ x ∈ g.nbrs u ∧ u ≠ v ∧ x ≠ v := by
    intro u x
    rw [hn]
    by_cases hu : u = v
    · simp [hu]
    · rw [if_neg hu]
      by_cases hm : u ∈ g.nbrs v
      · rw [if_pos hm, (h.nbrs_nodup u).mem_erase_iff]
        tauto
      · rw [if_neg hm]
        have : x ∈ g.nbrs u → x ≠ v := fun hx e => hm (h.symm u v (e ▸ hx))
        tauto
  refine ⟨hvs, hmem, ⟨?_, ?_, ?_, ?_⟩, ?_⟩
  · rw [hvs]; exact h.nodup.erase v
  · intro u
    rw [hn]
    split_ifs
    · simp
    · exact (h.nbrs_nodup u).erase v
    · exact h.nbrs_nodup u
  · intro u x
    rw [hmem, hmem]
    rintro ⟨h1, h2, h3⟩
    exact ⟨h.symm _ _ h1, h3, h2⟩
  · intro u x
    rw [hmem, hvs, h.nodup.mem_erase_iff]
    rintro ⟨h1, h2, h3⟩
    exact ⟨h3, h.mem _ _ h1⟩
  · intro u
    rw [hmem]
    exact fun hu => hl u hu.1

theorem removeVertices_spec (S : List B) (hS : S.Nodup) {g : Graph B} (h : g.WF) (hl : g.NoLoops)
    (hsub : ∀ v ∈ S, v ∈ g.vertices) :
    (S.foldl Graph.removeVertex g).WF ∧ (S.foldl Graph.removeVertex g).NoLoops ∧
    (S ++ (S.foldl Graph.removeVertex g).vertices).Perm g.vertices ∧
    ∀ u x, x ∈ (S.foldl Graph.removeVertex g).nbrs u ↔ x ∈ g.nbrs u ∧ u ∉ S ∧ x ∉ S := by
  induction S generalizing g with
  | nil => exact ⟨h, hl, .refl _, by simp⟩
  | cons a S ih =>
    have hS' := List.nodup_cons.mp hS
    obtain ⟨h1, h2, h3, h4⟩ := removeVertex_spec h hl (hsub a (by simp))
    have hsub' : ∀ v ∈ S, v ∈ (g.removeVertex a).vertices := by
      intro v hv
      rw [h1, h.nodup.mem_erase_iff]
      exact ⟨fun e => hS'.1 (e ▸ hv), hsub v (by simp [hv])⟩
    obtain ⟨i1, i2, i3, i4⟩ := ih hS'.2 h3 h4 hsub'
    rw [List.foldl_cons]
    refine ⟨i1, i2, ?_, ?_⟩
    · rw [h1] at i3
      exact ((i3.cons a)).trans (List.perm_cons_erase (hsub a (by simp))).symm
    · intro u x
      rw [i4, h2]
      simp only [List.mem_cons, not_or]
      tauto

/-! ## The recursive ordering (C27) -/

/-- What the ordering for inner iterations must be. -/
structure IsGrouping (P : Prog B) (groups : List (List B)) : Prop where
  /-- every variable block is in exactly one group, exactly once -/
  perm : groups.flatten.Perm (P.blocks.filter fun b => !P.isConst b)
  nonempty : ∀ G ∈ groups, G ≠ []
  /-- no residual block depends on two blocks of a group -/
  independent : ∀ G ∈ groups, ∀ a ∈ G, ∀ b ∈ G, a ≠ b → ¬P.Share a b
  /-- a block could not be moved to an earlier group -/
  maximal : groups.Pairwise fun G H => ∀ b ∈ H, ∃ a ∈ G, P.Share a b

/-- The invariant of the loop: the groups found so far, and the graph of the blocks that remain. -/
structure LoopInv (P : Prog B) (g : Graph B) (covered : ℕ) (groups : List (List B)) : Prop where
  wf : g.WF
  noLoops : g.NoLoops
  perm : (groups.flatten ++ g.vertices).Perm (P.blocks.filter fun b => !P.isConst b)
  covered : covered = groups.flatten.length
  adj : ∀ u ∈ g.vertices, ∀ x ∈ g.vertices, x ∈ g.nbrs u ↔ u ≠ x ∧ P.Share u x
  nonempty : ∀ G ∈ groups, G ≠ []
  independent : ∀ G ∈ groups, ∀ a ∈ G, ∀ b ∈ G, a ≠ b → ¬P.Share a b
  maximal : groups.Pairwise fun G H => ∀ b ∈ H, ∃ a ∈ G, P.Share a b
  maximal' : ∀ G ∈ groups, ∀ b ∈ g.vertices, ∃ a ∈ G, P.Share a b

theorem loopInv_start (P : Prog B) (h : P.WF) : LoopInv P (createHessianGraph P) 0 [] where
  wf := hessianGraph_wf P h
  noLoops := hessianGraph_noLoops P h
  perm := by rw [(hessianGraph_spec P h.nodup).1]; simp
  covered := rfl
  adj u hu x hx := by
    rw [(hessianGraph_spec P h.nodup).1] at hu hx
    have h1 : P.isConst u = false := by simpa using (List.mem_filter.mp hu).2
    have h2 : P.isConst x = false := by simpa using (List.mem_filter.mp hx).2
    rw [hessianGraph_adj P h]
    tauto
  nonempty := by simp
  independent := by simp
  maximal := List.Pairwise.nil
  maximal' := by simp

theorem loopInv_step [LinearOrder B] (P : Prog B) {g : Graph B} {covered : ℕ} {groups : List (List B)}
    (inv : LoopInv P g covered groups) (queue : List B) (hq : g.TotallySorted queue) :
    ∃ ord k, g.independentSetOrdering queue = some (ord, k) ∧ k ≤ g.vertices.length ∧
      (g.vertices ≠ [] → 0 < k) ∧
      (0 < k → LoopInv P ((ord.take k).foldl Graph.removeVertex g) (covered + k)
        (groups ++ [ord.take k])) := by
  obtain ⟨ord, k, he, hp, hk, hm, -⟩ := independentSetOrdering_valid g inv.wf inv.noLoops queue hq
  have hnd : (ord.take k).Nodup := (hp.nodup_iff.mpr inv.wf.nodup).sublist (List.take_sublist _ _)
  obtain ⟨r1, r2, r3, r4⟩ := removeVertices_spec (ord.take k) hnd inv.wf inv.noLoops hm.subset
  have hlen : (ord.take k).length = k := by rw [List.length_take]; omega
  refine ⟨ord, k, he, hp.length_eq ▸ hk, ?_, ?_⟩
  · intro hne
    by_contra h0
    have hk0 : k = 0 := by omega
    obtain ⟨v, hv⟩ := List.exists_mem_of_ne_nil _ hne
    rw [hk0] at hm
    obtain ⟨s, hs, -⟩ := hm.maximal v hv (by simp)
    simp at hs
  · intro hk0
    set g' := (ord.take k).foldl Graph.removeVertex g
    have hsub' : ∀ v ∈ g'.vertices, v ∈ g.vertices ∧ v ∉ ord.take k := by
      intro v hv
      refine ⟨r3.mem_iff.mp (by simp [hv]), fun hv' => ?_⟩
      have := (r3.nodup_iff.mpr inv.wf.nodup)
      exact (List.nodup_append.mp this).2.2 v hv' v hv rfl
    refine ⟨r1, r2, ?_, ?_, ?_, ?_, ?_, ?_, ?_⟩
    · rw [List.flatten_append, List.append_assoc]
      simp only [List.flatten_cons, List.flatten_nil, List.append_nil]
      exact (r3.append_left _).trans inv.perm
    · rw [List.flatten_append, List.length_append, inv.covered]
      simp only [List.flatten_cons, List.flatten_nil, List.append_nil, hlen]
    · intro u hu x hx
      rw [r4]
      have hu' := hsub' u hu
      have hx' := hsub' x hx
      rw [inv.adj u hu'.1 x hx'.1]
      tauto
    · intro G hG
      rcases List.mem_append.mp hG with hG | hG
      · exact inv.nonempty G hG
      · rw [List.mem_singleton.mp hG]
        intro e
        rw [e] at hlen
        simp at hlen; omega
    · intro G hG
      rcases List.mem_append.mp hG with hG | hG
      · exact inv.independent G hG
      · rw [List.mem_singleton.mp hG]
        intro a ha b hb hne hs
        exact hm.independent a ha b hb
          ((inv.adj a (hm.subset a ha) b (hm.subset b hb)).mpr ⟨hne, hs⟩)
    · refine List.pairwise_append.mpr ⟨inv.maximal, List.pairwise_singleton _ _, ?_⟩
      intro G hG H hH b hb
      rw [List.mem_singleton.mp hH] at hb
      exact inv.maximal' G hG b (hm.subset b hb)
    · intro G hG b hb
      have hb' := hsub' b hb
      rcases List.mem_append.mp hG with hG | hG
      · exact inv.maximal' G hG b hb'.1
      · rw [List.mem_singleton.mp hG]
        obtain ⟨s, hs, hsb⟩ := hm.maximal b hb'.1 hb'.2
        exact ⟨s, hs, P.share_symm ((inv.adj b hb'.1 s (hm.subset s hs)).mp hsb).2⟩

/-- **C27.** For a program without constant parameter blocks, the computation of the ordering for
inner iterations ends, without aborting, within as many rounds as there are parameter blocks, and
its result puts every block into exactly one group, no two blocks of a group share a residual block,
and no block could be in an earlier group. -/
theorem recursiveOrdering_valid [LinearOrder B] (P : Prog B) (h : P.WF)
    (hc : ∀ b ∈ P.blocks, P.isConst b = false) (sort : Graph B → List B)
    (hsort : ∀ g : Graph B, g.WF → g.TotallySorted (sort g)) (fuel : ℕ) (hf : P.blocks.length ≤ fuel) :
    ∃ groups, recursiveOrdering sort P fuel = .done groups ∧ groups.flatten.Perm P.blocks ∧
      IsGrouping P groups := by
  have hfil : P.blocks.filter (fun b => !P.isConst b) = P.blocks :=
    List.filter_eq_self.mpr fun b hb => by simp [hc b hb]
  have main : ∀ fuel g covered groups, LoopInv P g covered groups →
      P.blocks.length ≤ covered + fuel →
      ∃ groups', recursiveLoop sort P.blocks.length fuel g covered groups = .done groups' ∧
        groups'.flatten.Perm P.blocks ∧ IsGrouping P groups' := by
    intro fuel
    have final : ∀ (g : Graph B) covered groups, LoopInv P g covered groups →
        ¬covered < P.blocks.length → groups.flatten.Perm P.blocks ∧ IsGrouping P groups := by
      intro g covered groups inv hlt
      have hlen := inv.perm.length_eq
      rw [List.length_append, hfil, ← inv.covered] at hlen
      have : g.vertices = [] := List.length_eq_zero_iff.mp (by omega)
      have hp := inv.perm
      rw [this, List.append_nil] at hp
      exact ⟨hfil ▸ hp, hp, inv.nonempty, inv.independent, inv.maximal⟩
    induction fuel with
    | zero =>
      intro g covered groups inv hle
      unfold recursiveLoop
      rw [if_neg (by omega)]
      exact ⟨groups, rfl, final g covered groups inv (by omega)⟩
    | succ fuel ih =>
      intro g covered groups inv hle
      unfold recursiveLoop
      by_cases hlt : covered < P.blocks.length
      · rw [if_pos hlt]
        obtain ⟨ord, k, he, hk, hpos, hinv⟩ := loopInv_step P inv (sort g) (hsort g inv.wf)
        have hlen := inv.perm.length_eq
        rw [List.length_append, hfil, ← inv.covered] at hlen
        have hk0 : 0 < k := hpos (by intro e; rw [e] at hlen; simp at hlen; omega)
        simp only [he]
        exact ih _ _ _ (hinv hk0) (by omega)
      · rw [if_neg hlt]
        exact ⟨groups, rfl, final g covered groups inv hlt⟩
  exact main fuel _ 0 [] (loopInv_start P h) (by omega)

/-- Why C27 excludes constant blocks: if the program lists a constant block, the loop never ends. -/
theorem recursiveOrdering_const_diverges [LinearOrder B] (P : Prog B) (h : P.WF)
    (hc : ∃ b ∈ P.blocks, P.isConst b = true) (sort : Graph B → List B)
    (hsort : ∀ g : Graph B, g.WF → g.TotallySorted (sort g)) (fuel : ℕ) :
    recursiveOrdering sort P fuel = .out := by
  have hlt : (P.blocks.filter fun b => !P.isConst b).length < P.blocks.length := by
    obtain ⟨b, hb, hcb⟩ := hc
    refine lt_of_le_of_ne (List.length_filter_le _ _) fun e => ?_
    have := List.length_filter_eq_length_iff.mp e b hb
    simp [hcb] at this
  have main : ∀ fuel (g : Graph B) covered groups,
      g.WF → g.NoLoops → covered + g.vertices.length < P.blocks.length →
      recursiveLoop sort P.blocks.length fuel g covered groups = .out := by
    intro fuel
    induction fuel with
    | zero =>
      intro g covered groups _ _ hle
      unfold recursiveLoop
      rw [if_pos (by omega)]
    | succ fuel ih =>
      intro g covered groups hw hl hle
      unfold recursiveLoop
      rw [if_pos (by omega)]
      obtain ⟨ord, k, he, hp, hk, hm, -⟩ := independentSetOrdering_valid g hw hl (sort g) (hsort g hw)
      have hnd : (ord.take k).Nodup := (hp.nodup_iff.mpr hw.nodup).sublist (List.take_sublist _ _)
      obtain ⟨r1, r2, r3, -⟩ := removeVertices_spec (ord.take k) hnd hw hl hm.subset
      have hlen := r3.length_eq
      rw [List.length_append, List.length_take] at hlen
      simp only [he]
      exact ih _ _ _ r1 r2 (by omega)
  refine main fuel _ 0 [] (hessianGraph_wf P h) (hessianGraph_noLoops P h) ?_
  rw [(hessianGraph_spec P h.nodup).1]
  omega

/-! ## Concrete cases -/

/-- Two cameras `10`, `11`, three points, a constant block `7`, and a prior on camera `10`. -/
def exProg : Prog ℕ :=
  ⟨[10, 0, 11, 1, 2, 7], fun b => b = 7, [[10, 0], [10, 1], [11, 1], [11, 2], [10], [7, 2]]⟩

theorem exProg_wf : exProg.WF := ⟨by decide, by decide, by decide⟩

/-- A sorting function that meets the guarantee of `std::sort`: insertion sort. -/
def exSort (g : Graph ℕ) : List ℕ :=
  g.vertices.insertionSort fun a b => g.degree a < g.degree b ∨ g.degree a = g.degree b ∧ a ≤ b

theorem exSort_sorted (g : Graph ℕ) : g.TotallySorted (exSort g) := by
  unfold exSort
  refine ⟨List.perm_insertionSort _ _, ?_⟩
  have hs : (List.insertionSort (fun a b => g.degree a < g.degree b ∨ g.degree a = g.degree b ∧ a ≤ b)
      g.vertices).Pairwise (fun a b => g.degree a < g.degree b ∨ g.degree a = g.degree b ∧ a ≤ b) := by
    have : Std.Total (fun a b => g.degree a < g.degree b ∨ g.degree a = g.degree b ∧ a ≤ b) :=
      ⟨fun a b => by omega⟩
    have : IsTrans ℕ (fun a b => g.degree a < g.degree b ∨ g.degree a = g.degree b ∧ a ≤ b) :=
      ⟨fun a b c => by omega⟩
    exact List.pairwise_insertionSort _ _
  refine hs.imp ?_
  intro a b hab
  unfold Graph.totalLess
  by_cases hd : g.degree b = g.degree a
  · rw [if_pos hd]; omega
  · rw [if_neg hd]; omega

example : computeSchurOrdering exSort exProg = some ([0, 2, 1, 10, 11, 7], 3) := by decide +kernel

example : (∀ g : Graph ℕ, g.WF → g.TotallySorted (exSort g)) := fun g _ => exSort_sorted g

/-- The same without the constant block. -/
def exProg2 : Prog ℕ := ⟨[10, 0, 11, 1, 2], fun _ => false, [[10, 0], [10, 1], [11, 1], [11, 2], [10]]⟩

theorem exProg2_wf : exProg2.WF := ⟨by decide, by decide, by decide⟩

example : recursiveOrdering exSort exProg2 5 = .done [[0, 2, 1], [10, 11]] := by decide +kernel

end Ceres.Graph
