import Verif.SchurThreads.Layout

/-!
# A chunk as a list of additions to blocks
-/

noncomputable section

namespace Ceres.SchurThreads

open Matrix Ceres.Schur Ceres.Tasks

variable {sz : ℕ → ℕ}

/-- An addition to a cell or to a block of the right hand side. -/
inductive Op (sz : ℕ → ℕ) where
  | cell (x y : ℕ) (A : Matrix (Fin (sz x)) (Fin (sz y)) ℝ)
  | vec (x : ℕ) (v : Fin (sz x) → ℝ)

/-- The additions to the elements. -/
def Op.entries (has : ℕ → ℕ → Bool) : Op sz → List (Loc × ℝ)
  | .cell x y A => if has x y then matEntries A (lhsLoc x y) else []
  | .vec x v => vecEntries v (rhsLoc x)

/-- The addition in the sequential model. -/
def Op.apply (s : Lhs sz × BVec sz) : Op sz → Lhs sz × BVec sz
  | .cell x y A => (addCell s.1 x y A, s.2)
  | .vec x v => (s.1, addVec s.2 x v)

theorem apply_has (s : Lhs sz × BVec sz) (o : Op sz) : (o.apply s).1.has = s.1.has := by
  cases o with
  | cell x y A => exact addCell_has ..
  | vec x v => rfl

theorem apply_lhs (s : Lhs sz × BVec sz) (o : Op sz) (x y : ℕ) (i : Fin (sz x)) (j : Fin (sz y)) :
    (o.apply s).1.val x y i j = s.1.val x y i j + sumAt (o.entries s.1.has) (lhsLoc x y i j) := by
  cases o with
  | vec x' v =>
    rw [sumAt_of_not_mem, add_zero]
    · rfl
    · intro e he
      obtain ⟨i', rfl⟩ := mem_vecEntries.1 he
      exact nofun
  | cell x' y' A =>
    simp only [Op.apply, Op.entries, addCell]
    by_cases hh : s.1.has x' y'
    · rw [if_pos hh, if_pos hh]
      by_cases hx : x = x'
      · subst hx
        by_cases hy : y = y'
        · subst hy
          rw [sumAt_matEntries A (lhsLoc_inj x y)]
          simp
        · rw [sumAt_of_not_mem, add_zero]
          · simp [Function.update_of_ne hy]
          · intro e he h
            obtain ⟨i', j', rfl⟩ := mem_matEntries.1 he
            unfold lhsLoc at h
            simp only [Loc.lhs.injEq] at h
            exact hy h.2.1.symm
      · rw [sumAt_of_not_mem, add_zero]
        · simp [Function.update_of_ne hx]
        · intro e he h
          obtain ⟨i', j', rfl⟩ := mem_matEntries.1 he
          unfold lhsLoc at h
          simp only [Loc.lhs.injEq] at h
          exact hx h.1.symm
    · rw [if_neg hh, if_neg hh, Tasks.sumAt_nil, add_zero]

theorem apply_rhs (s : Lhs sz × BVec sz) (o : Op sz) (has : ℕ → ℕ → Bool) (x : ℕ) (i : Fin (sz x)) :
    (o.apply s).2 x i = s.2 x i + sumAt (o.entries has) (rhsLoc x i) := by
  cases o with
  | cell x' y' A =>
    rw [sumAt_of_not_mem, add_zero]
    · rfl
    · intro e he
      simp only [Op.entries] at he
      split_ifs at he
      · obtain ⟨i', j', rfl⟩ := mem_matEntries.1 he
        exact nofun
      · cases he
  | vec x' v =>
    simp only [Op.apply, Op.entries, addVec]
    by_cases hx : x = x'
    · subst hx
      rw [sumAt_vecEntries v (rhsLoc_inj x)]
      simp
    · rw [sumAt_of_not_mem, add_zero]
      · simp [Function.update_of_ne hx]
      · intro e he h
        obtain ⟨i', rfl⟩ := mem_vecEntries.1 he
        unfold rhsLoc at h
        simp only [Loc.rhs.injEq] at h
        exact hx h.1.symm

/-- The elements after a list of additions. -/
theorem foldl_apply (ops : List (Op sz)) (s : Lhs sz × BVec sz) :
    (ops.foldl Op.apply s).1.has = s.1.has ∧
    (∀ x y (i : Fin (sz x)) (j : Fin (sz y)), (ops.foldl Op.apply s).1.val x y i j =
      s.1.val x y i j + sumAt (ops.flatMap (Op.entries s.1.has)) (lhsLoc x y i j)) ∧
    ∀ x (i : Fin (sz x)), (ops.foldl Op.apply s).2 x i =
      s.2 x i + sumAt (ops.flatMap (Op.entries s.1.has)) (rhsLoc x i) := by
  induction ops generalizing s with
  | nil => exact ⟨rfl, fun _ _ _ _ => by simp [Tasks.sumAt_nil], fun _ _ => by simp [Tasks.sumAt_nil]⟩
  | cons o ops ih =>
    obtain ⟨h1, h2, h3⟩ := ih (o.apply s)
    rw [apply_has] at h1 h2 h3
    refine ⟨h1, fun x y i j => ?_, fun x i => ?_⟩
    · rw [List.foldl_cons, h2, apply_lhs, List.flatMap_cons, sumAt_append, add_assoc]
    · rw [List.foldl_cons, h3, apply_rhs _ _ s.1.has, List.flatMap_cons, sumAt_append, add_assoc]

/-- The additions of `EBlockRowOuterProduct` and `NoEBlockRowOuterProduct`. -/
def rowOuterOps {m : ℕ} : List (Cell sz m) → List (Op sz)
  | [] => []
  | c :: cs => .cell c.id c.id (c.valᵀ * c.val) ::
      (cs.map fun d => .cell c.id d.id (c.valᵀ * d.val)) ++ rowOuterOps cs

theorem rowOuterOps_apply {m : ℕ} (cs : List (Cell sz m)) (s : Lhs sz × BVec sz) :
    (rowOuterOps cs).foldl Op.apply s = (rowOuterProduct cs s.1, s.2) := by
  induction cs generalizing s with
  | nil => rfl
  | cons c cs ih =>
    have key : ∀ (ds : List (Cell sz m)) (s : Lhs sz × BVec sz),
        (ds.map fun d => Op.cell c.id d.id (c.valᵀ * d.val)).foldl Op.apply s =
        (ds.foldl (fun L d => addCell L c.id d.id (c.valᵀ * d.val)) s.1, s.2) := by
      intro ds
      induction ds with
      | nil => exact fun _ => rfl
      | cons d ds ih => intro s; rw [List.map_cons, List.foldl_cons, ih, List.foldl_cons]; rfl
    rw [rowOuterOps, List.cons_append, List.foldl_cons, List.foldl_append, key, ih]
    rfl

/-- The additions of `UpdateRhs`. -/
def rhsOps (e : ℕ) (v : Fin (sz e) → ℝ) (chunk : List (Row sz)) : List (Op sz) :=
  chunk.flatMap fun r => r.cells.tail.map fun c => .vec c.id (c.valᵀ *ᵥ (r.rhs - r.eCell e *ᵥ v))

theorem vecOps_apply {m : ℕ} (cs : List (Cell sz m)) (f : Cell sz m → Fin m → ℝ) (s : Lhs sz × BVec sz) :
    (cs.map fun c => Op.vec c.id (c.valᵀ *ᵥ f c)).foldl Op.apply s =
      (s.1, cs.foldl (fun rhs c => addVec rhs c.id (c.valᵀ *ᵥ f c)) s.2) := by
  induction cs generalizing s with
  | nil => rfl
  | cons c cs ih => rw [List.map_cons, List.foldl_cons, ih, List.foldl_cons]; rfl

theorem rhsOps_apply (e : ℕ) (v : Fin (sz e) → ℝ) (chunk : List (Row sz)) (s : Lhs sz × BVec sz) :
    (rhsOps e v chunk).foldl Op.apply s = (s.1, updateRhs e chunk v s.2) := by
  unfold rhsOps updateRhs
  induction chunk generalizing s with
  | nil => rfl
  | cons r rs ih =>
    rw [List.flatMap_cons, List.foldl_append, vecOps_apply r.cells.tail
      (fun _ => r.rhs - r.eCell e *ᵥ v), ih, List.foldl_cons]

/-- The additions of `ChunkOuterProduct`. -/
def outerOps {e : ℕ} (inverseEte : Matrix (Fin (sz e)) (Fin (sz e)) ℝ)
    (buffer : (f : ℕ) → Matrix (Fin (sz e)) (Fin (sz f)) ℝ) : List ℕ → List (Op sz)
  | [] => []
  | k :: ks => ((k :: ks).map fun k2 => .cell k k2 (-((buffer k)ᵀ * inverseEte * buffer k2))) ++
      outerOps inverseEte buffer ks

theorem outerOps_apply {e : ℕ} (inverseEte : Matrix (Fin (sz e)) (Fin (sz e)) ℝ)
    (buffer : (f : ℕ) → Matrix (Fin (sz e)) (Fin (sz f)) ℝ) (ks : List ℕ) (s : Lhs sz × BVec sz) :
    (outerOps inverseEte buffer ks).foldl Op.apply s =
      (chunkOuterProduct inverseEte buffer ks s.1, s.2) := by
  induction ks generalizing s with
  | nil => rfl
  | cons k ks ih =>
    have key : ∀ (ds : List ℕ) (s : Lhs sz × BVec sz),
        (ds.map fun k2 => Op.cell k k2 (-((buffer k)ᵀ * inverseEte * buffer k2))).foldl Op.apply s =
        (ds.foldl (fun L k2 => addCell L k k2 (-((buffer k)ᵀ * inverseEte * buffer k2))) s.1, s.2) := by
      intro ds
      induction ds with
      | nil => exact fun _ => rfl
      | cons d ds ih => intro s; rw [List.map_cons, List.foldl_cons, ih, List.foldl_cons]; rfl
    rw [outerOps, List.foldl_append, key, ih]
    rfl

/-- `EᵀF` of some rows, on top of `B`, as the code accumulates it. -/
def bufAfter (e : ℕ) (chunk : List (Row sz)) (B : (f : ℕ) → Matrix (Fin (sz e)) (Fin (sz f)) ℝ) :
    (f : ℕ) → Matrix (Fin (sz e)) (Fin (sz f)) ℝ :=
  fun f => B f + (chunk.map fun r => (r.eCell e)ᵀ * Schur.sumAt r.fCells f).sum

/-- All additions of a chunk. -/
def chunkOps (inv : Inverter) (D : Option (BVec sz)) (wantRhs : Bool) (ch : ℕ × List (Row sz)) :
    List (Op sz) :=
  (ch.2.flatMap fun r => rowOuterOps r.cells.tail) ++
    ((if wantRhs then rhsOps ch.1 (inv _ (eteOf D ch) *ᵥ gOf ch) ch.2 else []) ++
      outerOps (inv _ (eteOf D ch)) (bufOf ch) (bufferKeys ch.2))

theorem rowsOps_apply (e : ℕ) (chunk : List (Row sz)) (a : Acc sz e) (s : Lhs sz × BVec sz) :
    (chunk.flatMap fun r => rowOuterOps r.cells.tail).foldl Op.apply s =
      ((chunkDiagonalBlockAndGradient e chunk a s.1).2, s.2) := by
  unfold chunkDiagonalBlockAndGradient
  induction chunk generalizing s a with
  | nil => rfl
  | cons r rs ih =>
    rw [List.flatMap_cons, List.foldl_append, rowOuterOps_apply, ih, List.foldl_cons]

/-- In the sequential model a chunk makes these additions. -/
theorem chunkOps_apply (inv : Inverter) (D : Option (BVec sz)) (ch : ℕ × List (Row sz))
    (s : Lhs sz × BVec sz) :
    (chunkOps inv D true ch).foldl Op.apply s = eliminateChunk inv D s ch := by
  obtain ⟨h1, h2, h3, -, -⟩ := chunkDiag_spec ch.1 ch.2
    (⟨eteInit D ch.1, 0, fun _ => 0⟩ : Acc sz ch.1) s.1
  have e1 : (chunkDiagonalBlockAndGradient ch.1 ch.2 ⟨eteInit D ch.1, 0, fun _ => 0⟩ s.1).1.ete =
      eteOf D ch := h1
  have e2 : (chunkDiagonalBlockAndGradient ch.1 ch.2 ⟨eteInit D ch.1, 0, fun _ => 0⟩ s.1).1.g =
      gOf ch := by rw [h2, zero_add]; rfl
  have e3 : (chunkDiagonalBlockAndGradient ch.1 ch.2 ⟨eteInit D ch.1, 0, fun _ => 0⟩
      s.1).1.buffer = bufOf ch := by funext f; rw [h3, zero_add]; rfl
  unfold chunkOps eliminateChunk
  simp only [if_true]
  rw [List.foldl_append, List.foldl_append, rowsOps_apply ch.1 ch.2 ⟨eteInit D ch.1, 0, fun _ => 0⟩,
    rhsOps_apply, outerOps_apply, e1, e2, e3]

/-- The additions of `NoEBlockRowsUpdate`. -/
def noEOps (wantRhs : Bool) (rows : List (Row sz)) : List (Op sz) :=
  rows.flatMap fun r => rowOuterOps r.cells ++
    if wantRhs then r.cells.map fun c => .vec c.id (c.valᵀ *ᵥ r.rhs) else []

theorem noEOps_apply (rows : List (Row sz)) (s : Lhs sz × BVec sz) :
    (noEOps true rows).foldl Op.apply s = noEBlockRowsUpdate rows s := by
  unfold noEOps noEBlockRowsUpdate
  induction rows generalizing s with
  | nil => rfl
  | cons r rs ih =>
    rw [List.flatMap_cons, List.foldl_append, ih, List.foldl_append, rowOuterOps_apply, if_pos rfl,
      vecOps_apply r.cells (fun _ => r.rhs), List.foldl_cons]

end Ceres.SchurThreads
