import Verif.SchurThreads.Body
import Verif.Schur.Solve
import Mathlib.Algebra.BigOperators.Intervals

/-!
# The three parallel loops
-/

noncomputable section

namespace Ceres.SchurThreads

open Matrix Ceres.Schur Ceres.Tasks

variable {sz : ℕ → ℕ}

/-! ## The loop over the chunks in `Eliminate` -/

/-- What index `i` of the loop adds. -/
def chunkInc (inv : Inverter) (has : ℕ → ℕ → Bool) (D : Option (BVec sz)) (wantRhs : Bool)
    (chunks : List (ℕ × List (Row sz))) (i : ℕ) (l : Loc) : ℝ :=
  match chunks[i]? with
  | some ch => Tasks.sumAt ((chunkOps inv D wantRhs ch).flatMap (Op.entries has)) l
  | none => 0

theorem chunk_disciplined (inv : Inverter) (has : ℕ → ℕ → Bool) (D : Option (BVec sz)) (wantRhs : Bool)
    (chunks : List (ℕ × List (Row sz))) (threads : ℕ) (m : Mem) :
    Disciplined (chunkKind has (bufferSize chunks)) (chunkTask inv has D wantRhs threads chunks) 0 chunks.length
      threads m m (chunkInc inv has D wantRhs chunks) := by
  refine ⟨fun i tid _ hi _ p _ => ?_⟩
  unfold chunkTask chunkInc
  rw [List.getElem?_eq_getElem hi]
  obtain ⟨p', hr⟩ := ok_chunkBody (threads := threads) (free := decide (threads = 1)) (tid := tid) (i := i)
    (m0 := m) (has := has) (fun h => by simp [h]) inv D wantRhs chunks[i]
    (layout_le_bufferSize (List.getElem_mem hi)) p
  refine ⟨p', _, hr, ?_, fun l x _ => rfl⟩
  intro l hl
  cases l with
  | lhs x y i j => simp only [chunkKind] at hl; split_ifs at hl
  | _ => exact nomatch hl

/-! ## The loop over the diagonal -/

/-- The diagonal cells belong to their index. -/
def diagKind : Loc → Kind Mutex
  | .lhs x y _ _ => if x = y then .own x else .fixed
  | _ => .fixed

/-- `D²` of the block of a location. -/
def diagEntries (has : ℕ → ℕ → Bool) (D : BVec sz) (b : ℕ) : List (Loc × ℝ) :=
  if has b b then vecEntries (fun i => D b i ^ 2) fun i : Fin (sz b) => lhsLoc b b i i else []

/-- The memory after the loop. -/
def diagFin (has : ℕ → ℕ → Bool) (D : BVec sz) (m : Mem) : Mem
  | .lhs x y i j => m (.lhs x y i j) + if x = y then Tasks.sumAt (diagEntries has D x) (.lhs x y i j) else 0
  | l => m l

theorem diag_disciplined (has : ℕ → ℕ → Bool) (D : BVec sz) (ne nb threads : ℕ) (m : Mem) :
    Disciplined diagKind (diagTask has D) ne nb threads m (diagFin has D m) fun _ _ => 0 := by
  refine ⟨fun b tid _ _ _ p hp => ?_⟩
  have hown : ∀ l, diagKind l = .own b → ∃ i j, l = .lhs b b i j := by
    intro l hl
    cases l with
    | lhs x y i j =>
      simp only [diagKind] at hl
      split_ifs at hl with hxy
      simp only [Kind.own.injEq] at hl
      subst hxy hl
      exact ⟨i, j, rfl⟩
    | _ => exact nomatch hl
  refine ⟨addTo (diagEntries has D b) p, [], ?_, ?_, ?_⟩
  · unfold diagTask diagEntries
    by_cases hh : has b b
    · rw [if_pos hh, if_pos hh]
      refine runs_adds_mine _ ?_ (.ret _)
      intro e he
      obtain ⟨i, rfl⟩ := mem_vecEntries.1 he
      exact Or.inr (if_pos rfl)
    · rw [if_neg hh, if_neg hh]
      exact .ret _
  · intro l hl
    rw [addTo_eq, hp l hl]
    obtain ⟨i, j, rfl⟩ := hown l hl
    simp [diagFin]
  · intro l x hl
    cases l with
    | lhs x y i j => simp only [diagKind] at hl; split_ifs at hl
    | _ => exact nomatch hl

/-! ## The loop over the chunks in `BackSubstitute` -/

/-- The e blocks of the solution belong to the index of their chunk; f blocks are only read. -/
def backKind (chunks : List (ℕ × List (Row sz))) : Loc → Kind Mutex
  | .sol b i =>
    if i < sz b then
      match chunks.findIdx? fun ch => ch.1 = b with
      | some n => .own n
      | none => .fixed
    else .fixed
  | _ => .fixed

/-- The memory after the loop. -/
def backFin (inv : Inverter) (D : Option (BVec sz)) (chunks : List (ℕ × List (Row sz))) (m : Mem) : Mem
  | .sol b i =>
    if h : i < sz b then backSubstitute inv D (solOf m) (solOf m) chunks b ⟨i, h⟩ else m (.sol b i)
  | l => m l

theorem findIdx_chunk {chunks : List (ℕ × List (Row sz))} (hn : (chunks.map Prod.fst).Nodup) {i : ℕ}
    (hi : i < chunks.length) : (chunks.findIdx? fun ch => ch.1 = chunks[i].1) = some i := by
  rw [List.findIdx?_eq_some_iff_getElem]
  refine ⟨hi, by simp, fun j hj => ?_⟩
  simp only [decide_eq_true_eq]
  intro h
  have hj' : j < chunks.length := by omega
  have := (List.nodup_iff_injective_getElem.1 hn) (a₁ := ⟨j, by simpa using hj'⟩) (a₂ := ⟨i, by simpa using hi⟩)
    (by simpa using h)
  simp only [Fin.mk.injEq] at this
  omega

variable {kind : Loc → Kind Mutex} {free : Bool} {tid i : ℕ} {m0 : Mem}

theorem runs_residual {m : ℕ} (cs : List (Cell sz m))
    (hc : ∀ c ∈ cs, ∀ j : Fin (sz c.id), kind (solLoc c.id j) = .fixed) {k : (Fin m → ℝ) → Prog}
    {p p' : Mem} {a : List (Loc × ℝ)} :
    ∀ sj, Runs kind free tid i m0 none (k (cs.foldl (fun sj c => sj - c.val *ᵥ solOf m0 c.id) sj)) p p' a →
    Runs kind free tid i m0 none (residualCode cs sj k) p p' a := by
  induction cs with
  | nil => exact fun sj h => h
  | cons c cs ih =>
    intro sj h
    refine runs_readVec_fixed (hc c (by simp)) ?_
    exact ih (fun c hc' => hc c (by simp [hc'])) _ h

/-- One row of back substitution in the sequential model. -/
def backRow (e : ℕ) (z : BVec sz) (s : Matrix (Fin (sz e)) (Fin (sz e)) ℝ × (Fin (sz e) → ℝ)) (r : Row sz) :
    Matrix (Fin (sz e)) (Fin (sz e)) ℝ × (Fin (sz e) → ℝ) :=
  (s.1 + (r.eCell e)ᵀ * r.eCell e,
    s.2 + (r.eCell e)ᵀ *ᵥ r.cells.tail.foldl (fun sj c => sj - c.val *ᵥ z c.id) r.rhs)

theorem runs_backRows (e : ℕ) (rows : List (Row sz)) (he : ∀ j : Fin (sz e), Mine kind tid i (solLoc e j))
    (hc : ∀ r ∈ rows, ∀ c ∈ r.cells.tail, ∀ j : Fin (sz c.id), kind (solLoc c.id j) = .fixed)
    {k : Matrix (Fin (sz e)) (Fin (sz e)) ℝ → Prog} {Q : Mem → Prop} :
    ∀ (s : Matrix (Fin (sz e)) (Fin (sz e)) ℝ × (Fin (sz e) → ℝ)) (p : Mem),
    (∀ j, p (solLoc e j) = s.2 j) →
    (∀ p1, (∀ j, p1 (solLoc e j) = (rows.foldl (backRow e (solOf m0)) s).2 j) → ∃ p',
      Runs kind free tid i m0 none (k (rows.foldl (backRow e (solOf m0)) s).1) p1 p' [] ∧ Q p') →
    ∃ p', Runs kind free tid i m0 none (backRowsCode e rows s.1 k) p p' [] ∧ Q p' := by
  induction rows with
  | nil => exact fun s p hp h => h p hp
  | cons r rs ih =>
    intro s p hp h
    set sj := r.cells.tail.foldl (fun sj c => sj - c.val *ᵥ solOf m0 c.id) r.rhs with hsj
    obtain ⟨p', h1, h2⟩ := ih (fun r hr => hc r (by simp [hr])) (backRow e (solOf m0) s r)
      (addTo (vecEntries ((r.eCell e)ᵀ *ᵥ sj) (solLoc e)) p) (by
        intro j
        rw [addTo_eq, hp, sumAt_vecEntries _ (solLoc_inj e)]
        rfl) h
    refine ⟨p', ?_, h2⟩
    refine runs_residual _ (hc r (by simp)) _ ?_
    refine runs_adds_mine _ ?_ h1
    intro e' he'
    obtain ⟨j, rfl⟩ := mem_vecEntries.1 he'
    exact he j

theorem back_disciplined (inv : Inverter) (D : Option (BVec sz)) (chunks : List (ℕ × List (Row sz)))
    (hn : (chunks.map Prod.fst).Nodup)
    (hf : ∀ ch ∈ chunks, ∀ r ∈ ch.2, ∀ c ∈ r.cells.tail, c.id ∉ chunks.map Prod.fst)
    (threads : ℕ) (m : Mem) :
    Disciplined (backKind chunks) (backTask inv D chunks) 0 chunks.length threads m
      (backFin inv D chunks m) fun _ _ => 0 := by
  refine ⟨fun i tid _ hi _ p hp => ?_⟩
  have hidx := findIdx_chunk hn hi
  have hmem : chunks[i] ∈ chunks := List.getElem_mem hi
  set ch := chunks[i] with hch
  have hmine : ∀ j : Fin (sz ch.1), backKind chunks (solLoc ch.1 j) = .own i := by
    intro j
    unfold solLoc
    simp only [backKind]
    rw [if_pos j.isLt, hidx]
  have hfix : ∀ r ∈ ch.2, ∀ c ∈ r.cells.tail, ∀ j : Fin (sz c.id),
      backKind chunks (solLoc c.id j) = .fixed := by
    intro r hr c hc j
    have hnot := hf ch hmem r hr c hc
    have : (chunks.findIdx? fun ch => ch.1 = c.id) = none := by
      rw [List.findIdx?_eq_none_iff]
      intro x hx
      simp only [decide_eq_false_iff_not]
      exact fun h => hnot (List.mem_map.2 ⟨x, hx, h⟩)
    unfold solLoc
    simp only [backKind]
    rw [if_pos j.isLt, this]
  have hown : ∀ l, backKind chunks l = .own i → ∃ j : Fin (sz ch.1), l = solLoc ch.1 j := by
    intro l hl
    cases l with
    | sol b k =>
      simp only [backKind] at hl
      split_ifs at hl with hk
      cases hx : chunks.findIdx? fun ch => ch.1 = b with
      | none => rw [hx] at hl; exact nomatch hl
      | some n =>
        rw [hx] at hl
        simp only [Kind.own.injEq] at hl
        subst hl
        rw [List.findIdx?_eq_some_iff_getElem] at hx
        obtain ⟨h1, h2, -⟩ := hx
        simp only [decide_eq_true_eq] at h2
        subst h2
        exact ⟨⟨k, hk⟩, rfl⟩
    | _ => exact nomatch hl
  have hfin : ∀ j : Fin (sz ch.1), backFin inv D chunks m (solLoc ch.1 j) =
      backSubstituteChunk inv D (solOf m) (solOf m) ch ch.1 j := by
    intro j
    unfold solLoc
    simp only [backFin]
    rw [dif_pos j.isLt, (backSubstitute_spec inv D (solOf m) chunks hn (solOf m)).1 ch hmem,
      backSubstituteChunk_spec, Function.update_self]
  have key : ∃ p', Runs (backKind chunks) (decide (threads = 1)) tid i m none
      (backRowsCode ch.1 ch.2 (eteInit D ch.1) fun ete =>
        readVec (sz ch.1) (solLoc ch.1) fun y => writes (vecEntries (inv _ ete *ᵥ y) (solLoc ch.1)) .ret)
      p p' [] ∧ ∀ j, p' (solLoc ch.1 j) = backSubstituteChunk inv D (solOf m) (solOf m) ch ch.1 j := by
    refine runs_backRows ch.1 ch.2 (fun j => Or.inr (hmine j)) hfix
      (eteInit D ch.1, solOf m ch.1) p (fun j => hp _ (hmine j)) ?_
    intro p1 h1
    refine ⟨_, runs_readVec (fun j => Or.inr (hmine j)) (runs_writes _ ?_ (.ret _)), ?_⟩
    · intro e' he'
      obtain ⟨j, rfl⟩ := mem_vecEntries.1 he'
      exact Or.inr (hmine j)
    · intro j
      refine (setTo_of_mem (vecEntries_nodup (solLoc_inj ch.1)) (mem_vecEntries.2 ⟨j, rfl⟩)).trans ?_
      unfold backSubstituteChunk
      rw [Function.update_self]
      have : (fun j => p1 (solLoc ch.1 j)) =
          (ch.2.foldl (backRow ch.1 (solOf m)) (eteInit D ch.1, solOf m ch.1)).2 := funext h1
      rw [this]
      rfl
  obtain ⟨p', h1, h2⟩ := key
  refine ⟨p', [], ?_, ?_, fun l x hl => ?_⟩
  · unfold backTask
    rw [List.getElem?_eq_getElem hi]
    exact h1
  · intro l hl
    obtain ⟨j, rfl⟩ := hown l hl
    rw [h2, hfin]
  · cases l with
    | sol b k =>
      simp only [backKind] at hl
      split_ifs at hl
      cases hx : chunks.findIdx? fun ch => ch.1 = b with
      | none => rw [hx] at hl; exact nomatch hl
      | some n => rw [hx] at hl; exact nomatch hl
    | _ => exact nomatch hl

end Ceres.SchurThreads
