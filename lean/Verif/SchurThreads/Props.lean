import Verif.SchurThreads.Loops
import Verif.Tasks.Term
import Verif.Schur.Props

/-!
# The Schur solvers on several threads compute what they compute on one
-/

noncomputable section

namespace Ceres.SchurThreads

open Matrix Ceres.Schur Ceres.Tasks

variable {sz : ℕ → ℕ} {inv : Inverter} {ne nb : ℕ} {has : ℕ → ℕ → Bool} {rows : List (Row sz)}
  {D : Option (BVec sz)} {wantRhs : Bool} {threads : ℕ} {m : Mem}

/-! ## Sums over the chunks -/

theorem sum_getElem (f : ℕ × List (Row sz) → ℝ) (l : List (ℕ × List (Row sz))) :
    ∑ i ∈ Finset.Ico 0 l.length, (match l[i]? with | some a => f a | none => 0) = (l.map f).sum := by
  rw [← Finset.range_eq_Ico]
  induction l with
  | nil => rfl
  | cons a l ih =>
    rw [List.length_cons, Finset.sum_range_succ', List.map_cons, List.sum_cons, add_comm, ← ih]
    rfl

theorem chunkInc_sum (l : Loc) (chunks : List (ℕ × List (Row sz))) :
    ∑ i ∈ Finset.Ico 0 chunks.length, chunkInc inv has D wantRhs chunks i l =
      Tasks.sumAt ((chunks.flatMap (chunkOps inv D wantRhs)).flatMap (Op.entries has)) l := by
  rw [List.flatMap_assoc, sumAt_flatMap]
  exact sum_getElem _ _

theorem chunks_apply (chunks : List (ℕ × List (Row sz))) (s : Lhs sz × BVec sz) :
    (chunks.flatMap (chunkOps inv D true)).foldl Op.apply s = chunks.foldl (eliminateChunk inv D) s := by
  induction chunks generalizing s with
  | nil => rfl
  | cons ch chunks ih => rw [List.flatMap_cons, List.foldl_append, chunkOps_apply, ih, List.foldl_cons]

theorem entries_absent (ops : List (Op sz)) {x y i j : ℕ} (h : ¬ has x y) :
    Tasks.sumAt (ops.flatMap (Op.entries has)) (.lhs x y i j) = 0 := by
  refine sumAt_of_not_mem fun e he heq => ?_
  obtain ⟨o, -, ho⟩ := List.mem_flatMap.1 he
  cases o with
  | vec x v => obtain ⟨i, rfl⟩ := mem_vecEntries.1 ho; exact nomatch heq
  | cell x' y' A =>
    simp only [Op.entries] at ho
    split_ifs at ho with hh
    · obtain ⟨i', j', rfl⟩ := mem_matEntries.1 ho
      unfold lhsLoc at heq
      simp only [Loc.lhs.injEq] at heq
      rw [heq.1, heq.2.1] at hh
      exact h hh
    · cases ho

/-! ## The loops -/

/-- The loop over the diagonal of the f blocks returns with `D²` added. -/
theorem diag_result (D : BVec sz) (ht : 0 < threads) {o : Option Mem}
    (h : ForRun (diagTask has D) ne nb threads m o) : ∃ m', o = some m' ∧
      (∀ x y (i : Fin (sz x)) (j : Fin (sz y)), m' (.lhs x y i j) =
        m (.lhs x y i j) + if x = y ∧ (ne ≤ x ∧ x < nb) then
          Tasks.sumAt (diagEntries has D x) (.lhs x y i j) else 0) ∧
      (∀ l, (∀ x y i j, l ≠ .lhs x y i j) → m' l = m l) := by
  obtain ⟨m', h1, h2⟩ := forRun_result (diag_disciplined has D ne nb threads m) ht h
  refine ⟨m', h1, fun x y i j => ?_, fun l hl => h2.fixed l ?_⟩
  · by_cases hxy : x = y
    · rw [h2.own (.lhs x y i j) x (if_pos hxy)]
      by_cases hr : ne ≤ x ∧ x < nb
      · rw [if_pos hr, if_pos ⟨hxy, hr⟩]
        simp only [diagFin, if_pos hxy]
      · rw [if_neg hr, if_neg (fun h => hr h.2), add_zero]
    · rw [h2.fixed (.lhs x y i j) (if_neg hxy), if_neg (fun h => hxy h.1), add_zero]
  · cases l with
    | lhs x y i j => exact absurd rfl (hl x y i j)
    | _ => rfl

/-- The loop over the chunks returns with all additions made. -/
theorem chunk_result (chunks : List (ℕ × List (Row sz))) (ht : 0 < threads) {o : Option Mem}
    (h : ForRun (chunkTask inv has D wantRhs threads chunks) 0 chunks.length threads m o) :
    ∃ m', o = some m' ∧
      (∀ x y i j, m' (.lhs x y i j) = m (.lhs x y i j) +
        Tasks.sumAt ((chunks.flatMap (chunkOps inv D wantRhs)).flatMap (Op.entries has)) (.lhs x y i j)) ∧
      (∀ x i, m' (.rhs x i) = m (.rhs x i) +
        Tasks.sumAt ((chunks.flatMap (chunkOps inv D wantRhs)).flatMap (Op.entries has)) (.rhs x i)) ∧
      ∀ b i, m' (.sol b i) = m (.sol b i) := by
  obtain ⟨m', h1, h2⟩ := forRun_result (chunk_disciplined inv has D wantRhs chunks threads m) ht h
  refine ⟨m', h1, fun x y i j => ?_, fun x i => ?_, fun b i => h2.fixed _ rfl⟩
  · by_cases hh : has x y
    · rw [h2.sum (.lhs x y i j) (.cell x y) (if_pos hh), chunkInc_sum]
    · rw [h2.fixed (.lhs x y i j) (if_neg hh), entries_absent _ hh, add_zero]
  · rw [h2.sum (.rhs x i) (.rhs x) rfl, chunkInc_sum]

theorem ok_noE (rest : List (Row sz)) (p : Mem) :
    Ok has 1 true 0 0 m (noEBlockRowsCode threads has wantRhs rest) p
      ((noEOps wantRhs rest).flatMap (Op.entries has)) := by
  induction rest with
  | nil => exact ⟨p, .ret p⟩
  | cons r rs ih =>
    rw [noEBlockRowsCode, noEOps, List.flatMap_cons, List.flatMap_append, List.flatMap_append,
      List.append_assoc]
    refine ok_rowOuter (fun _ => rfl) _ ?_
    cases wantRhs with
    | false => exact ih
    | true =>
      simp only [if_true]
      have key : ∀ (cs : List (Cell sz r.size)) {k : Prog} {a : List (Loc × ℝ)}, Ok has 1 true 0 0 m k p a →
          Ok has 1 true 0 0 m
            (cs.foldr (fun c k => adds (vecEntries (c.valᵀ *ᵥ r.rhs) (rhsLoc c.id)) k) k) p
            ((cs.map fun c => Op.vec c.id (c.valᵀ *ᵥ r.rhs)).flatMap (Op.entries has) ++ a) := by
        intro cs
        induction cs with
        | nil => exact fun h => h
        | cons c cs ih =>
          intro k a h
          obtain ⟨p', hr⟩ := ih h
          rw [List.foldr_cons, List.map_cons, List.flatMap_cons, List.append_assoc]
          refine ⟨p', runs_adds_guarded (.rhs c.id) _ ?_ (Or.inr ⟨rfl, rfl⟩) hr⟩
          intro e he
          obtain ⟨j, rfl⟩ := mem_vecEntries.1 he
          rfl
      exact key r.cells ih

/-- `NoEBlockRowsUpdate` returns with all additions made. -/
theorem noE_result (rest : List (Row sz)) (m : Mem) : ∃ m',
    (noEBlockRowsCode threads has wantRhs rest).exec m (fun _ => false) = some (m', fun _ => false) ∧
      (∀ x y i j, m' (.lhs x y i j) = m (.lhs x y i j) +
        Tasks.sumAt ((noEOps wantRhs rest).flatMap (Op.entries has)) (.lhs x y i j)) ∧
      (∀ x i, m' (.rhs x i) = m (.rhs x i) +
        Tasks.sumAt ((noEOps wantRhs rest).flatMap (Op.entries has)) (.rhs x i)) ∧
      ∀ b i, m' (.sol b i) = m (.sol b i) := by
  obtain ⟨p', hr⟩ := ok_noE (threads := threads) (has := has) (wantRhs := wantRhs) (m := m) rest m
  obtain ⟨m', h1, -, h3, h4⟩ := exec_runs hr m (fun _ => false) (fun _ _ => rfl) (fun _ _ => rfl) (by simp)
  refine ⟨m', h1, fun x y i j => ?_, fun x i => h3 _ (.rhs x) rfl, fun b i => h4 _ ?_ nofun⟩
  · by_cases hh : has x y
    · exact h3 _ (.cell x y) (if_pos hh)
    · rw [entries_absent _ hh, add_zero]
      refine h4 _ ?_ ?_
      · rintro (h | h) <;> rw [chunkKind, if_neg hh] at h <;> exact nomatch h
      · intro x' h
        rw [chunkKind, if_neg hh] at h
        exact nomatch h
  · rintro (h | h) <;> exact nomatch h

/-! ## `Eliminate` -/

/-- The additions of the loop over the diagonal. -/
def diagOps (ne nb : ℕ) (D : Option (BVec sz)) : List (Op sz) :=
  match D with
  | some D => (List.range' ne (nb - ne)).map fun b => .cell b b (Matrix.diagonal fun i => D b i ^ 2)
  | none => []

theorem diagOps_apply : (diagOps ne nb D).foldl Op.apply (⟨has, fun _ _ => 0⟩, fun _ => 0) =
    eliminateInit ne nb has D := by
  cases D with
  | none => rfl
  | some D =>
    unfold diagOps eliminateInit
    simp only
    generalize (⟨has, fun _ _ => 0⟩ : Lhs sz) = L
    generalize List.range' ne (nb - ne) = l
    induction l generalizing L with
    | nil => rfl
    | cons b l ih => rw [List.map_cons, List.foldl_cons, List.foldl_cons]; exact ih _

/-- What the diagonal receives. -/
theorem diagOps_sum (D : BVec sz) (x y : ℕ) (i : Fin (sz x)) (j : Fin (sz y)) :
    Tasks.sumAt ((diagOps ne nb (some D)).flatMap (Op.entries has)) (.lhs x y i j) =
      if x = y ∧ (ne ≤ x ∧ x < nb) then Tasks.sumAt (diagEntries has D x) (.lhs x y i j) else 0 := by
  have h1 := (foldl_apply (diagOps ne nb (some D)) (⟨has, fun _ _ => 0⟩, fun _ => 0)).2.1 x y i j
  rw [diagOps_apply] at h1
  simp only [Matrix.zero_apply, zero_add] at h1
  have hsum : ∀ b, Tasks.sumAt ((Op.cell b b (Matrix.diagonal fun k : Fin (sz b) => D b k ^ 2)).entries has)
      (.lhs x y i j) = if b = x then (if x = y then Tasks.sumAt (diagEntries has D x) (.lhs x y i j) else 0)
        else 0 := by
    intro b
    simp only [Op.entries]
    by_cases hb : b = x
    · subst hb
      rw [if_pos rfl]
      by_cases hy : b = y
      · subst hy
        rw [if_pos rfl]
        unfold diagEntries
        by_cases hh : has b b
        · rw [if_pos hh, if_pos hh]
          have := sumAt_matEntries (Matrix.diagonal fun k : Fin (sz b) => D b k ^ 2) (lhsLoc_inj b b) i j
          unfold lhsLoc at this
          unfold lhsLoc
          rw [this]
          by_cases hij : i = j
          · subst hij
            rw [Matrix.diagonal_apply_eq]
            refine (sumAt_vecEntries (fun k => D b k ^ 2) (loc := fun k : Fin (sz b) => Loc.lhs b b k k) ?_ i).symm
            intro k k' hk
            simp only [Loc.lhs.injEq] at hk
            exact Fin.ext hk.2.2.1
          · rw [Matrix.diagonal_apply_ne _ hij, sumAt_of_not_mem]
            intro e he heq
            obtain ⟨k, rfl⟩ := mem_vecEntries.1 he
            simp only [Loc.lhs.injEq, true_and] at heq
            exact hij (Fin.ext (heq.1.symm.trans heq.2))
        · rw [if_neg hh, if_neg hh]
      · rw [if_neg hy]
        refine sumAt_of_not_mem fun e he heq => ?_
        split_ifs at he
        · obtain ⟨k, k', rfl⟩ := mem_matEntries.1 he
          unfold lhsLoc at heq
          simp only [Loc.lhs.injEq] at heq
          exact hy heq.2.1
        · cases he
    · rw [if_neg hb]
      refine sumAt_of_not_mem fun e he heq => ?_
      split_ifs at he
      · obtain ⟨k, k', rfl⟩ := mem_matEntries.1 he
        unfold lhsLoc at heq
        simp only [Loc.lhs.injEq] at heq
        exact hb heq.1
      · cases he
  unfold diagOps
  simp only
  rw [List.flatMap_map, sumAt_flatMap]
  simp only [hsum]
  have hr : ∀ l : List ℕ, l.Nodup → ∀ v : ℝ,
      (l.map fun b => if b = x then v else 0).sum = if x ∈ l then v else 0 := by
    intro l hl v
    induction l with
    | nil => rfl
    | cons b l ih =>
      rw [List.nodup_cons] at hl
      rw [List.map_cons, List.sum_cons, ih hl.2]
      by_cases hb : b = x
      · subst hb
        rw [if_pos rfl, if_neg hl.1, if_pos (by simp), add_zero]
      · rw [if_neg hb, zero_add]
        by_cases hx : x ∈ l
        · rw [if_pos hx, if_pos (by simp [hx])]
        · rw [if_neg hx, if_neg (by simp [hx, Ne.symm hb])]
  rw [hr _ (List.nodup_range' ..)]
  have hm : x ∈ List.range' ne (nb - ne) ↔ ne ≤ x ∧ x < nb := by rw [List.mem_range'_1]; omega
  by_cases h1 : x = y
  · subst h1
    by_cases h2 : ne ≤ x ∧ x < nb
    · rw [if_pos (hm.2 h2), if_pos rfl, if_pos ⟨rfl, h2⟩]
    · rw [if_neg (fun h => h2 (hm.1 h)), if_neg (fun h => h2 h.2)]
  · rw [if_neg h1, ite_self, if_neg (fun h => h1 h.1)]

/-! Additions to the right hand side do not touch the matrix, nor the other way round. -/

theorem entries_vec (ops : List (Op sz)) (h : ∀ o ∈ ops, ∃ x v, o = .vec x v) (x y i j : ℕ) :
    Tasks.sumAt (ops.flatMap (Op.entries has)) (.lhs x y i j) = 0 := by
  refine sumAt_of_not_mem fun e he heq => ?_
  obtain ⟨o, ho, ho'⟩ := List.mem_flatMap.1 he
  obtain ⟨x, v, rfl⟩ := h o ho
  obtain ⟨i, rfl⟩ := mem_vecEntries.1 ho'
  exact nomatch heq

theorem entries_cell (ops : List (Op sz)) (h : ∀ o ∈ ops, ∃ x y A, o = .cell x y A) (x i : ℕ) :
    Tasks.sumAt (ops.flatMap (Op.entries has)) (.rhs x i) = 0 := by
  refine sumAt_of_not_mem fun e he heq => ?_
  obtain ⟨o, ho, ho'⟩ := List.mem_flatMap.1 he
  obtain ⟨x, y, A, rfl⟩ := h o ho
  simp only [Op.entries] at ho'
  split_ifs at ho'
  · obtain ⟨i, j, rfl⟩ := mem_matEntries.1 ho'
    exact nomatch heq
  · cases ho'

theorem rowOuterOps_cell {n : ℕ} (cs : List (Cell sz n)) : ∀ o ∈ rowOuterOps cs, ∃ x y A, o = .cell x y A := by
  induction cs with
  | nil => exact fun o ho => nomatch ho
  | cons c cs ih =>
    intro o ho
    rw [rowOuterOps, List.cons_append, List.mem_cons, List.mem_append, List.mem_map] at ho
    rcases ho with rfl | ⟨d, -, rfl⟩ | h
    · exact ⟨_, _, _, rfl⟩
    · exact ⟨_, _, _, rfl⟩
    · exact ih o h

theorem outerOps_cell {e : ℕ} (A : Matrix (Fin (sz e)) (Fin (sz e)) ℝ)
    (B : (f : ℕ) → Matrix (Fin (sz e)) (Fin (sz f)) ℝ) (ks : List ℕ) :
    ∀ o ∈ outerOps A B ks, ∃ x y A, o = .cell x y A := by
  induction ks with
  | nil => exact fun o ho => nomatch ho
  | cons c cs ih =>
    intro o ho
    rw [outerOps, List.mem_append, List.mem_map] at ho
    rcases ho with ⟨d, -, rfl⟩ | h
    · exact ⟨_, _, _, rfl⟩
    · exact ih o h

theorem diagOps_cell : ∀ o ∈ diagOps ne nb D, ∃ x y A, o = .cell x y A := by
  intro o ho
  unfold diagOps at ho
  split at ho
  · obtain ⟨b, -, rfl⟩ := List.mem_map.1 ho
    exact ⟨_, _, _, rfl⟩
  · cases ho

/-- All additions of `Eliminate`. -/
def allOps (inv : Inverter) (ne nb : ℕ) (rows : List (Row sz)) (D : Option (BVec sz)) (wantRhs : Bool) :
    List (Op sz) :=
  diagOps ne nb D ++ ((detectChunks ne rows).1.flatMap (chunkOps inv D wantRhs) ++
    noEOps wantRhs (detectChunks ne rows).2)

theorem allOps_lhs (x y i j : ℕ) :
    Tasks.sumAt ((allOps inv ne nb rows D false).flatMap (Op.entries has)) (.lhs x y i j) =
      Tasks.sumAt ((allOps inv ne nb rows D true).flatMap (Op.entries has)) (.lhs x y i j) := by
  unfold allOps
  simp only [List.flatMap_append, sumAt_append]
  congr 2
  · simp only [List.flatMap_assoc, sumAt_flatMap]
    congr 2
    funext ch
    rw [← sumAt_flatMap, ← sumAt_flatMap]
    unfold chunkOps
    simp only [List.flatMap_append, sumAt_append, Bool.false_eq_true, if_false, if_true, List.flatMap_nil,
      Tasks.sumAt_nil]
    rw [entries_vec (rhsOps _ _ _)]
    intro o ho
    unfold rhsOps at ho
    obtain ⟨r, -, ho⟩ := List.mem_flatMap.1 ho
    obtain ⟨c, -, rfl⟩ := List.mem_map.1 ho
    exact ⟨_, _, rfl⟩
  · unfold noEOps
    simp only [List.flatMap_assoc, sumAt_flatMap]
    congr 2
    funext r
    rw [← sumAt_flatMap, ← sumAt_flatMap]
    simp only [List.flatMap_append, sumAt_append, Bool.false_eq_true, if_false, if_true, List.flatMap_nil,
      Tasks.sumAt_nil]
    rw [entries_vec (r.cells.map _)]
    intro o ho
    obtain ⟨c, -, rfl⟩ := List.mem_map.1 ho
    exact ⟨_, _, rfl⟩

theorem allOps_rhs (x i : ℕ) :
    Tasks.sumAt ((allOps inv ne nb rows D false).flatMap (Op.entries has)) (.rhs x i) = 0 := by
  refine entries_cell _ ?_ x i
  intro o ho
  unfold allOps at ho
  rw [List.mem_append, List.mem_append] at ho
  rcases ho with h | h | h
  · exact diagOps_cell o h
  · obtain ⟨ch, -, h⟩ := List.mem_flatMap.1 h
    unfold chunkOps at h
    rw [List.mem_append, List.mem_append] at h
    rcases h with h | h | h
    · obtain ⟨r, -, h⟩ := List.mem_flatMap.1 h
      exact rowOuterOps_cell _ o h
    · cases h
    · exact outerOps_cell _ _ _ o h
  · unfold noEOps at h
    obtain ⟨r, -, h⟩ := List.mem_flatMap.1 h
    rw [List.mem_append] at h
    rcases h with h | h
    · exact rowOuterOps_cell _ o h
    · cases h

theorem allOps_apply : (allOps inv ne nb rows D true).foldl Op.apply (⟨has, fun _ _ => 0⟩, fun _ => 0) =
    eliminate inv ne nb has rows D (detectChunks ne rows).1 := by
  unfold allOps eliminate
  rw [List.foldl_append, List.foldl_append, diagOps_apply, chunks_apply, noEOps_apply]

/-- `Eliminate` returns with all additions made to a zero system. -/
theorem eliminate_result (ht : 0 < threads) {o : Option Mem}
    (h : EliminateRun inv ne nb has rows D wantRhs threads m o) : ∃ m', o = some m' ∧
      (∀ x y (i : Fin (sz x)) (j : Fin (sz y)), m' (.lhs x y i j) =
        Tasks.sumAt ((allOps inv ne nb rows D wantRhs).flatMap (Op.entries has)) (.lhs x y i j)) ∧
      (∀ x i, m' (.rhs x i) = zeroed wantRhs m (.rhs x i) +
        Tasks.sumAt ((allOps inv ne nb rows D wantRhs).flatMap (Op.entries has)) (.rhs x i)) ∧
      ∀ b i, m' (.sol b i) = m (.sol b i) := by
  have hd : ∀ {o : Option Mem}, (match D with
      | some D => ForRun (diagTask has D) ne nb threads (zeroed wantRhs m)
      | none => fun o => o = some (zeroed wantRhs m)) o → ∃ m1, o = some m1 ∧
        (∀ x y (i : Fin (sz x)) (j : Fin (sz y)), m1 (.lhs x y i j) =
          Tasks.sumAt ((diagOps ne nb D).flatMap (Op.entries has)) (.lhs x y i j)) ∧
        ∀ l, (∀ x y i j, l ≠ .lhs x y i j) → m1 l = zeroed wantRhs m l := by
    intro o ho
    cases D with
    | none => exact ⟨_, ho, fun x y i j => rfl, fun _ _ => rfl⟩
    | some D =>
      obtain ⟨m1, h1, h2, h3⟩ := diag_result D ht ho
      refine ⟨m1, h1, fun x y i j => ?_, h3⟩
      rw [h2, diagOps_sum]
      exact zero_add _
  unfold EliminateRun at h
  cases h with
  | stuck h => obtain ⟨m1, h1, -⟩ := hd h; exact nomatch h1
  | next m1 _ h h' =>
    obtain ⟨m1, rfl', h2, h3⟩ := hd h
    cases rfl'
    cases h' with
    | stuck h => obtain ⟨m1, h1, -⟩ := chunk_result _ ht h; exact nomatch h1
    | next m2 _ h h' =>
      obtain ⟨m2, rfl', k2, k3, k4⟩ := chunk_result _ ht h
      cases rfl'
      obtain ⟨m3, e1, e2, e3, e4⟩ := noE_result (threads := threads) (has := has) (wantRhs := wantRhs)
        (detectChunks ne rows).2 m2
      rw [e1] at h'
      refine ⟨m3, h', fun x y i j => ?_, fun x i => ?_, fun b i => ?_⟩
      · rw [e2, k2, h2, allOps, List.flatMap_append, List.flatMap_append, sumAt_append, sumAt_append, add_assoc]
      · rw [e3, k3, h3 (.rhs x i) (fun _ _ _ _ h => nomatch h), allOps, List.flatMap_append, List.flatMap_append, sumAt_append, sumAt_append,
          entries_cell _ diagOps_cell, zero_add, add_assoc]
      · rw [e4, k4, h3 (.sol b i) (fun _ _ _ _ h => nomatch h)]; rfl

/-- **C77.**  On any number of threads, with any assignment of the chunks to threads and any interleaving of
their memory accesses, `Eliminate` returns and leaves in memory the reduced system of the sequential
elimination; it does not touch the solution. -/
theorem eliminate_threads (ht : 0 < threads) {o : Option Mem}
    (h : EliminateRun inv ne nb has rows D true threads m o) : ∃ m', o = some m' ∧
      (lhsOf has m', rhsOf m') = eliminate inv ne nb has rows D (detectChunks ne rows).1 ∧
      ∀ b i, m' (.sol b i) = m (.sol b i) := by
  obtain ⟨m', h1, h2, h3, h4⟩ := eliminate_result ht h
  refine ⟨m', h1, ?_, h4⟩
  obtain ⟨k1, k2, k3⟩ := foldl_apply (allOps inv ne nb rows D true) (⟨has, fun _ _ => 0⟩, fun _ => 0)
  rw [allOps_apply] at k1 k2 k3
  generalize eliminate inv ne nb has rows D (detectChunks ne rows).1 = S at *
  obtain ⟨⟨S1, S2⟩, S3⟩ := S
  dsimp only at k1 k2 k3
  subst k1
  unfold lhsOf rhsOf
  congr 2
  · funext x y
    ext i j
    rw [h2, k2, Matrix.zero_apply, zero_add]
    rfl
  · funext x i
    rw [h3, k3]
    rfl

/-- **C77.**  Without a right hand side (as the preconditioners call it), the matrix is the same and the
right hand side is not touched. -/
theorem eliminate_no_rhs_threads (ht : 0 < threads) {o : Option Mem}
    (h : EliminateRun inv ne nb has rows D false threads m o) : ∃ m', o = some m' ∧
      lhsOf has m' = (eliminate inv ne nb has rows D (detectChunks ne rows).1).1 ∧
      (∀ x i, m' (.rhs x i) = m (.rhs x i)) ∧ ∀ b i, m' (.sol b i) = m (.sol b i) := by
  obtain ⟨m', h1, h2, h3, h4⟩ := eliminate_result ht h
  refine ⟨m', h1, ?_, fun x i => ?_, h4⟩
  · obtain ⟨k1, k2, k3⟩ := foldl_apply (allOps inv ne nb rows D true) (⟨has, fun _ _ => 0⟩, fun _ => 0)
    rw [allOps_apply] at k1 k2 k3
    generalize eliminate inv ne nb has rows D (detectChunks ne rows).1 = S at *
    obtain ⟨⟨S1, S2⟩, S3⟩ := S
    dsimp only at k1 k2 k3
    subst k1
    unfold lhsOf
    congr 1
    funext x y
    ext i j
    rw [h2, k2, Matrix.zero_apply, zero_add, allOps_lhs]
    rfl
  · rw [h3, allOps_rhs, add_zero]
    rfl

/-! ## `BackSubstitute` and the solver -/

theorem chunks_tail (h : Ordered ne nb rows) : ∀ ch ∈ (detectChunks ne rows).1, ∀ r ∈ ch.2,
    ∀ c ∈ r.cells.tail, c.id ∉ (detectChunks ne rows).1.map Prod.fst := by
  intro ch hch r hr c hc hmem
  obtain ⟨ch', hch', he'⟩ := List.mem_map.1 hmem
  have h1 := (detectChunks_chunk ne rows ch' hch').1
  obtain ⟨h2, -, h3⟩ := detectChunks_chunk ne rows ch hch
  obtain ⟨c', cs, k1, -, -, k2⟩ := h.cells (detectChunks_mem ne rows hch hr) (h3 r hr)
  rw [k1, List.tail_cons] at hc
  have := k2 h2 c hc
  omega

/-- **C77.**  `BackSubstitute` returns with the answer of the sequential back substitution. -/
theorem back_threads (ho : Ordered ne nb rows) (ht : 0 < threads) {o : Option Mem}
    (h : BackRun inv ne rows D threads m o) : ∃ m', o = some m' ∧
      solOf m' = (backSubstitute inv D (solOf m) (solOf m) (detectChunks ne rows).1 : BVec sz) ∧
      ∀ l, (∀ b i, l ≠ .sol b i) → m' l = m l := by
  have hn := (detectChunks_ordered ho).1
  obtain ⟨m', h1, h2⟩ := forRun_result
    (back_disciplined inv D (detectChunks ne rows).1 hn (chunks_tail ho) threads m) ht h
  refine ⟨m', h1, ?_, fun l hl => h2.fixed l ?_⟩
  · funext b i
    unfold solOf
    cases hk : (detectChunks ne rows).1.findIdx? fun ch => ch.1 = b with
    | none =>
      rw [h2.fixed (.sol b i) (by simp only [backKind, if_pos i.2, hk])]
      rw [(backSubstitute_spec inv D _ _ hn _).2 b]
      intro hmem
      obtain ⟨ch, hch, rfl⟩ := List.mem_map.1 hmem
      rw [List.findIdx?_eq_none_iff] at hk
      simpa using hk ch hch
    | some n =>
      rw [h2.own (.sol b i) n (by simp only [backKind, if_pos i.2, hk])]
      have hlt : n < (detectChunks ne rows).1.length := by
        rw [List.findIdx?_eq_some_iff_getElem] at hk
        exact hk.1
      rw [if_pos ⟨Nat.zero_le _, hlt⟩]
      simp only [backFin, dif_pos i.2]
      rfl
  · cases l with
    | sol b i => exact absurd rfl (hl b i)
    | _ => rfl

/-- **C77.**  DENSE_SCHUR, SPARSE_SCHUR and ITERATIVE_SCHUR with an explicit Schur complement, on any number
of threads and for every schedule: the solver returns, with the termination type and the solution of the
sequential algorithm. -/
theorem solve_threads (ho : Ordered ne nb rows) (ht : 0 < threads)
    {reduced : Lhs sz → BVec sz → Schur.Term × BVec sz} {o : Option (Schur.Term × BVec sz)}
    (h : SolveRun inv ne nb has rows D reduced threads m o) :
    o = some (solve inv ne nb has rows D reduced (detectChunks ne rows).1 (detectChunks ne rows).1) := by
  have hstore : ∀ (z : BVec sz) (m1 : Mem), (∀ b i, m1 (.sol b i) = fillSol m (.sol b i)) →
      (solOf (storeReduced ne z m1) : BVec sz) = fun b => if ne ≤ b then z b else 0 := by
    intro z m1 hm
    funext b i
    unfold solOf
    simp only [storeReduced]
    by_cases hb : ne ≤ b
    · rw [dif_pos ⟨hb, i.2⟩, if_pos hb]
    · rw [dif_neg (fun h => hb h.1), if_neg hb, hm]
      rfl
  cases h with
  | eliminateStuck h => obtain ⟨m', h1, -⟩ := eliminate_threads ht h; exact nomatch h1
  | backStuck m1 h hs hb => obtain ⟨m', h1, -⟩ := back_threads ho ht hb; exact nomatch h1
  | done m1 m2 h hs hb =>
    obtain ⟨_, h1, h2, h3⟩ := eliminate_threads ht h
    cases h1
    obtain ⟨_, h4, h5, -⟩ := back_threads ho ht hb
    cases h4
    unfold solve
    simp only [← h2, hs, if_true]
    rw [h5, hstore _ _ h3]
  | failed m1 h hs =>
    obtain ⟨_, h1, h2, h3⟩ := eliminate_threads ht h
    cases h1
    unfold solve
    simp only [← h2, hs, if_false]
    rw [hstore _ _ h3]

/-- **C77.**  DENSE_SCHUR on any number of threads, for every schedule: the solver returns, and if it reports
success its answer minimises the linear least squares problem. -/
theorem dense_schur_threads (ho : Ordered ne nb rows) (hnb : ne ≤ nb) (hfull : FullRankE ne nb rows D)
    (hinv : InvertsFullRank inv) {reduced : Lhs sz → BVec sz → Schur.Term × BVec sz}
    (hr : ∀ L rhs, (reduced L rhs).1 = .success → SolvesReduced ne nb L rhs (reduced L rhs).2)
    (ht : 0 < threads) {o : Option (Schur.Term × BVec sz)}
    (h : SolveRun inv ne nb denseHas rows D reduced threads m o) :
    ∃ t x, o = some (t, x) ∧ (t = .success → ∀ w, cost nb rows D x ≤ cost nb rows D w) := by
  refine ⟨_, _, solve_threads ho ht h, fun hs w => ?_⟩
  exact dense_schur_minimises ho hnb hfull hinv (.refl _) (.refl _) hr hs w

/-- **C77.**  The same for SPARSE_SCHUR. -/
theorem sparse_schur_threads (ho : Ordered ne nb rows) (hnb : ne ≤ nb) (hfull : FullRankE ne nb rows D)
    (hinv : InvertsFullRank inv) {reduced : Lhs sz → BVec sz → Schur.Term × BVec sz}
    (hr : ∀ L rhs, (reduced L rhs).1 = .success → SolvesReduced ne nb L rhs (reduced L rhs).2)
    (ht : 0 < threads) {o : Option (Schur.Term × BVec sz)}
    (h : SolveRun inv ne nb (sparseHas ne nb rows) rows D reduced threads m o) :
    ∃ t x, o = some (t, x) ∧ (t = .success → ∀ w, cost nb rows D x ≤ cost nb rows D w) := by
  refine ⟨_, _, solve_threads ho ht h, fun hs w => ?_⟩
  exact sparse_schur_minimises ho hnb hfull hinv (.refl _) (.refl _) hr hs w

/-- **C77.**  If the Jacobian has full rank and the reduced solver succeeds on positive definite systems, then
on any number of threads, for every schedule, the answer is the one minimiser of the linear least squares
problem. -/
theorem schur_full_rank_threads (ho : Ordered ne nb rows) (hnb : ne ≤ nb) (hfull : FullRank nb rows D)
    (hinv : InvertsFullRank inv) (hhas : has = denseHas ∨ has = sparseHas ne nb rows)
    {reduced : Lhs sz → BVec sz → Schur.Term × BVec sz} (hr : SolvesPosDef ne nb reduced)
    (ht : 0 < threads) {o : Option (Schur.Term × BVec sz)}
    (h : SolveRun inv ne nb has rows D reduced threads m o) :
    ∃ x, o = some (.success, x) ∧ ∀ w, cost nb rows D x ≤ cost nb rows D w ∧
      (cost nb rows D w = cost nb rows D x → ∀ b < nb, w b = x b) := by
  obtain ⟨h1, h2⟩ := schur_full_rank ho hnb hfull hinv hhas (.refl _) (.refl _) hr
  refine ⟨_, ?_, h2⟩
  rw [solve_threads ho ht h, ← h1]

/-! ## Data races, deadlocks, termination -/

variable {blocks : ℕ} {s : St Loc Mutex ℝ}

/-- **C77.**  While the chunks are eliminated on several threads, no two threads are ever about to access the
same location, one of them to write; some thread can always go on; and every execution can be completed. -/
theorem chunks_race_free (chunks : List (ℕ × List (Row sz))) (ht : 1 < threads) (hb : 0 < blocks)
    (h : Reach ⟨0, chunks.length, threads, blocks⟩ (chunkTask inv has D wantRhs threads chunks) m s) :
    ¬ Race s ∧
    (s.par.returned = false →
      ∃ s', Step ⟨0, chunks.length, threads, blocks⟩ (chunkTask inv has D wantRhs threads chunks) s s') ∧
    ∃ s', Reach ⟨0, chunks.length, threads, blocks⟩ (chunkTask inv has D wantRhs threads chunks) m s' ∧
      s'.par.returned = true :=
  have T := chunk_disciplined inv has D wantRhs chunks threads m
  ⟨race_free (c := ⟨0, chunks.length, threads, blocks⟩) T ht hb (Nat.zero_le _) h,
    progress (c := ⟨0, chunks.length, threads, blocks⟩) T ht hb (Nat.zero_le _) h,
    returns (c := ⟨0, chunks.length, threads, blocks⟩) T ht hb (Nat.zero_le _) h⟩

/-- **C77.**  The same for the loop over the diagonal, -/
theorem diag_race_free (D : BVec sz) (hle : ne ≤ nb) (ht : 1 < threads) (hb : 0 < blocks)
    (h : Reach ⟨ne, nb, threads, blocks⟩ (diagTask has D) m s) :
    ¬ Race s ∧ (s.par.returned = false → ∃ s', Step ⟨ne, nb, threads, blocks⟩ (diagTask has D) s s') ∧
    ∃ s', Reach ⟨ne, nb, threads, blocks⟩ (diagTask has D) m s' ∧ s'.par.returned = true :=
  have T := diag_disciplined has D ne nb threads m
  ⟨race_free (c := ⟨ne, nb, threads, blocks⟩) T ht hb hle h,
    progress (c := ⟨ne, nb, threads, blocks⟩) T ht hb hle h,
    returns (c := ⟨ne, nb, threads, blocks⟩) T ht hb hle h⟩

/-- **C77.**  and for the back substitution. -/
theorem back_race_free (ho : Ordered ne nb rows) (ht : 1 < threads) (hb : 0 < blocks)
    (h : Reach ⟨0, (detectChunks ne rows).1.length, threads, blocks⟩
      (backTask inv D (detectChunks ne rows).1) m s) :
    ¬ Race s ∧
    (s.par.returned = false → ∃ s', Step ⟨0, (detectChunks ne rows).1.length, threads, blocks⟩
      (backTask inv D (detectChunks ne rows).1) s s') ∧
    ∃ s', Reach ⟨0, (detectChunks ne rows).1.length, threads, blocks⟩
      (backTask inv D (detectChunks ne rows).1) m s' ∧ s'.par.returned = true :=
  have T := back_disciplined inv D (detectChunks ne rows).1 (detectChunks_ordered ho).1 (chunks_tail ho) threads m
  ⟨race_free (c := ⟨0, (detectChunks ne rows).1.length, threads, blocks⟩) T ht hb (Nat.zero_le _) h,
    progress (c := ⟨0, (detectChunks ne rows).1.length, threads, blocks⟩) T ht hb (Nat.zero_le _) h,
    returns (c := ⟨0, (detectChunks ne rows).1.length, threads, blocks⟩) T ht hb (Nat.zero_le _) h⟩

/-- Where an access of a chunk may go: into the thread's slices of the buffers, within their
`buffer_size_ * num_threads_` elements, or to a block of the reduced system, with its mutex. -/
def Allowed (has : ℕ → ℕ → Bool) (size threads : ℕ) (held : Mutex → Option ℕ) (w tid : ℕ) : Loc → Prop
  | .lhs x y _ _ => has x y ∧ held (.cell x y) = some w
  | .rhs x _ => held (.rhs x) = some w
  | .buffer p => tid * size ≤ p ∧ p < tid * size + size ∧ p < size * threads
  | .outer p => tid * size ≤ p ∧ p < tid * size + size ∧ p < size * threads
  | .sol _ _ => False

/-- **C77.**  The memory written while the chunks are eliminated. -/
theorem chunks_writes (chunks : List (ℕ × List (Row sz))) (ht : 1 < threads) (hb : 0 < blocks)
    (h : Reach ⟨0, chunks.length, threads, blocks⟩ (chunkTask inv has D wantRhs threads chunks) m s)
    {w tid jobs i e : ℕ} (hc : Calling s.par w tid jobs i e) {l : Loc} {v : ℝ} {k : Prog}
    (hw : s.code w = .write l v k) : Allowed has (bufferSize chunks) threads s.held w tid l := by
  have T := chunk_disciplined inv has D wantRhs chunks threads m
  have h1 := (access_allowed (c := ⟨0, chunks.length, threads, blocks⟩) T ht hb (Nat.zero_le _) h hc).2 l v k hw
  have h2 := (calling_facts (c := ⟨0, chunks.length, threads, blocks⟩) (by dsimp only; omega) hb (Nat.zero_le _)
    (reach_par h) hc).2.2.2.1
  have hp := bufferSize_pos chunks
  have slice : ∀ p, p / bufferSize chunks = tid → tid * bufferSize chunks ≤ p ∧
      p < tid * bufferSize chunks + bufferSize chunks ∧ p < bufferSize chunks * threads := by
    rintro p rfl
    dsimp only at h2
    have h3 : p / bufferSize chunks * bufferSize chunks ≤ p := Nat.div_mul_le_self ..
    have h4 : p < p / bufferSize chunks * bufferSize chunks + bufferSize chunks := Nat.lt_div_mul_add hp
    refine ⟨h3, h4, ?_⟩
    rw [mul_comm]
    exact (Nat.div_lt_iff_lt_mul hp).1 h2
  rcases h1 with (h1 | h1) | ⟨x, h1, h3⟩ <;> cases l <;> simp only [chunkKind] at h1
  all_goals first
    | (split_ifs at h1 <;> cases h1) <;> first | exact ⟨by assumption, h3⟩ | skip
    | cases h1
  all_goals first | exact slice _ rfl | exact h3

/-- The reduced system, the solution and the buffers of the other threads can be read only under the same
rules; besides, nothing is read that another thread may write. -/
theorem chunks_reads (chunks : List (ℕ × List (Row sz))) (ht : 1 < threads) (hb : 0 < blocks)
    (h : Reach ⟨0, chunks.length, threads, blocks⟩ (chunkTask inv has D wantRhs threads chunks) m s)
    {w tid jobs i e : ℕ} (hc : Calling s.par w tid jobs i e) {p : ℕ} {f : ℝ → Prog}
    (hw : s.code w = .read (.buffer p) f ∨ s.code w = .read (.outer p) f) :
    tid * bufferSize chunks ≤ p ∧ p < tid * bufferSize chunks + bufferSize chunks ∧
      p < bufferSize chunks * threads := by
  have T := chunk_disciplined inv has D wantRhs chunks threads m
  have h1 := (access_allowed (c := ⟨0, chunks.length, threads, blocks⟩) T ht hb (Nat.zero_le _) h hc).1
  have h2 := (calling_facts (c := ⟨0, chunks.length, threads, blocks⟩) (by dsimp only; omega) hb (Nat.zero_le _)
    (reach_par h) hc).2.2.2.1
  have hp := bufferSize_pos chunks
  have key : p / bufferSize chunks = tid := by
    rcases hw with hw | hw <;> rcases h1 _ _ hw with (h1 | h1) | h1 | ⟨x, h1, -⟩ <;>
      simp only [chunkKind] at h1 <;> cases h1 <;> rfl
  subst key
  dsimp only at h2
  refine ⟨Nat.div_mul_le_self .., Nat.lt_div_mul_add hp, ?_⟩
  rw [mul_comm]
  exact (Nat.div_lt_iff_lt_mul hp).1 h2

/-! ## There are executions -/

/-- `Eliminate` has an execution, on any number of threads. -/
theorem eliminate_exists (ht : 0 < threads) :
    ∃ m', EliminateRun inv ne nb has rows D wantRhs threads m (some m') := by
  have hd : ∃ m1 : Mem, (match D with
      | some D => ForRun (diagTask has D) ne nb threads (zeroed wantRhs m)
      | none => fun o => o = some (zeroed wantRhs m)) (some m1) := by
    cases D with
    | none => exact ⟨_, rfl⟩
    | some D => exact forRun_exists (diag_disciplined has D ne nb threads _) ht
  obtain ⟨m1, h1⟩ := hd
  obtain ⟨m2, h2⟩ := forRun_exists
    (chunk_disciplined inv has D wantRhs (detectChunks ne rows).1 threads m1) ht
  obtain ⟨m3, h3, -⟩ := noE_result (threads := threads) (has := has) (wantRhs := wantRhs)
    (detectChunks ne rows).2 m2
  exact ⟨m3, .next m1 _ h1 (.next m2 _ h2 (by rw [h3]; rfl))⟩

/-- The solver has an execution, on any number of threads. -/
theorem solve_exists (ho : Ordered ne nb rows) (ht : 0 < threads)
    (reduced : Lhs sz → BVec sz → Schur.Term × BVec sz) (m : Mem) :
    ∃ o, SolveRun inv ne nb has rows D reduced threads m o := by
  obtain ⟨m1, h1⟩ := eliminate_exists (inv := inv) (ne := ne) (nb := nb) (has := has) (rows := rows) (D := D)
    (wantRhs := true) (m := fillSol m) ht
  by_cases hs : (reduced (lhsOf has m1) (rhsOf m1)).1 = .success
  · obtain ⟨m2, h2⟩ := forRun_exists (back_disciplined inv D (detectChunks ne rows).1
      (detectChunks_ordered ho).1 (chunks_tail ho) threads
      (storeReduced ne (reduced (lhsOf has m1) (rhsOf m1)).2 m1)) ht
    exact ⟨_, .done m1 m2 h1 hs h2⟩
  · exact ⟨_, .failed m1 h1 hs⟩

end Ceres.SchurThreads
