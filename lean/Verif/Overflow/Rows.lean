import Verif.Overflow.Block

/-! # The compressed row Jacobian with machine integers, and the callers -/
namespace Ceres.Overflow

open Ceres.Evaluator

/-- The entries of a residual block. -/
def entriesOf (P : Prog) (rb : RB) : ℕ := ((activeArgs rb).map fun p => rb.numResiduals * P.size p.1).sum

theorem entriesOf_eq (P : Prog) (rb : RB) : entriesOf P rb = rb.numResiduals * P.width rb := by
  unfold entriesOf Prog.width
  induction activeArgs rb with
  | nil => rfl
  | cons p l ih => simp only [List.map_cons, List.sum_cons, ih, Nat.mul_add]

theorem nonzerosArgs_eq (P : Prog) (n : ℕ) (l : List (ℕ × ℕ)) (hb : ∀ p ∈ l, n * P.size p.1 ≤ intMax) (c : ℕ)
    (hc : c ≤ intMax) :
    nonzerosArgs P n l c = if c + (l.map fun p => n * P.size p.1).sum ≤ intMax then
      .ok (c + (l.map fun p => n * P.size p.1).sum) else .refused := by
  induction l generalizing c with
  | nil =>
    show Out.ok c = if c + 0 ≤ intMax then .ok (c + 0) else _
    rw [Nat.add_zero, if_pos hc]
  | cons p l ih =>
    obtain ⟨i, j⟩ := p
    have hp : n * P.size i ≤ intMax := hb (i, j) (by simp)
    rw [List.map_cons, List.sum_cons]
    unfold nonzerosArgs
    rw [mulInt_ok hp]
    show (if intMax < addUnsigned c (n * P.size i) then _ else _) = _
    rw [addUnsigned_eq hc hp]
    by_cases h : intMax < c + n * P.size i
    · rw [if_pos h, if_neg (by show ¬ c + (n * P.size i + _) ≤ _; omega)]
    · rw [if_neg h, ih (fun p hp => hb p (by simp [hp])) _ (not_lt.1 h)]
      simp only [Nat.add_assoc]

theorem nonzerosLoop_eq (P : Prog) (l : List RB)
    (hb : ∀ rb ∈ l, ∀ p ∈ activeArgs rb, rb.numResiduals * P.size p.1 ≤ intMax) (c : ℕ) (hc : c ≤ intMax) :
    nonzerosLoop P l c = if c + (l.map (entriesOf P)).sum ≤ intMax then .ok (c + (l.map (entriesOf P)).sum)
      else .refused := by
  induction l generalizing c with
  | nil =>
    show Out.ok c = if c + 0 ≤ intMax then .ok (c + 0) else _
    rw [Nat.add_zero, if_pos hc]
  | cons rb l ih =>
    rw [List.map_cons, List.sum_cons]
    unfold nonzerosLoop
    rw [nonzerosArgs_eq P _ _ (hb rb (by simp)) c hc]
    change (if c + entriesOf P rb ≤ intMax then Out.ok (c + entriesOf P rb) else .refused).bind _ = _
    by_cases h : c + entriesOf P rb ≤ intMax
    · rw [if_pos h]
      show nonzerosLoop P l _ = _
      rw [ih (fun r hr => hb r (by simp [hr])) _ h]
      simp only [Nat.add_assoc]
    · rw [if_neg h, if_neg (by omega)]
      rfl

theorem offset_size (P : Prog) (i : ℕ) : P.offset i + P.size i ≤ P.sizes.sum := by
  unfold Prog.offset Prog.size
  by_cases h : i < P.sizes.length
  · have h1 : (P.sizes.take (i + 1)).sum = (P.sizes.take i).sum + P.sizes.getD i 0 := by
      rw [List.take_add_one, List.sum_append, List.getD_eq_getElem?_getD, List.getElem?_eq_getElem h]
      simp
    have h2 : (P.sizes.take (i + 1)).sum + (P.sizes.drop (i + 1)).sum = P.sizes.sum := by
      rw [← List.sum_append, List.take_append_drop]
    omega
  · rw [List.take_of_length_le (by omega), List.getD_eq_getElem?_getD, List.getElem?_eq_none (by omega)]
    simp

theorem createLoop_eq {P : Prog} (hcols : P.sizes.sum ≤ intMax) (l : List RB)
    (hn : ∀ rb ∈ l, 0 < rb.numResiduals) (hnd : ∀ rb ∈ l, ((activeArgs rb).map Prod.fst).Nodup)
    (rows cols : ℕ → ℕ) (pos : ℕ) (hrows : rows pos + (l.map (entriesOf P)).sum ≤ intMax)
    (hpos : pos + (l.map RB.numResiduals).sum ≤ intMax) :
    ∃ r, Evaluator.createLoop P l rows cols pos = some r ∧ createLoop P l rows cols pos = .ok r := by
  induction l generalizing rows cols pos with
  | nil => exact ⟨_, rfl, rfl⟩
  | cons rb l ih =>
    rw [List.map_cons, List.sum_cons] at hrows hpos
    have hadj := (hasAdjacent_sortedIndices rb).2 (hnd rb (by simp))
    have hw := entriesOf_eq P rb
    have hwn : P.width rb ≤ rb.numResiduals * P.width rb := Nat.le_mul_of_pos_left _ (hn rb (by simp))
    obtain ⟨hs, -⟩ := setRows_spec rows pos rb.numResiduals (P.width rb)
    unfold Evaluator.createLoop createLoop
    rw [if_neg (by rw [hadj]; simp), if_neg (by rw [hadj]; simp)]
    simp only
    rw [if_pos]
    · refine ih (fun r hr => hn r (by simp [hr])) (fun r hr => hnd r (by simp [hr])) _ _ _ ?_ (by omega)
      rw [hs _ le_rfl]
      omega
    · rw [List.all_eq_true]
      intro a ha
      rw [decide_eq_true_eq]
      unfold computed at ha
      simp only [List.mem_append, List.mem_cons, List.not_mem_nil, or_false, List.mem_map, List.mem_range] at ha
      rcases ha with (((rfl | rfl) | ⟨j, hj, rfl⟩) | ⟨⟨p, v⟩, hpv, rfl⟩) | ⟨⟨p, v⟩, hpv, rfl⟩
      · omega
      · omega
      · rw [show pos + j + 1 = pos + (j + 1) by omega, hs _ hj]
        have := Nat.mul_le_mul_right (P.width rb) (show j + 1 ≤ rb.numResiduals from hj)
        exact (Nat.add_le_add_left this _).trans (by omega)
      · obtain ⟨r, x, hr, -, hx, rfl⟩ := blockStores_bound _ _ _ _ _ _ _ _ hpv
        rw [sortedIndices_width] at hx
        show setRows rows pos rb.numResiduals (P.width rb) (pos + r) + x ≤ _
        rw [hs _ (le_of_lt hr)]
        have := Nat.mul_le_mul_right (P.width rb) (show r + 1 ≤ rb.numResiduals from hr)
        rw [Nat.add_mul] at this
        omega
      · obtain ⟨S₁, i, j, S₂, r, c, -, -, hc, -, rfl⟩ := (mem_blockStores _ _ _ _ _ _ _ _).1 hpv
        have := offset_size P i
        show P.offset i + c ≤ _
        omega

theorem nodup_of_sane {P : Prog} (hP : Sane P) : ∀ rb ∈ P.residuals, ((activeArgs rb).map Prod.fst).Nodup := by
  exact fun rb hrb => (hP.ok rb hrb).1

theorem ok_bind {α β : Type} (a : α) (f : α → Out β) : (Out.ok a).bind f = f a := rfl

theorem check_passes {s e r : ℕ} (h : e ≤ intMax) (hr : r = e) : subUnsigned (s + e) s = r := by
  unfold intMax at h
  unfold subUnsigned
  omega

/-- **The compressed row Jacobian is refused exactly if its entries and columns together are too many for an
`int`**; otherwise it is made without overflow, as with unbounded integers, and no check fails. -/
theorem crs_exact {α : Type} [Zero α] {P : Prog} (hP : Sane P) :
    (intMax < entries P + P.sizes.sum ∧ createJacobian (α := α) P = .refused) ∨
    (entries P + P.sizes.sum ≤ intMax ∧ ∃ M : CRS α, Evaluator.createJacobian P = some M ∧
      createJacobian P = .ok M ∧ M.rows P.numRows = entries P) := by
  have hent : (P.residuals.map (entriesOf P)).sum = entries P := rfl
  unfold createJacobian
  rw [nonzerosLoop_eq P _ hP.block _ hP.cols, hent]
  by_cases h : P.sizes.sum + entries P ≤ intMax
  · right
    obtain ⟨r, hr, hr'⟩ := createLoop_eq hP.cols P.residuals hP.residuals (nodup_of_sane hP) (fun _ => 0)
      (fun _ => 0) 0 (by rw [hent]; show 0 + _ ≤ _; omega)
      (by rw [Nat.zero_add]; exact hP.rows)
    have hM : Evaluator.createJacobian (α := α) P = some ⟨r.1, r.2.1, fun _ => 0⟩ := by
      unfold Evaluator.createJacobian
      rw [hr]; rfl
    have hrows : r.1 P.numRows = entries P := by
      have := (createJacobian_spec hM).2.1
      simp only at this
      rw [this, ← hent]
      unfold baseOf
      rw [List.take_length]
      congr 1
      exact List.map_congr_left fun rb _ => (entriesOf_eq P rb).symm
    refine ⟨by omega, _, hM, ?_, hrows⟩
    rw [if_pos h, hr']
    rw [ok_bind, ok_bind, if_pos (check_passes (by omega) hrows)]
  · left
    refine ⟨by omega, ?_⟩
    rw [if_neg h]
    rfl

/-- **A solve with a Jacobian that is refused fails with an error**, whichever writer is used. -/
theorem setup_reports {α : Type} [Zero α] {P : Prog} (hP : Sane P) :
    (∀ ne, eEntries P ne ≤ intMax → intMax < entries P →
      setupMinimizer (buildLayout P ne) =
        .ok (.inl "Unable to create Jacobian matrix. Likely because it is too large.")) ∧
    (intMax < entries P + P.sizes.sum → setupMinimizer (createJacobian (α := α) P) =
        .ok (.inl "Unable to create Jacobian matrix. Likely because it is too large.")) := by
  refine ⟨fun ne he h => ?_, fun h => ?_⟩
  · rw [block_exact hP he, if_neg (not_le.2 h)]; rfl
  · rcases crs_exact (α := α) hP with ⟨-, h'⟩ | ⟨h', -⟩
    · rw [h']; rfl
    · omega

/-- **`Problem::Evaluate` with a Jacobian**: if the entries and columns fit, it writes the Jacobian if the
evaluation succeeds, and returns whether it does. -/
theorem evaluate_fits {α : Type} [Zero α] {P : Prog} (hP : Sane P) (h : entries P + P.sizes.sum ≤ intMax)
    (succeeds : Bool) :
    ∃ M : CRS α, Evaluator.createJacobian P = some M ∧
      evaluate P succeeds = .ok (succeeds, if succeeds then some M else none) := by
  rcases crs_exact (α := α) hP with ⟨h', -⟩ | ⟨-, M, h1, h2, -⟩
  · omega
  · refine ⟨M, h1, ?_⟩
    unfold evaluate
    rw [h2]

/-- **`Problem::Evaluate` of a Jacobian that is too large does not return false**: if the evaluation succeeds, a
null pointer is dereferenced. -/
theorem evaluate_crashes {α : Type} [Zero α] {P : Prog} (hP : Sane P) (h : intMax < entries P + P.sizes.sum) :
    evaluate (α := α) P true = .undefined ∧ evaluate (α := α) P false = .ok (false, none) := by
  rcases crs_exact (α := α) hP with ⟨-, h'⟩ | ⟨h', -⟩
  · unfold evaluate
    rw [h']
    exact ⟨rfl, rfl⟩
  · omega

end Ceres.Overflow
