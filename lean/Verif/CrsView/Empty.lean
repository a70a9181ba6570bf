import Verif.CrsView.Main

/-!
# Row blocks without cells
-/
namespace Ceres.CrsView

open Ceres.BlockSparse

variable {K : Type}

theorem cells_gap (bs : BS) (size : ℕ) (cells : List Cell) (s : Scan) :
    (cells.foldl (scanCell bs size) s).gap = s.gap ∧
    (cells.foldl (scanCell bs size) s).undefined = s.undefined := by
  induction cells generalizing s with
  | nil => exact ⟨rfl, rfl⟩
  | cons c cells ih => rw [List.foldl_cons]; exact ih _

theorem row_gap (bs : BS) (s : Scan) (r : BRow) : (scanRow bs s r).gap = r.cells.isEmpty ∧
    (scanRow bs s r).undefined = (s.undefined || (s.gap && !r.cells.isEmpty)) :=
  cells_gap bs r.block.size r.cells _

theorem undefined_stays (bs : BS) (rows : List BRow) (s : Scan) (h : s.undefined = true) :
    (rows.foldl (scanRow bs) s).undefined = true := by
  induction rows generalizing s with
  | nil => exact h
  | cons r rs ih =>
    rw [List.foldl_cons]
    exact ih _ (by rw [(row_gap bs s r).2, h]; rfl)

/-- **A row block with cells after one without cells makes the constructor undefined**, whatever else is in the
matrix. -/
theorem gap_undefined {bs : BS} {a b : List BRow} {r r' : BRow} (h : bs.rows = a ++ r :: r' :: b)
    (hr : r.cells = []) (hr' : r'.cells ≠ []) : flatten bs = none := by
  unfold flatten
  rw [if_neg]
  rintro ⟨hu, -⟩
  rw [h, List.foldl_append, List.foldl_cons, List.foldl_cons, undefined_stays] at hu
  · cases hu
  · rw [(row_gap bs _ r').2, (row_gap bs _ r).1, hr]
    have : r'.cells.isEmpty = false := List.isEmpty_eq_false_iff.2 hr'
    simp [this]

/-- So a view of such a matrix is never made. -/
theorem gap_no_view {M : BMat K} {a b : List BRow} {r r' : BRow} (h : M.bs.rows = a ++ r :: r' :: b)
    (hr : r.cells = []) (hr' : r'.cells ≠ []) {o : Option (View K)} (hb : BuildRun M o) : o = none := by
  cases hb with
  | fails => rfl
  | built h1 => rw [gap_undefined h hr hr'] at h1; cases h1

/-! ## A thread that reads out of range -/

theorem drain {c : Call K} {b d : ℕ} {src : Src} {rest : List Op} (hb : b < numBatches) (n : ℕ) :
    ∀ (s : St K) (todo : List ℕ), todo.length = n → s.queue b = .memcpy d src todo :: rest →
      ∃ s', Relation.ReflTransGen (Step c) s s' ∧ s'.queue b = rest ∧ s'.host = s.host := by
  induction n with
  | zero =>
    intro s todo hn hq
    rw [List.length_eq_zero_iff.1 hn] at hq
    exact ⟨_, .single (.transferred hb hq), Function.update_self .., rfl⟩
  | succ n ih =>
    intro s todo hn hq
    obtain ⟨j, T, rfl⟩ := List.exists_cons_of_length_eq_add_one hn
    have hs := Step.transfer (c := c) hb hq (List.mem_cons_self : j ∈ j :: T)
    obtain ⟨s', h1, h2, h3⟩ := ih
      { s with
        gpu := Function.update s.gpu (d + j) (c.read s src j)
        queue := Function.update s.queue b (.memcpy d src ((j :: T).erase j) :: rest) }
      ((j :: T).erase j) (by rw [List.erase_cons_head]; simpa using hn)
      (Function.update_self (β := fun _ => List Op) b _ s.queue)
    exact ⟨s', .head hs h1, h2, h3⟩

/-- If the thread of a value of the first batch reads out of range, the copy may end so. -/
theorem copy_undefined {c : Call K} (hp : c.viaPinned = false) {id : ℕ} (h1 : id < c.num) (h2 : id < c.per)
    (h3 : c.dest id = none) (pinned gpu out : ℕ → K) : ∃ s, Reach c pinned gpu out s ∧ s.host = .undefined := by
  have a1 := Step.direct (c := c) (s := start pinned gpu out) (off := 0) (b := 0) rfl (by omega) hp
  have a2 := Step.launch (c := c) (s := { start pinned gpu out with host := .launch 0 0 }) rfl
  have hops : c.ops 0 0 = [.memcpy (c.slot 0) (c.src 0 0) (List.range (c.size 0)),
      .kernel (c.slot 0) 0 (List.range (c.size 0))] := by
    unfold Call.ops
    rw [hp]
    rfl
  obtain ⟨s', b1, b2, -⟩ := drain (c := c) (b := 0) (d := c.slot 0) (src := c.src 0 0)
    (rest := [.kernel (c.slot 0) 0 (List.range (c.size 0))]) (by decide : 0 < numBatches) _
    { start pinned gpu out with
      queue := Function.update (start pinned gpu out).queue 0 ((start pinned gpu out).queue 0 ++ c.ops 0 0)
      host := .batch (0 + c.per) ((0 + 1) % numBatches) } (List.range (c.size 0)) rfl (by
      show Function.update (β := fun _ => List Op) (fun _ => []) 0 ([] ++ c.ops 0 0) 0 = _
      rw [hops, Function.update_self]
      rfl)
  have a3 := Step.outOfRange (c := c) (s := s') (by decide : 0 < numBatches) b2
    (List.mem_range.2 (show id < c.size 0 by unfold Call.size; omega)) (by rw [Nat.zero_add]; exact h3)
  exact ⟨_, (Relation.ReflTransGen.head a1 (.head a2 b1)).tail a3, rfl⟩

end Ceres.CrsView
