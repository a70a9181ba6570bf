import Verif.Reorder.Model
import Mathlib.Tactic.Ring
import Mathlib.Tactic.Linarith

/-!
# C91: the block structure handed to the ordering libraries
-/
namespace Ceres.Reorder

variable {B R V : Type} [DecidableEq B] [DecidableEq V]

/-- The first `n` stored pairs of row and column. -/
def Triplets.entries (t : Triplets) (n : ℕ) : List (ℕ × ℕ) := (List.range n).map fun k => (t.rows k, t.cols k)

/-- The block structure of the transposed Jacobian for the residual blocks from `start` on: a pair of
the number of the parameter block and of the residual block, counted from `start`, for every argument
that is not constant. -/
def pattern (W : World B R V) (p : Program B R) (start : ℕ) : List (ℕ × ℕ) :=
  (p.residuals.drop start).zipIdx.flatMap fun r =>
    ((W.args r.1).filter fun b => !W.isConst b).map fun b => ((p.index b).getD 0, r.2)

/-- `t'` has what `t` has, and no more than there is memory for. -/
structure Grown (t t' : Triplets) (n n' : ℕ) (l : List (ℕ × ℕ)) : Prop where
  entries : t'.entries n' = t.entries n ++ l
  fits : n' ≤ t'.capacity
  pos : 0 < t'.capacity
  numRows : t'.numRows = t.numRows
  numCols : t'.numCols = t.numCols

theorem entries_congr {t t' : Triplets} {n : ℕ} (hr : ∀ i < n, t'.rows i = t.rows i)
    (hc : ∀ i < n, t'.cols i = t.cols i) : t'.entries n = t.entries n := by
  unfold Triplets.entries
  refine List.map_congr_left fun i hi => ?_
  rw [hr i (List.mem_range.1 hi), hc i (List.mem_range.1 hi)]

theorem sparsityStep_spec {isConst : B → Bool} {index : B → Option ℕ} {c : ℕ} {t : Triplets} {n : ℕ} {b : B}
    (hb : isConst b = false → ∃ i, index b = some i) (hn : n ≤ t.capacity) (hp : 0 < t.capacity) :
    ∃ t' n', sparsityStep isConst index c (t, n) b = some (t', n') ∧
      Grown t t' n n' (if isConst b then [] else [((index b).getD 0, c)]) := by
  unfold sparsityStep
  cases hc : isConst b with
  | true => exact ⟨t, n, rfl, ⟨by simp, hn, hp, rfl, rfl⟩⟩
  | false =>
    obtain ⟨i, hi⟩ := hb hc
    obtain ⟨u, hu, hcap, hrows, hcols, h1, h2⟩ : ∃ u : Triplets,
        makeRoom t n = some u ∧
        n < u.capacity ∧ (∀ k < n, u.rows k = t.rows k) ∧ (∀ k < n, u.cols k = t.cols k) ∧
        u.numRows = t.numRows ∧ u.numCols = t.numCols := by
      unfold makeRoom
      by_cases hge : n ≥ t.capacity
      · rw [if_pos hge]
        unfold Triplets.setNum
        rw [if_pos hn, Option.bind_some]
        unfold Triplets.reserve
        simp only
        rw [if_pos (by omega), if_neg (by omega)]
        exact ⟨_, rfl, by simp only; omega, fun k hk => if_pos hk, fun k hk => if_pos hk, rfl, rfl⟩
      · rw [if_neg hge]
        exact ⟨t, rfl, by omega, fun _ _ => rfl, fun _ _ => rfl, rfl, rfl⟩
    simp only [Bool.false_eq_true, if_false, hu, hi, Option.bind_some, if_pos hcap]
    refine ⟨_, _, rfl, ⟨?_, hcap, Nat.zero_lt_of_lt hcap, h1, h2⟩⟩
    unfold Triplets.entries
    rw [List.range_succ, List.map_append]
    congr 1
    · refine List.map_congr_left fun k hk => ?_
      have hk := List.mem_range.1 hk
      simp only [Function.update_of_ne (Nat.ne_of_lt hk), hrows k hk, hcols k hk]
    · simp

theorem sparsityRow_spec {isConst : B → Bool} {index : B → Option ℕ} {c : ℕ} (args : List B)
    (hb : ∀ b ∈ args, isConst b = false → ∃ i, index b = some i) {t : Triplets} {n : ℕ} (hn : n ≤ t.capacity)
    (hp : 0 < t.capacity) :
    ∃ t' n', args.foldlM (sparsityStep isConst index c) (t, n) = some (t', n') ∧
      Grown t t' n n' ((args.filter fun b => !isConst b).map fun b => ((index b).getD 0, c)) := by
  induction args generalizing t n with
  | nil => exact ⟨t, n, rfl, ⟨by simp, hn, hp, rfl, rfl⟩⟩
  | cons b args ih =>
    obtain ⟨t1, n1, h1, g1⟩ := sparsityStep_spec (c := c) (hb b (by simp)) hn hp
    obtain ⟨t2, n2, h2, g2⟩ := ih (fun b hb' => hb b (by simp [hb'])) g1.fits g1.pos
    refine ⟨t2, n2, ?_, ⟨?_, g2.fits, g2.pos, g2.numRows.trans g1.numRows, g2.numCols.trans g1.numCols⟩⟩
    · rw [List.foldlM_cons, h1]; exact h2
    · rw [g2.entries, g1.entries, List.append_assoc]
      cases hc : isConst b <;> simp [hc]

theorem sparsityLoop_spec {W : World B R V} {index : B → Option ℕ} (rs : List (R × ℕ))
    (hb : ∀ r ∈ rs, ∀ b ∈ W.args r.1, W.isConst b = false → ∃ i, index b = some i) {t : Triplets} {n : ℕ}
    (hn : n ≤ t.capacity) (hp : 0 < t.capacity) :
    ∃ t' n', rs.foldlM (fun s r => (W.args r.1).foldlM (sparsityStep W.isConst index r.2) s) (t, n) = some (t', n') ∧
      Grown t t' n n' (rs.flatMap fun r => ((W.args r.1).filter fun b => !W.isConst b).map fun b =>
        ((index b).getD 0, r.2)) := by
  induction rs generalizing t n with
  | nil => exact ⟨t, n, rfl, ⟨by simp, hn, hp, rfl, rfl⟩⟩
  | cons r rs ih =>
    obtain ⟨t1, n1, h1, g1⟩ := sparsityRow_spec (c := r.2) (W.args r.1) (hb r (by simp)) hn hp
    obtain ⟨t2, n2, h2, g2⟩ := ih (fun r hr => hb r (by simp [hr])) g1.fits g1.pos
    refine ⟨t2, n2, ?_, ⟨?_, g2.fits, g2.pos, g2.numRows.trans g1.numRows, g2.numCols.trans g1.numCols⟩⟩
    · rw [List.foldlM_cons, h1]; exact h2
    · rw [g2.entries, g1.entries, List.append_assoc, List.flatMap_cons]

/-- **C91.** For a program whose residual blocks depend, but for constant ones, on blocks of the
program, `CreateJacobianBlockSparsityTranspose` stays within its memory, however often it has to get
more, and what it returns is exactly the block structure of the residual blocks from `start` on. -/
theorem sparsity_exact (W : World B R V) (p : Program B R) (start : ℕ)
    (hb : ∀ r ∈ p.residuals, ∀ b ∈ W.args r, W.isConst b = false → ∃ i, p.index b = some i) :
    ∃ t, sparsityTranspose W p start = some t ∧ t.entries t.num = pattern W p start ∧ t.num ≤ t.capacity ∧
      t.numRows = p.blocks.length ∧ t.numCols = p.residuals.length - start := by
  unfold sparsityTranspose
  by_cases h0 : p.residuals.drop start = []
  · have hlen : p.residuals.length - start = 0 := by
      have := congrArg List.length h0
      simpa using this
    refine ⟨⟨p.blocks.length, p.residuals.length - start, fun _ => 0, fun _ => 0, 10 * (p.residuals.length - start), 0⟩,
      ?_, ?_, ?_⟩
    · simp only [h0, List.zipIdx_nil, List.foldlM_nil, Option.pure_def, Option.bind_eq_bind, Option.bind_some]
      exact if_pos (Nat.zero_le _)
    · simp [Triplets.entries, pattern, h0]
    · exact ⟨Nat.zero_le _, rfl, rfl⟩
  · have hlen : 0 < p.residuals.length - start := by
      have := List.length_pos_of_ne_nil h0
      simpa using this
    obtain ⟨t, n, h1, g⟩ := sparsityLoop_spec (W := W) (index := p.index) (p.residuals.drop start).zipIdx
      (fun r hr b hb' hc => hb r.1 (List.mem_of_mem_drop (List.mem_zipIdx hr |>.2.2 ▸ List.getElem_mem _)) b hb' hc)
      (t := ⟨p.blocks.length, p.residuals.length - start, fun _ => 0, fun _ => 0, 10 * (p.residuals.length - start), 0⟩)
      (n := 0) (Nat.zero_le _) (by simp only; omega)
    refine ⟨{ t with num := n }, ?_, ?_, g.fits, g.numRows, g.numCols⟩
    · simp only [h1, Option.bind_eq_bind, Option.bind_some]
      exact if_pos g.fits
    · have := g.entries
      simp only [Triplets.entries, List.range_zero, List.map_nil, List.nil_append] at this ⊢
      exact this

end Ceres.Reorder
