import Verif.Reorder.Witness

/-!
# C91: the matrices that are handed to Eigen for an ordering
-/
namespace Ceres.Reorder

open Ceres.Graph

variable {B R V : Type} [DecidableEq B] [DecidableEq V]

/-- The number of residual blocks of a list that depend on both parameter blocks. -/
def shared (W : World B R V) (l : List R) (a b : B) : ℤ :=
  ((l.filter fun r => decide (a ∈ W.args r) && decide (b ∈ W.args r)).length : ℤ)

theorem sum_ind {l : List B} (hl : l.Nodup) (f : B → Bool) {b : B} (hf : ∀ a ∈ l, f a = true ↔ a = b) :
    (l.map fun a => if f a = true then (1 : ℤ) else 0).sum = if b ∈ l then 1 else 0 := by
  induction l with
  | nil => simp
  | cons a l ih =>
    obtain ⟨h1, h2⟩ := List.nodup_cons.1 hl
    rw [List.map_cons, List.sum_cons, ih h2 fun x hx => hf x (by simp [hx])]
    by_cases hab : a = b
    · subst hab
      rw [if_pos ((hf a (by simp)).2 rfl), if_neg h1, if_pos (by simp)]
      rfl
    · rw [if_neg fun h => hab ((hf a (by simp)).1 h)]
      simp [List.mem_cons, Ne.symm hab]

/-- An entry is one if the residual block depends on the parameter block. -/
theorem blockJacobian_spec {W : World B R V} {p : Program B R} (hp : Reduced W p) {start : ℕ} {t : Triplets}
    (ht : sparsityTranspose W p start = some t) {k i : ℕ} {r : R} {b : B} (hr : (p.residuals.drop start)[k]? = some r)
    (hb : p.blocks[i]? = some b) : blockJacobian t k i = if b ∈ W.args r then 1 else 0 := by
  obtain ⟨t', ht', hent, -⟩ := sparsity_exact W p start
    (args_indexed hp (List.Perm.refl _) (List.Perm.refl _) hp.indexed)
  rw [ht] at ht'
  cases ht'
  have h1 : blockJacobian t k i = ((t.entries t.num).map fun e => if e.2 = k ∧ e.1 = i then (1 : ℤ) else 0).sum := by
    unfold blockJacobian Triplets.entries
    rw [List.map_map]
    rfl
  rw [h1, hent]
  unfold pattern
  rw [List.map_flatMap, List.flatMap_def, List.sum_flatten, List.map_map]
  obtain ⟨hk, hrk⟩ := List.getElem?_eq_some_iff.1 hr
  have hmem : ∀ x ∈ p.residuals.drop start, x ∈ p.residuals := fun x hx => List.mem_of_mem_drop hx
  have hbmem := List.mem_of_getElem? hb
  have hone : ((List.map (fun e : ℕ × ℕ => if e.2 = k ∧ e.1 = i then (1 : ℤ) else 0)
      (((W.args r).filter fun b => !W.isConst b).map fun b => ((p.index b).getD 0, k))).sum) =
      if b ∈ W.args r then 1 else 0 := by
    rw [List.map_map]
    have hrm := hmem r (List.mem_of_getElem? hr)
    have := sum_ind ((hp.argsNodup r hrm).filter fun b => !W.isConst b)
      (fun a => decide ((p.index a).getD 0 = i)) (b := b) (by
        intro a ha
        obtain ⟨ha1, ha2⟩ := List.mem_filter.1 ha
        obtain ⟨j, hj⟩ := Option.isSome_iff_exists.1
          (hp.indexed.isSome.2 (hp.closed r hrm a ha1 (by simpa using ha2)))
        rw [hj, Option.getD_some, decide_eq_true_eq]
        have hja := (hp.indexed a j).1 hj
        constructor
        · rintro rfl
          rw [hja] at hb
          exact Option.some.inj hb
        · rintro rfl
          have := (hp.indexed a i).2 hb
          rw [hj] at this
          exact Option.some.inj this)
    simp only [List.mem_filter, hp.isVar b hbmem, Bool.not_false, and_true] at this
    rw [← this]
    congr 1
    refine List.map_congr_left fun a _ => ?_
    simp [Function.comp]
  have := sum_zipIdx_single (p.residuals.drop start) (fun _ => if b ∈ W.args r then (1 : ℤ) else 0)
    (fun q => (List.map (fun e : ℕ × ℕ => if e.2 = k ∧ e.1 = i then (1 : ℤ) else 0)
      (((W.args q.1).filter fun b => !W.isConst b).map fun b => ((p.index b).getD 0, q.2))).sum)
    hk (by dsimp only; rw [hrk]; exact hone) 0 (by
      intro q _ hq
      rw [List.map_map]
      refine List.sum_eq_zero fun x hx => ?_
      obtain ⟨a, -, rfl⟩ := List.mem_map.1 hx
      simp only [Function.comp]
      rw [if_neg (fun h => hq (by omega))]) (by dsimp only; rw [Nat.zero_add, hrk]; exact hone)
  exact this

theorem sum_shared {W : World B R V} {l : List R} {a b : B} {f : ℕ → ℤ}
    (hf : ∀ k r, l[k]? = some r → f k = (if a ∈ W.args r then 1 else 0) * if b ∈ W.args r then 1 else 0) :
    ((List.range l.length).map f).sum = shared W l a b := by
  unfold shared
  induction l generalizing f with
  | nil => rfl
  | cons r l ih =>
    rw [List.length_cons, List.range_succ_eq_map, List.map_cons, List.sum_cons, List.map_map,
      ih (f := f ∘ Nat.succ) fun k x hk => hf (k + 1) x (by simpa using hk), hf 0 r rfl]
    by_cases ha : a ∈ W.args r <;> by_cases hb : b ∈ W.args r <;> simp [ha, hb]
    omega

/-- **C91.**  What Eigen gets for SPARSE_NORMAL_CHOLESKY and SUBSET is the structure of the normal equations of the
residual blocks from `start` on: two parameter blocks are adjacent if and only if one of these residual blocks depends on
both. -/
theorem blockHessian_spec {W : World B R V} {p : Program B R} (hp : Reduced W p) {start : ℕ} {t : Triplets}
    (ht : sparsityTranspose W p start = some t) {i j : ℕ} {a b : B} (ha : p.blocks[i]? = some a)
    (hb : p.blocks[j]? = some b) : (blockHessian t).entry i j = shared W (p.residuals.drop start) a b := by
  obtain ⟨t', ht', -, -, -, hcols⟩ := sparsity_exact W p start
    (args_indexed hp (List.Perm.refl _) (List.Perm.refl _) hp.indexed)
  rw [ht] at ht'
  cases ht'
  show ((List.range t.numCols).map _).sum = _
  rw [hcols, ← List.length_drop]
  refine sum_shared fun k r hr => ?_
  beta_reduce
  rw [blockJacobian_spec hp ht hr ha, blockJacobian_spec hp ht hr hb]

/-- **C91.**  What Eigen gets for SPARSE_SCHUR: the shared residual blocks of two parameter blocks that are not
eliminated, less, for every eliminated block, the product of the numbers that each shares with it. -/
theorem blockSchur_spec {W : World B R V} {p : Program B R} (hp : Reduced W p) {ne : ℕ} (hne : ne ≤ p.blocks.length)
    {t : Triplets} (ht : sparsityTranspose W p 0 = some t) {i j : ℕ} {a b : B} (ha : p.blocks[ne + i]? = some a)
    (hb : p.blocks[ne + j]? = some b) : (blockSchur t ne).entry i j = shared W p.residuals a b -
      ((p.blocks.take ne).map fun e => shared W p.residuals a e * shared W p.residuals e b).sum := by
  obtain ⟨t', ht', -, -, -, hcols⟩ := sparsity_exact W p 0
    (args_indexed hp (List.Perm.refl _) (List.Perm.refl _) hp.indexed)
  rw [ht] at ht'
  cases ht'
  have hlen : t.numCols = p.residuals.length := hcols
  have key : ∀ {i j : ℕ} {a b : B}, p.blocks[i]? = some a → p.blocks[j]? = some b →
      ((List.range t.numCols).map fun k => blockJacobian t k i * blockJacobian t k j).sum = shared W p.residuals a b := by
    intro i j a b ha hb
    rw [hlen]
    refine sum_shared fun k r hr => ?_
    have hr' : (p.residuals.drop 0)[k]? = some r := hr
    rw [blockJacobian_spec hp ht hr' ha, blockJacobian_spec hp ht hr' hb]
  show ((List.range t.numCols).map _).sum - ((List.range ne).map _).sum = _
  rw [key ha hb]
  congr 1
  have htake : p.blocks.take ne = (List.range ne).filterMap fun e => p.blocks[e]? := by
    refine List.ext_getElem? fun m => ?_
    have hmap : ((List.range ne).filterMap fun e => p.blocks[e]?) =
        (List.range ne).pmap (fun e (h : e < p.blocks.length) => p.blocks[e]) (fun e he => by
          have := List.mem_range.1 he; omega) := by
      have : ∀ (l : List ℕ) (hl : ∀ e ∈ l, e < p.blocks.length), (l.filterMap fun e => p.blocks[e]?) =
          l.pmap (fun e (h : e < p.blocks.length) => p.blocks[e]) hl := by
        intro l hl
        induction l with
        | nil => rfl
        | cons e l ih =>
          rw [List.filterMap_cons_some (b := p.blocks[e]'(hl e (by simp)))
            (List.getElem?_eq_getElem (hl e (by simp))), ih fun e he => hl e (by simp [he])]
          rfl
      exact this _ _
    rw [hmap]
    by_cases hm : m < ne
    · rw [List.getElem?_take, if_pos hm, List.getElem?_eq_getElem (by omega), List.getElem?_eq_getElem (by simpa using hm)]
      simp
    · rw [List.getElem?_eq_none (by simp; omega), List.getElem?_eq_none (by simp; omega)]
  rw [htake]
  have hall : ∀ l : List ℕ, (∀ e ∈ l, e < p.blocks.length) →
      (l.map fun e => ((List.range t.numCols).map fun k => blockJacobian t k (ne + i) * blockJacobian t k e).sum *
        ((List.range t.numCols).map fun k => blockJacobian t k e * blockJacobian t k (ne + j)).sum).sum =
      ((l.filterMap fun e => p.blocks[e]?).map fun e => shared W p.residuals a e * shared W p.residuals e b).sum := by
    intro l hl
    induction l with
    | nil => rfl
    | cons e l ih =>
      have he := List.getElem?_eq_getElem (hl e (by simp))
      rw [List.filterMap_cons_some (b := p.blocks[e]'(hl e (by simp))) he, List.map_cons, List.sum_cons, List.map_cons,
        List.sum_cons, ih fun e he => hl e (by simp [he]), key ha he, key he hb]
  exact hall _ fun e he => by have := List.mem_range.1 he; omega

/-- The two points of the scene share no residual block, a point and a camera do. -/
example : shared scene sceneProgram.residuals 2 3 = 0 ∧ shared scene sceneProgram.residuals 0 3 = 1 := by decide

end Ceres.Reorder
