import Verif.Program.Model
import Mathlib.Data.List.Basic
import Mathlib.Algebra.Group.Basic
import Mathlib.Tactic.Abel

/-!
# C05: removing fixed blocks preserves the objective
-/
namespace Ceres.Program

/-! ### Specification -/

/-- Sum of the costs of the residual blocks at `x`; `none` if one of them fails. -/
def totalCost {V C : Type} [Add C] [Zero C] (x : Nat → V) : List (RB V C) → Option C
  | [] => some 0
  | r :: rs =>
    match r.eval x, totalCost x rs with
    | some c, some d => some (c + d)
    | _, _ => none

/-- The residual depends on a parameter block that is not constant. -/
def Depends {V C : Type} (isConst : Nat → Bool) (r : RB V C) : Prop :=
  ∃ p ∈ r.params, isConst p = false

/-- The block is not constant and some residual depends on it. -/
def Used {V C : Type} (isConst : Nat → Bool) (rs : List (RB V C)) (p : Nat) : Prop :=
  isConst p = false ∧ ∃ r ∈ rs, p ∈ r.params

/-! ### Compaction is filtering -/

theorem compactLoop_eq {β : Type} (keep : β → Bool) (orig : List β) :
    ∀ (fuel i n : Nat) (arr : List β), arr.length = orig.length → fuel + i = orig.length →
      n ≤ i → arr.take n = (orig.take i).filter keep → arr.drop i = orig.drop i →
      compactLoop keep fuel i n arr = orig.filter keep := by
  intro fuel
  induction fuel with
  | zero =>
    intro i n arr hlen hfi hn ht hd
    have : i = orig.length := by omega
    subst this
    rw [List.take_length] at ht
    simp only [compactLoop]
    exact ht
  | succ fuel ih =>
    intro i n arr hlen hfi hn ht hd
    have hi : i < orig.length := by omega
    have hget : arr[i]? = some orig[i] := by
      have := congrArg (fun l : List β => l[0]?) hd
      simp only [List.getElem?_drop, Nat.add_zero] at this
      rw [this]
      exact List.getElem?_eq_getElem hi
    have htake : orig.take (i + 1) = orig.take i ++ [orig[i]] := by
      rw [List.take_add_one, List.getElem?_eq_getElem hi]; rfl
    simp only [compactLoop, hget]
    by_cases hk : keep orig[i] = true
    · rw [if_pos hk]
      apply ih (i + 1) (n + 1) (arr.set n orig[i])
      · simpa using hlen
      · omega
      · omega
      · rw [htake, List.filter_append, ← ht, List.take_add_one]
        congr 1
        · rw [List.take_set]
          exact List.set_eq_of_length_le (by simp)
        · rw [List.getElem?_set_self (by omega)]
          simp [hk]
      · rw [List.drop_set_of_lt (by omega)]
        rw [← List.drop_drop, ← List.drop_drop, hd]
    · rw [if_neg hk]
      apply ih (i + 1) n arr hlen (by omega) (by omega)
      · rw [htake, List.filter_append, ← ht]
        simp [hk]
      · rw [← List.drop_drop, ← List.drop_drop, hd]

theorem compact_eq {β : Type} (keep : β → Bool) (arr : List β) :
    compact keep arr = arr.filter keep :=
  compactLoop_eq keep arr arr.length 0 0 arr rfl (by omega) (Nat.le_refl _) (by simp) rfl

/-! ### Cost accounting -/

theorem not_allConstant {V C : Type} {isConst : Nat → Bool} {r : RB V C} :
    r.allConstant isConst = false ↔ Depends isConst r := by
  simp [RB.allConstant, Depends]

theorem eval_congr {V C : Type} {isConst : Nat → Bool} {r : RB V C} {x y : Nat → V}
    (hc : r.allConstant isConst = true) (hxy : ∀ p, isConst p = true → y p = x p) :
    r.eval y = r.eval x := by
  unfold RB.eval
  congr 1
  apply List.map_congr_left
  intro p hp
  exact hxy p (List.all_eq_true.1 hc p hp)

theorem fixedCost_total {V C : Type} [AddCommMonoid C] (isConst : Nat → Bool) (x y : Nat → V)
    (hxy : ∀ p, isConst p = true → y p = x p) (rs : List (RB V C)) (acc fc : C)
    (h : fixedCost isConst x rs acc = some fc) :
    (totalCost y rs).map (acc + ·) =
      (totalCost y (rs.filter (fun r => !r.allConstant isConst))).map (· + fc) := by
  induction rs generalizing acc with
  | nil =>
    simp only [fixedCost, Option.some.injEq] at h
    subst h
    simp [totalCost]
  | cons r rs ih =>
    simp only [fixedCost] at h
    by_cases hc : r.allConstant isConst = true
    · rw [if_pos hc] at h
      cases he : r.eval x with
      | none => rw [he] at h; simp at h
      | some c =>
        rw [he] at h
        have := ih (acc + c) h
        have hy : r.eval y = some c := by rw [eval_congr hc hxy, he]
        rw [List.filter_cons_of_neg (by simp [hc]), ← this]
        simp only [totalCost, hy]
        cases totalCost y rs with
        | none => rfl
        | some d => simp [add_assoc]
    · rw [if_neg hc] at h
      have := ih acc h
      rw [List.filter_cons_of_pos (by simp [hc])]
      simp only [totalCost]
      cases hy : r.eval y with
      | none => simp
      | some c =>
        cases h1 : totalCost y rs with
        | none =>
          rw [h1] at this
          cases h2 : totalCost y (rs.filter (fun r => !r.allConstant isConst)) with
          | none => rfl
          | some e => rw [h2] at this; simp at this
        | some d =>
          rw [h1] at this
          cases h2 : totalCost y (rs.filter (fun r => !r.allConstant isConst)) with
          | none => rw [h2] at this; simp at this
          | some e =>
            rw [h2] at this
            simp only [Option.map_some, Option.some.injEq] at this ⊢
            calc acc + (c + d) = c + (acc + d) := by abel
              _ = c + (e + fc) := by rw [this]
              _ = c + e + fc := by abel

theorem fixedCost_none {V C : Type} [AddCommMonoid C] (isConst : Nat → Bool) (x : Nat → V)
    (rs : List (RB V C)) (acc : C) : fixedCost isConst x rs acc = none ↔
      ∃ r ∈ rs, r.allConstant isConst = true ∧ r.eval x = none := by
  induction rs generalizing acc with
  | nil => simp [fixedCost]
  | cons r rs ih =>
    simp only [fixedCost, List.mem_cons, exists_eq_or_imp]
    by_cases hc : r.allConstant isConst = true
    · rw [if_pos hc]
      cases he : r.eval x with
      | none => simp [hc]
      | some c => simp [ih]
    · rw [if_neg hc, ih]
      simp [hc]

theorem mem_marked {V C : Type} {isConst : Nat → Bool} {rs : List (RB V C)} {p : Nat} :
    p ∈ marked isConst rs ↔ Used isConst rs p := by
  simp only [marked, Used, List.mem_flatMap, List.mem_filter, Bool.not_eq_true']
  constructor
  · rintro ⟨r, hr, hp, hc⟩; exact ⟨hc, r, hr, hp⟩
  · rintro ⟨hc, r, hr, hp⟩; exact ⟨r, hr, hp, hc⟩

/-- **C05.**  If the removal of fixed blocks succeeds then, in the original order, the reduced
program has exactly the residuals that depend on a non-constant block and exactly the
non-constant blocks used by a residual, the removed blocks are the others, and for every
assignment of the variable blocks (constant blocks keeping their value) the original cost is
the reduced cost plus the fixed cost; in particular one fails iff the other does. -/
theorem removeFixedBlocks_preserves {V C : Type} [AddCommMonoid C] (isConst : Nat → Bool)
    (x : Nat → V) (p : Prog V C) (red : Reduced V C)
    (h : removeFixedBlocks isConst x p = .ok red) :
    (∃ sel : RB V C → Bool, (∀ r, sel r = true ↔ Depends isConst r) ∧
      red.prog.rblocks = p.rblocks.filter sel) ∧
    (∃ sel : Nat → Bool, (∀ b, sel b = true ↔ Used isConst p.rblocks b) ∧
      red.prog.pblocks = p.pblocks.filter sel ∧
      red.removed = p.pblocks.filter (fun b => !sel b)) ∧
    (∀ y : Nat → V, (∀ b, isConst b = true → y b = x b) →
      totalCost y p.rblocks = (totalCost y red.prog.rblocks).map (· + red.fixedCost)) := by
  unfold removeFixedBlocks at h
  cases hf : fixedCost isConst x p.rblocks 0 with
  | none => rw [hf] at h; simp at h
  | some fc =>
    rw [hf] at h
    simp only [compact_eq] at h
    split at h
    · simp only [Except.ok.injEq] at h
      subst h
      refine ⟨⟨_, fun r => ?_, rfl⟩, ⟨fun b => decide (b ∈ marked isConst p.rblocks), fun b => ?_,
        rfl, ?_⟩, ?_⟩
      · rw [← not_allConstant]; simp
      · simp [mem_marked]
      · simp
      · intro y hy
        have := fixedCost_total isConst x y hy p.rblocks 0 fc hf
        simp only
        rw [← this]
        cases totalCost y p.rblocks <;> simp
    · simp at h

/-- **C05 (errors).**  The removal fails exactly when some residual all of whose blocks are
constant fails to evaluate; the internal "you found a bug" error never occurs as long as the
residuals only use blocks of the program. -/
theorem removeFixedBlocks_error {V C : Type} [AddCommMonoid C] (isConst : Nat → Bool)
    (x : Nat → V) (p : Prog V C) (hwf : ∀ r ∈ p.rblocks, ∀ b ∈ r.params, b ∈ p.pblocks) :
    removeFixedBlocks isConst x p ≠ .error .bug ∧
    (removeFixedBlocks isConst x p = .error .evaluation ↔
      ∃ r ∈ p.rblocks, ¬ Depends isConst r ∧ r.eval x = none) := by
  have hiff := fixedCost_none isConst x p.rblocks 0
  have hconv : (∃ r ∈ p.rblocks, ¬ Depends isConst r ∧ r.eval x = none) ↔
      ∃ r ∈ p.rblocks, r.allConstant isConst = true ∧ r.eval x = none := by
    simp only [← not_allConstant, Bool.not_eq_false]
  rw [hconv, ← hiff]
  unfold removeFixedBlocks
  cases hf : fixedCost isConst x p.rblocks 0 with
  | none => simp
  | some fc =>
    simp only [compact_eq]
    have hcond : ((p.rblocks.filter (fun r => !r.allConstant isConst)).length = 0 ∧
        (p.pblocks.filter (fun b => decide (b ∈ marked isConst p.rblocks))).length = 0) ∨
        ((p.rblocks.filter (fun r => !r.allConstant isConst)).length ≠ 0 ∧
        (p.pblocks.filter (fun b => decide (b ∈ marked isConst p.rblocks))).length ≠ 0) := by
      by_cases hd : ∃ r ∈ p.rblocks, Depends isConst r
      · right
        obtain ⟨r, hr, b, hb, hc⟩ := hd
        constructor
        · intro h0
          have hm : r ∈ p.rblocks.filter (fun r => !r.allConstant isConst) := by
            rw [List.mem_filter]
            refine ⟨hr, ?_⟩
            have := not_allConstant.2 ⟨b, hb, hc⟩
            simp [this]
          rw [List.length_eq_zero_iff.1 h0] at hm
          simp at hm
        · intro h0
          have hm : b ∈ p.pblocks.filter (fun b => decide (b ∈ marked isConst p.rblocks)) := by
            rw [List.mem_filter]
            refine ⟨hwf r hr b hb, ?_⟩
            simp only [decide_eq_true_eq]
            exact mem_marked.2 ⟨hc, r, hr, hb⟩
          rw [List.length_eq_zero_iff.1 h0] at hm
          simp at hm
      · left
        constructor
        · rw [List.length_eq_zero_iff, List.filter_eq_nil_iff]
          intro r hr hne
          apply hd
          exact ⟨r, hr, not_allConstant.1 (by simpa using hne)⟩
        · rw [List.length_eq_zero_iff, List.filter_eq_nil_iff]
          intro b hb hne
          obtain ⟨hc, r, hr, hbr⟩ := mem_marked.1 (by simpa using hne)
          exact hd ⟨r, hr, b, hbr, hc⟩
    rw [if_pos hcond]
    simp

/-- Non-vacuity: blocks 0 (constant), 1, 2 (unused); residuals on [0], [0,1]. -/
example : (removeFixedBlocks (V := Int) (C := Int) (fun b => b == 0) (fun b => b + 5)
    { pblocks := [0, 1, 2],
      rblocks := [⟨[0], fun l => some (l.sum)⟩, ⟨[0, 1], fun l => some (l.sum * 2)⟩] }).toOption.map
      (fun r => (r.prog.pblocks, r.prog.rblocks.length, r.removed, r.fixedCost)) =
    some ([1], 1, [0, 2], 5) := by decide

end Ceres.Program
