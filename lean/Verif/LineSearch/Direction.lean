import Mathlib.Analysis.InnerProductSpace.Basic
import Mathlib.Tactic.LinearCombination
import Mathlib.Tactic.FieldSimp
import Mathlib.Tactic.Module

/-!
# Model of the line search directions
(line_search_direction.cc, line_search_direction.h, low_rank_inverse_hessian.cc)

Vectors are elements of an arbitrary real inner product space; arithmetic is exact.
-/
namespace Ceres.LineSearch

variable {V : Type} [NormedAddCommGroup V] [InnerProductSpace ℝ V]

local notation "⟪" x ", " y "⟫" => @inner ℝ _ _ x y

/-- `LineSearchMinimizer::State` (line_search_minimizer.h): what the directions read. -/
structure LSState (V : Type) where
  cost : ℝ
  gradient : V
  gradientSquaredNorm : ℝ
  gradientMaxNorm : ℝ
  searchDirection : V
  directionalDerivative : ℝ
  stepSize : ℝ

/-! ### Nonlinear conjugate gradients -/

/-- `NonlinearConjugateGradientType` (types.h). -/
inductive NCGType where
  | fletcherReeves
  | polakRibiere
  | hestenesStiefel
deriving DecidableEq

/-- The quotient `beta` as numerator and denominator (line_search_direction.cc:66-82). -/
noncomputable def ncgBeta (type : NCGType) (previous current : LSState V) : ℝ × ℝ :=
  match type with
  | .fletcherReeves => (current.gradientSquaredNorm, previous.gradientSquaredNorm)
  | .polakRibiere =>
    (⟪current.gradient, current.gradient - previous.gradient⟫, previous.gradientSquaredNorm)
  | .hestenesStiefel =>
    (⟪current.gradient, current.gradient - previous.gradient⟫,
      ⟪previous.searchDirection, current.gradient - previous.gradient⟫)

/-- `NonlinearConjugateGradient::NextDirection` (line_search_direction.cc:61-94); `none` is a
division by zero, after which the direction is not finite. -/
noncomputable def ncgNext (type : NCGType) (tol : ℝ) (previous current : LSState V) : Option V :=
  if (ncgBeta type previous current).2 = 0 then none
  else
    let d := -current.gradient +
      ((ncgBeta type previous current).1 / (ncgBeta type previous current).2) •
        previous.searchDirection
    if -tol < ⟪current.gradient, d⟫ then some (-current.gradient) else some d

/-! ### BFGS -/

/-- `kBFGSSecantConditionHessianUpdateTolerance`, `kLBFGSSecantConditionHessianUpdateTolerance`
(line_search_direction.cc:210, low_rank_inverse_hessian.cc:73). -/
noncomputable def secantTol : ℝ := 1 / 10 ^ 14

/-- The dense update `H + rho (B - A - A^T)` (line_search_direction.cc:294-314) of the inverse
Hessian as an operator: `A v = s <Hy, v>`, `A^T v = Hy <s, v>`, `B v = (1 + rho <y, Hy>) s <s, v>`.
Only the lower triangle is stored and read back as a symmetric matrix, so `y^T H` is `(H y)^T`. -/
noncomputable def bfgsUpdate (H : V → V) (s y : V) : V → V := fun v =>
  H v + (1 / ⟪s, y⟫) •
    ((1 + (1 / ⟪s, y⟫) * ⟪y, H y⟫) • (⟪s, v⟫ • s) - ⟪H y, v⟫ • s - ⟪s, v⟫ • H y)

/-- Members of `BFGS` (line_search_direction.cc:332-338). -/
structure BFGSState (V : Type) where
  useScaling : Bool
  inverseHessian : V → V
  initialized : Bool
  isPositiveDefinite : Bool

/-- Constructor (line_search_direction.cc:147-163). -/
def BFGSState.new (useScaling : Bool) : BFGSState V := ⟨useScaling, id, false, true⟩

/-- How `NextDirection` ends: a direction, the return value `false`, a failed `CHECK`, or a
direction that is not finite. -/
inductive Next (V : Type) where
  | ok (d : V)
  | failed
  | aborted
  | notFinite

/-- The update of the matrix in `BFGS::NextDirection` (line_search_direction.cc:173-315). -/
noncomputable def BFGSState.update (B : BFGSState V) (previous current : LSState V) :
    BFGSState V :=
  let s := previous.stepSize • previous.searchDirection
  let y := current.gradient - previous.gradient
  if ⟪s, y⟫ ≤ secantTol then B
  else
    { B with
      initialized := true
      inverseHessian :=
        bfgsUpdate
          (if B.initialized = false ∧ B.useScaling = true then
            fun v => (⟪s, y⟫ / ⟪y, y⟫) • B.inverseHessian v
           else B.inverseHessian) s y }

/-- `BFGS::NextDirection` (line_search_direction.cc:165-330). -/
noncomputable def BFGSState.next (B : BFGSState V) (previous current : LSState V) :
    BFGSState V × Next V :=
  if B.isPositiveDefinite = false then (B, .aborted)
  else
    let B' := B.update previous current
    let d := B'.inverseHessian (-current.gradient)
    if 0 ≤ ⟪d, current.gradient⟫ then
      ({ B' with
         isPositiveDefinite := false }, .failed)
    else (B', .ok d)

/-! ### L-BFGS -/

/-- Members of `LowRankInverseHessian` (low_rank_inverse_hessian.h): the list of column indices
and the columns. -/
structure LowRank (V : Type) where
  maxCorrections : ℕ
  useScaling : Bool
  scale : ℝ
  indices : List ℕ
  deltaX : ℕ → V
  deltaGradient : ℕ → V
  dots : ℕ → ℝ

/-- Constructor (low_rank_inverse_hessian.cc:75-85). -/
def LowRank.new (maxCorrections : ℕ) (useScaling : Bool) : LowRank V :=
  ⟨maxCorrections, useScaling, 1, [], fun _ => 0, fun _ => 0, fun _ => 0⟩

/-- The column the next correction goes to, and the remaining indices
(low_rank_inverse_hessian.cc:99-106).  (`front()` of an empty list cannot happen if
`max_num_corrections > 0`.) -/
def LowRank.slot (L : LowRank V) : ℕ × List ℕ :=
  if L.indices.length = L.maxCorrections then (L.indices.headD 0, L.indices.tail)
  else (L.indices.length, L.indices)

/-- `LowRankInverseHessian::Update` (low_rank_inverse_hessian.cc:87-115). -/
noncomputable def LowRank.update (L : LowRank V) (s y : V) : LowRank V :=
  if ⟪s, y⟫ ≤ secantTol then L
  else
    { L with
      indices := L.slot.2 ++ [L.slot.1]
      deltaX := Function.update L.deltaX L.slot.1 s
      deltaGradient := Function.update L.deltaGradient L.slot.1 y
      dots := Function.update L.dots L.slot.1 ⟪s, y⟫
      scale := ⟪s, y⟫ / ⟪y, y⟫ }

/-- The first loop of `RightMultiplyAndAccumulate` (low_rank_inverse_hessian.cc:127-132) over the
indices, newest first: the vector and the `alpha`s. -/
noncomputable def LowRank.loop1 (L : LowRank V) :
    List ℕ → V → (ℕ → ℝ) → V × (ℕ → ℝ)
  | [], d, alpha => (d, alpha)
  | i :: is, d, alpha =>
    let a := ⟪L.deltaX i, d⟫ / L.dots i
    L.loop1 is (d - a • L.deltaGradient i) (Function.update alpha i a)

/-- The second loop (low_rank_inverse_hessian.cc:172-176), oldest first. -/
noncomputable def LowRank.loop2 (L : LowRank V) (alpha : ℕ → ℝ) : List ℕ → V → V
  | [], d => d
  | i :: is, d =>
    let b := ⟪L.deltaGradient i, d⟫ / L.dots i
    L.loop2 alpha is (d + (alpha i - b) • L.deltaX i)

/-- `RightMultiplyAndAccumulate` (low_rank_inverse_hessian.cc:117-177). -/
noncomputable def LowRank.apply (L : LowRank V) (g : V) : V :=
  let r := L.loop1 L.indices.reverse g (fun _ => 0)
  let d := if L.useScaling then L.scale • r.1 else r.1
  L.loop2 r.2 L.indices d

/-- Members of `LBFGS` (line_search_direction.cc:140-143). -/
structure LBFGSState (V : Type) where
  hessian : LowRank V
  isPositiveDefinite : Bool

/-- `LBFGS::NextDirection` (line_search_direction.cc:111-138). -/
noncomputable def LBFGSState.next (B : LBFGSState V) (previous current : LSState V) :
    LBFGSState V × Next V :=
  if B.isPositiveDefinite = false then (B, .aborted)
  else
    let L := B.hessian.update (previous.stepSize • previous.searchDirection)
      (current.gradient - previous.gradient)
    let d := -(L.apply current.gradient)
    if 0 ≤ ⟪d, current.gradient⟫ then (⟨L, false⟩, .failed) else (⟨L, true⟩, .ok d)

/-! ### All directions -/

/-- A `LineSearchDirection` object. -/
inductive Direction (V : Type) where
  | steepest
  | ncg (type : NCGType) (tol : ℝ)
  | bfgs (s : BFGSState V)
  | lbfgs (s : LBFGSState V)

/-- `NextDirection` of each class (line_search_direction.cc:46-51, 61-94, 111-138, 165-330). -/
noncomputable def Direction.next (D : Direction V) (previous current : LSState V) :
    Direction V × Next V :=
  match D with
  | .steepest => (.steepest, .ok (-current.gradient))
  | .ncg type tol =>
    (.ncg type tol,
      match ncgNext type tol previous current with
      | some d => .ok d
      | none => .notFinite)
  | .bfgs s => (.bfgs (s.next previous current).1, (s.next previous current).2)
  | .lbfgs s => (.lbfgs (s.next previous current).1, (s.next previous current).2)

/-- The options of `LineSearchDirection::Create` (line_search_direction.cc:342-368,
line_search_direction.h:45-53; `function_tolerance` keeps its default `1e-12`). -/
inductive DirectionType where
  | steepest
  | ncg (type : NCGType)
  | bfgs (useScaling : Bool)
  | lbfgs (rank : ℕ) (useScaling : Bool)

/-- `LineSearchDirection::Create` (line_search_direction.cc:342-368). -/
noncomputable def Direction.create : DirectionType → Direction V
  | .steepest => .steepest
  | .ncg type => .ncg type (1 / 10 ^ 12)
  | .bfgs u => .bfgs (.new u)
  | .lbfgs r u => .lbfgs ⟨.new r u, true⟩

/-! ## Proofs -/

/-! ### Specification -/

/-- A symmetric positive definite operator. -/
structure SPD (H : V → V) : Prop where
  symm : ∀ v w, ⟪H v, w⟫ = ⟪v, H w⟫
  pos : ∀ v, v ≠ 0 → 0 < ⟪v, H v⟫
  add : ∀ v w, H (v + w) = H v + H w
  smul : ∀ (c : ℝ) v, H (c • v) = c • H v

/-- The BFGS formula of the textbook: `(I - rho s y^T) H (I - rho y s^T) + rho s s^T`. -/
noncomputable def bfgsFormula (H : V → V) (s y : V) : V → V := fun v =>
  H (v - (⟪s, v⟫ / ⟪s, y⟫) • y) -
    (⟪y, H (v - (⟪s, v⟫ / ⟪s, y⟫) • y)⟫ / ⟪s, y⟫) • s + (⟪s, v⟫ / ⟪s, y⟫) • s

theorem SPD.neg {H : V → V} (h : SPD H) (v : V) : H (-v) = -H v := by
  have := h.smul (-1) v
  simpa using this

theorem SPD.sub {H : V → V} (h : SPD H) (v w : V) : H (v - w) = H v - H w := by
  rw [sub_eq_add_neg, h.add, h.neg, sub_eq_add_neg]

theorem SPD.id : SPD (id : V → V) :=
  ⟨fun _ _ => rfl, fun v hv => real_inner_self_pos.mpr hv, fun _ _ => rfl, fun _ _ => rfl⟩

theorem SPD.scale {H : V → V} (h : SPD H) {c : ℝ} (hc : 0 < c) : SPD (fun v => c • H v) := by
  refine ⟨fun v w => ?_, fun v hv => ?_, fun v w => ?_, fun k v => ?_⟩
  · rw [real_inner_smul_left, real_inner_smul_right, h.symm]
  · rw [real_inner_smul_right]; exact mul_pos hc (h.pos v hv)
  · rw [h.add, smul_add]
  · rw [h.smul, smul_comm]

/-- **C64.** The dense update of the code is the BFGS formula. -/
theorem bfgsUpdate_eq {H : V → V} (h : SPD H) (s y : V) :
    bfgsUpdate H s y = bfgsFormula H s y := by
  funext v
  unfold bfgsUpdate bfgsFormula
  rw [h.sub, h.smul, inner_sub_right, real_inner_smul_right, h.symm y v]
  generalize ⟪y, H y⟫ = a
  generalize ⟪s, v⟫ = b
  generalize ⟪y, H v⟫ = c
  by_cases hr : ⟪s, y⟫ = 0
  · rw [hr]; simp
  generalize ⟪s, y⟫ = r at hr
  simp only [div_eq_mul_inv, one_mul]
  generalize r⁻¹ = q
  module

/-- The quadratic form after the update. -/
theorem bfgsFormula_quad {H : V → V} (h : SPD H) (s y v : V) (hr : ⟪s, y⟫ ≠ 0) :
    ⟪v, bfgsFormula H s y v⟫ =
      ⟪v - (⟪s, v⟫ / ⟪s, y⟫) • y, H (v - (⟪s, v⟫ / ⟪s, y⟫) • y)⟫ + ⟪s, v⟫ ^ 2 / ⟪s, y⟫ := by
  unfold bfgsFormula
  generalize hw : v - (⟪s, v⟫ / ⟪s, y⟫) • y = w
  rw [inner_add_right, inner_sub_right, real_inner_smul_right, real_inner_smul_right]
  conv_rhs => rw [← hw]
  rw [inner_sub_left, real_inner_smul_left, hw, real_inner_comm v s]
  field_simp

/-- **C64.** The BFGS update keeps the matrix symmetric positive definite, and it satisfies the
secant equation `H y = s`. -/
theorem bfgsUpdate_spd {H : V → V} (h : SPD H) {s y : V} (hr : 0 < ⟪s, y⟫) :
    SPD (bfgsUpdate H s y) ∧ bfgsUpdate H s y y = s := by
  refine ⟨⟨?_, ?_, ?_, ?_⟩, ?_⟩
  · intro v w
    unfold bfgsUpdate
    simp only [inner_add_left, inner_add_right, inner_sub_left, inner_sub_right,
      real_inner_smul_left, real_inner_smul_right, h.symm v w]
    rw [real_inner_comm v s, real_inner_comm w (H y), real_inner_comm v (H y)]
    ring
  · intro v hv
    rw [bfgsUpdate_eq h, bfgsFormula_quad h s y v hr.ne']
    by_cases hw : v - (⟪s, v⟫ / ⟪s, y⟫) • y = 0
    · rw [hw, inner_zero_left, zero_add]
      have hsv : ⟪s, v⟫ ≠ 0 := by
        intro h0
        rw [h0] at hw
        simp at hw
        exact hv hw
      positivity
    · have := h.pos _ hw
      have h2 : 0 ≤ ⟪s, v⟫ ^ 2 / ⟪s, y⟫ := by positivity
      linarith
  · intro v w
    unfold bfgsUpdate
    rw [h.add]
    simp only [inner_add_right]
    module
  · intro c v
    unfold bfgsUpdate
    rw [h.smul]
    simp only [real_inner_smul_right]
    module
  · rw [bfgsUpdate_eq h]
    unfold bfgsFormula
    rw [div_self hr.ne', one_smul, sub_self]
    have h0 : H 0 = 0 := by have := h.smul 0 0; simpa using this
    rw [h0]
    simp

/-! ### BFGS directions -/

/-- Invariant of a `BFGS` object. -/
def BFGSState.Good (B : BFGSState V) : Prop :=
  B.isPositiveDefinite = true ∧ SPD B.inverseHessian

theorem secantTol_pos : 0 < secantTol := by unfold secantTol; positivity

theorem BFGSState.new_good (u : Bool) : (BFGSState.new u : BFGSState V).Good := ⟨rfl, SPD.id⟩

theorem BFGSState.update_good {B : BFGSState V} (h : B.Good) (previous current : LSState V) :
    (B.update previous current).Good := by
  unfold BFGSState.update
  simp only
  split
  · exact h
  · next hs =>
    push Not at hs
    have hpos := lt_trans secantTol_pos hs
    refine ⟨h.1, (bfgsUpdate_spd ?_ hpos).1⟩
    split
    · refine h.2.scale (div_pos hpos (real_inner_self_pos.mpr ?_))
      intro h0
      rw [h0, inner_zero_right] at hpos
      exact lt_irrefl _ hpos
    · exact h.2

/-- **C64.** In exact arithmetic a BFGS object never fails and never aborts: as long as the
gradient is not zero it delivers a strict descent direction and stays positive definite. -/
theorem bfgs_next {B : BFGSState V} (h : B.Good) (previous current : LSState V)
    (hg : current.gradient ≠ 0) :
    (B.next previous current).1.Good ∧
      ∃ d, (B.next previous current).2 = .ok d ∧ ⟪current.gradient, d⟫ < 0 := by
  have hu := B.update_good h previous current
  have hneg : ⟪(B.update previous current).inverseHessian (-current.gradient),
      current.gradient⟫ < 0 := by
    rw [hu.2.neg, inner_neg_left, neg_lt_zero, real_inner_comm]
    exact hu.2.pos _ hg
  unfold BFGSState.next
  rw [if_neg (by rw [h.1]; simp)]
  simp only
  rw [if_neg (not_le.mpr hneg)]
  exact ⟨hu, _, rfl, by rw [real_inner_comm]; exact hneg⟩

/-- **C64.** After an update with a step that satisfies the secant condition the new matrix maps
the change of the gradient to the step. -/
theorem bfgs_secant {B : BFGSState V} (h : B.Good) (previous current : LSState V)
    (hs : secantTol < ⟪previous.stepSize • previous.searchDirection,
      current.gradient - previous.gradient⟫) :
    (B.update previous current).inverseHessian (current.gradient - previous.gradient) =
      previous.stepSize • previous.searchDirection := by
  unfold BFGSState.update
  simp only
  rw [if_neg (not_le.mpr hs)]
  have hpos := lt_trans secantTol_pos hs
  refine (bfgsUpdate_spd ?_ hpos).2
  split
  · refine h.2.scale (div_pos hpos (real_inner_self_pos.mpr ?_))
    intro h0
    rw [h0, inner_zero_right] at hpos
    exact lt_irrefl _ hpos
  · exact h.2

/-! ### The circular buffer of L-BFGS -/

/-- The corrections in the buffer, oldest first. -/
def LowRank.history (L : LowRank V) : List (V × V) :=
  L.indices.map fun i => (L.deltaX i, L.deltaGradient i)

/-- Invariant of the buffer. -/
structure LowRank.Inv (L : LowRank V) : Prop where
  nodup : L.indices.Nodup
  lt : ∀ i ∈ L.indices, i < L.maxCorrections
  fresh : L.indices.length < L.maxCorrections → L.indices = List.range L.indices.length
  dots_eq : ∀ i ∈ L.indices, L.dots i = ⟪L.deltaX i, L.deltaGradient i⟫
  dots_pos : ∀ i ∈ L.indices, 0 < ⟪L.deltaX i, L.deltaGradient i⟫
  scale_pos : 0 < L.scale

theorem LowRank.new_inv (m : ℕ) (u : Bool) : (LowRank.new m u : LowRank V).Inv :=
  ⟨List.nodup_nil, by simp [LowRank.new], fun _ => rfl, by simp [LowRank.new],
    by simp [LowRank.new], one_pos⟩

theorem LowRank.Inv.length_le {L : LowRank V} (h : L.Inv) :
    L.indices.length ≤ L.maxCorrections := by
  have := h.nodup.subperm (l₂ := List.range L.maxCorrections)
    (fun i hi => List.mem_range.mpr (h.lt i hi))
  simpa using this.length_le

theorem LowRank.slot_notMem {L : LowRank V} (h : L.Inv) (hm : 0 < L.maxCorrections) :
    L.slot.1 ∉ L.slot.2 ∧ L.slot.1 < L.maxCorrections ∧ (∀ i ∈ L.slot.2, i ∈ L.indices) ∧
      L.slot.2.Nodup := by
  unfold LowRank.slot
  have hn := h.nodup
  have hl := h.lt
  by_cases hf : L.indices.length = L.maxCorrections
  · rw [if_pos hf]
    cases hi : L.indices with
    | nil => rw [hi] at hf; simp at hf; omega
    | cons a l =>
      rw [hi] at hn hl
      rw [List.nodup_cons] at hn
      exact ⟨hn.1, hl a (by simp), fun i hi' => List.mem_cons_of_mem _ hi', hn.2⟩
  · rw [if_neg hf]
    have hlt : L.indices.length < L.maxCorrections := lt_of_le_of_ne h.length_le hf
    refine ⟨?_, hlt, fun i hi => hi, hn⟩
    intro hmem
    have := h.fresh hlt
    simp only at hmem
    rw [this, List.mem_range] at hmem
    simp at hmem

/-- **C49.** `Update` with a usable correction appends it to the history and drops the oldest
correction exactly when the buffer is full; an unusable one changes nothing. -/
theorem LowRank.update_spec {L : LowRank V} (h : L.Inv) (hm : 0 < L.maxCorrections) (s y : V) :
    (L.update s y).Inv ∧ (L.update s y).maxCorrections = L.maxCorrections ∧
      (L.update s y).history =
        if ⟪s, y⟫ ≤ secantTol then L.history
        else (if L.history.length = L.maxCorrections then L.history.tail else L.history)
          ++ [(s, y)] := by
  unfold LowRank.update
  by_cases hs : ⟪s, y⟫ ≤ secantTol
  · rw [if_pos hs, if_pos hs]; exact ⟨h, rfl, rfl⟩
  rw [if_neg hs, if_neg hs]
  push Not at hs
  have hpos := lt_trans secantTol_pos hs
  have hy : y ≠ 0 := by
    intro h0; rw [h0, inner_zero_right] at hpos; exact lt_irrefl _ hpos
  obtain ⟨n1, n2, n3, n4⟩ := L.slot_notMem h hm
  have hne : ∀ i ∈ L.slot.2, i ≠ L.slot.1 := fun i hi h' => n1 (h' ▸ hi)
  refine ⟨⟨?_, ?_, ?_, ?_, ?_, ?_⟩, rfl, ?_⟩
  · simp only
    rw [List.nodup_append]
    refine ⟨n4, by simp, ?_⟩
    intro a ha b hb
    rw [List.mem_singleton] at hb
    rw [hb]; exact hne a ha
  · intro i hi
    rcases List.mem_append.mp hi with h' | h'
    · exact h.lt i (n3 i h')
    · rw [List.mem_singleton.mp h']; exact n2
  · simp only [List.length_append, List.length_singleton]
    intro hlt
    have hnf : ¬ L.indices.length = L.maxCorrections := by
      intro hf
      unfold LowRank.slot at hlt
      rw [if_pos hf] at hlt
      simp only [List.length_tail] at hlt
      omega
    have h2 : L.slot = (L.indices.length, L.indices) := by
      unfold LowRank.slot; rw [if_neg hnf]
    rw [h2] at hlt ⊢
    simp only at hlt ⊢
    rw [List.range_succ, ← h.fresh (by omega)]
  · intro i hi
    simp only at hi ⊢
    rcases List.mem_append.mp hi with h' | h'
    · rw [Function.update_of_ne (hne i h'), Function.update_of_ne (hne i h'),
        Function.update_of_ne (hne i h')]
      exact h.dots_eq i (n3 i h')
    · rw [List.mem_singleton.mp h']; simp
  · intro i hi
    simp only at hi ⊢
    rcases List.mem_append.mp hi with h' | h'
    · rw [Function.update_of_ne (hne i h'), Function.update_of_ne (hne i h')]
      exact h.dots_pos i (n3 i h')
    · rw [List.mem_singleton.mp h']; simpa using hpos
  · exact div_pos hpos (real_inner_self_pos.mpr hy)
  · unfold LowRank.history
    simp only [List.map_append, List.map_cons, List.map_nil, Function.update_self]
    congr 1
    have hmap : L.slot.2.map (fun i => (Function.update L.deltaX L.slot.1 s i,
        Function.update L.deltaGradient L.slot.1 y i)) =
        L.slot.2.map fun i => (L.deltaX i, L.deltaGradient i) := by
      apply List.map_congr_left
      intro i hi
      rw [Function.update_of_ne (hne i hi), Function.update_of_ne (hne i hi)]
    rw [hmap]
    unfold LowRank.slot
    rw [List.length_map]
    by_cases hf : L.indices.length = L.maxCorrections
    · rw [if_pos hf, if_pos hf, List.map_tail]
    · rw [if_neg hf, if_neg hf]

/-- The corrections a sequence of updates accepts. -/
noncomputable def usable (us : List (V × V)) : List (V × V) :=
  us.filter fun p => !decide (⟪p.1, p.2⟫ ≤ secantTol)

/-- **C49.** After any sequence of updates the L-BFGS memory holds exactly the last
`max_lbfgs_rank` corrections that satisfy the secant condition, in order. -/
theorem lbfgs_memory (m : ℕ) (hm : 0 < m) (u : Bool) (us : List (V × V)) :
    let L := us.foldl (fun L p => L.update p.1 p.2) (LowRank.new m u : LowRank V)
    L.Inv ∧ L.maxCorrections = m ∧
      L.history = (usable us).drop ((usable us).length - m) := by
  induction us using List.reverseRecOn with
  | nil => exact ⟨LowRank.new_inv m u, rfl, by simp [usable, LowRank.history, LowRank.new]⟩
  | append_singleton us p ih =>
    simp only [List.foldl_append, List.foldl_cons, List.foldl_nil] at ih ⊢
    obtain ⟨i1, i2, i3⟩ := ih
    generalize us.foldl (fun L p => L.update p.1 p.2) (LowRank.new m u : LowRank V) = L
      at i1 i2 i3
    obtain ⟨j1, j2, j3⟩ := L.update_spec i1 (by rw [i2]; exact hm) p.1 p.2
    refine ⟨j1, j2.trans i2, ?_⟩
    rw [j3, i2]
    have husable : usable (us ++ [p]) =
        usable us ++ (if ⟪p.1, p.2⟫ ≤ secantTol then [] else [p]) := by
      unfold usable
      rw [List.filter_append]
      by_cases hp : ⟪p.1, p.2⟫ ≤ secantTol <;> simp [hp]
    rw [husable]
    by_cases hp : ⟪p.1, p.2⟫ ≤ secantTol
    · rw [if_pos hp, if_pos hp, i3, List.append_nil]
    · rw [if_neg hp, if_neg hp, i3]
      generalize usable us = l
      simp only [List.length_append, List.length_singleton, List.length_drop]
      have hd : (l ++ [p]).drop (l.length + 1 - m) = l.drop (l.length + 1 - m) ++ [p] := by
        rw [List.drop_append_of_le_length (by omega)]
      rw [hd]
      congr 1
      by_cases hf : l.length - (l.length - m) = m
      · rw [if_pos hf, List.tail_drop]
        congr 1
        omega
      · rw [if_neg hf]
        congr 1
        omega

/-! ### The two-loop recursion -/

/-- The inverse Hessian approximation a history stands for: the BFGS formula applied to the
corrections, oldest first, from `gamma` times the identity. -/
noncomputable def lbfgsOperator (gamma : ℝ) (hist : List (V × V)) : V → V :=
  hist.foldl (fun H p => bfgsFormula H p.1 p.2) (fun v => gamma • v)

theorem LowRank.loop1_append (L : LowRank V) (is js : List ℕ) (d : V) (alpha : ℕ → ℝ) :
    L.loop1 (is ++ js) d alpha =
      L.loop1 js (L.loop1 is d alpha).1 (L.loop1 is d alpha).2 := by
  induction is generalizing d alpha with
  | nil => rfl
  | cons i is ih => simp only [List.cons_append, LowRank.loop1]; exact ih _ _

theorem LowRank.loop2_append (L : LowRank V) (alpha : ℕ → ℝ) (is js : List ℕ) (d : V) :
    L.loop2 alpha (is ++ js) d = L.loop2 alpha js (L.loop2 alpha is d) := by
  induction is generalizing d with
  | nil => rfl
  | cons i is ih => simp only [List.cons_append, LowRank.loop2]; exact ih _

theorem LowRank.loop1_alpha (L : LowRank V) (is : List ℕ) (d : V) (alpha : ℕ → ℝ) (j : ℕ)
    (hj : j ∉ is) : (L.loop1 is d alpha).2 j = alpha j := by
  induction is generalizing d alpha with
  | nil => rfl
  | cons i is ih =>
    rw [List.mem_cons, not_or] at hj
    simp only [LowRank.loop1]
    rw [ih _ _ hj.2, Function.update_of_ne hj.1]

theorem LowRank.loop1_fst (L : LowRank V) (is : List ℕ) (d : V) (a b : ℕ → ℝ) :
    (L.loop1 is d a).1 = (L.loop1 is d b).1 := by
  induction is generalizing d a b with
  | nil => rfl
  | cons i is ih => simp only [LowRank.loop1]; exact ih _ _ _

theorem LowRank.loop1_alpha_mem (L : LowRank V) (is : List ℕ) (d : V) (a b : ℕ → ℝ) (j : ℕ)
    (hj : j ∈ is) : (L.loop1 is d a).2 j = (L.loop1 is d b).2 j := by
  induction is generalizing d a b with
  | nil => simp at hj
  | cons i is ih =>
    simp only [LowRank.loop1]
    by_cases hm : j ∈ is
    · exact ih _ _ _ hm
    · have : j = i := (List.mem_cons.mp hj).resolve_right hm
      rw [L.loop1_alpha _ _ _ _ hm, L.loop1_alpha _ _ _ _ hm, this]
      simp

theorem LowRank.loop2_congr (L : LowRank V) (a b : ℕ → ℝ) (is : List ℕ) (d : V)
    (h : ∀ i ∈ is, a i = b i) : L.loop2 a is d = L.loop2 b is d := by
  induction is generalizing d with
  | nil => rfl
  | cons i is ih =>
    simp only [LowRank.loop2]
    rw [h i (by simp)]
    exact ih _ (fun j hj => h j (by simp [hj]))

/-- The two loops over a list of columns compute the BFGS operator. -/
theorem LowRank.twoLoop (L : LowRank V) (gamma : ℝ) (is : List ℕ) (hn : is.Nodup)
    (hd : ∀ i ∈ is, L.dots i = ⟪L.deltaX i, L.deltaGradient i⟫) (g : V) :
    L.loop2 (L.loop1 is.reverse g (fun _ => 0)).2 is
        (gamma • (L.loop1 is.reverse g (fun _ => 0)).1) =
      lbfgsOperator gamma (is.map fun i => (L.deltaX i, L.deltaGradient i)) g := by
  induction is using List.reverseRecOn generalizing g with
  | nil => rfl
  | append_singleton is i ih =>
    have hn' := List.nodup_append.mp hn
    have hi : i ∉ is := fun h => hn'.2.2 i h i (by simp) rfl
    have IH := ih hn'.1 (fun j hj => hd j (by simp [hj]))
    have hdi := hd i (by simp)
    rw [List.reverse_append, List.reverse_singleton, List.singleton_append, LowRank.loop1]
    rw [L.loop2_append, List.map_append, List.map_singleton]
    unfold lbfgsOperator at IH ⊢
    rw [List.foldl_append, List.foldl_cons, List.foldl_nil]
    rw [L.loop1_fst _ _ _ (fun _ => 0)]
    rw [L.loop2_congr _ (L.loop1 is.reverse
      (g - (⟪L.deltaX i, g⟫ / L.dots i) • L.deltaGradient i) (fun _ => 0)).2 is _
      (fun j hj => L.loop1_alpha_mem _ _ _ _ _ (by simpa using hj))]
    rw [IH]
    simp only [LowRank.loop2]
    rw [L.loop1_alpha _ _ _ _ (by simpa using hi)]
    simp only [Function.update_self]
    rw [bfgsFormula, hdi]
    module

/-- The operator of a usable history is symmetric positive definite. -/
theorem lbfgsOperator_spd {gamma : ℝ} (hg : 0 < gamma) (hist : List (V × V))
    (h : ∀ p ∈ hist, 0 < ⟪p.1, p.2⟫) : SPD (lbfgsOperator gamma hist) := by
  induction hist using List.reverseRecOn with
  | nil => exact SPD.id.scale hg
  | append_singleton hist p ih =>
    unfold lbfgsOperator at ih ⊢
    rw [List.foldl_append, List.foldl_cons, List.foldl_nil]
    have hs := ih (fun q hq => h q (by simp [hq]))
    rw [← bfgsUpdate_eq hs]
    exact (bfgsUpdate_spd hs (h p (by simp))).1

/-- **C49.** What L-BFGS multiplies by is the BFGS matrix of its history. -/
theorem LowRank.apply_eq {L : LowRank V} (h : L.Inv) (g : V) :
    L.apply g = lbfgsOperator (if L.useScaling then L.scale else 1) L.history g := by
  have := L.twoLoop (if L.useScaling then L.scale else 1) L.indices h.nodup h.dots_eq g
  unfold LowRank.apply LowRank.history
  simp only
  rw [← this]
  congr 1
  split
  · rfl
  · rw [one_smul]

theorem LowRank.apply_pos {L : LowRank V} (h : L.Inv) {g : V} (hg : g ≠ 0) :
    0 < ⟪g, L.apply g⟫ := by
  rw [L.apply_eq h]
  refine (lbfgsOperator_spd ?_ _ ?_).pos g hg
  · split
    · exact h.scale_pos
    · exact one_pos
  · intro p hp
    unfold LowRank.history at hp
    obtain ⟨i, hi, rfl⟩ := List.mem_map.mp hp
    exact h.dots_pos i hi

/-- **C49.** The L-BFGS matrix satisfies the secant equation of the newest correction. -/
theorem lbfgs_secant {L : LowRank V} (h : L.Inv) (hm : 0 < L.maxCorrections) {s y : V}
    (hs : secantTol < ⟪s, y⟫) : (L.update s y).apply y = s := by
  obtain ⟨u1, _, u3⟩ := L.update_spec h hm s y
  rw [LowRank.apply_eq u1, u3, if_neg (not_le.mpr hs)]
  have hpos := lt_trans secantTol_pos hs
  unfold lbfgsOperator
  rw [List.foldl_append, List.foldl_cons, List.foldl_nil]
  have hspd := lbfgsOperator_spd (V := V)
    (gamma := if (L.update s y).useScaling then (L.update s y).scale else 1)
    (by split
        · exact u1.scale_pos
        · exact one_pos)
    (if L.history.length = L.maxCorrections then L.history.tail else L.history) (by
      intro p hp
      have hp' : p ∈ L.history := by
        split at hp
        · exact List.mem_of_mem_tail hp
        · exact hp
      unfold LowRank.history at hp'
      obtain ⟨i, hi, rfl⟩ := List.mem_map.mp hp'
      exact h.dots_pos i hi)
  unfold lbfgsOperator at hspd
  rw [← bfgsUpdate_eq hspd]
  exact (bfgsUpdate_spd hspd hpos).2

/-- **C49.** In exact arithmetic an L-BFGS object never fails and never aborts: as long as the
gradient is not zero it delivers a strict descent direction. -/
theorem lbfgs_next {B : LBFGSState V} (hp : B.isPositiveDefinite = true) (h : B.hessian.Inv)
    (hm : 0 < B.hessian.maxCorrections) (previous current : LSState V)
    (hg : current.gradient ≠ 0) :
    ((B.next previous current).1.isPositiveDefinite = true ∧
      (B.next previous current).1.hessian.Inv ∧
      (B.next previous current).1.hessian.maxCorrections = B.hessian.maxCorrections) ∧
      ∃ d, (B.next previous current).2 = .ok d ∧ ⟪current.gradient, d⟫ < 0 := by
  obtain ⟨u1, u2, _⟩ := B.hessian.update_spec h hm
    (previous.stepSize • previous.searchDirection) (current.gradient - previous.gradient)
  have hneg : ⟪-((B.hessian.update (previous.stepSize • previous.searchDirection)
      (current.gradient - previous.gradient)).apply current.gradient), current.gradient⟫ < 0 := by
    rw [inner_neg_left, neg_lt_zero, real_inner_comm]
    exact LowRank.apply_pos u1 hg
  unfold LBFGSState.next
  rw [if_neg (by rw [hp]; simp)]
  simp only
  rw [if_neg (not_le.mpr hneg)]
  exact ⟨⟨rfl, u1, u2⟩, _, rfl, by rw [real_inner_comm]; exact hneg⟩

/-! ### Conjugate gradients and all directions together -/

/-- **C64.** A conjugate gradient direction goes downhill at least as fast as the tolerance asks,
or is the negative gradient. -/
theorem ncg_descends (type : NCGType) (tol : ℝ) (previous current : LSState V) {d : V}
    (h : ncgNext type tol previous current = some d) :
    ⟪current.gradient, d⟫ ≤ -tol ∨ d = -current.gradient := by
  unfold ncgNext at h
  split at h
  · cases h
  · simp only at h
    split at h
    · cases h; exact Or.inr rfl
    · next hlt => cases h; exact Or.inl (not_lt.mp hlt)

/-- The tolerance of a conjugate gradient direction is not negative. -/
def Direction.Ok : Direction V → Prop
  | .ncg _ tol => 0 ≤ tol
  | _ => True

/-- **C64.** Whatever the direction object and its history, a direction it delivers never goes
uphill, and goes strictly downhill if the gradient is not zero. -/
theorem direction_descends (D : Direction V) (hD : D.Ok) (previous current : LSState V) {d : V}
    (h : (D.next previous current).2 = .ok d) :
    ⟪current.gradient, d⟫ ≤ 0 ∧ (d = -current.gradient ∨ (∃ t tol, D = .ncg t tol) ∨
      ⟪current.gradient, d⟫ < 0) := by
  cases D with
  | steepest =>
    simp only [Direction.next, Next.ok.injEq] at h
    subst h
    rw [inner_neg_right]
    exact ⟨neg_nonpos.mpr real_inner_self_nonneg, Or.inl rfl⟩
  | ncg type tol =>
    simp only [Direction.next] at h
    cases hn : ncgNext type tol previous current with
    | none => rw [hn] at h; cases h
    | some d' =>
      rw [hn] at h
      simp only [Next.ok.injEq] at h
      subst h
      refine ⟨?_, Or.inr (Or.inl ⟨_, _, rfl⟩)⟩
      rcases ncg_descends _ _ _ _ hn with h1 | h1
      · have : (0 : ℝ) ≤ tol := hD
        linarith
      · rw [h1, inner_neg_right]
        exact neg_nonpos.mpr real_inner_self_nonneg
  | bfgs s =>
    simp only [Direction.next, BFGSState.next] at h
    split at h
    · cases h
    · split at h
      · cases h
      · next hlt =>
        simp only [Next.ok.injEq] at h
        rw [← h, real_inner_comm]
        exact ⟨(not_le.mp hlt).le, Or.inr (Or.inr (not_le.mp hlt))⟩
  | lbfgs s =>
    simp only [Direction.next, LBFGSState.next] at h
    split at h
    · cases h
    · split at h
      · cases h
      · next hlt =>
        simp only [Next.ok.injEq] at h
        rw [← h, real_inner_comm]
        exact ⟨(not_le.mp hlt).le, Or.inr (Or.inr (not_le.mp hlt))⟩

/-- **Finding.** Hestenes–Stiefel divides by `<d, g' - g>`, which is zero whenever a step leaves
the gradient unchanged (a linear stretch of the objective): the direction is then not finite. -/
theorem hestenes_stiefel_divides_by_zero (tol : ℝ) (previous current : LSState V)
    (h : current.gradient = previous.gradient) :
    ncgNext .hestenesStiefel tol previous current = none := by
  unfold ncgNext ncgBeta
  simp [h]

/-! ### The hypotheses can be met -/

/-- One L-BFGS correction in the plane of the reals: `s = 1`, `y = 2`. -/
example : (usable [((1 : ℝ), (2 : ℝ)), (1, -1)]).length = 1 := by
  unfold usable secantTol
  norm_num

end Ceres.LineSearch
