import Verif.TinySolver.Props
import Mathlib.Data.Fin.VecNotation
import Mathlib.Tactic.FieldSimp
import Mathlib.Tactic.FinCases

/-! # The adapters, and where the tiny solver departs from its documentation -/

namespace Ceres.TinySolver

open Matrix

noncomputable section

variable {n m : ℕ}

/-! ## Adapters -/

theorem col_slot {m i i' j j' : ℕ} (hi : i < m) (hi' : i' < m) (h : j * m + i = j' * m + i') :
    j = j' ∧ i = i' := by
  have hm : 0 < m := by omega
  have h1 : (j * m + i) / m = j := by
    rw [mul_comm, Nat.mul_add_div hm, Nat.div_eq_of_lt hi, add_zero]
  have h2 : (j' * m + i') / m = j' := by
    rw [mul_comm, Nat.mul_add_div hm, Nat.div_eq_of_lt hi', add_zero]
  have : j = j' := by rw [← h1, ← h2, h]
  subst this
  exact ⟨rfl, by omega⟩

/-- A fold of writes at distinct places. -/
theorem foldl_writes {α : Type*} (slot : α → ℕ) (val : α → ℝ) :
    ∀ (l : List α) (a : ℕ → ℝ) (p : ℕ),
      (∀ x ∈ l, slot x = p → (l.foldl (fun a x => Function.update a (slot x) (val x)) a) p = val x
        ∨ ∃ y ∈ l, slot y = p ∧ (l.foldl (fun a x => Function.update a (slot x) (val x)) a) p = val y) ∧
      ((∀ x ∈ l, slot x ≠ p) → (l.foldl (fun a x => Function.update a (slot x) (val x)) a) p = a p) := by
  intro l
  induction l with
  | nil => intro a p; simp
  | cons z l ih =>
    intro a p
    obtain ⟨h1, h2⟩ := ih (Function.update a (slot z) (val z)) p
    rw [List.foldl_cons]
    refine ⟨fun x _ _ => ?_, fun h => ?_⟩
    · by_cases hex : ∃ y ∈ l, slot y = p
      · obtain ⟨y, hy, hyp⟩ := hex
        rcases h1 y hy hyp with h | ⟨w, hw, hwp, h⟩
        · exact Or.inr ⟨y, List.mem_cons_of_mem _ hy, hyp, h⟩
        · exact Or.inr ⟨w, List.mem_cons_of_mem _ hw, hwp, h⟩
      · push Not at hex
        rename_i hx hxp
        rcases List.mem_cons.1 hx with rfl | hx
        · left
          rw [h2 hex, ← hxp, Function.update_self]
        · exact absurd hxp (hex x hx)
    · rw [h2 fun x hx => h x (List.mem_cons_of_mem _ hx),
        Function.update_of_ne (h z List.mem_cons_self).symm]

theorem foldl_nested {α β : Type*} (f : α → β → (ℕ → ℝ) → (ℕ → ℝ)) (inner : α → List β) :
    ∀ (l : List α) (a : ℕ → ℝ), l.foldl (fun a x => (inner x).foldl (fun a y => f x y a) a) a
      = (l.flatMap fun x => (inner x).map fun y => (x, y)).foldl (fun a p => f p.1 p.2 a) a := by
  intro l
  induction l with
  | nil => intro a; rfl
  | cons z l ih =>
    intro a
    rw [List.foldl_cons, List.flatMap_cons, List.foldl_append, ih, List.foldl_map]

/-- The layout conversion of the cost function adapter: the column major array holds the matrix of the
row major one, and nothing beyond it is written. -/
theorem copyToColMajor_spec (rowMajor jac : ℕ → ℝ) :
    ofColMajor m n (copyToColMajor m n rowMajor jac) = ofRowMajor m n rowMajor ∧
      ∀ p, m * n ≤ p → copyToColMajor m n rowMajor jac p = jac p := by
  have e : copyToColMajor m n rowMajor jac
      = ((List.range n).flatMap fun j => (List.range m).map fun i => (j, i)).foldl
        (fun a p => Function.update a (p.1 * m + p.2) (rowMajor (p.2 * n + p.1))) jac :=
    foldl_nested (fun j i a => Function.update a (j * m + i) (rowMajor (i * n + j)))
      (fun _ => List.range m) (List.range n) jac
  have hmem : ∀ p : ℕ × ℕ, p ∈ ((List.range n).flatMap fun j => (List.range m).map fun i => (j, i)) ↔
      p.1 < n ∧ p.2 < m := fun p => by
    simp only [List.mem_flatMap, List.mem_range, List.mem_map]
    constructor
    · rintro ⟨j, hj, i, hi, rfl⟩; exact ⟨hj, hi⟩
    · rintro ⟨h1, h2⟩; exact ⟨p.1, h1, p.2, h2, rfl⟩
  constructor
  · funext i j
    have h := (foldl_writes (fun p : ℕ × ℕ => p.1 * m + p.2) (fun p => rowMajor (p.2 * n + p.1))
      ((List.range n).flatMap fun j => (List.range m).map fun i => (j, i)) jac (j * m + i)).1
      ((j : ℕ), (i : ℕ)) ((hmem _).2 ⟨j.isLt, i.isLt⟩) rfl
    rw [← e] at h
    rcases h with h | ⟨y, hy, hyp, h⟩
    · exact h
    · have := col_slot ((hmem y).1 hy).2 i.isLt hyp
      unfold ofColMajor ofRowMajor
      rw [h, this.1, this.2]
  · intro p hp
    rw [e]
    refine (foldl_writes (fun p : ℕ × ℕ => p.1 * m + p.2) (fun p => rowMajor (p.2 * n + p.1))
      _ jac p).2 fun x hx hxp => ?_
    have := (hmem x).1 hx
    have h1 : x.1 * m ≤ (n - 1) * m := Nat.mul_le_mul_right m (by omega)
    have h2 : (n - 1) * m + m = m * n := by
      rw [← Nat.succ_mul, Nat.succ_eq_add_one, Nat.sub_add_cancel (by omega), mul_comm]
    omega

/-- C48: a cost function with residuals `f` and row major Jacobian `J` becomes a function with residuals
`f` and column major Jacobian `J`. -/
theorem adapterCall_spec {c : CostFunction n m} {f : Vec n → Vec m} {J : Vec n → Mat m n}
    (hnone : ∀ x r, c.evaluate x r none = (true, f x, none))
    (hsome : ∀ x r b, ∃ a, c.evaluate x r (some b) = (true, f x, some a) ∧ ofRowMajor m n a = J x)
    (scratch : ℕ → ℝ) (x : Vec n) (r : Vec m) :
    adapterCall c scratch x r none = (true, f x, none) ∧
    ∀ jac, ∃ a, adapterCall c scratch x r (some jac) = (true, f x, some a) ∧
      ofColMajor m n a = J x ∧ ∀ p, m * n ≤ p → a p = jac p := by
  refine ⟨hnone x r, fun jac => ?_⟩
  obtain ⟨a, ha, haJ⟩ := hsome x r scratch
  refine ⟨copyToColMajor m n a jac, by simp [adapterCall, ha], ?_, (copyToColMajor_spec a jac).2⟩
  rw [(copyToColMajor_spec a jac).1, haJ]

/-- Its verdict is that of the cost function. -/
theorem adapterCall_verdict (c : CostFunction n m) (scratch : ℕ → ℝ) (x : Vec n) (r : Vec m)
    (jac : ℕ → ℝ) :
    (adapterCall c scratch x r (some jac)).1 = (c.evaluate x r (some scratch)).1 := by
  unfold adapterCall
  cases h : (c.evaluate x r (some scratch)).1 <;> simp [h]

theorem writeRow_spec (r : ℕ) (hr : r < m) (v a : ℕ → ℝ) :
    (∀ j < n, writeRow m n r v a (j * m + r) = v j) ∧
      (∀ j i, i < m → i ≠ r → writeRow m n r v a (j * m + i) = a (j * m + i)) ∧
      ∀ p, m * n ≤ p → writeRow m n r v a p = a p := by
  unfold writeRow
  refine ⟨fun j hj => ?_, fun j i hi hne => ?_, fun p hp => ?_⟩
  · rcases (foldl_writes (fun j => j * m + r) v (List.range n) a (j * m + r)).1 j
      (List.mem_range.2 hj) rfl with h | ⟨y, _, hyp, h⟩
    · exact h
    · rw [h, (col_slot hr hr hyp).1]
  · exact (foldl_writes (fun j => j * m + r) v (List.range n) a (j * m + i)).2
      fun x _ hx => hne (col_slot hr hi hx).2.symm
  · refine (foldl_writes (fun j => j * m + r) v (List.range n) a p).2 fun x hx hxp => ?_
    have hx := List.mem_range.1 hx
    have h1 : x * m ≤ (n - 1) * m := Nat.mul_le_mul_right m (by omega)
    have h2 : (n - 1) * m + m = m * n := by
      rw [← Nat.succ_mul, Nat.succ_eq_add_one, Nat.sub_add_cancel (by omega), mul_comm]
    omega

theorem writeRows_spec (V : Fin m → ℕ → ℝ) :
    ∀ (l : List (Fin m)) (a : ℕ → ℝ), l.Nodup →
      (∀ r ∈ l, ∀ j < n,
        l.foldl (fun a (r : Fin m) => writeRow m n r.val (V r) a) a (j * m + r) = V r j) ∧
      (∀ (i : Fin m), i ∉ l → ∀ j,
        l.foldl (fun a (r : Fin m) => writeRow m n r.val (V r) a) a (j * m + i) = a (j * m + i)) ∧
      ∀ p, m * n ≤ p → l.foldl (fun a (r : Fin m) => writeRow m n r.val (V r) a) a p = a p := by
  intro l
  induction l with
  | nil => intro a _; simp
  | cons z l ih =>
    intro a hl
    rw [List.nodup_cons] at hl
    obtain ⟨h1, h2, h3⟩ := ih (writeRow m n z.val (V z) a) hl.2
    obtain ⟨w1, w2, w3⟩ := writeRow_spec (n := n) z.val z.isLt (V z) a
    refine ⟨fun r hr j hj => ?_, fun i hi j => ?_, fun p hp => ?_⟩
    · rw [List.foldl_cons]
      rcases List.mem_cons.1 hr with rfl | hr
      · rw [h2 r hl.1, w1 j hj]
      · exact h1 r hr j hj
    · rw [List.foldl_cons, h2 i fun h => hi (List.mem_cons_of_mem _ h),
        w2 j i i.isLt fun h => hi (by rw [Fin.ext h]; exact List.mem_cons_self)]
    · rw [List.foldl_cons, h3 p hp, w3 p hp]

/-- C48: a functor whose jet version represents the derivatives of its real version becomes a function
with those residuals and that Jacobian, column major. -/
theorem autoDiffCall_spec {f : AutoFunctor n m} {g : Vec n → Vec m} {J : Vec n → Mat m n}
    (hreal : ∀ x, f.evalReal x = some (g x))
    (hjet : ∀ x, f.evalJet (fun i => ⟨x i, fun j => if j = i then 1 else 0⟩)
      = some fun r => ⟨g x r, J x r⟩) (x : Vec n) (r : Vec m) :
    autoDiffCall f x r none = (true, g x, none) ∧
    ∀ jac, ∃ a, autoDiffCall f x r (some jac) = (true, g x, some a) ∧
      ofColMajor m n a = J x ∧ ∀ p, m * n ≤ p → a p = jac p := by
  refine ⟨by simp [autoDiffCall, hreal], fun jac => ?_⟩
  obtain ⟨h1, _, h3⟩ := writeRows_spec (n := n)
    (fun r j => if h : j < n then J x r ⟨j, h⟩ else 0) (List.finRange m) jac (List.nodup_finRange m)
  refine ⟨_, by simp only [autoDiffCall, hjet], ?_, h3⟩
  funext i j
  have := h1 i (List.mem_finRange i) j j.isLt
  simp only [j.isLt, dif_pos] at this
  exact this

/-! ## Findings -/

/-- The function `x ↦ x` with its Jacobian. -/
def idFun : Function 1 1 := ⟨fun x _ _ => (true, x, 1), fun x _ => (true, x)⟩

theorem idFun_computes : Computes idFun (fun x => x) (fun _ => 1) := ⟨fun _ _ _ => rfl, fun _ _ => rfl⟩

/-- C48 is not vacuous: one step on `x ↦ x` from `1`. -/
example (s : State 1 1) :
    Outcome ⟨50, 0, 0, 0, 0, 1⟩ (fun x : Vec 1 => x) (fun _ => 1) (fun _ => 1)
      (solveTiny ⟨50, 0, 0, 0, 0, 1⟩ idFun (fun A b => A⁻¹ *ᵥ b) s fun _ => 1) :=
  solveTiny_spec _ one_pos idFun_computes solvesSPD_inverse s _

/-- Division by the only entry. -/
def solve1 (A : Mat 1 1) (b : Vec 1) : Vec 1 := fun _ => b 0 / A 0 0

theorem solve1_spd : SolvesSPD solve1 := by
  intro A b _ hA
  have h := hA (fun _ => 1) (fun h => one_ne_zero (congrFun h 0))
  simp only [Matrix.mulVec, dotProduct, Finset.univ_unique, Fin.default_eq_zero,
    Finset.sum_singleton, one_mul, mul_one] at h
  funext i
  fin_cases i
  simp only [solve1, Matrix.mulVec, dotProduct, Finset.univ_unique, Fin.default_eq_zero,
    Finset.sum_singleton, Fin.zero_eta]
  rw [mul_div_cancel₀]
  exact h.ne'

/-- The one by one matrix. -/
def c1 (q : ℝ) : Mat 1 1 := Matrix.of fun _ _ => q

/-- The state after `Update` on a function of one variable. -/
theorem update1 (F : Function 1 1) (x : Vec 1) (s : State 1 1) (f j : ℝ) (h0 : s.iterations = 0)
    (he : F.evalJ x s.residuals s.jacobian = (true, fun _ => f, c1 j)) :
    (update F x s).2 = { s with
      residuals := fun _ => -f
      jacobian := c1 (j * (1 / (1 + |j|)))
      jacobiScaling := fun _ => 1 / (1 + |j|)
      jtj := c1 ((j * (1 / (1 + |j|))) ^ 2)
      g := fun _ => -(j * (1 / (1 + |j|)) * f)
      gradientMaxNorm := |j * (1 / (1 + |j|)) * f|
      cost := f ^ 2 / 2 } := by
  have hsc : (fun a : Fin 1 => 1 / (1 + norm fun b : Fin 1 => c1 j b a)) = fun _ => 1 / (1 + |j|) := by
    funext _
    simp [norm, squaredNorm_eq, Real.sqrt_sq_eq_abs, c1]
  have hJ : (c1 j * Matrix.diagonal fun _ : Fin 1 => 1 / (1 + |j|)) = c1 (j * (1 / (1 + |j|))) := by
    ext a b
    rw [Matrix.mul_diagonal]
    rfl
  unfold update
  simp only [he, Bool.not_true, Bool.false_eq_true, if_false, h0, if_true, hsc, hJ]
  generalize j * (1 / (1 + |j|)) = q
  have hg : ((c1 q)ᵀ *ᵥ (-fun _ : Fin 1 => f)) = fun _ => -(q * f) := by
    funext a
    simp [Matrix.mulVec, dotProduct, Matrix.transpose_apply, c1]
  have hjtj : (c1 q)ᵀ * c1 q = c1 (q ^ 2) := by
    ext a b
    rw [Matrix.mul_apply]
    simp [Matrix.transpose_apply, sq, c1]
  simp only [hg, hjtj]
  congr 1
  · simp [squaredNorm_eq]
  · simp only [maxAbs, pi_norm_const, norm_neg, Real.norm_eq_abs]

/-- One iteration on a function of one variable, up to the acceptance of the step. -/
theorem loop1 (o : Options) (F : Function 1 1) (s : State 1 1) (x u q b S fx : ℝ)
    (hj : s.jtj = c1 q) (hg : s.g = fun _ => b) (hS : s.jacobiScaling = fun _ => S)
    (hp : o.parameterTolerance = 0) (hf : o.functionTolerance = 0) (hgt : o.gradientTolerance = 0)
    (hct : o.costThreshold = 0) (t : ℝ) (ht : t = b / (q + u * max (1e-6 : ℝ) (min q (1e32 : ℝ))))
    (hev : (F.eval (fun _ => x + S * t) s.fxNew).2 = fun _ => fx)
    (hacc : 0 < (2 * s.cost - fx ^ 2) / (t * (2 * b - q * t))) (hne : t * (2 * b - q * t) ≠ 0)
    (hup : 0 ≤ (update F (fun _ => x + S * t) { s with fxNew := fun _ => fx }).2.gradientMaxNorm)
    (hup' : 0 ≤ (update F (fun _ => x + S * t) { s with fxNew := fun _ => fx }).2.cost) :
    loop o F solve1 1 s (fun _ => x) u 2
      = ({ (update F (fun _ => x + S * t) { s with fxNew := fun _ => fx }).2 with
          iterations := (update F (fun _ => x + S * t) { s with fxNew := fun _ => fx }).2.iterations + 1 },
        fun _ => x + S * t, .hitMaxIterations) := by
  have hlm : solve1 (regularized s.jtj u) s.g = fun _ => t := by
    funext _
    simp [solve1, regularized, hj, hg, c1, ht]
  have hx : ((fun _ : Fin 1 => x) + fun i : Fin 1 => s.jacobiScaling i * t) = fun _ => x + S * t := by
    funext _; simp [hS]
  have hm : (fun _ : Fin 1 => t) ⬝ᵥ ((2 : ℝ) • s.g - s.jtj *ᵥ fun _ => t) = t * (2 * b - q * t) := by
    simp [hj, hg, c1, Matrix.mulVec, dotProduct]
  have hcc : squaredNorm (fun _ : Fin 1 => fx) = fx ^ 2 := by simp [squaredNorm_eq]
  have hr : ratioPos (2 * s.cost - fx ^ 2) (t * (2 * b - q * t)) := by
    unfold ratioPos
    rw [if_neg hne]; exact hacc
  rw [loop]
  simp only [hlm, hx, hm, hev, hcc, hp, hf, hgt, hct]
  rw [if_neg (by simp [norm, Real.sqrt_nonneg]), if_pos]
  · rw [if_neg (not_lt.2 (abs_nonneg _)), if_neg (not_lt.2 hup), if_neg (not_lt.2 hup')]
    rfl
  · simp only [hlm, hx, hm, hev, hcc]
    exact hr

/-- `x ↦ a x`. -/
def linFun (a : ℝ) : Function 1 1 :=
  ⟨fun x _ _ => (true, fun _ => a * x 0, c1 a), fun x _ => (true, fun _ => a * x 0)⟩

theorem linFun_computes (a : ℝ) :
    Computes (linFun a) (fun x _ => a * x 0) (fun _ => c1 a) := ⟨fun _ _ _ => rfl, fun _ _ => rfl⟩

theorem update_cost_nonneg (F : Function n m) (x : Vec n) (s : State n m) (h : 0 ≤ s.cost)
    (h' : 0 ≤ s.gradientMaxNorm) :
    0 ≤ (update F x s).2.cost ∧ 0 ≤ (update F x s).2.gradientMaxNorm ∧
      (update F x s).2.iterations = s.iterations := by
  unfold update
  dsimp only
  split
  · exact ⟨h, h', rfl⟩
  · dsimp only
    refine ⟨?_, norm_nonneg _, ?_⟩
    · exact div_nonneg (squaredNorm_nonneg _) two_pos.le
    · split <;> rfl

/-- `x ↦ x` at `1` only; the function fails everywhere else, leaving the buffers alone. -/
def partialFun : Function 1 1 where
  evalJ x r j := by
    classical exact if x 0 = 1 then (true, fun _ => 1, c1 1) else (false, r, j)
  eval x r := by
    classical exact if x 0 = 1 then (true, fun _ => 1) else (false, r)

theorem half : (1 : ℝ) / (1 + |1|) = 1 / 2 := by norm_num

/-- The radius is not validated: with a negative one the solver returns a worse point. -/
theorem negative_radius_increases_cost (s : State 1 1) :
    let r := solveTiny ⟨2, 0, 0, 0, 0, -1 / 2⟩ (linFun 1) solve1 s fun _ => 1
    r.1.initialCost < r.1.finalCost := by
  have hu := update1 (linFun 1) (fun _ => 1) { s with iterations := 0, gradientMaxNorm := -1 } 1 1 rfl
    (by simp [linFun])
  rw [half] at hu
  unfold solveTiny
  simp only [hu]
  rw [if_neg (not_lt.2 (abs_nonneg _)), if_neg (by norm_num)]
  have hgood : ∀ s' : State 1 1, s'.iterations = 1 → s'.jacobiScaling = (fun _ => 1 / 2) →
      Good (fun x _ => 1 * x 0) (fun _ => c1 1) (fun _ => 1 / 2) (fun _ => 1 + 1 / 2 * 2)
        (update (linFun 1) (fun _ => 1 + 1 / 2 * 2) s').2 := fun s' h1 h2 =>
    (update_good (linFun_computes 1) _ s' (Or.inr ⟨by omega, h2⟩)).1
  dsimp only
  rw [show ((2 : ℤ) - 1).toNat = 1 from rfl, show (1 : ℝ) / (-1 / 2) = -2 by norm_num]
  have hG := hgood { s with
      residuals := fun _ => -1, fxNew := fun _ => 2, jacobian := c1 (1 * (1 / 2)),
      jacobiScaling := fun _ => 1 / 2, jtj := c1 ((1 * (1 / 2)) ^ 2),
      g := fun _ => -(1 * (1 / 2) * 1), gradientMaxNorm := |1 * (1 / 2) * 1|, cost := 1 ^ 2 / 2,
      iterations := 1 } rfl rfl
  rw [loop1 _ (linFun 1) _ 1 (-2) ((1 * (1 / 2)) ^ 2) (-(1 * (1 / 2) * 1)) (1 / 2) 2 rfl rfl rfl rfl rfl rfl
    rfl 2 (by norm_num) (by funext _; simp [linFun]; norm_num) (by norm_num) (by norm_num)
    (by rw [hG.gradient]; exact norm_nonneg _)
    (by rw [hG.cost]; simp only [costOf]; positivity)]
  dsimp only
  rw [hG.cost]
  simp [costOf]
  norm_num

/-- The verdict of the user's function is ignored: on a function defined at the initial point only, the
solver moves to a point where it is not defined and reports the initial cost as the final one. -/
theorem failing_function_is_accepted (s : State 1 1) (hs : s.fxNew = fun _ => 0) :
    let r := solveTiny ⟨2, 0, 0, 0, 0, 1⟩ partialFun solve1 s fun _ => 1
    r.2.1 = (fun _ => 1 / 2) ∧ (∀ b, (partialFun.eval r.2.1 b).1 = false) ∧
      r.1.finalCost = 1 / 2 ∧ r.1.initialCost = 1 / 2 := by
  have hu := update1 partialFun (fun _ => 1) { s with iterations := 0, gradientMaxNorm := -1 } 1 1 rfl
    (by simp [partialFun])
  rw [half] at hu
  unfold solveTiny
  simp only [hu]
  rw [if_neg (not_lt.2 (abs_nonneg _)), if_neg (by norm_num)]
  dsimp only
  rw [show ((2 : ℤ) - 1).toNat = 1 from rfl, show (1 : ℝ) / 1 = 1 by norm_num]
  have hfail : ∀ s' : State 1 1, (update partialFun (fun _ => 1 + 1 / 2 * -1) s').2 = s' := fun s' => by
    simp [update, partialFun]
  rw [loop1 _ partialFun _ 1 1 ((1 * (1 / 2)) ^ 2) (-(1 * (1 / 2) * 1)) (1 / 2) 0 rfl rfl rfl rfl rfl rfl
    rfl (-1) (by norm_num) (by simp [partialFun, hs]) (by norm_num) (by norm_num)
    (by rw [hfail]; exact abs_nonneg _) (by rw [hfail]; norm_num)]
  simp only [hfail]
  refine ⟨by norm_num, fun b => ?_, by norm_num, by norm_num⟩
  simp [partialFun]

/-- The gradient is tested after scaling: `GRADIENT_TOO_SMALL` is reported although the gradient of the
cost, `3`, is not below the tolerance `1`. -/
theorem gradient_test_is_scaled (s : State 1 1) :
    (solveTiny ⟨50, 1, 0, 0, 0, 1⟩ (linFun 3) solve1 s fun _ => 1 / 3).1.status = .gradientTooSmall ∧
      (linFun 3).evalJ (fun _ => 1 / 3) (fun _ => 0) 0 = (true, fun _ => 1, c1 3) := by
  have he : (linFun 3).evalJ (fun _ => 1 / 3) s.residuals s.jacobian = (true, fun _ => 1, c1 3) := by
    simp [linFun]
  have hu := update1 (linFun 3) (fun _ => 1 / 3) { s with iterations := 0, gradientMaxNorm := -1 } 1 3 rfl he
  constructor
  · unfold solveTiny
    simp only [hu]
    rw [if_pos]
    rw [abs_of_nonneg (by positivity : (0 : ℝ) ≤ 3), abs_of_nonneg (by positivity)]
    norm_num
  · simp [linFun]

/-- `max_num_iterations` bounds the loop counter, which starts at one: no step is tried for one, and one
iteration is reported even for zero. -/
theorem max_iterations_off_by_one (o : Options) (F : Function n m) (solve : Mat n n → Vec n → Vec n)
    (s : State n m) (x : Vec n) (h : o.maxNumIterations ≤ 1) :
    let r := solveTiny o F solve s x
    r.2.1 = x ∧ (r.1.status = .hitMaxIterations → r.1.iterations = 1) := by
  unfold solveTiny
  dsimp only
  rw [show (o.maxNumIterations - 1).toNat = 0 by omega]
  split_ifs
  · exact ⟨rfl, fun h => by cases h⟩
  · exact ⟨rfl, fun h => by cases h⟩
  · exact ⟨rfl, fun _ => rfl⟩

end

end Ceres.TinySolver
