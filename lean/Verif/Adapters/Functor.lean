import Verif.Adapters.Spec
import Verif.Jet.Ops
import Mathlib.Tactic.Ring
import Mathlib.Tactic.Linarith

/-!
# C81: CostFunctionToFunctor
-/
namespace Ceres.Adapters

open Ceres.NumericDiff (Params)
open Ceres.Jet (Jet Represents grad)

noncomputable section

variable {N : ℕ}

/-- Where block `i` begins. -/
def offset (sizes : List ℕ) (i : ℕ) : ℕ := (sizes.take i).sum

theorem offset_succ {sizes : List ℕ} {i : ℕ} (h : i < sizes.length) :
    offset sizes (i + 1) = offset sizes i + sizes.getD i 0 := by
  unfold offset
  rw [List.take_add_one, List.getElem?_eq_getElem h, List.sum_append]
  simp [List.getElem?_eq_getElem h]

theorem offset_mono {sizes : List ℕ} {i j : ℕ} (h : i < j) (hj : j ≤ sizes.length) :
    offset sizes i + sizes.getD i 0 ≤ offset sizes j := by
  induction j with
  | zero => omega
  | succ j ih =>
    rw [offset_succ (by omega)]
    rcases Nat.lt_succ_iff_lt_or_eq.1 h with h' | rfl
    · have := ih h' (by omega)
      omega
    · exact le_rfl

theorem blockPointers_getD (n : ℕ) (sizes : List ℕ) (pp jp i : ℕ) (h : i < sizes.length) :
    (blockPointers n sizes pp jp).getD i (0, 0) = (pp + offset sizes i, jp + n * offset sizes i) := by
  induction sizes generalizing pp jp i with
  | nil => simp at h
  | cons s sizes ih =>
    cases i with
    | zero => simp [blockPointers, offset]
    | succ i =>
      rw [blockPointers, List.getD_cons_succ, ih _ _ _ (by simpa using h)]
      simp only [offset, List.take_succ_cons, List.sum_cons, Prod.mk.injEq]
      constructor
      · omega
      · ring

/-- Blocks written one after another at `base`, `base + n * s`, …, keep what they hold. -/
theorem layout_spec (n : ℕ) (W : ℕ → ℕ → ℝ) (st : List ℕ → ℕ → ℕ → (ℕ → ℝ) → ℕ → ℝ)
    (hnil : ∀ i b arr, st [] i b arr = arr)
    (hcons : ∀ s sizes i b arr, st (s :: sizes) i b arr =
      st sizes (i + 1) (b + n * s) fun q => if b ≤ q ∧ q < b + n * s then W i (q - b) else arr q)
    (sizes : List ℕ) (i0 b : ℕ) (arr : ℕ → ℝ) :
    (∀ q, q < b → st sizes i0 b arr q = arr q) ∧
    ∀ i < sizes.length, ∀ k < n * sizes.getD i 0,
      st sizes i0 b arr (b + n * offset sizes i + k) = W (i0 + i) k := by
  induction sizes generalizing i0 b arr with
  | nil => exact ⟨fun q _ => by rw [hnil], fun i hi => by simp at hi⟩
  | cons s sizes ih =>
    obtain ⟨h1, h2⟩ := ih (i0 + 1) (b + n * s) (fun q => if b ≤ q ∧ q < b + n * s then W i0 (q - b) else arr q)
    rw [hcons]
    refine ⟨fun q hq => by rw [h1 q (by omega), if_neg (by omega)], fun i hi k hk => ?_⟩
    cases i with
    | zero =>
      simp only [offset, List.take_zero, List.sum_nil, Nat.mul_zero, Nat.add_zero, List.getD_cons_zero] at hk ⊢
      rw [h1 _ (by omega), if_pos ⟨by omega, by omega⟩]
      congr 1; omega
    | succ i =>
      have := h2 i (by simpa using hi) k (by simpa using hk)
      simp only [offset, List.take_succ_cons, List.sum_cons] at this ⊢
      rw [show i0 + (i + 1) = i0 + 1 + i by omega, ← this]
      congr 1
      ring

theorem fillParameters_spec (inputs : ℕ → ℕ → Jet N) (sizes : List ℕ) (arr : ℕ → ℝ) {i : ℕ} (hi : i < sizes.length)
    {k : ℕ} (hk : k < sizes.getD i 0) :
    fillParameters inputs sizes 0 0 arr (offset sizes i + k) = (inputs i k).a := by
  have := (layout_spec 1 (fun i k => (inputs i k).a) (fun l i b arr => fillParameters inputs l i b arr)
    (fun _ _ _ => rfl) (fun s l i b arr => by simp only [fillParameters, Nat.one_mul]) sizes 0 0 arr).2 i hi k
    (by omega)
  simpa using this

theorem storeBlocks_spec (n : ℕ) (ptrs : List (ℕ × ℕ)) (blocks : ℕ → Option (ℕ → ℝ)) (sizes : List ℕ) (i0 b : ℕ)
    (arr : ℕ → ℝ) (hp : ∀ i < sizes.length, (ptrs.getD (i0 + i) (0, 0)).2 = b + n * offset sizes i) :
    (∀ q, q < b → storeBlocks n ptrs blocks sizes i0 arr q = arr q) ∧
    ∀ i < sizes.length, ∀ k < n * sizes.getD i 0,
      storeBlocks n ptrs blocks sizes i0 arr (b + n * offset sizes i + k) =
        ((blocks (i0 + i)).getD fun _ => 0) k := by
  induction sizes generalizing i0 b arr with
  | nil => exact ⟨fun q _ => rfl, fun i hi => by simp at hi⟩
  | cons s sizes ih =>
    have h0 := hp 0 (by simp)
    simp only [Nat.add_zero, offset, List.take_zero, List.sum_nil, Nat.mul_zero] at h0
    simp only [storeBlocks, h0]
    obtain ⟨h1, h2⟩ := ih (i0 + 1) (b + n * s)
      (fun q => if b ≤ q ∧ q < b + n * s then ((blocks i0).getD fun _ => 0) (q - b) else arr q) (fun i hi => by
        have := hp (i + 1) (by simpa using hi)
        rw [show i0 + 1 + i = i0 + (i + 1) by omega, this]
        simp only [offset, List.take_succ_cons, List.sum_cons]
        ring)
    refine ⟨fun q hq => by rw [h1 q (by omega), if_neg (by omega)], fun i hi k hk => ?_⟩
    cases i with
    | zero =>
      simp only [offset, List.take_zero, List.sum_nil, Nat.mul_zero, Nat.add_zero, List.getD_cons_zero] at hk ⊢
      rw [h1 _ (by omega), if_pos ⟨by omega, by omega⟩, Nat.add_sub_cancel_left]
    | succ i =>
      have := h2 i (by simpa using hi) k (by simpa using hk)
      simp only [offset, List.take_succ_cons, List.sum_cons] at this ⊢
      rw [show i0 + (i + 1) = i0 + 1 + i by omega, ← this]
      congr 1
      ring

theorem foldl_range_add (s : ℕ) (w : ℕ → Fin N → ℝ) (v : Fin N → ℝ) :
    (List.range s).foldl (fun v k => v + w k) v = v + ∑ k ∈ Finset.range s, w k := by
  induction s with
  | zero => simp
  | succ s ih => rw [List.range_succ, List.foldl_append, ih, Finset.sum_range_succ]; simp [add_assoc]

theorem chain_eq (inputs : ℕ → ℕ → Jet N) (ptrs : List (ℕ × ℕ)) (jac : ℕ → ℝ) (i : ℕ) (sizes : List ℕ) (j0 : ℕ)
    (v : Fin N → ℝ) :
    chain inputs ptrs jac i sizes j0 v = v + ∑ j ∈ Finset.range sizes.length,
      ∑ k ∈ Finset.range (sizes.getD j 0),
        jac ((ptrs.getD (j0 + j) (0, 0)).2 + (i * sizes.getD j 0 + k)) • (inputs (j0 + j) k).v := by
  induction sizes generalizing j0 v with
  | nil => simp [chain]
  | cons s sizes ih =>
    rw [chain, ih, foldl_range_add s fun k => jac ((ptrs.getD j0 (0, 0)).2 + (i * s + k)) • (inputs j0 k).v,
      List.length_cons, Finset.sum_range_succ']
    simp only [List.getD_cons_succ, List.getD_cons_zero, Nat.add_zero]
    rw [add_assoc]
    congr 1
    rw [add_comm]
    congr 1
    refine Finset.sum_congr rfl fun j _ => ?_
    rw [show j0 + 1 + j = j0 + (j + 1) by omega]

/-- What the functor returns, in terms of what the cost function computes. -/
theorem functorJets_eq {c : CostFunction} {dom : Params → Prop} {f : Params → ℕ → ℝ} {J : Params → ℕ → ℕ → ℕ → ℝ}
    (hc : Computes c dom f J) (junk : ℕ → ℝ) (inputs : ℕ → ℕ → Jet N) (output : ℕ → Jet N) :
    ((functorJets c junk inputs output).1 = true ↔ dom fun i j => (inputs i j).a) ∧
    (dom (fun i j => (inputs i j).a) → ∀ r < c.numResiduals,
      ((functorJets c junk inputs output).2 r).a = f (fun i j => (inputs i j).a) r ∧
      ((functorJets c junk inputs output).2 r).v = ∑ i ∈ Finset.range c.sizes.length,
        ∑ k ∈ Finset.range (c.sizes.getD i 0), J (fun i j => (inputs i j).a) r i k • (inputs i k).v) ∧
    ∀ r, c.numResiduals ≤ r → (functorJets c junk inputs output).2 r = output r := by
  set p0 : Params := fun i j => (inputs i j).a with hp0
  set ptrs := blockPointers c.numResiduals c.sizes 0 0 with hptrs
  set pm : Params := fun i j => fillParameters inputs c.sizes 0 0 junk ((ptrs.getD i (0, 0)).1 + j) with hpm
  set js : ℕ → Option (ℕ → ℝ) :=
    fun i => if i < c.sizes.length then some fun k => junk ((ptrs.getD i (0, 0)).2 + k) else none with hjs
  have hag : Agree c.sizes pm p0 := by
    intro i hi j hj
    rw [hpm]
    simp only
    rw [hptrs, blockPointers_getD _ _ _ _ _ hi, Nat.zero_add]
    exact fillParameters_spec inputs c.sizes junk hi hj
  obtain ⟨r1, r2, r3⟩ := hc.reads _ _ hag
  have hdef : functorJets c junk inputs output = (if (c.evaluate pm junk (some js)).ok then
      (true, fun i => if i < c.numResiduals then ⟨(c.evaluate pm junk (some js)).residuals i,
        chain inputs ptrs (storeBlocks c.numResiduals ptrs
          ((c.evaluate pm junk (some js)).jacobians.getD fun _ => none) c.sizes 0 junk) i c.sizes 0 0⟩ else output i)
      else (false, output)) := rfl
  have hok := hc.ok pm junk (some js)
  rw [hdef]
  refine ⟨?_, fun hd r hr => ?_, fun r hr => ?_⟩
  · rw [← r1, ← hok]
    split_ifs with h <;> simp [h]
  · have hdm := r1.2 hd
    rw [if_pos (hok.2 hdm)]
    simp only [if_pos hr]
    refine ⟨by rw [hc.residuals pm junk (some js) hdm r hr, r2], ?_⟩
    rw [chain_eq, zero_add]
    refine Finset.sum_congr rfl fun i hi => Finset.sum_congr rfl fun k hk => ?_
    rw [Finset.mem_range] at hi hk
    rw [Nat.zero_add i]
    congr 1
    obtain ⟨js', hjs', hb⟩ := hc.blocks pm junk js
    obtain ⟨a', ha', hv, -⟩ := (hb i).2 (fun k => junk ((ptrs.getD i (0, 0)).2 + k)) (by rw [hjs]; exact if_pos hi)
    have hs := (storeBlocks_spec c.numResiduals ptrs ((c.evaluate pm junk (some js)).jacobians.getD fun _ => none)
      c.sizes 0 0 junk (fun i hi => by rw [hptrs, Nat.zero_add, blockPointers_getD _ _ _ _ _ hi])).2 i hi
      (r * c.sizes.getD i 0 + k) (by nlinarith)
    rw [Nat.zero_add, Nat.zero_add] at hs
    have hpt : (ptrs.getD i (0, 0)).2 = c.numResiduals * offset c.sizes i := by
      rw [hptrs, blockPointers_getD _ _ _ _ _ hi]
      exact Nat.zero_add _
    rw [hpt, hs, hjs', Option.getD_some, ha',
      Option.getD_some, hv hdm hi r hr k hk, r3]
  · split_ifs with h
    · exact if_neg (by omega)
    · rfl

/-- **CostFunctionToFunctor on jets is the chain rule**: if the inputs are the values and derivatives of functions
`G i j` of some variables, and the Jacobian of the cost function is right, then the outputs are the values and
derivatives of the cost function applied to the `G i j`. -/
theorem functor_jets_compose {c : CostFunction} {dom : Params → Prop} {f : Params → ℕ → ℝ}
    {J : Params → ℕ → ℕ → ℕ → ℝ} (hc : Computes c dom f J) (junk : ℕ → ℝ) (inputs : ℕ → ℕ → Jet N)
    (output : ℕ → Jet N) (G : ℕ → ℕ → (Fin N → ℝ) → ℝ) (t : Fin N → ℝ)
    (hG : ∀ i < c.sizes.length, ∀ j < c.sizes.getD i 0, Represents (inputs i j) (G i j) t)
    (hd : dom fun i j => G i j t)
    (hJ : IsJacobian c.sizes c.numResiduals f (J fun i j => G i j t) fun i j => G i j t) :
    (functorJets c junk inputs output).1 = true ∧
    (∀ r < c.numResiduals, Represents ((functorJets c junk inputs output).2 r)
      (fun t => f (fun i j => G i j t) r) t) ∧
    ∀ r, c.numResiduals ≤ r → (functorJets c junk inputs output).2 r = output r := by
  obtain ⟨h1, h2, h3⟩ := functorJets_eq hc junk inputs output
  have hag : Agree c.sizes (fun i j => (inputs i j).a) (fun i j => G i j t) := fun i hi j hj => (hG i hi j hj).value
  obtain ⟨r1, r2, r3⟩ := hc.reads _ _ hag
  refine ⟨h1.2 (r1.2 hd), fun r hr => ?_, h3⟩
  obtain ⟨ha, hv⟩ := h2 (r1.2 hd) r hr
  refine ⟨by rw [ha, r2], ?_⟩
  have hg : HasFDerivAt (fun t => ofParams c.sizes fun i j => G i j t)
      (ContinuousLinearMap.pi fun s : Coord c.sizes => grad (inputs s.1 s.2).v) t :=
    hasFDerivAt_pi.2 fun s => (hG s.1 s.1.2 s.2 s.2.2).deriv
  have hcomp := (hJ r hr).comp t hg
  have hfun : (fun t => f (fun i j => G i j t) r) =
      (fun x : Coord c.sizes → ℝ => f (toParams x) r) ∘ fun t => ofParams c.sizes fun i j => G i j t := by
    funext t'
    exact ((hc.reads _ _ (toParams_ofParams c.sizes fun i j => G i j t')).2.1 r).symm
  rw [hfun]
  refine hcomp.congr_fderiv ?_
  rw [hv]
  ext d
  rw [ContinuousLinearMap.comp_apply, ContinuousLinearMap.sum_apply, Fintype.sum_sigma, Ceres.Jet.grad_apply]
  simp only [ContinuousLinearMap.smul_apply, ContinuousLinearMap.proj_apply, ContinuousLinearMap.pi_apply,
    Ceres.Jet.grad_apply, smul_eq_mul, Finset.sum_apply, Pi.smul_apply]
  simp only [r3]
  have e : ∀ x : Fin N, (∑ i ∈ Finset.range c.sizes.length, ∑ k ∈ Finset.range (c.sizes.getD i 0),
      J (fun i j => G i j t) r i k * (inputs i k).v x) * d x = ∑ i : Fin c.sizes.length,
      ∑ k : Fin (c.sizes.getD i 0), J (fun i j => G i j t) r i k * ((inputs i k).v x * d x) := by
    intro x
    rw [Finset.sum_range, Finset.sum_mul]
    refine Finset.sum_congr rfl fun i _ => ?_
    rw [Finset.sum_range, Finset.sum_mul]
    exact Finset.sum_congr rfl fun k _ => mul_assoc _ _ _
  rw [Finset.sum_congr rfl fun x _ => e x, Finset.sum_comm]
  refine Finset.sum_congr rfl fun i _ => ?_
  rw [Finset.sum_comm]
  exact Finset.sum_congr rfl fun k _ => Finset.mul_sum _ _ _

/-- On doubles the functor is the cost function. -/
theorem functor_reals {c : CostFunction} {dom : Params → Prop} {f : Params → ℕ → ℝ} {J : Params → ℕ → ℕ → ℕ → ℝ}
    (hc : Computes c dom f J) (p : Params) (res : ℕ → ℝ) :
    ((functorReals c p res).1 = true ↔ dom p) ∧
    (dom p → ∀ r < c.numResiduals, (functorReals c p res).2 r = f p r) ∧
    ∀ r, c.numResiduals ≤ r → (functorReals c p res).2 r = res r :=
  ⟨hc.ok p res none, hc.residuals p res none, hc.beyond p res none⟩

/-- The statically sized functor accepts exactly the cost functions whose parameter blocks have the declared sizes;
the declared number of residuals is only required not to be zero. -/
theorem static_fits_iff (k : Option ℕ) (ns : List ℕ) (c : CostFunction) :
    staticFits k ns c = true ↔ k ≠ some 0 ∧ c.sizes = ns := by
  have hk : staticFits k ns c = true ↔ (k ≠ some 0 ∧ c.sizes.length = ns.length ∧
      ∀ i < ns.length, ns.getD i 0 = c.sizes.getD i 0) ∧ c.sizes.sum = ns.sum := by
    cases k with
    | none => simp only [staticFits, Bool.and_eq_true, decide_eq_true_eq, List.all_eq_true, List.mem_range]; simp
    | some k =>
      simp only [staticFits, Bool.and_eq_true, decide_eq_true_eq, List.all_eq_true, List.mem_range, ne_eq,
        Option.some.injEq, Nat.pos_iff_ne_zero, and_assoc]
  rw [hk]
  constructor
  · rintro ⟨⟨h1, h2, h3⟩, -⟩
    refine ⟨h1, List.ext_getElem h2 fun i hi hi' => ?_⟩
    have := h3 i hi'
    simp only [List.getD_eq_getElem?_getD, List.getElem?_eq_getElem hi, List.getElem?_eq_getElem hi',
      Option.getD_some] at this
    exact this.symm
  · rintro ⟨h1, rfl⟩
    exact ⟨⟨h1, rfl, fun _ _ => rfl⟩, rfl⟩

end

end Ceres.Adapters
