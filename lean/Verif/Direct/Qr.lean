import Verif.Direct.Algebra
import Mathlib.LinearAlgebra.Matrix.Block
import Mathlib.LinearAlgebra.Matrix.ToLinearEquiv

/-!
# C80: the QR solver
-/
namespace Ceres.Direct

variable {m n : ℕ}

/-- The leading square of `R`. -/
def lead (n : ℕ) (R : Buf) : Matrix (Fin n) (Fin n) ℝ := fun i j => R i j

/-- A vector of finitely many elements as a vector. -/
def extend {n : ℕ} (v : Fin n → ℝ) : Vec := fun i => if h : i < n then v ⟨i, h⟩ else 0

theorem sum_extend (f : ℕ → ℝ) (v : Fin n → ℝ) :
    ∑ j ∈ Finset.range n, f j * extend v j = ∑ j : Fin n, f j * v j := by
  rw [Finset.sum_range]
  refine Finset.sum_congr rfl fun j _ => ?_
  unfold extend
  rw [dif_pos j.2]

theorem lead_det {R : Buf} (hR : ∀ i < n, ∀ j < n, j < i → R i j = 0) :
    (lead n R).det = ∏ i : Fin n, R i i :=
  Matrix.det_of_upperTriangular fun i j hij => hR i i.2 j j.2 hij

/-- The columns of `R` are independent if and only if there is no zero on the diagonal. -/
theorem independent_iff {R : Buf} (hR : ∀ i < m, ∀ j < n, j < i → R i j = 0) (hnm : n ≤ m) :
    (∀ x : Vec, (∀ k < m, ∑ j ∈ Finset.range n, R k j * x j = 0) → ∀ j < n, x j = 0) ↔ ∀ i < n, R i i ≠ 0 := by
  have hdet := lead_det (n := n) fun i hi j hj => hR i (lt_of_lt_of_le hi hnm) j hj
  constructor
  · intro h i hi h0
    have : (lead n R).det = 0 := by
      rw [hdet]
      exact Finset.prod_eq_zero (Finset.mem_univ ⟨i, hi⟩) h0
    obtain ⟨v, hv, hmv⟩ := Matrix.exists_mulVec_eq_zero_iff.2 this
    apply hv
    funext j
    have := h (extend v) (by
      intro k hk
      rw [sum_extend]
      by_cases hkn : k < n
      · exact congrFun hmv ⟨k, hkn⟩
      · exact Finset.sum_eq_zero fun j _ => by rw [hR k hk j j.2 (by have := j.2; omega), zero_mul]) j j.2
    unfold extend at this
    rw [dif_pos j.2] at this
    exact this
  · intro h x hx j hj
    have hd : (lead n R).det ≠ 0 := by
      rw [hdet]
      exact Finset.prod_ne_zero_iff.2 fun i _ => h i i.2
    have hz : (lead n R).mulVec (fun j => x j) = 0 := by
      funext i
      have := hx i (lt_of_lt_of_le i.2 hnm)
      rw [Finset.sum_range] at this
      exact this
    by_contra hne
    exact hd (Matrix.exists_mulVec_eq_zero_iff.1 ⟨fun j => x j, fun h0 => hne (congrFun h0 ⟨j, hj⟩), hz⟩)

section factor

variable {L Q R : Buf}

/-- `Q` keeps products. -/
theorem orth_sum (hQ : ∀ i < m, ∀ j < m, ∑ k ∈ Finset.range m, Q k i * Q k j = if i = j then 1 else 0)
    (u v : Vec) : ∑ k ∈ Finset.range m, (∑ p ∈ Finset.range m, Q k p * u p) * (∑ q ∈ Finset.range m, Q k q * v q) =
      ∑ p ∈ Finset.range m, u p * v p := by
  have h1 : ∀ k ∈ Finset.range m, (∑ p ∈ Finset.range m, Q k p * u p) * (∑ q ∈ Finset.range m, Q k q * v q) =
      ∑ p ∈ Finset.range m, ∑ q ∈ Finset.range m, u p * v q * (Q k p * Q k q) := by
    intro k _
    rw [Finset.sum_mul_sum]
    exact Finset.sum_congr rfl fun p _ => Finset.sum_congr rfl fun q _ => by ring
  rw [Finset.sum_congr rfl h1, Finset.sum_comm]
  refine Finset.sum_congr rfl fun p hp => ?_
  rw [Finset.sum_comm]
  have h2 : ∀ q ∈ Finset.range m, ∑ k ∈ Finset.range m, u p * v q * (Q k p * Q k q) =
      if p = q then u p * v q else 0 := by
    intro q hq
    rw [← Finset.mul_sum, hQ p (Finset.mem_range.1 hp) q (Finset.mem_range.1 hq)]
    split_ifs <;> simp
  rw [Finset.sum_congr rfl h2, Finset.sum_ite_eq, if_pos hp]

theorem factor_mul (hL : ∀ i < m, ∀ j < n, L i j = ∑ k ∈ Finset.range m, Q i k * R k j) (x : Vec) {k : ℕ}
    (hk : k < m) : ∑ j ∈ Finset.range n, L k j * x j =
      ∑ p ∈ Finset.range m, Q k p * (∑ j ∈ Finset.range n, R p j * x j) := by
  have h1 : ∀ j ∈ Finset.range n, L k j * x j = ∑ p ∈ Finset.range m, Q k p * R p j * x j := by
    intro j hj
    rw [hL k hk j (Finset.mem_range.1 hj), Finset.sum_mul]
  rw [Finset.sum_congr rfl h1, Finset.sum_comm]
  refine Finset.sum_congr rfl fun p _ => ?_
  rw [Finset.mul_sum]
  exact Finset.sum_congr rfl fun j _ => by ring

/-- The triangular system gives the normal equations. -/
theorem qr_normal (hQ : ∀ i < m, ∀ j < m, ∑ k ∈ Finset.range m, Q k i * Q k j = if i = j then 1 else 0)
    (hL : ∀ i < m, ∀ j < n, L i j = ∑ k ∈ Finset.range m, Q i k * R k j)
    (hR : ∀ i < m, ∀ j < n, j < i → R i j = 0) (hnm : n ≤ m) {rhs y : Vec}
    (hy : ∀ i < n, ∑ j ∈ Finset.range n, (if i ≤ j then R i j else 0) * y j =
      ∑ k ∈ Finset.range m, Q k i * rhs k) {i : ℕ} (hi : i < n) :
    ∑ k ∈ Finset.range m, L k i * (∑ j ∈ Finset.range n, L k j * y j) = ∑ k ∈ Finset.range m, L k i * rhs k := by
  have e1 : ∑ k ∈ Finset.range m, L k i * (∑ j ∈ Finset.range n, L k j * y j) =
      ∑ p ∈ Finset.range m, R p i * (∑ j ∈ Finset.range n, R p j * y j) := by
    rw [← orth_sum hQ (fun p => R p i) fun p => ∑ j ∈ Finset.range n, R p j * y j]
    refine Finset.sum_congr rfl fun k hk => ?_
    rw [hL k (Finset.mem_range.1 hk) i hi, factor_mul hL y (Finset.mem_range.1 hk)]
  have e2 : ∑ k ∈ Finset.range m, L k i * rhs k =
      ∑ p ∈ Finset.range m, R p i * (∑ k ∈ Finset.range m, Q k p * rhs k) := by
    have h1 : ∀ k ∈ Finset.range m, L k i * rhs k = ∑ p ∈ Finset.range m, Q k p * R p i * rhs k := by
      intro k hk
      rw [hL k (Finset.mem_range.1 hk) i hi, Finset.sum_mul]
    rw [Finset.sum_congr rfl h1, Finset.sum_comm]
    refine Finset.sum_congr rfl fun p _ => ?_
    rw [Finset.mul_sum]
    exact Finset.sum_congr rfl fun j _ => by ring
  rw [e1, e2]
  refine Finset.sum_congr rfl fun p hp => ?_
  have hp := Finset.mem_range.1 hp
  by_cases hpn : p < n
  · rw [← hy p hpn]
    congr 1
    refine Finset.sum_congr rfl fun j hj => ?_
    split_ifs with h
    · rfl
    · rw [hR p hp j (Finset.mem_range.1 hj) (by omega)]
  · rw [hR p hp i hi (by omega), zero_mul, zero_mul]

/-- The columns of `L` are independent if and only if those of `R` are. -/
theorem factor_kernel (hQ : ∀ i < m, ∀ j < m, ∑ k ∈ Finset.range m, Q k i * Q k j = if i = j then 1 else 0)
    (hL : ∀ i < m, ∀ j < n, L i j = ∑ k ∈ Finset.range m, Q i k * R k j) (x : Vec) :
    (∀ k < m, ∑ j ∈ Finset.range n, L k j * x j = 0) ↔ ∀ k < m, ∑ j ∈ Finset.range n, R k j * x j = 0 := by
  constructor
  · intro h
    have := orth_sum hQ (fun p => ∑ j ∈ Finset.range n, R p j * x j) fun p => ∑ j ∈ Finset.range n, R p j * x j
    have h0 : ∑ k ∈ Finset.range m, (∑ p ∈ Finset.range m, Q k p * ∑ j ∈ Finset.range n, R p j * x j) *
        (∑ p ∈ Finset.range m, Q k p * ∑ j ∈ Finset.range n, R p j * x j) = 0 := by
      refine Finset.sum_eq_zero fun k hk => ?_
      rw [← factor_mul hL x (Finset.mem_range.1 hk), h k (Finset.mem_range.1 hk), zero_mul]
    rw [h0] at this
    intro k hk
    have := (Finset.sum_eq_zero_iff_of_nonneg fun _ _ => mul_self_nonneg _).1 this.symm k (Finset.mem_range.2 hk)
    exact mul_self_eq_zero.1 this
  · intro h k hk
    rw [factor_mul hL x hk]
    exact Finset.sum_eq_zero fun p hp => by rw [h p (Finset.mem_range.1 hp), mul_zero]

end factor

/-- The buffers have sizes that fit each other: true of a new solver and kept by every call. -/
def QrSolver.Ok (S : QrSolver) : Prop := S.rhsRows = S.lhsRows

/-- **DENSE_QR** (LAPACK): whatever an earlier call has left in the buffers and in the object, a call with at least
as many rows as columns, counting those of `D`, returns; it succeeds exactly if the minimiser is unique; and then
`x` is the minimiser. -/
theorem dense_qr {lib : Lapack} (hlib : lib.Correct) {S : QrSolver} (hS : S.Ok) (m n : ℕ) (A : Buf) (b : Vec)
    (D : Option Vec) (hmn : n ≤ m + if D.isSome then n else 0) (junk : Buf) (junkRhs : Vec) (factored : Buf)
    (x0 : Vec) : ∃ ok x S', S.solve lib m n A b D junk junkRhs factored x0 = some (ok, x, S') ∧ S'.Ok ∧
      (ok = true ↔ Regular m n A D) ∧ (ok = true → Minimises m n A b D x) := by
  set aug := m + if D.isSome then n else 0 with haug
  set S1 : QrSolver := if S.lhsRows ≠ aug ∨ S.lhsCols ≠ n then
      { S with lhsRows := aug, lhsCols := n, rhsRows := aug, lhs := junk, rhs := junkRhs }
    else S with hS1
  have hsz : S1.lhsRows = aug ∧ S1.lhsCols = n ∧ S1.rhsRows = aug := by
    rw [hS1]
    split_ifs with h
    · exact ⟨rfl, rfl, rfl⟩
    · push Not at h
      exact ⟨h.1, h.2, by rw [show S.rhsRows = S.lhsRows from hS, h.1]⟩
  -- what is factorised
  set L0 : Buf := fun i j => if i < m then A i j else S1.lhs i j with hL0
  set r0 : Vec := fun i => if i < m then b i else S1.rhs i with hr0
  set L : Buf := setBottom D m n aug L0 with hL
  set r : Vec := if m ≠ aug then fun i => if aug - n ≤ i then 0 else r0 i else r0 with hr
  have hLent : ∀ k < aug, ∀ j < n, L k j = if k < m then A k j else diagAt D (k - m) j := by
    intro k hk j hj
    cases D with
    | none =>
      simp only [Option.isSome_none, Bool.false_eq_true, if_false, Nat.add_zero] at haug
      rw [hL, hL0]
      unfold setBottom
      simp only
      rw [if_pos (by omega), if_pos (by omega)]
    | some d =>
      simp only [Option.isSome_some, if_true] at haug
      rw [hL]
      unfold setBottom
      simp only
      have e : aug - n = m := by omega
      rw [e, if_pos (by omega)]
      unfold diagAt
      by_cases hkm : k < m
      · rw [if_neg (by omega), if_pos hkm, hL0]
        simp only
        rw [if_pos hkm]
      · rw [if_pos (by omega), if_neg hkm]
  have hrent : ∀ k < aug, r k = if k < m then b k else 0 := by
    intro k hk
    rw [hr]
    by_cases hm : m ≠ aug
    · have e : aug - n = m := by
        have : D.isSome = true := by
          by_contra hD
          rw [if_neg hD] at haug
          omega
        rw [if_pos this] at haug
        omega
      rw [if_pos hm, e]
      by_cases hkm : k < m
      · rw [if_neg (by omega), if_pos hkm, hr0]
        simp only
        rw [if_pos hkm]
      · rw [if_pos (by omega), if_neg hkm]
    · rw [if_neg hm, hr0]
      simp only
      rw [if_pos (by omega), if_pos (by omega)]
  set q := S1.qr.factorize lib S1.lhsRows S1.lhsCols L with hq
  have hval : S.solve lib m n A b D junk junkRhs factored x0 =
      some ((q.solve lib r x0).1, (q.solve lib r x0).2.1,
        { S1 with lhs := factored, rhs := r, qr := (q.solve lib r x0).2.2 }) := by
    unfold QrSolver.solve
    simp only
    rw [← haug, ← hS1, if_pos ⟨by rw [hsz.1, haug]; omega, by rw [hsz.2.2, hsz.1]⟩]
  refine ⟨_, _, _, hval, ?_, ?_⟩
  · show S1.rhsRows = S1.lhsRows
    rw [hsz.2.2, hsz.1]
  -- the factors
  set Q := (lib.qr aug n L).1 with hQ
  set R := (lib.qr aug n L).2 with hR
  have horth := hlib.orthogonal aug n L hmn
  have hfac := hlib.factors aug n L hmn
  have htri := hlib.triangular aug n L hmn
  rw [← hQ] at horth
  rw [← hQ, ← hR] at hfac
  rw [← hR] at htri
  have hqd : q.rows = aug ∧ q.cols = n ∧ q.Q = Q ∧ q.R = R ∧ q.success = true := by
    rw [hq]
    unfold Qr.factorize
    rw [hsz.1, hsz.2.1]
    exact ⟨rfl, rfl, rfl, rfl, rfl⟩
  -- the kernel of the augmented matrix
  have hker : Regular m n A D ↔ ∀ i < n, R i i ≠ 0 := by
    rw [← independent_iff htri hmn]
    have hk : ∀ x : Vec, (∀ k < aug, ∑ j ∈ Finset.range n, L k j * x j = 0) ↔
        (∀ k < m, ∑ j ∈ Finset.range n, A k j * x j = 0) ∧ Annihilates D n x := by
      intro x
      unfold Annihilates
      have top : ∀ k < m, ∑ j ∈ Finset.range n, L k j * x j = ∑ j ∈ Finset.range n, A k j * x j := by
        intro k hk
        refine Finset.sum_congr rfl fun j hj => ?_
        rw [hLent k (by omega) j (Finset.mem_range.1 hj), if_pos hk]
      cases D with
      | none =>
        simp only [Option.isSome_none, Bool.false_eq_true, if_false, Nat.add_zero] at haug
        simp only [and_true]
        exact ⟨fun h k hk => by rw [← top k hk]; exact h k (by omega),
          fun h k hk => by rw [top k (by omega)]; exact h k (by omega)⟩
      | some d =>
        simp only [Option.isSome_some, if_true] at haug
        have bottom : ∀ i < n, ∑ j ∈ Finset.range n, L (m + i) j * x j = d i * x i := by
          intro i hi
          have : ∀ j ∈ Finset.range n, L (m + i) j * x j = if j = i then d i * x i else 0 := by
            intro j hj
            rw [hLent (m + i) (by omega) j (Finset.mem_range.1 hj), if_neg (by omega)]
            unfold diagAt
            simp only [Nat.add_sub_cancel_left]
            by_cases hij : i = j
            · subst hij; simp
            · rw [if_neg hij, if_neg (Ne.symm hij), zero_mul]
          rw [Finset.sum_congr rfl this, Finset.sum_ite_eq', if_pos (Finset.mem_range.2 hi)]
        refine ⟨fun h => ⟨fun k hk => by rw [← top k hk]; exact h k (by omega),
          fun i hi => by rw [← bottom i hi]; exact h (m + i) (by omega)⟩, fun h k hk => ?_⟩
        by_cases hkm : k < m
        · rw [top k hkm]; exact h.1 k hkm
        · have e : k = m + (k - m) := by omega
          rw [e, bottom (k - m) (by omega)]
          exact h.2 (k - m) (by omega)
    unfold Regular
    constructor
    · intro h x hx
      have := (hk x).1 ((factor_kernel horth hfac x).2 hx)
      exact h x this.1 this.2
    · intro h x h1 h2
      exact h x ((factor_kernel horth hfac x).1 ((hk x).2 ⟨h1, h2⟩))
  -- the triangular solve
  set rot : Vec := q.rotate r with hrot
  have hrot_eq : ∀ i < n, rot i = ∑ k ∈ Finset.range aug, Q k i * r k := by
    intro i hi
    rw [hrot]
    unfold Qr.rotate
    simp only
    rw [hqd.1, hqd.2.2.1, if_pos (by omega)]
    exact Finset.sum_congr rfl fun k hk => by rw [if_pos (Finset.mem_range.1 hk)]
  have hsolve : q.solve lib r x0 = match lib.trtrs q.cols q.R rot with
      | none => (false, x0, { q with qtRhs := rot, success := false })
      | some y => (true, fun i => if i < q.cols then y i else x0 i,
          { q with qtRhs := fun i => if i < q.cols then y i else rot i, success := true }) := by
    unfold Qr.solve
    rw [if_pos hqd.2.2.2.2]
    rfl
  have htr : lib.trtrs q.cols q.R rot = lib.trtrs n R rot := by rw [hqd.2.1, hqd.2.2.2.1]
  rw [hsolve, hker, htr]
  cases ht : lib.trtrs n R rot with
  | none =>
    simp only [Bool.false_eq_true, false_iff, false_imp_iff, and_true]
    intro h
    have := hlib.complete n R rot h
    rw [ht] at this
    cases this
  | some y =>
    simp only [true_iff, forall_const]
    refine ⟨?_, ?_⟩
    · intro i hi h0
      have := hlib.refuses n R rot ⟨i, hi, h0⟩
      rw [ht] at this
      cases this
    · refine minimises_of_normal fun i hi => ?_
      have hy : ∀ i < n, ∑ j ∈ Finset.range n, (if i ≤ j then R i j else 0) * y j =
          ∑ k ∈ Finset.range aug, Q k i * r k := by
        intro i hi
        rw [hlib.solves n R rot y ht i hi, hrot_eq i hi]
      have hN := qr_normal horth hfac htri hmn hy hi
      have e1 : ∑ k ∈ Finset.range aug, L k i * r k = ∑ k ∈ Finset.range m, A k i * b k := by
        rw [haug, Finset.sum_range_add]
        have h1 : ∑ k ∈ Finset.range m, L k i * r k = ∑ k ∈ Finset.range m, A k i * b k := by
          refine Finset.sum_congr rfl fun k hk => ?_
          have hk := Finset.mem_range.1 hk
          rw [hLent k (by omega) i hi, hrent k (by omega), if_pos hk, if_pos hk]
        have h2 : ∑ k ∈ Finset.range (if D.isSome then n else 0), L (m + k) i * r (m + k) = 0 := by
          refine Finset.sum_eq_zero fun k hk => ?_
          have hk := Finset.mem_range.1 hk
          rw [hrent (m + k) (by omega), if_neg (by omega), mul_zero]
        rw [h1, h2, add_zero]
      have e2 : ∑ j ∈ Finset.range n, normalMat m A D i j * y j =
          ∑ k ∈ Finset.range aug, L k i * (∑ j ∈ Finset.range n, L k j * y j) := by
        have : ∀ j ∈ Finset.range n, normalMat m A D i j * y j =
            ∑ k ∈ Finset.range aug, L k i * (L k j * y j) := by
          intro j hj
          rw [← gram_append haug hLent hi (Finset.mem_range.1 hj), Finset.sum_mul]
          exact Finset.sum_congr rfl fun k _ => by ring
        rw [Finset.sum_congr rfl this, Finset.sum_comm]
        exact Finset.sum_congr rfl fun k _ => by rw [Finset.mul_sum]
      refine Eq.trans ?_ (e2.trans (hN.trans e1))
      exact Finset.sum_congr rfl fun j hj => by rw [hqd.2.1, if_pos (Finset.mem_range.1 hj)]

end Ceres.Direct
