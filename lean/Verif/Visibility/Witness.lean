import Verif.Visibility.Props
import Verif.SchurDirect.Witness
import Verif.Direct.Exact
import Mathlib.Analysis.Real.Sqrt

/-!
# A case
-/

noncomputable section

namespace Ceres.Visibility

open Ceres.BlockSparse Ceres.InnerProduct Ceres.Direct Ceres.SchurDirect Ceres.SchurMatrix Ceres.Graph

/-! ## Orders -/

open Classical in
/-- Some orders. -/
def someOrders : Orders where
  cameraPairs m := if h : ∃ l : List (ℕ × ℕ), ∀ p, p ∈ l ↔ 0 < m p then h.choose.dedup else []
  graph := id
  valid := List.reverse
  linkage := List.reverse
  members := List.reverse
  sort l := l.mergeSort fun a b => decide (¬pairLess a b)

theorem someOrders_ok : someOrders.Ok where
  cameraPairs m h := by
    classical
    have e : someOrders.cameraPairs m = h.choose.dedup := by
      unfold someOrders
      simp only
      rw [dif_pos h]
    rw [e]
    exact ⟨List.nodup_dedup _, fun p => by rw [List.mem_dedup]; exact h.choose_spec p⟩
  graph g := ⟨List.Perm.refl _, fun _ => List.Perm.refl _, rfl, rfl⟩
  valid l := List.reverse_perm l
  linkage l := List.reverse_perm l
  members l := List.reverse_perm l
  sort l := by
    classical
    refine ⟨List.mergeSort_perm l _, ?_⟩
    have := List.pairwise_mergeSort (le := fun a b : ℝ × ℕ × ℕ => decide (¬pairLess a b)) (by
      intro a b c hab hbc
      simp only [decide_eq_true_eq] at *
      unfold pairLess at *
      rcases a with ⟨a1, a2, a3⟩
      rcases b with ⟨b1, b2, b3⟩
      rcases c with ⟨c1, c2, c3⟩
      simp only [not_or, not_and, not_lt] at *
      obtain ⟨h1, h2⟩ := hab
      obtain ⟨h3, h4⟩ := hbc
      refine ⟨h3.trans h1, fun h => ?_⟩
      have e1 : a1 = b1 := le_antisymm (h.trans h3) h1
      have e2 : b1 = c1 := by rw [← e1]; exact le_antisymm h (e1 ▸ h3)
      have := h2 e1.le
      have := h4 e2.le
      constructor
      · omega
      · intro h
        have := (h2 e1.le).2
        have := (h4 e2.le).2
        omega) (by
      intro a b
      simp only [Bool.or_eq_true, decide_eq_true_eq]
      unfold pairLess
      rcases a with ⟨a1, a2, a3⟩
      rcases b with ⟨b1, b2, b3⟩
      simp only [not_or, not_and, not_lt]
      rcases lt_trichotomy a1 b1 with h | h | h
      · exact .inr ⟨h.le, fun h' => absurd h (not_lt.2 h')⟩
      · subst h
        simp only [le_refl, forall_const, true_and]
        omega
      · exact .inl ⟨h.le, fun h' => absurd h (not_lt.2 h')⟩) l
    refine this.imp ?_
    intro a b h
    simpa using h

/-! ## A structure -/

/-- Two points and three cameras; the first point is seen by the first two cameras, the second by the last two. -/
def row : BS where
  cols := [⟨1, 0⟩, ⟨1, 1⟩, ⟨2, 2⟩, ⟨1, 4⟩, ⟨1, 5⟩]
  rows := [⟨⟨1, 0⟩, [⟨0, 0⟩, ⟨2, 4⟩], 0, 0⟩, ⟨⟨1, 1⟩, [⟨0, 1⟩, ⟨3, 6⟩], 0, 0⟩, ⟨⟨1, 2⟩, [⟨1, 2⟩, ⟨3, 7⟩], 0, 0⟩,
    ⟨⟨1, 3⟩, [⟨1, 3⟩, ⟨4, 8⟩], 0, 0⟩]

theorem row_ok (v : Vec) : (BMat.ofStructure row v).Ok :=
  ofStructure_ok (by simp [row, Laid]) (by simp [row, Laid]) (by decide) (by decide)

set_option synthInstance.maxHeartbeats 200000 in
set_option synthInstance.maxSize 1024 in
theorem row_ordered : SchurOrdered 2 row where
  sorted := by unfold CellsSorted; decide
  nonempty := by decide
  independent := by decide
  eFirst := by decide
  grouped := sublist3 (P := Between 2) (by decide)

theorem row_fits (v d : Vec) (hd : ∀ j < 6, d j ≠ 0) : Fits 2 row (asCall (BMat.ofStructure row v) (some d)) where
  ok := row_ok v
  structure_ := rfl
  ordered := row_ordered
  blocks := by decide
  cols := by decide
  rows := by decide
  first := by decide
  regular := regularE_diagonal (row_ok v) hd

instance (bs : BS) (ne a e : ℕ) : Decidable (Sees bs ne a e) := by
  unfold Sees
  infer_instance

theorem row_points : points row 2 0 = {0} ∧ points row 2 1 = {0, 1} ∧ points row 2 2 = {1} := by
  have h : ∀ a, points row 2 a = (Finset.range 2).filter fun e => Sees row 2 a e := by
    intro a
    unfold points
    congr
  rw [h, h, h]
  decide

theorem sqrt_two_small : (1 : ℝ) / Real.sqrt 2 < 9 / 10 := by
  have h2 : (0 : ℝ) < Real.sqrt 2 := Real.sqrt_pos.2 (by norm_num)
  have h3 : (10 : ℝ) / 9 < Real.sqrt 2 := by
    rw [Real.lt_sqrt (by norm_num)]
    norm_num
  rw [div_lt_iff₀ h2]
  linarith

theorem row_similarity {u x : ℕ} (hu : u < 3) (hx : x < 3) (h : 9 / 10 ≤ similarity row 2 u x) : u = x := by
  by_contra hne
  obtain ⟨p0, p1, p2⟩ := row_points
  have hs := sqrt_two_small
  unfold similarity at h
  rw [if_neg hne] at h
  have c1 : (({0} : Finset ℕ) ∩ {0, 1}).card = 1 := by decide
  have c2 : (({0, 1} : Finset ℕ) ∩ {0}).card = 1 := by decide
  have c3 : (({0, 1} : Finset ℕ) ∩ {1}).card = 1 := by decide
  have c4 : (({1} : Finset ℕ) ∩ {0, 1}).card = 1 := by decide
  have c5 : (({0} : Finset ℕ) ∩ {1}).card = 0 := by decide
  have c6 : (({1} : Finset ℕ) ∩ {0}).card = 0 := by decide
  have d1 : ({0, 1} : Finset ℕ).card = 2 := by decide
  have d2 : ({0} : Finset ℕ).card = 1 := by decide
  have d3 : ({1} : Finset ℕ).card = 1 := by decide
  interval_cases u <;> interval_cases x <;> first
    | exact hne rfl
    | (simp only [p0, p1, p2, c1, c2, c3, c4, c5, c6, d1, d2, d3] at h
       norm_num at h
       try linarith [one_div (Real.sqrt 2)])

/-- Every camera is a cluster, the blocks of neighbours are in CLUSTER_TRIDIAGONAL, and not in CLUSTER_JACOBI. -/
theorem row_construct (t : Bool) : ∃ P, construct ⟨t, false⟩ someOrders row 2 = some P ∧
    P.cluster 0 ≠ P.cluster 1 ∧ P.cluster 1 ≠ P.cluster 2 ∧ P.cluster 0 ≠ P.cluster 2 ∧
    (0, 0) ∈ P.blockPairs ∧ (0, 2) ∉ P.blockPairs ∧ ((0, 1) ∈ P.blockPairs ↔ t = true) := by
  obtain ⟨P, F, h1, h2, h3, h4, h5, h6, h7⟩ := construct_spec (row_fits (fun _ => 0) (fun _ => 1) fun _ _ => one_ne_zero)
    (by decide) ⟨t, false⟩ someOrders_ok
  have hlen : row.cols.length - 2 = 3 := rfl
  rw [hlen] at h3 h4 h5 h7
  have h5 : LinkageClusters row 2 3 P.numClusters P.cluster := by simpa using h5
  have hinj : ∀ a < 3, ∀ b < 3, P.cluster a = P.cluster b → a = b := by
    intro a ha b hb h
    have := (h5.1 a ha b hb).1 h
    clear h hb
    induction this with
    | refl => rfl
    | tail _ h ih => rw [ih, row_similarity h.1 h.2.1 h.2.2]
  have n01 : P.cluster 0 ≠ P.cluster 1 := fun h => absurd (hinj 0 (by omega) 1 (by omega) h) (by omega)
  have n12 : P.cluster 1 ≠ P.cluster 2 := fun h => absurd (hinj 1 (by omega) 2 (by omega) h) (by omega)
  have n02 : P.cluster 0 ≠ P.cluster 2 := fun h => absurd (hinj 0 (by omega) 2 (by omega) h) (by omega)
  refine ⟨P, h1, n01, n12, n02, (h7 0 0 (by omega) (by omega)).2 (.inl rfl), ?_, ?_⟩
  · rw [h7 0 2 (by omega) (by omega)]
    rintro (h | ⟨h, -⟩)
    · omega
    · unfold Coupled at h
      rcases h with ⟨e, ha, hb⟩ | h
      · have he := ha.1
        interval_cases e
        · exact absurd hb (by decide)
        · exact absurd ha (by decide)
      · exact absurd h (by decide)
  · rw [h7 0 1 (by omega) (by omega)]
    have hc : Coupled row 2 0 1 := .inl ⟨0, by decide, by decide⟩
    simp only [Nat.zero_ne_one, false_or, hc, true_and, n01]
    unfold Joined at h6
    cases t with
    | false =>
      rw [if_neg (by simp)] at h6
      subst h6
      simp
    | true =>
      rw [if_pos rfl, hlen] at h6
      simp only [iff_true]
      have hcp : ∀ a < 3, clusterPoints row 2 3 P.cluster (P.cluster a) = points row 2 a := by
        intro a ha
        have : ((Finset.range 3).filter fun b => P.cluster b = P.cluster a) = {a} := by
          ext b
          simp only [Finset.mem_filter, Finset.mem_range, Finset.mem_singleton]
          exact ⟨fun h => hinj b h.1 a ha h.2, fun h => by subst h; exact ⟨ha, rfl⟩⟩
        unfold clusterPoints
        rw [this, Finset.singleton_biUnion]
      obtain ⟨p0, p1, p2⟩ := row_points
      have hcom : common row 2 3 P.cluster (P.cluster 0) (P.cluster 2) = 0 := by
        unfold common
        rw [hcp 0 (by omega), hcp 2 (by omega), p0, p2]
        decide
      have hcom01 : 0 < common row 2 3 P.cluster (P.cluster 0) (P.cluster 1) := by
        unfold common
        rw [hcp 0 (by omega), hcp 1 (by omega), p0, p1]
        decide
      by_contra hno
      have from0 : ∀ x, ¬F.Adj (P.cluster 0) x := by
        intro x hx
        obtain ⟨a, ha, rfl⟩ := h5.2 x (h6.bound _ _ hx).2
        interval_cases a
        · exact F.irrefl hx
        · exact hno hx
        · exact absurd (h6.shared _ _ hx) (by rw [hcom]; omega)
      have from1 : ∀ x, F.Adj (P.cluster 1) x → x = P.cluster 2 := by
        intro x hx
        obtain ⟨a, ha, rfl⟩ := h5.2 x (h6.bound _ _ hx).2
        interval_cases a
        · exact absurd hx.symm hno
        · exact absurd hx F.irrefl
        · rfl
      have b0 := h4 0 (by omega)
      have b1 := h4 1 (by omega)
      rcases Nat.lt_or_gt_of_ne n01 with h | h
      · refine hno ((h6.greedy _ _ h b1 hcom01).2 ?_)
        rintro (⟨x, y, -, hx, -⟩ | ⟨x, y, hxy, hx, hy⟩ | h)
        · exact from0 _ hx.1
        · exact hxy ((from1 _ hx.1).trans (from1 _ hy.1).symm)
        · rcases h.cases_head with e | ⟨x, hx, -⟩
          · exact n01 e
          · exact from0 _ hx.1
      · have hcom' : 0 < common row 2 3 P.cluster (P.cluster 1) (P.cluster 0) := by
          unfold common at *
          rwa [Finset.inter_comm]
        refine hno ((h6.greedy _ _ h b0 hcom').2 ?_).symm
        rintro (⟨x, y, hxy, hx, hy⟩ | ⟨x, y, -, hx, -⟩ | h)
        · exact hxy ((from1 _ hx.1).trans (from1 _ hy.1).symm)
        · exact from0 _ hx.1
        · rcases h.cases_tail with e | ⟨x, -, hx⟩
          · exact n01 e
          · exact from0 _ hx.1.symm

/-! ## An update -/

/-- After two updates with any values, a third one succeeds and the preconditioner is applied exactly. -/
example (t : Bool) (v₁ v₂ v₃ : Vec) : ∃ P K F, construct ⟨t, false⟩ someOrders row 2 = some P ∧
    Joined ⟨t, false⟩ row 2 P F ∧
    After ⟨t, false⟩ (exactSparse true) Schur.exactInv 2 P 4
      [(BMat.ofStructure row v₁, some fun _ => 1), (BMat.ofStructure row v₂, some fun _ => 2)] K ∧
    ∀ o, Update ⟨t, false⟩ (exactSparse true) false Schur.exactInv 2 P K (BMat.ofStructure row v₃) (some fun _ => 1) 4 o →
      ∃ S K' s, o = some (true, K') ∧
        ∀ x, Eqs 4 (masked row 2 P.cluster F s S) (apply K' x) x ∧ PosDef 4 (masked row 2 P.cluster F s S) := by
  obtain ⟨P, hP, -⟩ := row_construct t
  have hcalls : ∀ q ∈ [((BMat.ofStructure row v₁ : BMat ℝ), some fun _ : ℕ => (1 : ℝ)),
      (BMat.ofStructure row v₂, some fun _ => 2)], Fits 2 row (asCall q.1 q.2) := by
    intro q hq
    simp only [List.mem_cons, List.not_mem_nil, or_false] at hq
    rcases hq with rfl | rfl
    · exact row_fits _ _ fun _ _ => one_ne_zero
    · exact row_fits _ _ fun _ _ => two_ne_zero
  have hf := row_fits v₃ (fun _ => 1) fun _ _ => one_ne_zero
  obtain ⟨K, hK⟩ := after_exists (exactSparse_correct true) Schur.exactInv_fullRank (threads := 4) (by omega) (by decide)
    ⟨t, false⟩ someOrders_ok hP _ hcalls
  obtain ⟨S, hS⟩ := isSchur_exists hf
  obtain ⟨-, F, hF, h⟩ := update_spec (exactSparse_correct true) Schur.exactInv_fullRank (by omega) (by decide) ⟨t, false⟩
    someOrders_ok hP hcalls hK hf false hS
  refine ⟨P, K, F, hP, hF, hK, fun o ho => ?_⟩
  obtain ⟨ok, K', rfl, h1, h2⟩ := h o ho
  have hr : Regular (BMat.ofStructure row v₃).numRows (BMat.ofStructure row v₃).numCols
      (BMat.ofStructure row v₃ : BMat ℝ).entry (some fun _ => 1) :=
    fun y _ hy j hj => by simpa using hy j hj
  have hok := h1 hr (.inr rfl)
  subst hok
  obtain ⟨s, -, h3, h4⟩ := h2 rfl
  refine ⟨S, K', s, rfl, fun x => ⟨h3 x, h4 (.inr ?_)⟩⟩
  classical
  intro _ _ A _ _ _ hA
  exact of_decide_eq_true hA

/-! ## Without scaling -/

/-- A point and three cameras with one column each. -/
def line : BS := ⟨[⟨1, 0⟩, ⟨1, 1⟩, ⟨1, 2⟩, ⟨1, 3⟩], []⟩

/-- The diagonal is 1, and everything else 9/10. -/
def close : Buf := fun p q => if p = q then 1 else 9 / 10

/-- A chain of three clusters. -/
def chain : SimpleGraph ℕ := SimpleGraph.fromRel fun a b => b = a + 1 ∧ b < 3

/-- Without the factor 1/2 a chain of clusters need not give a positive definite matrix. -/
theorem unscaled_indefinite : PosDef 3 close ∧ ¬PosDef 3 (masked line 1 id chain 1 close) ∧
    PosDef 3 (masked line 1 id chain (1 / 2) close) := by
  have hcam : ∀ p < 3, cameraOf line 1 p = p := by decide
  have adj01 : chain.Adj 0 1 := by simp [chain]
  have adj12 : chain.Adj 1 2 := by simp [chain]
  have adj02 : ¬chain.Adj 0 2 := by simp [chain]
  have adj20 : ¬chain.Adj 2 0 := by simp [chain]
  have hm : ∀ s, (∀ x : Vec, ∑ i ∈ Finset.range 3, ∑ j ∈ Finset.range 3, x i * masked line 1 id chain s close i j * x j =
      x 0 ^ 2 + x 1 ^ 2 + x 2 ^ 2 + 9 / 5 * s * (x 0 * x 1 + x 1 * x 2)) := by
    intro s x
    simp only [Finset.sum_range_succ, Finset.sum_range_zero, masked, hcam 0 (by omega), hcam 1 (by omega),
      hcam 2 (by omega), weight, id, adj01, adj12, adj02, adj01.symm, adj12.symm, adj20, close]
    norm_num
    ring
  have hx : ∀ x : Vec, (∃ j < 3, x j ≠ 0) → 0 < x 0 ^ 2 + x 1 ^ 2 + x 2 ^ 2 := by
    rintro x ⟨j, hj, h⟩
    have h2 := sq_pos_of_ne_zero h
    interval_cases j <;> nlinarith [sq_nonneg (x 0), sq_nonneg (x 1), sq_nonneg (x 2)]
  refine ⟨fun x h => ?_, fun h => ?_, fun x h => ?_⟩
  · have := hx x h
    have e : ∑ i ∈ Finset.range 3, ∑ j ∈ Finset.range 3, x i * close i j * x j =
        1 / 10 * (x 0 ^ 2 + x 1 ^ 2 + x 2 ^ 2) + 9 / 10 * (x 0 + x 1 + x 2) ^ 2 := by
      simp only [Finset.sum_range_succ, Finset.sum_range_zero, close]
      norm_num
      ring
    rw [e]
    nlinarith [sq_nonneg (x 0 + x 1 + x 2)]
  · have := h (fun j => if j = 1 then -3 else 2) ⟨0, by omega, by norm_num⟩
    rw [hm] at this
    norm_num at this
  · rw [hm]
    nlinarith [hx x h, sq_nonneg (x 0 + x 1), sq_nonneg (x 1 + x 2), sq_nonneg (x 0), sq_nonneg (x 1), sq_nonneg (x 2)]

end Ceres.Visibility
