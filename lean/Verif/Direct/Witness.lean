import Verif.Direct.Exact

/-!
# C80: concrete calls, and calls that go wrong
-/
namespace Ceres.Direct

open Ceres.BlockSparse Ceres.InnerProduct

/-! ## A diagonal that comes or goes -/

theorem after_inv {c : SparseChol} (hc : c.Correct) {bs : BS} {p : Bool} {threads : ℕ} (ht : 0 < threads)
    {calls : List Call} (hcalls : ∀ call ∈ calls, Fits bs p call) {S : Solver c} (hS : After c threads calls S) :
    Inv c bs p S ∧ (calls ≠ [] → S.computer ≠ none) := by
  induction hS with
  | nil => exact ⟨Or.inl ⟨rfl, rfl⟩, fun h => absurd rfl h⟩
  | snoc call r hprev hsolve ih =>
    obtain ⟨r', hr', -, hI'⟩ := solve_good hc
      (ih fun call h => hcalls call (List.mem_append_left _ h)).1 (hcalls call (by simp)) ht _ hsolve
    cases hr'
    refine ⟨hI', fun _ => ?_⟩
    obtain ⟨m, -, hm⟩ := hsolve
    cases m with
    | none => cases hm
    | some m =>
      obtain ⟨oc, ov, hr⟩ := hm
      unfold Solver.normalEquations at hr
      simp only [Option.bind_eq_bind] at hr
      obtain ⟨A1, -, hr⟩ := Option.bind_eq_some_iff.1 hr.symm
      obtain ⟨C, -, hr⟩ := Option.bind_eq_some_iff.1 hr
      obtain ⟨C', -, hr⟩ := Option.bind_eq_some_iff.1 hr
      cases hr
      simp

/-- **A diagonal that comes late is ignored**: after calls without, a call with a diagonal minimises `‖A x - b‖²`,
whatever the diagonal. -/
theorem late_diagonal_ignored {c : SparseChol} (hc : c.Correct) {bs : BS} {threads : ℕ} (ht : 0 < threads)
    {calls : List Call} (hne : calls ≠ []) (hcalls : ∀ call ∈ calls, Fits bs false call) {S : Solver c}
    (hS : After c threads calls S) {call : Call} (hcall : Fits bs true call) (o : Option (Result c))
    (ho : Solve S call threads o) : ∃ r, o = some r ∧
      (r.success = true → Minimises call.A.numRows call.A.numCols call.A.entry call.b none r.x) ∧
      (Regular call.A.numRows call.A.numCols call.A.entry none → r.success = true) := by
  obtain ⟨hI, hsome⟩ := after_inv hc ht hcalls hS
  obtain ⟨C, P, B, D, B1, hC, hreach, hpat, hBok, hBbs, hD, hB1, hplan⟩ := hI.resolve_left fun h => hsome hne h.1
  obtain ⟨m, hm, hrest⟩ := ho
  rw [left_product hcall.ok ht] at hm
  subst hm
  obtain ⟨oldCols, oldValues, rfl⟩ := hrest
  cases hDc : call.D with
  | none => have := hcall.diagonal; rw [hDc] at this; cases this
  | some d =>
  cases D with
  | some d' => cases hD
  | none =>
  cases hB1
  obtain ⟨hm, hseq, hcc⟩ := diagonal_ok hcall.ok.bs.cols d
  obtain ⟨A1, hA1⟩ : ∃ A1, call.A.appendRows (diagonalMatrix d call.A.bs.cols) = some A1 :=
    ⟨_, appendRows_eq hcall.ok hm hcc⟩
  have hA1' := hA1
  rw [appendRows_eq hcall.ok hm hcc] at hA1'
  set A0 : BMat ℝ := { call.A with values := A1.values } with hA0
  have hbs0 : A0.bs = B.bs := hcall.structure_.trans hBbs.symm
  have hn0 : A0.numCols = B.numCols := by
    show call.A.numCols = _
    rw [hcall.ok.numCols, hBok.numCols, hcall.structure_, hBbs]
  obtain ⟨C', hC', -, hprod⟩ := compute_planned hBok (hBbs ▸ hcall.sorted) (Nat.zero_le _) le_rfl hplan hbs0 hn0
  have hlen : B.bs.rows.length = call.A.bs.rows.length := by rw [hcall.structure_, hBbs]
  have hsameC : C.compute A1 = C.compute A0 := by
    have hcols : A1.bs.col = A0.bs.col := by
      injection hA1' with e
      rw [← e]
      rfl
    have hrows : rowRange A1.bs.rows C.start C.stop = rowRange A0.bs.rows C.start C.stop := by
      injection hA1' with e
      rw [← e]
      unfold rowRange
      rw [List.take_append_of_le_length (by rw [hplan.stop, hlen])]
    have hle : C.stop ≤ A1.bs.rows.length ↔ C.stop ≤ A0.bs.rows.length := by
      injection hA1' with e
      rw [← e, hplan.stop, hlen]
      simp [hA0]
    unfold Computer.compute
    simp only
    rw [hrows, hcols]
    simp only [hle]
    rfl
  have hok0 : A0.Ok := ⟨hcall.ok.bs, hcall.ok.tbs, hcall.ok.numRows, hcall.ok.numCols, hcall.ok.capacity⟩
  rw [hlen] at hprod
  obtain ⟨hin, hsym⟩ := product_sym hok0 hprod
  have hent : ∀ k j, A0.entry k j = call.A.entry k j := fun k j => by
    refine rows_entry_congr hcall.ok (fun p hp => ?_) k j
    show A1.values p = _
    injection hA1' with e
    rw [← e]
    simp only
    rw [copyTo_eq, if_neg (by omega)]
  obtain ⟨k1, k2, k3, k4⟩ := compute_keeps hC'
  have hpat' : SamePattern P C'.result := by
    obtain ⟨p1, p2, p3, p4⟩ := hpat
    exact ⟨p1.trans k1.symm, p2.trans k2.symm, by rw [k3]; exact p3, by rw [k4]; exact p4⟩
  have hncol : C'.result.numCols = call.A.numCols := hprod.numCols
  have hnormal : ∀ i < call.A.numCols, ∀ j < call.A.numCols,
      C'.result.sym i j = normalMat call.A.numRows call.A.entry none i j := by
    intro i hi j hj
    rw [hsym i hi j hj]
    unfold normalMat dsq
    simp only [hent, ite_self, add_zero]
    rfl
  set rhs : Vec := fun i => memOf call.A call.b
    (fun c => 0 + ∑ r ∈ Finset.range call.A.numRows, call.A.entry r c * call.b r) (.y i) with hrhs
  have hval : S.normalEquations call.A (some d) oldCols oldValues rhs = some
      ⟨⟨some C', (c.factorAndSolve S.chol C'.result rhs fun _ => 0).2.2⟩, restore (some d) A1,
        (c.factorAndSolve S.chol C'.result rhs fun _ => 0).1,
        (c.factorAndSolve S.chol C'.result rhs fun _ => 0).2.1⟩ := by
    have h2 : S.theComputer A1 oldCols oldValues = some C := by unfold Solver.theComputer; rw [hC]
    have h1 : augment call.A (some d) = some A1 := hA1
    unfold Solver.normalEquations
    simp only [Option.bind_eq_bind]
    rw [h1, Option.bind_some, h2, Option.bind_some, hsameC, hC', Option.bind_some]
  refine ⟨_, hval, fun hsucc => ?_, fun hreg => ?_⟩
  · simp only at hsucc ⊢
    unfold SparseChol.factorAndSolve at hsucc ⊢
    simp only at hsucc ⊢
    by_cases hfac : (c.factorize S.chol C'.result).1 = true
    · rw [if_pos hfac]
      have hsol := (hc.solves P S.chol C'.result rhs hreach hin hpat' hfac).2
      refine minimises_of_normal fun i hi => ?_
      have := hsol i (hncol ▸ hi)
      rw [hncol] at this
      have hr : rhs i = ∑ k ∈ Finset.range call.A.numRows, call.A.entry k i * call.b k := by
        rw [hrhs]; simp [memOf]
      refine Eq.trans ?_ (this.trans hr)
      exact Finset.sum_congr rfl fun j hj => by rw [hnormal i hi j (Finset.mem_range.1 hj)]
    · rw [if_neg hfac] at hsucc
      cases hsucc
  · have hpd : PosDef C'.result.numCols C'.result.sym := by
      rw [hncol]
      intro x hx
      refine lt_of_lt_of_eq (posDef_normal hreg x hx) ?_
      exact Finset.sum_congr rfl fun i hi => Finset.sum_congr rfl fun j hj => by
        rw [hnormal i (Finset.mem_range.1 hi) j (Finset.mem_range.1 hj)]
    have hfac := hc.complete P S.chol C'.result hreach hin hpat' hpd
    simp only
    unfold SparseChol.factorAndSolve
    simp only
    rw [if_pos hfac]
    exact (hc.solves P S.chol C'.result rhs hreach hin hpat' hfac).1

/-- **A diagonal that goes away**: after calls with, a call without a diagonal reads row blocks that are not
there. -/
theorem lost_diagonal_reads_past_end {c : SparseChol} (hc : c.Correct) {bs : BS} {threads : ℕ} (ht : 0 < threads)
    {calls : List Call} (hne : calls ≠ []) (hcalls : ∀ call ∈ calls, Fits bs true call) {S : Solver c}
    (hS : After c threads calls S) {call : Call} (hcall : Fits bs false call) (hcols : 0 < bs.cols.length)
    (o : Option (Result c)) (ho : Solve S call threads o) : o = none := by
  obtain ⟨hI, hsome⟩ := after_inv hc ht hcalls hS
  obtain ⟨C, P, B, D, B1, hC, hreach, hpat, hBok, hBbs, hD, hB1, hplan⟩ := hI.resolve_left fun h => hsome hne h.1
  obtain ⟨m, hm, hrest⟩ := ho
  rw [left_product hcall.ok ht] at hm
  subst hm
  obtain ⟨oldCols, oldValues, rfl⟩ := hrest
  cases hDc : call.D with
  | some d => have := hcall.diagonal; rw [hDc] at this; cases this
  | none =>
  cases D with
  | none => cases hD
  | some d =>
  obtain ⟨hm, -, hcc⟩ := diagonal_ok hBok.bs.cols d
  have hB1' : B.appendRows (diagonalMatrix d B.bs.cols) = some B1 := hB1
  rw [appendRows_eq hBok hm hcc] at hB1'
  have hlong : call.A.bs.rows.length < B1.bs.rows.length := by
    injection hB1' with e
    rw [← e, hcall.structure_, ← hBbs]
    simp only [List.length_append]
    have h1 : (newRows B.bs.cols B.numRows B.nnz (diagonalMatrix d B.bs.cols).bs.rows).length =
        B.bs.cols.length := by
      have h2 : (diagonalMatrix d B.bs.cols).bs.rows.length = B.bs.cols.length := diagRows_length _ _ _
      have h3 := congrArg List.length (newRows_ids B.bs.cols B.numRows B.nnz (diagonalMatrix d B.bs.cols).bs.rows)
      rw [List.length_map, List.length_map] at h3
      rw [h3, h2]
    rw [h1, hBbs]
    omega
  have hnone : C.compute call.A = none := by
    unfold Computer.compute
    simp only
    rw [if_neg]
    rintro ⟨h, -⟩
    rw [hplan.stop] at h
    omega
  have h2 : S.theComputer call.A oldCols oldValues = some C := by unfold Solver.theComputer; rw [hC]
  have h1 : augment call.A none = some call.A := rfl
  unfold Solver.normalEquations
  simp only [Option.bind_eq_bind]
  rw [h1, Option.bind_some, h2, Option.bind_some, hnone, Option.bind_none]

/-! ## Concrete calls -/

/-- The matrix `[1]`. -/
noncomputable def unit : BMat ℝ := BMat.ofStructure ⟨[⟨1, 0⟩], [⟨⟨1, 0⟩, [⟨0, 0⟩], 0, 0⟩]⟩ fun _ => 1

theorem unit_fits (b : Vec) (D : Option Vec) : Fits unit.bs D.isSome ⟨unit, b, D⟩ where
  ok := ofStructure_ok ⟨rfl, trivial⟩ ⟨rfl, trivial⟩ (by decide) (by decide)
  structure_ := rfl
  sorted := by
    intro row hrow
    simp only [unit, BMat.ofStructure, List.mem_singleton] at hrow
    subst hrow
    simp
  nonempty := by simp [unit, BMat.ofStructure, BS.col]
  diagonal := rfl

theorem unit_entry : unit.entry 0 0 = 1 := by
  simp [unit, BMat.entry, BS.entry, BMat.ofStructure, BS.col, cellAt]

theorem unit_size : unit.numRows = 1 ∧ unit.numCols = 1 := by simp [unit, BMat.ofStructure]

theorem unit_regular (D : Option Vec) : Regular unit.numRows unit.numCols unit.entry D := by
  intro x hx _ j hj
  rw [unit_size.2] at hj hx
  have := hx 0 (by rw [unit_size.1]; exact Nat.one_pos)
  rw [Finset.sum_range_one, unit_entry, one_mul] at this
  rw [show j = 0 by omega]
  exact this

theorem unit_minimises {b x : Vec} {d : ℝ} {D : Option Vec} (hD : dsq D 0 = d)
    (h : Minimises unit.numRows unit.numCols unit.entry b D x) (hd : 0 ≤ d) : (1 + d) * x 0 = b 0 := by
  have := h fun _ => b 0 / (1 + d)
  rw [lsq_eq, lsq_eq, unit_size.1, unit_size.2] at this
  simp only [Finset.sum_range_one, unit_entry, hD, one_mul] at this
  have hp : 0 < 1 + d := by linarith
  have e : (x 0 - b 0) ^ 2 + d * x 0 ^ 2 - ((b 0 / (1 + d) - b 0) ^ 2 + d * (b 0 / (1 + d)) ^ 2) =
      ((1 + d) * x 0 - b 0) ^ 2 / (1 + d) := by
    field_simp
    ring
  have h2 : ((1 + d) * x 0 - b 0) ^ 2 / (1 + d) ≤ 0 := by rw [← e]; linarith
  have h3 : ((1 + d) * x 0 - b 0) ^ 2 ≤ 0 := by
    by_contra hn
    push Not at hn
    have := div_pos hn hp
    linarith
  nlinarith [sq_nonneg ((1 + d) * x 0 - b 0)]

/-- Two calls with a diagonal: the second returns `b / (1 + d²)`. -/
example (upper : Bool) (refinements : ℕ) : ∃ S, After ((exactSparse upper).refined refinements) 3
      [⟨unit, fun _ => 7, some fun _ => 5⟩] S ∧
    (∃ o, Solve S ⟨unit, fun _ => 10, some fun _ => 2⟩ 3 o) ∧
    ∀ o, Solve S ⟨unit, fun _ => 10, some fun _ => 2⟩ 3 o → ∃ r, o = some r ∧ r.success = true ∧ r.x 0 = 2 := by
  have hc := refined_correct (exactSparse_correct upper) refinements
  have hf : ∀ call ∈ [(⟨unit, fun _ => 7, some fun _ => 5⟩ : Call)], Fits unit.bs true call := by
    intro call hcall
    rw [List.mem_singleton] at hcall
    subst hcall
    exact unit_fits _ (some _)
  obtain ⟨S, hS⟩ := after_exists hc (threads := 3) (by decide) _ hf
  obtain ⟨h1, h2⟩ := sparse_normal_cholesky hc (by decide) hf hS (unit_fits (fun _ => 10) (some fun _ => 2))
  refine ⟨S, hS, h1, fun o ho => ?_⟩
  obtain ⟨r, hr, hg⟩ := h2 o ho
  have hok := hg.unique (unit_regular _)
  refine ⟨r, hr, hok, ?_⟩
  have := unit_minimises (d := 4) (by norm_num [dsq]) (hg.solves hok) (by norm_num)
  simp only at this
  linarith

/-- The same two calls, the first without a diagonal: the second returns `b`, which does not minimise. -/
theorem late_diagonal_witness (upper : Bool) : ∃ S, After (exactSparse upper) 3 [⟨unit, fun _ => 7, none⟩] S ∧
    (∃ o, Solve S ⟨unit, fun _ => 10, some fun _ => 2⟩ 3 o) ∧
    ∀ o, Solve S ⟨unit, fun _ => 10, some fun _ => 2⟩ 3 o → ∃ r, o = some r ∧ r.success = true ∧
      ¬ Minimises unit.numRows unit.numCols unit.entry (fun _ => 10) (some fun _ => 2) r.x := by
  have hc := exactSparse_correct upper
  have hf : ∀ call ∈ [(⟨unit, fun _ => 7, none⟩ : Call)], Fits unit.bs false call := by
    intro call hcall
    rw [List.mem_singleton] at hcall
    subst hcall
    exact unit_fits _ none
  have hfit := unit_fits (fun _ => 10) (some fun _ => 2)
  obtain ⟨S, hS⟩ := after_exists hc (threads := 3) (by decide) _ hf
  refine ⟨S, hS, ⟨_, some _, (left_product hfit.ok (by decide) _ _ _).2 rfl, fun _ => 0, fun _ => 0, rfl⟩,
    fun o ho => ?_⟩
  obtain ⟨r, hr, h1, h2⟩ := late_diagonal_ignored hc (by decide) (by simp) hf hS hfit o ho
  have hok := h2 (unit_regular _)
  refine ⟨r, hr, hok, fun hmin => ?_⟩
  have e1 := unit_minimises (d := 0) rfl (h1 hok) le_rfl
  have e2 := unit_minimises (d := 4) (by norm_num [dsq]) hmin (by norm_num)
  simp only at e1 e2
  linarith

/-! ## Refinement of a dense factorisation -/

/-- `[1 1; 0 1]`. -/
noncomputable def shear : Buf := fun i j => if i ≤ j ∧ j < 2 then 1 else 0

/-- `(2, 1)`. -/
noncomputable def shearRhs : Vec := fun i => if i = 0 then 2 else 1

theorem shear_lsq (x : Vec) : lsq 2 2 shear shearRhs none x = (x 0 + x 1 - 2) ^ 2 + (x 1 - 1) ^ 2 := by
  simp [lsq, Finset.sum_range_succ, shear, shearRhs]

theorem shear_regular : Regular 2 2 shear none := by
  intro x hx _ j hj
  have h0 := hx 0 (by decide)
  have h1 := hx 1 (by decide)
  simp [Finset.sum_range_succ, shear] at h0 h1
  interval_cases j
  · linarith
  · exact h1

/-- The plain solver is right here. -/
theorem shear_plain {c : DenseChol} (hc : c.Correct) (x0 : Vec) :
    (denseNormalSolve c 2 2 shear shearRhs none x0).1 = true ∧
    (denseNormalSolve c 2 2 shear shearRhs none x0).2 0 = 1 ∧
    (denseNormalSolve c 2 2 shear shearRhs none x0).2 1 = 1 := by
  obtain ⟨h1, h2⟩ := dense_normal_cholesky hc 2 2 shear shearRhs none x0
  have hok := h2 shear_regular
  refine ⟨hok, ?_⟩
  have := h1 hok fun _ => 1
  generalize (denseNormalSolve c 2 2 shear shearRhs none x0).2 = x at this ⊢
  rw [shear_lsq, shear_lsq] at this
  norm_num at this
  have a1 : (x 0 + x 1 - 2) ^ 2 ≤ 0 := by nlinarith [sq_nonneg (x 1 - 1)]
  have a2 : (x 1 - 1) ^ 2 ≤ 0 := by nlinarith [sq_nonneg (x 0 + x 1 - 2)]
  have b1 : x 0 + x 1 - 2 = 0 := by nlinarith [sq_nonneg (x 0 + x 1 - 2)]
  have b2 : x 1 - 1 = 0 := by nlinarith [sq_nonneg (x 1 - 1)]
  constructor <;> linarith

/-- **One step of refinement spoils the answer** of DENSE_NORMAL_CHOLESKY, with any library that leaves the memory of
the matrix alone: the matrix has only its upper triangle. -/
theorem dense_refinement_wrong {c : DenseChol} (hc : c.Correct) (hkeep : ∀ n lhs, (c.factorize n lhs).2.1 = lhs)
    (x0 : Vec) : (denseNormalSolve (c.refined 1) 2 2 shear shearRhs none x0).1 = true ∧
      ¬ Minimises 2 2 shear shearRhs none (denseNormalSolve (c.refined 1) 2 2 shear shearRhs none x0).2 := by
  have hfac : (c.factorize 2 (denseLhs 2 2 shear none)).1 = true := by
    have h := (shear_plain hc x0).1
    unfold denseNormalSolve DenseChol.factorAndSolve at h
    simp only at h
    by_contra hn
    rw [if_neg hn] at h
    cases h
  set rhs : Vec := fun j => ∑ k ∈ Finset.range 2, shear k j * shearRhs k with hrhs
  have hplain : denseNormalSolve c 2 2 shear shearRhs none x0 =
      c.solve (c.factorize 2 (denseLhs 2 2 shear none)).2.2 rhs := by
    unfold denseNormalSolve DenseChol.factorAndSolve
    simp only
    rw [if_pos hfac]
  have href : denseNormalSolve (c.refined 1) 2 2 shear shearRhs none x0 =
      (c.refined 1).solve ((c.refined 1).factorize 2 (denseLhs 2 2 shear none)).2.2 rhs := by
    unfold denseNormalSolve DenseChol.factorAndSolve
    simp only
    rw [if_pos (show ((c.refined 1).factorize 2 (denseLhs 2 2 shear none)).1 = true from hfac)]
  refine ⟨?_, fun hmin => ?_⟩
  · rw [href]
    show (if (c.solve (c.factorize 2 (denseLhs 2 2 shear none)).2.2 rhs).1 then _ else _ : Bool × Vec).1 = true
    rw [if_pos (hc.solves _ _ _ hfac).1]
  · have hE : Eqs 2 (normalMat 2 shear none)
        ((c.refined 1).solve ((c.refined 1).factorize 2 (denseLhs 2 2 shear none)).2.2 rhs).2 rhs := by
      rw [← href]
      have := hmin fun _ => 1
      generalize (denseNormalSolve (c.refined 1) 2 2 shear shearRhs none x0).2 = x at this ⊢
      rw [shear_lsq, shear_lsq] at this
      norm_num at this
      have a1 : (x 0 + x 1 - 2) ^ 2 ≤ 0 := by nlinarith [sq_nonneg (x 1 - 1)]
      have a2 : (x 1 - 1) ^ 2 ≤ 0 := by nlinarith [sq_nonneg (x 0 + x 1 - 2)]
      have b1 : x 0 + x 1 - 2 = 0 := by nlinarith [sq_nonneg (x 0 + x 1 - 2)]
      have b2 : x 1 - 1 = 0 := by nlinarith [sq_nonneg (x 1 - 1)]
      intro i hi
      rw [normalMat_mul _ _ _ _ _ hi, hrhs]
      interval_cases i <;> simp [Finset.sum_range_succ, shear, shearRhs, dsq] <;> linarith
    have h3 := (refined_triangle_iff hc hfac (hkeep _ _)).1 hE 1 (by decide)
    rw [← hplain] at h3
    obtain ⟨-, y0, y1⟩ := shear_plain hc x0
    simp [Finset.sum_range_succ, normalMat, shear, dsq, y0, y1] at h3

/-- There is such a library. -/
example (x0 : Vec) : ¬ Minimises 2 2 shear shearRhs none
    (denseNormalSolve (exactDense.refined 1) 2 2 shear shearRhs none x0).2 :=
  (dense_refinement_wrong exactDense_correct (fun _ _ => rfl) x0).2

/-- QR on the same problem, after another one. -/
example (S : QrSolver) (hS : S.Ok) (junk factored : Buf) (junkRhs x0 : Vec) :
    ∃ x S', S.solve exactLapack 2 2 shear shearRhs none junk junkRhs factored x0 = some (true, x, S') ∧
      Minimises 2 2 shear shearRhs none x := by
  obtain ⟨ok, x, S', h1, -, h2, h3⟩ := dense_qr exactLapack_correct hS 2 2 shear shearRhs none (by simp) junk junkRhs
    factored x0
  have hok := h2.2 shear_regular
  subst hok
  exact ⟨x, S', h1, h3 rfl⟩

/-- A problem with fewer equations than unknowns, made regular by the diagonal. -/
example (S : QrSolver) (hS : S.Ok) (junk factored : Buf) (junkRhs x0 : Vec) :
    ∃ x S', S.solve exactLapack 1 2 shear shearRhs (some fun _ => 1) junk junkRhs factored x0 = some (true, x, S') ∧
      Minimises 1 2 shear shearRhs (some fun _ => 1) x := by
  obtain ⟨ok, x, S', h1, -, h2, h3⟩ := dense_qr exactLapack_correct hS 1 2 shear shearRhs (some fun _ => 1) (by simp)
    junk junkRhs factored x0
  have hok := h2.2 fun x _ hx j hj => by simpa using hx j hj
  subst hok
  exact ⟨x, S', h1, h3 rfl⟩

/-- The matrix `[1]` in compressed rows. -/
noncomputable def one : Sparse.Mat ℝ := ⟨1, 1, fun r => r, fun _ => 0, fun _ => 1, .unsymmetric, []⟩

example : ∃ A2 x, dynamicSolve exactGram one (fun _ => 10) (some fun _ => 2) = some (A2, true, x) ∧
    Minimises 1 1 one.entry (fun _ => 10) (some fun _ => 2) x := by
  have hwf : one.WF := by
    refine ⟨rfl, ?_, ?_⟩
    · intro r hr; simp [one]
    · intro i hi; simp [one]
  obtain ⟨A2, ok, x, h1, -, h2, h3⟩ := dynamic_sparse_normal_cholesky exactGram_correct hwf rfl rfl (fun _ => 10)
    (some fun _ => 2)
  have hok := h3 fun x _ hx j hj => by simpa using hx j hj
  subst hok
  exact ⟨A2, x, h1, h2 rfl⟩

end Ceres.Direct
