import Verif.Reorder.Main
import Verif.SchurDirect.Witness

/-!
# C91: the step does not depend on the order

A linearisation of a problem is given per residual block and parameter block.  Whatever order the
preparation has put the blocks in, the step that comes back from the linear solver minimises the same
quadratic model.
-/
noncomputable section

namespace Ceres.Reorder

open Ceres.Graph Ceres.BlockSparse Ceres.InnerProduct Ceres.Direct

variable {B R V : Type} [DecidableEq B] [DecidableEq V]

/-- A linearised problem: the derivatives of residual `k` of a residual block by coordinate `c` of the
tangent space of a parameter block, the right hand side, and the diagonal of the regularisation. -/
structure Linearised (B R : Type) where
  der : R → B → ℕ → ℕ → ℝ
  rhs : R → ℕ → ℝ
  diag : Option (B → ℕ → ℝ)

/-- What a step `δ` does to residual `k` of block `r`; constant blocks do not move. -/
def Linearised.change (Λ : Linearised B R) (W : World B R V) (δ : B → ℕ → ℝ) (r : R) (k : ℕ) : ℝ :=
  (((W.args r).filter fun b => !W.isConst b).map fun b =>
    ∑ c ∈ Finset.range (W.tangentSize b), Λ.der r b k c * δ b c).sum

/-- The quadratic model, which does not know of any order. -/
def Linearised.cost (Λ : Linearised B R) (W : World B R V) (p : Program B R) (δ : B → ℕ → ℝ) : ℝ :=
  (p.residuals.map fun r => ∑ k ∈ Finset.range (W.numResiduals r), (Λ.change W δ r k - Λ.rhs r k) ^ 2).sum +
  match Λ.diag with
  | none => 0
  | some d => (p.blocks.map fun b => ∑ c ∈ Finset.range (W.tangentSize b), (d b c * δ b c) ^ 2).sum

/-- The call of the linear solver for a program: the Jacobian after the stores of an evaluation, done in
whatever order, the right hand side and the diagonal in the order of the program. -/
structure IsCall (W : World B R V) (q : Program B R) (ne : ℕ) (Λ : Linearised B R) (call : Call) : Prop where
  jacobian : ∃ (jac : ℕ → ℕ → ℕ → ℝ) (init : ℕ → ℝ) (ws : List (ℕ × ℝ)),
    (∀ (i : ℕ) (r : R) (j : ℕ) (b : B), q.residuals[i]? = some r → (W.args r)[j]? = some b → ∀ k < W.numResiduals r,
      ∀ c < W.tangentSize b, jac i j (k * W.tangentSize b + c) = Λ.der r b k c) ∧
    ws.Perm (Evaluator.allBlockStores (q.toEval W) ne jac) ∧
    createJacobian W ne q (Evaluator.exec ws init) = some call.A
  rhs : ∀ (i : ℕ) (r : R), q.residuals[i]? = some r → ∀ k < W.numResiduals r,
    call.b (((q.residuals.take i).map W.numResiduals).sum + k) = Λ.rhs r k
  diag : match Λ.diag, call.D with
    | none, none => True
    | some d, some D => ∀ (i : ℕ) (b : B), q.blocks[i]? = some b → ∀ c < W.tangentSize b,
        D (((q.blocks.take i).map W.tangentSize).sum + c) = d b c
    | _, _ => False

/-- The step of a parameter block in the solution. -/
def stepOf (W : World B R V) (q : Program B R) (x : Vec) (b : B) (c : ℕ) : ℝ :=
  x (((q.blocks.take ((q.index b).getD 0)).map W.tangentSize).sum + c)

theorem cost_rearranged {W : World B R V} {p q : Program B R} (h : Rearranged p q) (Λ : Linearised B R)
    (δ : B → ℕ → ℝ) : Λ.cost W q δ = Λ.cost W p δ := by
  unfold Linearised.cost
  rw [(h.residuals.map _).sum_eq]
  congr 1
  cases Λ.diag with
  | none => rfl
  | some d => exact (h.blocks.map _).sum_eq

/-! ## Sums over flat arrays -/

theorem sum_flat {α : Type} (sz : α → ℕ) (g : α → ℕ → ℝ) (f : ℕ → ℝ) (l : List α) : ∀ off : ℕ,
    (∀ (i : ℕ) (a : α), l[i]? = some a → ∀ c < sz a, f (off + (((l.take i).map sz).sum + c)) = g a c) →
    ∑ k ∈ Finset.range (l.map sz).sum, f (off + k) = (l.map fun a => ∑ c ∈ Finset.range (sz a), g a c).sum := by
  induction l with
  | nil => intro off _; simp
  | cons a l ih =>
    intro off h
    rw [List.map_cons, List.sum_cons, List.map_cons, List.sum_cons, Finset.sum_range_add]
    congr 1
    · refine Finset.sum_congr rfl fun c hc => ?_
      have := h 0 a rfl c (Finset.mem_range.1 hc)
      simpa using this
    · rw [← ih (off + sz a)]
      · refine Finset.sum_congr rfl fun k _ => ?_
        rw [Nat.add_assoc]
      · intro i b hb c hc
        have := h (i + 1) b (by simpa using hb) c hc
        rw [List.take_succ_cons, List.map_cons, List.sum_cons] at this
        rw [← this]
        congr 1
        omega

theorem sum_window (N o s : ℕ) (h : o + s ≤ N) (φ x : ℕ → ℝ) :
    ∑ C ∈ Finset.range N, (if o ≤ C ∧ C < o + s then φ (C - o) else 0) * x C =
      ∑ c ∈ Finset.range s, φ c * x (o + c) := by
  have h1 : ∑ C ∈ Finset.Ico o (o + s), (if o ≤ C ∧ C < o + s then φ (C - o) else 0) * x C =
      ∑ C ∈ Finset.range N, (if o ≤ C ∧ C < o + s then φ (C - o) else 0) * x C := by
    refine Finset.sum_subset (fun C hC => ?_) fun C _ hC => ?_
    · rw [Finset.mem_Ico] at hC; rw [Finset.mem_range]; omega
    · rw [Finset.mem_Ico] at hC; rw [if_neg hC, zero_mul]
  rw [← h1, Finset.sum_Ico_eq_sum_range, show o + s - o = s by omega]
  refine Finset.sum_congr rfl fun c hc => ?_
  rw [Finset.mem_range] at hc
  rw [if_pos ⟨by omega, by omega⟩, show o + c - o = c by omega]

theorem sum_active {β : Type} (F : β → Option ℕ) (con : β → Bool) (g : β → ℝ) (h : ℕ × ℕ → ℝ) (l : List β) :
    ∀ j, (∀ b ∈ l, con b = true → F b = none) →
    (∀ m b, l[m]? = some b → con b = false → ∃ i, F b = some i ∧ h (i, j + m) = g b) →
    ((Evaluator.activeFrom j (l.map F)).map h).sum = ((l.filter fun b => !con b).map g).sum := by
  induction l with
  | nil => intro j _ _; simp
  | cons b l ih =>
    intro j h1 h2
    have hih := ih (j + 1) (fun b hb => h1 b (by simp [hb])) fun m b hb hc => by
      obtain ⟨i, hi, hg⟩ := h2 (m + 1) b (by simpa using hb) hc
      exact ⟨i, hi, by rw [← hg, show j + 1 + m = j + (m + 1) by omega]⟩
    rw [List.map_cons]
    cases hc : con b with
    | true =>
      rw [h1 b (by simp) hc, Evaluator.activeFrom_none, hih, List.filter_cons_of_neg (by simp [hc])]
    | false =>
      obtain ⟨i, hi, hg⟩ := h2 0 b rfl hc
      rw [hi, Evaluator.activeFrom_some, List.map_cons, List.sum_cons, hih, List.filter_cons_of_pos (by simp [hc]),
        List.map_cons, List.sum_cons, ← hg]
      rfl

theorem offset_eq {W : World B R V} (q : Program B R) (i : ℕ) :
    (q.toEval W).offset i = ((q.blocks.take i).map W.tangentSize).sum := by
  unfold Evaluator.Prog.offset Program.toEval
  simp only [List.map_take]

theorem size_eq {W : World B R V} {q : Program B R} {i : ℕ} {b : B} (h : q.blocks[i]? = some b) :
    (q.toEval W).size i = W.tangentSize b := by
  unfold Evaluator.Prog.size Program.toEval
  simp [List.getD_eq_getElem?_getD, h]

theorem take_sum_le (l : List ℕ) {i s : ℕ} (h : l[i]? = some s) : (l.take i).sum + s ≤ l.sum := by
  induction l generalizing i with
  | nil => simp at h
  | cons a l ih =>
    cases i with
    | zero => simp only [List.getElem?_cons_zero, Option.some.injEq] at h; subst h; simp
    | succ i =>
      rw [List.take_succ_cons, List.sum_cons, List.sum_cons]
      have := ih (by simpa using h)
      omega

/-- A row of the Jacobian times a vector is the change of the residual. -/
theorem row_product {W : World B R V} {q : Program B R} (hq : Reduced W q) {ne : ℕ} {Λ : Linearised B R} {call : Call}
    (hcall : IsCall W q ne Λ call) (x : Vec) {i : ℕ} {r : R} (hr : q.residuals[i]? = some r) {k : ℕ}
    (hk : k < W.numResiduals r) :
    ∑ j ∈ Finset.range call.A.numCols, call.A.entry (((q.residuals.take i).map W.numResiduals).sum + k) j * x j =
      Λ.change W (stepOf W q x) r k := by
  obtain ⟨jac, init, ws, hjac, hws, hA⟩ := hcall.jacobian
  rw [createJacobian_made hq, Option.some.injEq] at hA
  obtain ⟨hi, hri⟩ := List.getElem?_eq_some_iff.1 hr
  have hi' : i < (q.toEval W).residuals.length := by simpa [Program.toEval] using hi
  have hrb : (q.toEval W).residuals[i] = evalOf W q r := by
    simp only [toEval_residuals, List.getElem_map, hri]
  have hoff : (q.toEval W).rowOffset i = ((q.residuals.take i).map W.numResiduals).sum := by
    unfold Evaluator.Prog.rowOffset
    rw [toEval_residuals, ← List.map_take, List.map_map]
    rfl
  have hk' : k < ((q.toEval W).residuals[i]).numResiduals := by rw [hrb]; exact hk
  have hncols : call.A.numCols = (q.blocks.map W.tangentSize).sum := by
    rw [← hA]
    show ((laidFrom 0 (q.toEval W).sizes).map Block.size).sum = _
    rw [laidFrom_sizes]; rfl
  have hentry : ∀ C, call.A.entry (((q.residuals.take i).map W.numResiduals).sum + k) C =
      Evaluator.denseJacobian (q.toEval W) i k (evalOf W q r) jac C := by
    intro C
    rw [← hA, ← hoff, structureOf_entry ne (toEval_ok hq) _ hi' hk', Evaluator.bsm_entry _ ne jac hws init hi' hk' C, hrb]
  rw [Finset.sum_congr rfl fun C _ => by rw [hentry C]]
  unfold Evaluator.denseJacobian
  rw [hncols]
  have hswap : ∀ L : List (ℕ × ℕ), ∑ C ∈ Finset.range (q.blocks.map W.tangentSize).sum,
      (L.map fun a => if (q.toEval W).offset a.1 ≤ C ∧ C < (q.toEval W).offset a.1 + (q.toEval W).size a.1 then
        jac i a.2 (k * (q.toEval W).size a.1 + (C - (q.toEval W).offset a.1)) else 0).sum * x C =
      (L.map fun a => ∑ C ∈ Finset.range (q.blocks.map W.tangentSize).sum,
        (if (q.toEval W).offset a.1 ≤ C ∧ C < (q.toEval W).offset a.1 + (q.toEval W).size a.1 then
        jac i a.2 (k * (q.toEval W).size a.1 + (C - (q.toEval W).offset a.1)) else 0) * x C).sum := by
    intro L
    induction L with
    | nil => simp
    | cons a L ih => simp only [List.map_cons, List.sum_cons, add_mul, Finset.sum_add_distrib, ih]
  rw [hswap, Evaluator.activeArgs_eq]
  unfold Linearised.change
  refine sum_active (fun b => if W.isConst b then none else q.index b) W.isConst _ _ (W.args r) 0 ?_ ?_
  · intro b _ hc
    exact if_pos hc
  · intro m b hb hc
    obtain ⟨j, hj⟩ := Option.isSome_iff_exists.1
      (hq.indexed.isSome.2 (hq.closed r (List.mem_of_getElem? hr) b (List.mem_of_getElem? hb) hc))
    have hbj := (hq.indexed b j).1 hj
    refine ⟨j, by rw [if_neg (by simp [hc]), hj], ?_⟩
    simp only [Nat.zero_add]
    rw [size_eq hbj, offset_eq, sum_window _ _ _ _ fun c => jac i m (k * W.tangentSize b + c)]
    · refine Finset.sum_congr rfl fun c hc' => ?_
      rw [hjac i r m b hr hb k hk c (Finset.mem_range.1 hc')]
      unfold stepOf
      rw [hj]
      rfl
    · rw [List.map_take]
      exact take_sum_le _ (by rw [List.getElem?_map, hbj]; rfl)

theorem call_dims {W : World B R V} {q : Program B R} (hq : Reduced W q) {ne : ℕ} {Λ : Linearised B R} {call : Call}
    (hcall : IsCall W q ne Λ call) : call.A.Ok ∧ call.A.bs = structureOf (q.toEval W) ne ∧
    call.A.numRows = (q.residuals.map W.numResiduals).sum ∧ call.A.numCols = (q.blocks.map W.tangentSize).sum := by
  obtain ⟨jac, init, ws, hjac, hws, hA⟩ := hcall.jacobian
  rw [createJacobian_made hq, Option.some.injEq] at hA
  rw [← hA]
  refine ⟨structureOf_ok ne (toEval_ok hq) _, rfl, ?_, ?_⟩
  · show ((structureOf (q.toEval W) ne).rows.map fun r => r.block.size).sum = _
    have := congrArg (List.map Block.size) (structureOf_blocks (P := q.toEval W) ne)
    rw [List.map_map, laidFrom_sizes, toEval_residuals, List.map_map] at this
    exact congrArg List.sum this
  · show ((laidFrom 0 (q.toEval W).sizes).map Block.size).sum = _
    rw [laidFrom_sizes]; rfl

/-- What the linear solver minimises is the quadratic model. -/
theorem lsq_eq {W : World B R V} {q : Program B R} (hq : Reduced W q) {ne : ℕ} {Λ : Linearised B R} {call : Call}
    (hcall : IsCall W q ne Λ call) (x : Vec) :
    lsq call.A.numRows call.A.numCols call.A.entry call.b call.D x = Λ.cost W q (stepOf W q x) := by
  obtain ⟨-, -, hrows, hcols⟩ := call_dims hq hcall
  unfold lsq Linearised.cost
  congr 1
  · rw [hrows]
    have := sum_flat W.numResiduals (fun r k => (Λ.change W (stepOf W q x) r k - Λ.rhs r k) ^ 2)
      (fun k => (∑ j ∈ Finset.range call.A.numCols, call.A.entry k j * x j - call.b k) ^ 2) q.residuals 0 (by
        intro i r hr k hk
        rw [Nat.zero_add, row_product hq hcall x hr hk, hcall.rhs i r hr k hk])
    simpa only [Nat.zero_add] using this
  · have hd := hcall.diag
    cases h1 : Λ.diag with
    | none =>
      cases h2 : call.D with
      | none => rfl
      | some D => rw [h1, h2] at hd; exact hd.elim
    | some d =>
      cases h2 : call.D with
      | none => rw [h1, h2] at hd; exact hd.elim
      | some D =>
        rw [h1, h2] at hd
        dsimp only at hd ⊢
        rw [hcols]
        have := sum_flat W.tangentSize (fun b c => (d b c * stepOf W q x b c) ^ 2) (fun j => (D j * x j) ^ 2) q.blocks 0 (by
          intro i b hb c hc
          rw [Nat.zero_add, hd i b hb c hc]
          unfold stepOf
          rw [(hq.indexed b i).2 hb]
          rfl)
        simpa only [Nat.zero_add] using this

/-- Every step of the blocks is the step of a vector. -/
theorem exists_vec {W : World B R V} {q : Program B R} (hq : Reduced W q) (δ : B → ℕ → ℝ) :
    ∃ x : Vec, ∀ b ∈ q.blocks, ∀ c < W.tangentSize b, stepOf W q x b c = δ b c := by
  have key : ∀ l : List B, ∃ x : ℕ → ℝ, ∀ (i : ℕ) (b : B), l[i]? = some b → ∀ c < W.tangentSize b,
      x (((l.take i).map W.tangentSize).sum + c) = δ b c := by
    intro l
    induction l with
    | nil => exact ⟨fun _ => 0, by simp⟩
    | cons a l ih =>
      obtain ⟨x, hx⟩ := ih
      refine ⟨fun k => if k < W.tangentSize a then δ a k else x (k - W.tangentSize a), ?_⟩
      intro i b hb c hc
      cases i with
      | zero =>
        simp only [List.getElem?_cons_zero, Option.some.injEq] at hb
        subst hb
        simp [hc]
      | succ i =>
        rw [List.take_succ_cons, List.map_cons, List.sum_cons]
        beta_reduce
        rw [if_neg (by omega), ← hx i b (by simpa using hb) c hc]
        congr 1
        omega
  obtain ⟨x, hx⟩ := key q.blocks
  refine ⟨x, fun b hb c hc => ?_⟩
  obtain ⟨i, hi⟩ := List.getElem?_of_mem hb
  unfold stepOf
  rw [(hq.indexed b i).2 hi]
  exact hx i b hi c hc

theorem cost_congr {W : World B R V} {q : Program B R} (hq : Reduced W q) (Λ : Linearised B R) {δ δ' : B → ℕ → ℝ}
    (h : ∀ b ∈ q.blocks, ∀ c < W.tangentSize b, δ b c = δ' b c) : Λ.cost W q δ = Λ.cost W q δ' := by
  unfold Linearised.cost
  congr 1
  · congr 1
    refine List.map_congr_left fun r hr => Finset.sum_congr rfl fun k _ => ?_
    congr 2
    unfold Linearised.change
    congr 1
    refine List.map_congr_left fun b hb => Finset.sum_congr rfl fun c hc => ?_
    obtain ⟨hb1, hb2⟩ := List.mem_filter.1 hb
    rw [h b (hq.closed r hr b hb1 (by simpa using hb2)) c (Finset.mem_range.1 hc)]
  · cases Λ.diag with
    | none => rfl
    | some d =>
      dsimp only
      congr 1
      refine List.map_congr_left fun b hb => Finset.sum_congr rfl fun c hc => ?_
      rw [h b hb c (Finset.mem_range.1 hc)]

/-- **C91.**  Whatever order the blocks are in, the solution of the linear least squares problem is the
step that minimises the model of the problem. -/
theorem minimises_iff {W : World B R V} {p q : Program B R} (hp : Reduced W p) (h : Rearranged p q) {ne : ℕ}
    {Λ : Linearised B R} {call : Call} (hcall : IsCall W q ne Λ call) (x : Vec) :
    Minimises call.A.numRows call.A.numCols call.A.entry call.b call.D x ↔
      ∀ δ : B → ℕ → ℝ, Λ.cost W p (stepOf W q x) ≤ Λ.cost W p δ := by
  have hq := hp.rearranged h
  unfold Minimises
  simp only [lsq_eq hq hcall, cost_rearranged h]
  constructor
  · intro hm δ
    obtain ⟨y, hy⟩ := exists_vec hq δ
    have := hm y
    rw [← cost_rearranged h, ← cost_rearranged h Λ (stepOf W q y), cost_congr hq Λ hy, cost_rearranged h,
      cost_rearranged h] at this
    exact this
  · intro hm y
    exact hm _

/-- The diagonal of the regularisation has no zeros; the trust region strategies see to that. -/
def Linearised.Damped (Λ : Linearised B R) : Prop := ∃ d, Λ.diag = some d ∧ ∀ b c, d b c ≠ 0

theorem Linearised.Damped.call {W : World B R V} {q : Program B R} (hq : Reduced W q) {ne : ℕ} {Λ : Linearised B R}
    (hd : Λ.Damped) {call : Call} (hcall : IsCall W q ne Λ call) :
    ∃ D, call.D = some D ∧ ∀ j < call.A.numCols, D j ≠ 0 := by
  obtain ⟨d, h1, h2⟩ := hd
  obtain ⟨-, -, -, hcols⟩ := call_dims hq hcall
  have hdiag := hcall.diag
  cases hD : call.D with
  | none => rw [h1, hD] at hdiag; exact hdiag.elim
  | some D =>
    rw [h1, hD] at hdiag
    dsimp only at hdiag
    refine ⟨D, rfl, ?_⟩
    rw [hcols]
    have key : ∀ (l : List B) (off : ℕ), (∀ (i : ℕ) (b : B), l[i]? = some b → ∀ c < W.tangentSize b,
        D (off + (((l.take i).map W.tangentSize).sum + c)) ≠ 0) → ∀ j < (l.map W.tangentSize).sum, D (off + j) ≠ 0 := by
      intro l
      induction l with
      | nil => intro off _ j hj; simp at hj
      | cons a l ih =>
        intro off h j hj
        rw [List.map_cons, List.sum_cons] at hj
        by_cases hja : j < W.tangentSize a
        · simpa using h 0 a rfl j hja
        · have := ih (off + W.tangentSize a) (fun i b hb c hc => by
            have := h (i + 1) b (by simpa using hb) c hc
            rw [List.take_succ_cons, List.map_cons, List.sum_cons] at this
            rw [show off + W.tangentSize a + (((l.take i).map W.tangentSize).sum + c) =
              off + (W.tangentSize a + ((l.take i).map W.tangentSize).sum + c) by omega]
            exact this) (j - W.tangentSize a) (by omega)
          rw [show off + W.tangentSize a + (j - W.tangentSize a) = off + j by omega] at this
          exact this
    intro j hj
    have := key q.blocks 0 (by
      intro i b hb c hc
      rw [Nat.zero_add, hdiag i b hb c hc]
      exact h2 b c) j hj
    rwa [Nat.zero_add] at this

theorem regular_damped {m n : ℕ} {E : Buf} {D : Vec} (h : ∀ j < n, D j ≠ 0) : Regular m n E (some D) := by
  intro x _ hx j hj
  exact (mul_eq_zero.1 (hx j hj)).resolve_left (h j hj)

theorem call_fits {W : World B R V} {q : Program B R} (hq : Reduced W q) {ne : ℕ} {values : ℕ → ℝ} {J : BMat ℝ}
    (hJ : SchurJacobian W q ne values J) {Λ : Linearised B R} (hd : Λ.Damped) {call : Call}
    (hcall : IsCall W q ne Λ call) : SchurDirect.Fits ne (structureOf (q.toEval W) ne) call := by
  obtain ⟨hok, hbs, -, -⟩ := call_dims hq hcall
  obtain ⟨D, hD, hD'⟩ := hd.call hq hcall
  have hJbs : J.bs = structureOf (q.toEval W) ne := by
    have := hJ.made
    rw [createJacobian_made hq, Option.some.injEq] at this
    rw [← this]; rfl
  refine ⟨hok, hbs, hJbs ▸ hJ.ordered, hJbs ▸ hJ.blocks, hJbs ▸ hJ.cols, hJbs ▸ hJ.rows, hJbs ▸ hJ.first, ?_⟩
  rw [hD]
  exact SchurDirect.regularE_diagonal hok hD'

/-- **C91, DENSE_SCHUR.**  For every problem and every ordering that can be used, whatever the library
does and however the threads are scheduled: the step that comes back minimises the model of the
problem. -/
theorem dense_schur_step {W : World B R V} {p : Program B R} (hp : Reduced W p) {bottom : R → Bool} {sparse : Bool}
    {r : Prepared B R V} (hr : Ready W p (.schur sparse) bottom r) {c : DenseChol} (hc : c.Correct)
    {inv : Schur.Inverter} (hinv : Schur.InvertsFullRank inv) {threads : ℕ} (ht : 0 < threads) {Λ : Linearised B R}
    (hd : Λ.Damped) {call : Call} (hcall : IsCall W r.program r.numEliminate Λ call) :
    (∃ o, SchurDirect.DenseSolve c inv r.numEliminate call threads o) ∧
    ∀ o, SchurDirect.DenseSolve c inv r.numEliminate call threads o → ∃ x, o = some (true, x, ()) ∧
      ∀ δ, Λ.cost W p (stepOf W r.program x) ≤ Λ.cost W p δ := by
  have hq := hp.rearranged hr.same
  obtain ⟨J, hJ⟩ := (hr.schur sparse rfl).2 ℝ fun _ => 0
  obtain ⟨h1, h2⟩ := SchurDirect.dense_schur hc hinv ht (call_fits hq hJ hd hcall)
  refine ⟨h1, fun o ho => ?_⟩
  obtain ⟨ok, x, rfl, hg⟩ := h2 o ho
  obtain ⟨D, hD, hD'⟩ := hd.call hq hcall
  have hok : ok = true := hg.unique (by rw [hD]; exact regular_damped hD')
  subst hok
  exact ⟨x, rfl, (minimises_iff hp hr.same hcall x).1 (hg.solves rfl)⟩

/-- **C91, SPARSE_SCHUR**, after any history of calls. -/
theorem sparse_schur_step {W : World B R V} {p : Program B R} (hp : Reduced W p) {bottom : R → Bool} {sparse : Bool}
    {r : Prepared B R V} (hr : Ready W p (.schur sparse) bottom r) {c : SparseChol} (hc : c.Correct)
    {inv : Schur.Inverter} (hinv : Schur.InvertsFullRank inv) {threads : ℕ} (ht : 0 < threads) {calls : List Call}
    (hcalls : ∀ call ∈ calls, ∃ Λ : Linearised B R, Λ.Damped ∧ IsCall W r.program r.numEliminate Λ call)
    {K : SchurDirect.Kept c} (hK : SchurDirect.After c inv r.numEliminate threads calls K) {Λ : Linearised B R}
    (hd : Λ.Damped) {call : Call} (hcall : IsCall W r.program r.numEliminate Λ call) :
    (∃ o, SchurDirect.SparseSolve c K inv r.numEliminate call threads o) ∧
    ∀ o, SchurDirect.SparseSolve c K inv r.numEliminate call threads o → ∃ x K', o = some (true, x, K') ∧
      ∀ δ, Λ.cost W p (stepOf W r.program x) ≤ Λ.cost W p δ := by
  have hq := hp.rearranged hr.same
  obtain ⟨J, hJ⟩ := (hr.schur sparse rfl).2 ℝ fun _ => 0
  obtain ⟨h1, h2⟩ := SchurDirect.sparse_schur hc hinv ht (fun call h => by
    obtain ⟨Λ', hd', hc'⟩ := hcalls call h
    exact call_fits hq hJ hd' hc') hK (call_fits hq hJ hd hcall)
  refine ⟨h1, fun o ho => ?_⟩
  obtain ⟨ok, x, K', rfl, hg⟩ := h2 o ho
  obtain ⟨D, hD, hD'⟩ := hd.call hq hcall
  have hok : ok = true := hg.unique (by rw [hD]; exact regular_damped hD')
  subst hok
  exact ⟨x, K', rfl, (minimises_iff hp hr.same hcall x).1 (hg.solves rfl)⟩

theorem call_nnz {W : World B R V} {q : Program B R} (hq : Reduced W q) {ne : ℕ} {Λ : Linearised B R} {call : Call}
    (hcall : IsCall W q ne Λ call) : 0 < call.A.nnz := by
  obtain ⟨hok, hbs, -, -⟩ := call_dims hq hcall
  have hlt : 0 < q.blocks.length := List.length_pos_of_ne_nil hq.nonempty
  obtain ⟨r, hr, hb⟩ := hq.used _ (List.getElem_mem hlt)
  have hidx := (hq.indexed _ _).2 (List.getElem?_eq_getElem hlt)
  obtain ⟨i, hi, hri⟩ := List.getElem_of_mem hr
  obtain ⟨cell, hcell, hid⟩ := (mem_row (W := W) (q := q) ne i (r := r)).2
    ⟨_, hb, hq.isVar _ (List.getElem_mem hlt), hidx⟩
  have hrow : rowOf (q.toEval W) ne i (evalOf W q r) ∈ call.A.bs.rows := by
    rw [hbs, structureOf_rows]
    refine List.mem_map.2 ⟨(evalOf W q r, i), ?_, rfl⟩
    rw [List.mk_mem_zipIdx_iff_getElem?, toEval_residuals, List.getElem?_map, List.getElem?_eq_getElem hi, hri]
    rfl
  have hmem : cell.position ∈ call.A.bs.slots := by
    unfold BS.slots
    refine List.mem_flatMap.2 ⟨_, hrow, List.mem_flatMap.2 ⟨cell, hcell, ?_⟩⟩
    rw [List.mem_range'_1]
    refine ⟨le_rfl, Nat.lt_add_of_pos_right (Nat.mul_pos (hq.residualSizes r hr) ?_)⟩
    rw [hbs, hid, structureOf_col _ _ (by simpa [Program.toEval] using hlt)]
    show 0 < (q.toEval W).size 0
    rw [size_eq (List.getElem?_eq_getElem hlt)]
    exact hq.sizes _ (List.getElem_mem hlt)
  have := List.mem_range.1 (hok.bs.slots.mem_iff.1 hmem)
  omega

/-- **C91, SPARSE_NORMAL_CHOLESKY**, after any history of calls. -/
theorem sparse_normal_cholesky_step {W : World B R V} {p : Program B R} (hp : Reduced W p) {bottom : R → Bool}
    {solver : Solver} {r : Prepared B R V} (hr : Ready W p solver bottom r) {c : SparseChol} (hc : c.Correct)
    {threads : ℕ} (ht : 0 < threads) {calls : List Call}
    (hcalls : ∀ call ∈ calls, ∃ Λ : Linearised B R, Λ.Damped ∧ IsCall W r.program r.numEliminate Λ call)
    {S : Direct.Solver c} (hS : Direct.After c threads calls S) {Λ : Linearised B R}
    (hd : Λ.Damped) {call : Call} (hcall : IsCall W r.program r.numEliminate Λ call) :
    (∃ o, Direct.Solve S call threads o) ∧
    ∀ o, Direct.Solve S call threads o → ∃ res, o = some res ∧ res.success = true ∧
      ∀ δ, Λ.cost W p (stepOf W r.program res.x) ≤ Λ.cost W p δ := by
  have hq := hp.rearranged hr.same
  have hfits : ∀ (Λ : Linearised B R) (call : Call), Λ.Damped → IsCall W r.program r.numEliminate Λ call →
      Direct.Fits (structureOf (r.program.toEval W) r.numEliminate) true call := by
    intro Λ call hd hcall
    obtain ⟨hok, hbs, -, -⟩ := call_dims hq hcall
    obtain ⟨D, hD, -⟩ := hd.call hq hcall
    exact ⟨hok, hbs, structureOf_sorted _ (toEval_ok hq), call_nnz hq hcall, by rw [hD]; rfl⟩
  obtain ⟨h1, h2⟩ := Direct.sparse_normal_cholesky hc ht (fun call h => by
    obtain ⟨Λ', hd', hc'⟩ := hcalls call h
    exact hfits Λ' call hd' hc') hS (hfits Λ call hd hcall)
  refine ⟨h1, fun o ho => ?_⟩
  obtain ⟨res, rfl, hg⟩ := h2 o ho
  obtain ⟨D, hD, hD'⟩ := hd.call hq hcall
  have hok := hg.unique (by rw [hD]; exact regular_damped hD')
  exact ⟨res, rfl, hok, (minimises_iff hp hr.same hcall res.x).1 (hg.solves hok)⟩

end Ceres.Reorder
