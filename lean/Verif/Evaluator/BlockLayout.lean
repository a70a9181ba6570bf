import Verif.Evaluator.Layout
import Mathlib.Data.List.Induction

/-!
# C10 for the block sparse, dense and dynamically sparse Jacobians
-/
namespace Ceres.Evaluator

variable {α : Type}

/-! ### Active arguments -/

/-- Active arguments counting arguments from `j`. -/
def activeFrom (j : ℕ) (args : List (Option ℕ)) : List (ℕ × ℕ) :=
  (args.zipIdx j).filterMap fun p => p.1.map fun i => (i, p.2)

theorem activeArgs_eq (rb : RB) : activeArgs rb = activeFrom 0 rb.args := rfl

@[simp] theorem activeFrom_nil (j : ℕ) : activeFrom j [] = [] := rfl
@[simp] theorem activeFrom_none (j : ℕ) (l : List (Option ℕ)) :
    activeFrom j (none :: l) = activeFrom (j + 1) l := by
  simp [activeFrom, List.zipIdx_cons]
@[simp] theorem activeFrom_some (j i : ℕ) (l : List (Option ℕ)) :
    activeFrom j (some i :: l) = (i, j) :: activeFrom (j + 1) l := by
  simp [activeFrom, List.zipIdx_cons]

/-! ### The cells of one residual block -/

/-- Entries in the cells of the list that are to be eliminated. -/
def sumE (P : Prog) (ne n : ℕ) (S : List (ℕ × ℕ)) : ℕ :=
  (S.map fun p => if p.1 < ne then n * P.size p.1 else 0).sum

/-- Entries in the other cells. -/
def sumF (P : Prog) (ne n : ℕ) (S : List (ℕ × ℕ)) : ℕ :=
  (S.map fun p => if p.1 < ne then 0 else n * P.size p.1).sum

theorem sumE_add_sumF (P : Prog) (ne n : ℕ) (S : List (ℕ × ℕ)) :
    sumE P ne n S + sumF P ne n S = n * (S.map fun p => P.size p.1).sum := by
  induction S with
  | nil => rfl
  | cons q S ih =>
    unfold sumE sumF at ih ⊢
    simp only [List.map_cons, List.sum_cons, Nat.mul_add, ← ih]
    split <;> omega

theorem sumE_perm (P : Prog) (ne n : ℕ) {S T : List (ℕ × ℕ)} (h : S.Perm T) :
    sumE P ne n S = sumE P ne n T :=
  (List.Perm.map (fun p : ℕ × ℕ => if p.1 < ne then n * P.size p.1 else 0) h).sum_eq

theorem sumF_perm (P : Prog) (ne n : ℕ) {S T : List (ℕ × ℕ)} (h : S.Perm T) :
    sumF P ne n S = sumF P ne n T :=
  (List.Perm.map (fun p : ℕ × ℕ => if p.1 < ne then 0 else n * P.size p.1) h).sum_eq

theorem placeCells_end (P : Prog) (ne n : ℕ) (S : List ((ℕ × ℕ) × ℕ)) (e f : ℕ) :
    (placeCells P ne n S e f).2 =
      (e + sumE P ne n (S.map Prod.fst), f + sumF P ne n (S.map Prod.fst)) := by
  induction S generalizing e f with
  | nil => rfl
  | cons q S ih =>
    obtain ⟨⟨i, j⟩, k⟩ := q
    rw [placeCells]
    unfold sumE sumF at ih ⊢
    split
    · rename_i h
      simp only [ih, List.map_cons, List.sum_cons, if_pos h, Prod.mk.injEq]
      omega
    · rename_i h
      simp only [ih, List.map_cons, List.sum_cons, if_neg h, Prod.mk.injEq]
      omega

theorem placeCells_keys (P : Prog) (ne n : ℕ) (S : List ((ℕ × ℕ) × ℕ)) (e f : ℕ) :
    (placeCells P ne n S e f).1.map Prod.fst = S.map Prod.snd := by
  induction S generalizing e f with
  | nil => rfl
  | cons q S ih =>
    obtain ⟨⟨i, j⟩, k⟩ := q
    rw [placeCells]
    split <;> simp only [List.map_cons, ih]

/-- Where every cell goes. -/
theorem placeCells_mem (P : Prog) (ne n : ℕ) (S₁ : List ((ℕ × ℕ) × ℕ)) (i j k : ℕ)
    (S₂ : List ((ℕ × ℕ) × ℕ)) (e f : ℕ) :
    (k, if i < ne then e + sumE P ne n (S₁.map Prod.fst) else f + sumF P ne n (S₁.map Prod.fst)) ∈
      (placeCells P ne n (S₁ ++ ((i, j), k) :: S₂) e f).1 := by
  induction S₁ generalizing e f with
  | nil =>
    rw [List.nil_append, placeCells]
    split <;> simp [sumE, sumF]
  | cons q S ih =>
    obtain ⟨⟨i', j'⟩, k'⟩ := q
    rw [List.cons_append, placeCells]
    split
    · rename_i h
      refine List.mem_cons_of_mem _ ?_
      have := ih (e + n * P.size i') f
      convert this using 2
      unfold sumE sumF
      simp only [List.map_cons, List.sum_cons, if_pos h]
      split <;> omega
    · rename_i h
      refine List.mem_cons_of_mem _ ?_
      have := ih e (f + n * P.size i')
      convert this using 2
      unfold sumE sumF
      simp only [List.map_cons, List.sum_cons, if_neg h]
      split <;> omega

theorem placeCells_spans (P : Prog) (ne n : ℕ) (L : ℕ → ℕ) (S : List ((ℕ × ℕ) × ℕ)) (e f : ℕ)
    (h : ∀ w ∈ (placeCells P ne n S e f).1, L w.1 = w.2) :
    (S.flatMap fun q => List.range' (L q.2) (n * P.size q.1.1)).Perm
      (List.range' e (sumE P ne n (S.map Prod.fst)) ++
        List.range' f (sumF P ne n (S.map Prod.fst))) := by
  induction S generalizing e f with
  | nil => simp [sumE, sumF]
  | cons q S ih =>
    obtain ⟨⟨i, j⟩, k⟩ := q
    rw [placeCells] at h
    rw [List.flatMap_cons]
    by_cases hi : i < ne
    · rw [if_pos hi] at h
      have h1 : L k = e := h _ List.mem_cons_self
      have h2 := ih (e + n * P.size i) f fun w hw => h w (List.mem_cons_of_mem _ hw)
      simp only [h1]
      refine (h2.append_left _).trans ?_
      have eE : sumE P ne n (List.map Prod.fst (((i, j), k) :: S)) =
          n * P.size i + sumE P ne n (S.map Prod.fst) := by
        unfold sumE; simp only [List.map_cons, List.sum_cons, if_pos hi]
      have eF : sumF P ne n (List.map Prod.fst (((i, j), k) :: S)) =
          sumF P ne n (S.map Prod.fst) := by
        unfold sumF; simp only [List.map_cons, List.sum_cons, if_pos hi, Nat.zero_add]
      rw [eE, eF, ← List.range'_append_1, List.append_assoc]
    · rw [if_neg hi] at h
      have h1 : L k = f := h _ List.mem_cons_self
      have h2 := ih e (f + n * P.size i) fun w hw => h w (List.mem_cons_of_mem _ hw)
      simp only [h1]
      refine (h2.append_left _).trans ?_
      have eE : sumE P ne n (List.map Prod.fst (((i, j), k) :: S)) =
          sumE P ne n (S.map Prod.fst) := by
        unfold sumE; simp only [List.map_cons, List.sum_cons, if_neg hi, Nat.zero_add]
      have eF : sumF P ne n (List.map Prod.fst (((i, j), k) :: S)) =
          n * P.size i + sumF P ne n (S.map Prod.fst) := by
        unfold sumF; simp only [List.map_cons, List.sum_cons, if_neg hi]
      rw [eE, eF, ← List.range'_append_1, ← List.append_assoc, ← List.append_assoc]
      exact (List.perm_append_comm).append_right _

/-! ### Sorting the active arguments -/

theorem sortedActive_perm (rb : RB) : (sortedActive rb).Perm (activeArgs rb).zipIdx :=
  List.mergeSort_perm _ _

theorem sortedActive_keys_nodup (rb : RB) : ((sortedActive rb).map Prod.snd).Nodup := by
  rw [((sortedActive_perm rb).map Prod.snd).nodup_iff, List.zipIdx_map_snd]
  exact List.nodup_range'

theorem sortedActive_fst_perm (rb : RB) :
    ((sortedActive rb).map Prod.fst).Perm (activeArgs rb) := by
  have := (sortedActive_perm rb).map Prod.fst
  rwa [List.zipIdx_map_fst] at this

theorem sortedActive_sorted (rb : RB) :
    (sortedActive rb).Pairwise fun a b => a.1.1 ≤ b.1.1 := by
  have := List.pairwise_mergeSort (le := fun a b : (ℕ × ℕ) × ℕ => decide (a.1.1 ≤ b.1.1))
    (fun a b c hab hbc => by simp only [decide_eq_true_eq] at *; omega)
    (fun a b => by simp only [Bool.or_eq_true, decide_eq_true_eq]; omega)
    (activeArgs rb).zipIdx
  exact this.imp fun h => by simpa using h

/-! ### The layout -/

/-- Entries of E cells in the residual blocks before `i`. -/
def eBefore (P : Prog) (ne : ℕ) (l : List RB) (i : ℕ) : ℕ :=
  ((l.take i).map fun rb => sumE P ne rb.numResiduals (activeArgs rb)).sum

/-- Entries of F cells in the residual blocks before `i`. -/
def fBefore (P : Prog) (ne : ℕ) (l : List RB) (i : ℕ) : ℕ :=
  ((l.take i).map fun rb => sumF P ne rb.numResiduals (activeArgs rb)).sum

theorem layoutLoop_length (P : Prog) (ne : ℕ) (l : List RB) (e f : ℕ) :
    (layoutLoop P ne l e f).length = l.length := by
  induction l generalizing e f with
  | nil => rfl
  | cons rb l ih => simp [layoutLoop, ih]

theorem layoutLoop_get (P : Prog) (ne : ℕ) (l : List RB) (e f i : ℕ) (hi : i < l.length) :
    (layoutLoop P ne l e f)[i]? = some (exec (placeCells P ne (l[i]).numResiduals
      (sortedActive l[i]) (e + eBefore P ne l i) (f + fBefore P ne l i)).1 fun _ => 0) := by
  induction l generalizing e f i with
  | nil => simp at hi
  | cons rb l ih =>
    rw [layoutLoop]
    cases i with
    | zero => simp [eBefore, fBefore]
    | succ i =>
      have hi' : i < l.length := by simpa using hi
      simp only [List.getElem?_cons_succ, List.getElem_cons_succ]
      rw [ih _ _ i hi', placeCells_end]
      unfold eBefore fBefore
      simp only [List.take_succ_cons, List.map_cons, List.sum_cons,
        sumE_perm P ne _ (sortedActive_fst_perm rb), sumF_perm P ne _ (sortedActive_fst_perm rb)]
      rw [Nat.add_assoc, Nat.add_assoc]

/-- The layout of residual block `i`. -/
def layoutOf (P : Prog) (ne i : ℕ) : ℕ → ℕ := (buildLayout P ne).getD i fun _ => 0

theorem layoutOf_eq (P : Prog) (ne i : ℕ) (hi : i < P.residuals.length) :
    layoutOf P ne i = exec (placeCells P ne (P.residuals[i]).numResiduals
      (sortedActive P.residuals[i]) (eBefore P ne P.residuals i)
        (eEntries P ne + fBefore P ne P.residuals i)).1 fun _ => 0 := by
  unfold layoutOf buildLayout
  rw [List.getD_eq_getElem?_getD, layoutLoop_get P ne _ _ _ _ hi, Nat.zero_add]
  rfl

theorem layoutOf_placed (P : Prog) (ne i : ℕ) (hi : i < P.residuals.length) :
    ∀ w ∈ (placeCells P ne (P.residuals[i]).numResiduals
      (sortedActive P.residuals[i]) (eBefore P ne P.residuals i)
        (eEntries P ne + fBefore P ne P.residuals i)).1, layoutOf P ne i w.1 = w.2 := by
  rintro ⟨k, p⟩ hw
  rw [layoutOf_eq P ne i hi]
  refine exec_of_mem _ _ _ _ ?_ hw
  rw [placeCells_keys]
  exact sortedActive_keys_nodup _

theorem eEntries_eq (P : Prog) (ne : ℕ) :
    eEntries P ne = eBefore P ne P.residuals P.residuals.length := by
  unfold eEntries eBefore sumE
  rw [List.take_length]

/-- **C10 (block sparse).** Where the cell of an active argument is stored: E cells (column block
below `num_eliminate_blocks`) from the front, F cells after all E cells, in both parts row block
after row block and within a row block in the order of the sorted list of cells. -/
theorem layout_position (P : Prog) (ne i : ℕ) (hi : i < P.residuals.length)
    (S₁ S₂ : List ((ℕ × ℕ) × ℕ)) (b j k : ℕ)
    (hS : sortedActive P.residuals[i] = S₁ ++ ((b, j), k) :: S₂) :
    layoutOf P ne i k = if b < ne
      then eBefore P ne P.residuals i + sumE P ne (P.residuals[i]).numResiduals (S₁.map Prod.fst)
      else eEntries P ne + fBefore P ne P.residuals i +
        sumF P ne (P.residuals[i]).numResiduals (S₁.map Prod.fst) := by
  have := placeCells_mem P ne (P.residuals[i]).numResiduals S₁ b j k S₂
    (eBefore P ne P.residuals i) (eEntries P ne + fBefore P ne P.residuals i)
  rw [← hS] at this
  exact layoutOf_placed P ne i hi _ this

theorem eBefore_succ (P : Prog) (ne : ℕ) (l : List RB) (i : ℕ) (hi : i < l.length) :
    eBefore P ne l (i + 1) = eBefore P ne l i +
      sumE P ne (l[i]).numResiduals (activeArgs l[i]) := by
  unfold eBefore
  rw [List.take_add_one, List.getElem?_eq_getElem hi, List.map_append, List.sum_append]
  simp

theorem fBefore_succ (P : Prog) (ne : ℕ) (l : List RB) (i : ℕ) (hi : i < l.length) :
    fBefore P ne l (i + 1) = fBefore P ne l i +
      sumF P ne (l[i]).numResiduals (activeArgs l[i]) := by
  unfold fBefore
  rw [List.take_add_one, List.getElem?_eq_getElem hi, List.map_append, List.sum_append]
  simp

theorem eBefore_mono (P : Prog) (ne : ℕ) (l : List RB) {i j : ℕ} (h : i ≤ j) :
    eBefore P ne l i ≤ eBefore P ne l j := by
  obtain ⟨t, ht⟩ := List.take_prefix_take_left (l := l) h
  unfold eBefore
  rw [← ht, List.map_append, List.sum_append]
  omega

theorem mem_sortedActive_split {rb : RB} {b j k : ℕ} (hk : ((b, j), k) ∈ (activeArgs rb).zipIdx) :
    ∃ S₁ S₂, sortedActive rb = S₁ ++ ((b, j), k) :: S₂ :=
  List.append_of_mem ((sortedActive_perm rb).mem_iff.mpr hk)

theorem sumE_prefix {P : Prog} {ne n : ℕ} {rb : RB} {S₁ S₂ : List ((ℕ × ℕ) × ℕ)} {b j k : ℕ}
    (hS : sortedActive rb = S₁ ++ ((b, j), k) :: S₂) (hb : b < ne) :
    sumE P ne n (S₁.map Prod.fst) + n * P.size b ≤ sumE P ne n (activeArgs rb) := by
  rw [← sumE_perm P ne n (sortedActive_fst_perm rb), hS]
  unfold sumE
  simp only [List.map_append, List.map_cons, List.sum_append, List.sum_cons, if_pos hb]
  omega

/-- **C10 (block sparse).** The E cells lie in the first `eEntries` entries, the F cells behind
them. -/
theorem layout_partition (P : Prog) (ne i : ℕ) (hi : i < P.residuals.length) (b j k : ℕ)
    (hk : ((b, j), k) ∈ (activeArgs P.residuals[i]).zipIdx) :
    (b < ne → layoutOf P ne i k + (P.residuals[i]).numResiduals * P.size b ≤ eEntries P ne) ∧
    (¬ b < ne → eEntries P ne ≤ layoutOf P ne i k) := by
  obtain ⟨S₁, S₂, hS⟩ := mem_sortedActive_split hk
  have hpos := layout_position P ne i hi S₁ S₂ b j k hS
  constructor
  · intro hb
    rw [if_pos hb] at hpos
    have h1 := sumE_prefix (P := P) (n := (P.residuals[i]).numResiduals) hS hb
    have h2 := eBefore_succ P ne P.residuals i hi
    have h3 := eBefore_mono P ne P.residuals (i := i + 1) (j := P.residuals.length) hi
    rw [eEntries_eq]
    omega
  · intro hb
    rw [if_neg hb] at hpos
    omega

/-- **C10 (block sparse).** The cells tile the values array: the position ranges of the cells of
all residual blocks together are a rearrangement of `0, …, total - 1`. -/
theorem layout_tiles (P : Prog) (ne : ℕ) :
    (P.residuals.zipIdx.flatMap fun q => (activeArgs q.1).zipIdx.flatMap fun c =>
      List.range' (layoutOf P ne q.2 c.2) (q.1.numResiduals * P.size c.1.1)).Perm
      (List.range (baseOf P P.residuals P.residuals.length)) := by
  have key : ∀ m ≤ P.residuals.length,
      ((P.residuals.take m).zipIdx.flatMap fun q => (activeArgs q.1).zipIdx.flatMap fun c =>
        List.range' (layoutOf P ne q.2 c.2) (q.1.numResiduals * P.size c.1.1)).Perm
        (List.range (eBefore P ne P.residuals m) ++
          List.range' (eEntries P ne) (fBefore P ne P.residuals m)) := by
    intro m
    induction m with
    | zero => intro _; simp [eBefore, fBefore]
    | succ m ih =>
      intro hm
      have hm' : m < P.residuals.length := by omega
      rw [List.take_add_one, List.getElem?_eq_getElem hm', List.zipIdx_append,
        List.flatMap_append, eBefore_succ P ne _ m hm', fBefore_succ P ne _ m hm']
      simp only [Option.toList_some, List.zipIdx_singleton, List.flatMap_cons, List.flatMap_nil,
        List.append_nil, List.length_take, Nat.zero_add]
      rw [Nat.min_eq_left hm'.le]
      have hrow := placeCells_spans P ne (P.residuals[m]).numResiduals (layoutOf P ne m)
        (sortedActive P.residuals[m]) _ _ (layoutOf_placed P ne m hm')
      rw [sumE_perm P ne _ (sortedActive_fst_perm _),
        sumF_perm P ne _ (sortedActive_fst_perm _)] at hrow
      have hrow' := (((sortedActive_perm P.residuals[m]).flatMap_right _).symm).trans hrow
      refine ((ih hm'.le).append hrow').trans ?_
      rw [List.range_eq_range', List.range_eq_range', ← List.range'_append_1 (s := 0),
        ← List.range'_append_1 (s := eEntries P ne), Nat.zero_add]
      generalize List.range' 0 _ = A
      generalize List.range' (eEntries P ne) _ = B
      generalize List.range' (eBefore _ _ _ _) _ = C
      generalize List.range' (eEntries P ne + _) _ = D
      simp only [List.append_assoc]
      refine List.Perm.append_left A ?_
      rw [← List.append_assoc, ← List.append_assoc]
      exact List.perm_append_comm.append_right D
  have h := key P.residuals.length le_rfl
  rw [List.take_length] at h
  refine h.trans ?_
  rw [← eEntries_eq, List.range_eq_range', List.range_eq_range']
  have : baseOf P P.residuals P.residuals.length =
      eEntries P ne + fBefore P ne P.residuals P.residuals.length := by
    rw [eEntries_eq]
    unfold baseOf eBefore fBefore
    rw [← List.sum_map_add]
    congr 1
    apply List.map_congr_left
    intro rb _
    exact (sumE_add_sumF P ne rb.numResiduals (activeArgs rb)).symm
  rw [this, ← List.range'_append_1, Nat.zero_add]

/-- **C10 (block sparse).** Within a row block, and separately for E and F, cells follow each
other in the order of their column blocks. -/
theorem layout_ordered (P : Prog) (ne i : ℕ) (hi : i < P.residuals.length)
    (b j k b' j' k' : ℕ)
    (hk : ((b, j), k) ∈ (activeArgs P.residuals[i]).zipIdx)
    (hk' : ((b', j'), k') ∈ (activeArgs P.residuals[i]).zipIdx) (hbb : b < b')
    (hclass : b < ne ↔ b' < ne) :
    layoutOf P ne i k + (P.residuals[i]).numResiduals * P.size b ≤ layoutOf P ne i k' := by
  obtain ⟨S₁, S₂, hS⟩ := mem_sortedActive_split hk'
  have hpos' := layout_position P ne i hi S₁ S₂ b' j' k' hS
  have hmem : ((b, j), k) ∈ S₁ := by
    have h1 := (sortedActive_perm P.residuals[i]).mem_iff.mpr hk
    have hsort := sortedActive_sorted P.residuals[i]
    rw [hS] at h1 hsort
    rw [List.mem_append, List.mem_cons] at h1
    rcases h1 with h1 | h1 | h1
    · exact h1
    · exfalso
      simp only [Prod.mk.injEq] at h1
      omega
    · exfalso
      rw [List.pairwise_append, List.pairwise_cons] at hsort
      have := hsort.2.1.1 _ h1
      simp only at this
      omega
  obtain ⟨T₁, T₂, hT⟩ := List.append_of_mem hmem
  have hpos := layout_position P ne i hi T₁ (T₂ ++ ((b', j'), k') :: S₂) b j k
    (by rw [hS, hT]; simp)
  rw [hpos, hpos', hT]
  by_cases hb : b < ne
  · rw [if_pos hb, if_pos (hclass.mp hb)]
    unfold sumE
    simp only [List.map_append, List.map_cons, List.sum_append, List.sum_cons, if_pos hb]
    omega
  · rw [if_neg hb, if_neg (fun h => hb (hclass.mpr h))]
    unfold sumF
    simp only [List.map_append, List.map_cons, List.sum_append, List.sum_cons, if_neg hb]
    omega

/-! ### The values -/

/-- The stores of evaluating residual block `rb` straight into the values array: every active
argument `j` stores its Jacobian from the position given by `BlockEvaluatePreparer`
(block_evaluate_preparer.cc:61-77, residual_block.cc:114-159). -/
def prepStores (P : Prog) (rb : RB) (layout : ℕ → ℕ) (jac : ℕ → ℕ → α) : List (ℕ × α) :=
  ((rb.args.zip (preparePositions layout rb.args 0)).zipIdx).flatMap fun q =>
    match q.1.1, q.1.2 with
    | some i, some p => (List.range (rb.numResiduals * P.size i)).map fun t => (p + t, jac q.2 t)
    | _, _ => []

theorem prepStores_eq (P : Prog) (rb : RB) (layout : ℕ → ℕ) (jac : ℕ → ℕ → α) :
    prepStores P rb layout jac = (activeArgs rb).zipIdx.flatMap fun c =>
      (List.range (rb.numResiduals * P.size c.1.1)).map fun t =>
        (layout c.2 + t, jac c.1.2 t) := by
  unfold prepStores
  rw [activeArgs_eq]
  have : ∀ (l : List (Option ℕ)) (j0 k0 : ℕ),
      (((l.zip (preparePositions layout l k0)).zipIdx j0).flatMap fun q =>
        match q.1.1, q.1.2 with
        | some i, some p => (List.range (rb.numResiduals * P.size i)).map fun t =>
            (p + t, jac q.2 t)
        | _, _ => []) =
      ((activeFrom j0 l).zipIdx k0).flatMap fun c =>
        (List.range (rb.numResiduals * P.size c.1.1)).map fun t =>
          (layout c.2 + t, jac c.1.2 t) := by
    intro l
    induction l with
    | nil => intro j0 k0; rfl
    | cons a l ih =>
      intro j0 k0
      cases a with
      | none =>
        rw [preparePositions, List.zip_cons_cons, List.zipIdx_cons, List.flatMap_cons,
          activeFrom_none, ih]
        rfl
      | some i =>
        rw [preparePositions, List.zip_cons_cons, List.zipIdx_cons, List.flatMap_cons,
          activeFrom_some, List.zipIdx_cons, List.flatMap_cons, ih]
  exact this _ _ _

/-- All stores of an evaluation with the block sparse Jacobian. -/
def allBlockStores (P : Prog) (ne : ℕ) (jac : ℕ → ℕ → ℕ → α) : List (ℕ × α) :=
  P.residuals.zipIdx.flatMap fun q => prepStores P q.1 (layoutOf P ne q.2) (jac q.2)

/-- **C10 (block sparse).** Every position of the values array is written exactly once. -/
theorem block_stores_cover (P : Prog) (ne : ℕ) (jac : ℕ → ℕ → ℕ → α) :
    ((allBlockStores P ne jac).map Prod.fst).Perm
      (List.range (baseOf P P.residuals P.residuals.length)) := by
  have : (allBlockStores P ne jac).map Prod.fst =
      P.residuals.zipIdx.flatMap fun q => (activeArgs q.1).zipIdx.flatMap fun c =>
        List.range' (layoutOf P ne q.2 c.2) (q.1.numResiduals * P.size c.1.1) := by
    unfold allBlockStores
    rw [List.map_flatMap]
    congr 1
    funext q
    rw [prepStores_eq, List.map_flatMap]
    congr 1
    funext c
    rw [List.map_map, List.range'_eq_map_range]
    rfl
  rw [this]
  exact layout_tiles P ne

/-- The entry in row `r` of row block `i`, column `C` of a block sparse matrix with the cells of
`CreateJacobian`. -/
def bsmEntry [AddMonoid α] (P : Prog) (ne i r : ℕ) (rb : RB) (values : ℕ → α) (C : ℕ) : α :=
  ((rowCells rb (layoutOf P ne i)).map fun c =>
    if P.offset c.1 ≤ C ∧ C < P.offset c.1 + P.size c.1 then
      values (c.2 + (r * P.size c.1 + (C - P.offset c.1))) else 0).sum

/-- **C10 (block sparse).** In whatever order the stores of an evaluation are carried out, the
finished block sparse matrix is the Jacobian. -/
theorem bsm_entry [AddCommMonoid α] (P : Prog) (ne : ℕ) (jac : ℕ → ℕ → ℕ → α)
    {ws : List (ℕ × α)} (hws : ws.Perm (allBlockStores P ne jac)) (init : ℕ → α)
    {i : ℕ} (hi : i < P.residuals.length) {r : ℕ} (hr : r < (P.residuals[i]).numResiduals)
    (C : ℕ) :
    bsmEntry P ne i r P.residuals[i] (exec ws init) C =
      denseJacobian P i r P.residuals[i] jac C := by
  have hnodup : (ws.map Prod.fst).Nodup :=
    ((hws.map Prod.fst).trans (block_stores_cover P ne jac)).nodup_iff.mpr List.nodup_range
  unfold bsmEntry rowCells denseJacobian
  rw [((List.mergeSort_perm _ _).map _).sum_eq, List.map_map]
  have h2 : (activeArgs P.residuals[i]).map (fun q =>
      if P.offset q.1 ≤ C ∧ C < P.offset q.1 + P.size q.1 then
        jac i q.2 (r * P.size q.1 + (C - P.offset q.1)) else 0) =
      (activeArgs P.residuals[i]).zipIdx.map fun c =>
        if P.offset c.1.1 ≤ C ∧ C < P.offset c.1.1 + P.size c.1.1 then
          jac i c.1.2 (r * P.size c.1.1 + (C - P.offset c.1.1)) else 0 := by
    conv_lhs => rw [← List.zipIdx_map_fst 0 (activeArgs P.residuals[i]), List.map_map]
    rfl
  rw [h2]
  congr 1
  apply List.map_congr_left
  intro c hc
  simp only [Function.comp_apply]
  split
  · rename_i hC
    refine exec_of_mem _ _ _ _ hnodup ?_
    rw [hws.mem_iff]
    unfold allBlockStores
    rw [List.mem_flatMap]
    refine ⟨(P.residuals[i], i), ?_, ?_⟩
    · rw [List.mk_mem_zipIdx_iff_getElem?]; exact List.getElem?_eq_getElem hi
    · rw [prepStores_eq, List.mem_flatMap]
      refine ⟨c, hc, ?_⟩
      rw [List.mem_map]
      refine ⟨r * P.size c.1.1 + (C - P.offset c.1.1), ?_, rfl⟩
      rw [List.mem_range]
      simp only
      have : (r + 1) * P.size c.1.1 ≤ (P.residuals[i]).numResiduals * P.size c.1.1 :=
        Nat.mul_le_mul_right _ hr
      have h3 : (r + 1) * P.size c.1.1 = r * P.size c.1.1 + P.size c.1.1 := by ring
      omega
  · rfl

/-! ### The scratch area -/

/-- The stores of evaluating into the scratch area (`ScratchEvaluatePreparer`,
scratch_evaluate_preparer.cc:58-75, residual_block.cc:114-159). -/
def scratchStores (P : Prog) (rb : RB) (jac : ℕ → ℕ → α) : List (ℕ × α) :=
  ((rb.args.zip (scratchPositions P rb.numResiduals rb.args 0)).zipIdx).flatMap fun q =>
    match q.1.1, q.1.2 with
    | some i, some p => (List.range (rb.numResiduals * P.size i)).map fun t => (p + t, jac q.2 t)
    | _, _ => []

/-- **C10.** The scratch Jacobians of a residual block tile the first
`numResiduals * width` entries of the scratch area. -/
theorem scratch_tiles (P : Prog) (rb : RB) (jac : ℕ → ℕ → α) :
    (scratchStores P rb jac).map Prod.fst = List.range (rb.numResiduals * P.width rb) := by
  unfold scratchStores Prog.width
  rw [activeArgs_eq]
  have : ∀ (l : List (Option ℕ)) (j0 cur : ℕ),
      (((l.zip (scratchPositions P rb.numResiduals l cur)).zipIdx j0).flatMap fun q =>
        match q.1.1, q.1.2 with
        | some i, some p => (List.range (rb.numResiduals * P.size i)).map fun t =>
            (p + t, jac q.2 t)
        | _, _ => []).map Prod.fst =
      List.range' cur (rb.numResiduals * ((activeFrom j0 l).map fun p => P.size p.1).sum) := by
    intro l
    induction l with
    | nil => intro j0 cur; simp
    | cons a l ih =>
      intro j0 cur
      cases a with
      | none =>
        rw [scratchPositions, List.zip_cons_cons, List.zipIdx_cons, List.flatMap_cons,
          activeFrom_none, List.map_append, ih]
        rfl
      | some i =>
        rw [scratchPositions, List.zip_cons_cons, List.zipIdx_cons, List.flatMap_cons,
          activeFrom_some, List.map_append, ih, List.map_cons, List.sum_cons, Nat.mul_add,
          ← List.range'_append_1]
        congr 1
        rw [List.map_map, List.range'_eq_map_range]
        rfl
  rw [this, ← List.range_eq_range']

/-! ### The dense and the dynamic writer -/

/-- Stores into a matrix. -/
def execMat (ws : List ((ℕ × ℕ) × α)) (a : ℕ × ℕ → α) : ℕ × ℕ → α :=
  ws.foldl (fun a w => Function.update a w.1 w.2) a

theorem execMat_of_notMem (ws : List ((ℕ × ℕ) × α)) (a : ℕ × ℕ → α) (p : ℕ × ℕ)
    (h : p ∉ ws.map Prod.fst) : execMat ws a p = a p := by
  induction ws generalizing a with
  | nil => rfl
  | cons w ws ih =>
    rw [List.map_cons, List.mem_cons, not_or] at h
    show execMat ws (Function.update a w.1 w.2) p = a p
    rw [ih _ h.2, Function.update_of_ne h.1]

theorem execMat_of_mem (ws : List ((ℕ × ℕ) × α)) (a : ℕ × ℕ → α) (p : ℕ × ℕ) (v : α)
    (hu : ∀ v', (p, v') ∈ ws → v' = v) (h : (p, v) ∈ ws) : execMat ws a p = v := by
  induction ws using List.reverseRecOn with
  | nil => simp at h
  | append_singleton ws w ih =>
    have e : execMat (ws ++ [w]) a = Function.update (execMat ws a) w.1 w.2 := by
      simp [execMat, List.foldl_append]
    rw [e]
    by_cases hw : w.1 = p
    · have : w.2 = v := hu w.2 (by
        rw [List.mem_append]; right; rw [List.mem_singleton, ← hw])
      rw [← hw, Function.update_self, this]
    · rw [Function.update_of_ne (fun h => hw h.symm)]
      refine ih (fun v' hv' => hu v' (List.mem_append_left _ hv')) ?_
      rcases List.mem_append.mp h with h | h
      · exact h
      · rw [List.mem_singleton] at h
        exact absurd (by rw [← h]) hw

theorem rowOffset_lt (P : Prog) {i i' : ℕ} (h : i < i') (hi : i < P.residuals.length) :
    P.rowOffset i + (P.residuals[i]).numResiduals ≤ P.rowOffset i' := by
  unfold Prog.rowOffset
  have h1 : ((P.residuals.take (i + 1)).map RB.numResiduals).sum =
      ((P.residuals.take i).map RB.numResiduals).sum + (P.residuals[i]).numResiduals := by
    rw [List.take_add_one, List.getElem?_eq_getElem hi, List.map_append, List.sum_append]
    simp
  rw [← h1]
  obtain ⟨t, ht⟩ := List.take_prefix_take_left (l := P.residuals) (show i + 1 ≤ i' by omega)
  rw [← ht, List.map_append, List.sum_append]
  omega

theorem row_owner (P : Prog) {i i' r r' : ℕ} (hi : i < P.residuals.length)
    (hi' : i' < P.residuals.length) (hr : r < (P.residuals[i]).numResiduals)
    (hr' : r' < (P.residuals[i']).numResiduals) (h : P.rowOffset i + r = P.rowOffset i' + r') :
    i = i' ∧ r = r' := by
  rcases Nat.lt_trichotomy i i' with h1 | h1 | h1
  · have := rowOffset_lt P h1 hi; omega
  · subst h1; exact ⟨rfl, by omega⟩
  · have := rowOffset_lt P h1 hi'; omega

theorem col_owner (P : Prog) {a b c c' : ℕ} (ha : a < P.sizes.length) (hb : b < P.sizes.length)
    (hc : c < P.size a) (hc' : c' < P.size b) (h : P.offset a + c = P.offset b + c') :
    a = b ∧ c = c' := by
  rcases Nat.lt_trichotomy a b with h1 | h1 | h1
  · have := offset_mono P h1 hb.le; omega
  · subst h1; exact ⟨rfl, by omega⟩
  · have := offset_mono P h1 ha.le; omega

/-- The active argument that owns column `C`, if any, gives the entry of the Jacobian. -/
theorem denseJacobian_of_mem [AddMonoid α] {P : Prog} (hP : P.Ok) {i : ℕ}
    (hi : i < P.residuals.length) (r : ℕ) (jac : ℕ → ℕ → ℕ → α) {b j c : ℕ}
    (hb : (b, j) ∈ activeArgs P.residuals[i]) (hc : c < P.size b) :
    denseJacobian P i r P.residuals[i] jac (P.offset b + c) = jac i j (r * P.size b + c) := by
  obtain ⟨hd, hlt⟩ := hP _ (List.getElem_mem hi)
  unfold denseJacobian
  generalize activeArgs P.residuals[i] = S at *
  have hblt : b < P.sizes.length := hlt _ hb
  induction S with
  | nil => simp at hb
  | cons q S ih =>
    rw [List.map_cons, List.nodup_cons] at hd
    rw [List.map_cons, List.sum_cons]
    have hzero : ∀ q ∈ S, q.1 ≠ b → (if P.offset q.1 ≤ P.offset b + c ∧
        P.offset b + c < P.offset q.1 + P.size q.1 then
        jac i q.2 (r * P.size q.1 + (P.offset b + c - P.offset q.1)) else 0) = 0 := by
      intro q hq hqb
      rw [if_neg]
      rintro ⟨h1, h2⟩
      exact hqb ((col_owner P (hlt q (List.mem_cons_of_mem _ hq)) hblt
        (c := P.offset b + c - P.offset q.1) (c' := c) (by omega) hc (by omega)).1)
    rcases List.mem_cons.mp hb with h | h
    · subst h
      simp only
      rw [if_pos ⟨by omega, by omega⟩]
      have : (S.map fun q => if P.offset q.1 ≤ P.offset b + c ∧
          P.offset b + c < P.offset q.1 + P.size q.1 then
          jac i q.2 (r * P.size q.1 + (P.offset b + c - P.offset q.1)) else 0).sum = 0 := by
        apply List.sum_eq_zero
        intro x hx
        rw [List.mem_map] at hx
        obtain ⟨q, hq, rfl⟩ := hx
        refine hzero q hq ?_
        intro hqb
        exact hd.1 (List.mem_map.mpr ⟨q, hq, hqb⟩)
      rw [this, add_zero]
      congr 1
      omega
    · rw [ih h hd.2 (fun p hp => hlt p (List.mem_cons_of_mem _ hp))]
      rw [if_neg, zero_add]
      rintro ⟨h1, h2⟩
      have := (col_owner P (hlt q List.mem_cons_self) hblt
        (c := P.offset b + c - P.offset q.1) (c' := c) (by omega) hc (by omega)).1
      exact hd.1 (List.mem_map.mpr ⟨(b, j), h, this.symm⟩)

theorem denseJacobian_of_not [AddMonoid α] {P : Prog} {i r C : ℕ} {rb : RB}
    (jac : ℕ → ℕ → ℕ → α)
    (h : ∀ q ∈ activeArgs rb, ¬ (P.offset q.1 ≤ C ∧ C < P.offset q.1 + P.size q.1)) :
    denseJacobian P i r rb jac C = 0 := by
  unfold denseJacobian
  apply List.sum_eq_zero
  intro x hx
  rw [List.mem_map] at hx
  obtain ⟨q, hq, rfl⟩ := hx
  rw [if_neg (h q hq)]

/-- **C10 (dense).** The dense writer, started from a zero matrix, yields the Jacobian, whatever
the order of its stores. -/
theorem dense_entry [AddMonoid α] {P : Prog} (hP : P.Ok) (jac : ℕ → ℕ → ℕ → α)
    {ws : List ((ℕ × ℕ) × α)}
    (hws : ws.Perm (P.residuals.zipIdx.flatMap fun q => denseStores P q.2 q.1 (jac q.2)))
    {i : ℕ} (hi : i < P.residuals.length) {r : ℕ} (hr : r < (P.residuals[i]).numResiduals)
    (C : ℕ) :
    execMat ws (fun _ => 0) (P.rowOffset i + r, C) = denseJacobian P i r P.residuals[i] jac C := by
  -- membership in the stores
  have hmem : ∀ v, (((P.rowOffset i + r, C), v) ∈ ws) ↔
      ∃ b j c, (b, j) ∈ activeArgs P.residuals[i] ∧ c < P.size b ∧ C = P.offset b + c ∧
        v = jac i j (r * P.size b + c) := by
    intro v
    rw [hws.mem_iff, List.mem_flatMap]
    constructor
    · rintro ⟨⟨rb, i'⟩, hrb, hq⟩
      rw [List.mk_mem_zipIdx_iff_getElem?, List.getElem?_eq_some_iff] at hrb
      obtain ⟨hi', rfl⟩ := hrb
      simp only [denseStores, List.mem_flatMap, List.mem_map, List.mem_range, Prod.mk.injEq] at hq
      obtain ⟨⟨b, j⟩, hbj, r', hr', c, hc, ⟨e1, e2⟩, e3⟩ := hq
      obtain ⟨rfl, rfl⟩ := row_owner P hi' hi hr' hr e1
      exact ⟨b, j, c, hbj, hc, e2.symm, e3.symm⟩
    · rintro ⟨b, j, c, hbj, hc, rfl, rfl⟩
      refine ⟨(P.residuals[i], i), ?_, ?_⟩
      · rw [List.mk_mem_zipIdx_iff_getElem?]; exact List.getElem?_eq_getElem hi
      · simp only [denseStores, List.mem_flatMap, List.mem_map, List.mem_range, Prod.mk.injEq]
        exact ⟨(b, j), hbj, r, hr, c, hc, ⟨rfl, rfl⟩, rfl⟩
  by_cases hC : ∃ q ∈ activeArgs P.residuals[i],
      P.offset q.1 ≤ C ∧ C < P.offset q.1 + P.size q.1
  · obtain ⟨⟨b, j⟩, hbj, h1, h2⟩ := hC
    simp only at h1 h2
    obtain ⟨c, rfl⟩ := Nat.exists_eq_add_of_le h1
    have hc : c < P.size b := by omega
    have hd := denseJacobian_of_mem hP hi r jac hbj hc
    rw [hd]
    refine execMat_of_mem _ _ _ _ ?_ ((hmem _).mpr ⟨b, j, c, hbj, hc, rfl, rfl⟩)
    intro v' hv'
    obtain ⟨b', j', c', hbj', hc', e1, e2⟩ := (hmem v').mp hv'
    rw [e2, ← denseJacobian_of_mem hP hi r jac hbj' hc', ← e1, hd]
  · rw [denseJacobian_of_not jac (fun q hq h => hC ⟨q, hq, h⟩)]
    refine execMat_of_notMem _ _ _ ?_
    rw [List.mem_map]
    rintro ⟨⟨p, v⟩, hw, e⟩
    simp only at e
    subst e
    obtain ⟨b, j, c, hbj, hc, e1, _⟩ := (hmem v).mp hw
    exact hC ⟨(b, j), hbj, by simp only; omega, by simp only; omega⟩

/-- The entry of the matrix with the inserted entries (a row is the list of its inserted
entries). -/
def insertedEntry [AddMonoid α] (es : List (ℕ × ℕ × α)) (R C : ℕ) : α :=
  (es.map fun e => if e.1 = R ∧ e.2.1 = C then e.2.2 else 0).sum

/-- **C10 (dynamic).** The entries the dynamic writer inserts for one residual block add up to
its rows of the Jacobian; leaving out zeros changes nothing. -/
theorem dynamic_entry [AddCommMonoid α] [DecidableEq α] {P : Prog} (jac : ℕ → ℕ → ℕ → α)
    {i : ℕ} (hi : i < P.residuals.length) {r : ℕ} (hr : r < (P.residuals[i]).numResiduals)
    (C : ℕ) :
    insertedEntry (dynamicInserts P i P.residuals[i] (jac i)) (P.rowOffset i + r) C =
      denseJacobian P i r P.residuals[i] jac C := by
  unfold insertedEntry dynamicInserts denseJacobian
  rw [List.map_flatMap, List.flatMap_def, List.sum_flatten, List.map_map,
    (((orderedBlocks_perm P.residuals[i]).map _).sum_eq).symm]
  congr 1
  apply List.map_congr_left
  intro q _
  simp only [Function.comp_apply]
  rw [List.map_flatMap, List.flatMap_def, List.sum_flatten, List.map_map]
  have hrow : ∀ r' , (((List.range (P.size q.1)).filterMap fun c =>
      if jac i q.2 (r' * P.size q.1 + c) = 0 then none
      else some (P.rowOffset i + r', P.offset q.1 + c, jac i q.2 (r' * P.size q.1 + c))).map
      fun e : ℕ × ℕ × α => if e.1 = P.rowOffset i + r ∧ e.2.1 = C then e.2.2 else 0).sum =
      if r' = r then (if P.offset q.1 ≤ C ∧ C < P.offset q.1 + P.size q.1 then
        jac i q.2 (r * P.size q.1 + (C - P.offset q.1)) else 0) else 0 := by
    intro r'
    have hs := sum_range_shift (P.size q.1) (P.offset q.1) C
      (fun c => jac i q.2 (r * P.size q.1 + c))
    have gen : ∀ l : List ℕ, ((l.filterMap fun c =>
        if jac i q.2 (r' * P.size q.1 + c) = 0 then none
        else some (P.rowOffset i + r', P.offset q.1 + c, jac i q.2 (r' * P.size q.1 + c))).map
        fun e : ℕ × ℕ × α => if e.1 = P.rowOffset i + r ∧ e.2.1 = C then e.2.2 else 0).sum =
        (l.map fun c => if r' = r then (if P.offset q.1 + c = C then
          jac i q.2 (r * P.size q.1 + c) else 0) else 0).sum := by
      intro l
      induction l with
      | nil => rfl
      | cons c l ih =>
        rw [List.filterMap_cons, List.map_cons, List.sum_cons, ← ih]
        by_cases hz : jac i q.2 (r' * P.size q.1 + c) = 0
        · simp only [hz, if_true]
          split
          · rename_i h; subst h
            simp [hz]
          · simp
        · simp only [hz, if_false, List.map_cons, List.sum_cons, Nat.add_left_cancel_iff]
          congr 1
          by_cases h : r' = r
          · subst h; simp
          · simp [h]
    rw [gen]
    by_cases h : r' = r
    · simp only [h, if_true]
      exact hs
    · simp [h]
  have e : (List.sum ∘ (List.map fun e : ℕ × ℕ × α =>
      if e.1 = P.rowOffset i + r ∧ e.2.1 = C then e.2.2 else 0) ∘ fun r' =>
      (List.range (P.size q.1)).filterMap fun c =>
        if jac i q.2 (r' * P.size q.1 + c) = 0 then none
        else some (P.rowOffset i + r', P.offset q.1 + c, jac i q.2 (r' * P.size q.1 + c))) =
      fun r' => if r' = r then (if P.offset q.1 ≤ C ∧ C < P.offset q.1 + P.size q.1 then
        jac i q.2 (r * P.size q.1 + (C - P.offset q.1)) else 0) else 0 := by
    funext r'
    exact hrow r'
  have hsum : ∀ (n : ℕ) (x : α), r < n →
      ((List.range n).map fun r' => if r' = r then x else 0).sum = x := by
    intro n x hrn
    have := sum_range_shift n 0 r (fun _ => x)
    simp only [Nat.zero_add] at this
    rw [this, if_pos ⟨by omega, hrn⟩]
  show ((List.range (P.residuals[i]).numResiduals).map (List.sum ∘ (List.map fun e : ℕ × ℕ × α =>
      if e.1 = P.rowOffset i + r ∧ e.2.1 = C then e.2.2 else 0) ∘ fun r' =>
      (List.range (P.size q.1)).filterMap fun c =>
        if jac i q.2 (r' * P.size q.1 + c) = 0 then none
        else some (P.rowOffset i + r', P.offset q.1 + c,
          jac i q.2 (r' * P.size q.1 + c)))).sum = _
  rw [e, hsum _ _ hr]

end Ceres.Evaluator
