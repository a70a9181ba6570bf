import Verif.Evaluator.Evaluate
import Mathlib.Tactic.Ring

/-!
# C09: what the evaluator computes
-/
namespace Ceres.Evaluator

variable {K : Type}

/-! ### Positions -/

theorem mem_activeFrom {j0 : ℕ} {l : List (Option ℕ)} {b j : ℕ} :
    (b, j) ∈ activeFrom j0 l ↔ ∃ k, j = j0 + k ∧ l[k]? = some (some b) := by
  induction l generalizing j0 with
  | nil => simp
  | cons a l ih =>
    cases a with
    | none =>
      rw [activeFrom_none, ih]
      constructor
      · rintro ⟨k, rfl, h⟩
        exact ⟨k + 1, by omega, by simpa using h⟩
      · rintro ⟨k, rfl, h⟩
        cases k with
        | zero => simp at h
        | succ k => exact ⟨k, by omega, by simpa using h⟩
    | some i =>
      rw [activeFrom_some, List.mem_cons, ih]
      constructor
      · rintro (h | ⟨k, rfl, h⟩)
        · simp only [Prod.mk.injEq] at h
          exact ⟨0, by omega, by simp [h.1]⟩
        · exact ⟨k + 1, by omega, by simpa using h⟩
      · rintro ⟨k, rfl, h⟩
        cases k with
        | zero =>
          left
          simp only [List.getElem?_cons_zero, Option.some.injEq] at h
          simp [h]
        | succ k => exact Or.inr ⟨k, by omega, by simpa using h⟩

theorem mem_activeArgs {rb : RB} {b j : ℕ} :
    (b, j) ∈ activeArgs rb ↔ rb.args[j]? = some (some b) := by
  rw [activeArgs_eq, mem_activeFrom]
  simp

theorem preparePositions_get (layout : ℕ → ℕ) (l : List (Option ℕ)) (k0 j b : ℕ)
    (h : l[j]? = some (some b)) : ∃ p, (preparePositions layout l k0)[j]? = some (some p) := by
  induction l generalizing k0 j with
  | nil => simp at h
  | cons a l ih =>
    cases j with
    | zero =>
      simp only [List.getElem?_cons_zero, Option.some.injEq] at h
      subst h
      exact ⟨layout k0, by simp [preparePositions]⟩
    | succ j =>
      have h' : l[j]? = some (some b) := by simpa using h
      cases a with
      | none => simpa [preparePositions] using ih k0 j h'
      | some i => simpa [preparePositions] using ih (k0 + 1) j h'

theorem scratchPositions_get (P : Prog) (n : ℕ) (l : List (Option ℕ)) (c0 j b : ℕ)
    (h : l[j]? = some (some b)) : ∃ p, (scratchPositions P n l c0)[j]? = some (some p) := by
  induction l generalizing c0 j with
  | nil => simp at h
  | cons a l ih =>
    cases j with
    | zero =>
      simp only [List.getElem?_cons_zero, Option.some.injEq] at h
      subst h
      exact ⟨c0, by simp [scratchPositions]⟩
    | succ j =>
      have h' : l[j]? = some (some b) := by simpa using h
      cases a with
      | none => simpa [scratchPositions] using ih c0 j h'
      | some i => simpa [scratchPositions] using ih _ j h'

theorem mem_zip_stores (P : Prog) (n : ℕ) (args pos : List (Option ℕ)) (jac : ℕ → ℕ → K)
    {j b p k : ℕ} (h1 : args[j]? = some (some b)) (h2 : pos[j]? = some (some p))
    (hk : k < n * P.size b) :
    (p + k, jac j k) ∈ ((args.zip pos).zipIdx).flatMap fun q =>
      match q.1.1, q.1.2 with
      | some i, some p => (List.range (n * P.size i)).map fun t => (p + t, jac q.2 t)
      | _, _ => [] := by
  rw [List.mem_flatMap]
  refine ⟨((some b, some p), j), ?_, ?_⟩
  · rw [List.mk_mem_zipIdx_iff_getElem?, List.getElem?_zip_eq_some]
    exact ⟨h1, h2⟩
  · simp only [List.mem_map, List.mem_range]
    exact ⟨k, hk, rfl⟩

theorem posOf_of_get {l : List (Option ℕ)} {j p : ℕ} (h : l[j]? = some (some p)) :
    posOf l j = p := by
  unfold posOf
  rw [List.getD_eq_getElem?_getD, h]
  rfl

theorem mem_prepStores (P : Prog) {rb : RB} (layout : ℕ → ℕ) (jac : ℕ → ℕ → K) {b j k : ℕ}
    (h : (b, j) ∈ activeArgs rb) (hk : k < rb.numResiduals * P.size b) :
    (posOf (preparePositions layout rb.args 0) j + k, jac j k) ∈ prepStores P rb layout jac := by
  rw [mem_activeArgs] at h
  obtain ⟨p, hp⟩ := preparePositions_get layout _ 0 _ _ h
  rw [posOf_of_get hp]
  exact mem_zip_stores P _ _ _ _ h hp hk

theorem mem_scratchStores (P : Prog) {rb : RB} (jac : ℕ → ℕ → K) {b j k : ℕ}
    (h : (b, j) ∈ activeArgs rb) (hk : k < rb.numResiduals * P.size b) :
    (posOf (scratchPositions P rb.numResiduals rb.args 0) j + k, jac j k) ∈
      scratchStores P rb jac := by
  rw [mem_activeArgs] at h
  obtain ⟨p, hp⟩ := scratchPositions_get P rb.numResiduals _ 0 _ _ h
  rw [posOf_of_get hp]
  exact mem_zip_stores P _ _ _ _ h hp hk

theorem lt_mul_of_row {n s r c : ℕ} (hr : r < n) (hc : c < s) : r * s + c < n * s := by
  have : (r + 1) * s ≤ n * s := Nat.mul_le_mul_right _ hr
  have h2 : (r + 1) * s = r * s + s := by ring
  omega

/-! ### The stores of one block -/

/-- The stores into the Jacobian made for residual block `i`. -/
def jacStores (c : Config) (P : Prog) (rows : ℕ → ℕ) (ne i : ℕ) (rb : RB) (jac : ℕ → ℕ → K) :
    List (ℕ × K) :=
  if c.direct then prepStores P rb (layoutOf P ne i) jac else crsWrite P rows i rb jac

/-- All stores into the Jacobian. -/
def allJacStores (c : Config) (P : Prog) (rows : ℕ → ℕ) (ne : ℕ) (jac : ℕ → ℕ → ℕ → K) :
    List (ℕ × K) :=
  P.residuals.zipIdx.flatMap fun q => jacStores c P rows ne q.2 q.1 (jac q.2)

/-- The row starts are those of the compressed row matrix, if one is written. -/
def RowsOk [Zero K] (c : Config) (P : Prog) (rows : ℕ → ℕ) : Prop :=
  c.direct = false → c.wantJ = true → ∃ M : CRS K, createJacobian P = some M ∧ M.rows = rows

theorem allJacStores_nodup [Zero K] {c : Config} {P : Prog} {rows : ℕ → ℕ}
    (hrows : RowsOk (K := K) c P rows) (hJ : c.wantJ = true) (ne : ℕ) (jac : ℕ → ℕ → ℕ → K) :
    ((allJacStores c P rows ne jac).map Prod.fst).Nodup := by
  unfold allJacStores jacStores
  cases hd : c.direct with
  | true =>
    simp only [if_true]
    exact (block_stores_cover P ne jac).nodup_iff.mpr List.nodup_range
  | false =>
    simp only [Bool.false_eq_true, if_false]
    obtain ⟨M, hM, rfl⟩ := hrows hd hJ
    exact (stores_cover hM jac).nodup_iff.mpr List.nodup_range

theorem jacStores_nodup [Zero K] {c : Config} {P : Prog} {rows : ℕ → ℕ}
    (hrows : RowsOk (K := K) c P rows) (hJ : c.wantJ = true) (ne : ℕ) (jac : ℕ → ℕ → ℕ → K)
    {i : ℕ} (hi : i < P.residuals.length) :
    ((jacStores c P rows ne i P.residuals[i] (jac i)).map Prod.fst).Nodup := by
  have h := allJacStores_nodup hrows hJ ne jac
  unfold allJacStores at h
  rw [List.map_flatMap, List.nodup_flatMap] at h
  exact h.1 (P.residuals[i], i) (by
    rw [List.mk_mem_zipIdx_iff_getElem?]; exact List.getElem?_eq_getElem hi)

theorem jacStores_disjoint [Zero K] {c : Config} {P : Prog} {rows : ℕ → ℕ}
    (hrows : RowsOk (K := K) c P rows) (hJ : c.wantJ = true) (ne : ℕ) (jac : ℕ → ℕ → ℕ → K)
    {i i' : ℕ} (hi : i < P.residuals.length) (hi' : i' < P.residuals.length) (hne : i ≠ i')
    (p : ℕ) (h1 : p ∈ (jacStores c P rows ne i P.residuals[i] (jac i)).map Prod.fst)
    (h2 : p ∈ (jacStores c P rows ne i' P.residuals[i'] (jac i')).map Prod.fst) : False := by
  have h := allJacStores_nodup hrows hJ ne jac
  unfold allJacStores at h
  rw [List.map_flatMap, List.nodup_flatMap] at h
  have h3 := h.2
  rw [List.pairwise_iff_getElem] at h3
  have key : ∀ a b (ha : a < P.residuals.length) (hb : b < P.residuals.length), a < b →
      p ∈ (jacStores c P rows ne a P.residuals[a] (jac a)).map Prod.fst →
      p ∈ (jacStores c P rows ne b P.residuals[b] (jac b)).map Prod.fst → False := by
    intro a b ha hb hab e1 e2
    have := h3 a b (by simpa using ha) (by simpa using hb) hab
    simp only [List.getElem_zipIdx, Nat.zero_add, Function.onFun] at this
    exact this e1 e2
  rcases Nat.lt_or_gt_of_ne hne with h4 | h4
  · exact key i i' hi hi' h4 h1 h2
  · exact key i' i hi' hi h4 h2 h1

/-- The positions do not depend on the values. -/
theorem crsWrite_fst {L : Type} (P : Prog) (rows : ℕ → ℕ) (i : ℕ) (rb : RB) (f : ℕ → ℕ → K)
    (g : ℕ → ℕ → L) :
    (crsWrite P rows i rb f).map Prod.fst = (crsWrite P rows i rb g).map Prod.fst := by
  unfold crsWrite
  have : ∀ (S : List (ℕ × ℕ)) (cur : ℕ) (F : ℕ → ℕ → ℕ → ℕ → K) (G : ℕ → ℕ → ℕ → ℕ → L),
      (blockStores P.size (fun r => rows (P.rowOffset i + r)) rb.numResiduals F cur S).map
        Prod.fst =
      (blockStores P.size (fun r => rows (P.rowOffset i + r)) rb.numResiduals G cur S).map
        Prod.fst := by
    intro S
    induction S with
    | nil => intro cur F G; rfl
    | cons q S ih =>
      obtain ⟨a, b⟩ := q
      intro cur F G
      rw [blockStores, blockStores, List.map_append, List.map_append, ih _ F G]
      congr 1
      rw [List.map_flatMap, List.map_flatMap]
      congr 1
      funext r
      rw [List.map_map, List.map_map]
      rfl
  exact this _ _ _ _

/-! ### Footprint -/

/-- The locations block `i` may touch on thread `t`. -/
def Owns [Zero K] (c : Config) (P : Prog) (rows : ℕ → ℕ) (ne t i : ℕ) (rb : RB) : Loc → Prop
  | .res p => c.wantR = true ∧ ∃ r < rb.numResiduals, p = P.rowOffset i + r
  | .jac p => c.wantJ = true ∧
      p ∈ (jacStores c P rows ne i rb (fun _ _ => (0 : K))).map Prod.fst
  | .sres t' _ => t' = t
  | .sjac t' _ => t' = t
  | .cost t' => t' = t
  | .grad t' _ => t' = t

theorem jacStores_fst (c : Config) (P : Prog) (rows : ℕ → ℕ) (ne i : ℕ) (rb : RB)
    (f g : ℕ → ℕ → K) :
    (jacStores c P rows ne i rb f).map Prod.fst = (jacStores c P rows ne i rb g).map Prod.fst := by
  unfold jacStores
  split
  · rw [prepStores_eq, prepStores_eq, List.map_flatMap, List.map_flatMap]
    congr 1
    funext q
    rw [List.map_map, List.map_map]
    rfl
  · exact crsWrite_fst _ _ _ _ _ _

theorem owns_resLoc [Zero K] (c : Config) (P : Prog) (rows : ℕ → ℕ) (ne t i : ℕ) (rb : RB)
    {r : ℕ} (hr : r < rb.numResiduals) :
    Owns (K := K) c P rows ne t i rb (resLoc c P t i r) := by
  unfold resLoc
  split
  · rename_i h
    exact ⟨h, r, hr, rfl⟩
  · rfl

theorem owns_jacLoc [Zero K] (c : Config) (P : Prog) (rows : ℕ → ℕ) (ne t i : ℕ) (rb : RB)
    {b j k : ℕ} (hb : (b, j) ∈ activeArgs rb) (hk : k < rb.numResiduals * P.size b) :
    Owns (K := K) c P rows ne t i rb (jacLoc c P (layoutOf P ne i) t rb j k) := by
  unfold jacLoc
  split
  · rename_i h
    rw [Bool.and_eq_true] at h
    refine ⟨h.1, ?_⟩
    unfold jacStores
    rw [if_pos h.2, List.mem_map]
    exact ⟨_, mem_prepStores P (layoutOf P ne i) (fun _ _ => (0 : K)) hb hk, rfl⟩
  · rfl

theorem blockOps_owns [Zero K] (c : Config) (P : Prog) (rows : ℕ → ℕ) (ne t i : ℕ) (rb : RB)
    (b : BlockVal K) (o : Op K) (ho : o ∈ blockOps c P rows (layoutOf P ne i) t i rb b)
    (l : Loc) (hl : l ∈ o.locs) : Owns (K := K) c P rows ne t i rb l := by
  unfold blockOps at ho
  simp only [List.mem_append, List.mem_singleton] at ho
  rcases ho with (((ho | ho) | ho) | ho) | ho
  · unfold resOps at ho
    split at ho
    · rw [List.mem_map] at ho
      obtain ⟨r, hr, rfl⟩ := ho
      simp only [Op.locs, List.mem_singleton] at hl
      rw [hl]
      exact owns_resLoc c P rows ne t i rb (List.mem_range.mp hr)
    · simp at ho
  · unfold jacOps at ho
    split at ho
    · split at ho
      · rename_i h
        rw [Bool.and_eq_true] at h
        rw [List.mem_map] at ho
        obtain ⟨w, hw, rfl⟩ := ho
        simp only [Op.locs, List.mem_singleton] at hl
        rw [hl]
        refine ⟨h.1, ?_⟩
        rw [jacStores_fst c P rows ne i rb _ b.jac]
        unfold jacStores
        rw [if_pos h.2]
        exact List.mem_map_of_mem hw
      · rw [List.mem_map] at ho
        obtain ⟨w, hw, rfl⟩ := ho
        simp only [Op.locs, List.mem_singleton] at hl
        rw [hl]; rfl
    · simp at ho
  · rw [ho] at hl
    simp only [Op.locs, List.mem_singleton] at hl
    rw [hl]; rfl
  · unfold writeOps at ho
    split at ho
    · rename_i h
      rw [Bool.and_eq_true] at h
      rw [List.mem_map] at ho
      obtain ⟨w, hw, rfl⟩ := ho
      simp only [Op.locs, List.mem_cons, List.not_mem_nil, or_false] at hl
      rcases hl with rfl | rfl
      · refine ⟨h.1, ?_⟩
        unfold jacStores
        rw [if_neg (by simpa using h.2), crsWrite_fst P rows i rb _ (fun j k =>
          posOf (scratchPositions P rb.numResiduals rb.args 0) j + k)]
        exact List.mem_map_of_mem hw
      · rfl
    · simp at ho
  · unfold gradOps at ho
    split at ho
    · simp only [List.mem_flatMap, List.mem_map, List.mem_range] at ho
      obtain ⟨⟨bi, j⟩, hq, col, hcol, r, hr, rfl⟩ := ho
      simp only [Op.locs, List.mem_cons, List.not_mem_nil, or_false] at hl
      rcases hl with rfl | rfl | rfl
      · rfl
      · exact owns_jacLoc c P rows ne t i rb hq (lt_mul_of_row hr hcol)
      · exact owns_resLoc c P rows ne t i rb hr
    · simp at ho

theorem getD_residuals {P : Prog} {i : ℕ} (hi : i < P.residuals.length) :
    P.residuals.getD i ⟨0, []⟩ = P.residuals[i] := by
  rw [List.getD_eq_getElem?_getD, List.getElem?_eq_getElem hi]
  rfl

theorem owns_disjoint [Zero K] {c : Config} {P : Prog} {rows : ℕ → ℕ}
    (hrows : RowsOk (K := K) c P rows) (ne : ℕ) {t t' i i' : ℕ} (ht : t ≠ t') (hne : i ≠ i')
    (hi : i < P.residuals.length) (hi' : i' < P.residuals.length) (l : Loc)
    (h : Owns (K := K) c P rows ne t i P.residuals[i] l)
    (h' : Owns (K := K) c P rows ne t' i' P.residuals[i'] l) : False := by
  cases l with
  | res p =>
    obtain ⟨_, r, hr, e⟩ := h
    obtain ⟨_, r', hr', e'⟩ := h'
    exact hne (row_owner P hi hi' hr hr' (e ▸ e')).1
  | jac p =>
    exact jacStores_disjoint hrows h.1 ne (fun _ _ _ => (0 : K)) hi hi' hne p h.2 h'.2
  | sres a p => exact ht (h.symm.trans h')
  | sjac a p => exact ht (h.symm.trans h')
  | cost a => exact ht (h.symm.trans h')
  | grad a p => exact ht (h.symm.trans h')

theorem evalTasks_disjoint [Zero K] {c : Config} {P : Prog} {rows : ℕ → ℕ}
    (hrows : RowsOk (K := K) c P rows) (ne threads : ℕ) (bv : ℕ → BlockVal K)
    (garbage : ℕ → ℕ → List (Op K)) (hok : ∀ i < P.residuals.length, (bv i).ok = true) :
    (evalTasks c P rows ne threads bv garbage).Disjoint := by
  intro t t' i i' ht hne hi hi' o ho o' ho' l hl hl'
  have hi2 : i < P.residuals.length := hi
  have hi2' : i' < P.residuals.length := hi'
  simp only [evalTasks, hok i hi2, hok i' hi2', if_true, getD_residuals hi2,
    getD_residuals hi2'] at ho ho'
  exact owns_disjoint hrows ne ht hne hi2 hi2' l
    (blockOps_owns c P rows ne t i _ _ o ho l hl)
    (blockOps_owns c P rows ne t' i' _ _ o' ho' l hl')

/-! ### What one block does to memory -/

section
variable [Add K] [Mul K]

theorem runOps_sets {f : ℕ → Loc} (hf : Function.Injective f) (ws : List (ℕ × K)) (m : Loc → K)
    (hn : (ws.map Prod.fst).Nodup) {p : ℕ} {v : K} (h : (p, v) ∈ ws) :
    runOps (ws.map fun w => Op.set (f w.1) w.2) m (f p) = v := by
  induction ws generalizing m with
  | nil => simp at h
  | cons w ws ih =>
    rw [List.map_cons, List.nodup_cons] at hn
    show runOps (ws.map fun w => Op.set (f w.1) w.2) (Function.update m (f w.1) w.2) (f p) = v
    rcases List.mem_cons.mp h with h | h
    · rw [← h] at hn ⊢
      rw [runOps_of_notMem]
      · simp
      · intro o ho
        rw [List.mem_map] at ho
        obtain ⟨w', hw', rfl⟩ := ho
        intro e
        exact hn.1 (List.mem_map.mpr ⟨w', hw', hf e⟩)
    · exact ih _ hn.2 h

theorem runOps_copies (t : ℕ) (ws : List (ℕ × ℕ)) (m : Loc → K) (hn : (ws.map Prod.fst).Nodup)
    {p q : ℕ} (h : (p, q) ∈ ws) :
    runOps (ws.map fun w => Op.copy (.jac w.1) (.sjac t w.2)) m (.jac p) = m (.sjac t q) := by
  induction ws generalizing m with
  | nil => simp at h
  | cons w ws ih =>
    rw [List.map_cons, List.nodup_cons] at hn
    show runOps (ws.map fun w => Op.copy (.jac w.1) (.sjac t w.2))
      (Function.update m (.jac w.1) (m (.sjac t w.2))) (.jac p) = m (.sjac t q)
    rcases List.mem_cons.mp h with h | h
    · rw [← h] at hn ⊢
      rw [runOps_of_notMem]
      · simp
      · intro o ho
        rw [List.mem_map] at ho
        obtain ⟨w', hw', rfl⟩ := ho
        intro e
        simp only [Op.target, Loc.jac.injEq] at e
        exact hn.1 (List.mem_map.mpr ⟨w', hw', e⟩)
    · rw [ih _ hn.2 h, Function.update_of_ne (by simp)]

end

/-- Locations that are no gradient. -/
def Loc.NoGrad : Loc → Prop
  | .grad _ _ => False
  | _ => True

theorem runOps_macs [NonUnitalNonAssocSemiring K] (t : ℕ) (ws : List (ℕ × Loc × Loc)) (m : Loc → K)
    (hw : ∀ w ∈ ws, w.2.1.NoGrad ∧ w.2.2.NoGrad) (p : ℕ) :
    runOps (ws.map fun w => Op.mac (.grad t w.1) w.2.1 w.2.2) m (.grad t p) =
      m (.grad t p) + (ws.map fun w => if w.1 = p then m w.2.1 * m w.2.2 else 0).sum := by
  induction ws generalizing m with
  | nil => simp [runOps]
  | cons w ws ih =>
    show runOps (ws.map fun w => Op.mac (.grad t w.1) w.2.1 w.2.2)
      (Function.update m (.grad t w.1) (m (.grad t w.1) + m w.2.1 * m w.2.2)) (.grad t p) = _
    rw [ih _ fun w hw' => hw w (List.mem_cons_of_mem _ hw')]
    have hkeep : ∀ l : Loc, l.NoGrad →
        Function.update m (.grad t w.1) (m (.grad t w.1) + m w.2.1 * m w.2.2) l = m l := by
      intro l hl
      refine Function.update_of_ne ?_ _ _
      rintro rfl
      exact hl
    have e : (ws.map fun w' => if w'.1 = p then
        Function.update m (.grad t w.1) (m (.grad t w.1) + m w.2.1 * m w.2.2) w'.2.1 *
        Function.update m (.grad t w.1) (m (.grad t w.1) + m w.2.1 * m w.2.2) w'.2.2 else 0) =
        ws.map fun w' => if w'.1 = p then m w'.2.1 * m w'.2.2 else 0 := by
      apply List.map_congr_left
      intro w' hw'
      have := hw w' (List.mem_cons_of_mem _ hw')
      rw [hkeep _ this.1, hkeep _ this.2]
    rw [e, List.map_cons, List.sum_cons]
    by_cases h : w.1 = p
    · rw [if_pos h, h, Function.update_self, add_assoc]
    · rw [if_neg h, zero_add, Function.update_of_ne (by simpa using fun e => h e.symm)]

/-- The contribution of a block to the gradient: its part of `Jᵀ r`. -/
def gradOf [NonUnitalNonAssocSemiring K] (P : Prog) (i : ℕ) (rb : RB) (b : BlockVal K) (p : ℕ) :
    K :=
  ((List.range rb.numResiduals).map fun r =>
    denseJacobian P i r rb (fun _ => b.jac) p * b.res r).sum

theorem sum_map_comm {β γ : Type} [AddCommMonoid K] (l : List β) (l' : List γ) (f : β → γ → K) :
    (l.map fun a => (l'.map fun b => f a b).sum).sum =
      (l'.map fun b => (l.map fun a => f a b).sum).sum := by
  induction l with
  | nil => simp
  | cons a l ih =>
    simp only [List.map_cons, List.sum_cons, ih]
    rw [← List.sum_map_add]

theorem gradSum_eq [NonUnitalNonAssocSemiring K] (P : Prog) (i : ℕ) (rb : RB) (b : BlockVal K)
    (p : ℕ) :
    ((activeArgs rb).map fun q => ((List.range (P.size q.1)).map fun col =>
      ((List.range rb.numResiduals).map fun r =>
        if P.offset q.1 + col = p then b.jac q.2 (r * P.size q.1 + col) * b.res r
        else 0).sum).sum).sum = gradOf P i rb b p := by
  unfold gradOf denseJacobian
  have h1 : ∀ r, ((activeArgs rb).map fun q =>
      if P.offset q.1 ≤ p ∧ p < P.offset q.1 + P.size q.1 then
        b.jac q.2 (r * P.size q.1 + (p - P.offset q.1)) else 0).sum * b.res r =
      ((activeArgs rb).map fun q => ((List.range (P.size q.1)).map fun col =>
        if P.offset q.1 + col = p then b.jac q.2 (r * P.size q.1 + col) * b.res r
        else 0).sum).sum := by
    intro r
    rw [← List.sum_map_mul_right]
    congr 1
    apply List.map_congr_left
    intro q _
    rw [sum_range_shift (P.size q.1) (P.offset q.1) p
      (fun col => b.jac q.2 (r * P.size q.1 + col) * b.res r)]
    split
    · rfl
    · rw [zero_mul]
  simp only [h1]
  rw [sum_map_comm (List.range rb.numResiduals) (activeArgs rb)]
  congr 1
  apply List.map_congr_left
  intro q _
  exact sum_map_comm _ _ _

section
variable [NonUnitalNonAssocSemiring K]
variable {c : Config} {P : Prog} {rows : ℕ → ℕ}

theorem resLoc_inj (t i : ℕ) : Function.Injective (resLoc c P t i) := by
  intro a b h
  unfold resLoc at h
  split at h <;> simp_all

theorem jac_inj : Function.Injective Loc.jac := fun _ _ h => by simpa using h
theorem sjac_inj (t : ℕ) : Function.Injective (Loc.sjac t) := fun _ _ h => by simpa using h

theorem runOps_resOps (t i : ℕ) (rb : RB) (b : BlockVal K) (m : Loc → K)
    (h : c.wantR = true ∨ c.wantG = true) {r : ℕ} (hr : r < rb.numResiduals) :
    runOps (resOps c P t i rb b) m (resLoc c P t i r) = b.res r := by
  unfold resOps
  rw [if_pos (by simpa using h)]
  have := runOps_sets (resLoc_inj (c := c) (P := P) t i)
    ((List.range rb.numResiduals).map fun r => (r, b.res r)) m
    (by rw [List.map_map]; simpa [Function.comp_def] using List.nodup_range)
    (p := r) (v := b.res r) (List.mem_map.mpr ⟨r, List.mem_range.mpr hr, rfl⟩)
  rw [List.map_map] at this
  exact this

theorem runOps_jacOps_direct (hrows : RowsOk (K := K) c P rows) (hJ : c.wantJ = true)
    (hd : c.direct = true) (ne t : ℕ) {i : ℕ} (hi : i < P.residuals.length) (b : BlockVal K)
    (m : Loc → K) {p : ℕ} {v : K}
    (h : (p, v) ∈ prepStores P P.residuals[i] (layoutOf P ne i) b.jac) :
    runOps (jacOps c P (layoutOf P ne i) t P.residuals[i] b) m (.jac p) = v := by
  unfold jacOps
  rw [if_pos (by simp [hJ]), if_pos (by simp [hJ, hd])]
  refine runOps_sets jac_inj _ m ?_ h
  have := jacStores_nodup hrows hJ ne (fun _ => b.jac) hi
  unfold jacStores at this
  rwa [if_pos hd] at this

theorem runOps_jacOps_scratch (h : c.wantJ = true ∨ c.wantG = true)
    (hd : (c.wantJ && c.direct) = false) (layout : ℕ → ℕ) (t : ℕ) (rb : RB) (b : BlockVal K)
    (m : Loc → K) {p : ℕ} {v : K} (hp : (p, v) ∈ scratchStores P rb b.jac) :
    runOps (jacOps c P layout t rb b) m (.sjac t p) = v := by
  unfold jacOps
  rw [if_pos (by simpa using h), if_neg (by simp [hd])]
  refine runOps_sets (sjac_inj t) _ m ?_ hp
  rw [scratch_tiles]
  exact List.nodup_range

/-- The Jacobian entries as seen by the gradient. -/
theorem runOps_jacOps (hrows : RowsOk (K := K) c P rows) (h : c.wantJ = true ∨ c.wantG = true)
    (ne t : ℕ) {i : ℕ} (hi : i < P.residuals.length) (b : BlockVal K) (m : Loc → K) {bi j k : ℕ}
    (hb : (bi, j) ∈ activeArgs P.residuals[i])
    (hk : k < (P.residuals[i]).numResiduals * P.size bi) :
    runOps (jacOps c P (layoutOf P ne i) t P.residuals[i] b) m
      (jacLoc c P (layoutOf P ne i) t P.residuals[i] j k) = b.jac j k := by
  unfold jacLoc
  cases hd : (c.wantJ && c.direct) with
  | true =>
    rw [if_pos rfl]
    rw [Bool.and_eq_true] at hd
    exact runOps_jacOps_direct hrows hd.1 hd.2 ne t hi b m (mem_prepStores P _ _ hb hk)
  | false =>
    rw [if_neg (by simp)]
    exact runOps_jacOps_scratch h hd _ t _ b m (mem_scratchStores P _ hb hk)

theorem resOps_target (t i : ℕ) (rb : RB) (b : BlockVal K) {o : Op K}
    (ho : o ∈ resOps c P t i rb b) : ∃ r < rb.numResiduals, o.target = resLoc c P t i r := by
  unfold resOps at ho
  split at ho
  · rw [List.mem_map] at ho
    obtain ⟨r, hr, rfl⟩ := ho
    exact ⟨r, List.mem_range.mp hr, rfl⟩
  · simp at ho

theorem jacOps_target (layout : ℕ → ℕ) (t : ℕ) (rb : RB) (b : BlockVal K) {o : Op K}
    (ho : o ∈ jacOps c P layout t rb b) :
    (∃ p, o.target = .jac p) ∨ ∃ p, o.target = .sjac t p := by
  unfold jacOps at ho
  split at ho
  · split at ho
    · rw [List.mem_map] at ho
      obtain ⟨w, _, rfl⟩ := ho
      exact Or.inl ⟨_, rfl⟩
    · rw [List.mem_map] at ho
      obtain ⟨w, _, rfl⟩ := ho
      exact Or.inr ⟨_, rfl⟩
  · simp at ho

theorem writeOps_target (t i : ℕ) (rb : RB) {o : Op K} (ho : o ∈ writeOps c P rows t i rb) :
    (c.wantJ && !c.direct) = true ∧ ∃ p, o.target = .jac p := by
  unfold writeOps at ho
  split at ho
  · rename_i h
    rw [List.mem_map] at ho
    obtain ⟨w, _, rfl⟩ := ho
    exact ⟨h, _, rfl⟩
  · simp at ho

theorem gradOps_target (layout : ℕ → ℕ) (t i : ℕ) (rb : RB) {o : Op K}
    (ho : o ∈ gradOps c P layout t i rb) : ∃ p, o.target = .grad t p := by
  unfold gradOps at ho
  split at ho
  · simp only [List.mem_flatMap, List.mem_map, List.mem_range] at ho
    obtain ⟨q, _, col, _, r, _, rfl⟩ := ho
    exact ⟨_, rfl⟩
  · simp at ho

theorem resLoc_cases (t i r : ℕ) :
    (∃ p, resLoc c P t i r = .res p) ∨ ∃ p, resLoc c P t i r = .sres t p := by
  unfold resLoc
  split
  · exact Or.inl ⟨_, rfl⟩
  · exact Or.inr ⟨_, rfl⟩

theorem jacLoc_cases (layout : ℕ → ℕ) (t : ℕ) (rb : RB) (j k : ℕ) :
    ((c.wantJ && c.direct) = true ∧ ∃ p, jacLoc c P layout t rb j k = .jac p) ∨
      ∃ p, jacLoc c P layout t rb j k = .sjac t p := by
  unfold jacLoc
  split
  · rename_i h
    exact Or.inl ⟨h, _, rfl⟩
  · exact Or.inr ⟨_, rfl⟩

/-- Everything one successful block does to memory. -/
structure BlockEffect (c : Config) (P : Prog) (rows : ℕ → ℕ) (ne t i : ℕ) (rb : RB)
    (b : BlockVal K) (m m' : Loc → K) : Prop where
  res : c.wantR = true → ∀ r < rb.numResiduals, m' (.res (P.rowOffset i + r)) = b.res r
  jac : c.wantJ = true → ∀ w ∈ jacStores c P rows ne i rb b.jac, m' (.jac w.1) = w.2
  cost : m' (.cost t) = m (.cost t) + b.cost
  grad : ∀ p, m' (.grad t p) = m (.grad t p) + if c.wantG then gradOf P i rb b p else 0
  frame : ∀ l, ¬ Owns (K := K) c P rows ne t i rb l → m' l = m l

theorem block_effect (hrows : RowsOk (K := K) c P rows) (ne t : ℕ) {i : ℕ}
    (hi : i < P.residuals.length) (b : BlockVal K) (m : Loc → K) :
    BlockEffect c P rows ne t i P.residuals[i] b m
      (runOps (blockOps c P rows (layoutOf P ne i) t i P.residuals[i] b) m) := by
  set rb := P.residuals[i] with hrb
  set m1 := runOps (resOps c P t i rb b) m with hm1
  set m2 := runOps (jacOps c P (layoutOf P ne i) t rb b) m1 with hm2
  set m3 := runOps [Op.add (.cost t) b.cost] m2 with hm3
  set m4 := runOps (writeOps c P rows t i rb) m3 with hm4
  have hm5 : runOps (blockOps c P rows (layoutOf P ne i) t i rb b) m =
      runOps (gradOps c P (layoutOf P ne i) t i rb) m4 := by
    unfold blockOps
    simp only [runOps_append]
    rfl
  have s1 : ∀ l, (∀ r, l ≠ resLoc c P t i r) → m1 l = m l := by
    intro l hl
    refine runOps_of_notMem _ _ _ ?_
    intro o ho e
    obtain ⟨r, _, h⟩ := resOps_target t i rb b ho
    exact hl r (e.symm.trans h)
  have s2 : ∀ l, (∀ p, l ≠ .jac p) → (∀ p, l ≠ .sjac t p) → m2 l = m1 l := by
    intro l h1 h2
    refine runOps_of_notMem _ _ _ ?_
    intro o ho e
    rcases jacOps_target _ t rb b ho with ⟨p, h⟩ | ⟨p, h⟩
    · exact h1 p (e.symm.trans h)
    · exact h2 p (e.symm.trans h)
  have s3 : ∀ l, l ≠ .cost t → m3 l = m2 l := by
    intro l hl
    refine runOps_of_notMem _ _ _ ?_
    intro o ho e
    rw [List.mem_singleton] at ho
    subst ho
    exact hl e.symm
  have s4 : ∀ l, ((c.wantJ && !c.direct) = true → ∀ p, l ≠ .jac p) → m4 l = m3 l := by
    intro l hl
    refine runOps_of_notMem _ _ _ ?_
    intro o ho e
    obtain ⟨h1, p, h⟩ := writeOps_target t i rb ho
    exact hl h1 p (e.symm.trans h)
  have s5 : ∀ l, (∀ p, l ≠ .grad t p) →
      runOps (gradOps c P (layoutOf P ne i) t i rb) m4 l = m4 l := by
    intro l hl
    refine runOps_of_notMem _ _ _ ?_
    intro o ho e
    obtain ⟨p, h⟩ := gradOps_target _ t i rb ho
    exact hl p (e.symm.trans h)
  -- residuals and Jacobians as read by the gradient
  have hres4 : c.wantR = true ∨ c.wantG = true → ∀ r < rb.numResiduals,
      m4 (resLoc c P t i r) = b.res r := by
    intro h r hr
    have e : m4 (resLoc c P t i r) = m1 (resLoc c P t i r) := by
      rcases resLoc_cases (c := c) (P := P) t i r with ⟨p, e⟩ | ⟨p, e⟩ <;> rw [e]
      · rw [s4 _ (by simp), s3 _ (by simp), s2 _ (by simp) (by simp)]
      · rw [s4 _ (by simp), s3 _ (by simp), s2 _ (by simp) (by simp)]
    rw [e]
    exact runOps_resOps t i rb b m h hr
  have hjac4 : c.wantJ = true ∨ c.wantG = true → ∀ bi j k, (bi, j) ∈ activeArgs rb →
      k < rb.numResiduals * P.size bi →
      m4 (jacLoc c P (layoutOf P ne i) t rb j k) = b.jac j k := by
    intro h bi j k hb hk
    have e : m4 (jacLoc c P (layoutOf P ne i) t rb j k) =
        m2 (jacLoc c P (layoutOf P ne i) t rb j k) := by
      rcases jacLoc_cases (c := c) (P := P) (layoutOf P ne i) t rb j k with ⟨hd, p, e⟩ | ⟨p, e⟩ <;>
        rw [e]
      · rw [s4 _ (fun h' => by
          rw [Bool.and_eq_true] at hd h'
          simp [hd.2] at h'), s3 _ (by simp)]
      · rw [s4 _ (by simp), s3 _ (by simp)]
    rw [e]
    exact runOps_jacOps hrows h ne t hi b m1 hb hk
  constructor
  · intro hR r hr
    rw [hm5, s5 _ (by simp)]
    have := hres4 (Or.inl hR) r hr
    unfold resLoc at this
    rwa [if_pos hR] at this
  · rintro hJ ⟨p, v⟩ hw
    rw [hm5, s5 _ (by simp)]
    simp only
    unfold jacStores at hw
    cases hd : c.direct with
    | true =>
      rw [if_pos hd] at hw
      rw [s4 _ (by simp [hd]), s3 _ (by simp)]
      exact runOps_jacOps_direct hrows hJ hd ne t hi b m1 hw
    | false =>
      rw [hd, if_neg (by simp)] at hw
      -- find the copy
      unfold crsWrite at hw
      rw [mem_blockStores] at hw
      obtain ⟨S₁, bi, j, S₂, r, col, hS, hr, hc, hp, hv⟩ := hw
      have hmem : (p, posOf (scratchPositions P rb.numResiduals rb.args 0) j +
          (r * P.size bi + col)) ∈ crsWrite P rows i rb (fun j k =>
          posOf (scratchPositions P rb.numResiduals rb.args 0) j + k) := by
        unfold crsWrite
        rw [mem_blockStores]
        exact ⟨S₁, bi, j, S₂, r, col, hS, hr, hc, hp, rfl⟩
      have hn : ((crsWrite P rows i rb (fun j k =>
          posOf (scratchPositions P rb.numResiduals rb.args 0) j + k)).map Prod.fst).Nodup := by
        rw [crsWrite_fst P rows i rb _ b.jac]
        have := jacStores_nodup hrows hJ ne (fun _ => b.jac) hi
        unfold jacStores at this
        rwa [hd, if_neg (by simp)] at this
      have hcopy := runOps_copies t _ m3 hn hmem
      have hw4 : m4 = runOps ((crsWrite P rows i rb (fun j k =>
          posOf (scratchPositions P rb.numResiduals rb.args 0) j + k)).map
          fun w => Op.copy (.jac w.1) (.sjac t w.2)) m3 := by
        rw [hm4]
        unfold writeOps
        rw [if_pos (by simp [hJ, hd])]
      rw [hw4, hcopy, s3 _ (by simp), hv]
      have hb : (bi, j) ∈ activeArgs rb :=
        (orderedBlocks_perm rb).mem_iff.mp (by rw [hS]; simp)
      exact runOps_jacOps_scratch (Or.inl hJ) (by simp [hd]) _ t rb b m1
        (mem_scratchStores P b.jac hb (lt_mul_of_row hr hc))
  · rw [hm5, s5 _ (by simp), s4 _ (by simp)]
    have : m3 (.cost t) = m2 (.cost t) + b.cost := by
      rw [hm3]
      simp [runOps, Op.run]
    rw [this, s2 _ (by simp) (by simp), s1 _ (by
      intro r e
      rcases resLoc_cases (c := c) (P := P) t i r with ⟨p, e'⟩ | ⟨p, e'⟩ <;>
        simp [e'] at e)]
  · intro p
    rw [hm5]
    have hkeep : m4 (.grad t p) = m (.grad t p) := by
      rw [s4 _ (by simp), s3 _ (by simp), s2 _ (by simp) (by simp), s1 _ (by
        intro r e
        rcases resLoc_cases (c := c) (P := P) t i r with ⟨p, e'⟩ | ⟨p, e'⟩ <;>
          simp [e'] at e)]
    unfold gradOps
    cases hG : c.wantG with
    | false => simp [runOps, hkeep]
    | true =>
      simp only [if_true]
      have hops : ((activeArgs rb).flatMap fun q =>
          (List.range (P.size q.1)).flatMap fun col =>
          (List.range rb.numResiduals).map fun r =>
            (Op.mac (.grad t (P.offset q.1 + col))
              (jacLoc c P (layoutOf P ne i) t rb q.2 (r * P.size q.1 + col))
              (resLoc c P t i r) : Op K)) =
          (((activeArgs rb).flatMap fun q =>
          (List.range (P.size q.1)).flatMap fun col =>
          (List.range rb.numResiduals).map fun r =>
            (P.offset q.1 + col, jacLoc c P (layoutOf P ne i) t rb q.2 (r * P.size q.1 + col),
              resLoc c P t i r)).map fun w => Op.mac (.grad t w.1) w.2.1 w.2.2) := by
        simp only [List.map_flatMap, List.map_map, Function.comp_def]
      rw [hops, runOps_macs, hkeep]
      · congr 1
        rw [← gradSum_eq P i rb b p]
        rw [List.map_flatMap, List.flatMap_def, List.sum_flatten, List.map_map]
        congr 1
        apply List.map_congr_left
        rintro ⟨bi, j⟩ hq
        simp only [Function.comp_apply]
        rw [List.map_flatMap, List.flatMap_def, List.sum_flatten, List.map_map]
        congr 1
        apply List.map_congr_left
        intro col hcol
        simp only [Function.comp_apply, List.map_map]
        congr 1
        apply List.map_congr_left
        intro r hr
        simp only [Function.comp_apply]
        rw [List.mem_range] at hcol hr
        rw [hjac4 (Or.inr hG) bi j _ hq (lt_mul_of_row hr hcol), hres4 (Or.inr hG) r hr]
      · intro w hw
        simp only [List.mem_flatMap, List.mem_map, List.mem_range] at hw
        obtain ⟨q, _, col, _, r, _, rfl⟩ := hw
        constructor
        · rcases jacLoc_cases (c := c) (P := P) (layoutOf P ne i) t rb q.2
            (r * P.size q.1 + col) with ⟨_, p, e⟩ | ⟨p, e⟩ <;> simp only [e] <;> trivial
        · rcases resLoc_cases (c := c) (P := P) t i r with ⟨p, e⟩ | ⟨p, e⟩ <;>
            simp only [e] <;> trivial
  · intro l hl
    refine runOps_of_notMem _ _ _ ?_
    intro o ho e
    exact hl (blockOps_owns c P rows ne t i rb b o ho l (e ▸ o.target_mem))

/-! ### All blocks -/

theorem owns_shared_unique (hrows : RowsOk (K := K) c P rows) (ne : ℕ) {t t' i i' : ℕ}
    (hi : i < P.residuals.length) (hi' : i' < P.residuals.length) (hne : i ≠ i') :
    (∀ p, Owns (K := K) c P rows ne t i P.residuals[i] (.res p) →
      ¬ Owns (K := K) c P rows ne t' i' P.residuals[i'] (.res p)) ∧
    (∀ p, Owns (K := K) c P rows ne t i P.residuals[i] (.jac p) →
      ¬ Owns (K := K) c P rows ne t' i' P.residuals[i'] (.jac p)) := by
  constructor
  · rintro p ⟨_, r, hr, e⟩ ⟨_, r', hr', e'⟩
    exact hne (row_owner P hi hi' hr hr' (e ▸ e')).1
  · rintro p h h'
    exact jacStores_disjoint hrows h.1 ne (fun _ _ _ => (0 : K)) hi hi' hne p h.2 h'.2

/-- Running blocks one after the other. -/
theorem serial_effect (hrows : RowsOk (K := K) c P rows) (ne : ℕ) (bv : ℕ → BlockVal K)
    (F : ℕ → ℕ → List (Op K))
    (hF : ∀ t i (hi : i < P.residuals.length),
      F t i = blockOps c P rows (layoutOf P ne i) t i P.residuals[i] (bv i))
    (S : List (ℕ × ℕ)) (hn : (S.map Prod.snd).Nodup)
    (hlt : ∀ q ∈ S, q.2 < P.residuals.length) (m : Loc → K) :
    (c.wantR = true → ∀ q (hq : q ∈ S), ∀ r < (P.residuals[q.2]'(hlt q hq)).numResiduals,
      runOps (S.flatMap fun q => F q.1 q.2) m (.res (P.rowOffset q.2 + r)) = (bv q.2).res r) ∧
    (c.wantJ = true → ∀ q (hq : q ∈ S),
      ∀ w ∈ jacStores c P rows ne q.2 (P.residuals[q.2]'(hlt q hq)) (bv q.2).jac,
      runOps (S.flatMap fun q => F q.1 q.2) m (.jac w.1) = w.2) ∧
    (∀ t, runOps (S.flatMap fun q => F q.1 q.2) m (.cost t) = m (.cost t) +
      (S.map fun q => if q.1 = t then (bv q.2).cost else 0).sum) ∧
    (∀ t p, runOps (S.flatMap fun q => F q.1 q.2) m (.grad t p) = m (.grad t p) +
      (S.map fun q => if q.1 = t then
        (if c.wantG then gradOf P q.2 (P.residuals.getD q.2 ⟨0, []⟩) (bv q.2) p else 0)
        else 0).sum) ∧
    (∀ l, (∀ q (hq : q ∈ S),
      ¬ Owns (K := K) c P rows ne q.1 q.2 (P.residuals[q.2]'(hlt q hq)) l) →
      runOps (S.flatMap fun q => F q.1 q.2) m l = m l) := by
  induction S generalizing m with
  | nil =>
    refine ⟨fun _ q hq => absurd hq (by simp), fun _ q hq => absurd hq (by simp), ?_, ?_, ?_⟩
    · intro t; simp [runOps]
    · intro t p; simp [runOps]
    · intro l _; rfl
  | cons a S ih =>
    obtain ⟨t0, i0⟩ := a
    rw [List.map_cons, List.nodup_cons] at hn
    have hi0 : i0 < P.residuals.length := hlt (t0, i0) (by simp)
    have hlt' : ∀ q ∈ S, q.2 < P.residuals.length := fun q hq => hlt q (List.mem_cons_of_mem _ hq)
    have eff := block_effect hrows ne t0 hi0 (bv i0) m
    have hrun : runOps (((t0, i0) :: S).flatMap fun q => F q.1 q.2) m =
        runOps (S.flatMap fun q => F q.1 q.2)
          (runOps (blockOps c P rows (layoutOf P ne i0) t0 i0 P.residuals[i0] (bv i0)) m) := by
      rw [List.flatMap_cons, runOps_append]
      simp only [hF t0 i0 hi0]
    obtain ⟨h1, h2, h3, h4, h5⟩ := ih hn.2 hlt'
      (runOps (blockOps c P rows (layoutOf P ne i0) t0 i0 P.residuals[i0] (bv i0)) m)
    have hne : ∀ q ∈ S, i0 ≠ q.2 := fun q hq e => hn.1 (List.mem_map.mpr ⟨q, hq, e.symm⟩)
    rw [hrun]
    refine ⟨?_, ?_, ?_, ?_, ?_⟩
    · intro hR q hq r hr
      rcases List.mem_cons.mp hq with e | hq'
      · subst e
        simp only at hr ⊢
        rw [h5 (.res (P.rowOffset i0 + r)) fun q hq' =>
          (owns_shared_unique hrows ne hi0 (hlt' q hq') (hne q hq') (t := t0) (t' := q.1)).1 _
            ⟨hR, r, hr, rfl⟩]
        exact eff.res hR r hr
      · exact h1 hR q hq' r hr
    · intro hJ q hq w hw
      rcases List.mem_cons.mp hq with e | hq'
      · subst e
        simp only at hw
        rw [h5 (.jac w.1) fun q hq' =>
          (owns_shared_unique hrows ne hi0 (hlt' q hq') (hne q hq') (t := t0) (t' := q.1)).2 _
            ⟨hJ, by
              rw [jacStores_fst c P rows ne i0 _ _ (bv i0).jac]
              exact List.mem_map_of_mem hw⟩]
        exact eff.jac hJ w hw
      · exact h2 hJ q hq' w hw
    · intro t
      rw [h3 t, List.map_cons, List.sum_cons]
      simp only
      by_cases ht : t0 = t
      · subst ht
        rw [eff.cost, if_pos rfl, add_assoc]
      · rw [eff.frame (.cost t) (fun h => ht (Eq.symm (h : t = t0))), if_neg ht, zero_add]
    · intro t p
      rw [h4 t p, List.map_cons, List.sum_cons]
      simp only
      by_cases ht : t0 = t
      · subst ht
        rw [eff.grad, if_pos rfl, getD_residuals hi0, add_assoc]
      · rw [eff.frame (.grad t p) (fun h => ht (Eq.symm (h : t = t0))), if_neg ht, zero_add]
    · intro l hl
      rw [h5 l fun q hq => hl q (List.mem_cons_of_mem _ hq),
        eff.frame l (hl (t0, i0) (by simp))]

theorem sum_threads {T : ℕ} (S : List (ℕ × ℕ)) (hS : ∀ q ∈ S, q.1 < T) (f : ℕ → K) :
    ((List.range T).map fun t => (S.map fun q => if q.1 = t then f q.2 else 0).sum).sum =
      (S.map fun q => f q.2).sum := by
  rw [sum_map_comm]
  congr 1
  apply List.map_congr_left
  intro q hq
  have := sum_range_shift T 0 q.1 (fun _ => f q.2)
  simp only [Nat.zero_add] at this
  rw [if_pos ⟨by omega, hS q hq⟩] at this
  refine Eq.trans ?_ this
  congr 1
  apply List.map_congr_left
  intro t _
  by_cases h : q.1 = t
  · rw [if_pos h, if_pos h.symm]
  · rw [if_neg h, if_neg fun e => h e.symm]

/-! ### Main theorems -/

/-- **C09.** `Evaluate` reports failure exactly if some residual block fails, whatever the number
of threads and the schedule. -/
theorem evaluate_fails_iff (ne threads : ℕ) (bv : ℕ → BlockVal K)
    (garbage : ℕ → ℕ → List (Op K)) {m : Loc → K} {s : St K}
    (h : Reach (evalTasks c P rows ne threads bv garbage)
      (St.init (evalTasks c P rows ne threads bv garbage) m) s)
    (hf : s.Final (evalTasks c P rows ne threads bv garbage)) :
    evalResult threads s = none ↔ ∃ i < P.residuals.length, (bv i).ok = false := by
  have := abort_iff h hf
  unfold evalResult
  constructor
  · intro h1
    have hab : s.abort = true := by
      cases hs : s.abort with
      | true => rfl
      | false => rw [hs] at h1; simp at h1
    obtain ⟨i, hi, hb⟩ := this.mp hab
    exact ⟨i, hi, by simpa [evalTasks] using hb⟩
  · rintro ⟨i, hi, hb⟩
    rw [this.mpr ⟨i, hi, by simp [evalTasks, hb]⟩]
    rfl

/-- **C09.** If all residual blocks can be evaluated then, whatever the number of threads, the
assignment of blocks to threads and the interleaving of their operations: the cost is the sum of
the costs of the blocks, the gradient is `Jᵀ r`, every residual is where the layout says, and
every store of the Jacobian writer has taken effect. -/
theorem evaluate_correct (hrows : RowsOk (K := K) c P rows) (ne threads : ℕ)
    (bv : ℕ → BlockVal K) (garbage : ℕ → ℕ → List (Op K))
    (hok : ∀ i < P.residuals.length, (bv i).ok = true) {m : Loc → K} (hm : InitMem m) {s : St K}
    (h : Reach (evalTasks c P rows ne threads bv garbage)
      (St.init (evalTasks c P rows ne threads bv garbage) m) s)
    (hf : s.Final (evalTasks c P rows ne threads bv garbage)) :
    evalResult threads s = some
      (((List.range P.residuals.length).map fun i => (bv i).cost).sum,
       fun p => if c.wantG then ((List.range P.residuals.length).map fun i =>
        gradOf P i (P.residuals.getD i ⟨0, []⟩) (bv i) p).sum else 0) ∧
    (c.wantR = true → ∀ (i : ℕ) (hi : i < P.residuals.length),
      ∀ r < (P.residuals[i]).numResiduals, s.mem (.res (P.rowOffset i + r)) = (bv i).res r) ∧
    (c.wantJ = true → (fun p => s.mem (.jac p)) =
      exec (allJacStores c P rows ne fun i => (bv i).jac) fun _ => 0) := by
  obtain ⟨S, hS, hT, hmem⟩ := serializable (evalTasks_disjoint hrows ne threads bv garbage hok)
    (fun i hi => by simp [evalTasks, hok i hi]) h hf
  have hT : ∀ q ∈ S, q.1 < threads := hT
  have hSn : (S.map Prod.snd).Nodup := hS.nodup_iff.mpr List.nodup_range
  have hlt : ∀ q ∈ S, q.2 < P.residuals.length := fun q hq =>
    List.mem_range.mp (hS.mem_iff.mp (List.mem_map_of_mem hq))
  have hab : s.abort = false := by
    cases hs : s.abort with
    | false => rfl
    | true =>
      obtain ⟨i, hi, hb⟩ := (abort_iff h hf).mp hs
      have hi' : i < P.residuals.length := hi
      simp [evalTasks, hok i hi'] at hb
  obtain ⟨h1, h2, h3, h4, h5⟩ := serial_effect hrows ne bv
    (evalTasks c P rows ne threads bv garbage).ops
    (fun t i hi => by simp only [evalTasks, hok i hi, if_true, getD_residuals hi]) S hSn hlt m
  rw [← hmem] at h1 h2 h3 h4 h5
  have hfind : ∀ i < P.residuals.length, ∃ t, (t, i) ∈ S := by
    intro i hi
    have : i ∈ S.map Prod.snd := hS.mem_iff.mpr (List.mem_range.mpr hi)
    obtain ⟨⟨t, i'⟩, hq, rfl⟩ := List.mem_map.mp this
    exact ⟨t, hq⟩
  refine ⟨?_, ?_, ?_⟩
  · unfold evalResult
    rw [hab]
    simp only [Bool.false_eq_true, if_false, Option.some.injEq, Prod.mk.injEq]
    constructor
    · have : ((List.range threads).map fun t => s.mem (.cost t)) =
          (List.range threads).map fun t =>
            (S.map fun q => if q.1 = t then (bv q.2).cost else 0).sum := by
        apply List.map_congr_left
        intro t _
        rw [h3 t, hm.2.2.1 t, zero_add]
      rw [this, sum_threads S hT (fun i => (bv i).cost)]
      have := (hS.map fun i => (bv i).cost).sum_eq
      rw [List.map_map] at this
      exact this
    · funext p
      have : ((List.range threads).map fun t => s.mem (.grad t p)) =
          (List.range threads).map fun t =>
            (S.map fun q => if q.1 = t then
              (fun i => if c.wantG then gradOf P i (P.residuals.getD i ⟨0, []⟩) (bv i) p else 0)
                q.2 else 0).sum := by
        apply List.map_congr_left
        intro t _
        rw [h4 t p, hm.2.2.2 t p, zero_add]
      rw [this, sum_threads S hT (fun i => if c.wantG then
        gradOf P i (P.residuals.getD i ⟨0, []⟩) (bv i) p else 0)]
      have := (hS.map fun i => if c.wantG then
        gradOf P i (P.residuals.getD i ⟨0, []⟩) (bv i) p else 0).sum_eq
      rw [List.map_map] at this
      refine Eq.trans this ?_
      cases c.wantG with
      | true => rfl
      | false => simp [evalTasks]
  · intro hR i hi r hr
    obtain ⟨t, ht⟩ := hfind i hi
    exact h1 hR (t, i) ht r hr
  · intro hJ
    have hnod := allJacStores_nodup hrows hJ ne fun i => (bv i).jac
    funext p
    by_cases hp : p ∈ (allJacStores c P rows ne fun i => (bv i).jac).map Prod.fst
    · obtain ⟨⟨p', v⟩, hw, rfl⟩ := List.mem_map.mp hp
      rw [exec_of_mem _ _ _ _ hnod hw]
      unfold allJacStores at hw
      rw [List.mem_flatMap] at hw
      obtain ⟨⟨rb, i⟩, hrb, hw⟩ := hw
      rw [List.mk_mem_zipIdx_iff_getElem?, List.getElem?_eq_some_iff] at hrb
      obtain ⟨hi, rfl⟩ := hrb
      obtain ⟨t, ht⟩ := hfind i hi
      exact h2 hJ (t, i) ht (p', v) hw
    · rw [exec_of_notMem _ _ _ hp, h5, hm.2.1]
      rintro ⟨t, i⟩ hq ⟨_, ho⟩
      apply hp
      have hi : i < P.residuals.length := hlt (t, i) hq
      simp only at ho
      rw [jacStores_fst c P rows ne i _ _ (bv i).jac] at ho
      obtain ⟨w, hw, rfl⟩ := List.mem_map.mp ho
      refine List.mem_map.mpr ⟨w, ?_, rfl⟩
      unfold allJacStores
      rw [List.mem_flatMap]
      exact ⟨(P.residuals[i], i), by
        rw [List.mk_mem_zipIdx_iff_getElem?]; exact List.getElem?_eq_getElem hi, hw⟩

/-- **C09 with C10.** With the compressed row writer, the Jacobian after a successful evaluation
is the Jacobian of the program. -/
theorem evaluate_crs {M : CRS K} (hM : createJacobian P = some M) (ne threads : ℕ)
    (bv : ℕ → BlockVal K) (garbage : ℕ → ℕ → List (Op K)) (hJ : c.wantJ = true)
    (hd : c.direct = false)
    (hok : ∀ i < P.residuals.length, (bv i).ok = true) {m : Loc → K} (hm : InitMem m) {s : St K}
    (h : Reach (evalTasks c P M.rows ne threads bv garbage)
      (St.init (evalTasks c P M.rows ne threads bv garbage) m) s)
    (hf : s.Final (evalTasks c P M.rows ne threads bv garbage))
    {i : ℕ} (hi : i < P.residuals.length) {r : ℕ} (hr : r < (P.residuals[i]).numResiduals)
    (C : ℕ) :
    CRS.entry ⟨M.rows, M.cols, fun p => s.mem (.jac p)⟩ (P.rowOffset i + r) C =
      denseJacobian P i r P.residuals[i] (fun i => (bv i).jac) C := by
  have hrows : RowsOk (K := K) c P M.rows := fun _ _ => ⟨M, hM, rfl⟩
  obtain ⟨_, _, h3⟩ := evaluate_correct hrows ne threads bv garbage hok hm h hf
  rw [h3 hJ]
  have hvals : M.values = fun _ => 0 := by
    unfold createJacobian at hM
    obtain ⟨x, _, hx⟩ := Option.map_eq_some_iff.mp hM
    rw [← hx]
  have e : allJacStores c P M.rows ne (fun i => (bv i).jac) =
      allStores P M.rows fun i => (bv i).jac := by
    unfold allJacStores allStores jacStores
    rw [hd]
    rfl
  have := crs_entry hM (fun i => (bv i).jac) (List.Perm.refl _) hi hr C
  rw [hvals] at this
  rw [e]
  exact this

/-- **C09 with C10.** With the block sparse writer, the Jacobian after a successful evaluation is
the Jacobian of the program. -/
theorem evaluate_bsm (ne threads : ℕ) (bv : ℕ → BlockVal K) (garbage : ℕ → ℕ → List (Op K))
    (hJ : c.wantJ = true) (hd : c.direct = true)
    (hok : ∀ i < P.residuals.length, (bv i).ok = true) {m : Loc → K} (hm : InitMem m) {s : St K}
    (h : Reach (evalTasks c P rows ne threads bv garbage)
      (St.init (evalTasks c P rows ne threads bv garbage) m) s)
    (hf : s.Final (evalTasks c P rows ne threads bv garbage))
    {i : ℕ} (hi : i < P.residuals.length) {r : ℕ} (hr : r < (P.residuals[i]).numResiduals)
    (C : ℕ) :
    bsmEntry P ne i r P.residuals[i] (fun p => s.mem (.jac p)) C =
      denseJacobian P i r P.residuals[i] (fun i => (bv i).jac) C := by
  have hrows : RowsOk (K := K) c P rows := fun h' => by rw [hd] at h'; cases h'
  obtain ⟨_, _, h3⟩ := evaluate_correct hrows ne threads bv garbage hok hm h hf
  rw [h3 hJ]
  have e : allJacStores c P rows ne (fun i => (bv i).jac) =
      allBlockStores P ne fun i => (bv i).jac := by
    unfold allJacStores allBlockStores jacStores
    rw [hd]
    rfl
  rw [e]
  exact bsm_entry P ne _ (List.Perm.refl _) _ hi hr C

end

/-! ### The hypotheses can be met -/

/-- A final state is reachable from every state with at least one thread: run until nothing
is left. -/
theorem exists_final [Add K] [Mul K] {E : Tasks K} (hT : 0 < E.threads) (s₀ : St K) :
    ∃ s, Reach E s₀ s ∧ s.Final E := by
  have key : ∀ n (s : St K), s.weight E = n → Reach E s₀ s → ∃ s', Reach E s₀ s' ∧ s'.Final E := by
    intro n
    induction n using Nat.strong_induction_on with
    | _ n ih =>
      intro s hs hr
      by_cases hf : s.Final E
      · exact ⟨s, hr, hf⟩
      · obtain ⟨s', hstep⟩ := progress hT s hf
        exact ih (s'.weight E) (hs ▸ step_weight hstep) s' rfl (Reach.tail s s' hr hstep)
  exact key _ s₀ rfl Reach.refl

example : InitMem (K := ℤ) fun l => match l with
    | .sres _ _ => 7
    | .sjac _ _ => -3
    | _ => 0 := ⟨fun _ => rfl, fun _ => rfl, fun _ => rfl, fun _ _ => rfl⟩

/-- What the blocks of the example evaluate to. -/
def exampleVals (i : ℕ) : BlockVal ℤ := ⟨true, i, fun r => r, fun j k => j + k⟩

/-- The example program evaluated on two threads with everything requested: a run exists, and its
result is the serial one. -/
example : ∃ s : St ℤ,
    Reach (evalTasks ⟨true, true, true, true⟩ exampleProg (fun _ => 0) 1 2 exampleVals
      fun _ _ => [])
      (St.init (evalTasks ⟨true, true, true, true⟩ exampleProg (fun _ => 0) 1 2 exampleVals
        fun _ _ => []) fun _ => 0) s ∧
    (evalResult 2 s).map Prod.fst = some 1 := by
  obtain ⟨s, hr, hf⟩ := exists_final (E := evalTasks ⟨true, true, true, true⟩ exampleProg
    (fun _ => 0) 1 2 exampleVals fun _ _ => [])
    (by simp [evalTasks]) (St.init _ fun _ => 0)
  refine ⟨s, hr, ?_⟩
  obtain ⟨h, _⟩ := evaluate_correct (K := ℤ) (fun h => by simp at h) 1 2 _ _ (fun _ _ => rfl)
    ⟨fun _ => rfl, fun _ => rfl, fun _ => rfl, fun _ _ => rfl⟩ hr hf
  rw [h]
  rfl

end Ceres.Evaluator
