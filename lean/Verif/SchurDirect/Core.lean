import Verif.SchurDirect.Layout
import Verif.SchurThreads.Props

/-!
# The solver, given a good reduced solver
-/

noncomputable section

namespace Ceres.SchurDirect

open Matrix Ceres.BlockSparse Ceres.InnerProduct Ceres.Direct Ceres.Schur Ceres.SchurThreads

variable {bs : BS} {ne : ℕ}

/-! ## The eliminator -/

theorem update_ne {s n : ℤ} (h : s ≠ 0 ∨ n ≠ 0) : Detect.update s n ≠ 0 := by
  unfold Detect.update
  split_ifs with h1 h2
  · exact h.resolve_left (by simpa using h1)
  · decide
  · exact h1

theorem loop_ne (cols : ℕ → ℤ) (ne : ℕ) (rows : List Detect.Row) (s : Detect.Sizes) (h1 : s.row ≠ 0)
    (h2 : s.e ≠ 0) : (Detect.loop cols ne rows s).row ≠ 0 ∧ (Detect.loop cols ne rows s).e ≠ 0 := by
  induction rows generalizing s with
  | nil => exact ⟨h1, h2⟩
  | cons r rs ih =>
    unfold Detect.loop
    split
    · exact ⟨h1, h2⟩
    · split_ifs
      · exact ⟨h1, h2⟩
      · dsimp only
        split_ifs
        · exact ⟨update_ne (.inl h1), update_ne (.inl h2)⟩
        · exact ih _ (update_ne (.inl h1)) (update_ne (.inl h2))

/-- No `CHECK` fails. -/
theorem eliminator_some {call : Call} (h : Fits ne bs call) : ∃ el, eliminatorOf bs ne = some el := by
  obtain ⟨r, hr, c, hc, hlt⟩ := h.first
  have hids : ∀ r ∈ bs.rows, ∀ c ∈ r.cells, c.blockId < bs.cols.length := by
    have := h.ok.bs.ids
    rw [h.structure_] at this
    exact this
  have key : (Detect.loop (shape bs).cols ne (shape bs).rows ⟨0, 0, 0⟩).row ≠ 0 ∧
      (Detect.loop (shape bs).cols ne (shape bs).rows ⟨0, 0, 0⟩).e ≠ 0 := by
    cases hrows : bs.rows with
    | nil => rw [hrows] at hr; exact absurd hr (by simp)
    | cons R rs =>
      rw [hrows] at hr
      obtain rfl : R = r := by simpa using hr
      have hmem : R ∈ bs.rows := by rw [hrows]; simp
      have hsize := h.rows R hmem
      cases hcs : R.cells with
      | nil => exact absurd hcs (h.ordered.nonempty R hmem)
      | cons d ds =>
        have hd : d.blockId < ne := by
          have hs := h.ordered.sorted R hmem
          rw [hcs] at hs hc
          rcases List.mem_cons.1 hc with rfl | hc
          · exact hlt
          · have := (List.pairwise_cons.1 hs).1 c.blockId (List.mem_map_of_mem hc)
            exact this.trans hlt
        have hdl : d.blockId < bs.cols.length := hids R hmem d (by rw [hcs]; simp)
        have hdz : 0 < (bs.col d.blockId).size := h.cols _ (List.mem_of_getElem? (col_getElem hdl))
        have hrow : (shape bs).rows = ⟨R.block.size, d.blockId :: ds.map Cell.blockId⟩ ::
            rs.map fun r => ⟨r.block.size, r.cells.map Cell.blockId⟩ := by
          unfold shape
          rw [hrows, List.map_cons, hcs, List.map_cons]
        have u1 : Detect.update 0 ((R.block.size : ℕ) : ℤ) ≠ 0 := update_ne (.inr (by omega))
        have u2 : Detect.update 0 ((shape bs).cols d.blockId) ≠ 0 := update_ne (.inr (by unfold shape; simp only; omega))
        rw [hrow]
        unfold Detect.loop
        simp only
        rw [if_neg (by omega)]
        split_ifs
        · exact ⟨u1, u2⟩
        · exact loop_ne _ _ _ _ u1 u2
  unfold eliminatorOf Detect.chooseEliminator Detect.detectStructure
  simp only
  rw [if_pos key]
  exact ⟨_, rfl⟩

theorem one_cols {t : Detect.Sizes} (h : eliminatorOf bs ne = some (.oneFBlock t)) :
    bs.cols.length = ne + 1 := by
  unfold eliminatorOf Detect.chooseEliminator at h
  cases hs : Detect.detectStructure (shape bs) ne with
  | none => rw [hs] at h; exact absurd h (by simp)
  | some s =>
    rw [hs] at h
    simp only [Option.map_some, Option.some.injEq] at h
    split_ifs at h with hh
    · omega

/-- How the eliminator inverts the matrices of the chunks. -/
def invOf (inv : Inverter) (bs : BS) (ne : ℕ) : Inverter :=
  match eliminatorOf bs ne with
  | some (.oneFBlock _) => exactInv
  | _ => inv

theorem invOf_fullRank {inv : Inverter} (h : InvertsFullRank inv) : InvertsFullRank (invOf inv bs ne) := by
  unfold invOf
  split
  · exact exactInv_fullRank
  · exact h

theorem sym_stored {has : ℕ → ℕ → Bool} (m : SchurThreads.Mem) {x y : ℕ} (hxy : x ≤ y) (h : has x y = true)
    (i : Fin (szOf bs x)) (j : Fin (szOf bs y)) : (lhsOf has m : Lhs (szOf bs)).sym x y i j = m (.lhs x y i j) := by
  unfold Lhs.sym
  rw [if_pos hxy, if_pos (show (lhsOf has m : Lhs (szOf bs)).has x y = true from h)]
  rfl

theorem sym_absent {has : ℕ → ℕ → Bool} (m : SchurThreads.Mem) {x y : ℕ} (hxy : x ≤ y) (h : has x y = false)
    (i : Fin (szOf bs x)) (j : Fin (szOf bs y)) : (lhsOf has m : Lhs (szOf bs)).sym x y i j = 0 := by
  unfold Lhs.sym
  rw [if_pos hxy, if_neg (show ¬ (lhsOf has m : Lhs (szOf bs)).has x y = true by simp [lhsOf, h])]
  rfl

section Elim

variable {inv : Inverter} {has : ℕ → ℕ → Bool} {rows : List (Schur.Row (szOf bs))}
  {D : Option (BVec (szOf bs))} {threads : ℕ} {m : SchurThreads.Mem} {o : Option SchurThreads.Mem}

theorem eliminates_result (ho : Ordered ne bs.cols.length rows)
    (hi : ∀ ch ∈ (detectChunks ne rows).1, Inverts (invOf inv bs ne) (eteOf D ch))
    (ht : 0 < threads) (hel : ∃ el, eliminatorOf bs ne = some el)
    (hcov : ∀ inv, Covers inv ne bs.cols.length rows D has)
    (hdiag : ∀ x, ne ≤ x → x < bs.cols.length → has x x = true)
    (h : Eliminates inv bs ne has rows D threads (fillSol m) o) :
    ∃ m1, o = some m1 ∧
      (∀ x y, ne ≤ x → x < bs.cols.length → ne ≤ y → y < bs.cols.length →
        (lhsOf has m1).sym x y = schurLhs (invOf inv bs ne) ne rows D x y) ∧
      (∀ x, ne ≤ x → x < bs.cols.length → rhsOf m1 x = schurRhs (invOf inv bs ne) ne rows D x) ∧
      ∀ b i, m1 (.sol b i) = 0 := by
  cases h with
  | aborts h => obtain ⟨el, he⟩ := hel; rw [h] at he; exact nomatch he
  | general t o he h =>
    have hinv : invOf inv bs ne = inv := by unfold invOf; rw [he]
    rw [hinv] at hi ⊢
    obtain ⟨m1, h1, h2, h3⟩ := eliminate_threads ht h
    refine ⟨m1, h1, fun x y hx hx' hy hy' => ?_, fun x _ _ => ?_, h3⟩
    · rw [← eliminate_sym ho hi (hcov inv) (List.Perm.refl _) hx hx' hy hy', ← h2]
    · rw [← (eliminate_spec inv ne bs.cols.length has rows D _ (List.Perm.refl _) ho.sorted).2.2 x, ← h2]
  | one t he =>
    have hinv : invOf inv bs ne = exactInv := by unfold invOf; rw [he]
    rw [hinv] at hi ⊢
    have hlen := one_cols he
    rw [hlen] at ho
    have hsp := oneEliminate_spec (D := D) ho
    refine ⟨_, rfl, fun x y hx hx' hy hy' => ?_, fun x hx hx' => ?_, fun _ _ => rfl⟩
    · obtain rfl : x = ne := by omega
      obtain rfl : y = x := by omega
      ext i j
      rw [sym_stored _ le_rfl (hdiag y hx hx')]
      refine Eq.trans (dif_pos (c := y = y ∧ y = y ∧ (i : ℕ) < szOf bs y ∧ (j : ℕ) < szOf bs y)
        ⟨rfl, rfl, i.2, j.2⟩) ?_
      rw [hsp]
    · obtain rfl : x = ne := by omega
      funext i
      refine Eq.trans (dif_pos (c := x = x ∧ (i : ℕ) < szOf bs x) ⟨rfl, i.2⟩) ?_
      rw [hsp]

theorem stored (z : BVec (szOf bs)) {m1 : SchurThreads.Mem} (hm : ∀ b i, m1 (.sol b i) = 0) :
    (solOf (storeReduced ne z m1) : BVec (szOf bs)) = fun b => if ne ≤ b then z b else 0 := by
  funext b i
  unfold solOf
  simp only [storeReduced]
  by_cases hb : ne ≤ b
  · rw [dif_pos ⟨hb, i.2⟩, if_pos hb]
  · rw [dif_neg (fun h => hb h.1), if_neg hb, hm]
    rfl

theorem back_result (ho : Ordered ne bs.cols.length rows) (ht : 0 < threads) (z : BVec (szOf bs))
    {m1 : SchurThreads.Mem} (hm : ∀ b i, m1 (.sol b i) = 0)
    (h : BackSubstitutes inv bs ne rows D threads (storeReduced ne z m1) o) :
    ∃ m2, o = some m2 ∧
      (∀ b, ne ≤ b → b < bs.cols.length → (solOf m2 : BVec (szOf bs)) b = z b) ∧
      (∀ ch ∈ (detectChunks ne rows).1, (solOf m2 : BVec (szOf bs)) ch.1 =
        invOf inv bs ne _ (eteOf D ch) *ᵥ backRhs ch (solOf m2)) ∧
      (∀ b, b < ne → b ∉ (detectChunks ne rows).1.map Prod.fst → (solOf m2 : BVec (szOf bs)) b = 0) := by
  cases h with
  | general t o he h =>
    have hinv : invOf inv bs ne = inv := by unfold invOf; rw [he]
    obtain ⟨m2, h1, h2, -⟩ := back_threads ho ht h
    rw [stored z hm] at h2
    obtain ⟨k1, k2, k3⟩ := completed_spec (inv := inv) (D := D) ho (List.Perm.refl _) z
    have e : (solOf m2 : BVec (szOf bs)) = completed inv ne D (detectChunks ne rows).1 z := h2
    rw [hinv]
    refine ⟨m2, h1, ?_⟩
    rw [e]
    exact ⟨fun b hb _ => k1 b hb, k2, k3⟩
  | one t he =>
    have hinv : invOf inv bs ne = exactInv := by unfold invOf; rw [he]
    have hlen := one_cols he
    rw [hinv]
    have e0 : (solOf (storeReduced ne z m1) : BVec (szOf bs)) = Function.update (fun _ => 0) ne (z ne) := by
      rw [stored z hm]
      funext b i
      rcases lt_trichotomy b ne with hb | rfl | hb
      · rw [if_neg (by omega), Function.update_of_ne (by omega)]
      · rw [if_pos le_rfl, Function.update_self]
      · have h1 : (i : ℕ) < szOf bs b := i.2
        have h2 := szOf_out (bs := bs) (b := b) (by omega)
        omega
    have ez : (solOf (storeReduced ne z m1) : BVec (szOf bs)) ne = z ne := by
      rw [e0, Function.update_self]
    have e : (solOf (oneBackSubstituted bs ne rows D (storeReduced ne z m1)) : BVec (szOf bs)) =
        oneBackSubstitute ne rows D (z ne) (Function.update (fun _ => 0) ne (z ne)) := by
      funext b i
      show oneBackSubstituted bs ne rows D (storeReduced ne z m1) (.sol b i) = _
      simp only [oneBackSubstituted]
      rw [dif_pos i.2, ez, e0]
    have ho' := ho
    rw [hlen] at ho'
    obtain ⟨k1, k2, k3⟩ := oneBackSubstitute_spec (D := D) ho' (z ne)
    refine ⟨_, rfl, ?_⟩
    rw [e]
    refine ⟨fun b hb hb' => ?_, k2, k3⟩
    obtain rfl : b = ne := by omega
    exact k1

end Elim

/-! ## Flat arrays with given contents -/

theorem exists_f {α : Type} [Inhabited α] (w : (b : ℕ) → Fin (szOf bs b) → α) :
    ∃ r : ℕ → α, ∀ b, ne ≤ b → b < bs.cols.length → ∀ i : Fin (szOf bs b), r (fPos bs ne b + i) = w b i := by
  refine ⟨fun p => if h : p - fPos bs ne (ne + blockOf (tail bs.cols ne) p) <
    szOf bs (ne + blockOf (tail bs.cols ne) p) then w (ne + blockOf (tail bs.cols ne) p) ⟨_, h⟩ else default, ?_⟩
  intro b h1 h2 i
  have e : ne + blockOf (tail bs.cols ne) (fPos bs ne b + i) = b := by
    have := blockOf_eq (tail_laid bs ne) (tail_get h1 h2) (r := fPos bs ne b + i) (by simp)
      (by have := i.2; simpa using this)
    omega
  have : ∀ b', b' = b → ∀ q, q = fPos bs ne b + ↑i →
      (if h : q - fPos bs ne b' < szOf bs b' then w b' ⟨_, h⟩ else default) = w b i := by
    rintro b' rfl q rfl
    rw [dif_pos (by have := i.2; omega)]
    congr 1
    apply Fin.ext
    simp
  exact this _ e _ rfl

theorem exists_buf (B : (x y : ℕ) → Matrix (Fin (szOf bs x)) (Fin (szOf bs y)) ℝ) :
    ∃ H : Buf, ∀ x y, ne ≤ x → x < bs.cols.length → ne ≤ y → y < bs.cols.length →
      ∀ (i : Fin (szOf bs x)) (j : Fin (szOf bs y)), H (fPos bs ne x + i) (fPos bs ne y + j) = B x y i j := by
  have h1 : ∀ x (i : Fin (szOf bs x)), ∃ r : Vec, ∀ y, ne ≤ y → y < bs.cols.length → ∀ j : Fin (szOf bs y),
      r (fPos bs ne y + j) = B x y i j := fun x i => exists_f fun y j => B x y i j
  choose r hr using h1
  obtain ⟨H, hH⟩ := exists_f (bs := bs) (ne := ne) r
  refine ⟨H, fun x y hx hx' hy hy' i j => ?_⟩
  rw [hH x hx hx' i, hr x i y hy hy' j]

/-! ## The solver -/

/-- What is asked of the storage. -/
structure Storage.Fine (S : Storage) (bs : BS) (ne : ℕ) : Prop where
  blocks : S.blocks = tail bs.cols ne
  cols : S.cols = fCols bs ne
  diag : ∀ x, ne ≤ x → x < bs.cols.length → S.has ne x x = true
  covers : ∀ values b D inv, Covers inv ne bs.cols.length (rowsOf bs values b) D (S.has ne)

/-- What is asked of the reduced solver: it solves the symmetric system of which the storage has the upper
triangle. -/
def ReducedOk {σ : Type} (S : Storage) (bs : BS) (ne : ℕ) (reduced : Vec → Vec → Option (Bool × Vec × σ))
    (P : σ → Prop) : Prop :=
  ∀ v r H, (∀ p < fCols bs ne, ∀ q < fCols bs ne, H p q = H q p) →
    (∀ x y, ne ≤ x → x ≤ y → y < bs.cols.length → ∀ i < szOf bs x, ∀ j < szOf bs y,
      H (fPos bs ne x + i) (fPos bs ne y + j) = (S.cell (x - ne) (y - ne)).elim 0 fun c => v (c.address i j)) →
    ∃ ok z s, reduced v r = some (ok, z, s) ∧ (ok = true → Eqs (fCols bs ne) H z r) ∧
      (PosDef (fCols bs ne) H → ok = true) ∧ P s

section Solve

variable {σ : Type} {inv : Inverter} {S : Storage} {reduced : Vec → Vec → Option (Bool × Vec × σ)} {P : σ → Prop}
  {call : Call} {threads : ℕ}

theorem inverts_call (hf : Fits ne bs call) (hinv : InvertsFullRank inv) :
    ∀ ch ∈ (detectChunks ne (rowsOf bs call.A.values call.b)).1,
      Inverts inv (eteOf (call.D.map (blocksOf bs)) ch) := by
  intro ch hch
  have ho : Ordered ne bs.cols.length (rowsOf bs call.A.values call.b) := by
    have := ordered_flat hf.ok call.b (ne := ne) (by rw [hf.structure_]; exact hf.ordered)
    rw [hf.structure_] at this
    exact this
  have hfe : FullRankE ne bs.cols.length (rowsOf bs call.A.values call.b) (call.D.map (blocksOf bs)) := by
    have := fullRankE_flat hf.ok call.b hf.regular
    rw [hf.structure_] at this
    exact this
  exact inverts_of_isUnit (eteOf_isUnit ho hfe hf.blocks hch) (eteOf_symm _ ch)
    (hinv _ _ (eteOf_isUnit ho hfe hf.blocks hch))

theorem ordered_call (hf : Fits ne bs call) : Ordered ne bs.cols.length (rowsOf bs call.A.values call.b) := by
  have := ordered_flat hf.ok call.b (ne := ne) (by rw [hf.structure_]; exact hf.ordered)
  rw [hf.structure_] at this
  exact this

/-- The elimination and the reduced solver. -/
theorem reduced_result (hf : Fits ne bs call) (hS : S.Fine bs ne) (hinv : InvertsFullRank inv) (ht : 0 < threads)
    (hred : ReducedOk S bs ne reduced P) {m : SchurThreads.Mem} {o : Option SchurThreads.Mem}
    (h : Eliminates inv bs ne (S.has ne) (rowsOf bs call.A.values call.b) (call.D.map (blocksOf bs)) threads
      (fillSol m) o) :
    ∃ m1, o = some m1 ∧ (∀ b i, m1 (.sol b i) = 0) ∧
      ∀ v r, S.Holds ne (szOf bs) v m1 → S.HoldsRhs ne (szOf bs) r m1 →
        ∃ ok z s, reduced v r = some (ok, z, s) ∧ P s ∧
          (Regular call.A.numRows call.A.numCols call.A.entry call.D → ok = true) ∧
          (ok = true → ∀ x, ne ≤ x → x < bs.cols.length →
            ∑ y ∈ Finset.Ico ne bs.cols.length, schurLhs (invOf inv bs ne) ne (rowsOf bs call.A.values call.b)
              (call.D.map (blocksOf bs)) x y *ᵥ S.zBlocks bs ne z y =
            schurRhs (invOf inv bs ne) ne (rowsOf bs call.A.values call.b) (call.D.map (blocksOf bs)) x) := by
  have ho := ordered_call hf
  have hinv' := invOf_fullRank (bs := bs) (ne := ne) hinv
  have hi := inverts_call hf hinv'
  obtain ⟨m1, h1, h2, h3, h4⟩ := eliminates_result ho hi ht (eliminator_some hf)
    (fun inv => hS.covers call.A.values call.b _ inv) hS.diag h
  refine ⟨m1, h1, h4, fun v r hv hr => ?_⟩
  set B := schurLhs (invOf inv bs ne) ne (rowsOf bs call.A.values call.b) (call.D.map (blocksOf bs)) with hB
  obtain ⟨H, hH⟩ := exists_buf (ne := ne) B
  have hsym : ∀ p < fCols bs ne, ∀ q < fCols bs ne, H p q = H q p := by
    intro p hp q hq
    obtain ⟨x, hx, hx', i, hi', rfl, -⟩ := f_split hp
    obtain ⟨y, hy, hy', j, hj', rfl, -⟩ := f_split hq
    rw [hH x y hx hx' hy hy' ⟨i, hi'⟩ ⟨j, hj'⟩, hH y x hy hy' hx hx' ⟨j, hj'⟩ ⟨i, hi'⟩, hB, ← schurLhs_symm hi x y]
    rfl
  obtain ⟨ok, z, s, k1, k2, k3, k4⟩ := hred v r H hsym (by
    intro x y hx hxy hy' i hi' j hj'
    rw [hH x y hx (by omega) (by omega) hy' ⟨i, hi'⟩ ⟨j, hj'⟩, ← h2 x y hx (by omega) (by omega) hy']
    cases hc : S.cell (x - ne) (y - ne) with
    | none => rw [sym_absent _ hxy (by unfold Storage.has; rw [hc]; simp)]; rfl
    | some c =>
      rw [sym_stored _ hxy (by unfold Storage.has; rw [hc]; simp; omega)]
      exact (hv x y hx (by omega) c hc i hi' j hj').symm)
  refine ⟨ok, z, s, k1, k4, fun hreg => k3 ?_, fun hok x hx hx' => ?_⟩
  · refine posDef_blocks hH fun z hz => ?_
    have hfull := fullRank_flat hf.ok call.b hreg
    rw [hf.structure_] at hfull
    have := reduced_posDef ho hf.blocks hfull hinv' (.inl rfl) (List.Perm.refl _) z hz
    refine lt_of_lt_of_eq this ?_
    refine Finset.sum_congr rfl fun x hx => ?_
    congr 1
    refine Finset.sum_congr rfl fun y hy => ?_
    rw [Finset.mem_Ico] at hx hy
    rw [eliminate_sym ho hi (dense_covers _ ne _ _ _) (List.Perm.refl _) hx.1 hx.2 hy.1 hy.2]
  · have := eqs_blocks hH z r (k2 hok) hx hx'
    have e : (fun i : Fin (szOf bs x) => r (fPos bs ne x + i)) = rhsOf m1 x := by
      funext i
      have := hr x hx i i.2
      rw [hS.blocks] at this
      exact this
    rw [e, h3 x hx hx'] at this
    rw [← this]
    refine Finset.sum_congr rfl fun y _ => ?_
    congr 1
    unfold Storage.zBlocks
    rw [hS.blocks]
    rfl

/-- Back substitution gives a minimiser. -/
theorem minimises_back (hf : Fits ne bs call) (hS : S.Fine bs ne) (hinv : InvertsFullRank inv) (ht : 0 < threads)
    {m1 : SchurThreads.Mem} (hm : ∀ b i, m1 (.sol b i) = 0) {z : BVec (szOf bs)}
    (hz : ∀ x, ne ≤ x → x < bs.cols.length →
      ∑ y ∈ Finset.Ico ne bs.cols.length, schurLhs (invOf inv bs ne) ne (rowsOf bs call.A.values call.b)
        (call.D.map (blocksOf bs)) x y *ᵥ z y =
      schurRhs (invOf inv bs ne) ne (rowsOf bs call.A.values call.b) (call.D.map (blocksOf bs)) x)
    {o : Option SchurThreads.Mem}
    (h : BackSubstitutes inv bs ne (rowsOf bs call.A.values call.b) (call.D.map (blocksOf bs)) threads
      (storeReduced ne z m1) o) :
    ∃ m2, o = some m2 ∧ ∀ x, S.HoldsX bs ne call.A.numCols x m2 →
      Minimises call.A.numRows call.A.numCols call.A.entry call.b call.D x := by
  have ho := ordered_call hf
  have hi := inverts_call hf (invOf_fullRank (bs := bs) (ne := ne) hinv)
  obtain ⟨m2, h1, h2, h3, h4⟩ := back_result ho ht z hm h
  refine ⟨m2, h1, fun x hx y => ?_⟩
  have hc : Laid 0 bs.cols := by
    have := hf.ok.bs.cols
    rw [hf.structure_] at this
    exact this
  have hn : call.A.numCols = (bs.cols.map Block.size).sum := by rw [hf.ok.numCols, hf.structure_]
  have e : blocksOf bs x = solOf m2 := by
    funext b i
    by_cases hb : b < bs.cols.length
    · have := hx b hb i i.2
      rw [hn, xAddress_eq hc hS.blocks hS.cols hb] at this
      exact this
    · have h1 : (i : ℕ) < szOf bs b := i.2
      have h2 := szOf_out hb
      omega
  have c1 := cost_flat hf.ok call.b call.D x
  have c2 := cost_flat hf.ok call.b call.D y
  rw [hf.structure_] at c1 c2
  rw [← c1, ← c2, e]
  refine minimiser_of_grad ho.bound ?_ _
  intro b hb
  rcases Nat.lt_or_ge b ne with hbe | hbe
  · exact grad_e_zero ho hi h3 h4 hbe
  · rw [grad_f ho h3 hbe hb, ← hz b hbe hb, sub_eq_zero]
    refine Finset.sum_congr rfl fun y hy => ?_
    rw [Finset.mem_Ico] at hy
    rw [h2 y hy.1 hy.2]

/-- The solver returns, with a good answer. -/
theorem solve_good (hf : Fits ne bs call) (hS : S.Fine bs ne) (hinv : InvertsFullRank inv) (ht : 0 < threads)
    (hred : ReducedOk S bs ne reduced P) {o : Option (Bool × Vec × σ)} (h : Solve inv ne S reduced call threads o) :
    ∃ ok x s, o = some (ok, x, s) ∧ Good call ok x ∧ P s := by
  have hbs := hf.structure_
  cases h with
  | stuck m h =>
    rw [hbs] at h
    obtain ⟨m1, h1, -⟩ := reduced_result hf hS hinv ht hred h
    exact nomatch h1
  | aborts m m1 v r h hv hr hnone =>
    rw [hbs] at h hv hr
    obtain ⟨_, h1, -, h2⟩ := reduced_result hf hS hinv ht hred h
    cases h1
    obtain ⟨ok, z, s, h3, -⟩ := h2 v r hv hr
    rw [hnone] at h3
    exact nomatch h3
  | failed m m1 v r z s x h hv hr hfail hx =>
    rw [hbs] at h hv hr
    obtain ⟨_, h1, -, h2⟩ := reduced_result hf hS hinv ht hred h
    cases h1
    obtain ⟨ok, z', s', h3, h4, h5, h6⟩ := h2 v r hv hr
    rw [hfail] at h3
    simp only [Option.some.injEq, Prod.mk.injEq] at h3
    obtain ⟨rfl, rfl, rfl⟩ := h3
    exact ⟨false, x, s, rfl, ⟨fun h => absurd h (by simp), h5⟩, h4⟩
  | backStuck m m1 v r z s h hv hr hok hb =>
    rw [hbs] at h hv hr hb
    obtain ⟨_, h1, hm, h2⟩ := reduced_result hf hS hinv ht hred h
    cases h1
    obtain ⟨ok, z', s', h3, h4, h5, h6⟩ := h2 v r hv hr
    rw [hok] at h3
    simp only [Option.some.injEq, Prod.mk.injEq] at h3
    obtain ⟨rfl, rfl, rfl⟩ := h3
    obtain ⟨m2, h7, -⟩ := minimises_back hf hS hinv ht hm (h6 rfl) hb
    exact nomatch h7
  | done m m1 m2 v r z s x h hv hr hok hb hx =>
    rw [hbs] at h hv hr hb hx
    obtain ⟨_, h1, hm, h2⟩ := reduced_result hf hS hinv ht hred h
    cases h1
    obtain ⟨ok, z', s', h3, h4, h5, h6⟩ := h2 v r hv hr
    rw [hok] at h3
    simp only [Option.some.injEq, Prod.mk.injEq] at h3
    obtain ⟨rfl, rfl, rfl⟩ := h3
    obtain ⟨m2', h7, h8⟩ := minimises_back hf hS hinv ht hm (h6 rfl) hb
    cases h7
    exact ⟨true, x, s, rfl, ⟨fun _ => h8 x hx, fun _ => rfl⟩, h4⟩

/-- There are executions. -/
theorem solve_exists (hf : Fits ne bs call) (hS : S.Fine bs ne) (hinv : InvertsFullRank inv) (ht : 0 < threads)
    (hred : ReducedOk S bs ne reduced P) (hstore : ∀ m, ∃ v, S.Holds ne (szOf bs) v m) :
    ∃ o, Solve inv ne S reduced call threads o := by
  have hbs := hf.structure_
  have ho := ordered_call hf
  have hc : Laid 0 bs.cols := by
    have := hf.ok.bs.cols
    rw [hf.structure_] at this
    exact this
  have hn : call.A.numCols = (bs.cols.map Block.size).sum := by rw [hf.ok.numCols, hf.structure_]
  obtain ⟨el, hel⟩ := eliminator_some hf
  have hE : ∃ m1, Eliminates inv bs ne (S.has ne) (rowsOf bs call.A.values call.b) (call.D.map (blocksOf bs)) threads
      (fillSol fun _ => 0) (some m1) := by
    cases el with
    | general t =>
      obtain ⟨m1, h1⟩ := eliminate_exists (inv := inv) (ne := ne) (nb := bs.cols.length) (has := S.has ne)
        (rows := rowsOf bs call.A.values call.b) (D := call.D.map (blocksOf bs)) (wantRhs := true)
        (m := fillSol fun _ => 0) ht
      exact ⟨m1, .general t _ hel h1⟩
    | oneFBlock t => exact ⟨_, .one t hel⟩
  obtain ⟨m1, hE⟩ := hE
  obtain ⟨_, h1, hm, h2⟩ := reduced_result hf hS hinv ht hred hE
  cases h1
  obtain ⟨v, hv⟩ := hstore m1
  have hr : ∃ r, S.HoldsRhs ne (szOf bs) r m1 := by
    obtain ⟨r, hr⟩ := exists_f (bs := bs) (ne := ne) fun x i => m1 (.rhs x i)
    refine ⟨r, fun x hx i hi => ?_⟩
    rw [hS.blocks]
    by_cases hx' : x < bs.cols.length
    · exact hr x hx hx' ⟨i, hi⟩
    · rw [szOf_out hx'] at hi
      omega
  obtain ⟨r, hr⟩ := hr
  have hX : ∀ m2, ∃ x, S.HoldsX bs ne call.A.numCols x m2 := by
    intro m2
    obtain ⟨x, hx⟩ := exists_flat hc (solOf m2)
    refine ⟨x, fun b hb i hi => ?_⟩
    rw [hn, xAddress_eq hc hS.blocks hS.cols hb]
    exact congrFun (congrFun hx b) ⟨i, hi⟩
  obtain ⟨ok, z, s, h3, h4, h5, h6⟩ := h2 v r hv hr
  cases ok with
  | false =>
    obtain ⟨x, hx⟩ := hX (storeReduced ne (S.zBlocks bs ne z) m1)
    exact ⟨_, .failed (fun _ => 0) m1 v r z s x (by rw [hbs]; exact hE) (by rw [hbs]; exact hv)
      (by rw [hbs]; exact hr) h3 (by rw [hbs]; exact hx)⟩
  | true =>
    have hB : ∃ m2, BackSubstitutes inv bs ne (rowsOf bs call.A.values call.b) (call.D.map (blocksOf bs)) threads
        (storeReduced ne (S.zBlocks bs ne z) m1) (some m2) := by
      cases el with
      | general t =>
        obtain ⟨m2, h2⟩ := Tasks.forRun_exists (back_disciplined inv (call.D.map (blocksOf bs))
          (detectChunks ne (rowsOf bs call.A.values call.b)).1
          (detectChunks_ordered ho).1 (chunks_tail ho) threads (storeReduced ne (S.zBlocks bs ne z) m1)) ht
        exact ⟨m2, .general t _ hel h2⟩
      | oneFBlock t => exact ⟨_, .one t hel⟩
    obtain ⟨m2, hB⟩ := hB
    obtain ⟨x, hx⟩ := hX m2
    exact ⟨_, .done (fun _ => 0) m1 m2 v r z s x (by rw [hbs]; exact hE) (by rw [hbs]; exact hv)
      (by rw [hbs]; exact hr) h3 (by rw [hbs]; exact hB) (by rw [hbs]; exact hx)⟩

end Solve

end Ceres.SchurDirect
