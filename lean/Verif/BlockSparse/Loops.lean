import Verif.BlockSparse.Transpose
import Verif.Tasks.MinBlock

/-!
# Loops over cells that add to a vector
-/
namespace Ceres.BlockSparse

open Matrix Ceres.Tasks

variable {K : Type} [CommRing K]

/-! ## Layout -/

/-- The block that contains an index; the number of blocks if there is none. -/
def blockOf (bs : List Block) (r : ℕ) : ℕ :=
  bs.findIdx fun b => decide (b.position ≤ r ∧ r < b.position + b.size)

theorem blockOf_le (bs : List Block) (r : ℕ) : blockOf bs r ≤ bs.length := List.findIdx_le_length

theorem laid_bounds {p : ℕ} {bs : List Block} (h : Laid p bs) {b : Block} (hb : b ∈ bs) :
    p ≤ b.position ∧ b.position + b.size ≤ p + (bs.map Block.size).sum := by
  induction bs generalizing p with
  | nil => cases hb
  | cons a bs ih =>
    rw [List.map_cons, List.sum_cons]
    rcases List.mem_cons.1 hb with rfl | hb
    · have := h.1; omega
    · have := ih h.2 hb; omega

theorem blockOf_eq {p : ℕ} {bs : List Block} (h : Laid p bs) {i : ℕ} {b : Block} (hb : bs[i]? = some b)
    {r : ℕ} (h1 : b.position ≤ r) (h2 : r < b.position + b.size) : blockOf bs r = i := by
  induction bs generalizing p i with
  | nil => cases hb
  | cons a bs ih =>
    unfold blockOf
    rw [List.findIdx_cons]
    cases i with
    | zero =>
      simp only [List.getElem?_cons_zero, Option.some.injEq] at hb
      subst hb
      rw [decide_eq_true (⟨h1, h2⟩ : a.position ≤ r ∧ r < a.position + a.size)]
      rfl
    | succ i =>
      rw [List.getElem?_cons_succ] at hb
      have h3 := laid_bounds h.2 (List.mem_of_getElem? hb)
      have h4 := h.1
      rw [decide_eq_false (by omega : ¬ (a.position ≤ r ∧ r < a.position + a.size))]
      have := ih h.2 hb
      unfold blockOf at this
      rw [this]
      rfl

theorem blockOf_lt {p : ℕ} {bs : List Block} (h : Laid p bs) {r : ℕ} (hr : blockOf bs r < bs.length) :
    p ≤ r ∧ r < p + (bs.map Block.size).sum := by
  have h1 := List.findIdx_getElem (w := hr)
  simp only [decide_eq_true_eq] at h1
  have h2 := laid_bounds h (List.getElem_mem hr)
  have h3 : bs[blockOf bs r] = bs[List.findIdx (fun b => decide (b.position ≤ r ∧ r < b.position + b.size)) bs] := rfl
  rw [h3] at h2
  omega

/-- Every index belongs to a block. -/
theorem blockOf_total {p : ℕ} {bs : List Block} (h : Laid p bs) {r : ℕ} (h1 : p ≤ r)
    (h2 : r < p + (bs.map Block.size).sum) : blockOf bs r < bs.length := by
  induction bs generalizing p with
  | nil => simp at h2; omega
  | cons a bs ih =>
    unfold blockOf
    rw [List.findIdx_cons]
    rw [List.map_cons, List.sum_cons] at h2
    by_cases h3 : a.position ≤ r ∧ r < a.position + a.size
    · rw [decide_eq_true h3]; simp
    · rw [decide_eq_false h3]
      have := ih h.2 (by have := h.1; omega) (by omega)
      unfold blockOf at this
      simpa using this

/-! ## Reading -/

omit [CommRing K] in
/-- Reading a matrix that is never written. -/
theorem runs_readMat_fixed {L M : Type} [DecidableEq L] [DecidableEq M] [AddCommMonoid K] {kind : L → Kind M}
    {free : Bool} {tid i : ℕ} {m0 : L → K} {h : Option M} {p p' : L → K} {a : List (L × K)}
    {m n : ℕ} {loc : Fin m → Fin n → L} {f : Matrix (Fin m) (Fin n) K → Code L M K}
    (hm : ∀ r c, kind (loc r c) = .fixed)
    (hr : Runs kind free tid i m0 h (f fun r c => m0 (loc r c)) p p' a) :
    Runs kind free tid i m0 h (readMat m n loc f) p p' a := by
  induction m with
  | zero =>
    have : (fun (r : Fin 0) c => m0 (loc r c)) = fun (r : Fin 0) => r.elim0 := by funext r; exact r.elim0
    rw [this] at hr
    exact hr
  | succ m ih =>
    refine runs_readVec_fixed (fun c => hm 0 c) ?_
    refine ih (f := fun vs => f (Fin.cons (fun c => m0 (loc 0 c)) vs)) (fun r c => hm r.succ c) ?_
    have : (Fin.cons (fun c => m0 (loc 0 c)) (fun r c => m0 (loc r.succ c)) : Fin (m + 1) → Fin n → K) =
        fun r c => m0 (loc r c) := by
      funext r
      refine Fin.cases rfl (fun r => rfl) r
    rw [this]
    exact hr

/-! ## Kernels that add -/

/-- The kernel `f` reads `reads` and then makes the additions `es`. -/
structure IsAdd (f : Block → Block → ℕ → Prog K → Prog K)
    (es : Mem K → Block → Block → ℕ → List (Loc × K)) (reads : Block → Block → ℕ → Loc → Prop) : Prop where
  runs : ∀ {kind : Loc → Kind Empty} {free : Bool} {tid i : ℕ} {m0 : Mem K} {row col : Block} {pos : ℕ}
    {k : Prog K} {p p' : Mem K} {a : List (Loc × K)}, (∀ l, reads row col pos l → kind l = .fixed) →
    (∀ e ∈ es m0 row col pos, Mine kind tid i e.1) →
    Runs kind free tid i m0 none k (addTo (es m0 row col pos) p) p' a →
    Runs kind free tid i m0 none (f row col pos k) p p' a

/-- The values a cell reads. -/
def readsCell (row col : Block) (pos : ℕ) (l : Loc) : Prop :=
  ∃ (i : Fin row.size) (j : Fin col.size), l = valLoc pos i j

/-- The elements of the vector of a block. -/
def readsVec (b : Block) (l : Loc) : Prop := ∃ i : Fin b.size, l = .x (b.position + i)

def mulEs (m : Mem K) (row col : Block) (pos : ℕ) : List (Loc × K) :=
  vecEntries (Matrix.mulVec (fun (i : Fin row.size) (j : Fin col.size) => m (valLoc pos i j))
    fun j => m (.x (col.position + j))) fun i => .y (row.position + i)

def mulTransposeEs (m : Mem K) (row col : Block) (pos : ℕ) : List (Loc × K) :=
  vecEntries (Matrix.mulVec (Matrix.transpose fun (i : Fin row.size) (j : Fin col.size) => m (valLoc pos i j))
    fun i => m (.x (row.position + i))) fun j => .y (col.position + j)

def normEs (m : Mem K) (row col : Block) (pos : ℕ) : List (Loc × K) :=
  vecEntries (fun j : Fin col.size => ∑ i : Fin row.size, m (valLoc pos i j) ^ 2) fun j => .y (col.position + j)

theorem mulCell_isAdd : IsAdd (K := K) mulCell mulEs
    fun row col pos l => readsCell row col pos l ∨ readsVec col l where
  runs := fun h1 h2 hr =>
    runs_readMat_fixed (fun i j => h1 _ (Or.inl ⟨i, j, rfl⟩))
      (runs_readVec_fixed (fun j => h1 _ (Or.inr ⟨j, rfl⟩)) (runs_adds_mine _ h2 hr))

theorem mulCellTranspose_isAdd : IsAdd (K := K) mulCellTranspose mulTransposeEs
    fun row col pos l => readsCell row col pos l ∨ readsVec row l where
  runs := fun h1 h2 hr =>
    runs_readMat_fixed (fun i j => h1 _ (Or.inl ⟨i, j, rfl⟩))
      (runs_readVec_fixed (fun j => h1 _ (Or.inr ⟨j, rfl⟩)) (runs_adds_mine _ h2 hr))

theorem normCell_isAdd : IsAdd (K := K) normCell normEs readsCell where
  runs := fun h1 h2 hr => runs_readMat_fixed (fun i j => h1 _ ⟨i, j, rfl⟩) (runs_adds_mine _ h2 hr)

section
variable {f : Block → Block → ℕ → Prog K → Prog K} {es : Mem K → Block → Block → ℕ → List (Loc × K)}
  {reads : Block → Block → ℕ → Loc → Prop}

theorem IsAdd.flip (h : IsAdd f es reads) :
    IsAdd (fun row col pos k => f col row pos k) (fun m row col pos => es m col row pos)
      (fun row col pos l => reads col row pos l) where
  runs := fun h1 h2 hr => h.runs h1 h2 hr

/-- The additions of one row block. -/
def rowEs (es : Mem K → Block → Block → ℕ → List (Loc × K)) (bs : BS) (m : Mem K) (r : BRow) : List (Loc × K) :=
  r.cells.flatMap fun c => es m r.block (bs.col c.blockId) c.position

theorem addTo_append (a b : List (Loc × K)) (p : Mem K) : addTo (a ++ b) p = addTo b (addTo a p) := by
  unfold addTo; rw [List.foldl_append]

theorem rowProg_runs (h : IsAdd f es reads) {kind : Loc → Kind Empty} {free : Bool} {tid i : ℕ} {m0 : Mem K}
    {bs : BS} {r : BRow} {k : Prog K} {p p' : Mem K} {a : List (Loc × K)}
    (h1 : ∀ c ∈ r.cells, ∀ l, reads r.block (bs.col c.blockId) c.position l → kind l = .fixed)
    (h2 : ∀ c ∈ r.cells, ∀ e ∈ es m0 r.block (bs.col c.blockId) c.position, Mine kind tid i e.1)
    (hr : Runs kind free tid i m0 none k (addTo (rowEs es bs m0 r) p) p' a) :
    Runs kind free tid i m0 none (rowProg f bs r k) p p' a := by
  unfold rowProg rowEs at *
  generalize r.cells = cells at *
  induction cells generalizing p with
  | nil => exact hr
  | cons c cs ih =>
    rw [List.foldr_cons]
    refine h.runs (h1 c (by simp)) (h2 c (by simp)) ?_
    refine ih (fun c' hc => h1 c' (by simp [hc])) (fun c' hc => h2 c' (by simp [hc])) ?_
    rw [List.flatMap_cons, addTo_append] at hr
    exact hr

theorem allProg_runs (h : IsAdd f es reads) {kind : Loc → Kind Empty} {free : Bool} {tid i : ℕ} {m0 : Mem K}
    {bs : BS} {p : Mem K}
    (h1 : ∀ r ∈ bs.rows, ∀ c ∈ r.cells, ∀ l, reads r.block (bs.col c.blockId) c.position l → kind l = .fixed)
    (h2 : ∀ r ∈ bs.rows, ∀ c ∈ r.cells, ∀ e ∈ es m0 r.block (bs.col c.blockId) c.position, Mine kind tid i e.1) :
    Runs kind free tid i m0 none (allProg f bs) p (addTo (bs.rows.flatMap (rowEs es bs m0)) p) [] := by
  unfold allProg
  generalize bs.rows = rows at *
  induction rows generalizing p with
  | nil => exact .ret p
  | cons r rs ih =>
    rw [List.foldr_cons]
    refine rowProg_runs h (h1 r (by simp)) (h2 r (by simp)) ?_
    rw [List.flatMap_cons, addTo_append]
    exact ih (fun r' hr => h1 r' (by simp [hr])) (fun r' hr => h2 r' (by simp [hr]))

/-! ## The loop over row blocks -/

/-- The kinds: `nx` elements of the vector and `nv` values may be read, an element of the result belongs to
its block. -/
def loopKind (blocks : List Block) (nx nv : ℕ) : Loc → Kind Empty
  | .x i => if i < nx then .fixed else .own blocks.length
  | .y r => .own (blockOf blocks r)
  | .val p => if p < nv then .fixed else .own blocks.length

/-- What a loop may assume of its cells. -/
structure Fits (es : Mem K → Block → Block → ℕ → List (Loc × K)) (reads : Block → Block → ℕ → Loc → Prop)
    (bs : BS) (nx nv : ℕ) (m : Mem K) : Prop where
  laid : Laid 0 (bs.rows.map BRow.block)
  reads : ∀ t ∈ bs.triples, ∀ l, reads t.1 t.2.1 t.2.2 l → (∃ i < nx, l = .x i) ∨ ∃ p < nv, l = .val p
  adds : ∀ t ∈ bs.triples, ∀ e ∈ es m t.1 t.2.1 t.2.2,
    ∃ k, t.1.position ≤ k ∧ k < t.1.position + t.1.size ∧ e.1 = .y k

theorem mem_triples {bs : BS} {r : BRow} (hr : r ∈ bs.rows) {c : Cell} (hc : c ∈ r.cells) :
    (r.block, bs.col c.blockId, c.position) ∈ bs.triples :=
  List.mem_flatMap.2 ⟨r, hr, List.mem_map.2 ⟨c, hc, rfl⟩⟩

/-- What the loop leaves. -/
def loopFin (es : Mem K → Block → Block → ℕ → List (Loc × K)) (bs : BS) (m : Mem K) : Mem K
  | .y r => m (.y r) + (match bs.rows[blockOf (bs.rows.map BRow.block) r]? with
    | some b => Tasks.sumAt (rowEs es bs m b) (.y r)
    | none => 0)
  | l => m l

variable {bs : BS} {nx nv threads : ℕ} {m : Mem K}

theorem loop_disciplined (h : IsAdd f es reads) (hf : Fits es reads bs nx nv m) :
    Disciplined (loopKind (bs.rows.map BRow.block) nx nv) (rowTask f bs) 0 bs.rows.length threads m
      (loopFin es bs m) fun _ _ => 0 := by
  refine ⟨fun i tid _ hi _ p hm => ?_⟩
  have hrow : bs.rows[i]? = some bs.rows[i] := List.getElem?_eq_getElem hi
  refine ⟨addTo (rowEs es bs m bs.rows[i]) p, [], ?_, ?_, ?_⟩
  · unfold rowTask
    rw [hrow]
    refine rowProg_runs h ?_ ?_ (.ret _)
    · intro c hc l hl
      rcases hf.reads _ (mem_triples (List.getElem_mem hi) hc) l hl with ⟨j, hj, rfl⟩ | ⟨q, hq, rfl⟩
      · exact if_pos hj
      · exact if_pos hq
    · intro c hc e he
      obtain ⟨k, k1, k2, k3⟩ := hf.adds _ (mem_triples (List.getElem_mem hi) hc) e he
      refine Or.inr ?_
      rw [k3]
      show Kind.own _ = _
      rw [blockOf_eq hf.laid (i := i) (b := bs.rows[i].block) (by simp [hrow]) k1 k2]
  · intro l hl
    rw [addTo_eq, hm l hl]
    cases l with
    | y r =>
      have : blockOf (bs.rows.map BRow.block) r = i := by
        have : Kind.own (M := Empty) (blockOf (bs.rows.map BRow.block) r) = .own i := hl
        injection this
      show _ = m (.y r) + _
      rw [this, hrow]
    | x j =>
      simp only [loopKind] at hl
      split_ifs at hl with h1
      injection hl with hl
      rw [List.length_map] at hl
      omega
    | val q =>
      simp only [loopKind] at hl
      split_ifs at hl with h1
      injection hl with hl
      rw [List.length_map] at hl
      omega
  · intro l x hl
    cases x

theorem sum_single {α : Type} (g : α → K) (L : List α) (i0 : ℕ)
    (h : ∀ i (hi : i < L.length), i ≠ i0 → g L[i] = 0) :
    (L.map g).sum = match L[i0]? with | some b => g b | none => 0 := by
  induction L generalizing i0 with
  | nil => rfl
  | cons a L ih =>
    rw [List.map_cons, List.sum_cons]
    cases i0 with
    | zero =>
      have : (L.map g).sum = 0 := by
        refine List.sum_eq_zero fun z hz => ?_
        obtain ⟨b, hb, rfl⟩ := List.mem_map.1 hz
        obtain ⟨i, hi, rfl⟩ := List.getElem_of_mem hb
        exact h (i + 1) (by simpa using hi) (by omega)
      rw [this, add_zero]; rfl
    | succ i0 =>
      have h0 := h 0 (by simp) (by omega)
      rw [List.getElem_cons_zero] at h0
      rw [h0, zero_add, ih i0 fun i hi hne => h (i + 1) (by simpa using hi) (by omega)]
      rfl

/-- All the additions, of whatever row block. -/
theorem loopFin_eq (hf : Fits es reads bs nx nv m) (l : Loc) :
    loopFin es bs m l = m l + (bs.triples.map fun t => Tasks.sumAt (es m t.1 t.2.1 t.2.2) l).sum := by
  have hzero : ∀ l, (∀ k, l ≠ .y k) → (bs.triples.map fun t => Tasks.sumAt (es m t.1 t.2.1 t.2.2) l).sum = 0 := by
    intro l hl
    refine List.sum_eq_zero fun z hz => ?_
    obtain ⟨t, ht, rfl⟩ := List.mem_map.1 hz
    refine sumAt_of_not_mem fun e he heq => ?_
    obtain ⟨k, -, -, k3⟩ := hf.adds t ht e he
    exact hl k (heq ▸ k3)
  cases l with
  | x i => rw [hzero _ (fun k h => Loc.noConfusion h), add_zero]; rfl
  | val q => rw [hzero _ (fun k h => Loc.noConfusion h), add_zero]; rfl
  | y r =>
    show m (.y r) + _ = _
    congr 1
    have hsum : ∀ row : BRow, Tasks.sumAt (rowEs es bs m row) (.y r) = (row.cells.map fun c =>
        Tasks.sumAt (es m row.block (bs.col c.blockId) c.position) (.y r)).sum := fun row => sumAt_flatMap _ _ _
    have htot : (bs.triples.map fun t => Tasks.sumAt (es m t.1 t.2.1 t.2.2) (.y r)).sum =
        (bs.rows.map fun row => Tasks.sumAt (rowEs es bs m row) (.y r)).sum := by
      unfold BS.triples
      rw [Sparse.sum_flatMap]
      congr 1
      refine List.map_congr_left fun row _ => ?_
      rw [hsum row, List.map_map]
      rfl
    rw [htot]
    have hoff : ∀ i (hi : i < bs.rows.length), i ≠ blockOf (bs.rows.map BRow.block) r →
        Tasks.sumAt (rowEs es bs m bs.rows[i]) (.y r) = 0 := by
      intro i hi hne
      rw [hsum]
      refine List.sum_eq_zero fun z hz => ?_
      obtain ⟨c, hc, rfl⟩ := List.mem_map.1 hz
      refine sumAt_of_not_mem fun e he heq => hne ?_
      obtain ⟨k, k1, k2, k3⟩ := hf.adds _ (mem_triples (List.getElem_mem hi) hc) e he
      rw [heq] at k3
      injection k3 with k3
      subst k3
      exact (blockOf_eq hf.laid (i := i) (b := bs.rows[i].block)
        (by simp [List.getElem?_eq_getElem hi]) k1 k2).symm
    rw [sum_single (fun row => Tasks.sumAt (rowEs es bs m row) (.y r)) bs.rows _ hoff]
    cases bs.rows[blockOf (bs.rows.map BRow.block) r]? <;> rfl

/-- What a loop of additions leaves. -/
def AfterAdds (es : Mem K → Block → Block → ℕ → List (Loc × K)) (bs : BS) (m m' : Mem K) : Prop :=
  ∀ l, m' l = m l + (bs.triples.map fun t => Tasks.sumAt (es m t.1 t.2.1 t.2.2) l).sum

theorem result_afterAdds (hf : Fits es reads bs nx nv m) {m' : Mem K} {inc : ℕ → Mem K}
    (h : Result (loopKind (bs.rows.map BRow.block) nx nv) 0 bs.rows.length m (loopFin es bs m) inc m') :
    AfterAdds es bs m m' := by
  intro l
  rw [← loopFin_eq hf l]
  have hown : ∀ i, loopKind (bs.rows.map BRow.block) nx nv l = .own i → m' l = loopFin es bs m l := by
    intro i hi
    rw [h.own l i hi]
    by_cases hlt : 0 ≤ i ∧ i < bs.rows.length
    · rw [if_pos hlt]
    · rw [if_neg hlt]
      cases l with
      | y r =>
        have h1 : Kind.own (M := Empty) (blockOf (bs.rows.map BRow.block) r) = .own i := hi
        injection h1 with h1
        show _ = m (.y r) + _
        rw [h1, List.getElem?_eq_none (by omega), add_zero]
      | _ => rfl
  cases hk : loopKind (bs.rows.map BRow.block) nx nv l with
  | own i => exact hown i hk
  | fixed =>
    rw [h.fixed l hk]
    cases l with
    | y r => exact nomatch hk
    | _ => rfl
  | scratch t =>
    cases l with
    | y r => exact nomatch hk
    | x j => simp only [loopKind] at hk; split_ifs at hk
    | val j => simp only [loopKind] at hk; split_ifs at hk
  | guarded e => cases e

/-- The sequential loops. -/
theorem allProg_after (h : IsAdd f es reads)
    (h1 : ∀ t ∈ bs.triples, ∀ l, reads t.1 t.2.1 t.2.2 l → (∃ i, l = .x i) ∨ ∃ p, l = .val p)
    (h2 : ∀ t ∈ bs.triples, ∀ e ∈ es m t.1 t.2.1 t.2.2, ∃ k, e.1 = .y k) :
    ∃ m', runAlone (allProg f bs) m = some m' ∧ AfterAdds es bs m m' := by
  have hr := allProg_runs (kind := fun | .y _ => .own 0 | _ => .fixed) (free := true) (tid := 0) (i := 0)
    (m0 := m) (bs := bs) (p := m) h
    (by
      intro r hr c hc l hl
      rcases h1 _ (mem_triples hr hc) l hl with ⟨j, rfl⟩ | ⟨j, rfl⟩ <;> rfl)
    (by
      intro r hr c hc e he
      obtain ⟨k, hk⟩ := h2 _ (mem_triples hr hc) e he
      exact Or.inr (by rw [hk]))
  obtain ⟨m', e1, e2, -, e4⟩ := exec_runs hr m (fun _ => false) (fun _ _ => rfl) (fun _ _ => rfl) (by simp)
  refine ⟨m', by unfold runAlone; rw [e1]; rfl, fun l => ?_⟩
  have htot : Tasks.sumAt (bs.rows.flatMap (rowEs es bs m)) l =
      (bs.triples.map fun t => Tasks.sumAt (es m t.1 t.2.1 t.2.2) l).sum := by
    unfold BS.triples
    rw [sumAt_flatMap, Sparse.sum_flatMap]
    congr 1
    refine List.map_congr_left fun row _ => ?_
    rw [rowEs, sumAt_flatMap, List.map_map]
    rfl
  cases l with
  | y r => rw [e2 _ (Or.inr rfl), addTo_eq, htot]
  | x i =>
    rw [e4 _ (by rintro (h | h) <;> exact nomatch h) (fun x => by cases x), ← htot, sumAt_of_not_mem, add_zero]
    intro e he heq
    obtain ⟨r, hr, he⟩ := List.mem_flatMap.1 he
    obtain ⟨c, hc, he⟩ := List.mem_flatMap.1 he
    obtain ⟨k, hk⟩ := h2 _ (mem_triples hr hc) e he
    rw [hk] at heq
    exact nomatch heq
  | val i =>
    rw [e4 _ (by rintro (h | h) <;> exact nomatch h) (fun x => by cases x), ← htot, sumAt_of_not_mem, add_zero]
    intro e he heq
    obtain ⟨r, hr, he⟩ := List.mem_flatMap.1 he
    obtain ⟨c, hc, he⟩ := List.mem_flatMap.1 he
    obtain ⟨k, hk⟩ := h2 _ (mem_triples hr hc) e he
    rw [hk] at heq
    exact nomatch heq

end

end Ceres.BlockSparse
