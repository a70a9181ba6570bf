import Verif.BlockSparse.Products

/-!
# Scaling columns, on any number of threads
-/
namespace Ceres.BlockSparse

open Matrix Ceres.Tasks

variable {K : Type} [CommRing K]

/-! ## Programs that scale -/

theorem scales_append (a b : List (Loc × Loc)) (k : Prog K) : scales (a ++ b) k = scales a (scales b k) := by
  induction a with
  | nil => rfl
  | cons e a ih => simp only [List.cons_append, scales, ih]

/-- What the programs do, with the scales in `m0`. -/
def scaleTo (m0 : Mem K) (es : List (Loc × Loc)) (p : Mem K) : Mem K :=
  es.foldl (fun p e => upd p e.1 (p e.1 * m0 e.2)) p

theorem scales_runs {kind : Loc → Kind Empty} {free : Bool} {tid i : ℕ} {m0 : Mem K} (es : List (Loc × Loc))
    {k : Prog K} {p p' : Mem K} {a : List (Loc × K)} (h1 : ∀ e ∈ es, Mine kind tid i e.1)
    (h2 : ∀ e ∈ es, kind e.2 = .fixed) (hr : Runs kind free tid i m0 none k (scaleTo m0 es p) p' a) :
    Runs kind free tid i m0 none (scales es k) p p' a := by
  induction es generalizing p with
  | nil => exact hr
  | cons e es ih =>
    exact .readMine (h1 e (by simp)) (.readFixed (h2 e (by simp)) (.write (h1 e (by simp))
      (ih (fun e' he => h1 e' (by simp [he])) (fun e' he => h2 e' (by simp [he])) hr)))

theorem scaleTo_of_not_mem {m0 : Mem K} {es : List (Loc × Loc)} {p : Mem K} {l : Loc}
    (h : ∀ e ∈ es, e.1 ≠ l) : scaleTo m0 es p l = p l := by
  unfold scaleTo
  induction es generalizing p with
  | nil => rfl
  | cons e es ih =>
    rw [List.foldl_cons, ih fun e' he => h e' (by simp [he])]
    exact if_neg fun he => h e (by simp) he.symm

theorem scaleTo_of_mem {m0 : Mem K} {es : List (Loc × Loc)} {p : Mem K} {e : Loc × Loc}
    (hn : (es.map Prod.fst).Nodup) (he : e ∈ es) : scaleTo m0 es p e.1 = p e.1 * m0 e.2 := by
  induction es generalizing p with
  | nil => cases he
  | cons e' es ih =>
    rw [List.map_cons, List.nodup_cons] at hn
    have hstep : scaleTo m0 (e' :: es) p = scaleTo m0 es (upd p e'.1 (p e'.1 * m0 e'.2)) := rfl
    rw [hstep]
    rcases List.mem_cons.1 he with rfl | he
    · rw [scaleTo_of_not_mem]
      · simp [upd]
      · intro e'' he' h
        exact hn.1 (List.mem_map.2 ⟨e'', he', h⟩)
    · rw [ih hn.2 he]
      congr 1
      refine if_neg fun h => hn.1 (List.mem_map.2 ⟨e, he, h⟩)

/-- The elements of the cells of a list, with their scales. -/
def scaleOf (ts : List (Block × Block × ℕ)) : List (Loc × Loc) := ts.flatMap fun t => scaleList t.1 t.2.1 t.2.2

theorem mem_scaleOf {ts : List (Block × Block × ℕ)} {e : Loc × Loc} : e ∈ scaleOf ts ↔
    ∃ t ∈ ts, ∃ i < t.1.size, ∃ j < t.2.1.size,
      e = (.val (t.2.2 + i * t.2.1.size + j), .x (t.2.1.position + j)) := by
  unfold scaleOf scaleList
  simp only [List.mem_flatMap, List.mem_map, List.mem_finRange, true_and]
  constructor
  · rintro ⟨t, ht, i, j, rfl⟩; exact ⟨t, ht, i, i.2, j, j.2, rfl⟩
  · rintro ⟨t, ht, i, hi, j, hj, rfl⟩; exact ⟨t, ht, ⟨i, hi⟩, ⟨j, hj⟩, rfl⟩

/-- The positions of the values of some cells. -/
def slotsOf (ts : List (Block × Block × ℕ)) : List ℕ := ts.flatMap fun t => List.range' t.2.2 (t.1.size * t.2.1.size)

theorem slots_triples (bs : BS) : bs.slots = slotsOf bs.triples := by
  unfold BS.slots slotsOf BS.triples
  rw [List.flatMap_assoc]
  refine List.flatMap_congr fun r _ => ?_
  rw [List.flatMap_map]

/-- Row by row, the positions of a cell. -/
theorem cell_positions (pos m n : ℕ) :
    ((List.range m).flatMap fun i => (List.range n).map fun j => pos + i * n + j) = List.range' pos (m * n) := by
  induction m with
  | zero => simp
  | succ m ih =>
    rw [List.range_succ, List.flatMap_append, ih, Nat.add_mul, Nat.one_mul, ← List.range'_append_1]
    congr 1
    simp only [List.flatMap_cons, List.flatMap_nil, List.append_nil]
    rw [List.range'_eq_map_range]

theorem scaleList_fst (row col : Block) (pos : ℕ) :
    (scaleList row col pos).map Prod.fst = (List.range' pos (row.size * col.size)).map Loc.val := by
  rw [← cell_positions, scaleList, List.map_flatMap, List.map_flatMap]
  rw [← List.map_coe_finRange_eq_range (n := row.size), List.flatMap_map]
  refine List.flatMap_congr fun i _ => ?_
  rw [← List.map_coe_finRange_eq_range (n := col.size)]
  simp only [List.map_map]
  rfl

theorem scaleOf_fst (ts : List (Block × Block × ℕ)) : (scaleOf ts).map Prod.fst = (slotsOf ts).map Loc.val := by
  unfold scaleOf slotsOf
  rw [List.map_flatMap, List.map_flatMap]
  exact List.flatMap_congr fun t _ => scaleList_fst _ _ _

/-- Every element of the cells is multiplied by its scale and nothing else changes. -/
def Scaled (ts : List (Block × Block × ℕ)) (m m' : Mem K) : Prop :=
  (∀ e ∈ scaleOf ts, m' e.1 = m e.1 * m e.2) ∧ ∀ l, (∀ e ∈ scaleOf ts, e.1 ≠ l) → m' l = m l

theorem scaled_unique {ts : List (Block × Block × ℕ)} {m m' m'' : Mem K} (h : Scaled ts m m')
    (h' : Scaled ts m m'') : m' = m'' := by
  funext l
  by_cases hl : ∃ e ∈ scaleOf ts, e.1 = l
  · obtain ⟨e, he, rfl⟩ := hl
    rw [h.1 e he, h'.1 e he]
  · have : ∀ e ∈ scaleOf ts, e.1 ≠ l := fun e he h => hl ⟨e, he, h⟩
    rw [h.2 l this, h'.2 l this]

/-- The program of a row block. -/
theorem rowProg_scale (bs : BS) (r : BRow) (k : Prog K) :
    rowProg scaleCell bs r k = scales (scaleOf (r.cells.map fun c => (r.block, bs.col c.blockId, c.position))) k := by
  unfold rowProg
  generalize r.cells = cells
  induction cells with
  | nil => rfl
  | cons c cs ih =>
    rw [List.foldr_cons, ih]
    show scales _ (scales _ k) = _
    rw [← scales_append]
    rfl

theorem rowProg_scale_flip (bs : BS) (r : BRow) (k : Prog K) :
    rowProg (fun row col pos k => scaleCell col row pos k) bs r k =
      scales (scaleOf (r.cells.map fun c => (bs.col c.blockId, r.block, c.position))) k := by
  unfold rowProg
  generalize r.cells = cells
  induction cells with
  | nil => rfl
  | cons c cs ih =>
    rw [List.foldr_cons, ih]
    show scales _ (scales _ k) = _
    rw [← scales_append]
    rfl

theorem scaleOf_append (a b : List (Block × Block × ℕ)) : scaleOf (a ++ b) = scaleOf a ++ scaleOf b := by
  unfold scaleOf; rw [List.flatMap_append]

theorem allProg_scale (bs : BS) : allProg (K := K) scaleCell bs = scales (scaleOf bs.triples) .ret := by
  unfold allProg BS.triples
  generalize bs.rows = rows
  induction rows with
  | nil => rfl
  | cons r rs ih => rw [List.foldr_cons, rowProg_scale, ih, List.flatMap_cons, scaleOf_append, scales_append]

/-! ## One thread -/

theorem scaled_seq {bs : BS} (hn : bs.slots.Nodup) (m : Mem K) :
    ∃ m', runAlone (allProg scaleCell bs) m = some m' ∧ Scaled bs.triples m m' := by
  rw [allProg_scale]
  have hr : Runs (fun | Loc.val _ => Kind.own 0 | _ => .fixed) true 0 0 m none
      (scales (scaleOf bs.triples) .ret) m (scaleTo m (scaleOf bs.triples) m) [] := by
    refine scales_runs _ ?_ ?_ (.ret _)
    · intro e he
      obtain ⟨t, -, i, -, j, -, rfl⟩ := mem_scaleOf.1 he
      exact Or.inr rfl
    · intro e he
      obtain ⟨t, -, i, -, j, -, rfl⟩ := mem_scaleOf.1 he
      rfl
  obtain ⟨m', e1, e2, -, e4⟩ := exec_runs hr m (fun _ => false) (fun _ _ => rfl) (fun _ _ => rfl) (by simp)
  have hfst : ((scaleOf bs.triples).map Prod.fst).Nodup := by
    rw [scaleOf_fst, ← slots_triples]
    exact hn.map fun a b h => by injection h
  refine ⟨m', by unfold runAlone; rw [e1]; rfl, fun e he => ?_, fun l hl => ?_⟩
  · rw [← scaleTo_of_mem (m0 := m) (p := m) hfst he]
    obtain ⟨t, -, i, -, j, -, rfl⟩ := mem_scaleOf.1 he
    exact e2 _ (Or.inr rfl)
  · cases l with
    | val q => rw [e2 _ (Or.inr rfl), scaleTo_of_not_mem hl]
    | x q => exact e4 _ (by rintro (h | h) <;> exact nomatch h) fun x => by cases x
    | y q => exact e4 _ (by rintro (h | h) <;> exact nomatch h) fun x => by cases x

/-! ## Several threads -/

theorem findIdx_flatMap {α : Type} {L : List α} {g : α → List ℕ} (hn : (L.flatMap g).Nodup) {i q : ℕ} {a : α}
    (ha : L[i]? = some a) (hq : q ∈ g a) : L.findIdx (fun a => decide (q ∈ g a)) = i := by
  induction L generalizing i with
  | nil => cases ha
  | cons b L ih =>
    rw [List.flatMap_cons, List.nodup_append] at hn
    rw [List.findIdx_cons]
    cases i with
    | zero =>
      simp only [List.getElem?_cons_zero, Option.some.injEq] at ha
      subst ha
      rw [decide_eq_true hq]
      rfl
    | succ i =>
      rw [List.getElem?_cons_succ] at ha
      have : ¬ q ∈ g b := fun h => hn.2.2 q h q (List.mem_flatMap.2 ⟨a, List.mem_of_getElem? ha, hq⟩) rfl
      rw [decide_eq_false this]
      show _ + 1 = _
      rw [ih hn.2.1 ha]

/-- The cells of a row block of the transposed structure, as cells of the matrix. -/
def colTriples (tbs : BS) (r : BRow) : List (Block × Block × ℕ) :=
  r.cells.map fun c => (tbs.col c.blockId, r.block, c.position)

/-- Every value belongs to its column block. -/
def scaleKind (tbs : BS) (nx : ℕ) : Loc → Kind Empty
  | .x i => if i < nx then .fixed else .own tbs.rows.length
  | .y _ => .own tbs.rows.length
  | .val q => .own (tbs.rows.findIdx fun r => decide (q ∈ slotsOf (colTriples tbs r)))

def scaleFin (tbs : BS) (m : Mem K) : Mem K
  | .val q => (match tbs.rows[tbs.rows.findIdx fun r => decide (q ∈ slotsOf (colTriples tbs r))]? with
    | some r => scaleTo m (scaleOf (colTriples tbs r)) m (.val q)
    | none => m (.val q))
  | l => m l

theorem col_nodup {tbs : BS} (hn : (tbs.rows.flatMap fun r => slotsOf (colTriples tbs r)).Nodup) {r : BRow}
    (hr : r ∈ tbs.rows) : ((scaleOf (colTriples tbs r)).map Prod.fst).Nodup := by
  rw [scaleOf_fst]
  exact (List.nodup_flatMap.1 hn).1 r hr |>.map fun a b h => by injection h

theorem mem_slotsOf {ts : List (Block × Block × ℕ)} {q : ℕ} :
    q ∈ slotsOf ts ↔ ∃ e ∈ scaleOf ts, e.1 = .val q := by
  have h := scaleOf_fst ts
  constructor
  · intro hq
    have : Loc.val q ∈ (slotsOf ts).map Loc.val := List.mem_map.2 ⟨q, hq, rfl⟩
    rw [← h] at this
    obtain ⟨e, he, h1⟩ := List.mem_map.1 this
    exact ⟨e, he, h1⟩
  · rintro ⟨e, he, h1⟩
    have : e.1 ∈ (scaleOf ts).map Prod.fst := List.mem_map.2 ⟨e, he, rfl⟩
    rw [h] at this
    obtain ⟨q', hq, h2⟩ := List.mem_map.1 this
    rw [h1] at h2
    injection h2 with h2
    exact h2 ▸ hq

theorem scale_disciplined {tbs : BS} {nx threads : ℕ} {m : Mem K}
    (hn : (tbs.rows.flatMap fun r => slotsOf (colTriples tbs r)).Nodup)
    (hx : ∀ r ∈ tbs.rows, r.cells ≠ [] → r.block.position + r.block.size ≤ nx) :
    Disciplined (scaleKind tbs nx) (colTask scaleCell tbs) 0 tbs.rows.length threads m (scaleFin tbs m)
      fun _ _ => 0 := by
  refine ⟨fun i tid _ hi _ p hm => ?_⟩
  have hrow : tbs.rows[i]? = some tbs.rows[i] := List.getElem?_eq_getElem hi
  have hfind : ∀ q, q ∈ slotsOf (colTriples tbs tbs.rows[i]) →
      tbs.rows.findIdx (fun r => decide (q ∈ slotsOf (colTriples tbs r))) = i :=
    fun q hq => findIdx_flatMap (g := fun r => slotsOf (colTriples tbs r)) hn hrow hq
  refine ⟨scaleTo m (scaleOf (colTriples tbs tbs.rows[i])) p, [], ?_, ?_, ?_⟩
  · unfold colTask rowTask
    rw [hrow]
    simp only
    rw [rowProg_scale_flip]
    refine scales_runs _ ?_ ?_ (.ret _)
    · intro e he
      refine Or.inr ?_
      obtain ⟨t, ht, r, hr, c, hc, rfl⟩ := mem_scaleOf.1 he
      show Kind.own _ = _
      rw [hfind _ (mem_slotsOf.2 ⟨_, he, rfl⟩)]
    · intro e he
      obtain ⟨t, ht, r, hr, c, hc, rfl⟩ := mem_scaleOf.1 he
      obtain ⟨cell, hcell, rfl⟩ := List.mem_map.1 ht
      have := hx _ (List.getElem_mem hi) (List.ne_nil_of_mem hcell)
      simp only at hc
      exact if_pos (show tbs.rows[i].block.position + c < nx by omega)
  · intro l hl
    cases l with
    | val q =>
      have h1 : Kind.own (M := Empty) (tbs.rows.findIdx fun r => decide (q ∈ slotsOf (colTriples tbs r))) = .own i := hl
      injection h1 with h1
      simp only [scaleFin]
      rw [h1, hrow]
      simp only
      by_cases hq : q ∈ slotsOf (colTriples tbs tbs.rows[i])
      · obtain ⟨e, he, he1⟩ := mem_slotsOf.1 hq
        have hnd := col_nodup hn (List.getElem_mem hi)
        rw [← he1, scaleTo_of_mem hnd he, scaleTo_of_mem hnd he, he1, hm _ hl]
      · have : ∀ e ∈ scaleOf (colTriples tbs tbs.rows[i]), e.1 ≠ .val q := fun e he h =>
          hq (mem_slotsOf.2 ⟨e, he, h⟩)
        rw [scaleTo_of_not_mem this, scaleTo_of_not_mem this, hm _ hl]
    | x j =>
      simp only [scaleKind] at hl
      split_ifs at hl with h1
      injection hl with hl
      omega
    | y j =>
      have h1 : Kind.own (M := Empty) tbs.rows.length = .own i := hl
      injection h1 with h1
      omega
  · intro l x hl
    cases x

theorem scaled_result {tbs : BS} {nx : ℕ} {m m' : Mem K} {inc : ℕ → Mem K}
    (hn : (tbs.rows.flatMap fun r => slotsOf (colTriples tbs r)).Nodup)
    (h : Result (scaleKind tbs nx) 0 tbs.rows.length m (scaleFin tbs m) inc m') :
    Scaled (tbs.rows.flatMap (colTriples tbs)) m m' := by
  constructor
  · intro e he
    obtain ⟨t, ht, i, hi, j, hj, rfl⟩ := mem_scaleOf.1 he
    obtain ⟨r, hr, ht⟩ := List.mem_flatMap.1 ht
    obtain ⟨k, hk, rfl⟩ := List.getElem_of_mem hr
    have he' : (Loc.val (t.2.2 + i * t.2.1.size + j), Loc.x (t.2.1.position + j)) ∈
        scaleOf (colTriples tbs tbs.rows[k]) := mem_scaleOf.2 ⟨t, ht, i, hi, j, hj, rfl⟩
    have hrow : tbs.rows[k]? = some tbs.rows[k] := List.getElem?_eq_getElem hk
    have hfind := findIdx_flatMap (g := fun r => slotsOf (colTriples tbs r)) hn hrow
      (mem_slotsOf.2 ⟨_, he', rfl⟩)
    rw [h.own (.val _) _ rfl, hfind, if_pos ⟨Nat.zero_le _, hk⟩]
    simp only [scaleFin]
    rw [hfind, hrow]
    exact scaleTo_of_mem (col_nodup hn (List.getElem_mem hk)) he'
  · intro l hl
    cases l with
    | val q =>
      rw [h.own (.val q) _ rfl]
      have hno : ∀ r ∈ tbs.rows, ¬ q ∈ slotsOf (colTriples tbs r) := by
        intro r hr hq
        obtain ⟨e, he, h1⟩ := mem_slotsOf.1 hq
        refine hl e ?_ h1
        obtain ⟨t, ht, i, hi, j, hj, rfl⟩ := mem_scaleOf.1 he
        exact mem_scaleOf.2 ⟨t, List.mem_flatMap.2 ⟨r, hr, ht⟩, i, hi, j, hj, rfl⟩
      rw [if_neg]
      rintro ⟨-, hlt⟩
      have := List.findIdx_getElem (w := hlt)
      exact hno _ (List.getElem_mem hlt) (of_decide_eq_true this)
    | x j =>
      by_cases hj : j < nx
      · exact h.fixed _ (if_pos hj)
      · rw [h.own (.x j) _ (if_neg hj), if_neg (by omega)]
    | y j => rw [h.own (.y j) _ rfl, if_neg (by omega)]

omit [CommRing K] in
theorem colTriples_eq (tbs : BS) : tbs.rows.flatMap (colTriples tbs) =
    tbs.triples.map fun t => (t.2.1, t.1, t.2.2) := by
  unfold BS.triples colTriples
  rw [List.map_flatMap]
  refine List.flatMap_congr fun r _ => ?_
  rw [List.map_map]
  rfl

omit [CommRing K] in
theorem tslots {M : BMat K} (h : M.Ok) :
    (M.tbs.rows.flatMap fun r => slotsOf (colTriples M.tbs r)).Perm (List.range M.nnz) := by
  have h1 : (M.tbs.rows.flatMap fun r => slotsOf (colTriples M.tbs r)) =
      slotsOf (M.tbs.rows.flatMap (colTriples M.tbs)) := by
    unfold slotsOf
    rw [List.flatMap_assoc]
  rw [h1, colTriples_eq, h.tbs]
  refine List.Perm.trans ?_ h.bs.slots
  rw [slots_triples]
  exact (transpose_triples h.bs.ids).flatMap_right _

theorem tblock_ok {M : BMat K} (h : M.Ok) {r : BRow} (hr : r ∈ M.tbs.rows) (hc : r.cells ≠ []) :
    r.block.position + r.block.size ≤ M.numCols := by
  obtain ⟨c, cs, hcs⟩ := List.exists_cons_of_ne_nil hc
  exact (tcell_ok h (mem_triples (c := c) hr (by simp [hcs]))).col

theorem scaled_congr {ts ts' : List (Block × Block × ℕ)} {m m' : Mem K} (hp : ts.Perm ts')
    (h : Scaled ts m m') : Scaled ts' m m' := by
  have hm : ∀ e, e ∈ scaleOf ts ↔ e ∈ scaleOf ts' := fun e => (hp.flatMap_right _).mem_iff
  exact ⟨fun e he => h.1 e ((hm e).2 he), fun l hl => h.2 l fun e he => hl e ((hm e).1 he)⟩

/-- Whatever the number of threads and the schedule, scaling leaves one memory. -/
theorem scale_run {M : BMat K} (h : M.Ok) {threads : ℕ} (ht : 0 < threads) (m : Mem K) :
    ∃ m', Scaled M.bs.triples m m' ∧ ∀ o, ScaleRun M threads m o ↔ o = some m' := by
  have hn : M.bs.slots.Nodup := h.bs.slots.nodup_iff.2 List.nodup_range
  obtain ⟨m', e1, e2⟩ := scaled_seq hn m
  refine ⟨m', e2, fun o => ?_⟩
  unfold ScaleRun
  split_ifs with h1
  · rw [e1]
  · have hnt := (tslots h).nodup_iff.2 List.nodup_range
    have hD := scale_disciplined (nx := M.numCols) (threads := threads) (m := m) hnt fun r hr hc => tblock_ok h hr hc
    have key : ∀ o, CostRun (cumOf M.tbs) (colTask scaleCell M.tbs) 0 M.tbs.rows.length threads m o →
        o = some m' := by
      intro o ho
      obtain ⟨m'', rfl, h2⟩ := costRun_result hD ht (tbs_costs h) ho
      congr 1
      refine scaled_unique (scaled_congr ?_ (scaled_result hnt h2)) e2
      rw [colTriples_eq, h.tbs]
      exact transpose_triples h.bs.ids
    refine ⟨key o, ?_⟩
    rintro rfl
    obtain ⟨m'', hm'⟩ := costRun_exists hD ht (tbs_costs h)
    rw [← key _ hm']
    exact hm'

/-- **Scaling columns**: whatever the number of threads and the schedule, column `c` of the matrix is
multiplied by `x c`; values that belong to no cell, the scales and the other vector keep their values. -/
theorem scale_columns {M : BMat K} (h : M.Ok) {threads : ℕ} (ht : 0 < threads) (x y : ℕ → K) :
    ∃ v' : ℕ → K,
      (∀ o, ScaleRun M threads (memOf M x y) o ↔ o = some (memOf { M with values := v' } x y)) ∧
      (∀ r c, BMat.entry { M with values := v' } r c = M.entry r c * x c) ∧
      ∀ p, M.nnz ≤ p → v' p = M.values p := by
  obtain ⟨m', h1, h2⟩ := scale_run h ht (memOf M x y)
  refine ⟨fun q => m' (.val q), ?_, ?_, ?_⟩
  · have : m' = memOf { M with values := fun q => m' (.val q) } x y := by
      funext l
      cases l with
      | val q => rfl
      | x q =>
        refine h1.2 _ fun e he heq => ?_
        obtain ⟨t, -, i, -, j, -, rfl⟩ := mem_scaleOf.1 he
        exact nomatch heq
      | y q =>
        refine h1.2 _ fun e he heq => ?_
        obtain ⟨t, -, i, -, j, -, rfl⟩ := mem_scaleOf.1 he
        exact nomatch heq
    rw [← this]
    exact h2
  · intro r c
    unfold BMat.entry
    simp only
    rw [entry_triples, entry_triples, ← list_sum_mul]
    congr 1
    refine List.map_congr_left fun t ht => ?_
    unfold cellAt
    by_cases hin : t.1.position ≤ r ∧ r < t.1.position + t.1.size ∧ t.2.1.position ≤ c ∧
        c < t.2.1.position + t.2.1.size
    · rw [if_pos hin, if_pos hin]
      have := h1.1 _ (mem_scaleOf.2 ⟨t, ht, r - t.1.position, by omega, c - t.2.1.position, by omega, rfl⟩)
      simp only at this
      refine this.trans ?_
      simp only [memOf]
      congr 2
      omega
    · rw [if_neg hin, if_neg hin, zero_mul]
  · intro p hp
    refine h1.2 _ fun e he heq => ?_
    obtain ⟨t, ht, i, hi, j, hj, rfl⟩ := mem_scaleOf.1 he
    injection heq with heq
    have := (cell_ok h ht).val i j hi hj
    omega

end Ceres.BlockSparse
