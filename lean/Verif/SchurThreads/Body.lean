import Verif.SchurThreads.Ops

/-!
# The loop bodies keep to the discipline
-/

noncomputable section

namespace Ceres.SchurThreads

open Matrix Ceres.Schur Ceres.Tasks

variable {sz : ℕ → ℕ}

/-- What the locations are in the loop over the chunks: the reduced system is guarded by its mutexes, and
thread `t` has the slice `[t * size, (t + 1) * size)` of the buffers. -/
def chunkKind (has : ℕ → ℕ → Bool) (size : ℕ) : Loc → Kind Mutex
  | .lhs x y _ _ => if has x y then .guarded (.cell x y) else .fixed
  | .rhs x _ => .guarded (.rhs x)
  | .buffer p => .scratch (p / size)
  | .outer p => .scratch (p / size)
  | .sol _ _ => .fixed

/-- The code keeps to the discipline and makes the additions `a`. -/
def Ok (has : ℕ → ℕ → Bool) (size : ℕ) (free : Bool) (tid i : ℕ) (m0 : Mem) (k : Prog) (p : Mem) (a : List (Loc × ℝ)) : Prop :=
  ∃ p', Runs (chunkKind has size) free tid i m0 none k p p' a

variable {size threads tid i : ℕ} {free : Bool} {m0 : Mem} {has : ℕ → ℕ → Bool}

theorem ok_cell (hf : threads = 1 → free = true) {x y : ℕ} {A : Matrix (Fin (sz x)) (Fin (sz y)) ℝ} {k : Prog} {p : Mem}
    {a : List (Loc × ℝ)} (h : Ok has size free tid i m0 k p a) :
    Ok has size free tid i m0 (cellCode threads has x y A k) p ((Op.cell x y A).entries has ++ a) := by
  obtain ⟨p', h⟩ := h
  unfold cellCode
  simp only [Op.entries]
  by_cases hh : has x y
  · rw [if_pos hh, if_pos hh]
    refine ⟨p', runs_condLock hf _ _ ?_ h⟩
    intro e he
    obtain ⟨i, j, rfl⟩ := mem_matEntries.1 he
    exact if_pos hh
  · rw [if_neg hh, if_neg hh]
    exact ⟨p', h⟩

theorem ok_vec (hf : threads = 1 → free = true) {x : ℕ} {v : Fin (sz x) → ℝ} {k : Prog} {p : Mem} {a : List (Loc × ℝ)}
    (h : Ok has size free tid i m0 k p a) :
    Ok has size free tid i m0 (vecCode threads x v k) p ((Op.vec x v).entries has ++ a) := by
  obtain ⟨p', h⟩ := h
  unfold vecCode
  simp only [Op.entries]
  refine ⟨p', runs_condLock hf _ _ ?_ h⟩
  intro e he
  obtain ⟨i, rfl⟩ := mem_vecEntries.1 he
  rfl

theorem ok_rowOuter (hf : threads = 1 → free = true) {m : ℕ} (cs : List (Cell sz m)) {k : Prog} {p : Mem} {a : List (Loc × ℝ)}
    (h : Ok has size free tid i m0 k p a) :
    Ok has size free tid i m0 (rowOuterCode threads has cs k) p
      ((rowOuterOps cs).flatMap (Op.entries has) ++ a) := by
  induction cs with
  | nil => exact h
  | cons c cs ih =>
    have key : ∀ (ds : List (Cell sz m)) {k : Prog} {a : List (Loc × ℝ)}, Ok has size free tid i m0 k p a →
        Ok has size free tid i m0
          (ds.foldr (fun d k => cellCode threads has c.id d.id (c.valᵀ * d.val) k) k) p
          ((ds.map fun d => Op.cell c.id d.id (c.valᵀ * d.val)).flatMap (Op.entries has) ++ a) := by
      intro ds
      induction ds with
      | nil => exact fun h => h
      | cons d ds ih =>
        intro k a h
        rw [List.foldr_cons, List.map_cons, List.flatMap_cons, List.append_assoc]
        exact ok_cell hf (ih h)
    rw [rowOuterCode, rowOuterOps, List.cons_append, List.flatMap_cons, List.flatMap_append,
      List.append_assoc, List.append_assoc]
    exact ok_cell hf (key cs ih)

/-! ## The buffer -/

/-- The buffer holds `B`. -/
def Holds (base : ℕ) (lay : List (ℕ × ℕ)) {e : ℕ} (B : (f : ℕ) → Matrix (Fin (sz e)) (Fin (sz f)) ℝ)
    (p : Mem) : Prop :=
  ∀ a ∈ lay, ∀ (r : Fin (sz e)) (c : Fin (sz a.1)), p (bufLoc (base + a.2) r c) = B a.1 r c

theorem slice_div {p : ℕ} (h : p < size) : (tid * size + p) / size = tid := by
  rw [Nat.add_comm, Nat.add_mul_div_right _ _ (by omega), Nat.div_eq_of_lt h, zero_add]

theorem mine_buf {q m c : ℕ} (h : q + m * c ≤ size) (r : Fin m) (s : Fin c) :
    Mine (chunkKind has size) tid i (bufLoc (tid * size + q) r s) := by
  refine Or.inl ?_
  have := pos_lt r s
  show Kind.scratch _ = _
  rw [Nat.add_assoc, Nat.add_assoc, slice_div (by omega)]

theorem mine_out {m c : ℕ} (h : m * c ≤ size) (r : Fin m) (s : Fin c) :
    Mine (chunkKind has size) tid i (outLoc (tid * size) r s) := by
  refine Or.inl ?_
  have := pos_lt r s
  show Kind.scratch _ = _
  rw [Nat.add_assoc, slice_div (by omega)]

variable {e : ℕ} {s : List (ℕ × ℕ) × ℕ}

theorem Lay.unique (hl : Lay sz e s) {a b : ℕ × ℕ} (ha : a ∈ s.1) (hb : b ∈ s.1) (h : a.1 = b.1) : a = b :=
  Prod.ext h (by rw [← hl.slot ha, ← hl.slot hb, h])

/-- Adding to one slot. -/
theorem holds_add (hl : Lay sz e s) {base : ℕ} {B : (f : ℕ) → Matrix (Fin (sz e)) (Fin (sz f)) ℝ} {p : Mem}
    (hp : Holds base s.1 B p) {b : ℕ × ℕ} (hb : b ∈ s.1) (A : Matrix (Fin (sz e)) (Fin (sz b.1)) ℝ) :
    Holds base s.1 (Function.update B b.1 (B b.1 + A))
      (addTo (matEntries A (bufLoc (base + b.2))) p) := by
  intro a ha r c
  rw [addTo_eq, hp a ha]
  by_cases h : a.1 = b.1
  · have := hl.unique ha hb h
    subst this
    rw [Function.update_self, sumAt_matEntries A (bufLoc_inj _)]
    rfl
  · rw [Function.update_of_ne h, sumAt_of_not_mem, add_zero]
    intro e' he' heq
    obtain ⟨r', c', rfl⟩ := mem_matEntries.1 he'
    unfold bufLoc at heq
    simp only [Loc.buffer.injEq] at heq
    have h1 := pos_lt r c
    have h2 := pos_lt r' c'
    have := hl.apart a ha b hb h
    omega

theorem ok_buffer (hl : Lay sz e s) (hsz : s.2 ≤ size) {m : ℕ} (E : Matrix (Fin m) (Fin (sz e)) ℝ)
    (cs : List (Cell sz m)) (hc : ∀ c ∈ cs, c.id ∈ s.1.map Prod.fst) {k : Prog} {a : List (Loc × ℝ)} :
    ∀ (B : (f : ℕ) → Matrix (Fin (sz e)) (Fin (sz f)) ℝ) (p : Mem), Holds (tid * size) s.1 B p →
    (∀ p, Holds (tid * size) s.1 (fun f => B f + Eᵀ * Schur.sumAt cs f) p → Ok has size free tid i m0 k p a) →
    Ok has size free tid i m0 (bufferCode (tid * size) s.1 E cs k) p a := by
  induction cs with
  | nil =>
    intro B p hp h
    refine h p ?_
    intro a ha r c
    rw [hp a ha]
    simp
  | cons c cs ih =>
    intro B p hp h
    obtain ⟨b, hb, hbc⟩ := List.mem_map.1 (hc c (by simp))
    obtain ⟨id, val⟩ := c
    simp only at hbc
    subst hbc
    have hin := hl.inside b hb
    have hslot := hl.slot hb
    have hrest := ih (fun c hc' => hc c (by simp [hc'])) (Function.update B b.1 (B b.1 + Eᵀ * val))
      (addTo (matEntries (Eᵀ * val) (bufLoc (tid * size + b.2))) p) (holds_add hl hp hb _) (by
        intro p1 h1
        refine h p1 ?_
        intro a' ha r c'
        rw [h1 a' ha]
        simp only [Schur.sumAt_cons, Matrix.mul_add, ← add_assoc]
        by_cases hh : a'.1 = b.1
        · have := hl.unique ha hb hh
          subst this
          rw [Function.update_self, Cell.at_self ⟨a'.1, val⟩]
        · rw [Function.update_of_ne hh, Cell.at_ne _ (Ne.symm hh), Matrix.mul_zero, add_zero])
    obtain ⟨p', hr⟩ := hrest
    refine ⟨p', ?_⟩
    show Runs _ _ _ _ _ _ (adds (matEntries (Eᵀ * val) (bufLoc (tid * size + slotOf s.1 b.1))) _) _ _ _
    rw [hslot]
    refine runs_adds_mine _ ?_ hr
    intro e' he'
    obtain ⟨r, c, rfl⟩ := mem_matEntries.1 he'
    exact mine_buf (by omega) r c

theorem ok_chunkDiag (hf : threads = 1 → free = true) (hl : Lay sz e s) (hsz : s.2 ≤ size) (chunk : List (Row sz))
    (hc : ∀ r ∈ chunk, ∀ c ∈ r.cells.tail, c.id ∈ s.1.map Prod.fst)
    {k : Matrix (Fin (sz e)) (Fin (sz e)) ℝ → (Fin (sz e) → ℝ) → Prog} {a : List (Loc × ℝ)} :
    ∀ (ete : Matrix (Fin (sz e)) (Fin (sz e)) ℝ) (g : Fin (sz e) → ℝ)
      (B : (f : ℕ) → Matrix (Fin (sz e)) (Fin (sz f)) ℝ) (p : Mem), Holds (tid * size) s.1 B p →
    (∀ p, Holds (tid * size) s.1 (bufAfter e chunk B) p → Ok has size free tid i m0
      (k (ete + (chunk.map fun r => (r.eCell e)ᵀ * r.eCell e).sum)
        (g + (chunk.map fun r => (r.eCell e)ᵀ *ᵥ r.rhs).sum)) p a) →
    Ok has size free tid i m0 (chunkDiagCode threads has (tid * size) s.1 e chunk ete g k) p
      ((chunk.flatMap fun r => rowOuterOps r.cells.tail).flatMap (Op.entries has) ++ a) := by
  induction chunk with
  | nil =>
    intro ete g B p hp h
    simp only [List.map_nil, List.sum_nil, add_zero] at h
    refine h p ?_
    intro b hb r c
    rw [hp b hb]
    simp [bufAfter]
  | cons r rs ih =>
    intro ete g B p hp h
    rw [chunkDiagCode, List.flatMap_cons, List.flatMap_append, List.append_assoc]
    refine ok_rowOuter hf _ (ok_buffer hl hsz (r.eCell e) _ (hc r (by simp)) B p hp ?_)
    intro p1 h1
    refine ih (fun r hr => hc r (by simp [hr])) _ _ _ p1 h1 ?_
    intro p2 h2
    have := h p2 (by
      intro b hb r' c'
      rw [h2 b hb]
      simp only [bufAfter, List.map_cons, List.sum_cons, add_assoc])
    simp only [List.map_cons, List.sum_cons, ← add_assoc] at this
    exact this

theorem ok_updateRhs (hf : threads = 1 → free = true) (v : Fin (sz e) → ℝ) (chunk : List (Row sz)) {k : Prog} {p : Mem}
    {a : List (Loc × ℝ)} (h : Ok has size free tid i m0 k p a) :
    Ok has size free tid i m0 (updateRhsCode threads e v chunk k) p
      ((rhsOps e v chunk).flatMap (Op.entries has) ++ a) := by
  induction chunk with
  | nil => exact h
  | cons r rs ih =>
    have key : ∀ (cs : List (Cell sz r.size)) {k : Prog} {a : List (Loc × ℝ)},
        Ok has size free tid i m0 k p a →
        Ok has size free tid i m0
          (cs.foldr (fun c k => vecCode threads c.id (c.valᵀ *ᵥ (r.rhs - r.eCell e *ᵥ v)) k) k) p
          ((cs.map fun c => Op.vec c.id (c.valᵀ *ᵥ (r.rhs - r.eCell e *ᵥ v))).flatMap
            (Op.entries has) ++ a) := by
      intro ds
      induction ds with
      | nil => exact fun h => h
      | cons d ds ih =>
        intro k a h
        rw [List.foldr_cons, List.map_cons, List.flatMap_cons, List.append_assoc]
        exact ok_vec hf (ih h)
    rw [updateRhsCode, rhsOps, List.flatMap_cons, List.flatMap_append, List.append_assoc]
    exact key r.cells.tail ih

/-! ## The outer products of the chunk -/

theorem ok_outerCell (hf : threads = 1 → free = true) (hl : Lay sz e s) (hsz : s.2 ≤ size) {B : (f : ℕ) → Matrix (Fin (sz e)) (Fin (sz f)) ℝ}
    {p : Mem} (hp : Holds (tid * size) s.1 B p) {k1 : ℕ} (hk : sz k1 * sz e ≤ size)
    {T : Matrix (Fin (sz k1)) (Fin (sz e)) ℝ} (hT : ∀ r c, p (outLoc (tid * size) r c) = T r c)
    {s2 : ℕ × ℕ} (h2 : s2 ∈ s.1) {k : Prog} {a : List (Loc × ℝ)} (h : Ok has size free tid i m0 k p a) :
    Ok has size free tid i m0
      (outerCellCode (sz := sz) threads has (tid * size) (tid * size) e k1 s2 k) p
      ((Op.cell k1 s2.1 (-(T * B s2.1))).entries has ++ a) := by
  obtain ⟨p', h⟩ := h
  unfold outerCellCode
  simp only [Op.entries]
  by_cases hh : has k1 s2.1
  · rw [if_pos hh, if_pos hh]
    have e1 : (fun r c => p (outLoc (tid * size) r c)) = T := by funext r c; exact hT r c
    have e2 : (fun r c => p (bufLoc (tid * size + s2.2) r c)) = B s2.1 := by
      funext r c; exact hp s2 h2 r c
    have hin := hl.inside s2 h2
    have hg : ∀ x ∈ matEntries (-(T * B s2.1)) (lhsLoc k1 s2.1),
        chunkKind has size x.1 = .guarded (.cell k1 s2.1) := by
      intro e' he'
      obtain ⟨r, c, rfl⟩ := mem_matEntries.1 he'
      exact if_pos hh
    have hreads : ∀ (hold : Option Mutex) (c : Matrix (Fin (sz k1)) (Fin (sz s2.1)) ℝ → Prog)
        (b : List (Loc × ℝ)),
        Runs (chunkKind has size) free tid i m0 hold (c (T * B s2.1)) p p' b →
        Runs (chunkKind has size) free tid i m0 hold
          (readMat (sz k1) (sz e) (outLoc (tid * size)) fun T =>
            readMat (sz e) (sz s2.1) (bufLoc (tid * size + s2.2)) fun B2 => c (T * B2)) p p' b := by
      intro hold c b hr
      refine runs_readMat (fun r c => mine_out hk r c) ?_
      rw [e1]
      refine runs_readMat (fun r c => mine_buf (by omega) r c) ?_
      rw [e2]
      exact hr
    refine ⟨p', ?_⟩
    unfold condLock condUnlock
    by_cases ht : threads = 1
    · rw [if_pos ht]
      simp only [if_pos ht]
      refine hreads none (fun X => adds (matEntries (-X) (lhsLoc k1 s2.1)) k) _ ?_
      exact runs_adds_guarded _ _ hg (Or.inr ⟨rfl, hf ht⟩) h
    · rw [if_neg ht]
      simp only [if_neg ht]
      refine .lock (hreads _
        (fun X => adds (matEntries (-X) (lhsLoc k1 s2.1)) (.unlock (.cell k1 s2.1) k)) _ ?_)
      exact runs_adds_guarded _ _ hg (Or.inl rfl) (.unlock h)
  · rw [if_neg hh, if_neg hh]
    exact ⟨p', h⟩

theorem ok_chunkOuter (hf : threads = 1 → free = true) (hl : Lay sz e s) (hsz : s.2 ≤ size) {B : (f : ℕ) → Matrix (Fin (sz e)) (Fin (sz f)) ℝ}
    (inverseEte : Matrix (Fin (sz e)) (Fin (sz e)) ℝ) (rest : List (ℕ × ℕ)) (hs : rest ⊆ s.1)
    {k : Prog} {a : List (Loc × ℝ)}
    (h : ∀ p, Holds (tid * size) s.1 B p → Ok has size free tid i m0 k p a) :
    ∀ p, Holds (tid * size) s.1 B p →
    Ok has size free tid i m0 (chunkOuterCode threads has (tid * size) (tid * size) inverseEte rest k) p
      ((outerOps inverseEte B (rest.map Prod.fst)).flatMap (Op.entries has) ++ a) := by
  induction rest with
  | nil => exact h
  | cons s1 rest ih =>
    intro p hp
    have hs1 : s1 ∈ s.1 := hs (by simp)
    have hin := hl.inside s1 hs1
    have hk : sz s1.1 * sz e ≤ size := by rw [Nat.mul_comm]; omega
    rw [chunkOuterCode, List.map_cons, outerOps, List.flatMap_append, List.append_assoc]
    have e1 : (fun r c => p (bufLoc (tid * size + s1.2) r c)) = B s1.1 := by
      funext r c; exact hp s1 hs1 r c
    set T := (B s1.1)ᵀ * inverseEte with hT
    set p1 := setTo (matEntries T (outLoc (tid * size))) p with hp1
    have h1 : Holds (tid * size) s.1 B p1 := by
      intro b hb r c
      rw [hp1, setTo_of_not_mem, hp b hb]
      intro e' he' h
      obtain ⟨r, c, rfl⟩ := mem_matEntries.1 he'
      exact nomatch h
    have hT1 : ∀ r c, p1 (outLoc (tid * size) r c) = T r c := fun r c =>
      setTo_of_mem (e := (outLoc (tid * size) r c, T r c)) (matEntries_nodup (outLoc_inj _))
        (mem_matEntries.2 ⟨r, c, rfl⟩)
    have key : ∀ (ds : List (ℕ × ℕ)), ds ⊆ s.1 → ∀ {k : Prog} {a : List (Loc × ℝ)},
        Ok has size free tid i m0 k p1 a →
        Ok has size free tid i m0 (ds.foldr (fun s2 k =>
          outerCellCode (sz := sz) threads has (tid * size) (tid * size) e s1.1 s2 k) k) p1
          (((ds.map Prod.fst).map fun k2 => Op.cell s1.1 k2 (-(T * B k2))).flatMap (Op.entries has) ++ a) := by
      intro ds
      induction ds with
      | nil => exact fun _ _ _ h => h
      | cons d ds ih =>
        intro hds k a h
        rw [List.foldr_cons, List.map_cons, List.map_cons, List.flatMap_cons, List.append_assoc]
        exact ok_outerCell hf hl hsz h1 hk hT1 (hds (by simp)) (ih (fun x hx => hds (by simp [hx])) h)
    obtain ⟨p', hr⟩ := key (s1 :: rest) hs (ih (fun x hx => hs (by simp [hx])) p1 h1)
    refine ⟨p', runs_readMat (fun r c => mine_buf (by omega) r c) ?_⟩
    rw [e1]
    refine runs_writes _ ?_ hr
    intro e' he'
    obtain ⟨r, c, rfl⟩ := mem_matEntries.1 he'
    exact mine_out hk r c

/-! ## The body of a chunk -/

theorem holds_zero (hl : Lay sz e s) (hsz : s.2 ≤ size) (p : Mem) :
    Holds (tid * size) s.1 (fun f => (0 : Matrix (Fin (sz e)) (Fin (sz f)) ℝ))
      (setTo ((List.range size).map fun q => (Loc.buffer (tid * size + q), 0)) p) := by
  intro a ha r c
  have hin := hl.inside a ha
  have := pos_lt r c
  have hmem : (bufLoc (tid * size + a.2) r c, (0 : ℝ)) ∈
      (List.range size).map fun q => (Loc.buffer (tid * size + q), (0 : ℝ)) := by
    refine List.mem_map.2 ⟨a.2 + r * sz a.1 + c, List.mem_range.2 (by omega), ?_⟩
    unfold bufLoc
    rw [Nat.add_assoc (tid * size), Nat.add_assoc, Nat.add_assoc, Nat.add_assoc]
  refine (setTo_of_mem ?_ hmem).trans rfl
  rw [List.map_map]
  refine List.Nodup.map ?_ List.nodup_range
  intro q q' h
  simp only [Function.comp, Loc.buffer.injEq] at h
  omega

theorem ok_chunkBody (hf : threads = 1 → free = true) (inv : Inverter) (D : Option (BVec sz)) (wantRhs : Bool) (ch : ℕ × List (Row sz))
    (hsz : (layoutOf ch).2 ≤ size) (p : Mem) :
    Ok has size free tid i m0 (chunkBody inv has D wantRhs threads size tid ch) p
      ((chunkOps inv D wantRhs ch).flatMap (Op.entries has)) := by
  have hl := layout_lay ch
  unfold chunkBody chunkOps
  rw [List.flatMap_append]
  have hdiag := ok_chunkDiag hf (tid := tid) (i := i) (m0 := m0) (has := has) hl hsz ch.2
    (by
      intro r hr c hc
      rw [layout_keys]
      exact ((bufferKeys_spec ch.2).2 c.id).2 ⟨r, hr, c, hc, rfl⟩)
    (k := fun ete g =>
      let outer := chunkOuterCode threads has (tid * size) (tid * size) (inv _ ete) (layoutOf ch).1 .ret
      if wantRhs then updateRhsCode threads ch.1 (inv _ ete *ᵥ g) ch.2 outer else outer)
    (a := ((if wantRhs then rhsOps ch.1 (inv _ (eteOf D ch) *ᵥ gOf ch) ch.2 else []) ++
      outerOps (inv _ (eteOf D ch)) (bufOf ch) (bufferKeys ch.2)).flatMap (Op.entries has))
    (eteInit D ch.1) 0 (fun _ => 0) _ (holds_zero hl hsz p) (by
      intro p1 h1
      have hb : Holds (tid * size) (layoutOf ch).1 (bufOf ch) p1 := by
        intro b hb r c
        rw [h1 b hb]
        simp only [bufAfter, zero_add]
        rfl
      have ho := ok_chunkOuter hf (i := i) (m0 := m0) (has := has) (k := .ret) (a := [])
        hl hsz (inv _ (eteOf D ch)) (layoutOf ch).1 (fun _ h => h) (fun p _ => ⟨p, .ret p⟩) p1 hb
      rw [List.append_nil, layout_keys] at ho
      simp only [zero_add]
      rw [List.flatMap_append]
      cases wantRhs with
      | false => exact ho
      | true => exact ok_updateRhs hf _ _ ho)
  obtain ⟨p', hr⟩ := hdiag
  refine ⟨p', runs_writes _ ?_ hr⟩
  intro e' he'
  obtain ⟨q, hq, rfl⟩ := List.mem_map.1 he'
  refine Or.inl ?_
  show Kind.scratch _ = _
  rw [slice_div (List.mem_range.1 hq)]

end Ceres.SchurThreads
