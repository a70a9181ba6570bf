import Verif.Inner.Local
import Verif.Inner.Spec

/-!
# C56: every schedule of the inner iterations computes the sweep
-/
namespace Ceres.Inner

open Ceres.Graph (Prog Groups)

variable {B α : Type} [DecidableEq B]

/-- What a pointer of the task's own block contributes to `Solver.run`. -/
def Ptr.buf : Ptr α → Option α
  | .buffer v => some v
  | _ => none

theorem ownValue_buf {off : ℤ} {c : Cell α} {x : α}
    (hp : c.state = .array off ∨ ∃ v, c.state = .buffer v) :
    ownValue off (c, x) = some (some (c.state.buf.getD x)) := by
  unfold ownValue
  rcases hp with hp | ⟨v, hp⟩ <;> simp [hp, Ptr.buf]

/-- The accesses of `Solve`, run alone. -/
theorem code_alone {P : Prog B} {res : List ℕ} {b : B} {off : ℤ} {others : B → View α}
    {frz : B → Option (Cell α × α)}
    (hlook : ∀ n i b', paramOf P res n i = some b' → b' ≠ b →
      ∃ c v, frz b' = some (c, v) ∧ viewOf c (some v) = some (others b'))
    (k : Code B α) (s : Solver α) :
    ∀ (c : Cell α) (x x' : α), c.constant = false → c.index = 0 → c.deltaOffset = 0 →
    c.stateOffset = 0 → (c.state = .array off ∨ ∃ v, c.state = .buffer v) →
    s.run P res b others (x, c.state.buf) = some x' →
    ∃ p, (p = .array off ∨ ∃ v, p = .buffer v) ∧
      (s.code P res b off k).alone frz b off (c, x) =
        k.alone frz b off ({ c with state := p }, x') := by
  induction s with
  | done =>
    intro c x x' _ _ _ _ hp h
    simp only [Solver.run, Option.some.injEq] at h
    subst h
    exact ⟨c.state, hp, rfl⟩
  | abort => intro c x x' _ _ _ _ _ h; simp [Solver.run] at h
  | loadX f ih =>
    intro c x x' h1 h2 h3 h4 hp h
    obtain ⟨p, e1, e2⟩ := ih x c x x' h1 h2 h3 h4 hp h
    refine ⟨p, e1, ?_⟩
    rw [← e2]
    simp [Solver.code, Code.alone]
  | storeX v s ih =>
    intro c x x' h1 h2 h3 h4 hp h
    obtain ⟨p, e1, e2⟩ := ih c v x' h1 h2 h3 h4 hp h
    refine ⟨p, e1, ?_⟩
    rw [← e2]
    simp [Solver.code, Code.alone]
  | setState v s ih =>
    intro c x x' h1 h2 h3 h4 hp h
    obtain ⟨p, e1, e2⟩ := ih { c with state := .buffer v } x x' h1 h2 h3 h4 (Or.inr ⟨v, rfl⟩) h
    refine ⟨p, e1, ?_⟩
    simp only at e2
    rw [← e2]
    simp [Solver.code, setStateCode, Code.alone, ownValue_buf hp, h1]
  | look n i f ih =>
    intro c x x' h1 h2 h3 h4 hp h
    simp only [Solver.run] at h
    cases hb : paramOf P res n i with
    | none => rw [hb] at h; simp at h
    | some b' =>
      rw [hb] at h
      simp only at h
      have hcode : (Solver.look n i f).code P res b off k = .read b' fun c v =>
          match viewOf c v with
          | none => .abort
          | some w => (f w).code P res b off k := by
        unfold paramOf at hb
        simp only [Solver.code]
        rw [hb]
        rfl
      rw [hcode]
      by_cases hbb : b' = b
      · rw [if_pos hbb] at h
        obtain ⟨p, e1, e2⟩ := ih _ c x x' h1 h2 h3 h4 hp h
        refine ⟨p, e1, ?_⟩
        rw [← e2]
        simp [Code.alone, hbb, ownValue_buf hp, viewOf, h1, h2, h3, h4]
      · rw [if_neg hbb] at h
        obtain ⟨cc, v, g1, g2⟩ := hlook n i b' hb hbb
        obtain ⟨p, e1, e2⟩ := ih _ c x x' h1 h2 h3 h4 hp h
        refine ⟨p, e1, ?_⟩
        rw [← e2]
        simp [Code.alone, hbb, g1, g2]
  | own f ih =>
    intro c x x' h1 h2 h3 h4 hp h
    simp only [Solver.run] at h
    obtain ⟨p, e1, e2⟩ := ih _ c x x' h1 h2 h3 h4 hp h
    refine ⟨p, e1, ?_⟩
    rw [← e2]
    simp [Solver.code, Code.alone, ownValue_buf hp, viewOf, h1, h2, h3, h4]

/-- A whole task, run alone on a block that `Minimize` has prepared. -/
theorem task_alone {P : Prog B} {S : Setup B} {numThreads : ℕ} {solver : B → List ℕ → Solver α}
    {tid j : ℕ} {b : B} {res : List ℕ} (hb : S.blocks[j]? = some b) (hr : S.residuals[j]? = some res)
    (ht : tid < numThreads) {others : B → View α} {frz : B → Option (Cell α × α)} {c : Cell α}
    (hlook : ∀ n i b', paramOf P res n i = some b' → b' ≠ b →
      ∃ c v, frz b' = some (c, v) ∧ viewOf c (some v) = some (others b'))
    (hs : c.state = .array c.stateOffset) (hc : c.constant = true) {x x' : α}
    (h : (solver b res).run P res b others (x, none) = some x') :
    (task P S numThreads solver tid j).alone frz b c.stateOffset (c, x) = some (c, x') := by
  unfold task
  rw [hb, hr]
  have hbuf : c.state.buf = none := by rw [hs]; rfl
  obtain ⟨p, hp, e⟩ := code_alone (off := c.stateOffset) hlook
    (.write b (fun d => { d with state := d.state.freed }) <|
    .write b (fun d => { d with index := c.index }) <|
    .write b (fun d => { d with deltaOffset := c.deltaOffset }) <|
    .write b (fun d => { d with stateOffset := c.stateOffset }) <|
    setStateCode b (fun d => .array d.stateOffset) <|
    .write b (fun d => { d with constant := true }) <|
    .ret) (solver b res)
    { c with
      constant := false
      index := 0
      deltaOffset := 0
      stateOffset := 0 } x x' rfl rfl rfl rfl (Or.inl hs) (by simpa [hbuf] using h)
  have hown : ownValue c.stateOffset (c, x) = some (some x) := by simp [ownValue, hs]
  simp only [Code.alone, if_true, hown, if_neg (Nat.not_le.2 ht)]
  rw [e]
  have hsc : c = { c with
      state := .array c.stateOffset
      constant := true } := by
    cases c; simp_all
  rcases hp with rfl | ⟨v, rfl⟩
  · simp [Code.alone, setStateCode, ownValue, Ptr.freed]
    exact hsc.symm
  · simp [Code.alone, setStateCode, ownValue, Ptr.freed]
    exact hsc.symm

/-! ## One group -/

/-- The memory between the groups: the blocks of the program are frozen and point to their cells of
the array, which hold `x`; the other blocks point elsewhere. -/
structure Prepared (P : Prog B) (m : Mem B α) (x : B → α) : Prop where
  state : ∀ b ∈ P.blocks, (m.cell b).state = .array (m.cell b).stateOffset
  constant : ∀ b ∈ P.blocks, (m.cell b).constant = true
  inj : ∀ a ∈ P.blocks, ∀ b ∈ P.blocks, (m.cell a).stateOffset = (m.cell b).stateOffset → a = b
  value : ∀ b ∈ P.blocks, m.array (m.cell b).stateOffset = x b
  outside : ∀ b, b ∉ P.blocks → (m.cell b).state = .buffer (x b)

/-- What the minimisation over one block sees of the others. -/
def viewsAt (cell : B → Cell α) (x : B → α) (b : B) : View α :=
  ⟨x b, (cell b).constant, (cell b).index, (cell b).deltaOffset, (cell b).stateOffset⟩

omit [DecidableEq B] in
theorem Prepared.viewOf {P : Prog B} {m : Mem B α} {x : B → α} (h : Prepared P m x) (b : B) :
    m.value b = some (x b) := by
  unfold Mem.value
  by_cases hb : b ∈ P.blocks
  · rw [h.state b hb]; simp [Ptr.deref, h.value b hb]
  · rw [h.outside b hb]; rfl

theorem mem_residualsOf {P : Prog B} {b : B} {r : ℕ} :
    r ∈ residualsOf P b ↔ ∃ ps, P.residuals[r]? = some ps ∧ b ∈ ps := by
  unfold residualsOf
  rw [List.mem_filter, List.mem_range, decide_eq_true_eq]
  constructor
  · rintro ⟨h1, h2⟩
    refine ⟨P.residuals[r], List.getElem?_eq_getElem h1, ?_⟩
    rw [List.getD_eq_getElem?_getD, List.getElem?_eq_getElem h1] at h2
    exact h2
  · rintro ⟨ps, h1, h2⟩
    refine ⟨(List.getElem?_eq_some_iff.1 h1).1, ?_⟩
    rw [List.getD_eq_getElem?_getD, h1]
    exact h2

/-- A block that the task of `b` may look at shares a residual block with `b`. -/
theorem paramOf_share {P : Prog B} {b b' : B} {n i : ℕ}
    (h : paramOf P (residualsOf P b) n i = some b') : P.Share b b' := by
  unfold paramOf at h
  cases hr : (residualsOf P b)[n]? with
  | none => rw [hr] at h; simp at h
  | some r =>
    rw [hr] at h
    simp only [Option.bind_some] at h
    obtain ⟨ps, h1, h2⟩ := mem_residualsOf.1 (List.mem_of_getElem? hr)
    rw [h1] at h
    exact ⟨ps, List.mem_of_getElem? h1, h2, List.mem_of_getElem? h⟩

/-- The result of the minimisation over block `b`, as a function of the values of all blocks. -/
def best (P : Prog B) (solver : B → List ℕ → Solver α) (cell : B → Cell α) (b : B) (x : B → α) : α :=
  ((solver b (residualsOf P b)).run P (residualsOf P b) b (viewsAt cell x) (x b, none)).getD (x b)

/-- The inner solves never abort. -/
def NeverAborts (P : Prog B) (solver : B → List ℕ → Solver α) : Prop :=
  ∀ b others x, (solver b (residualsOf P b)).run P (residualsOf P b) b others (x, none) ≠ none

theorem group_run {P : Prog B} {S : Setup B} {numThreads : ℕ} {solver : B → List ℕ → Solver α}
    (htot : NeverAborts P solver) {m : Mem B α} {x : B → α} (hm : Prepared P m x)
    {pre g post : List B} (hS : S.blocks = pre ++ g ++ post) (hperm : S.blocks.Perm P.blocks)
    (hnd : P.blocks.Nodup)
    (hres : ∀ j b, pre.length ≤ j → j < pre.length + g.length → S.blocks[j]? = some b →
      S.residuals[j]? = some (residualsOf P b))
    (hind : ∀ a ∈ g, ∀ b ∈ g, a ≠ b → ¬ P.Share a b) (ht : 0 < numThreads) (hg : g ≠ [])
    {r : Option (Mem B α)}
    (h : ForRun (task P S numThreads solver) pre.length (pre.length + g.length)
      (min numThreads g.length) m r) :
    ∃ m', r = some m' ∧ m'.cell = m.cell ∧
      Prepared P m' (groupStep (best P solver m.cell) x g) ∧
      ∀ o, (∀ b ∈ g, o ≠ (m.cell b).stateOffset) → m'.array o = m.array o := by
  obtain ⟨b0, hb0⟩ := List.exists_mem_of_ne_nil g hg
  have hlen : 0 < g.length := List.length_pos_of_mem hb0
  have hSnd : S.blocks.Nodup := hperm.nodup_iff.2 hnd
  have hget : ∀ j, pre.length ≤ j → j < pre.length + g.length →
      ∃ b ∈ g, S.blocks[j]? = some b ∧ (S.blocks[j]?).getD b0 = b := by
    intro j h1 h2
    refine ⟨g[j - pre.length], List.getElem_mem _, ?_⟩
    have : S.blocks[j]? = some (g[j - pre.length]) := by
      rw [hS, List.getElem?_append_left (by simp; omega), List.getElem?_append_right h1,
        List.getElem?_eq_getElem]
    exact ⟨this, by rw [this]; rfl⟩
  have hsub : ∀ b ∈ g, b ∈ P.blocks := fun b hb => hperm.subset (by rw [hS]; simp [hb])
  let blk : ℕ → B := fun j => (S.blocks[j]?).getD b0
  let off : ℕ → ℤ := fun j => (m.cell (blk j)).stateOffset
  let frz : ℕ → B → Option (Cell α × α) := fun j b' =>
    if b' ≠ blk j ∧ b' ∉ g then some (m.cell b', x b') else none
  let fin : ℕ → Cell α × α := fun j => (m.cell (blk j), best P solver m.cell (blk j) x)
  have T : Tasks (task P S numThreads solver) pre.length (pre.length + g.length)
      (min numThreads g.length) m blk off frz fin := by
    have hinj : ∀ i j, pre.length ≤ i → i < pre.length + g.length → pre.length ≤ j →
        j < pre.length + g.length → blk i = blk j → i = j := by
      intro i j i1 i2 j1 j2 he
      obtain ⟨a, _, a2, a3⟩ := hget i i1 i2
      obtain ⟨b, _, c2, c3⟩ := hget j j1 j2
      simp only [blk, a3, c3] at he
      subst he
      obtain ⟨hi, hi'⟩ := List.getElem?_eq_some_iff.1 a2
      obtain ⟨hj, hj'⟩ := List.getElem?_eq_some_iff.1 c2
      exact (hSnd.getElem_inj_iff).1 (hi'.trans hj'.symm)
    refine ⟨hinj, ?_, ?_, ?_⟩
    · intro i j i1 i2 j1 j2 he
      obtain ⟨a, a1, _, a3⟩ := hget i i1 i2
      obtain ⟨b, c1, _, c3⟩ := hget j j1 j2
      refine hinj i j i1 i2 j1 j2 ?_
      simp only [off] at he
      exact hm.inj _ (by simp only [blk, a3]; exact hsub a a1) _
        (by simp only [blk, c3]; exact hsub b c1) he
    · intro j tid h1 h2 h3
      obtain ⟨b, b1, b2, b3⟩ := hget j h1 h2
      simp only [blk, off, fin, b3]
      have hbP := hsub b b1
      have hown : m.own b (m.cell b).stateOffset = (m.cell b, x b) := by
        unfold Mem.own; rw [hm.value b hbP]
      rw [hown]
      refine task_alone (others := viewsAt m.cell x) b2 (hres j b h1 h2 b2) (by omega) ?_
        (hm.state b hbP) (hm.constant b hbP) ?_
      · intro n i b' hp hne
        refine ⟨m.cell b', x b', ?_, rfl⟩
        simp only [frz, blk, b3]
        rw [if_pos ⟨hne, fun hbg => hind b b1 b' hbg (fun h => hne h.symm) (paramOf_share hp)⟩]
      · have := htot b (viewsAt m.cell x) (x b)
        unfold best
        cases hr : (solver b (residualsOf P b)).run P (residualsOf P b) b (viewsAt m.cell x)
          (x b, none) with
        | none => exact absurd hr this
        | some v => rfl
    · intro j b' c v h1 h2 hf
      simp only [frz] at hf
      by_cases hb : b' ≠ blk j ∧ b' ∉ g
      · rw [if_pos hb] at hf
        simp only [Option.some.injEq, Prod.mk.injEq] at hf
        obtain ⟨rfl, rfl⟩ := hf
        refine ⟨rfl, hm.viewOf b', ?_⟩
        intro i i1 i2
        obtain ⟨a, a1, _, a3⟩ := hget i i1 i2
        simp only [blk, off, a3]
        refine ⟨fun he => hb.2 (he ▸ a1), ?_⟩
        by_cases hbP : b' ∈ P.blocks
        · rw [hm.state b' hbP]
          intro he
          injection he with he
          exact hb.2 ((hm.inj b' hbP a (hsub a a1) he) ▸ a1)
        · rw [hm.outside b' hbP]; simp
      · rw [if_neg hb] at hf; simp at hf
  obtain ⟨m', rfl, hrest, hfin⟩ := forRun_result T (by omega) h
  have hmemg : ∀ b ∈ g, ∃ j, pre.length ≤ j ∧ j < pre.length + g.length ∧ blk j = b := by
    intro b hb
    obtain ⟨i, hi, he⟩ := List.getElem_of_mem hb
    refine ⟨pre.length + i, by omega, by omega, ?_⟩
    simp only [blk]
    rw [hS, List.getElem?_append_left (by simp; omega), List.getElem?_append_right (by omega)]
    simp [hi, he]
  have hblk : ∀ j, pre.length ≤ j → j < pre.length + g.length → blk j ∈ g := by
    intro j h1 h2
    obtain ⟨b, b1, _, b3⟩ := hget j h1 h2
    simp only [blk, b3]; exact b1
  have hcell : m'.cell = m.cell := by
    funext b
    by_cases hb : b ∈ g
    · obtain ⟨j, j1, j2, rfl⟩ := hmemg b hb
      have := hfin j j1 j2
      simp only [Mem.own, fin, Prod.mk.injEq] at this
      exact this.1
    · exact hrest.1 b fun i i1 i2 he => hb (he ▸ hblk i i1 i2)
  have harr : ∀ o, (∀ b ∈ g, o ≠ (m.cell b).stateOffset) → m'.array o = m.array o := by
    intro o ho
    refine hrest.2 o fun i i1 i2 => ?_
    exact ho _ (hblk i i1 i2)
  refine ⟨m', rfl, hcell, ⟨?_, ?_, ?_, ?_, ?_⟩, harr⟩
  · intro b hb; rw [hcell]; exact hm.state b hb
  · intro b hb; rw [hcell]; exact hm.constant b hb
  · intro a ha b hb; rw [hcell]; exact hm.inj a ha b hb
  · intro b hb
    rw [hcell]
    unfold groupStep
    by_cases hbg : b ∈ g
    · rw [if_pos hbg]
      obtain ⟨j, j1, j2, rfl⟩ := hmemg b hbg
      have := hfin j j1 j2
      simp only [Mem.own, fin, off, Prod.mk.injEq] at this
      exact this.2
    · rw [if_neg hbg, harr _ fun a ha he => hbg ((hm.inj b hb a (hsub a ha) he) ▸ ha)]
      exact hm.value b hb
  · intro b hb
    rw [hcell, hm.outside b hb]
    unfold groupStep
    rw [if_neg fun hbg => hb (hsub b hbg)]

/-! ## All groups -/

/-- The offsets from position `a` on. -/
def offsetsFrom (a : ℕ) : List (List B) → List ℕ
  | [] => [a]
  | g :: gs => a :: offsetsFrom (a + g.length) gs

omit [DecidableEq B] in
theorem offsetsFrom_eq (a : ℕ) (groups : List (List B)) :
    offsetsFrom a groups =
      (List.range (groups.length + 1)).map fun k => a + (groups.take k).flatten.length := by
  induction groups generalizing a with
  | nil => simp [offsetsFrom]
  | cons g gs ih =>
    rw [offsetsFrom, ih, List.length_cons, List.range_succ_eq_map (n := gs.length + 1)]
    simp only [List.map_cons, List.map_map, List.take_zero, List.flatten_nil, List.length_nil,
      Nat.add_zero]
    congr 1
    apply List.map_congr_left
    intro k _
    simp [Nat.add_assoc]

theorem setsRun_trailing {task : ℕ → ℕ → Code B α} {numThreads : ℕ} (a n : ℕ) {m : Mem B α}
    {r : Option (Mem B α)} (h : SetsRun task numThreads (a :: List.replicate n a) m r) :
    r = some m := by
  induction n with
  | zero => cases h; rfl
  | succ n ih =>
    rw [List.replicate_succ] at h
    cases h with
    | skip _ _ _ _ _ h1 h2 => exact ih h2
    | run _ _ _ _ _ _ h1 => omega
    | abort _ _ _ _ h1 => omega

theorem offsetsFrom_cons (a : ℕ) (groups : List (List B)) :
    ∃ l, offsetsFrom a groups = a :: l := by
  cases groups with
  | nil => exact ⟨[], rfl⟩
  | cons g gs => exact ⟨_, rfl⟩

theorem sets_run {P : Prog B} {S : Setup B} {numThreads : ℕ} {solver : B → List ℕ → Solver α}
    (htot : NeverAborts P solver) (hnd : P.blocks.Nodup) (hperm : S.blocks.Perm P.blocks)
    (ht : 0 < numThreads) (rest : List B) :
    ∀ (groups : List (List B)) (pre : List B) (m : Mem B α) (x : B → α), Prepared P m x →
    S.blocks = pre ++ groups.flatten ++ rest →
    (∀ j b, pre.length ≤ j → j < pre.length + groups.flatten.length → S.blocks[j]? = some b →
      S.residuals[j]? = some (residualsOf P b)) →
    Independent P groups → ∀ r, SetsRun (task P S numThreads solver) numThreads
      (offsetsFrom pre.length groups ++
        List.replicate rest.length (pre.length + groups.flatten.length)) m r →
    ∃ m', r = some m' ∧ m'.cell = m.cell ∧ Prepared P m' (sweep (best P solver m.cell) groups x) ∧
      ∀ o, (∀ b ∈ groups.flatten, o ≠ (m.cell b).stateOffset) → m'.array o = m.array o := by
  intro groups
  induction groups with
  | nil =>
    intro pre m x hm hS hres hind r h
    have := setsRun_trailing pre.length rest.length (m := m) (r := r) (by simpa [offsetsFrom] using h)
    exact ⟨m, this, rfl, hm, fun _ _ => rfl⟩
  | cons g gs ih =>
    intro pre m x hm hS hres hind r h
    have hflat : (g :: gs).flatten.length = g.length + gs.flatten.length := by simp
    have hnext : ∀ (m1 : Mem B α) (x1 : B → α), Prepared P m1 x1 → ∀ r,
        SetsRun (task P S numThreads solver) numThreads
          (offsetsFrom (pre ++ g).length gs ++
            List.replicate rest.length ((pre ++ g).length + gs.flatten.length)) m1 r →
        ∃ m', r = some m' ∧ m'.cell = m1.cell ∧
          Prepared P m' (sweep (best P solver m1.cell) gs x1) ∧
          ∀ o, (∀ b ∈ gs.flatten, o ≠ (m1.cell b).stateOffset) → m'.array o = m1.array o := by
      intro m1 x1 hm1 r1 h1
      refine ih (pre ++ g) m1 x1 hm1 (by rw [hS]; simp) ?_
        (fun g' hg' => hind g' (List.mem_cons_of_mem _ hg')) r1 h1
      intro j b j1 j2 hb
      simp only [List.length_append] at j1 j2
      exact hres j b (by omega) (by rw [hflat]; omega) hb
    have hoff : offsetsFrom pre.length (g :: gs) ++
        List.replicate rest.length (pre.length + (g :: gs).flatten.length) =
        pre.length :: (offsetsFrom (pre ++ g).length gs ++
          List.replicate rest.length ((pre ++ g).length + gs.flatten.length)) := by
      rw [offsetsFrom, hflat, List.length_append, Nat.add_assoc]; rfl
    obtain ⟨l, hl⟩ := offsetsFrom_cons (pre ++ g).length gs
    have hl2 : offsetsFrom (pre ++ g).length gs ++
          List.replicate rest.length ((pre ++ g).length + gs.flatten.length) =
        (pre ++ g).length :: (l ++
          List.replicate rest.length ((pre ++ g).length + gs.flatten.length)) := by
      rw [hl]; rfl
    rw [hoff, hl2] at h
    have hd : (pre ++ g).length - pre.length = g.length := by simp
    have hgroup : ∀ r, g ≠ [] → ForRun (task P S numThreads solver) pre.length (pre ++ g).length
        (min numThreads ((pre ++ g).length - pre.length)) m r →
        ∃ m', r = some m' ∧ m'.cell = m.cell ∧
          Prepared P m' (groupStep (best P solver m.cell) x g) ∧
          ∀ o, (∀ b ∈ g, o ≠ (m.cell b).stateOffset) → m'.array o = m.array o := by
      intro r hg hr
      rw [hd] at hr
      refine group_run (pre := pre) (g := g) (post := gs.flatten ++ rest) htot hm
        (by rw [hS]; simp) hperm hnd ?_ (hind g List.mem_cons_self) ht hg
        (by simpa using hr)
      intro j b j1 j2 hb
      exact hres j b j1 (by rw [hflat]; omega) hb
    cases h with
    | skip _ _ _ _ _ h1 h2 =>
      rw [hd] at h1
      have hg : g = [] := List.length_eq_zero_iff.1 h1
      rw [← hl2] at h2
      obtain ⟨m', e1, e2, e3, e4⟩ := hnext m x hm r h2
      refine ⟨m', e1, e2, ?_, fun o ho => e4 o fun b hb => ho b (by simp [hb, hg])⟩
      have : groupStep (best P solver m.cell) x g = x := by
        funext b; simp [groupStep, hg]
      unfold sweep at e3 ⊢
      rw [List.foldl_cons, this]
      exact e3
    | run _ _ _ _ m1 _ h1 h2 h3 =>
      rw [hd] at h1
      obtain ⟨m1', f1, f2, f3, f4⟩ := hgroup _ (fun h => h1 (by simp [h])) h2
      simp only [Option.some.injEq] at f1
      subst f1
      rw [← hl2] at h3
      obtain ⟨m', e1, e2, e3, e4⟩ := hnext m1 _ f3 r h3
      rw [f2] at e3
      refine ⟨m', e1, e2.trans f2, e3, fun o ho => ?_⟩
      rw [e4 o fun b hb => by rw [f2]; exact ho b (by
          rw [List.flatten_cons, List.mem_append]; exact Or.inr hb),
        f4 o fun b hb => ho b (by rw [List.flatten_cons, List.mem_append]; exact Or.inl hb)]
    | abort _ _ _ _ h1 h2 =>
      rw [hd] at h1
      obtain ⟨m1', f1, -⟩ := hgroup _ (fun h => h1 (by simp [h])) h2
      simp at f1

/-! ## `Minimize` -/

theorem freezeAll_spec : ∀ (l : List B) (m : Mem B α), l.Nodup →
    (∀ b ∈ l, (m.cell b).constant = false) →
    ∃ m', freezeAll l m = some m' ∧ m'.array = m.array ∧
      ∀ b, m'.cell b = if b ∈ l then
        { m.cell b with
          state := .array (m.cell b).stateOffset
          constant := true }
      else m.cell b := by
  intro l
  induction l with
  | nil => intro m _ _; exact ⟨m, rfl, rfl, fun b => by simp⟩
  | cons a l ih =>
    intro m hnd hc
    rw [List.nodup_cons] at hnd
    unfold freezeAll
    rw [if_neg (by simp [hc a List.mem_cons_self])]
    obtain ⟨m', e1, e2, e3⟩ := ih (m.setCell a fun c =>
      { c with
        state := .array c.stateOffset
        constant := true }) hnd.2 (by
        intro b hb
        have : b ≠ a := fun h => hnd.1 (h ▸ hb)
        simp only [Mem.setCell, if_neg this]
        exact hc b (List.mem_cons_of_mem _ hb))
    refine ⟨m', e1, e2, fun b => ?_⟩
    rw [e3 b]
    by_cases hba : b = a
    · subst hba
      simp [Mem.setCell, hnd.1]
    · simp [Mem.setCell, hba]

theorem thawAll_spec (l : List B) (m : Mem B α) :
    (thawAll l m).array = m.array ∧
    ∀ b, (thawAll l m).cell b =
      if b ∈ l then { m.cell b with constant := false } else m.cell b := by
  unfold thawAll
  induction l generalizing m with
  | nil => simp
  | cons a l ih =>
    rw [List.foldl_cons]
    obtain ⟨h1, h2⟩ := ih (m.setCell a fun c => { c with constant := false })
    refine ⟨h1, fun b => ?_⟩
    rw [h2 b]
    by_cases hba : b = a
    · subst hba
      by_cases hb : b ∈ l <;> simp [Mem.setCell, hb]
    · simp [Mem.setCell, hba]

/-- What the caller of `Minimize` provides: the blocks of the program are variable and have different
offsets; the other blocks do not point into `parameters`, and hold `outer`. -/
structure Callable (P : Prog B) (m : Mem B α) (outer : B → α) : Prop where
  varying : ∀ b ∈ P.blocks, (m.cell b).constant = false
  inj : ∀ a ∈ P.blocks, ∀ b ∈ P.blocks, (m.cell a).stateOffset = (m.cell b).stateOffset → a = b
  outside : ∀ b, b ∉ P.blocks → (m.cell b).state = .buffer (outer b)

/-- The values of all blocks when `Minimize` is called: those of the program are in `parameters`. -/
def valuesAt (P : Prog B) (m : Mem B α) (outer : B → α) (b : B) : α :=
  if b ∈ P.blocks then m.array (m.cell b).stateOffset else outer b

/-- What the minimisation over one block sees: all other blocks of the program constant. -/
def frozenCells (P : Prog B) (m : Mem B α) (b : B) : Cell α :=
  if b ∈ P.blocks then
    { m.cell b with
      state := .array (m.cell b).stateOffset
      constant := true }
  else m.cell b

/-- **C56 (every schedule computes the sweep).**  Let the ordering consist of groups no two of whose
blocks share a residual block.  Then every execution of the inner iterations, with any number of
threads and any interleaving of their memory accesses, ends without aborting, and leaves in the
parameter array, for each block, the value of the sweep: group after group, each block minimised over
alone with the others fixed at their values before the group.  Everything else in the array is
untouched; every block has its index and its offsets back, is variable again, and its state points to
its part of the array. -/
theorem minimize_result {P : Prog B} {S : Setup B} {groups : List (List B)} {numThreads : ℕ}
    {solver : B → List ℕ → Solver α} (hP : P.blocks.Nodup) (hS : S.Serves P groups)
    (hind : Independent P groups) (ht : 0 < numThreads) (htot : NeverAborts P solver)
    {m : Mem B α} {outer : B → α} (hm : Callable P m outer) {r : Option (Mem B α)}
    (h : MinimizeRun P S numThreads solver m r) :
    ∃ m', r = some m' ∧
      (∀ b ∈ P.blocks, m'.array (m.cell b).stateOffset =
        sweep (best P solver (frozenCells P m)) groups (valuesAt P m outer) b) ∧
      (∀ o, (∀ b ∈ groups.flatten, o ≠ (m.cell b).stateOffset) → m'.array o = m.array o) ∧
      (∀ b ∈ P.blocks, m'.cell b = { m.cell b with state := .array (m.cell b).stateOffset }) ∧
      ∀ b, b ∉ P.blocks → m'.cell b = m.cell b := by
  obtain ⟨⟨rest, hb, hperm, hoff⟩, hres⟩ := hS
  have hSnd : S.blocks.Nodup := hperm.nodup_iff.2 hP
  obtain ⟨m1, e1, e2, e3⟩ := freezeAll_spec S.blocks m hSnd
    fun b hb' => hm.varying b (hperm.subset hb')
  have hcell : m1.cell = frozenCells P m := by
    funext b
    rw [e3 b]
    unfold frozenCells
    by_cases hbP : b ∈ P.blocks
    · rw [if_pos (hperm.mem_iff.2 hbP), if_pos hbP]
    · rw [if_neg fun hb' => hbP (hperm.subset hb'), if_neg hbP]
  have hso : ∀ b, (m1.cell b).stateOffset = (m.cell b).stateOffset := by
    intro b; rw [e3 b]; split <;> rfl
  have hprep : Prepared P m1 (valuesAt P m outer) := by
    refine ⟨?_, ?_, ?_, ?_, ?_⟩
    · intro b hb'; rw [hcell]; simp [frozenCells, hb']
    · intro b hb'; rw [hcell]; simp [frozenCells, hb']
    · intro a ha b hb' he; rw [hso, hso] at he; exact hm.inj a ha b hb' he
    · intro b hb'; rw [hso, e2]; simp [valuesAt, hb']
    · intro b hb'; rw [hcell]; simp [frozenCells, valuesAt, hb', hm.outside b hb']
  cases h with
  | frozen h0 => rw [e1] at h0; simp at h0
  | run m1' r' h1 h2 =>
    rw [e1, Option.some.injEq] at h1
    subst h1
    obtain ⟨m2, f1, f2, f3, f4⟩ := sets_run htot hP hperm ht rest groups [] m1 _ hprep
      (by simpa using hb) (by
        intro j b _ j2 hj
        rw [hres, List.getElem?_map]
        simp only [List.length_nil, Nat.zero_add] at j2
        rw [hb, List.getElem?_append_left j2] at hj
        rw [hj]; rfl) hind r' (by
        rw [hoff] at h2
        rw [offsetsFrom_eq]
        simpa using h2)
    subst f1
    refine ⟨thawAll S.blocks m2, rfl, ?_, ?_, ?_, ?_⟩
    · intro b hbP
      rw [(thawAll_spec S.blocks m2).1, ← hso b, ← f2, f3.value b hbP, hcell]
    · intro o ho
      rw [(thawAll_spec S.blocks m2).1, f4 o fun b hb' => by rw [hso b]; exact ho b hb', e2]
    · intro b hbP
      rw [(thawAll_spec S.blocks m2).2, if_pos (hperm.mem_iff.2 hbP), f2, hcell]
      simp only [frozenCells, if_pos hbP]
      have := hm.varying b hbP
      cases hc : m.cell b
      rw [hc] at this
      simp_all
    · intro b hbP
      rw [(thawAll_spec S.blocks m2).2, if_neg fun hb' => hbP (hperm.subset hb'), f2, hcell]
      simp [frozenCells, hbP]

end Ceres.Inner
