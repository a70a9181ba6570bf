import Verif.Inner.Model
import Verif.Parallel.Props

/-!
# Concurrent tasks that do not touch each other

`Code.alone` runs the code of a task against a frozen picture of the blocks it may look at, with its
own block and its own cell of the array as the only state.  If every task of a set succeeds alone,
and no task looks at the block of another, every execution of `ParallelFor` leaves in each block and
cell what its task computes alone.
-/
namespace Ceres.Inner

variable {B α : Type} [DecidableEq B]

/-- What the task's own block points to, if that is its own cell of the array or not in the array. -/
def ownValue (off : ℤ) (s : Cell α × α) : Option (Option α) :=
  match s.1.state with
  | .array o => if o = off then some (some s.2) else none
  | .buffer v => some (some v)
  | .dangling => some none

/-- The code of a task of block `b` with cell `off` of the array, run alone; `none` if it aborts or
touches anything but its own block, its own cell and the frozen blocks. -/
def Code.alone (frz : B → Option (Cell α × α)) (b : B) (off : ℤ) :
    Code B α → Cell α × α → Option (Cell α × α)
  | .ret, s => some s
  | .abort, _ => none
  | .read b' k, s =>
    if b' = b then
      match ownValue off s with
      | none => none
      | some v => (k s.1 v).alone frz b off s
    else
      match frz b' with
      | none => none
      | some e => (k e.1 (some e.2)).alone frz b off s
  | .write b' f k, s => if b' = b then k.alone frz b off (f s.1, s.2) else none
  | .load o k, s => if o = off then (k s.2).alone frz b off s else none
  | .store o v k, s => if o = off then k.alone frz b off (s.1, v) else none

/-- The task's own part of the memory. -/
def Mem.own (m : Mem B α) (b : B) (off : ℤ) : Cell α × α := (m.cell b, m.array off)

/-- The frozen picture is right. -/
def Pictured (m : Mem B α) (frz : B → Option (Cell α × α)) (b : B) : Prop :=
  ∀ b' c v, b' ≠ b → frz b' = some (c, v) → m.cell b' = c ∧ m.value b' = some v

/-- `m'` differs from `m` in block `b` and cell `off` at most. -/
def Frame (b : B) (off : ℤ) (m m' : Mem B α) : Prop :=
  (∀ b', b' ≠ b → m'.cell b' = m.cell b') ∧ ∀ o, o ≠ off → m'.array o = m.array o

theorem Frame.refl (b : B) (off : ℤ) (m : Mem B α) : Frame b off m m := ⟨fun _ _ => rfl, fun _ _ => rfl⟩

theorem ownValue_eq {m : Mem B α} {b : B} {off : ℤ} {v : Option α}
    (h : ownValue off (m.own b off) = some v) : m.value b = v := by
  unfold ownValue Mem.own at h
  unfold Mem.value Ptr.deref
  cases hs : (m.cell b).state with
  | array o =>
    simp only [hs] at h
    by_cases ho : o = off
    · rw [if_pos ho] at h; subst ho; exact Option.some.inj h
    · rw [if_neg ho] at h; simp at h
  | buffer w => simp only [hs] at h; exact Option.some.inj h
  | dangling => simp only [hs] at h; exact Option.some.inj h

/-- One access of a task that succeeds alone. -/
theorem alone_step {frz : B → Option (Cell α × α)} {b : B} {off : ℤ} {m : Mem B α}
    (hp : Pictured m frz b) (k : Code B α) {fin : Cell α × α}
    (h : k.alone frz b off (m.own b off) = some fin) :
    k ≠ .abort ∧ (k = .ret → m.own b off = fin) ∧
    ∀ k' m', k.step m = some (k', m') →
      Frame b off m m' ∧ k'.alone frz b off (m'.own b off) = some fin := by
  cases k with
  | ret => exact ⟨by simp, fun _ => Option.some.inj h, fun k' m' hs => by simp [Code.step] at hs⟩
  | abort => simp [Code.alone] at h
  | read b' k =>
    refine ⟨by simp, by simp, fun k' m' hs => ?_⟩
    simp only [Code.step, Option.some.injEq, Prod.mk.injEq] at hs
    obtain ⟨rfl, rfl⟩ := hs
    refine ⟨Frame.refl _ _ _, ?_⟩
    simp only [Code.alone] at h
    by_cases hb : b' = b
    · rw [if_pos hb] at h
      subst hb
      cases ho : ownValue off (m.own b' off) with
      | none => rw [ho] at h; simp at h
      | some v => rw [ho] at h; rw [ownValue_eq ho]; exact h
    · rw [if_neg hb] at h
      cases hf : frz b' with
      | none => rw [hf] at h; simp at h
      | some e =>
        rw [hf] at h
        obtain ⟨h1, h2⟩ := hp b' e.1 e.2 hb hf
        rw [h1, h2]; exact h
  | write b' f k =>
    refine ⟨by simp, by simp, fun k' m' hs => ?_⟩
    simp only [Code.step, Option.some.injEq, Prod.mk.injEq] at hs
    obtain ⟨rfl, rfl⟩ := hs
    simp only [Code.alone] at h
    by_cases hb : b' = b
    · rw [if_pos hb] at h
      subst hb
      refine ⟨⟨fun b'' hne => by simp [Mem.setCell, hne], fun o _ => rfl⟩, ?_⟩
      simpa [Mem.own, Mem.setCell] using h
    · rw [if_neg hb] at h; simp at h
  | load o k =>
    refine ⟨by simp, by simp, fun k' m' hs => ?_⟩
    simp only [Code.step, Option.some.injEq, Prod.mk.injEq] at hs
    obtain ⟨rfl, rfl⟩ := hs
    simp only [Code.alone] at h
    by_cases hb : o = off
    · rw [if_pos hb] at h
      subst hb
      exact ⟨Frame.refl _ _ _, h⟩
    · rw [if_neg hb] at h; simp at h
  | store o v k =>
    refine ⟨by simp, by simp, fun k' m' hs => ?_⟩
    simp only [Code.step, Option.some.injEq, Prod.mk.injEq] at hs
    obtain ⟨rfl, rfl⟩ := hs
    simp only [Code.alone] at h
    by_cases hb : o = off
    · rw [if_pos hb] at h
      subst hb
      refine ⟨⟨fun _ _ => rfl, fun o' hne => by simp [Mem.setArray, hne]⟩, ?_⟩
      simpa [Mem.own, Mem.setArray] using h
    · rw [if_neg hb] at h; simp at h

theorem Frame.trans {b : B} {off : ℤ} {m m' m'' : Mem B α} (h : Frame b off m m')
    (h' : Frame b off m' m'') : Frame b off m m'' :=
  ⟨fun b' hb => (h'.1 b' hb).trans (h.1 b' hb), fun o ho => (h'.2 o ho).trans (h.2 o ho)⟩

/-- The tasks of one call of `ParallelFor` on `[start, stop)`: their blocks, cells and pictures, and
what they start from and compute alone. -/
structure Tasks (task : ℕ → ℕ → Code B α) (start stop threads : ℕ) (m : Mem B α) (blk : ℕ → B)
    (off : ℕ → ℤ) (frz : ℕ → B → Option (Cell α × α)) (fin : ℕ → Cell α × α) : Prop where
  blk_inj : ∀ i j, start ≤ i → i < stop → start ≤ j → j < stop → blk i = blk j → i = j
  off_inj : ∀ i j, start ≤ i → i < stop → start ≤ j → j < stop → off i = off j → i = j
  alone : ∀ j tid, start ≤ j → j < stop → tid < threads →
    (task tid j).alone (frz j) (blk j) (off j) (m.own (blk j) (off j)) = some (fin j)
  picture : ∀ j b' c v, start ≤ j → j < stop → frz j b' = some (c, v) →
    m.cell b' = c ∧ m.value b' = some v ∧
    ∀ i, start ≤ i → i < stop → b' ≠ blk i ∧ c.state ≠ .array (off i)

variable {task : ℕ → ℕ → Code B α} {start stop threads : ℕ} {m : Mem B α} {blk : ℕ → B}
  {off : ℕ → ℤ} {frz : ℕ → B → Option (Cell α × α)} {fin : ℕ → Cell α × α}

/-- Nothing but the blocks and cells of the tasks has changed. -/
def Rest (start stop : ℕ) (blk : ℕ → B) (off : ℕ → ℤ) (m m' : Mem B α) : Prop :=
  (∀ b', (∀ i, start ≤ i → i < stop → b' ≠ blk i) → m'.cell b' = m.cell b') ∧
  ∀ o, (∀ i, start ≤ i → i < stop → o ≠ off i) → m'.array o = m.array o

theorem Tasks.pictured (T : Tasks task start stop threads m blk off frz fin) {m' : Mem B α}
    (h : Rest start stop blk off m m') {j : ℕ} (h1 : start ≤ j) (h2 : j < stop) :
    Pictured m' (frz j) (blk j) := by
  intro b' c v hb hf
  obtain ⟨p1, p2, p3⟩ := T.picture j b' c v h1 h2 hf
  have hc : m'.cell b' = m.cell b' := h.1 b' fun i hi hi' => (p3 i hi hi').1
  refine ⟨hc.trans p1, ?_⟩
  unfold Mem.value at p2 ⊢
  rw [hc]
  rw [p1] at p2 ⊢
  cases hs : c.state with
  | array o =>
    rw [hs] at p2
    simp only [Ptr.deref] at p2 ⊢
    rw [h.2 o fun i hi hi' he => (p3 i hi hi').2 (by rw [hs, he])]
    exact p2
  | buffer w => rw [hs] at p2; exact p2
  | dangling => rw [hs] at p2; exact p2

omit [DecidableEq B] in
theorem Rest.frame {m' m'' : Mem B α} (h : Rest start stop blk off m m') {j : ℕ} (h1 : start ≤ j)
    (h2 : j < stop) (hf : Frame (blk j) (off j) m' m'') : Rest start stop blk off m m'' :=
  ⟨fun b' hb => (hf.1 b' (hb j h1 h2)).trans (h.1 b' hb),
   fun o ho => (hf.2 o (ho j h1 h2)).trans (h.2 o ho)⟩

theorem Tasks.frame_own (T : Tasks task start stop threads m blk off frz fin) {m' m'' : Mem B α}
    {i j : ℕ} (hi : start ≤ i) (hi' : i < stop) (hj : start ≤ j) (hj' : j < stop) (hne : j ≠ i)
    (hf : Frame (blk i) (off i) m' m'') : m''.own (blk j) (off j) = m'.own (blk j) (off j) := by
  unfold Mem.own
  rw [hf.1 _ fun h => hne (T.blk_inj j i hj hj' hi hi' h),
    hf.2 _ fun h => hne (T.off_inj j i hj hj' hi hi' h)]

/-! ## Sequential execution -/

theorem alone_exec {frz : B → Option (Cell α × α)} {b : B} {off : ℤ} {fin : Cell α × α}
    (k : Code B α) :
    ∀ m : Mem B α, (∀ m', Frame b off m m' → Pictured m' frz b) →
    k.alone frz b off (m.own b off) = some fin →
    ∃ m', k.exec m = some m' ∧ Frame b off m m' ∧ m'.own b off = fin := by
  have hstep : ∀ (k : Code B α) (m : Mem B α), (∀ m', Frame b off m m' → Pictured m' frz b) →
      k.alone frz b off (m.own b off) = some fin → ∀ k' m1, k.step m = some (k', m1) →
      k.exec m = k'.exec m1 →
      (∀ m : Mem B α, (∀ m', Frame b off m m' → Pictured m' frz b) →
        k'.alone frz b off (m.own b off) = some fin →
        ∃ m', k'.exec m = some m' ∧ Frame b off m m' ∧ m'.own b off = fin) →
      ∃ m', k.exec m = some m' ∧ Frame b off m m' ∧ m'.own b off = fin := by
    intro k m hp h k' m1 hs he ih
    obtain ⟨-, -, h3⟩ := alone_step (hp m (Frame.refl _ _ _)) k h
    obtain ⟨hf, ha⟩ := h3 k' m1 hs
    obtain ⟨m', e1, e2, e3⟩ := ih m1 (fun m' hf' => hp m' (hf.trans hf')) ha
    exact ⟨m', he.trans e1, hf.trans e2, e3⟩
  induction k with
  | ret => intro m _ h; exact ⟨m, rfl, Frame.refl _ _ _, Option.some.inj h⟩
  | abort => intro m _ h; simp [Code.alone] at h
  | read b' k ih => intro m hp h; exact hstep _ m hp h _ _ rfl rfl (ih _ _)
  | write b' f k ih => intro m hp h; exact hstep _ m hp h _ _ rfl rfl ih
  | load o k ih => intro m hp h; exact hstep _ m hp h _ _ rfl rfl (ih _)
  | store o v k ih => intro m hp h; exact hstep _ m hp h _ _ rfl rfl ih

theorem Tasks.seq (T : Tasks task start stop threads m blk off frz fin) (ht : 0 < threads) :
    ∀ (n i : ℕ) (m' : Mem B α), i + n = stop → start ≤ i → Rest start stop blk off m m' →
    (∀ j, start ≤ j → j < i → m'.own (blk j) (off j) = fin j) →
    (∀ j, i ≤ j → j < stop → m'.own (blk j) (off j) = m.own (blk j) (off j)) →
    ∃ m'', seqRun task (List.range' i n) m' = some m'' ∧ Rest start stop blk off m m'' ∧
      ∀ j, start ≤ j → j < stop → m''.own (blk j) (off j) = fin j := by
  intro n
  induction n with
  | zero =>
    intro i m' hi hs hr hd _
    exact ⟨m', rfl, hr, fun j h1 h2 => hd j h1 (by omega)⟩
  | succ n ih =>
    intro i m' hi hs hr hd hu
    have hlt : i < stop := by omega
    have ha := T.alone i 0 hs hlt ht
    rw [← hu i le_rfl hlt] at ha
    obtain ⟨m1, e1, e2, e3⟩ := alone_exec (task 0 i) m'
      (fun m1 hf => T.pictured (hr.frame hs hlt hf) hs hlt) ha
    obtain ⟨m2, f1, f2, f3⟩ := ih (i + 1) m1 (by omega) (by omega) (hr.frame hs hlt e2)
      (by
        intro j h1 h2
        by_cases hj : j = i
        · subst hj; exact e3
        · rw [T.frame_own hs hlt h1 (by omega) hj e2]; exact hd j h1 (by omega))
      (by
        intro j h1 h2
        rw [T.frame_own hs hlt (by omega) h2 (by omega) e2]
        exact hu j (by omega) h2)
    refine ⟨m2, ?_, f2, f3⟩
    rw [List.range'_succ, seqRun, e1]
    exact f1

/-! ## Interleaved execution -/

theorem parStep_par {c : Parallel.Cfg} {s s' : ParState B α} (h : ParStep c task s s') :
    s'.par = s.par ∨ Parallel.Step c s.par s'.par := by
  cases h with
  | call w tid jobs i stop h1 h2 => exact Or.inr (.call _ w tid jobs i stop h1 h2)
  | access w tid jobs i stop k m h1 h2 => exact Or.inl rfl
  | ret w tid jobs i stop h1 h2 => exact Or.inr (.ret _ w tid jobs i stop h1)
  | other p h1 h2 h3 => exact Or.inr h1

theorem parReach_par {c : Parallel.Cfg} {s : ParState B α} (h : ParReach c task m s) :
    Parallel.Reachable c s.par := by
  induction h with
  | init code => exact .init
  | step s s' _ hs ih =>
    rcases parStep_par hs with he | he
    · rw [he]; exact ih
    · exact .step _ _ ih he

/-- What `ParallelFor` guarantees about an index whose call is pending or running. -/
theorem pending_facts {c : Parallel.Cfg} (ht : 0 < c.threads) (hb : 0 < c.blocks)
    (hle : c.start ≤ c.stop) {s : Parallel.State} (h : Parallel.Reachable c s) {w x : ℕ}
    {p : Parallel.PC} (hw : s.workers[w]? = some p) (hp : p.pend x = 1) :
    c.start ≤ x ∧ x < c.stop ∧ x ∉ s.log.map (·.2) ∧
    ∀ w' p', s.workers[w']? = some p' → p'.pend x = 1 → w' = w := by
  have hi := Parallel.inv_reachable ht h
  have hc := hi.cover x
  have hs := Parallel.le_sum_map (Parallel.PC.pend x) s.workers w p hw
  rw [hp] at hs
  have h1 : c.start ≤ x ∧ x < c.blockStart (s.claimed c) := by
    by_contra hn
    rw [if_neg hn] at hc
    omega
  rw [if_pos h1] at hc
  have hmono : c.blockStart (s.claimed c) ≤ c.blockStart c.blocks := by
    unfold Parallel.Cfg.blockStart
    have : s.claimed c ≤ c.blocks := Nat.min_le_right _ _
    have := Nat.mul_le_mul_right c.base this
    omega
  rw [Parallel.blockStart_blocks c hb hle] at hmono
  refine ⟨h1.1, by omega, ?_, ?_⟩
  · intro hm
    have := List.count_pos_iff.2 hm
    omega
  · intro w' p' hw' hp'
    by_contra hne
    have h2 := Parallel.sum_map_set (Parallel.PC.pend x) s.workers w .done p hw
    have h3 := Parallel.le_sum_map (Parallel.PC.pend x) (s.workers.set w .done) w' p'
      (by rw [List.getElem?_set_ne (fun h => hne h.symm)]; exact hw')
    have h4 : Parallel.PC.pend x .done = 0 := rfl
    omega

/-- The invariant of the interleaved execution. -/
structure ParInv (start stop : ℕ) (blk : ℕ → B) (off : ℕ → ℤ)
    (frz : ℕ → B → Option (Cell α × α)) (fin : ℕ → Cell α × α) (m : Mem B α)
    (s : ParState B α) : Prop where
  rest : Rest start stop blk off m s.mem
  logged : ∀ j, start ≤ j → j < stop → j ∈ s.par.log.map (·.2) →
    s.mem.own (blk j) (off j) = fin j
  running : ∀ w tid jobs j e, Calling s.par w tid jobs j e →
    (s.code w).alone (frz j) (blk j) (off j) (s.mem.own (blk j) (off j)) = some (fin j)
  waiting : ∀ j, start ≤ j → j < stop → j ∉ s.par.log.map (·.2) →
    (∀ w tid jobs e, ¬ Calling s.par w tid jobs j e) →
    s.mem.own (blk j) (off j) = m.own (blk j) (off j)

theorem calling_pend {c : Parallel.Cfg} (ht : 0 < c.threads) {s : Parallel.State}
    (h : Parallel.Reachable c s) {w tid jobs i e : ℕ} (hw : Calling s w tid jobs i e) :
    (Parallel.PC.calling tid jobs i e).pend i = 1 := by
  have := (Parallel.inv_reachable ht h).ok _ (List.mem_of_getElem? hw)
  simp only [Parallel.PC.ok] at this
  simp [Parallel.PC.pend, this.1]

theorem parInv_step {c : Parallel.Cfg} (T : Tasks task c.start c.stop c.threads m blk off frz fin)
    (ht : 0 < c.threads) (hb : 0 < c.blocks) (hle : c.start ≤ c.stop) {s s' : ParState B α}
    (hr : Parallel.Reachable c s.par) (inv : ParInv c.start c.stop blk off frz fin m s)
    (h : ParStep c task s s') : ParInv c.start c.stop blk off frz fin m s' := by
  have facts := fun {w x : ℕ} {p : Parallel.PC} => pending_facts (w := w) (x := x) (p := p) ht hb hle hr
  cases h with
  | call w tid jobs i e h1 h2 =>
    have hok := (Parallel.inv_reachable ht hr).ok _ (List.mem_of_getElem? h1)
    simp only [Parallel.PC.ok] at hok
    have hp : (Parallel.PC.segment tid jobs i e).pend i = 1 := by
      simp only [Parallel.PC.pend]; rw [if_pos (by omega)]
    obtain ⟨f1, f2, f3, f4⟩ := facts h1 hp
    have hcall : ∀ w' tid' jobs' j e',
        (s.par.workers.set w (.calling tid jobs i e))[w']? = some (.calling tid' jobs' j e') →
        (w' = w ∧ j = i) ∨ (w' ≠ w ∧ Calling s.par w' tid' jobs' j e') := by
      intro w' tid' jobs' j e' hc
      rcases Parallel.set_get hc with ⟨a, b, -⟩ | ⟨a, b⟩
      · injection b with _ _ b _
        exact Or.inl ⟨a, b⟩
      · exact Or.inr ⟨a, b⟩
    have hnot : ∀ w' tid' jobs' e', ¬ Calling s.par w' tid' jobs' i e' := by
      intro w' tid' jobs' e' hc
      have := f4 w' _ hc (calling_pend ht hr hc)
      subst this
      rw [Calling, h1] at hc
      simp at hc
    have htid := ((Parallel.inv_reachable ht hr).tidlt w _ tid h1 rfl).2
    refine ⟨inv.rest, inv.logged, ?_, ?_⟩
    · intro w' tid' jobs' j e' hc
      rcases hcall w' tid' jobs' j e' hc with ⟨rfl, rfl⟩ | ⟨hne, hc'⟩
      · simp only [if_true]
        rw [inv.waiting j f1 f2 f3 hnot]
        exact T.alone j tid f1 f2 htid
      · simp only [if_neg hne]
        exact inv.running w' tid' jobs' j e' hc'
    · intro j j1 j2 j3 hn
      refine inv.waiting j j1 j2 j3 fun w' tid' jobs' e' hc => ?_
      by_cases hww : w' = w
      · subst hww
        rw [Calling, h1] at hc
        simp at hc
      · exact hn w' tid' jobs' e' (by
          show (s.par.workers.set w _)[w']? = _
          rw [List.getElem?_set_ne (fun h => hww h.symm)]; exact hc)
  | access w tid jobs i e k m' h1 h2 =>
    have hp := calling_pend ht hr h1
    obtain ⟨f1, f2, f3, f4⟩ := facts h1 hp
    obtain ⟨-, -, a3⟩ := alone_step (T.pictured inv.rest f1 f2) (s.code w)
      (inv.running w tid jobs i e h1)
    obtain ⟨hf, ha⟩ := a3 k m' h2
    refine ⟨inv.rest.frame f1 f2 hf, ?_, ?_, ?_⟩
    · intro j j1 j2 j3
      have hne : j ≠ i := fun h => f3 (h ▸ j3)
      show m'.own _ _ = _
      rw [T.frame_own f1 f2 j1 j2 hne hf]
      exact inv.logged j j1 j2 j3
    · intro w' tid' jobs' j e' hc
      by_cases hww : w' = w
      · subst hww
        have : some (Parallel.PC.calling tid' jobs' j e') = some (.calling tid jobs i e) :=
          hc.symm.trans h1
        injection this with this
        injection this with _ _ this _
        subst this
        simpa only [if_true] using ha
      · have hpj := calling_pend ht hr hc
        obtain ⟨g1, g2, g3, g4⟩ := facts hc hpj
        have hne : j ≠ i := by
          rintro rfl
          exact hww (f4 w' _ hc hpj)
        simp only [if_neg hww]
        rw [T.frame_own f1 f2 g1 g2 hne hf]
        exact inv.running w' tid' jobs' j e' hc
    · intro j j1 j2 j3 hn
      have hne : j ≠ i := fun h => hn w tid jobs e (h ▸ h1)
      show m'.own _ _ = _
      rw [T.frame_own f1 f2 j1 j2 hne hf]
      exact inv.waiting j j1 j2 j3 hn
  | ret w tid jobs i e h1 h2 =>
    have hp := calling_pend ht hr h1
    obtain ⟨f1, f2, f3, f4⟩ := facts h1 hp
    obtain ⟨-, a2, -⟩ := alone_step (T.pictured inv.rest f1 f2) (s.code w)
      (inv.running w tid jobs i e h1)
    have hfin := a2 h2
    have hcall : ∀ w' tid' jobs' j e',
        (s.par.workers.set w (.segment tid jobs (i + 1) e))[w']? =
          some (.calling tid' jobs' j e') → Calling s.par w' tid' jobs' j e' := by
      intro w' tid' jobs' j e' hc
      rcases Parallel.set_get hc with ⟨a, b, -⟩ | ⟨a, b⟩
      · simp at b
      · exact b
    refine ⟨inv.rest, ?_, ?_, ?_⟩
    · intro j j1 j2 j3
      simp only [List.map_append, List.map_cons, List.map_nil, List.mem_append,
        List.mem_singleton] at j3
      rcases j3 with j3 | rfl
      · exact inv.logged j j1 j2 j3
      · exact hfin
    · intro w' tid' jobs' j e' hc
      exact inv.running w' tid' jobs' j e' (hcall _ _ _ _ _ hc)
    · intro j j1 j2 j3 hn
      simp only [List.map_append, List.map_cons, List.map_nil, List.mem_append,
        List.mem_singleton, not_or] at j3
      refine inv.waiting j j1 j2 j3.1 fun w' tid' jobs' e' hc => ?_
      by_cases hww : w' = w
      · subst hww
        have : some (Parallel.PC.calling tid' jobs' j e') = some (.calling tid jobs i e) :=
          hc.symm.trans h1
        injection this with this
        injection this with _ _ this _
        exact j3.2 this
      · exact hn w' tid' jobs' e' (by
          show (s.par.workers.set w _)[w']? = _
          rw [List.getElem?_set_ne (fun h => hww h.symm)]; exact hc)
  | other p h1 h2 h3 =>
    refine ⟨inv.rest, ?_, ?_, ?_⟩
    · intro j j1 j2 j3
      simp only [h2] at j3
      exact inv.logged j j1 j2 j3
    · intro w' tid' jobs' j e' hc
      exact inv.running w' tid' jobs' j e' ((h3 _ _ _ _ _).1 hc)
    · intro j j1 j2 j3 hn
      simp only [h2] at j3
      exact inv.waiting j j1 j2 j3 fun w' tid' jobs' e' hc => hn w' tid' jobs' e' ((h3 _ _ _ _ _).2 hc)

theorem parInv {c : Parallel.Cfg} (T : Tasks task c.start c.stop c.threads m blk off frz fin)
    (ht : 0 < c.threads) (hb : 0 < c.blocks) (hle : c.start ≤ c.stop) {s : ParState B α}
    (h : ParReach c task m s) : ParInv c.start c.stop blk off frz fin m s := by
  induction h with
  | init code =>
    refine ⟨⟨fun _ _ => rfl, fun _ _ => rfl⟩, ?_, ?_, fun _ _ _ _ _ => rfl⟩
    · intro j _ _ h3; simp [Parallel.init] at h3
    · intro w tid jobs j e hc
      unfold Calling Parallel.init at hc
      rcases w with _ | w <;> simp at hc
  | step s s' hr hs ih => exact parInv_step T ht hb hle (parReach_par hr) ih hs

/-- Every execution of `ParallelFor` on tasks that do not touch each other ends without aborting, and
leaves in each block and cell what its task computes alone. -/
theorem forRun_result (T : Tasks task start stop threads m blk off frz fin) (ht : 0 < threads)
    {r : Option (Mem B α)} (h : ForRun task start stop threads m r) :
    ∃ m', r = some m' ∧ Rest start stop blk off m m' ∧
      ∀ j, start ≤ j → j < stop → m'.own (blk j) (off j) = fin j := by
  cases h with
  | badThreads h0 => omega
  | empty _ hle => exact ⟨m, rfl, ⟨fun _ _ => rfl, fun _ _ => rfl⟩, fun j h1 h2 => by omega⟩
  | sequential _ hlt _ =>
    obtain ⟨m', e1, e2, e3⟩ := T.seq ht (stop - start) start m (by omega) le_rfl
      ⟨fun _ _ => rfl, fun _ _ => rfl⟩ (fun j h1 h2 => by omega) (fun _ _ _ => rfl)
    exact ⟨m', e1, e2, e3⟩
  | parallel s _ hlt hc hreach hret =>
    have inv := parInv (c := ⟨start, stop, threads, _⟩) T ht
      (Parallel.numWorkBlocks_pos ht (by omega) (by omega)) (Nat.le_of_lt hlt) hreach
    refine ⟨s.mem, rfl, inv.rest, fun j h1 h2 => inv.logged j h1 h2 ?_⟩
    have := (Parallel.parallelFor_covers (by omega)
      (Parallel.Outcome.parallel s.par ht hlt (by omega) (parReach_par hreach) hret)).1 j
    rw [if_pos ⟨h1, h2⟩] at this
    exact List.count_pos_iff.1 (by omega)
  | aborted s w tid jobs i e _ hlt hc hreach hcall hab =>
    exfalso
    have inv := parInv (c := ⟨start, stop, threads, _⟩) T ht
      (Parallel.numWorkBlocks_pos ht (by omega) (by omega)) (Nat.le_of_lt hlt) hreach
    have := inv.running w tid jobs i e hcall
    rw [hab] at this
    simp [Code.alone] at this

end Ceres.Inner
