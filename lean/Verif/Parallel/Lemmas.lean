import Verif.Parallel.Model
import Mathlib.Data.List.Perm.Basic
import Mathlib.Data.List.Range
import Mathlib.Algebra.BigOperators.Group.List.Basic
import Mathlib.Tactic.Ring
import Mathlib.Tactic.Linarith

namespace Ceres.Parallel

/-- Thread id held by a worker that has not finished. -/
def PC.tid : PC → Option Nat
  | .gotId t => some t
  | .spawn t => some t
  | .loop t _ => some t
  | .segment t _ _ _ => some t
  | .calling t _ _ _ => some t
  | _ => none

/-- Blocks claimed by a worker and not yet reported. -/
def PC.jobs : PC → Nat
  | .loop _ j => j
  | .segment _ j _ _ => j
  | .calling _ j _ _ => j
  | .finishing j => j
  | _ => 0

/-- `1` if index `x` is still to be completed in the worker's current block. -/
def PC.pend (x : Nat) : PC → Nat
  | .segment _ _ i stop => if i ≤ x ∧ x < stop then 1 else 0
  | .calling _ _ i stop => if i ≤ x ∧ x < stop then 1 else 0
  | _ => 0

/-- Local sanity of a worker. -/
def PC.ok : PC → Prop
  | .segment _ j i stop => i ≤ stop ∧ 1 ≤ j
  | .calling _ j i stop => i < stop ∧ 1 ≤ j
  | _ => True

/-- Number of blocks handed out. -/
def State.claimed (c : Cfg) (s : State) : Nat := min s.blockCtr c.blocks

structure Inv (c : Cfg) (s : State) : Prop where
  uniq : ∀ (w w' t : Nat) (p p' : PC), s.workers[w]? = some p → s.workers[w']? = some p' →
    p.tid = some t → p'.tid = some t → w = w'
  tidlt : ∀ (w : Nat) (p : PC) (t : Nat), s.workers[w]? = some p → p.tid = some t →
    t < s.threadCtr ∧ t < c.threads
  logtid : ∀ e ∈ s.log, e.1 < c.threads
  jobs : (s.workers.map PC.jobs).sum + s.finished = s.claimed c
  ok : ∀ p ∈ s.workers, p.ok
  cover : ∀ x, (s.log.map (·.2)).count x + (s.workers.map (PC.pend x)).sum =
    if c.start ≤ x ∧ x < c.blockStart (s.claimed c) then 1 else 0
  noabort : s.aborted = false
  ret : s.returned = true → s.finished = c.blocks
  mainBegin : s.workers[0]? = some .begin → s.threadCtr = 0 ∧ s.workers.length = 1 ∧ s.queued = 0
  mainDone : ∀ p, s.workers[0]? = some p → (p = .done ∨ ∃ j, p = .finishing j) →
    c.blocks ≤ s.blockCtr
  nonempty : 0 < s.workers.length

theorem sum_map_set {α : Type} (f : α → Nat) (l : List α) (i : Nat) (x y : α)
    (h : l[i]? = some y) : ((l.set i x).map f).sum + f y = (l.map f).sum + f x := by
  induction l generalizing i with
  | nil => simp at h
  | cons a l ih =>
    cases i with
    | zero =>
      simp only [List.getElem?_cons_zero, Option.some.injEq] at h
      subst h
      simp only [List.set_cons_zero, List.map_cons, List.sum_cons]
      omega
    | succ i =>
      simp only [List.getElem?_cons_succ] at h
      have := ih i h
      simp only [List.set_cons_succ, List.map_cons, List.sum_cons]
      omega

theorem le_sum_map {α : Type} (f : α → Nat) (l : List α) (i : Nat) (y : α)
    (h : l[i]? = some y) : f y ≤ (l.map f).sum := by
  induction l generalizing i with
  | nil => simp at h
  | cons a l ih =>
    cases i with
    | zero =>
      simp only [List.getElem?_cons_zero, Option.some.injEq] at h
      subst h
      simp
    | succ i =>
      simp only [List.getElem?_cons_succ] at h
      have := ih i h
      simp only [List.map_cons, List.sum_cons]
      omega

theorem set_get {α : Type} {l : List α} {i j : Nat} {x y : α} (h : (l.set i x)[j]? = some y) :
    (j = i ∧ y = x ∧ i < l.length) ∨ (j ≠ i ∧ l[j]? = some y) := by
  rw [List.getElem?_set] at h
  split at h
  · rename_i hij
    split at h
    · left; exact ⟨hij.symm, (Option.some.inj h).symm, by assumption⟩
    · simp at h
  · rename_i hij
    exact Or.inr ⟨fun hh => hij hh.symm, h⟩

/-- Workers other than `w` are untouched; `w` gets `q`.  The id-related clauses survive if
`q` keeps the id of the old value, drops it, or takes the fresh one. -/
theorem uniq_set {c : Cfg} {s : State} (h : Inv c s) {w : Nat} {old q : PC}
    (hw : s.workers[w]? = some old) (T : Nat) (hT : s.threadCtr ≤ T)
    (hq : q.tid = none ∨ q.tid = old.tid ∨
      (q.tid = some s.threadCtr ∧ s.threadCtr < T ∧ s.threadCtr < c.threads)) :
    (∀ (a b t : Nat) (p p' : PC), (s.workers.set w q)[a]? = some p →
      (s.workers.set w q)[b]? = some p' → p.tid = some t → p'.tid = some t → a = b) ∧
    (∀ (a : Nat) (p : PC) (t : Nat), (s.workers.set w q)[a]? = some p → p.tid = some t →
      t < T ∧ t < c.threads) := by
  constructor
  · intro a b t p p' ha hb hp hp'
    rcases set_get ha with ⟨rfl, rfl, _⟩ | ⟨hne, ha'⟩ <;>
      rcases set_get hb with ⟨rfl, rfl, _⟩ | ⟨hne', hb'⟩
    · rfl
    · rcases hq with hq | hq | ⟨hq, _, _⟩
      · rw [hq] at hp; simp at hp
      · rw [hq] at hp; exact h.uniq _ _ t _ _ hw hb' hp hp'
      · rw [hq] at hp
        have h1 := (h.tidlt _ _ t hb' hp').1
        have h2 := Option.some.inj hp
        omega
    · rcases hq with hq | hq | ⟨hq, _, _⟩
      · rw [hq] at hp'; simp at hp'
      · rw [hq] at hp'; exact h.uniq _ _ t _ _ ha' hw hp hp'
      · rw [hq] at hp'
        have h1 := (h.tidlt _ _ t ha' hp).1
        have h2 := Option.some.inj hp'
        omega
    · exact h.uniq _ _ t _ _ ha' hb' hp hp'
  · intro a p t ha hp
    rcases set_get ha with ⟨rfl, rfl, _⟩ | ⟨hne, ha⟩
    · rcases hq with hq | hq | ⟨hq, h1, h2⟩
      · rw [hq] at hp; simp at hp
      · rw [hq] at hp
        have := h.tidlt _ _ t hw hp
        omega
      · rw [hq] at hp
        have h3 := Option.some.inj hp
        omega
    · have := h.tidlt _ _ t ha hp
      omega

theorem ok_set {l : List PC} {w : Nat} {q : PC} (h : ∀ p ∈ l, p.ok) (hq : q.ok) :
    ∀ p ∈ l.set w q, p.ok := by
  intro p hp
  rcases List.mem_or_eq_of_mem_set hp with hp | rfl
  · exact h p hp
  · exact hq

theorem main_set {l : List PC} {w : Nat} {q p : PC}
    (h : (l.set w q)[0]? = some p) : (w = 0 ∧ p = q) ∨ (w ≠ 0 ∧ l[0]? = some p) := by
  rcases set_get h with ⟨h1, h2, _⟩ | ⟨h1, h2⟩
  · exact Or.inl ⟨h1.symm, h2⟩
  · exact Or.inr ⟨fun hh => h1 hh.symm, h2⟩

theorem inv_init (c : Cfg) : Inv c init := by
  constructor
  · intro w w' t p p' hp hp' h1 h2
    cases w with
    | zero => simp [init] at hp; subst hp; simp [PC.tid] at h1
    | succ w => simp [init] at hp
  · intro w p t hp h1
    cases w with
    | zero => simp [init] at hp; subst hp; simp [PC.tid] at h1
    | succ w => simp [init] at hp
  · simp [init]
  · simp [init, PC.jobs, State.claimed]
  · intro p hp; simp [init] at hp; subst hp; trivial
  · intro x
    simp only [init, List.map_nil, List.count_nil, List.map_cons, PC.pend, List.sum_cons,
      List.sum_nil, State.claimed, Nat.zero_min, Cfg.blockStart, Nat.zero_mul]
    rw [if_neg (by omega)]
    simp
  · rfl
  · simp [init]
  · simp [init]
  · intro p hp h
    simp only [init, List.getElem?_cons_zero, Option.some.injEq] at hp
    subst hp
    rcases h with h | ⟨j, h⟩ <;> simp at h
  · simp [init]

theorem blockEnd_eq (c : Cfg) (b : Nat) : c.blockEnd b = c.blockStart (b + 1) := by
  unfold Cfg.blockEnd Cfg.blockStart
  have : (b + 1) * c.base = b * c.base + c.base := by ring
  rw [this]
  split <;> omega

theorem blockStart_mono (c : Cfg) (b : Nat) : c.blockStart b ≤ c.blockStart (b + 1) := by
  rw [← blockEnd_eq]; unfold Cfg.blockEnd; omega

theorem blockStart_ge (c : Cfg) (b : Nat) : c.start ≤ c.blockStart b := by
  unfold Cfg.blockStart; omega

theorem inv_step {c : Cfg} (hthreads : 0 < c.threads) {s s' : State} (h : Inv c s)
    (hs : Step c s s') : Inv c s' := by
  cases hs with
  | poolStart n hq =>
    have hmb : s.workers[0]? ≠ some .begin := by
      intro hb
      have := (h.mainBegin hb).2.2
      omega
    have h0 : (s.workers ++ [PC.begin])[0]? = s.workers[0]? :=
      List.getElem?_append_left h.nonempty
    have hget : ∀ (w : Nat) (p : PC), (s.workers ++ [PC.begin])[w]? = some p →
        s.workers[w]? = some p ∨ p = .begin := by
      intro w p hp
      by_cases hlt : w < s.workers.length
      · left; rwa [List.getElem?_append_left hlt] at hp
      · right
        rw [List.getElem?_append_right (by omega)] at hp
        by_cases hz : w - s.workers.length = 0
        · rw [hz] at hp; simpa using hp.symm
        · rw [List.getElem?_cons] at hp; simp [hz] at hp
    constructor
    · intro w w' t p p' hp hp' h1 h2
      rcases hget w p hp with hp | rfl
      · rcases hget w' p' hp' with hp' | rfl
        · exact h.uniq w w' t p p' hp hp' h1 h2
        · simp [PC.tid] at h2
      · simp [PC.tid] at h1
    · intro w p t hp h1
      rcases hget w p hp with hp | rfl
      · exact h.tidlt w p t hp h1
      · simp [PC.tid] at h1
    · exact h.logtid
    · simp only [List.map_append, List.map_cons, List.map_nil, List.sum_append, List.sum_cons,
        List.sum_nil, PC.jobs, Nat.add_zero]
      exact h.jobs
    · intro p hp
      rcases List.mem_append.1 hp with hp | hp
      · exact h.ok p hp
      · simp at hp; subst hp; trivial
    · intro x
      simp only [List.map_append, List.map_cons, List.map_nil, List.sum_append, List.sum_cons,
        List.sum_nil, PC.pend, Nat.add_zero]
      exact h.cover x
    · exact h.noabort
    · exact h.ret
    · simp only; rw [h0]; intro hb; exact absurd hb hmb
    · simp only; rw [h0]; exact h.mainDone
    · simp
  | fetchId w hw =>
    by_cases hle : c.threads ≤ s.threadCtr
    · simp only [hle, if_true]
      obtain ⟨u1, u2⟩ := uniq_set h hw (s.threadCtr + 1) (by omega) (q := .done) (Or.inl rfl)
      have hj := sum_map_set PC.jobs s.workers w .done _ hw
      have hwne : w ≠ 0 := by
        rintro rfl
        have := (h.mainBegin hw).1
        omega
      refine ⟨u1, u2, h.logtid, ?_, ok_set h.ok trivial, ?_, h.noabort, h.ret, ?_, ?_, ?_⟩
      · simp only [PC.jobs, Nat.add_zero] at hj
        have := h.jobs
        simp only [State.claimed] at this ⊢
        omega
      · intro x
        have hp := sum_map_set (PC.pend x) s.workers w .done _ hw
        simp only [PC.pend, Nat.add_zero] at hp
        have := h.cover x
        simp only [State.claimed] at this ⊢
        rw [hp]; exact this
      · intro hb
        rcases main_set hb with ⟨h1, _⟩ | ⟨_, hb⟩
        · exact absurd h1 hwne
        · -- the main worker has not fetched: only one worker exists
          have := h.mainBegin hb
          have hlt : w < s.workers.length := by
            rw [List.getElem?_eq_some_iff] at hw; exact hw.1
          omega
      · intro p hp hd
        rcases main_set hp with ⟨h1, _⟩ | ⟨_, hp⟩
        · exact absurd h1 hwne
        · exact h.mainDone p hp hd
      · simpa using h.nonempty
    · simp only [hle, if_false]
      obtain ⟨u1, u2⟩ := uniq_set h hw (s.threadCtr + 1) (by omega) (q := .gotId s.threadCtr)
        (Or.inr (Or.inr ⟨rfl, by omega, by omega⟩))
      have hj := sum_map_set PC.jobs s.workers w (.gotId s.threadCtr) _ hw
      refine ⟨u1, u2, h.logtid, ?_, ok_set h.ok trivial, ?_, h.noabort, h.ret, ?_, ?_, ?_⟩
      · simp only [PC.jobs, Nat.add_zero] at hj
        have := h.jobs
        simp only [State.claimed] at this ⊢
        omega
      · intro x
        have hp := sum_map_set (PC.pend x) s.workers w (.gotId s.threadCtr) _ hw
        simp only [PC.pend, Nat.add_zero] at hp
        have := h.cover x
        simp only [State.claimed] at this ⊢
        rw [hp]; exact this
      · intro hb
        rcases main_set hb with ⟨_, h2⟩ | ⟨hne, hb⟩
        · simp at h2
        · have := h.mainBegin hb
          have hlt : w < s.workers.length := by
            rw [List.getElem?_eq_some_iff] at hw; exact hw.1
          omega
      · intro p hp hd
        rcases main_set hp with ⟨_, h2⟩ | ⟨_, hp⟩
        · subst h2; rcases hd with hd | ⟨j, hd⟩ <;> simp at hd
        · exact h.mainDone p hp hd
      · simpa using h.nonempty
  | test w tid hw =>
    have hbranch : ∀ q : PC, q.tid = some tid → q.jobs = 0 → (∀ x, q.pend x = 0) → q.ok →
        q ≠ .begin → q ≠ .done → (∀ j, q ≠ .finishing j) →
        Inv c { s with workers := s.workers.set w q } := by
      intro q q1 q2 q3 q4 q5 q6 q7
      obtain ⟨u1, u2⟩ := uniq_set h hw s.threadCtr (Nat.le_refl _) (q := q) (Or.inr (Or.inl q1))
      have hj := sum_map_set PC.jobs s.workers w q _ hw
      refine ⟨u1, u2, h.logtid, ?_, ok_set h.ok q4, ?_, h.noabort, h.ret, ?_, ?_, ?_⟩
      · rw [q2] at hj
        simp only [PC.jobs, Nat.add_zero] at hj
        have := h.jobs
        simp only [State.claimed] at this ⊢
        omega
      · intro x
        have hp := sum_map_set (PC.pend x) s.workers w q _ hw
        rw [q3 x] at hp
        simp only [PC.pend, Nat.add_zero] at hp
        have := h.cover x
        simp only [State.claimed] at this ⊢
        rw [hp]; exact this
      · intro hb
        rcases main_set hb with ⟨_, h2⟩ | ⟨hne, hb⟩
        · exact absurd h2.symm q5
        · have := h.mainBegin hb
          simp only [List.length_set]
          exact this
      · intro p hp hd
        rcases main_set hp with ⟨_, h2⟩ | ⟨_, hp⟩
        · subst h2
          rcases hd with hd | ⟨j, hd⟩
          · exact absurd hd q6
          · exact absurd hd (q7 j)
        · exact h.mainDone p hp hd
      · simpa using h.nonempty
    split
    · exact hbranch _ rfl rfl (fun _ => rfl) trivial (by simp) (by simp) (by simp)
    · exact hbranch _ rfl rfl (fun _ => rfl) trivial (by simp) (by simp) (by simp)
  | addTask w tid hw =>
    obtain ⟨u1, u2⟩ := uniq_set h hw s.threadCtr (Nat.le_refl _) (q := .loop tid 0)
      (Or.inr (Or.inl rfl))
    have hj := sum_map_set PC.jobs s.workers w (.loop tid 0) _ hw
    refine ⟨u1, u2, h.logtid, ?_, ok_set h.ok trivial, ?_, h.noabort, h.ret, ?_, ?_, ?_⟩
    · simp only [PC.jobs, Nat.add_zero] at hj
      have := h.jobs
      simp only [State.claimed] at this ⊢
      omega
    · intro x
      have hp := sum_map_set (PC.pend x) s.workers w (.loop tid 0) _ hw
      simp only [PC.pend, Nat.add_zero] at hp
      have := h.cover x
      simp only [State.claimed] at this ⊢
      rw [hp]; exact this
    · intro hb
      rcases main_set hb with ⟨_, h2⟩ | ⟨hne, hb⟩
      · simp at h2
      · have := h.mainBegin hb
        have hlt : w < s.workers.length := by
          rw [List.getElem?_eq_some_iff] at hw; exact hw.1
        omega
    · intro p hp hd
      rcases main_set hp with ⟨_, h2⟩ | ⟨_, hp⟩
      · subst h2; rcases hd with hd | ⟨j, hd⟩ <;> simp at hd
      · exact h.mainDone p hp hd
    · simpa using h.nonempty
  | fetchBlock w tid jobs hw =>
    by_cases hle : c.blocks ≤ s.blockCtr
    · simp only [hle, if_true]
      obtain ⟨u1, u2⟩ := uniq_set h hw s.threadCtr (Nat.le_refl _) (q := .finishing jobs)
        (Or.inl rfl)
      have hj := sum_map_set PC.jobs s.workers w (.finishing jobs) _ hw
      have hcl : min (s.blockCtr + 1) c.blocks = min s.blockCtr c.blocks := by omega
      refine ⟨u1, u2, h.logtid, ?_, ok_set h.ok trivial, ?_, h.noabort, h.ret, ?_, ?_, ?_⟩
      · simp only [PC.jobs] at hj
        have := h.jobs
        simp only [State.claimed] at this ⊢
        omega
      · intro x
        have hp := sum_map_set (PC.pend x) s.workers w (.finishing jobs) _ hw
        simp only [PC.pend, Nat.add_zero] at hp
        have := h.cover x
        simp only [State.claimed, hcl] at this ⊢
        rw [hp]; exact this
      · intro hb
        rcases main_set hb with ⟨_, h2⟩ | ⟨hne, hb⟩
        · simp at h2
        · have := h.mainBegin hb
          simp only [List.length_set]
          exact this
      · intro p hp hd
        simp only
        omega
      · simpa using h.nonempty
    · simp only [hle, if_false]
      obtain ⟨u1, u2⟩ := uniq_set h hw s.threadCtr (Nat.le_refl _)
        (q := .segment tid (jobs + 1) (c.blockStart s.blockCtr) (c.blockEnd s.blockCtr))
        (Or.inr (Or.inl rfl))
      have hj := sum_map_set PC.jobs s.workers w
        (.segment tid (jobs + 1) (c.blockStart s.blockCtr) (c.blockEnd s.blockCtr)) _ hw
      have hcl : min (s.blockCtr + 1) c.blocks = s.blockCtr + 1 := by omega
      have hcl' : min s.blockCtr c.blocks = s.blockCtr := by omega
      have hse : c.blockStart s.blockCtr ≤ c.blockEnd s.blockCtr := by
        rw [blockEnd_eq]; exact blockStart_mono c _
      refine ⟨u1, u2, h.logtid, ?_, ok_set h.ok ⟨hse, by omega⟩, ?_, h.noabort, h.ret, ?_, ?_, ?_⟩
      · simp only [PC.jobs] at hj
        have := h.jobs
        simp only [State.claimed, hcl, hcl'] at this ⊢
        omega
      · intro x
        have hp := sum_map_set (PC.pend x) s.workers w
          (.segment tid (jobs + 1) (c.blockStart s.blockCtr) (c.blockEnd s.blockCtr)) _ hw
        simp only [PC.pend, Nat.add_zero] at hp
        have := h.cover x
        simp only [State.claimed, hcl, hcl'] at this ⊢
        rw [hp, ← Nat.add_assoc, this, blockEnd_eq]
        have hge := blockStart_ge c s.blockCtr
        have hmono := blockStart_mono c s.blockCtr
        by_cases h1 : x < c.blockStart s.blockCtr
        · by_cases h2 : c.start ≤ x
          · rw [if_pos ⟨h2, h1⟩, if_neg (by omega), if_pos ⟨h2, by omega⟩]
          · rw [if_neg (by omega), if_neg (by omega), if_neg (by omega)]
        · by_cases h2 : x < c.blockStart (s.blockCtr + 1)
          · rw [if_neg (by omega), if_pos ⟨by omega, h2⟩, if_pos ⟨by omega, h2⟩]
          · rw [if_neg (by omega), if_neg (by omega), if_neg (by omega)]
      · intro hb
        rcases main_set hb with ⟨_, h2⟩ | ⟨hne, hb⟩
        · simp at h2
        · have := h.mainBegin hb
          simp only [List.length_set]
          exact this
      · intro p hp hd
        rcases main_set hp with ⟨_, h2⟩ | ⟨_, hp⟩
        · subst h2; rcases hd with hd | ⟨j, hd⟩ <;> simp at hd
        · have := h.mainDone p hp hd
          simp only; omega
      · simpa using h.nonempty
  | call w tid jobs i stop hw hne =>
    have hok := h.ok _ (List.mem_of_getElem? hw)
    simp only [PC.ok] at hok
    obtain ⟨u1, u2⟩ := uniq_set h hw s.threadCtr (Nat.le_refl _) (q := .calling tid jobs i stop)
      (Or.inr (Or.inl rfl))
    have hj := sum_map_set PC.jobs s.workers w (.calling tid jobs i stop) _ hw
    refine ⟨u1, u2, h.logtid, ?_, ok_set h.ok ⟨by omega, hok.2⟩, ?_, h.noabort, h.ret, ?_, ?_, ?_⟩
    · simp only [PC.jobs] at hj
      have := h.jobs
      simp only [State.claimed] at this ⊢
      omega
    · intro x
      have hp := sum_map_set (PC.pend x) s.workers w (.calling tid jobs i stop) _ hw
      simp only [PC.pend] at hp
      refine Eq.trans ?_ (h.cover x)
      simp only
      omega
    · intro hb
      rcases main_set hb with ⟨_, h2⟩ | ⟨hne, hb⟩
      · simp at h2
      · have := h.mainBegin hb
        simp only [List.length_set]
        exact this
    · intro p hp hd
      rcases main_set hp with ⟨_, h2⟩ | ⟨_, hp⟩
      · subst h2; rcases hd with hd | ⟨j, hd⟩ <;> simp at hd
      · exact h.mainDone p hp hd
    · simpa using h.nonempty
  | ret w tid jobs i stop hw =>
    have hok := h.ok _ (List.mem_of_getElem? hw)
    simp only [PC.ok] at hok
    obtain ⟨u1, u2⟩ := uniq_set h hw s.threadCtr (Nat.le_refl _)
      (q := .segment tid jobs (i + 1) stop) (Or.inr (Or.inl rfl))
    have hj := sum_map_set PC.jobs s.workers w (.segment tid jobs (i + 1) stop) _ hw
    refine ⟨u1, u2, ?_, ?_, ok_set h.ok ⟨by omega, hok.2⟩, ?_, h.noabort, h.ret, ?_, ?_, ?_⟩
    · intro e he
      rcases List.mem_append.1 he with he | he
      · exact h.logtid e he
      · simp only [List.mem_singleton] at he
        subst he
        exact (h.tidlt w _ tid hw rfl).2
    · simp only [PC.jobs] at hj
      have := h.jobs
      simp only [State.claimed] at this ⊢
      omega
    · intro x
      have hp := sum_map_set (PC.pend x) s.workers w (.segment tid jobs (i + 1) stop) _ hw
      simp only [PC.pend] at hp
      refine Eq.trans ?_ (h.cover x)
      simp only [List.map_append, List.map_cons, List.map_nil, List.count_append,
        List.count_singleton]
      by_cases hxi : x = i
      · subst hxi
        rw [if_pos ⟨Nat.le_refl _, hok.1⟩, if_neg (by omega)] at hp
        simp only [beq_self_eq_true, if_true]
        omega
      · have hb : (i == x) = false := by simpa using fun hh => hxi hh.symm
        rw [hb]
        have : (i + 1 ≤ x ∧ x < stop) ↔ (i ≤ x ∧ x < stop) := by omega
        simp only [this] at hp
        simp only [Bool.false_eq_true, if_false]
        omega
    · intro hb
      rcases main_set hb with ⟨_, h2⟩ | ⟨hne, hb⟩
      · simp at h2
      · have := h.mainBegin hb
        simp only [List.length_set]
        exact this
    · intro p hp hd
      rcases main_set hp with ⟨_, h2⟩ | ⟨_, hp⟩
      · subst h2; rcases hd with hd | ⟨j, hd⟩ <;> simp at hd
      · exact h.mainDone p hp hd
    · simpa using h.nonempty
  | endSegment w tid jobs i hw =>
    obtain ⟨u1, u2⟩ := uniq_set h hw s.threadCtr (Nat.le_refl _) (q := .loop tid jobs)
      (Or.inr (Or.inl rfl))
    have hj := sum_map_set PC.jobs s.workers w (.loop tid jobs) _ hw
    refine ⟨u1, u2, h.logtid, ?_, ok_set h.ok trivial, ?_, h.noabort, h.ret, ?_, ?_, ?_⟩
    · simp only [PC.jobs] at hj
      have := h.jobs
      simp only [State.claimed] at this ⊢
      omega
    · intro x
      have hp := sum_map_set (PC.pend x) s.workers w (.loop tid jobs) _ hw
      simp only [PC.pend] at hp
      rw [if_neg (by omega)] at hp
      refine Eq.trans ?_ (h.cover x)
      simp only
      omega
    · intro hb
      rcases main_set hb with ⟨_, h2⟩ | ⟨hne, hb⟩
      · simp at h2
      · have := h.mainBegin hb
        simp only [List.length_set]
        exact this
    · intro p hp hd
      rcases main_set hp with ⟨_, h2⟩ | ⟨_, hp⟩
      · subst h2; rcases hd with hd | ⟨j, hd⟩ <;> simp at hd
      · exact h.mainDone p hp hd
    · simpa using h.nonempty
  | finish w jobs hw =>
    obtain ⟨u1, u2⟩ := uniq_set h hw s.threadCtr (Nat.le_refl _) (q := .done) (Or.inl rfl)
    have hj := sum_map_set PC.jobs s.workers w .done _ hw
    have hle := le_sum_map PC.jobs s.workers w _ hw
    have hjobs := h.jobs
    simp only [PC.jobs, Nat.add_zero] at hj hle
    simp only [State.claimed] at hjobs
    refine ⟨u1, u2, h.logtid, ?_, ok_set h.ok trivial, ?_, ?_, ?_, ?_, ?_, ?_⟩
    · simp only [State.claimed]
      omega
    · intro x
      have hp := sum_map_set (PC.pend x) s.workers w .done _ hw
      simp only [PC.pend, Nat.add_zero] at hp
      have := h.cover x
      simp only [State.claimed] at this ⊢
      rw [hp]; exact this
    · simp only [h.noabort, Bool.false_or, Bool.and_eq_false_imp, decide_eq_false_iff_not]
      intro _
      omega
    · intro hr
      have := h.ret hr
      simp only
      omega
    · intro hb
      rcases main_set hb with ⟨_, h2⟩ | ⟨hne, hb⟩
      · simp at h2
      · have := h.mainBegin hb
        simp only [List.length_set]
        exact this
    · intro p hp hd
      rcases main_set hp with ⟨h1, h2⟩ | ⟨_, hp⟩
      · subst h1
        exact h.mainDone _ hw (Or.inr ⟨jobs, rfl⟩)
      · exact h.mainDone p hp hd
    · simpa using h.nonempty
  | unblock hw hf hr =>
    exact ⟨h.uniq, h.tidlt, h.logtid, h.jobs, h.ok, h.cover, h.noabort, fun _ => hf,
      h.mainBegin, h.mainDone, h.nonempty⟩

theorem inv_reachable {c : Cfg} (hthreads : 0 < c.threads) {s : State} (h : Reachable c s) :
    Inv c s := by
  induction h with
  | init => exact inv_init c
  | step s s' _ hs ih => exact inv_step hthreads ih hs

/-! ### Termination measure -/

/-- Work left in a worker. -/
def PC.weight : PC → Nat
  | .begin => 2
  | .gotId _ => 7
  | .spawn _ => 6
  | .loop _ _ => 2
  | .segment _ _ i stop => 3 + 2 * (stop - i)
  | .calling _ _ i stop => 2 + 2 * (stop - i)
  | .finishing _ => 1
  | .done => 0

def measure (c : Cfg) (s : State) : Nat :=
  6 * (c.threads - s.threadCtr) + 3 * s.queued + (s.workers.map PC.weight).sum +
    (2 * c.base + 6) * (c.blocks - s.blockCtr) + (if s.returned then 0 else 1)

theorem measure_decreases {c : Cfg} {s s' : State} (h : Inv c s) (hs : Step c s s') :
    measure c s' < measure c s := by
  cases hs with
  | poolStart n hq =>
    simp only [measure, List.map_append, List.map_cons, List.map_nil, List.sum_append,
      List.sum_cons, List.sum_nil, PC.weight]
    omega
  | fetchId w hw =>
    have hlt := fun q => sum_map_set PC.weight s.workers w q _ hw
    by_cases hle : c.threads ≤ s.threadCtr
    · simp only [measure, hle, if_true]
      have := hlt .done
      simp only [PC.weight] at this
      omega
    · simp only [measure, hle, if_false]
      have := hlt (.gotId s.threadCtr)
      simp only [PC.weight] at this
      omega
  | test w tid hw =>
    have hlt := fun q => sum_map_set PC.weight s.workers w q _ hw
    split
    · have := hlt (.spawn tid)
      simp only [PC.weight] at this
      simp only [measure]; omega
    · have := hlt (.loop tid 0)
      simp only [PC.weight] at this
      simp only [measure]; omega
  | addTask w tid hw =>
    have := sum_map_set PC.weight s.workers w (.loop tid 0) _ hw
    simp only [PC.weight] at this
    simp only [measure]; omega
  | fetchBlock w tid jobs hw =>
    have hlt := fun q => sum_map_set PC.weight s.workers w q _ hw
    by_cases hle : c.blocks ≤ s.blockCtr
    · simp only [measure, hle, if_true]
      have := hlt (.finishing jobs)
      simp only [PC.weight] at this
      have h1 : c.blocks - (s.blockCtr + 1) = 0 := by omega
      have h2 : c.blocks - s.blockCtr = 0 := by omega
      rw [h1, h2]
      omega
    · simp only [measure, hle, if_false]
      have := hlt (.segment tid (jobs + 1) (c.blockStart s.blockCtr) (c.blockEnd s.blockCtr))
      simp only [PC.weight] at this
      have hsz : c.blockEnd s.blockCtr - c.blockStart s.blockCtr ≤ c.base + 1 := by
        unfold Cfg.blockEnd; split <;> omega
      have h1 : c.blocks - s.blockCtr = (c.blocks - (s.blockCtr + 1)) + 1 := by omega
      rw [h1]
      have h2 : (2 * c.base + 6) * (c.blocks - (s.blockCtr + 1) + 1) =
        (2 * c.base + 6) * (c.blocks - (s.blockCtr + 1)) + (2 * c.base + 6) := by ring
      omega
  | call w tid jobs i stop hw hne =>
    have := sum_map_set PC.weight s.workers w (.calling tid jobs i stop) _ hw
    simp only [PC.weight] at this
    simp only [measure]; omega
  | ret w tid jobs i stop hw =>
    have hok := h.ok _ (List.mem_of_getElem? hw)
    simp only [PC.ok] at hok
    have := sum_map_set PC.weight s.workers w (.segment tid jobs (i + 1) stop) _ hw
    simp only [PC.weight] at this
    simp only [measure]; omega
  | endSegment w tid jobs i hw =>
    have := sum_map_set PC.weight s.workers w (.loop tid jobs) _ hw
    simp only [PC.weight] at this
    simp only [measure]; omega
  | finish w jobs hw =>
    have := sum_map_set PC.weight s.workers w .done _ hw
    simp only [PC.weight] at this
    simp only [measure]; omega
  | unblock hw hf hr =>
    simp [measure, hr]

/-- A worker that is not done can take a step on its own. -/
theorem worker_can_step {c : Cfg} {s : State} (w : Nat) (p : PC)
    (hw : s.workers[w]? = some p) (hp : p ≠ .done) :
    ∃ s', Step c s s' ∧ s'.workers.length = s.workers.length := by
  cases p with
  | «begin» => exact ⟨_, Step.fetchId s w hw, by simp⟩
  | gotId t => exact ⟨_, Step.test s w t hw, by simp⟩
  | spawn t => exact ⟨_, Step.addTask s w t hw, by simp⟩
  | loop t j => exact ⟨_, Step.fetchBlock s w t j hw, by simp⟩
  | segment t j i stop =>
    by_cases hi : i = stop
    · subst hi; exact ⟨_, Step.endSegment s w t j i hw, by simp⟩
    · exact ⟨_, Step.call s w t j i stop hw hi, by simp⟩
  | calling t j i stop => exact ⟨_, Step.ret s w t j i stop hw, by simp⟩
  | finishing j => exact ⟨_, Step.finish s w j hw, by simp⟩
  | done => exact absurd rfl hp

theorem exists_pos_of_sum {α : Type} (f : α → Nat) (l : List α) (h : 0 < (l.map f).sum) :
    ∃ (i : Nat) (x : α), l[i]? = some x ∧ 0 < f x := by
  induction l with
  | nil => simp at h
  | cons a l ih =>
    by_cases ha : 0 < f a
    · exact ⟨0, a, by simp, ha⟩
    · simp only [List.map_cons, List.sum_cons] at h
      obtain ⟨i, x, hi, hx⟩ := ih (by omega)
      exact ⟨i + 1, x, by simpa using hi, hx⟩

end Ceres.Parallel
