import Verif.Queue.Model
import Verif.Parallel.Lemmas

/-!
# C22: the concurrent queue is a linearizable FIFO queue without lost wakeups
-/
namespace Ceres.Queue

variable {V : Type}

/-! ### Specification -/

/-- Thread of an event. -/
def Ev.thread : Ev V → Nat
  | .inv t _ => t
  | .lin t _ _ => t
  | .ret t _ _ => t

/-- Where a thread is with respect to its own calls. -/
inductive Phase (V : Type) where
  | outside
  | called (op : Op V)
  | effected (op : Op V) (r : Res V)

/-- The events of thread `t` in the trace are calls, each followed by exactly one effect and
then a return with the result of that effect; the last call may be incomplete. -/
inductive WellFormed (t : Nat) : List (Ev V) → Phase V → Prop where
  | nil : WellFormed t [] .outside
  | other (tr : List (Ev V)) (p : Phase V) (e : Ev V) : e.thread ≠ t → WellFormed t tr p →
      WellFormed t (tr ++ [e]) p
  | inv (tr : List (Ev V)) (op : Op V) : WellFormed t tr .outside →
      WellFormed t (tr ++ [.inv t op]) (.called op)
  | lin (tr : List (Ev V)) (op : Op V) (r : Res V) : WellFormed t tr (.called op) →
      WellFormed t (tr ++ [.lin t op r]) (.effected op r)
  | ret (tr : List (Ev V)) (op : Op V) (r : Res V) : WellFormed t tr (.effected op r) →
      WellFormed t (tr ++ [.ret t op r]) .outside

/-- The effects, taken in the order in which they happen, are a run of a sequential FIFO
queue that started with `q0` and blocking enabled, and leave it with the given content and
blocking flag.  A `Wait` may return `false` only when the queue is empty and stopped. -/
inductive Legal (q0 : List V) : List (Ev V) → List V → Bool → Prop where
  | nil : Legal q0 [] q0 true
  | inv (tr : List (Ev V)) (q : List V) (w : Bool) (t : Nat) (op : Op V) : Legal q0 tr q w →
      Legal q0 (tr ++ [.inv t op]) q w
  | ret (tr : List (Ev V)) (q : List V) (w : Bool) (t : Nat) (op : Op V) (r : Res V) :
      Legal q0 tr q w → Legal q0 (tr ++ [.ret t op r]) q w
  | push (tr : List (Ev V)) (q : List V) (w : Bool) (t : Nat) (v : V) : Legal q0 tr q w →
      Legal q0 (tr ++ [.lin t (.push v) .unit]) (q ++ [v]) w
  | pop (tr : List (Ev V)) (q : List V) (w : Bool) (t : Nat) (v : V) : Legal q0 tr (v :: q) w →
      Legal q0 (tr ++ [.lin t .pop (.got v)]) q w
  | popEmpty (tr : List (Ev V)) (w : Bool) (t : Nat) : Legal q0 tr [] w →
      Legal q0 (tr ++ [.lin t .pop .empty]) [] w
  | wait (tr : List (Ev V)) (q : List V) (w : Bool) (t : Nat) (v : V) : Legal q0 tr (v :: q) w →
      Legal q0 (tr ++ [.lin t .wait (.got v)]) q w
  | waitEmpty (tr : List (Ev V)) (t : Nat) : Legal q0 tr [] false →
      Legal q0 (tr ++ [.lin t .wait .empty]) [] false
  | stop (tr : List (Ev V)) (q : List V) (w : Bool) (t : Nat) : Legal q0 tr q w →
      Legal q0 (tr ++ [.lin t .stopWaiters .unit]) q false
  | enable (tr : List (Ev V)) (q : List V) (w : Bool) (t : Nat) : Legal q0 tr q w →
      Legal q0 (tr ++ [.lin t .enableWaiters .unit]) q true

/-- Values pushed, in the order of the effects. -/
def pushed (tr : List (Ev V)) : List V :=
  tr.filterMap (fun e => match e with | .lin _ (.push v) _ => some v | _ => none)

/-- Values obtained by `Pop` or `Wait`, in the order of the effects. -/
def taken (tr : List (Ev V)) : List V :=
  tr.filterMap (fun e => match e with | .lin _ _ (.got v) => some v | _ => none)

/-! ### Invariant -/

def TS.sleeps : TS V → Nat
  | .sleeping => 1
  | _ => 0

/-- Waiters that will re-evaluate the predicate. -/
def TS.active : TS V → Nat
  | .woken => 1
  | .locked .wait => 1
  | _ => 0

/-- The phase of a thread state. -/
def TS.phase : TS V → Phase V
  | .idle => .outside
  | .wantLock op => .called op
  | .locked op => .called op
  | .sleeping => .called .wait
  | .woken => .called .wait
  | .finished op r => .effected op r

structure Inv (q0 : List V) (s : Sys V) : Prop where
  own : ∀ (t : Nat) (op : Op V), s.th[t]? = some (.locked op) → s.owner = some t
  held : ∀ t, s.owner = some t → ∃ op, s.th[t]? = some (.locked op)
  wake : (s.th.map TS.sleeps).sum = 0 ∨ s.q.length ≤ (s.th.map TS.active).sum
  stopped : s.wait = false → (s.th.map TS.sleeps).sum = 0
  legal : Legal q0 s.trace s.q s.wait
  wf : ∀ (t : Nat) (x : TS V), s.th[t]? = some x → WellFormed t s.trace x.phase
  wf' : ∀ t : Nat, s.th[t]? = none → WellFormed t s.trace .outside

open Ceres.Parallel (sum_map_set le_sum_map set_get exists_pos_of_sum)

theorem wakeAll_get (th : List (TS V)) (t : Nat) : (wakeAll th)[t]? =
    (th[t]?).map TS.wake := by
  simp [wakeAll]

theorem wakeAll_sleeps (th : List (TS V)) : ((wakeAll th).map TS.sleeps).sum = 0 := by
  induction th with
  | nil => rfl
  | cons a l ih =>
    simp only [wakeAll, List.map_cons, List.sum_cons] at ih ⊢
    rw [ih]
    cases a <;> rfl

theorem sleeps_zero {th : List (TS V)} (h : ∀ u : Nat, th[u]? ≠ some .sleeping) :
    (th.map TS.sleeps).sum = 0 := by
  by_contra hne
  obtain ⟨i, x, hi, hx⟩ := exists_pos_of_sum TS.sleeps th (by omega)
  cases x <;> simp [TS.sleeps] at hx
  exact h i hi

/-- A step of thread `t` from `old` to `x` adding event `e` of `t`. -/
theorem wf_set {th : List (TS V)} {tr : List (Ev V)} {t : Nat} {old x : TS V} {e : Ev V}
    (hwf : ∀ (u : Nat) (x : TS V), th[u]? = some x → WellFormed u tr x.phase)
    (hwf' : ∀ u : Nat, th[u]? = none → WellFormed u tr .outside)
    (ht : th[t]? = some old) (he : e.thread = t)
    (hx : WellFormed t (tr ++ [e]) x.phase) :
    (∀ (u : Nat) (y : TS V), (th.set t x)[u]? = some y → WellFormed u (tr ++ [e]) y.phase) ∧
    (∀ u : Nat, (th.set t x)[u]? = none → WellFormed u (tr ++ [e]) .outside) := by
  have hlt : t < th.length := (List.getElem?_eq_some_iff.1 ht).1
  constructor
  · intro u y hy
    rcases set_get hy with ⟨rfl, rfl, _⟩ | ⟨hne, hy⟩
    · exact hx
    · exact WellFormed.other _ _ _ (by rw [he]; exact fun h => hne h.symm) (hwf u y hy)
  · intro u hu
    have hge : th.length ≤ u := by simpa using hu
    exact WellFormed.other _ _ _ (by rw [he]; omega)
      (hwf' u (List.getElem?_eq_none hge))

/-- A silent step of thread `t` keeping its phase. -/
theorem wf_keep {th : List (TS V)} {tr : List (Ev V)} {t : Nat} {old x : TS V}
    (hwf : ∀ (u : Nat) (x : TS V), th[u]? = some x → WellFormed u tr x.phase)
    (hwf' : ∀ u : Nat, th[u]? = none → WellFormed u tr .outside)
    (ht : th[t]? = some old) (hx : x.phase = old.phase) :
    (∀ (u : Nat) (y : TS V), (th.set t x)[u]? = some y → WellFormed u tr y.phase) ∧
    (∀ u : Nat, (th.set t x)[u]? = none → WellFormed u tr .outside) := by
  constructor
  · intro u y hy
    rcases set_get hy with ⟨rfl, rfl, _⟩ | ⟨hne, hy⟩
    · rw [hx]; exact hwf _ _ ht
    · exact hwf u y hy
  · intro u hu
    have hge : th.length ≤ u := by simpa using hu
    exact hwf' u (List.getElem?_eq_none hge)

/-- Ownership clauses when the owner `t` leaves the critical section. -/
theorem own_release {s : Sys V} {q0 : List V} (h : Inv q0 s) {t : Nat} {op : Op V}
    (ht : s.th[t]? = some (.locked op)) {x : TS V} (hx : ∀ op, x ≠ .locked op) :
    ∀ (u : Nat) (op' : Op V), (s.th.set t x)[u]? ≠ some (.locked op') := by
  intro u op' hu
  rcases set_get hu with ⟨rfl, h2, _⟩ | ⟨hne, hu⟩
  · exact hx _ h2.symm
  · have h1 := h.own u op' hu
    have h2 := h.own t op ht
    rw [h1] at h2
    exact hne (Option.some.inj h2)

theorem inv_start (q0 : List V) (n : Nat) : Inv q0 (start q0 n) := by
  have hget : ∀ (t : Nat) (x : TS V), (List.replicate n (TS.idle (V := V)))[t]? = some x →
      x = .idle := by
    intro t x hx
    rw [List.getElem?_replicate] at hx
    split at hx
    · exact (Option.some.inj hx).symm
    · simp at hx
  have hs : ((List.replicate n (TS.idle (V := V))).map TS.sleeps).sum = 0 := by
    apply sleeps_zero
    intro u hu
    have := hget u _ hu
    simp at this
  constructor
  · intro t op ht
    have := hget t _ ht
    simp at this
  · intro t ht; simp [start] at ht
  · exact Or.inl hs
  · intro; exact hs
  · exact Legal.nil
  · intro t x hx
    rw [hget t x hx]
    exact WellFormed.nil
  · intro t _; exact WellFormed.nil

theorem inv_step {allowed : List (Ev V) → Nat → Op V → Prop} {q0 : List V} {s s' : Sys V}
    (h : Inv q0 s) (hs : Step allowed s s') : Inv q0 s' := by
  cases hs with
  | invoke t op ht ha =>
    have h1 := sum_map_set TS.sleeps s.th t (.wantLock op) _ ht
    have h2 := sum_map_set TS.active s.th t (.wantLock op) _ ht
    simp only [TS.sleeps, TS.active, Nat.add_zero] at h1 h2
    obtain ⟨w1, w2⟩ := wf_set (x := .wantLock op) (e := .inv t op) h.wf h.wf' ht rfl
      (WellFormed.inv _ _ (h.wf t _ ht))
    refine ⟨?_, ?_, ?_, ?_, Legal.inv _ _ _ _ _ h.legal, w1, w2⟩
    · intro u op' hu
      rcases set_get hu with ⟨_, h2, _⟩ | ⟨_, hu⟩
      · simp at h2
      · exact h.own u op' hu
    · intro u hu
      obtain ⟨op', ho⟩ := h.held u hu
      refine ⟨op', ?_⟩
      have hne : t ≠ u := by rintro rfl; rw [ht] at ho; simp at ho
      simp only; rw [List.getElem?_set_ne hne]; exact ho
    · simp only [h1, h2]; exact h.wake
    · simp only [h1]; exact h.stopped
  | lock t op ht ho =>
    have h1 := sum_map_set TS.sleeps s.th t (.locked op) _ ht
    have h2 := sum_map_set TS.active s.th t (.locked op) _ ht
    simp only [TS.sleeps, Nat.add_zero] at h1
    have h2' : (s.th.map TS.active).sum ≤ ((s.th.set t (.locked op)).map TS.active).sum := by
      simp only [TS.active] at h2; omega
    obtain ⟨w1, w2⟩ := wf_keep (x := .locked op) h.wf h.wf' ht rfl
    have hlt : t < s.th.length := (List.getElem?_eq_some_iff.1 ht).1
    refine ⟨?_, ?_, ?_, ?_, h.legal, w1, w2⟩
    · intro u op' hu
      rcases set_get hu with ⟨h1, _, _⟩ | ⟨_, hu⟩
      · simp [h1]
      · have := h.own u op' hu
        rw [ho] at this; simp at this
    · intro u hu
      simp only [Option.some.injEq] at hu
      subst hu
      exact ⟨op, by simp [hlt]⟩
    · simp only [h1]
      have := h.wake
      omega
    · simp only [h1]; exact h.stopped
  | relock t ht ho =>
    have h1 := sum_map_set TS.sleeps s.th t (.locked .wait) _ ht
    have h2 := sum_map_set TS.active s.th t (.locked .wait) _ ht
    simp only [TS.sleeps, TS.active, Nat.add_zero] at h1 h2
    obtain ⟨w1, w2⟩ := wf_keep (x := .locked .wait) h.wf h.wf' ht rfl
    have hlt : t < s.th.length := (List.getElem?_eq_some_iff.1 ht).1
    refine ⟨?_, ?_, ?_, ?_, h.legal, w1, w2⟩
    · intro u op' hu
      rcases set_get hu with ⟨h1, _, _⟩ | ⟨_, hu⟩
      · simp [h1]
      · have := h.own u op' hu
        rw [ho] at this; simp at this
    · intro u hu
      simp only [Option.some.injEq] at hu
      subst hu
      exact ⟨.wait, by simp [hlt]⟩
    · simp only [h1]
      have := h.wake
      omega
    · simp only [h1]; exact h.stopped
  | pushNotify t u v ht hu =>
    have hne : t ≠ u := by rintro rfl; rw [ht] at hu; simp at hu
    have hu' : (s.th.set t (.finished (.push v) .unit))[u]? = some .sleeping := by
      rw [List.getElem?_set_ne hne]; exact hu
    have h1 := sum_map_set TS.sleeps s.th t (.finished (.push v) .unit) _ ht
    have h2 := sum_map_set TS.active s.th t (.finished (.push v) .unit) _ ht
    have h3 := sum_map_set TS.sleeps _ u .woken _ hu'
    have h4 := sum_map_set TS.active _ u .woken _ hu'
    simp only [TS.sleeps, TS.active, Nat.add_zero] at h1 h2 h3 h4
    obtain ⟨w1, w2⟩ := wf_set (x := .finished (.push v) .unit) (e := .lin t (.push v) .unit)
      h.wf h.wf' ht rfl (WellFormed.lin _ _ _ (h.wf t _ ht))
    obtain ⟨w3, w4⟩ := wf_keep (x := .woken) w1 w2 hu' rfl
    have hrel := own_release h ht (x := .finished (.push v) .unit) (by simp)
    refine ⟨?_, ?_, ?_, ?_, Legal.push _ _ _ _ _ h.legal, w3, w4⟩
    · intro x op' hx
      rcases set_get hx with ⟨_, h2, _⟩ | ⟨_, hx⟩
      · simp at h2
      · exact absurd hx (hrel x op')
    · intro x hx; simp at hx
    · have := h.wake
      simp only [List.length_append, List.length_singleton]
      omega
    · intro hw
      have := h.stopped hw
      simp only
      omega
  | pushQuiet t v ht hq =>
    have h1 := sum_map_set TS.sleeps s.th t (.finished (.push v) .unit) _ ht
    simp only [TS.sleeps, Nat.add_zero] at h1
    have hz := sleeps_zero hq
    obtain ⟨w1, w2⟩ := wf_set (x := .finished (.push v) .unit) (e := .lin t (.push v) .unit)
      h.wf h.wf' ht rfl (WellFormed.lin _ _ _ (h.wf t _ ht))
    have hrel := own_release h ht (x := .finished (.push v) .unit) (by simp)
    refine ⟨?_, ?_, ?_, ?_, Legal.push _ _ _ _ _ h.legal, w1, w2⟩
    · intro x op' hx; exact absurd hx (hrel x op')
    · intro x hx; simp at hx
    · left; simp only; omega
    · intro _; simp only; omega
  | pop t ht =>
    have h1 := sum_map_set TS.sleeps s.th t (.finished .pop (popUnlocked s.q).1) _ ht
    have h2 := sum_map_set TS.active s.th t (.finished .pop (popUnlocked s.q).1) _ ht
    simp only [TS.sleeps, TS.active, Nat.add_zero] at h1 h2
    obtain ⟨w1, w2⟩ := wf_set (x := .finished .pop (popUnlocked s.q).1)
      (e := .lin t .pop (popUnlocked s.q).1)
      h.wf h.wf' ht rfl (WellFormed.lin _ _ _ (h.wf t _ ht))
    have hrel := own_release h ht (x := .finished .pop (popUnlocked s.q).1) (by simp)
    have hlen : (popUnlocked s.q).2.length ≤ s.q.length := by
      cases s.q <;> simp [popUnlocked]
    refine ⟨?_, ?_, ?_, ?_, ?_, w1, w2⟩
    · intro x op' hx; exact absurd hx (hrel x op')
    · intro x hx; simp at hx
    · have := h.wake
      simp only
      omega
    · intro hw
      have := h.stopped hw
      simp only
      omega
    · have hl := h.legal
      cases hq : s.q with
      | nil => rw [hq] at hl; exact Legal.popEmpty _ _ _ hl
      | cons v q => rw [hq] at hl; exact Legal.pop _ _ _ _ _ hl
  | waitGo t ht hp =>
    have h1 := sum_map_set TS.sleeps s.th t (.finished .wait (popUnlocked s.q).1) _ ht
    have h2 := sum_map_set TS.active s.th t (.finished .wait (popUnlocked s.q).1) _ ht
    simp only [TS.sleeps, TS.active, Nat.add_zero] at h1 h2
    obtain ⟨w1, w2⟩ := wf_set (x := .finished .wait (popUnlocked s.q).1)
      (e := .lin t .wait (popUnlocked s.q).1)
      h.wf h.wf' ht rfl (WellFormed.lin _ _ _ (h.wf t _ ht))
    have hrel := own_release h ht (x := .finished .wait (popUnlocked s.q).1) (by simp)
    refine ⟨?_, ?_, ?_, ?_, ?_, w1, w2⟩
    · intro x op' hx; exact absurd hx (hrel x op')
    · intro x hx; simp at hx
    · have hw := h.wake
      simp only
      cases hq : s.q with
      | nil =>
        have hf : s.wait = false := by
          by_contra hc
          exact hp ⟨by simpa using hc, hq⟩
        have := h.stopped hf
        rw [hq] at h1
        left; omega
      | cons v q =>
        rw [hq] at hw
        simp only [popUnlocked, List.length_cons] at hw ⊢
        rw [hq] at h1 h2
        simp only [popUnlocked] at h1 h2
        omega
    · intro hw
      have := h.stopped hw
      simp only
      omega
    · have hl := h.legal
      cases hq : s.q with
      | nil =>
        have hf : s.wait = false := by
          by_contra hc
          exact hp ⟨by simpa using hc, hq⟩
        rw [hq] at hl
        simp only [hf] at hl ⊢
        exact Legal.waitEmpty _ _ hl
      | cons v q => rw [hq] at hl; exact Legal.wait _ _ _ _ _ hl
  | waitSleep t ht hp =>
    have hp' : s.wait = true ∧ s.q = [] := by
      by_contra hc; exact hp hc
    obtain ⟨w1, w2⟩ := wf_keep (x := .sleeping) h.wf h.wf' ht rfl
    have hrel := own_release h ht (x := .sleeping) (by simp)
    refine ⟨?_, ?_, ?_, ?_, h.legal, w1, w2⟩
    · intro x op' hx; exact absurd hx (hrel x op')
    · intro x hx; simp at hx
    · right; simp [hp'.2]
    · intro hw
      simp only [hp'.1] at hw
      simp at hw
  | stop t ht =>
    obtain ⟨w1, w2⟩ := wf_set (x := .finished .stopWaiters .unit)
      (e := .lin t .stopWaiters .unit) h.wf h.wf' ht rfl (WellFormed.lin _ _ _ (h.wf t _ ht))
    have hrel := own_release h ht (x := .finished .stopWaiters .unit) (by simp)
    refine ⟨?_, ?_, Or.inl (wakeAll_sleeps _), fun _ => wakeAll_sleeps _,
      Legal.stop _ _ _ _ h.legal, ?_, ?_⟩
    · intro x op' hx
      simp only at hx
      rw [wakeAll_get, Option.map_eq_some_iff] at hx
      obtain ⟨y, hy, hyx⟩ := hx
      cases y <;> simp [TS.wake] at hyx
      subst hyx
      exact absurd hy (hrel x _)
    · intro x hx; simp at hx
    · intro x y hy
      simp only at hy
      rw [wakeAll_get, Option.map_eq_some_iff] at hy
      obtain ⟨z, hz, hzy⟩ := hy
      have := w1 x z hz
      cases z <;> simp [TS.wake] at hzy <;> subst hzy <;> exact this
    · intro x hx
      simp only at hx
      rw [wakeAll_get, Option.map_eq_none_iff] at hx
      exact w2 x hx
  | enable t ht =>
    have h1 := sum_map_set TS.sleeps s.th t (.finished .enableWaiters .unit) _ ht
    have h2 := sum_map_set TS.active s.th t (.finished .enableWaiters .unit) _ ht
    simp only [TS.sleeps, TS.active, Nat.add_zero] at h1 h2
    obtain ⟨w1, w2⟩ := wf_set (x := .finished .enableWaiters .unit)
      (e := .lin t .enableWaiters .unit) h.wf h.wf' ht rfl (WellFormed.lin _ _ _ (h.wf t _ ht))
    have hrel := own_release h ht (x := .finished .enableWaiters .unit) (by simp)
    refine ⟨?_, ?_, ?_, ?_, Legal.enable _ _ _ _ h.legal, w1, w2⟩
    · intro x op' hx; exact absurd hx (hrel x op')
    · intro x hx; simp at hx
    · simp only [h1, h2]; exact h.wake
    · intro hw; simp at hw
  | spurious t ht =>
    have h1 := sum_map_set TS.sleeps s.th t .woken _ ht
    have h2 := sum_map_set TS.active s.th t .woken _ ht
    simp only [TS.sleeps, TS.active, Nat.add_zero] at h1 h2
    obtain ⟨w1, w2⟩ := wf_keep (x := .woken) h.wf h.wf' ht rfl
    refine ⟨?_, ?_, ?_, ?_, h.legal, w1, w2⟩
    · intro x op' hx
      rcases set_get hx with ⟨_, h2, _⟩ | ⟨_, hx⟩
      · simp at h2
      · exact h.own x op' hx
    · intro u hu
      obtain ⟨op', ho⟩ := h.held u hu
      refine ⟨op', ?_⟩
      have hne : t ≠ u := by rintro rfl; rw [ht] at ho; simp at ho
      simp only; rw [List.getElem?_set_ne hne]; exact ho
    · have := h.wake
      simp only
      omega
    · intro hw
      have := h.stopped hw
      simp only
      omega
  | ret t op r ht =>
    have h1 := sum_map_set TS.sleeps s.th t .idle _ ht
    have h2 := sum_map_set TS.active s.th t .idle _ ht
    simp only [TS.sleeps, TS.active, Nat.add_zero] at h1 h2
    obtain ⟨w1, w2⟩ := wf_set (x := .idle) (e := .ret t op r) h.wf h.wf' ht rfl
      (WellFormed.ret _ _ _ (h.wf t _ ht))
    refine ⟨?_, ?_, ?_, ?_, Legal.ret _ _ _ _ _ _ h.legal, w1, w2⟩
    · intro u op' hu
      rcases set_get hu with ⟨_, h2, _⟩ | ⟨_, hu⟩
      · simp at h2
      · exact h.own u op' hu
    · intro u hu
      obtain ⟨op', ho⟩ := h.held u hu
      refine ⟨op', ?_⟩
      have hne : t ≠ u := by rintro rfl; rw [ht] at ho; simp at ho
      simp only; rw [List.getElem?_set_ne hne]; exact ho
    · simp only [h1, h2]; exact h.wake
    · simp only [h1]; exact h.stopped

theorem inv_reachable {allowed : List (Ev V) → Nat → Op V → Prop} {q0 : List V} {n : Nat}
    {s : Sys V} (h : Reachable allowed q0 n s) : Inv q0 s := by
  induction h with
  | init => exact inv_start q0 n
  | step s s' _ hs ih => exact inv_step ih hs

/-- **C22 (linearizability).**  In every reachable state: the effects so far are a run of a
sequential FIFO queue, and every thread's events are calls each with exactly one effect
between the call and its return, the return value being the effect's. -/
theorem queue_linearizable {allowed : List (Ev V) → Nat → Op V → Prop} {q0 : List V} {n : Nat}
    {s : Sys V} (h : Reachable allowed q0 n s) :
    Legal q0 s.trace s.q s.wait ∧ ∀ t, ∃ p, WellFormed t s.trace p := by
  have hi := inv_reachable h
  refine ⟨hi.legal, fun t => ?_⟩
  cases hx : s.th[t]? with
  | none => exact ⟨_, hi.wf' t hx⟩
  | some x => exact ⟨_, hi.wf t x hx⟩

theorem legal_fifo {q0 q : List V} {tr : List (Ev V)} {w : Bool} (h : Legal q0 tr q w) :
    q0 ++ pushed tr = taken tr ++ q := by
  induction h with
  | nil => simp [pushed, taken]
  | inv tr q w t op _ ih => simpa [pushed, taken] using ih
  | ret tr q w t op r _ ih => simpa [pushed, taken] using ih
  | push tr q w t v _ ih =>
    have : q0 ++ (pushed tr ++ [v]) = taken tr ++ (q ++ [v]) := by
      rw [← List.append_assoc, ih, List.append_assoc]
    simpa [pushed, taken] using this
  | pop tr q w t v _ ih => simpa [pushed, taken] using ih
  | popEmpty tr w t _ ih => simpa [pushed, taken] using ih
  | wait tr q w t v _ ih => simpa [pushed, taken] using ih
  | waitEmpty tr t _ ih => simpa [pushed, taken] using ih
  | stop tr q w t _ ih => simpa [pushed, taken] using ih
  | enable tr q w t _ ih => simpa [pushed, taken] using ih

/-- **C22 (FIFO).**  The values obtained so far, followed by the current content, are the
initial content followed by the values pushed, in order: every pushed value is obtained at
most once, in push order, and none is lost. -/
theorem queue_fifo {allowed : List (Ev V) → Nat → Op V → Prop} {q0 : List V} {n : Nat}
    {s : Sys V} (h : Reachable allowed q0 n s) : q0 ++ pushed s.trace = taken s.trace ++ s.q :=
  legal_fifo (inv_reachable h).legal

/-- **C22 (mutual exclusion).**  At most one thread is inside a critical section. -/
theorem queue_mutex {allowed : List (Ev V) → Nat → Op V → Prop} {q0 : List V} {n : Nat}
    {s : Sys V} (h : Reachable allowed q0 n s) {t u : Nat} {a b : Op V}
    (ht : s.th[t]? = some (.locked a)) (hu : s.th[u]? = some (.locked b)) : t = u := by
  have hi := inv_reachable h
  have h1 := hi.own t a ht
  have h2 := hi.own u b hu
  rw [h1] at h2
  exact Option.some.inj h2

/-- **C22 (no lost wakeup).**  If a thread sleeps in `Wait` while an element is available, then
at least as many other waiters as there are elements are awake and about to look at the
queue; once the queue has been stopped no thread sleeps. -/
theorem queue_no_lost_wakeup {allowed : List (Ev V) → Nat → Op V → Prop} {q0 : List V} {n : Nat}
    {s : Sys V} (h : Reachable allowed q0 n s) {t : Nat} (ht : s.th[t]? = some .sleeping) :
    s.wait = true ∧ s.q.length ≤ (s.th.map TS.active).sum := by
  have hi := inv_reachable h
  have h1 := le_sum_map TS.sleeps s.th t _ ht
  simp only [TS.sleeps] at h1
  constructor
  · by_contra hc
    have := hi.stopped (by simpa using hc)
    omega
  · have := hi.wake
    omega

/-- A step that is neither a new call nor a spurious wakeup. -/
def Productive (s s' : Sys V) : Prop := Step (fun _ _ _ => False) s s' ∧
  ¬ ∃ t, s.th[t]? = some .sleeping ∧ s' = { s with th := s.th.set t .woken }

theorem owner_step {allowed : List (Ev V) → Nat → Op V → Prop} {s : Sys V} {t : Nat}
    {op : Op V} (ht : s.th[t]? = some (.locked op)) :
    ∃ s', Step allowed s s' ∧ s'.owner = none := by
  cases op with
  | push v =>
    by_cases hsl : ∃ u : Nat, s.th[u]? = some .sleeping
    · obtain ⟨u, hu⟩ := hsl
      exact ⟨_, Step.pushNotify s t u v ht hu, rfl⟩
    · exact ⟨_, Step.pushQuiet s t v ht (fun u hu => hsl ⟨u, hu⟩), rfl⟩
  | pop => exact ⟨_, Step.pop s t ht, rfl⟩
  | wait =>
    by_cases hp : mayProceed s
    · exact ⟨_, Step.waitGo s t ht hp, rfl⟩
    · exact ⟨_, Step.waitSleep s t ht hp, rfl⟩
  | stopWaiters => exact ⟨_, Step.stop s t ht, rfl⟩
  | enableWaiters => exact ⟨_, Step.enable s t ht, rfl⟩

/-- **C22 (no deadlock).**  If some call is unfinished, then either a thread can continue
without any new call and without a spurious wakeup, or every unfinished call is a `Wait` on an
empty queue that has not been stopped. -/
theorem queue_progress {allowed : List (Ev V) → Nat → Op V → Prop} {q0 : List V} {n : Nat}
    {s : Sys V} (h : Reachable allowed q0 n s) :
    (∃ s', Productive s s') ∨
    (∀ (t : Nat) (x : TS V), s.th[t]? = some x →
      x = .idle ∨ (x = .sleeping ∧ s.q = [] ∧ s.wait = true)) := by
  have hi := inv_reachable h
  -- a productive step changes the owner or the trace
  have hprod : ∀ s', Step (fun _ _ _ => False) s s' →
      (s'.owner ≠ s.owner ∨ s'.trace ≠ s.trace) → Productive s s' := by
    intro s' hs hne
    refine ⟨hs, ?_⟩
    rintro ⟨t, _, rfl⟩
    rcases hne with hne | hne <;> exact hne rfl
  cases ho : s.owner with
  | some t =>
    obtain ⟨op, hop⟩ := hi.held t ho
    obtain ⟨s', hs, hn⟩ := owner_step (allowed := fun _ _ _ => False) hop
    exact Or.inl ⟨s', hprod s' hs (Or.inl (by rw [hn, ho]; simp))⟩
  | none =>
    by_cases hw : ∃ (t : Nat) (x : TS V), s.th[t]? = some x ∧ x ≠ .idle ∧ x ≠ .sleeping
    · obtain ⟨t, x, ht, h1, h2⟩ := hw
      left
      cases x with
      | idle => exact absurd rfl h1
      | sleeping => exact absurd rfl h2
      | wantLock op =>
        exact ⟨_, hprod _ (Step.lock s t op ht ho) (Or.inl (by simp [ho]))⟩
      | locked op => have := hi.own t op ht; rw [ho] at this; simp at this
      | woken => exact ⟨_, hprod _ (Step.relock s t ht ho) (Or.inl (by simp [ho]))⟩
      | finished op r =>
        exact ⟨_, hprod _ (Step.ret s t op r ht) (Or.inr (by simp))⟩
    · right
      intro t x ht
      by_cases hx : x = .idle
      · exact Or.inl hx
      · right
        have hsl : x = .sleeping := by
          by_contra hc
          exact hw ⟨t, x, ht, hx, hc⟩
        subst hsl
        obtain ⟨h1, h2⟩ := queue_no_lost_wakeup h ht
        refine ⟨rfl, ?_, h1⟩
        have hz : (s.th.map TS.active).sum = 0 := by
          by_contra hne
          obtain ⟨i, y, hy, hpos⟩ := exists_pos_of_sum TS.active s.th (by omega)
          apply hw
          refine ⟨i, y, hy, ?_, ?_⟩ <;> rintro rfl <;> simp [TS.active] at hpos
        exact List.length_eq_zero_iff.1 (by omega)

/-! ### Termination of the productive steps -/

/-- Remaining work of a thread in a system of `N` threads. -/
def TS.work (N : Nat) : TS V → Nat
  | .idle => 0
  | .sleeping => 0
  | .finished _ _ => 1
  | .woken => 3
  | .locked .wait => 2
  | .locked _ => 2 + 3 * N
  | .wantLock _ => 3 + 3 * N

theorem wakeAll_work (N : Nat) (th : List (TS V)) :
    ((wakeAll th).map (TS.work N)).sum ≤ (th.map (TS.work N)).sum + 3 * th.length := by
  induction th with
  | nil => simp [wakeAll]
  | cons a l ih =>
    simp only [wakeAll, List.map_cons, List.sum_cons, List.length_cons] at ih ⊢
    have : TS.work N a.wake ≤ TS.work N a + 3 := by
      cases a <;> simp [TS.work, TS.wake]
    omega

theorem productive_decreases {s s' : Sys V} (h : Productive s s') :
    (s'.th.map (TS.work s'.th.length)).sum < (s.th.map (TS.work s.th.length)).sum ∧
    s'.th.length = s.th.length := by
  obtain ⟨hs, hns⟩ := h
  cases hs with
  | invoke t op ht ha => exact ha.elim
  | lock t op ht ho =>
    have h1 := sum_map_set (TS.work s.th.length) s.th t (.locked op) _ ht
    simp only [List.length_set, and_true]
    have : TS.work s.th.length (.locked op) < TS.work s.th.length (.wantLock op) := by
      cases op <;> simp [TS.work] <;> omega
    omega
  | relock t ht ho =>
    have h1 := sum_map_set (TS.work s.th.length) s.th t (.locked .wait) _ ht
    simp only [TS.work] at h1
    simp only [List.length_set, and_true]
    omega
  | pushNotify t u v ht hu =>
    have hlt : t < s.th.length := (List.getElem?_eq_some_iff.1 ht).1
    have hne : t ≠ u := by rintro rfl; rw [ht] at hu; simp at hu
    have hu' : (s.th.set t (.finished (.push v) .unit))[u]? = some .sleeping := by
      rw [List.getElem?_set_ne hne]; exact hu
    have h1 := sum_map_set (TS.work s.th.length) s.th t (.finished (.push v) .unit) _ ht
    have h3 := sum_map_set (TS.work s.th.length) _ u .woken _ hu'
    simp only [TS.work] at h1 h3
    simp only [List.length_set, and_true]
    omega
  | pushQuiet t v ht hq =>
    have h1 := sum_map_set (TS.work s.th.length) s.th t (.finished (.push v) .unit) _ ht
    simp only [TS.work] at h1
    simp only [List.length_set, and_true]
    omega
  | pop t ht =>
    have h1 := sum_map_set (TS.work s.th.length) s.th t (.finished .pop (popUnlocked s.q).1) _ ht
    simp only [TS.work] at h1
    simp only [List.length_set, and_true]
    omega
  | waitGo t ht hp =>
    have h1 := sum_map_set (TS.work s.th.length) s.th t
      (.finished .wait (popUnlocked s.q).1) _ ht
    simp only [TS.work] at h1
    simp only [List.length_set, and_true]
    omega
  | waitSleep t ht hp =>
    have h1 := sum_map_set (TS.work s.th.length) s.th t .sleeping _ ht
    simp only [TS.work] at h1
    simp only [List.length_set, and_true]
    omega
  | stop t ht =>
    have h1 := sum_map_set (TS.work s.th.length) s.th t (.finished .stopWaiters .unit) _ ht
    have h2 := wakeAll_work s.th.length (s.th.set t (.finished .stopWaiters .unit))
    have hl : (wakeAll (s.th.set t (.finished .stopWaiters .unit))).length = s.th.length := by
      simp [wakeAll]
    simp only [TS.work, List.length_set] at h1 h2
    simp only [hl, and_true]
    omega
  | enable t ht =>
    have h1 := sum_map_set (TS.work s.th.length) s.th t (.finished .enableWaiters .unit) _ ht
    simp only [TS.work] at h1
    simp only [List.length_set, and_true]
    omega
  | spurious t ht => exact absurd ⟨t, ht, rfl⟩ hns
  | ret t op r ht =>
    have h1 := sum_map_set (TS.work s.th.length) s.th t .idle _ ht
    simp only [TS.work] at h1
    simp only [List.length_set, and_true]
    omega

/-- **C22 (calls finish).**  If no new calls are made, finitely many steps (other than spurious
wakeups) bring every call to completion, except `Wait`s on an empty queue that has not been
stopped. -/
theorem queue_calls_finish {q0 : List V} {n : Nat} {s : Sys V}
    {allowed : List (Ev V) → Nat → Op V → Prop} (h : Reachable allowed q0 n s) :
    ∃ s', Reachable allowed q0 n s' ∧ (∀ (t : Nat) (x : TS V), s'.th[t]? = some x →
      x = .idle ∨ (x = .sleeping ∧ s'.q = [] ∧ s'.wait = true)) := by
  obtain ⟨k, hk⟩ : ∃ k, (s.th.map (TS.work s.th.length)).sum = k := ⟨_, rfl⟩
  induction k using Nat.strong_induction_on generalizing s with
  | _ k ih =>
    rcases queue_progress h with ⟨s1, h1⟩ | h1
    · have hd := (productive_decreases h1).1
      have hst : Step allowed s s1 := by
        obtain ⟨hs, _⟩ := h1
        cases hs with
        | invoke t op ht ha => exact ha.elim
        | lock t op ht ho => exact Step.lock _ t op ht ho
        | relock t ht ho => exact Step.relock _ t ht ho
        | pushNotify t u v ht hu => exact Step.pushNotify _ t u v ht hu
        | pushQuiet t v ht hq => exact Step.pushQuiet _ t v ht hq
        | pop t ht => exact Step.pop _ t ht
        | waitGo t ht hp => exact Step.waitGo _ t ht hp
        | waitSleep t ht hp => exact Step.waitSleep _ t ht hp
        | stop t ht => exact Step.stop _ t ht
        | enable t ht => exact Step.enable _ t ht
        | spurious t ht => exact Step.spurious _ t ht
        | ret t op r ht => exact Step.ret _ t op r ht
      exact ih _ (by omega) (Reachable.step _ _ h hst) rfl
    · exact ⟨s, h, h1⟩

/-! ### Non-vacuity -/

/-- Thread 0 waits on an empty queue and sleeps, thread 1 pushes `7` and wakes it, thread 0
obtains `7`. -/
example : ∃ s : Sys Nat, Reachable (fun _ _ _ => True) [] 2 s ∧
    s.trace = [.inv 0 .wait, .inv 1 (.push 7), .lin 1 (.push 7) .unit, .lin 0 .wait (.got 7),
      .ret 0 .wait (.got 7)] := by
  have s1 := Reachable.step _ _ (Reachable.init (allowed := fun _ _ _ => True) (q0 := ([] : List Nat)) (n := 2))
    (Step.invoke _ 0 .wait rfl trivial)
  have s2 := Reachable.step _ _ s1 (Step.lock _ 0 .wait rfl rfl)
  have s3 := Reachable.step _ _ s2 (Step.waitSleep _ 0 rfl (fun h => h ⟨rfl, rfl⟩))
  have s4 := Reachable.step _ _ s3 (Step.invoke _ 1 (.push 7) rfl trivial)
  have s5 := Reachable.step _ _ s4 (Step.lock _ 1 (.push 7) rfl rfl)
  have s6 := Reachable.step _ _ s5 (Step.pushNotify _ 1 0 7 rfl rfl)
  have s7 := Reachable.step _ _ s6 (Step.relock _ 0 rfl rfl)
  have s8 := Reachable.step _ _ s7 (Step.waitGo _ 0 rfl (fun h => by simp [start] at h))
  have s9 := Reachable.step _ _ s8 (Step.ret _ 0 .wait (.got 7) rfl)
  exact ⟨_, s9, rfl⟩

end Ceres.Queue
