import Verif.Queue.Props

/-!
# C23: `ThreadTokenProvider` (thread_token_provider.cc)

`Acquire` is `CHECK(pool_.Wait(&id))` (lines 43-47), `Release(id)` is `pool_.Push(id)`
(line 49), and the constructor pushes `0 .. num_threads - 1` (lines 37-41).  The provider is
therefore the queue of `Model.lean` with initial content `0 .. k-1` and clients restricted to
those two calls.  The documented client rule is that only an acquired token is released.
-/
namespace Ceres.Queue

/-- The constructor's loop (thread_token_provider.cc:37-41). -/
def initialTokens : Nat → List Nat
  | 0 => []
  | k + 1 => initialTokens k ++ [k]

/-- How often token `v` has been handed out by a completed `Acquire`. -/
def acquired (v : Nat) (tr : List (Ev Nat)) : Nat :=
  tr.countP (fun e => match e with | .ret _ .wait (.got w) => w == v | _ => false)

/-- How often `Release(v)` has been called. -/
def released (v : Nat) (tr : List (Ev Nat)) : Nat :=
  tr.countP (fun e => match e with | .inv _ (.push w) => w == v | _ => false)

/-- Number of current holders of token `v`. -/
def holders (v : Nat) (tr : List (Ev Nat)) : Nat := acquired v tr - released v tr

/-- Clients call `Acquire` at any time, and `Release(v)` only while `v` is held. -/
def tokenClients (tr : List (Ev Nat)) (_ : Nat) : Op Nat → Prop
  | .wait => True
  | .push v => 0 < holders v tr
  | _ => False

/-- Tokens in flight inside a call. -/
def TS.carries (v : Nat) : TS Nat → Nat
  | .wantLock (.push w) => if w = v then 1 else 0
  | .locked (.push w) => if w = v then 1 else 0
  | .finished .wait (.got w) => if w = v then 1 else 0
  | _ => 0

/-- Only `Acquire` and `Release` calls are in progress, and no `Acquire` has failed. -/
def TS.tokenOk : TS Nat → Prop
  | .wantLock op => (∃ v, op = .push v) ∨ op = .wait
  | .locked op => (∃ v, op = .push v) ∨ op = .wait
  | .finished op r => (∃ v, op = .push v ∧ r = .unit) ∨ (op = .wait ∧ ∃ v, r = .got v)
  | _ => True

structure TokInv (k : Nat) (s : Sys Nat) : Prop where
  wait : s.wait = true
  ok : ∀ (t : Nat) (x : TS Nat), s.th[t]? = some x → x.tokenOk
  le : ∀ v, released v s.trace ≤ acquired v s.trace
  sum : ∀ v, s.q.count v + (s.th.map (TS.carries v)).sum + holders v s.trace =
    if v < k then 1 else 0
  noAbort : ∀ t, Ev.ret t .wait .empty ∉ s.trace

open Ceres.Parallel (sum_map_set le_sum_map set_get exists_pos_of_sum)

theorem count_initialTokens (k v : Nat) : (initialTokens k).count v = if v < k then 1 else 0 := by
  induction k with
  | zero => simp [initialTokens]
  | succ k ih =>
    rw [initialTokens, List.count_append, ih, List.count_singleton]
    by_cases h : k = v
    · subst h; simp
    · have : (k == v) = false := by simpa using h
      rw [this]
      by_cases h2 : v < k
      · simp [h2]; omega
      · have : ¬ v < k + 1 := by omega
        simp [h2, this]

theorem ok_set' {th : List (TS Nat)} {t : Nat} {x : TS Nat}
    (h : ∀ (t : Nat) (x : TS Nat), th[t]? = some x → x.tokenOk) (hx : x.tokenOk) :
    ∀ (u : Nat) (y : TS Nat), (th.set t x)[u]? = some y → y.tokenOk := by
  intro u y hy
  rcases set_get hy with ⟨_, rfl, _⟩ | ⟨_, hy⟩
  · exact hx
  · exact h u y hy

theorem tok_step {k : Nat} {s s' : Sys Nat} (h : TokInv k s) (hs : Step tokenClients s s') :
    TokInv k s' := by
  have keep : ∀ (v : Nat) (e : Ev Nat), (∀ t op r, e = .lin t op r →
      acquired v (s.trace ++ [e]) = acquired v s.trace ∧
      released v (s.trace ++ [e]) = released v s.trace) := by
    intro v e t op r he
    subst he
    simp [acquired, released]
  cases hs with
  | invoke t op ht ha =>
    cases op with
    | wait =>
      have hc := fun v => sum_map_set (TS.carries v) s.th t (.wantLock .wait) _ ht
      have e1 : ∀ v, acquired v (s.trace ++ [.inv t .wait]) = acquired v s.trace := by
        intro v; simp [acquired]
      have e2 : ∀ v, released v (s.trace ++ [.inv t .wait]) = released v s.trace := by
        intro v; simp [released]
      refine ⟨h.wait, ok_set' h.ok (Or.inr rfl), ?_, ?_, ?_⟩
      · intro v; simp only; rw [e1, e2]; exact h.le v
      · intro v
        have := hc v
        simp only [TS.carries, Nat.add_zero] at this
        simp only [holders, e1, e2, this]
        exact h.sum v
      · intro u; have := h.noAbort u; simpa using this
    | push w =>
      have ha' : 0 < holders w s.trace := ha
      have hc := fun v => sum_map_set (TS.carries v) s.th t (.wantLock (.push w)) _ ht
      have e1 : ∀ v, acquired v (s.trace ++ [.inv t (.push w)]) = acquired v s.trace := by
        intro v; simp [acquired]
      have e2 : ∀ v, released v (s.trace ++ [.inv t (.push w)]) =
          released v s.trace + if w = v then 1 else 0 := by
        intro v; simp [released, List.countP_append]
      refine ⟨h.wait, ok_set' h.ok (Or.inl ⟨w, rfl⟩), ?_, ?_, ?_⟩
      · intro v; simp only; rw [e1, e2]
        have := h.le v
        split
        · rename_i hwv; subst hwv; unfold holders at ha'; omega
        · omega
      · intro v
        have := hc v
        simp only [TS.carries, Nat.add_zero] at this
        simp only [holders, e1, e2, this]
        have hsum := h.sum v
        simp only [holders] at hsum ha'
        have hle := h.le v
        by_cases hwv : w = v
        · subst hwv
          rw [if_pos rfl]
          omega
        · rw [if_neg hwv]; exact hsum
      · intro u; have := h.noAbort u; simpa using this
    | pop => exact ha.elim
    | stopWaiters => exact ha.elim
    | enableWaiters => exact ha.elim
  | lock t op ht ho =>
    have hop := h.ok t _ ht
    refine ⟨h.wait, ok_set' h.ok hop, h.le, ?_, h.noAbort⟩
    intro v
    have := sum_map_set (TS.carries v) s.th t (.locked op) _ ht
    have e : TS.carries v (.locked op) = TS.carries v (.wantLock op) := by
      cases op <;> rfl
    rw [e] at this
    have h2 := h.sum v
    simp only at h2 ⊢
    omega
  | relock t ht ho =>
    refine ⟨h.wait, ok_set' h.ok (Or.inr rfl), h.le, ?_, h.noAbort⟩
    intro v
    have := sum_map_set (TS.carries v) s.th t (.locked .wait) _ ht
    simp only [TS.carries] at this
    have h2 := h.sum v
    simp only at h2 ⊢
    omega
  | pushNotify t u w ht hu =>
    have hne : t ≠ u := by rintro rfl; rw [ht] at hu; simp at hu
    have hu' : (s.th.set t (.finished (.push w) .unit))[u]? = some .sleeping := by
      rw [List.getElem?_set_ne hne]; exact hu
    refine ⟨h.wait, ok_set' (ok_set' h.ok (Or.inl ⟨w, rfl, rfl⟩)) trivial, ?_, ?_, ?_⟩
    · intro v
      have := keep v _ t (.push w) .unit rfl
      simp only; rw [this.1, this.2]; exact h.le v
    · intro v
      have h1 := sum_map_set (TS.carries v) s.th t (.finished (.push w) .unit) _ ht
      have h3 := sum_map_set (TS.carries v) _ u .woken _ hu'
      have hk := keep v _ t (.push w) .unit rfl
      simp only [TS.carries] at h1 h3
      have h2 := h.sum v
      simp only [holders, hk.1, hk.2, List.count_append, List.count_singleton, beq_iff_eq] at h2 ⊢
      omega
    · intro x; have := h.noAbort x; simpa using this
  | pushQuiet t w ht hq =>
    refine ⟨h.wait, ok_set' h.ok (Or.inl ⟨w, rfl, rfl⟩), ?_, ?_, ?_⟩
    · intro v
      have := keep v _ t (.push w) .unit rfl
      simp only; rw [this.1, this.2]; exact h.le v
    · intro v
      have h1 := sum_map_set (TS.carries v) s.th t (.finished (.push w) .unit) _ ht
      have hk := keep v _ t (.push w) .unit rfl
      simp only [TS.carries] at h1
      have h2 := h.sum v
      simp only [holders, hk.1, hk.2, List.count_append, List.count_singleton, beq_iff_eq] at h2 ⊢
      omega
    · intro x; have := h.noAbort x; simpa using this
  | pop t ht =>
    have := h.ok t _ ht
    simp [TS.tokenOk] at this
  | waitGo t ht hp =>
    cases hq : s.q with
    | nil => exact absurd ⟨h.wait, hq⟩ hp
    | cons w q =>
      simp only [popUnlocked]
      refine ⟨h.wait, ok_set' h.ok (Or.inr ⟨rfl, w, rfl⟩), ?_, ?_, ?_⟩
      · intro v
        have := keep v _ t .wait (.got w) rfl
        simp only; rw [this.1, this.2]; exact h.le v
      · intro v
        have h1 := sum_map_set (TS.carries v) s.th t (.finished .wait (.got w)) _ ht
        have hk := keep v _ t .wait (.got w) rfl
        simp only [TS.carries] at h1
        have h2 := h.sum v
        rw [hq] at h2
        simp only [holders, hk.1, hk.2, List.count_cons, beq_iff_eq] at h2 ⊢
        omega
      · intro x; have := h.noAbort x; simpa using this
  | waitSleep t ht hp =>
    refine ⟨h.wait, ok_set' h.ok trivial, h.le, ?_, h.noAbort⟩
    intro v
    have := sum_map_set (TS.carries v) s.th t .sleeping _ ht
    simp only [TS.carries] at this
    have h2 := h.sum v
    simp only at h2 ⊢
    omega
  | stop t ht =>
    have := h.ok t _ ht
    simp [TS.tokenOk] at this
  | enable t ht =>
    have := h.ok t _ ht
    simp [TS.tokenOk] at this
  | spurious t ht =>
    refine ⟨h.wait, ok_set' h.ok trivial, h.le, ?_, h.noAbort⟩
    intro v
    have := sum_map_set (TS.carries v) s.th t .woken _ ht
    simp only [TS.carries] at this
    have h2 := h.sum v
    simp only at h2 ⊢
    omega
  | ret t op r ht =>
    have hok := h.ok t _ ht
    rcases hok with ⟨w, rfl, rfl⟩ | ⟨rfl, w, rfl⟩
    · have e1 : ∀ v, acquired v (s.trace ++ [.ret t (.push w) .unit]) = acquired v s.trace := by
        intro v; simp [acquired]
      have e2 : ∀ v, released v (s.trace ++ [.ret t (.push w) .unit]) = released v s.trace := by
        intro v; simp [released]
      refine ⟨h.wait, ok_set' h.ok trivial, ?_, ?_, ?_⟩
      · intro v; simp only; rw [e1, e2]; exact h.le v
      · intro v
        have := sum_map_set (TS.carries v) s.th t .idle _ ht
        simp only [TS.carries, Nat.add_zero] at this
        simp only [holders, e1, e2, this]
        exact h.sum v
      · intro u; have := h.noAbort u; simpa using this
    · have e1 : ∀ v, acquired v (s.trace ++ [.ret t .wait (.got w)]) =
          acquired v s.trace + if w = v then 1 else 0 := by
        intro v; simp [acquired, List.countP_append]
      have e2 : ∀ v, released v (s.trace ++ [.ret t .wait (.got w)]) = released v s.trace := by
        intro v; simp [released]
      refine ⟨h.wait, ok_set' h.ok trivial, ?_, ?_, ?_⟩
      · intro v; simp only; rw [e1, e2]; have := h.le v; omega
      · intro v
        have := sum_map_set (TS.carries v) s.th t .idle _ ht
        simp only [TS.carries, Nat.add_zero] at this
        have h2 := h.sum v
        have h3 := h.le v
        simp only [holders, e1, e2] at h2 ⊢
        omega
      · intro u; have := h.noAbort u; simpa using this

theorem tok_reachable {k n : Nat} {s : Sys Nat}
    (h : Reachable tokenClients (initialTokens k) n s) : TokInv k s := by
  induction h with
  | init =>
    have hget : ∀ (t : Nat) (x : TS Nat), (List.replicate n (TS.idle (V := Nat)))[t]? = some x →
        x = .idle := by
      intro t x hx
      rw [List.getElem?_replicate] at hx
      split at hx
      · exact (Option.some.inj hx).symm
      · simp at hx
    refine ⟨rfl, ?_, ?_, ?_, ?_⟩
    · intro t x hx; rw [hget t x hx]; trivial
    · intro v; simp [start, released]
    · intro v
      have : ((List.replicate n (TS.idle (V := Nat))).map (TS.carries v)).sum = 0 := by
        simp [TS.carries]
      simp only [start, this, holders, acquired, released, List.countP_nil]
      rw [count_initialTokens]
      simp
    · intro t; simp [start]
  | step s s' _ hs ih => exact tok_step ih hs

/-- **C23 (uniqueness).**  At every moment, under every interleaving, every token has at most
one holder and every held token lies in `[0, num_threads)`; no `Acquire` ever fails its
`CHECK`. -/
theorem tokens_unique {k n : Nat} {s : Sys Nat}
    (h : Reachable tokenClients (initialTokens k) n s) :
    (∀ v, holders v s.trace ≤ 1) ∧ (∀ v, 0 < holders v s.trace → v < k) ∧
    (∀ t, Ev.ret t .wait .empty ∉ s.trace) := by
  have hi := tok_reachable h
  refine ⟨?_, ?_, hi.noAbort⟩
  · intro v
    have := hi.sum v
    split at this <;> omega
  · intro v hv
    have := hi.sum v
    by_contra hc
    rw [if_neg hc] at this
    omega

/-- **C23 (no starvation by the provider).**  An `Acquire` is blocked for good (no thread can
continue without a new call or a spurious wakeup) only if every one of the `num_threads`
tokens is currently held. -/
theorem tokens_block_only_when_exhausted {k n : Nat} {s : Sys Nat}
    (h : Reachable tokenClients (initialTokens k) n s) (hstuck : ¬ ∃ s', Productive s s')
    {t : Nat} (ht : s.th[t]? = some .sleeping) : ∀ v, v < k → holders v s.trace = 1 := by
  have hi := tok_reachable h
  intro v hv
  rcases queue_progress h with hp | hp
  · exact absurd hp hstuck
  · have hq : s.q = [] := by
      rcases hp t _ ht with h1 | ⟨_, h1, _⟩
      · simp at h1
      · exact h1
    have hz : (s.th.map (TS.carries v)).sum = 0 := by
      by_contra hne
      obtain ⟨i, y, hy, hpos⟩ := exists_pos_of_sum (TS.carries v) s.th (by omega)
      rcases hp i y hy with rfl | ⟨rfl, _⟩ <;> simp [TS.carries] at hpos
    have := hi.sum v
    rw [hq, hz, if_pos hv] at this
    simpa using this

/-- Two threads, two tokens: thread 0 holds token `0`, thread 1 holds token `1`. -/
example : ∃ s : Sys Nat, Reachable tokenClients (initialTokens 2) 2 s ∧
    holders 0 s.trace = 1 ∧ holders 1 s.trace = 1 := by
  have s1 := Reachable.step _ _ (Reachable.init (allowed := tokenClients)
    (q0 := initialTokens 2) (n := 2)) (Step.invoke _ 0 .wait rfl trivial)
  have s2 := Reachable.step _ _ s1 (Step.lock _ 0 .wait rfl rfl)
  have s3 := Reachable.step _ _ s2 (Step.waitGo _ 0 rfl
    (fun h => by simp [start, initialTokens] at h))
  have s4 := Reachable.step _ _ s3 (Step.ret _ 0 .wait (.got 0) rfl)
  have s5 := Reachable.step _ _ s4 (Step.invoke _ 1 .wait rfl trivial)
  have s6 := Reachable.step _ _ s5 (Step.lock _ 1 .wait rfl rfl)
  have s7 := Reachable.step _ _ s6 (Step.waitGo _ 1 rfl
    (fun h => by simp [start, initialTokens, popUnlocked] at h))
  have s8 := Reachable.step _ _ s7 (Step.ret _ 1 .wait (.got 1) rfl)
  exact ⟨_, s8, rfl, rfl⟩

end Ceres.Queue
