import Verif.Evaluator.EvalModel
import Mathlib.Algebra.BigOperators.Group.List.Basic
import Mathlib.Algebra.BigOperators.Ring.List
import Mathlib.Algebra.Order.BigOperators.Group.List
import Mathlib.Algebra.Ring.Rat
import Mathlib.Algebra.Ring.Int.Defs

/-!
# C09: evaluation does not depend on threads and schedule
-/
namespace Ceres.Evaluator

variable {K : Type}

/-! ### Operations -/

/-- Locations an operation reads or writes. -/
def Op.locs : Op K → List Loc
  | .set l _ => [l]
  | .copy l s => [l, s]
  | .add l _ => [l]
  | .mac l a b => [l, a, b]

/-- The location written. -/
def Op.target : Op K → Loc
  | .set l _ => l
  | .copy l _ => l
  | .add l _ => l
  | .mac l _ _ => l

section
variable [Add K] [Mul K]

theorem Op.run_of_ne (o : Op K) (m : Loc → K) (l : Loc) (h : l ≠ o.target) : o.run m l = m l := by
  cases o <;> simp only [Op.run, Op.target] at * <;> exact Function.update_of_ne h _ _

theorem Op.run_target_congr (o : Op K) (m m' : Loc → K) (h : ∀ l ∈ o.locs, m l = m' l) :
    o.run m o.target = o.run m' o.target := by
  cases o <;> simp only [Op.run, Op.target, Op.locs, Function.update_self] at *
  · exact h _ (by simp)
  · rw [h _ (by simp)]
  · rw [h _ (by simp), h _ (by simp), h _ (by simp)]

theorem Op.target_mem (o : Op K) : o.target ∈ o.locs := by
  cases o <;> simp [Op.target, Op.locs]

theorem Op.run_comm (o o' : Op K) (m : Loc → K) (h : ∀ l ∈ o.locs, l ∉ o'.locs) :
    o.run (o'.run m) = o'.run (o.run m) := by
  have hne : o.target ≠ o'.target := fun e => h _ o.target_mem (e ▸ o'.target_mem)
  funext l
  by_cases h1 : l = o.target
  · subst h1
    rw [o'.run_of_ne _ _ hne]
    refine o.run_target_congr _ _ ?_
    intro l hl
    refine o'.run_of_ne _ _ ?_
    intro e
    exact h l hl (e ▸ o'.target_mem)
  · rw [o.run_of_ne _ _ h1]
    by_cases h2 : l = o'.target
    · subst h2
      refine (o'.run_target_congr _ _ ?_).symm
      intro l hl
      refine o.run_of_ne _ _ ?_
      intro e
      exact h _ o.target_mem (e ▸ hl)
    · rw [o'.run_of_ne _ _ h2, o'.run_of_ne _ _ h2, o.run_of_ne _ _ h1]

theorem runOps_append (a b : List (Op K)) (m : Loc → K) :
    runOps (a ++ b) m = runOps b (runOps a m) := by
  simp [runOps, List.foldl_append]

theorem runOps_comm (o : Op K) (os : List (Op K)) (m : Loc → K)
    (h : ∀ o' ∈ os, ∀ l ∈ o.locs, l ∉ o'.locs) :
    o.run (runOps os m) = runOps os (o.run m) := by
  induction os generalizing m with
  | nil => rfl
  | cons o' os ih =>
    show o.run (runOps os (o'.run m)) = runOps os (o'.run (o.run m))
    rw [ih _ fun o'' ho => h o'' (List.mem_cons_of_mem _ ho), o.run_comm o' _ (h o' (by simp))]

theorem runOps_runOps_comm (os os' : List (Op K)) (m : Loc → K)
    (h : ∀ o ∈ os, ∀ o' ∈ os', ∀ l ∈ o.locs, l ∉ o'.locs) :
    runOps os (runOps os' m) = runOps os' (runOps os m) := by
  induction os generalizing m with
  | nil => rfl
  | cons o os ih =>
    show runOps os (o.run (runOps os' m)) = runOps os' (runOps os (o.run m))
    rw [runOps_comm o os' m (h o (by simp)), ih _ fun o' ho => h o' (List.mem_cons_of_mem _ ho)]

theorem runOps_of_notMem (os : List (Op K)) (m : Loc → K) (l : Loc)
    (h : ∀ o ∈ os, o.target ≠ l) : runOps os m l = m l := by
  induction os generalizing m with
  | nil => rfl
  | cons o os ih =>
    show runOps os (o.run m) l = m l
    rw [ih _ fun o' ho => h o' (List.mem_cons_of_mem _ ho), o.run_of_ne _ _ fun e =>
      h o (by simp) e.symm]

end

/-! ### The flag -/

section
variable [Add K] [Mul K] {E : Tasks K}

/-- Invariant for the abort flag and the bookkeeping. -/
structure FlagInv (E : Tasks K) (s : St K) : Prop where
  sound : s.abort = true → ∃ i < E.num, E.fails i = true
  todo_lt : ∀ i ∈ s.todo, i < E.num
  run_lt : ∀ t i os, s.run t = some (i, os) → i < E.num ∧ t < E.threads
  complete : ∀ i < E.num, E.fails i = true →
    i ∈ s.todo ∨ (∃ t os, s.run t = some (i, os)) ∨ s.abort = true

theorem flagInv_init (m : Loc → K) : FlagInv E (St.init E m) where
  sound h := by simp [St.init] at h
  todo_lt i h := by simpa [St.init] using h
  run_lt t i os h := by simp [St.init] at h
  complete i hi _ := Or.inl (by simpa [St.init] using hi)

theorem flagInv_step {s s' : St K} (h : FlagInv E s) (hs : Step E s s') : FlagInv E s' := by
  cases hs with
  | skip t i ht hrun hi hab =>
    refine ⟨h.sound, fun j hj => h.todo_lt j (List.mem_of_mem_erase hj), h.run_lt, ?_⟩
    intro j hj hf
    exact Or.inr (Or.inr hab)
  | start t i ht hrun hi hab =>
    refine ⟨h.sound, fun j hj => h.todo_lt j (List.mem_of_mem_erase hj), ?_, ?_⟩
    · intro t' j os hr
      simp only [Function.update_apply] at hr
      split at hr
      · rename_i e
        simp only [Option.some.injEq, Prod.mk.injEq] at hr
        exact ⟨hr.1 ▸ h.todo_lt i hi, e ▸ ht⟩
      · exact h.run_lt t' j os hr
    · intro j hj hf
      by_cases e : j = i
      · subst e
        exact Or.inr (Or.inl ⟨t, E.ops t j, by simp⟩)
      · rcases h.complete j hj hf with h1 | ⟨t', os, h1⟩ | h1
        · exact Or.inl ((List.mem_erase_of_ne e).mpr h1)
        · refine Or.inr (Or.inl ⟨t', os, ?_⟩)
          have : t' ≠ t := fun e => by rw [e, hrun] at h1; cases h1
          simp only [Function.update_of_ne this, h1]
        · exact Or.inr (Or.inr h1)
  | op t i o os ht hrun =>
    refine ⟨h.sound, h.todo_lt, ?_, ?_⟩
    · intro t' j os' hr
      simp only [Function.update_apply] at hr
      split at hr
      · rename_i e
        simp only [Option.some.injEq, Prod.mk.injEq] at hr
        rw [← hr.1, e]
        exact h.run_lt t i _ hrun
      · exact h.run_lt t' j os' hr
    · intro j hj hf
      rcases h.complete j hj hf with h1 | ⟨t', os', h1⟩ | h1
      · exact Or.inl h1
      · refine Or.inr (Or.inl ?_)
        by_cases e : t' = t
        · subst e
          rw [hrun] at h1
          simp only [Option.some.injEq, Prod.mk.injEq] at h1
          exact ⟨t', os, by simp [h1.1]⟩
        · exact ⟨t', os', by simp only [Function.update_of_ne e, h1]⟩
      · exact Or.inr (Or.inr h1)
  | finish t i ht hrun =>
    have hi := (h.run_lt t i _ hrun).1
    refine ⟨?_, h.todo_lt, ?_, ?_⟩
    · intro hab
      rcases Bool.or_eq_true_iff.mp hab with h1 | h1
      · exact h.sound h1
      · exact ⟨i, hi, h1⟩
    · intro t' j os' hr
      simp only [Function.update_apply] at hr
      split at hr
      · cases hr
      · exact h.run_lt t' j os' hr
    · intro j hj hf
      rcases h.complete j hj hf with h1 | ⟨t', os', h1⟩ | h1
      · exact Or.inl h1
      · by_cases e : t' = t
        · subst e
          rw [hrun] at h1
          simp only [Option.some.injEq, Prod.mk.injEq] at h1
          rw [← h1.1] at hf
          exact Or.inr (Or.inr (by simp [hf]))
        · exact Or.inr (Or.inl ⟨t', os', by simp only [Function.update_of_ne e, h1]⟩)
      · exact Or.inr (Or.inr (by simp [h1]))

theorem reach_flagInv {m : Loc → K} {s : St K} (h : Reach E (St.init E m) s) : FlagInv E s := by
  induction h with
  | refl => exact flagInv_init m
  | tail s s' _ hs ih => exact flagInv_step ih hs

/-- **C09.** Whatever the schedule, the flag is set at the end exactly if some block fails. -/
theorem abort_iff {m : Loc → K} {s : St K} (h : Reach E (St.init E m) s) (hf : s.Final E) :
    s.abort = true ↔ ∃ i < E.num, E.fails i = true := by
  have inv := reach_flagInv h
  constructor
  · exact inv.sound
  · rintro ⟨i, hi, hfail⟩
    rcases inv.complete i hi hfail with h1 | ⟨t, os, h1⟩ | h1
    · rw [hf.1] at h1; simp at h1
    · rw [hf.2 t (inv.run_lt t i os h1).2] at h1; cases h1
    · exact h1

/-! ### Every schedule is equivalent to a serial one -/

/-- Operations of different blocks on different threads never touch a common location. -/
def Tasks.Disjoint (E : Tasks K) : Prop :=
  ∀ t t' i i', t ≠ t' → i ≠ i' → i < E.num → i' < E.num →
    ∀ o ∈ E.ops t i, ∀ o' ∈ E.ops t' i', ∀ l ∈ o.locs, l ∉ o'.locs

/-- What thread `t` has done of its current block. -/
def doneOps (E : Tasks K) (s : St K) (d : ℕ → List (Op K)) : Prop :=
  ∀ t, match s.run t with
    | none => d t = []
    | some (i, os) => d t ++ os = E.ops t i

/-- The blocks being run. -/
def running (E : Tasks K) (s : St K) : List ℕ :=
  (List.range E.threads).filterMap fun t => (s.run t).map Prod.fst

/-- Serial equivalence: memory is as if the finished blocks had been run one after the other, and
after them what the threads have done so far of their current blocks. -/
structure SerialInv (E : Tasks K) (m : Loc → K) (s : St K) : Prop where
  noabort : s.abort = false
  ex : ∃ (S : List (ℕ × ℕ)) (d : ℕ → List (Op K)),
    (∀ q ∈ S, q.1 < E.threads) ∧
    (S.map Prod.snd ++ running E s ++ s.todo).Perm (List.range E.num) ∧
    doneOps E s d ∧
    s.mem = runOps (S.flatMap (fun q => E.ops q.1 q.2) ++ (List.range E.threads).flatMap d) m

theorem running_update_none {s : St K} {t : ℕ} (ht : t < E.threads) (x : ℕ × List (Op K))
    (hr : s.run t = none) (s' : St K) (hs' : s'.run = Function.update s.run t (some x)) :
    (running E s').Perm (x.1 :: running E s) := by
  unfold running
  rw [hs']
  have key : ∀ l : List ℕ, l.Nodup → t ∈ l →
      (l.filterMap fun t' => (Function.update s.run t (some x) t').map Prod.fst).Perm
        (x.1 :: l.filterMap fun t' => (s.run t').map Prod.fst) := by
    intro l
    induction l with
    | nil => intro _ h; simp at h
    | cons a l ih =>
      intro hn hm
      rw [List.nodup_cons] at hn
      by_cases ha : a = t
      · subst ha
        have e : (l.filterMap fun t' => (Function.update s.run a (some x) t').map Prod.fst) =
            l.filterMap fun t' => (s.run t').map Prod.fst := by
          apply List.filterMap_congr
          intro t' ht'
          rw [Function.update_of_ne (fun e : t' = a => hn.1 (e ▸ ht'))]
        simp only [List.filterMap_cons, Function.update_self, Option.map_some, hr, Option.map_none,
          e]
        exact List.Perm.refl _
      · have hm' : t ∈ l := by
          rcases List.mem_cons.mp hm with h | h
          · exact absurd h.symm ha
          · exact h
        have := ih hn.2 hm'
        simp only [List.filterMap_cons, Function.update_of_ne ha]
        cases s.run a with
        | none => exact this
        | some y =>
          simp only [Option.map_some]
          exact (this.cons _).trans (List.Perm.swap _ _ _)
  exact key _ List.nodup_range (List.mem_range.mpr ht)

theorem running_update_same {s : St K} {t i : ℕ} {os os' : List (Op K)}
    (hr : s.run t = some (i, os)) (s' : St K)
    (hs' : s'.run = Function.update s.run t (some (i, os'))) : running E s' = running E s := by
  unfold running
  rw [hs']
  apply List.filterMap_congr
  intro t' _
  by_cases h : t' = t
  · subst h; rw [Function.update_self, hr]; rfl
  · rw [Function.update_of_ne h]

theorem flatMap_range_split (n t : ℕ) (ht : t < n) (d : ℕ → List (Op K)) :
    (List.range n).flatMap d =
      (List.range t).flatMap d ++ d t ++ (List.range' (t + 1) (n - t - 1)).flatMap d := by
  have : List.range n = List.range t ++ t :: List.range' (t + 1) (n - t - 1) := by
    rw [List.range_eq_range', List.range_eq_range', ← List.range'_succ,
      show n - t - 1 + 1 = n - t by omega]
    have := List.range'_append_1 (s := 0) (m := t) (n := n - t)
    rw [Nat.zero_add] at this
    rw [this, show t + (n - t) = n by omega]
  rw [this, List.flatMap_append, List.flatMap_cons, List.append_assoc]

theorem mem_running {s : St K} (hinv : FlagInv E s) {t i : ℕ} {os : List (Op K)}
    (hr : s.run t = some (i, os)) : i ∈ running E s := by
  unfold running
  rw [List.mem_filterMap]
  exact ⟨t, List.mem_range.mpr (hinv.run_lt t i os hr).2, by rw [hr]; rfl⟩

/-- Two threads never run the same block. -/
theorem running_inj {s : St K} (hinv : FlagInv E s) (hn : (running E s).Nodup) {t t' i i' : ℕ}
    {os os' : List (Op K)} (hr : s.run t = some (i, os)) (hr' : s.run t' = some (i', os'))
    (hne : t ≠ t') : i ≠ i' := by
  intro e
  subst e
  unfold running at hn
  have key : ∀ l : List ℕ, (l.filterMap fun t => (s.run t).map Prod.fst).Nodup → t ∈ l → t' ∈ l →
      False := by
    intro l
    induction l with
    | nil => intro _ h; simp at h
    | cons a l ih =>
      intro hn h1 h2
      have hmem : ∀ t'', t'' ∈ l → ∀ os, s.run t'' = some (i, os) →
          i ∈ l.filterMap fun t => (s.run t).map Prod.fst := by
        intro t'' h os hr
        rw [List.mem_filterMap]
        exact ⟨t'', h, by rw [hr]; rfl⟩
      rcases List.mem_cons.mp h1 with h3 | h3
      · subst h3
        simp only [List.filterMap_cons, hr, Option.map_some, List.nodup_cons] at hn
        rcases List.mem_cons.mp h2 with h4 | h4
        · exact hne h4.symm
        · exact hn.1 (hmem t' h4 os' hr')
      · rcases List.mem_cons.mp h2 with h4 | h4
        · subst h4
          simp only [List.filterMap_cons, hr', Option.map_some, List.nodup_cons] at hn
          exact hn.1 (hmem t h3 os hr)
        · refine ih ?_ h3 h4
          rw [List.filterMap_cons] at hn
          split at hn
          · exact hn
          · exact (List.nodup_cons.mp hn).2
  exact key _ hn (List.mem_range.mpr (hinv.run_lt t i os hr).2)
    (List.mem_range.mpr (hinv.run_lt t' i os' hr').2)

theorem serialInv_step (hE : E.Disjoint) (hok : ∀ i < E.num, E.fails i = false) {m : Loc → K}
    {s s' : St K} (hfl : FlagInv E s) (h : SerialInv E m s) (hs : Step E s s') :
    SerialInv E m s' := by
  obtain ⟨hab, S, d, hS, hperm, hd, hmem⟩ := h
  have hnod : (S.map Prod.snd ++ running E s ++ s.todo).Nodup :=
    hperm.nodup_iff.mpr List.nodup_range
  have hrunnod : (running E s).Nodup := by
    rw [List.nodup_append, List.nodup_append] at hnod
    exact hnod.1.2.1
  cases hs with
  | skip t i ht hrun hi hab' => rw [hab] at hab'; cases hab'
  | start t i ht hrun hi _ =>
    refine ⟨hab, S, d, hS, ?_, ?_, hmem⟩
    · have h1 := running_update_none (E := E) ht (i, E.ops t i) hrun
        { s with todo := s.todo.erase i, run := Function.update s.run t (some (i, E.ops t i)) } rfl
      refine List.Perm.trans ?_ hperm
      refine ((h1.append_left (S.map Prod.snd)).append_right _).trans ?_
      have h2 := List.perm_cons_erase hi
      refine List.Perm.trans ?_ (h2.append_left _).symm
      simp only [List.append_assoc, List.cons_append]
      refine List.Perm.append_left _ ?_
      exact (List.perm_middle).symm
    · intro t'
      have := hd t'
      by_cases e : t' = t
      · subst e
        rw [hrun] at this
        simp only at this
        simp only [Function.update_self, this, List.nil_append]
      · simp only [Function.update_of_ne e]
        exact this
  | op t i o os ht hrun =>
    have hdt : d t ++ o :: os = E.ops t i := by
      have := hd t; rw [hrun] at this; exact this
    refine ⟨hab, S, Function.update d t (d t ++ [o]), hS, ?_, ?_, ?_⟩
    · rw [running_update_same (E := E) hrun _ rfl]; exact hperm
    · intro t'
      have := hd t'
      by_cases e : t' = t
      · subst e
        simp only [Function.update_self, List.append_assoc, List.singleton_append, hdt]
      · simp only [Function.update_of_ne e]
        exact this
    · simp only
      rw [hmem]
      have e1 : (List.range t).flatMap (Function.update d t (d t ++ [o])) =
          (List.range t).flatMap d := by
        apply List.flatMap_congr
        intro t' ht'
        rw [List.mem_range] at ht'
        rw [Function.update_of_ne (by omega)]
      have e2 : (List.range' (t + 1) (E.threads - t - 1)).flatMap
          (Function.update d t (d t ++ [o])) =
          (List.range' (t + 1) (E.threads - t - 1)).flatMap d := by
        apply List.flatMap_congr
        intro t' ht'
        rw [List.mem_range'_1] at ht'
        rw [Function.update_of_ne (by omega)]
      rw [flatMap_range_split _ t ht d,
        flatMap_range_split _ t ht (Function.update d t (d t ++ [o])), e1, e2,
        Function.update_self]
      simp only [runOps_append]
      rw [runOps_comm]
      · rfl
      · intro o' ho' l hl
        rw [List.mem_flatMap] at ho'
        obtain ⟨t', ht', ho'⟩ := ho'
        rw [List.mem_range'_1] at ht'
        have hdt' := hd t'
        cases hr' : s.run t' with
        | none => rw [hr'] at hdt'; simp only at hdt'; rw [hdt'] at ho'; simp at ho'
        | some x =>
          obtain ⟨i', os'⟩ := x
          rw [hr'] at hdt'
          simp only at hdt'
          have hne : t ≠ t' := by omega
          have hii := running_inj hfl hrunnod hrun hr' hne
          refine hE t t' i i' hne hii (hfl.run_lt t i _ hrun).1 (hfl.run_lt t' i' _ hr').1 o ?_ o'
            ?_ l hl
          · rw [← hdt]; simp
          · rw [← hdt']; exact List.mem_append_left _ ho'
  | finish t i ht hrun =>
    have hdt : d t = E.ops t i := by
      have := hd t; rw [hrun] at this; simpa using this
    have hi := (hfl.run_lt t i _ hrun).1
    refine ⟨by simp [hab, hok i hi], S ++ [(t, i)], Function.update d t [], ?_, ?_, ?_, ?_⟩
    · intro q hq
      rcases List.mem_append.mp hq with hq | hq
      · exact hS q hq
      · rw [List.mem_singleton] at hq; rw [hq]; exact ht
    · have h1 := running_update_none (E := E)
        (s := { s with run := Function.update s.run t none, abort := s.abort || E.fails i })
        ht (i, []) (by simp) s (by simp [← hrun])
      refine List.Perm.trans ?_ hperm
      rw [List.map_append]
      refine List.Perm.append_right _ ?_
      rw [List.append_assoc]
      exact (h1.symm).append_left _
    · intro t'
      have := hd t'
      by_cases e : t' = t
      · subst e; simp
      · simp only [Function.update_of_ne e]
        exact this
    · simp only
      rw [hmem]
      have e1 : (List.range t).flatMap (Function.update d t []) = (List.range t).flatMap d := by
        apply List.flatMap_congr
        intro t' ht'
        rw [List.mem_range] at ht'
        rw [Function.update_of_ne (by omega)]
      have e2 : (List.range' (t + 1) (E.threads - t - 1)).flatMap (Function.update d t []) =
          (List.range' (t + 1) (E.threads - t - 1)).flatMap d := by
        apply List.flatMap_congr
        intro t' ht'
        rw [List.mem_range'_1] at ht'
        rw [Function.update_of_ne (by omega)]
      rw [flatMap_range_split _ t ht d, flatMap_range_split _ t ht (Function.update d t []), e1, e2,
        Function.update_self, List.flatMap_append]
      simp only [List.flatMap_cons, List.flatMap_nil, List.append_nil, runOps_append]
      congr 1
      rw [hdt, runOps_runOps_comm]
      intro o ho o' ho' l hl
      rw [List.mem_flatMap] at ho'
      obtain ⟨t', ht', ho'⟩ := ho'
      rw [List.mem_range] at ht'
      have hdt' := hd t'
      cases hr' : s.run t' with
      | none => rw [hr'] at hdt'; simp only at hdt'; rw [hdt'] at ho'; simp at ho'
      | some x =>
        obtain ⟨i', os'⟩ := x
        rw [hr'] at hdt'
        simp only at hdt'
        have hne : t ≠ t' := by omega
        have hii := running_inj hfl hrunnod hrun hr' hne
        refine hE t t' i i' hne hii hi (hfl.run_lt t' i' _ hr').1 o ho o' ?_ l hl
        rw [← hdt']; exact List.mem_append_left _ ho'

theorem serialInv_init (m : Loc → K) : SerialInv E m (St.init E m) := by
  refine ⟨rfl, [], fun _ => [], by simp, ?_, ?_, ?_⟩
  · have : running E (St.init E m) = [] := by
      unfold running
      rw [List.filterMap_eq_nil_iff]
      intro t _; rfl
    rw [this]; exact List.Perm.refl _
  · intro t; rfl
  · have : (List.range E.threads).flatMap (fun _ => ([] : List (Op K))) = [] := by
      rw [List.flatMap_eq_nil_iff]; intro _ _; rfl
    rw [this]; rfl

/-- **C09.** If no block fails, then after the loop memory is as if the blocks had been run one
after the other, every block once, whatever the schedule was. -/
theorem serializable (hE : E.Disjoint) (hok : ∀ i < E.num, E.fails i = false) {m : Loc → K}
    {s : St K} (h : Reach E (St.init E m) s) (hf : s.Final E) :
    ∃ S : List (ℕ × ℕ), (S.map Prod.snd).Perm (List.range E.num) ∧ (∀ q ∈ S, q.1 < E.threads) ∧
      s.mem = runOps (S.flatMap fun q => E.ops q.1 q.2) m := by
  have inv : SerialInv E m s := by
    clear hf
    induction h with
    | refl => exact serialInv_init m
    | tail s s' hr hs ih => exact serialInv_step hE hok (reach_flagInv hr) ih hs
  obtain ⟨_, S, d, hS, hperm, hd, hmem⟩ := inv
  have hrun : running E s = [] := by
    unfold running
    rw [List.filterMap_eq_nil_iff]
    intro t ht
    rw [hf.2 t (List.mem_range.mp ht)]; rfl
  have hd0 : (List.range E.threads).flatMap d = [] := by
    rw [List.flatMap_eq_nil_iff]
    intro t ht
    have := hd t
    rw [hf.2 t (List.mem_range.mp ht)] at this
    exact this
  rw [hrun, hf.1] at hperm
  rw [hd0, List.append_nil] at hmem
  exact ⟨S, by simpa using hperm, hS, hmem⟩

/-! ### The loop ends -/

/-- Steps left: for every index not picked yet and every running block. -/
def St.weight (E : Tasks K) (s : St K) : ℕ :=
  (s.todo.map fun i => ((List.range E.threads).map fun t => (E.ops t i).length + 2).sum).sum +
    ((List.range E.threads).map fun t => match s.run t with
      | none => 0
      | some (_, os) => os.length + 1).sum

theorem sum_range_update {n t : ℕ} (ht : t < n) (f g : ℕ → ℕ) (h : ∀ t' ≠ t, f t' = g t') :
    ((List.range n).map f).sum + g t = ((List.range n).map g).sum + f t := by
  have key : ∀ l : List ℕ, l.Nodup → t ∈ l → (l.map f).sum + g t = (l.map g).sum + f t := by
    intro l
    induction l with
    | nil => intro _ h; simp at h
    | cons a l ih =>
      intro hn hm
      rw [List.nodup_cons] at hn
      simp only [List.map_cons, List.sum_cons]
      by_cases e : a = t
      · subst e
        have : l.map f = l.map g := by
          apply List.map_congr_left
          intro t' ht'
          exact h t' fun e => hn.1 (e ▸ ht')
        rw [this]; omega
      · have := ih hn.2 (by
          rcases List.mem_cons.mp hm with h | h
          · exact absurd h.symm e
          · exact h)
        rw [h a e]; omega
  exact key _ List.nodup_range (List.mem_range.mpr ht)

/-- Every step makes progress. -/
theorem step_weight {s s' : St K} (h : Step E s s') : s'.weight E < s.weight E := by
  cases h with
  | skip t i ht hrun hi hab =>
    unfold St.weight
    simp only
    have h1 := ((List.perm_cons_erase hi).map fun i =>
      ((List.range E.threads).map fun t => (E.ops t i).length + 2).sum).sum_eq
    rw [List.map_cons, List.sum_cons] at h1
    have h2 : (E.ops t i).length + 2 ≤
        ((List.range E.threads).map fun t => (E.ops t i).length + 2).sum :=
      List.single_le_sum (by simp) _ (List.mem_map.mpr ⟨t, List.mem_range.mpr ht, rfl⟩)
    omega
  | start t i ht hrun hi hab =>
    unfold St.weight
    simp only
    have h1 := ((List.perm_cons_erase hi).map fun i =>
      ((List.range E.threads).map fun t => (E.ops t i).length + 2).sum).sum_eq
    rw [List.map_cons, List.sum_cons] at h1
    have h2 : (E.ops t i).length + 2 ≤
        ((List.range E.threads).map fun t => (E.ops t i).length + 2).sum :=
      List.single_le_sum (by simp) _ (List.mem_map.mpr ⟨t, List.mem_range.mpr ht, rfl⟩)
    have h3 := sum_range_update ht
      (fun t' => match Function.update s.run t (some (i, E.ops t i)) t' with
        | none => 0
        | some (_, os) => os.length + 1)
      (fun t' => match s.run t' with
        | none => 0
        | some (_, os) => os.length + 1)
      (fun t' ht' => by simp only [Function.update_of_ne ht'])
    simp only [hrun, Function.update_self] at h3
    omega
  | op t i o os ht hrun =>
    unfold St.weight
    simp only
    have h3 := sum_range_update ht
      (fun t' => match Function.update s.run t (some (i, os)) t' with
        | none => 0
        | some (_, os) => os.length + 1)
      (fun t' => match s.run t' with
        | none => 0
        | some (_, os) => os.length + 1)
      (fun t' ht' => by simp only [Function.update_of_ne ht'])
    simp only [hrun, Function.update_self, List.length_cons] at h3
    omega
  | finish t i ht hrun =>
    unfold St.weight
    simp only
    have h3 := sum_range_update ht
      (fun t' => match Function.update s.run t none t' with
        | none => 0
        | some (_, os) => os.length + 1)
      (fun t' => match s.run t' with
        | none => 0
        | some (_, os) => os.length + 1)
      (fun t' ht' => by simp only [Function.update_of_ne ht'])
    simp only [hrun, Function.update_self, List.length_nil] at h3
    omega

/-- **C09.** The loop never gets stuck: until it is over some thread can take a step (and by
`step_weight` only finitely many steps can be taken). -/
theorem progress (hT : 0 < E.threads) (s : St K) (h : ¬ s.Final E) : ∃ s', Step E s s' := by
  by_cases h1 : ∀ t < E.threads, s.run t = none
  · have h2 : s.todo ≠ [] := fun e => h ⟨e, h1⟩
    obtain ⟨i, l, hl⟩ := List.exists_cons_of_ne_nil h2
    have hi : i ∈ s.todo := by rw [hl]; simp
    cases hab : s.abort with
    | true => exact ⟨_, .skip s 0 i hT (h1 0 hT) hi hab⟩
    | false => exact ⟨_, .start s 0 i hT (h1 0 hT) hi hab⟩
  · push Not at h1
    obtain ⟨t, ht, hr⟩ := h1
    cases hrun : s.run t with
    | none => exact absurd hrun hr
    | some x =>
      obtain ⟨i, os⟩ := x
      cases os with
      | nil => exact ⟨_, .finish s t i ht hrun⟩
      | cons o os => exact ⟨_, .op s t i o os ht hrun⟩

end

end Ceres.Evaluator
