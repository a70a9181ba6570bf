import Verif.Tasks.Inv
import Mathlib.Algebra.BigOperators.Group.Finset.Piecewise

/-!
# The invariant is kept by every step
-/
namespace Ceres.Tasks

open Finset

variable {L M K : Type} [DecidableEq L] [DecidableEq M] [AddCommMonoid K]
variable {kind : L → Kind M} {task : ℕ → ℕ → Code L M K} {m fin : L → K} {inc part : ℕ → L → K}
  {c : Parallel.Cfg} {s s' : St L M K}

omit [DecidableEq L] [DecidableEq M] in
theorem calling_inj {p : Parallel.State} {w tid jobs i e tid' jobs' i' e' : ℕ}
    (h : Calling p w tid jobs i e) (h' : Calling p w tid' jobs' i' e') : tid' = tid ∧ i' = i := by
  have : some (Parallel.PC.calling tid' jobs' i' e') = some (.calling tid jobs i e) := h'.symm.trans h
  injection this with this
  injection this with h1 _ h2 _
  exact ⟨h1, h2⟩

theorem calling_facts (ht : 0 < c.threads) (hb : 0 < c.blocks) (hle : c.start ≤ c.stop)
    {p : Parallel.State} (hr : Parallel.Reachable c p) {w tid jobs i e : ℕ}
    (h : Calling p w tid jobs i e) :
    c.start ≤ i ∧ i < c.stop ∧ i ∉ p.log.map (·.2) ∧ tid < c.threads ∧
    ∀ w' tid' jobs' i' e', Calling p w' tid' jobs' i' e' → w' ≠ w → tid' ≠ tid ∧ i' ≠ i := by
  obtain ⟨f1, f2, f3, f4⟩ := Inner.pending_facts ht hb hle hr h (Inner.calling_pend ht hr h)
  refine ⟨f1, f2, f3, ((Parallel.inv_reachable ht hr).tidlt w _ tid h rfl).2, ?_⟩
  intro w' tid' jobs' i' e' h' hne
  obtain ⟨a, b, -, -⟩ := Parallel.parallelFor_exclusive_ids ht hr h' h hne
  exact ⟨a, b⟩

theorem inv_step (T : Disciplined kind task c.start c.stop c.threads m fin inc)
    (ht : 1 < c.threads) (hb : 0 < c.blocks) (hle : c.start ≤ c.stop)
    (hr : Parallel.Reachable c s.par) (inv : Inv kind c.start c.stop m fin inc part s)
    (h : Step c task s s') : ∃ part', Inv kind c.start c.stop m fin inc part' s' := by
  have ht0 : 0 < c.threads := by omega
  have facts := fun {w tid jobs i e : ℕ} => calling_facts (w := w) (tid := tid) (jobs := jobs) (i := i)
    (e := e) ht0 hb hle hr
  cases h with
  | call w tid jobs i e h1 h2 =>
    have hok := (Parallel.inv_reachable ht0 hr).ok _ (List.mem_of_getElem? h1)
    simp only [Parallel.PC.ok] at hok
    have hp : (Parallel.PC.segment tid jobs i e).pend i = 1 := by
      simp only [Parallel.PC.pend]; rw [if_pos (by omega)]
    obtain ⟨f1, f2, f3, f4⟩ := Inner.pending_facts ht0 hb hle hr h1 hp
    have hww : ∀ {w' tid' jobs' j e'}, Calling s.par w' tid' jobs' j e' → w' ≠ w := by
      rintro w' tid' jobs' j e' hc rfl
      rw [Calling, h1] at hc
      simp at hc
    have hcall : ∀ w' tid' jobs' j e',
        (s.par.workers.set w (.calling tid jobs i e))[w']? = some (.calling tid' jobs' j e') →
        (w' = w ∧ tid' = tid ∧ j = i) ∨ (w' ≠ w ∧ Calling s.par w' tid' jobs' j e') := by
      intro w' tid' jobs' j e' hc
      rcases Parallel.set_get hc with ⟨a, b, -⟩ | ⟨a, b⟩
      · injection b with b1 _ b2 _
        exact Or.inl ⟨a, b1, b2⟩
      · exact Or.inr ⟨a, b⟩
    have hkeep : ∀ {w' tid' jobs' j e'}, Calling s.par w' tid' jobs' j e' →
        (s.par.workers.set w (.calling tid jobs i e))[w']? = some (.calling tid' jobs' j e') := by
      intro w' tid' jobs' j e' hc
      rw [List.getElem?_set_ne (hww hc).symm]; exact hc
    have hnot : ∀ w' tid' jobs' e', ¬ Calling s.par w' tid' jobs' i e' := by
      intro w' tid' jobs' e' hc
      exact hww hc (f4 w' _ hc (Inner.calling_pend ht0 hr hc))
    have htid := ((Parallel.inv_reachable ht0 hr).tidlt w _ tid h1 rfl).2
    obtain ⟨w1, w2⟩ := inv.waiting i f3 hnot
    refine ⟨part, inv.fixed, inv.logged, ?_, ?_, ?_, inv.sums⟩
    · intro j j1 hn
      exact inv.waiting j j1 fun w' tid' jobs' e' hc => hn w' tid' jobs' e' (hkeep hc)
    · intro w' tid' jobs' j e' hc
      rcases hcall w' tid' jobs' j e' hc with ⟨rfl, rfl, rfl⟩ | ⟨hne, hc'⟩
      · simp only [if_true]
        obtain ⟨p', a, b1, b2, b3⟩ := T.body j tid' f1 f2 htid s.mem w1
        rw [decide_eq_false (by omega)] at b1
        refine ⟨none, s.mem, p', a, .runs b1, fun _ _ => rfl, b2, ?_, ?_⟩
        · intro l x hl
          rw [w2, zero_add, b3 l x hl]
        · intro x
          constructor
          · intro hx
            obtain ⟨_, _, _, _, hc⟩ := inv.holder x _ hx
            exact absurd rfl (hww hc)
          · intro hx; cases hx
      · simp only [if_neg hne]
        exact inv.running w' tid' jobs' j e' hc'
    · intro x w' hx
      obtain ⟨t', j', i', e', hc⟩ := inv.holder x w' hx
      exact ⟨t', j', i', e', hkeep hc⟩
  | access w tid jobs i e k mem' held' h1 h2 =>
    obtain ⟨f1, f2, f3, f5, f4⟩ := facts h1
    obtain ⟨h, p, p', a, r1, r2, r3, r4, r5⟩ := inv.running w tid jobs i e h1
    have heff := effect r1 r2 inv.fixed r5 h2
    cases heff with
    | quiet h' e1 e2 e3 e4 =>
      subst e1
      refine ⟨part, inv.fixed, inv.logged, inv.waiting, ?_, ?_, inv.sums⟩
      · intro w' tid' jobs' j e' hc
        by_cases hww : w' = w
        · subst hww
          obtain ⟨rfl, rfl⟩ := calling_inj h1 hc
          simp only [if_true]
          exact ⟨h', p, p', a, e4, r2, r3, r4, e2⟩
        · simp only [if_neg hww]
          obtain ⟨g, q, q', b, s1, s2, s3, s4, s5⟩ := inv.running w' tid' jobs' j e' hc
          exact ⟨g, q, q', b, s1, s2, s3, s4, fun x => (e3 x w' hww).trans (s5 x)⟩
      · intro x w' hx
        by_cases hww : w' = w
        · subst hww; exact ⟨tid, jobs, i, e, h1⟩
        · exact inv.holder x w' ((e3 x w' hww).1 hx)
    | wrote l v e1 e2 e3 e4 =>
      subst e2 e3
      have hother : ∀ l', (∀ t, kind l' = .scratch t → t ≠ tid) → (∀ j, kind l' = .own j → j ≠ i) →
          upd s.mem l v l' = s.mem l' := by
        intro l' k1 k2
        refine upd_of_ne _ _ ?_
        rintro rfl
        rcases e1 with e1 | e1
        · exact k1 _ e1 rfl
        · exact k2 _ e1 rfl
      refine ⟨part, ?_, ?_, ?_, ?_, inv.holder, ?_⟩
      · intro l' hl
        show upd s.mem l v l' = _
        rw [hother l' (by simp [hl]) (by simp [hl]), inv.fixed l' hl]
      · intro j hj
        refine ⟨fun l' hl => ?_, (inv.logged j hj).2⟩
        show upd s.mem l v l' = _
        rw [hother l' (by simp [hl]) ?_, (inv.logged j hj).1 l' hl]
        intro j' hj' he
        rw [hl] at hj'
        injection hj' with hj'
        subst hj' he
        exact f3 hj
      · intro j hj hn
        refine ⟨fun l' hl => ?_, (inv.waiting j hj hn).2⟩
        show upd s.mem l v l' = _
        rw [hother l' (by simp [hl]) ?_, (inv.waiting j hj hn).1 l' hl]
        intro j' hj' he
        rw [hl] at hj'
        injection hj' with hj'
        subst hj' he
        exact hn _ _ _ _ h1
      · intro w' tid' jobs' j e' hc
        by_cases hww : w' = w
        · subst hww
          obtain ⟨rfl, rfl⟩ := calling_inj h1 hc
          simp only [if_true]
          refine ⟨h, upd p l v, p', a, e4, ?_, r3, r4, r5⟩
          intro l' hl
          by_cases hll : l' = l
          · subst hll; rw [upd_self, upd_self]
          · rw [upd_of_ne _ _ hll, upd_of_ne _ _ hll]; exact r2 l' hl
        · simp only [if_neg hww]
          obtain ⟨g, q, q', b, s1, s2, s3, s4, s5⟩ := inv.running w' tid' jobs' j e' hc
          obtain ⟨n1, n2⟩ := f4 w' tid' jobs' j e' hc hww
          refine ⟨g, q, q', b, s1.congr ?_, ?_, s3, s4, s5⟩
          · intro l' x hl _
            exact hother l' (by simp [hl]) (by simp [hl])
          · intro l' hl
            rw [s2 l' hl]
            refine (hother l' ?_ ?_).symm
            · intro t ht
              rcases hl with hl | hl
              · rw [hl] at ht; injection ht with ht; rw [← ht]; exact n1
              · rw [hl] at ht; cases ht
            · intro t ht
              rcases hl with hl | hl
              · rw [hl] at ht; cases ht
              · rw [hl] at ht; injection ht with ht; rw [← ht]; exact n2
      · intro l' x hl
        show upd s.mem l v l' = _
        rw [hother l' (by simp [hl]) (by simp [hl]), inv.sums l' x hl]
    | added l x v a' e1 e2 e3 e4 e5 e6 =>
      subst e3 e4 e5
      have hother : ∀ l', (∀ y, kind l' = .guarded y → l' ≠ l) →
          upd s.mem l (s.mem l + v) l' = s.mem l' := by
        intro l' k1
        refine upd_of_ne _ _ ?_
        rintro rfl
        exact k1 _ e1 rfl
      refine ⟨fun j l' => part j l' + if j = i ∧ l' = l then v else 0, ?_, ?_, ?_, ?_, inv.holder, ?_⟩
      · intro l' hl
        show upd s.mem l _ l' = _
        rw [hother l' (by simp [hl]), inv.fixed l' hl]
      · intro j hj
        have hji : j ≠ i := fun he => f3 (he ▸ hj)
        refine ⟨fun l' hl => ?_, fun l' y hl => ?_⟩
        · show upd s.mem l _ l' = _
          rw [hother l' (by simp [hl]), (inv.logged j hj).1 l' hl]
        · rw [if_neg (fun hx => hji hx.1), add_zero]
          exact (inv.logged j hj).2 l' y hl
      · intro j hj hn
        have hji : j ≠ i := fun he => hn _ _ _ _ (he ▸ h1)
        refine ⟨fun l' hl => ?_, fun l' => ?_⟩
        · show upd s.mem l _ l' = _
          rw [hother l' (by simp [hl]), (inv.waiting j hj hn).1 l' hl]
        · rw [if_neg (fun hx => hji hx.1), add_zero]
          exact (inv.waiting j hj hn).2 l'
      · intro w' tid' jobs' j e' hc
        by_cases hww : w' = w
        · subst hww
          obtain ⟨rfl, rfl⟩ := calling_inj h1 hc
          simp only [if_true]
          refine ⟨h, p, p', a', e6, ?_, r3, ?_, r5⟩
          · intro l' hl
            rw [r2 l' hl]
            refine (hother l' ?_).symm
            intro y hy
            rcases hl with hl | hl <;> rw [hl] at hy <;> cases hy
          · intro l' y hl
            have := r4 l' y hl
            rw [sumAt_cons] at this
            rw [← this]
            by_cases hll : l' = l
            · subst hll; simp [add_assoc]
            · rw [if_neg (fun hx => hll hx.2), if_neg (fun hx => hll hx.symm)]; simp
        · simp only [if_neg hww]
          obtain ⟨g, q, q', b, s1, s2, s3, s4, s5⟩ := inv.running w' tid' jobs' j e' hc
          obtain ⟨n1, n2⟩ := f4 w' tid' jobs' j e' hc hww
          refine ⟨g, q, q', b, s1.congr ?_, ?_, s3, ?_, s5⟩
          · intro l' y hl hg
            refine upd_of_ne _ _ ?_
            rintro rfl
            rw [hl] at e1
            injection e1 with e1
            subst e1
            have k1 := (r5 y).2 e2
            have k2 := (s5 y).2 hg
            rw [k1] at k2
            injection k2 with k2
            exact hww k2.symm
          · intro l' hl
            rw [s2 l' hl]
            refine (hother l' ?_).symm
            intro y hy
            rcases hl with hl | hl <;> rw [hl] at hy <;> cases hy
          · intro l' y hl
            rw [if_neg (fun hx => n2 hx.1), add_zero]
            exact s4 l' y hl
      · intro l' y hl
        show upd s.mem l _ l' = _
        rw [Finset.sum_add_distrib]
        by_cases hll : l' = l
        · subst hll
          rw [upd_self, inv.sums l' y hl]
          have : ∑ j ∈ Ico c.start c.stop, (if j = i ∧ l' = l' then v else 0) = v := by
            simp only [and_true]
            rw [Finset.sum_ite_eq' (Ico c.start c.stop) i fun _ => v, if_pos (Finset.mem_Ico.2 ⟨f1, f2⟩)]
          rw [this, add_assoc]
        · rw [upd_of_ne _ _ hll, inv.sums l' y hl]
          simp [hll]
  | ret w tid jobs i e h1 h2 =>
    obtain ⟨f1, f2, f3, f5, f4⟩ := facts h1
    obtain ⟨h, p, p', a, r1, r2, r3, r4, r5⟩ := inv.running w tid jobs i e h1
    rw [h2] at r1
    obtain ⟨rfl, rfl, rfl⟩ : h = none ∧ p' = p ∧ a = [] := by
      cases r1 with
      | runs hr => cases hr; exact ⟨rfl, rfl, rfl⟩
    have hcall : ∀ w' tid' jobs' j e',
        (s.par.workers.set w (.segment tid jobs (i + 1) e))[w']? =
          some (.calling tid' jobs' j e') → w' ≠ w ∧ Calling s.par w' tid' jobs' j e' := by
      intro w' tid' jobs' j e' hc
      rcases Parallel.set_get hc with ⟨a, b, -⟩ | ⟨a, b⟩
      · simp at b
      · exact ⟨a, b⟩
    have hkeep : ∀ {w' tid' jobs' j e'}, Calling s.par w' tid' jobs' j e' → w' ≠ w →
        (s.par.workers.set w (.segment tid jobs (i + 1) e))[w']? = some (.calling tid' jobs' j e') := by
      intro w' tid' jobs' j e' hc hww
      rw [List.getElem?_set_ne hww.symm]; exact hc
    refine ⟨part, inv.fixed, ?_, ?_, ?_, ?_, inv.sums⟩
    · intro j hj
      simp only [List.map_append, List.map_cons, List.map_nil, List.mem_append,
        List.mem_singleton] at hj
      rcases hj with hj | rfl
      · exact inv.logged j hj
      · refine ⟨fun l hl => ?_, fun l x hl => ?_⟩
        · rw [← r3 l hl]; exact (r2 l (Or.inr hl)).symm
        · have := r4 l x hl
          rwa [sumAt_nil, add_zero] at this
    · intro j hj hn
      simp only [List.map_append, List.map_cons, List.map_nil, List.mem_append,
        List.mem_singleton, not_or] at hj
      refine inv.waiting j hj.1 fun w' tid' jobs' e' hc => ?_
      by_cases hww : w' = w
      · subst hww
        exact hj.2 (calling_inj h1 hc).2
      · exact hn w' tid' jobs' e' (hkeep hc hww)
    · intro w' tid' jobs' j e' hc
      exact inv.running w' tid' jobs' j e' (hcall _ _ _ _ _ hc).2
    · intro x w' hx
      obtain ⟨t', j', i', e', hc⟩ := inv.holder x w' hx
      refine ⟨t', j', i', e', hkeep hc ?_⟩
      rintro rfl
      have := (r5 x).1 hx
      cases this
  | other q h1 h2 h3 =>
    refine ⟨part, inv.fixed, ?_, ?_, ?_, ?_, inv.sums⟩
    · intro j hj
      simp only [h2] at hj
      exact inv.logged j hj
    · intro j hj hn
      simp only [h2] at hj
      exact inv.waiting j hj fun w' tid' jobs' e' hc => hn w' tid' jobs' e' ((h3 _ _ _ _ _).2 hc)
    · intro w' tid' jobs' j e' hc
      exact inv.running w' tid' jobs' j e' ((h3 _ _ _ _ _).1 hc)
    · intro x w' hx
      obtain ⟨t', j', i', e', hc⟩ := inv.holder x w' hx
      exact ⟨t', j', i', e', (h3 _ _ _ _ _).2 hc⟩

theorem inv_reach (T : Disciplined kind task c.start c.stop c.threads m fin inc)
    (ht : 1 < c.threads) (hb : 0 < c.blocks) (hle : c.start ≤ c.stop) (h : Reach c task m s) :
    ∃ part, Inv kind c.start c.stop m fin inc part s := by
  induction h with
  | init code =>
    refine ⟨fun _ _ => 0, fun _ _ => rfl, ?_, ?_, ?_, ?_, ?_⟩
    · intro j hj; simp [Parallel.init] at hj
    · intro j _ _; exact ⟨fun _ _ => rfl, fun _ => rfl⟩
    · intro w tid jobs j e hc
      unfold Calling Parallel.init at hc
      rcases w with _ | w <;> simp at hc
    · intro x w hx; cases hx
    · intro l x _; simp
  | step s s' hr hs ih =>
    obtain ⟨part, ih⟩ := ih
    exact inv_step T ht hb hle (reach_par hr) ih hs

end Ceres.Tasks
