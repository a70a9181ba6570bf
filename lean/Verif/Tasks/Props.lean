import Verif.Tasks.Step
import Mathlib.Algebra.BigOperators.Intervals

/-!
# Disciplined loops: no data race, no deadlock, and a result that does not depend on the schedule
-/
namespace Ceres.Tasks

open Finset

variable {L M K : Type} [DecidableEq L] [DecidableEq M] [AddCommMonoid K]
variable {kind : L → Kind M} {task : ℕ → ℕ → Code L M K} {m fin : L → K} {inc part : ℕ → L → K}
  {c : Parallel.Cfg} {s s' : St L M K} {start stop threads : ℕ}

/-! ## One thread -/

theorem exec_runs {free : Bool} {tid i : ℕ} {m0 : L → K} {h : Option M} {k : Code L M K} {p p' : L → K}
    {a : List (L × K)} (hr : Runs kind free tid i m0 h k p p' a) :
    ∀ (mem : L → K) (hb : M → Bool), (∀ l, Mine kind tid i l → p l = mem l) →
    (∀ l, kind l = .fixed → mem l = m0 l) → (∀ x, hb x = true ↔ h = some x) →
    ∃ mem', k.exec mem hb = some (mem', fun _ => false) ∧
      (∀ l, Mine kind tid i l → mem' l = p' l) ∧
      (∀ l x, kind l = .guarded x → mem' l = mem l + sumAt a l) ∧
      ∀ l, ¬ Mine kind tid i l → (∀ x, kind l ≠ .guarded x) → mem' l = mem l := by
  induction hr with
  | ret p =>
    intro mem hb h1 h2 h3
    refine ⟨mem, ?_, fun l hl => (h1 l hl).symm, fun l x _ => by rw [sumAt_nil, add_zero], fun _ _ _ => rfl⟩
    have : hb = fun _ => false := by
      funext x
      have := h3 x
      cases hx : hb x with
      | false => rfl
      | true => rw [hx] at this; simp at this
    rw [this]; rfl
  | readMine hm _ ih =>
    intro mem hb h1 h2 h3
    have := ih mem hb h1 h2 h3
    rw [h1 _ hm] at this
    exact this
  | readFixed hm _ ih =>
    intro mem hb h1 h2 h3
    have := ih mem hb h1 h2 h3
    rw [← h2 _ hm] at this
    exact this
  | @write _ l v _ _ _ _ hm _ ih =>
    intro mem hb h1 h2 h3
    have hg : ∀ l' x, kind l' = .guarded x → l' ≠ l := by
      rintro l' x hl rfl
      rcases hm with hm | hm <;> rw [hm] at hl <;> cases hl
    obtain ⟨mem', e1, e2, e3, e4⟩ := ih (upd mem l v) hb
      (by
        intro l' hl
        by_cases hll : l' = l
        · subst hll; rw [upd_self, upd_self]
        · rw [upd_of_ne _ _ hll, upd_of_ne _ _ hll]; exact h1 l' hl)
      (by
        intro l' hl
        rw [upd_of_ne _ _ ?_]
        · exact h2 l' hl
        · rintro rfl
          rcases hm with hm | hm <;> rw [hm] at hl <;> cases hl) h3
    refine ⟨mem', e1, e2, ?_, ?_⟩
    · intro l' x hl
      rw [e3 l' x hl, upd_of_ne _ _ (hg l' x hl)]
    · intro l' hl hx
      rw [e4 l' hl hx, upd_of_ne]
      rintro rfl
      exact hl hm
  | @lock x _ _ _ _ _ ih =>
    intro mem hb h1 h2 h3
    have hx : hb x = false := by
      cases hx : hb x with
      | false => rfl
      | true => have := (h3 x).1 hx; cases this
    obtain ⟨mem', e1, e2⟩ := ih mem (upd hb x true) h1 h2
      (by
        intro y
        by_cases hy : y = x
        · subst hy; simp [upd]
        · simp only [upd, if_neg hy, h3 y]
          simp [Ne.symm hy])
    refine ⟨mem', ?_, e2⟩
    simp only [Code.exec, hx]
    exact e1
  | @unlock x _ _ _ _ _ ih =>
    intro mem hb h1 h2 h3
    have hx : hb x = true := (h3 x).2 rfl
    obtain ⟨mem', e1, e2⟩ := ih mem (upd hb x false) h1 h2
      (by
        intro y
        by_cases hy : y = x
        · subst hy; simp [upd]
        · simp only [upd, if_neg hy, h3 y]
          simp [Ne.symm hy])
    refine ⟨mem', ?_, e2⟩
    simp only [Code.exec, hx]
    exact e1
  | @add _ x l f v k _ _ _ hg hx hw _ ih =>
    intro mem hb h1 h2 h3
    obtain ⟨mem', e1, e2, e3, e4⟩ := ih (upd mem l (mem l + v)) hb
      (by
        intro l' hl
        rw [upd_of_ne _ _ ?_]
        · exact h1 l' hl
        · rintro rfl
          rcases hl with hl | hl <;> rw [hl] at hg <;> cases hg)
      (by
        intro l' hl
        rw [upd_of_ne _ _ ?_]
        · exact h2 l' hl
        · rintro rfl
          rw [hl] at hg; cases hg) h3
    refine ⟨mem', ?_, e2, ?_, ?_⟩
    · simp only [Code.exec, hw]
      exact e1
    · intro l' y hl
      rw [e3 l' y hl, sumAt_cons]
      by_cases hll : l' = l
      · subst hll; rw [upd_self, if_pos rfl, add_assoc]
      · rw [upd_of_ne _ _ hll, if_neg (Ne.symm hll), zero_add]
    · intro l' hl hy
      rw [e4 l' hl hy, upd_of_ne]
      rintro rfl
      exact hy _ hg

theorem seq_result (T : Disciplined kind task start stop threads m fin inc) (ht : 0 < threads) :
    ∀ (n i : ℕ) (m1 : L → K), i + n = stop → start ≤ i → Result kind start i m fin inc m1 →
    ∃ m', seqRun task (List.range' i n) m1 (fun _ => false) = some (m', fun _ => false) ∧
      Result kind start stop m fin inc m' := by
  intro n
  induction n with
  | zero =>
    intro i m1 hi hs hR
    have : i = stop := by omega
    subst this
    exact ⟨m1, rfl, hR⟩
  | succ n ih =>
    intro i m1 hi hs hR
    obtain ⟨p', a, b1, b2, b3⟩ := T.body i 0 hs (by omega) ht m1
      (by
        intro l hl
        rw [hR.own l i hl, if_neg (by omega)])
    obtain ⟨m2, e1, e2, e3, e4⟩ := exec_runs b1 m1 (fun _ => false) (fun _ _ => rfl) hR.fixed (by simp)
    obtain ⟨m', r1, r2⟩ := ih (i + 1) m2 (by omega) (by omega)
      ⟨by
        intro l hl
        rw [e4 l (by simp [Mine, hl]) (by simp [hl]), hR.fixed l hl],
       by
        intro l j hl
        by_cases hj : j = i
        · subst hj
          rw [e2 l (Or.inr hl), b2 l hl, if_pos ⟨hs, by omega⟩]
        · rw [e4 l (by simp [Mine, hl, hj]) (by simp [hl]), hR.own l j hl]
          by_cases hc : start ≤ j ∧ j < i
          · rw [if_pos hc, if_pos (by omega)]
          · rw [if_neg hc, if_neg (by omega)],
       by
        intro l x hl
        rw [e3 l x hl, hR.sum l x hl, b3 l x hl, Finset.sum_Ico_succ_top hs, add_assoc]⟩
    refine ⟨m', ?_, r2⟩
    rw [List.range'_succ, seqRun, e1]
    exact r1

/-! ## Many threads -/

/-- No data race: whenever a body is about to write a location, no other body is about to read or write
it. -/
theorem race_free (T : Disciplined kind task c.start c.stop c.threads m fin inc)
    (ht : 1 < c.threads) (hb : 0 < c.blocks) (hle : c.start ≤ c.stop) (h : Reach c task m s) :
    ¬ Race s := by
  obtain ⟨part, inv⟩ := inv_reach T ht hb hle h
  have hr := reach_par h
  rintro ⟨w, w', l, hne, ⟨⟨tid, jobs, i, e, hc⟩, v, k, hk⟩, hacc⟩
  obtain ⟨g, q, q', b, s1, s2, s3, s4, s5⟩ := inv.running w tid jobs i e hc
  have key : ∀ {tid' jobs' j e'}, Calling s.par w' tid' jobs' j e' →
      (Mine kind tid' j l ∨ kind l = .fixed ∨ ∃ x, kind l = .guarded x ∧ s.held x = some w') →
      False := by
    intro tid' jobs' j e' hc' hl
    obtain ⟨-, -, -, -, f4⟩ := calling_facts (by omega) hb hle hr hc
    obtain ⟨n1, n2⟩ := f4 w' tid' jobs' j e' hc' (Ne.symm hne)
    rw [hk] at s1
    cases s1 with
    | adding hg _ =>
      rcases hl with (hl | hl) | hl | ⟨y, hl, hy⟩
      · rw [hl] at hg; cases hg
      · rw [hl] at hg; cases hg
      · rw [hl] at hg; cases hg
      · rw [hl] at hg
        injection hg with hg
        subst hg
        have := (s5 y).2 rfl
        rw [hy] at this
        injection this with this
        exact hne this.symm
    | runs hrun =>
      cases hrun with
      | write hm _ =>
        rcases hm with hm | hm <;> rcases hl with (hl | hl) | hl | ⟨y, hl, hy⟩ <;> rw [hl] at hm <;>
          first | (cases hm; done) | (injection hm with hm; first | exact n1 hm | exact n2 hm)
  rcases hacc with ⟨⟨tid', jobs', j, e', hc'⟩, f, hf⟩ | ⟨⟨tid', jobs', j, e', hc'⟩, v', k', hf⟩
  · obtain ⟨g', r, r', b', t1, t2, t3, t4, t5⟩ := inv.running w' tid' jobs' j e' hc'
    rw [hf] at t1
    refine key hc' ?_
    cases t1 with
    | runs hrun =>
      cases hrun with
      | readMine hm _ => exact Or.inl hm
      | readFixed hm _ => exact Or.inr (Or.inl hm)
      | add hg hx _ _ =>
        rcases hx with rfl | ⟨_, h0⟩
        · exact Or.inr (Or.inr ⟨_, hg, (t5 _).2 rfl⟩)
        · cases h0
  · obtain ⟨g', r, r', b', t1, t2, t3, t4, t5⟩ := inv.running w' tid' jobs' j e' hc'
    rw [hf] at t1
    refine key hc' ?_
    cases t1 with
    | adding hg _ => exact Or.inr (Or.inr ⟨_, hg, (t5 _).2 rfl⟩)
    | runs hrun =>
      cases hrun with
      | write hm _ => exact Or.inl hm

/-- No deadlock: as long as `ParallelFor` has not returned, some thread can go on. -/
theorem progress (T : Disciplined kind task c.start c.stop c.threads m fin inc)
    (ht : 1 < c.threads) (hb : 0 < c.blocks) (hle : c.start ≤ c.stop) (h : Reach c task m s)
    (hret : s.par.returned = false) : ∃ s', Step c task s s' := by
  obtain ⟨part, inv⟩ := inv_reach T ht hb hle h
  have hr := reach_par h
  by_cases hheld : ∃ x w, s.held x = some w
  · -- the holder of a mutex never waits
    obtain ⟨x, w, hx⟩ := hheld
    obtain ⟨tid, jobs, i, e, hc⟩ := inv.holder x w hx
    obtain ⟨g, q, q', b, s1, s2, s3, s4, s5⟩ := inv.running w tid jobs i e hc
    have hg := (s5 x).1 hx
    subst hg
    suffices ∃ m' h' k', Access w s.mem s.held (s.code w) m' h' k' by
      obtain ⟨m', h', k', ha⟩ := this
      exact ⟨_, .access s w tid jobs i e k' m' h' hc ha⟩
    generalize hk : s.code w = k at s1
    cases s1 with
    | adding _ _ => exact ⟨_, _, _, .write _ _ _ _ _⟩
    | runs hrun =>
      cases hrun with
      | readMine _ _ => exact ⟨_, _, _, .read _ _ _ _⟩
      | readFixed _ _ => exact ⟨_, _, _, .read _ _ _ _⟩
      | write _ _ => exact ⟨_, _, _, .write _ _ _ _ _⟩
      | unlock _ => exact ⟨_, _, _, .unlock _ _ _ _ hx⟩
      | add _ _ _ _ => exact ⟨_, _, _, .read _ _ _ _⟩
  · have hfree : ∀ x, s.held x = none := by
      intro x
      cases hx : s.held x with
      | none => rfl
      | some w => exact absurd ⟨x, w, hx⟩ hheld
    obtain ⟨p, hp, -⟩ := Parallel.parallelFor_progress (by omega) hr hret
    have other : p.log = s.par.log →
        (∀ w tid jobs i stop, Calling p w tid jobs i stop ↔ Calling s.par w tid jobs i stop) →
        ∃ s', Step c task s s' := fun h1 h2 => ⟨_, .other s p hp h1 h2⟩
    have hset : ∀ {w : ℕ} {q q' : Parallel.PC}, s.par.workers[w]? = some q →
        (∀ t j i e, q ≠ .calling t j i e) → (∀ t j i e, q' ≠ .calling t j i e) →
        ∀ w' t j i e : ℕ, (s.par.workers.set w q')[w']? = some (Parallel.PC.calling t j i e) ↔
          s.par.workers[w']? = some (Parallel.PC.calling t j i e) := by
      intro w q q' hw h1 h2 w' t j i e
      by_cases hww : w' = w
      · subst hww
        have hlt : w' < s.par.workers.length := by
          by_contra hn
          rw [List.getElem?_eq_none (by omega)] at hw
          cases hw
        rw [List.getElem?_set_self hlt, hw]
        constructor
        · intro hx; injection hx with hx; exact absurd hx (h2 _ _ _ _)
        · intro hx; injection hx with hx; exact absurd hx (h1 _ _ _ _)
      · rw [List.getElem?_set_ne (Ne.symm hww)]
    cases hp with
    | call w tid jobs i stop h1 h2 => exact ⟨_, .call s w tid jobs i stop h1 h2⟩
    | ret w tid jobs i stop h1 =>
      by_cases hk : s.code w = .ret
      · exact ⟨_, .ret s w tid jobs i stop h1 hk⟩
      · suffices ∃ m' h' k', Access w s.mem s.held (s.code w) m' h' k' by
          obtain ⟨m', h', k', ha⟩ := this
          exact ⟨_, .access s w tid jobs i stop k' m' h' h1 ha⟩
        obtain ⟨g, q, q', b, s1, s2, s3, s4, s5⟩ := inv.running w tid jobs i stop h1
        generalize hk' : s.code w = k at s1 hk
        cases s1 with
        | adding _ _ => exact ⟨_, _, _, .write _ _ _ _ _⟩
        | runs hrun =>
          cases hrun with
          | ret => exact absurd rfl hk
          | readMine _ _ => exact ⟨_, _, _, .read _ _ _ _⟩
          | readFixed _ _ => exact ⟨_, _, _, .read _ _ _ _⟩
          | write _ _ => exact ⟨_, _, _, .write _ _ _ _ _⟩
          | lock _ => exact ⟨_, _, _, .lock _ _ _ _ (hfree _)⟩
          | unlock _ => exact ⟨_, _, _, .unlock _ _ _ _ ((s5 _).2 rfl)⟩
          | add _ _ _ _ => exact ⟨_, _, _, .read _ _ _ _⟩
    | poolStart n h1 =>
      refine other rfl fun w t j i e => ?_
      unfold Calling
      show (s.par.workers ++ [Parallel.PC.begin])[w]? = _ ↔ _
      by_cases hw : w < s.par.workers.length
      · rw [List.getElem?_append_left hw]
      · rw [List.getElem?_append_right (by omega), List.getElem?_eq_none (l := s.par.workers) (by omega)]
        rcases w - s.par.workers.length with _ | n <;> simp
    | fetchId w h1 =>
      refine other rfl fun w' t j i e => hset h1 (by simp) ?_ w' t j i e
      intro t j i e
      split <;> simp
    | test w tid h1 =>
      refine other rfl fun w' t j i e => hset h1 (by simp) ?_ w' t j i e
      intro t j i e
      split <;> simp
    | addTask w tid h1 =>
      exact other rfl fun w' t j i e => hset h1 (by simp) (by simp) w' t j i e
    | fetchBlock w tid jobs h1 =>
      refine other rfl fun w' t j i e => hset h1 (by simp) ?_ w' t j i e
      intro t j i e
      split <;> simp
    | endSegment w tid jobs i h1 =>
      exact other rfl fun w' t j i e => hset h1 (by simp) (by simp) w' t j i e
    | finish w jobs h1 =>
      exact other rfl fun w' t j i e => hset h1 (by simp) (by simp) w' t j i e
    | unblock h1 h2 h3 => exact other rfl fun _ _ _ _ _ => Iff.rfl

/-- The result of a disciplined loop: it returns, and what it leaves in memory depends on nothing but the
bodies. -/
theorem forRun_result (T : Disciplined kind task start stop threads m fin inc) (ht : 0 < threads)
    {r : Option (L → K)} (h : ForRun task start stop threads m r) :
    ∃ m', r = some m' ∧ Result kind start stop m fin inc m' := by
  cases h with
  | badThreads h0 => omega
  | empty _ hle =>
    refine ⟨m, rfl, fun _ _ => rfl, fun l i _ => by rw [if_neg (by omega)], fun l x _ => ?_⟩
    rw [Finset.Ico_eq_empty (by omega)]; simp
  | sequential _ hlt _ =>
    obtain ⟨m', e1, e2⟩ := seq_result T ht (stop - start) start m (by omega) le_rfl
      ⟨fun _ _ => rfl, fun l i _ => by rw [if_neg (by omega)], fun l x _ => by simp⟩
    exact ⟨m', by rw [e1]; rfl, e2⟩
  | parallel s _ hlt hc hreach hret =>
    obtain ⟨part, inv⟩ := inv_reach (c := ⟨start, stop, threads, _⟩) T (by show 1 < threads; omega)
      (Parallel.numWorkBlocks_pos ht (by omega) (by omega)) (Nat.le_of_lt hlt) hreach
    have hout := Parallel.Outcome.parallel s.par ht hlt (minBlock := 1) (by omega) (reach_par hreach) hret
    have hcov := (Parallel.parallelFor_covers (by omega) hout).1
    have hin : ∀ j, start ≤ j → j < stop → j ∈ s.par.log.map (·.2) := by
      intro j h1 h2
      have := hcov j
      rw [if_pos ⟨h1, h2⟩] at this
      exact List.count_pos_iff.1 (by omega)
    refine ⟨s.mem, rfl, inv.fixed, ?_, ?_⟩
    · intro l i hl
      by_cases hi : start ≤ i ∧ i < stop
      · rw [if_pos hi]
        exact (inv.logged i (hin i hi.1 hi.2)).1 l hl
      · rw [if_neg hi]
        refine (inv.waiting i ?_ ?_).1 l hl
        · intro hm
          have := hcov i
          rw [if_neg hi] at this
          have := List.count_pos_iff.2 hm
          omega
        · intro w tid jobs e hcall
          obtain ⟨f1, f2, -⟩ := calling_facts (c := ⟨start, stop, threads, _⟩) ht
            (Parallel.numWorkBlocks_pos ht (by omega) (by omega)) (Nat.le_of_lt hlt) (reach_par hreach) hcall
          exact hi ⟨f1, f2⟩
    · intro l x hl
      rw [inv.sums l x hl]
      congr 1
      refine Finset.sum_congr rfl fun j hj => ?_
      rw [Finset.mem_Ico] at hj
      exact (inv.logged j (hin j hj.1 hj.2)).2 l x hl
  | stuck s _ hlt hc hreach hret hst =>
    obtain ⟨s', hs⟩ := progress (c := ⟨start, stop, threads, _⟩) T (by show 1 < threads; omega)
      (Parallel.numWorkBlocks_pos ht (by omega) (by omega)) (Nat.le_of_lt hlt) hreach hret
    exact absurd hs (hst s')

end Ceres.Tasks
