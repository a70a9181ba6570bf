import Verif.Tasks.Props
import Mathlib.Data.DFinsupp.WellFounded

/-!
# Every schedule ends
-/
namespace Ceres.Tasks

variable {L M K : Type} [DecidableEq L] [DecidableEq M] [AddCommMonoid K]
variable {task : ℕ → ℕ → Code L M K} {m : L → K} {c : Parallel.Cfg}

/-- What is left of a body after one access. -/
inductive Child : Code L M K → Code L M K → Prop where
  | read (l : L) (f : K → Code L M K) (v : K) : Child (f v) (.read l f)
  | write (l : L) (v : K) (k : Code L M K) : Child k (.write l v k)
  | lock (x : M) (k : Code L M K) : Child k (.lock x k)
  | unlock (x : M) (k : Code L M K) : Child k (.unlock x k)

omit [DecidableEq L] [DecidableEq M] [AddCommMonoid K] in
theorem child_wf : WellFounded (Child (L := L) (M := M) (K := K)) := by
  refine ⟨fun k => ?_⟩
  induction k with
  | ret => exact ⟨_, fun y h => nomatch h⟩
  | read l f ih => exact ⟨_, fun y h => by cases h with | read _ _ v => exact ih v⟩
  | write l v k ih => exact ⟨_, fun y h => by cases h; exact ih⟩
  | lock x k ih => exact ⟨_, fun y h => by cases h; exact ih⟩
  | unlock x k ih => exact ⟨_, fun y h => by cases h; exact ih⟩

omit [AddCommMonoid K] in
theorem access_child {w : ℕ} {mem mem' : L → K} {h h' : M → Option ℕ} {k k' : Code L M K}
    (ha : Access w mem h k mem' h' k') : Child k' k := by
  cases ha with
  | read => exact .read _ _ _
  | write => exact .write _ _ _
  | lock => exact .lock _ _
  | unlock => exact .unlock _ _

/-- No schedule runs for ever, whatever the bodies do. -/
theorem terminates (ht : 0 < c.threads) (run : ℕ → St L M K) (h0 : Reach c task m (run 0))
    (hstep : ∀ n, Step c task (run n) (run (n + 1))) : False := by
  have hreach : ∀ n, Reach c task m (run n) := by
    intro n
    induction n with
    | zero => exact h0
    | succ n ih => exact .step _ _ ih (hstep n)
  have hpar : ∀ n, Parallel.Reachable c (run n).par := fun n => reach_par (hreach n)
  -- a point from which on `ParallelFor` itself makes no step
  obtain ⟨n0, hmin⟩ : ∃ n0, ∀ n, Parallel.measure c (run n0).par ≤ Parallel.measure c (run n).par := by
    have hex : ∃ k n, Parallel.measure c (run n).par = k := ⟨_, 0, rfl⟩
    classical
    obtain ⟨n0, h⟩ := Nat.find_spec hex
    refine ⟨n0, fun n => ?_⟩
    rw [h]
    exact Nat.find_min' hex ⟨n, rfl⟩
  have hsame : ∀ k, (run (n0 + k)).par = (run n0).par := by
    intro k
    induction k with
    | zero => rfl
    | succ k ih =>
      rcases step_par (hstep (n0 + k)) with h | h
      · rw [← ih, ← h]; rfl
      · have h1 := Parallel.measure_decreases (Parallel.inv_reachable ht (hpar (n0 + k))) h
        rw [ih] at h1
        have h2 := hmin (n0 + k + 1)
        omega
  have hacc : ∀ k, Pi.Lex (· < ·) (fun {_ : Fin (run n0).par.workers.length} => Child)
      (fun w : Fin (run n0).par.workers.length => (run (n0 + (k + 1))).code w)
      (fun w => (run (n0 + k)).code w) := by
    intro k
    have hst := hstep (n0 + k)
    have hne : ¬ Parallel.Step c (run (n0 + k)).par (run (n0 + k + 1)).par := by
      intro h
      have h1 := Parallel.measure_decreases (Parallel.inv_reachable ht (hpar (n0 + k))) h
      rw [hsame] at h1
      have h2 := hmin (n0 + k + 1)
      omega
    have hp := hsame k
    rw [Nat.add_assoc] at hst hne
    generalize run (n0 + (k + 1)) = s' at hst hne ⊢
    generalize run (n0 + k) = s at hst hne hp ⊢
    cases hst with
    | call w tid jobs i stop h1 h2 => exact absurd (.call _ w tid jobs i stop h1 h2) hne
    | ret w tid jobs i stop h1 h2 => exact absurd (.ret _ w tid jobs i stop h1) hne
    | other p h1 h2 h3 => exact absurd h1 hne
    | access w tid jobs i stop k m h h1 h2 =>
      have hw : w < (run n0).par.workers.length := by
        rw [← hp]
        by_contra hn
        unfold Calling at h1
        rw [List.getElem?_eq_none (by omega)] at h1
        cases h1
      refine ⟨⟨w, hw⟩, ?_, ?_⟩
      · intro j hj
        have : (j : ℕ) ≠ w := fun h => by
          rw [Fin.lt_def] at hj
          simp only at hj
          omega
        simp [this]
      · simp only [if_true]
        exact access_child h2
  have hwf : WellFounded (Pi.Lex (· < ·) (fun {_ : Fin (run n0).par.workers.length} =>
      Child (L := L) (M := M) (K := K))) := Pi.Lex.wellFounded _ fun _ => child_wf
  rw [wellFounded_iff_isEmpty_descending_chain] at hwf
  exact hwf.false ⟨fun k w => (run (n0 + k)).code w, hacc⟩

section
variable {kind : L → Kind M} {fin : L → K} {inc : ℕ → L → K} {s : St L M K}
  {start stop threads : ℕ}

/-- Every execution of a disciplined loop can be continued until it returns. -/
theorem returns (T : Disciplined kind task c.start c.stop c.threads m fin inc)
    (ht : 1 < c.threads) (hb : 0 < c.blocks) (hle : c.start ≤ c.stop) (h : Reach c task m s) :
    ∃ s', Reach c task m s' ∧ s'.par.returned = true := by
  by_contra hn
  push Not at hn
  have hnext : ∀ s : { s : St L M K // Reach c task m s }, ∃ s' : { s : St L M K // Reach c task m s },
      Step c task s.1 s'.1 := by
    intro s
    obtain ⟨s', hs'⟩ := progress T ht hb hle s.2 (by simpa using hn s.1 s.2)
    exact ⟨⟨s', .step _ _ s.2 hs'⟩, hs'⟩
  choose next hnext using hnext
  let run : ℕ → { s : St L M K // Reach c task m s } := fun n => Nat.rec ⟨s, h⟩ (fun _ s => next s) n
  exact terminates (by omega) (fun n => (run n).1) h fun n => hnext (run n)

/-- A disciplined loop has an execution. -/
theorem forRun_exists (T : Disciplined kind task start stop threads m fin inc) (ht : 0 < threads) :
    ∃ m', ForRun task start stop threads m (some m') := by
  by_cases hle : stop ≤ start
  · exact ⟨m, .empty ht hle⟩
  · by_cases hs : threads = 1 ∨ stop - start < 2
    · have hr := ForRun.sequential (task := task) (m := m) ht (by omega) hs
      obtain ⟨m', h1, -⟩ := forRun_result T ht hr
      exact ⟨m', h1 ▸ hr⟩
    · obtain ⟨s', h1, h2⟩ := returns (c := ⟨start, stop, threads, Parallel.numWorkBlocks start stop threads 1⟩) T
        (by show 1 < threads; omega) (Parallel.numWorkBlocks_pos ht (by omega) (by omega))
        (by show start ≤ stop; omega) (.init fun _ => .ret)
      exact ⟨s'.mem, .parallel s' ht (by omega) hs h1 h2⟩

/-- What a body in progress may be about to access: its own locations, locations that nobody writes
(reading), and sums whose mutex it holds. -/
theorem access_allowed (T : Disciplined kind task c.start c.stop c.threads m fin inc)
    (ht : 1 < c.threads) (hb : 0 < c.blocks) (hle : c.start ≤ c.stop) (h : Reach c task m s)
    {w tid jobs i e : ℕ} (hc : Calling s.par w tid jobs i e) :
    (∀ l f, s.code w = .read l f →
      Mine kind tid i l ∨ kind l = .fixed ∨ ∃ x, kind l = .guarded x ∧ s.held x = some w) ∧
    ∀ l v k, s.code w = .write l v k → Mine kind tid i l ∨ ∃ x, kind l = .guarded x ∧ s.held x = some w := by
  obtain ⟨part, inv⟩ := inv_reach T ht hb hle h
  obtain ⟨g, q, q', b, t1, -, -, -, t5⟩ := inv.running w tid jobs i e hc
  constructor
  · intro l f hf
    rw [hf] at t1
    cases t1 with
    | runs hrun =>
      cases hrun with
      | readMine hm _ => exact Or.inl hm
      | readFixed hm _ => exact Or.inr (Or.inl hm)
      | add hg hx _ _ =>
        rcases hx with rfl | ⟨_, h0⟩
        · exact Or.inr (Or.inr ⟨_, hg, (t5 _).2 rfl⟩)
        · cases h0
  · intro l v k hk
    rw [hk] at t1
    cases t1 with
    | adding hg _ => exact Or.inr ⟨_, hg, (t5 _).2 rfl⟩
    | runs hrun =>
      cases hrun with
      | write hm _ => exact Or.inl hm

end

end Ceres.Tasks
