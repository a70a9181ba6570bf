import Verif.Tasks.Discipline
import Verif.Inner.Local

/-!
# The invariant of a disciplined loop
-/
namespace Ceres.Tasks

open Finset

variable {L M K : Type} [DecidableEq L] [DecidableEq M] [AddCommMonoid K]

theorem upd_self (m : L → K) (l : L) (v : K) : upd m l v l = v := by simp [upd]

theorem upd_of_ne (m : L → K) {l l' : L} (v : K) (h : l' ≠ l) : upd m l v l' = m l' := by simp [upd, h]

theorem held_self (m : M → Option ℕ) (l : M) (v : Option ℕ) : upd m l v l = v := by simp [upd]

theorem held_of_ne (m : M → Option ℕ) {l l' : M} (v : Option ℕ) (h : l' ≠ l) :
    upd m l v l' = m l' := by simp [upd, h]

/-- The state of a running body: it keeps to the discipline, or it is in the middle of an addition. -/
inductive Now (kind : L → Kind M) (tid i : ℕ) (m0 mem : L → K) :
    Option M → Code L M K → (L → K) → (L → K) → List (L × K) → Prop where
  | runs {h k p p' a} : Runs kind false tid i m0 h k p p' a → Now kind tid i m0 mem h k p p' a
  | adding {x l v k p p' a} : kind l = .guarded x → Runs kind false tid i m0 (some x) k p p' a →
      Now kind tid i m0 mem (some x) (.write l (mem l + v) k) p p' ((l, v) :: a)

/-- The invariant of the interleaved execution.  `part i l` is what index `i` has added to `l` so far. -/
structure Inv (kind : L → Kind M) (start stop : ℕ) (m fin : L → K) (inc : ℕ → L → K)
    (part : ℕ → L → K) (s : St L M K) : Prop where
  fixed : ∀ l, kind l = .fixed → s.mem l = m l
  logged : ∀ j, j ∈ s.par.log.map (·.2) → (∀ l, kind l = .own j → s.mem l = fin l) ∧
    ∀ l x, kind l = .guarded x → part j l = inc j l
  waiting : ∀ j, j ∉ s.par.log.map (·.2) → (∀ w tid jobs e, ¬ Calling s.par w tid jobs j e) →
    (∀ l, kind l = .own j → s.mem l = m l) ∧ ∀ l, part j l = 0
  running : ∀ w tid jobs j e, Calling s.par w tid jobs j e → ∃ h p p' a,
    Now kind tid j m s.mem h (s.code w) p p' a ∧ (∀ l, Mine kind tid j l → p l = s.mem l) ∧
    (∀ l, kind l = .own j → p' l = fin l) ∧
    (∀ l x, kind l = .guarded x → part j l + sumAt a l = inc j l) ∧
    ∀ x, s.held x = some w ↔ h = some x
  holder : ∀ x w, s.held x = some w → ∃ tid jobs j e, Calling s.par w tid jobs j e
  sums : ∀ l x, kind l = .guarded x → s.mem l = m l + ∑ j ∈ Ico start stop, part j l

theorem step_par {c : Parallel.Cfg} {task : ℕ → ℕ → Code L M K} {s s' : St L M K}
    (h : Step c task s s') : s'.par = s.par ∨ Parallel.Step c s.par s'.par := by
  cases h with
  | call w tid jobs i stop h1 h2 => exact Or.inr (.call _ w tid jobs i stop h1 h2)
  | access w tid jobs i stop k m h h1 h2 => exact Or.inl rfl
  | ret w tid jobs i stop h1 h2 => exact Or.inr (.ret _ w tid jobs i stop h1)
  | other p h1 h2 h3 => exact Or.inr h1

theorem reach_par {c : Parallel.Cfg} {task : ℕ → ℕ → Code L M K} {m : L → K} {s : St L M K}
    (h : Reach c task m s) : Parallel.Reachable c s.par := by
  induction h with
  | init code => exact .init
  | step s s' _ hs ih =>
    rcases step_par hs with he | he
    · rw [he]; exact ih
    · exact .step _ _ ih he

variable {kind : L → Kind M} {tid i : ℕ} {m0 mem : L → K}

/-- What an access by worker `w` does, when its body keeps to the discipline. -/
inductive Effect (kind : L → Kind M) (tid i w : ℕ) (m0 mem : L → K) (held : M → Option ℕ)
    (h : Option M) (p p' : L → K) (a : List (L × K)) (mem' : L → K) (held' : M → Option ℕ)
    (k' : Code L M K) : Prop where
  | quiet (h' : Option M) : mem' = mem → (∀ x, held' x = some w ↔ h' = some x) →
      (∀ x w', w' ≠ w → (held' x = some w' ↔ held x = some w')) →
      Now kind tid i m0 mem h' k' p p' a →
      Effect kind tid i w m0 mem held h p p' a mem' held' k'
  | wrote (l : L) (v : K) : Mine kind tid i l → mem' = upd mem l v → held' = held →
      Now kind tid i m0 mem' h k' (upd p l v) p' a →
      Effect kind tid i w m0 mem held h p p' a mem' held' k'
  | added (l : L) (x : M) (v : K) (a' : List (L × K)) : kind l = .guarded x → h = some x →
      mem' = upd mem l (mem l + v) → held' = held → a = (l, v) :: a' →
      Now kind tid i m0 mem' h k' p p' a' →
      Effect kind tid i w m0 mem held h p p' a mem' held' k'

theorem effect {w : ℕ} {held held' : M → Option ℕ} {h : Option M} {p p' : L → K} {a : List (L × K)}
    {mem' : L → K} {k k' : Code L M K} (hn : Now kind tid i m0 mem h k p p' a)
    (hp : ∀ l, Mine kind tid i l → p l = mem l) (hf : ∀ l, kind l = .fixed → mem l = m0 l)
    (hh : ∀ x, held x = some w ↔ h = some x)
    (ha : Access w mem held k mem' held' k') :
    Effect kind tid i w m0 mem held h p p' a mem' held' k' := by
  cases hn with
  | adding hg hr =>
    cases ha with
    | write => exact .added _ _ _ _ hg rfl rfl rfl rfl (.runs hr)
  | runs hr =>
    cases hr with
    | ret => cases ha
    | readMine hm hr =>
      cases ha with
      | read => exact .quiet _ rfl hh (fun _ _ _ => Iff.rfl) (by rw [← hp _ hm]; exact .runs hr)
    | readFixed hm hr =>
      cases ha with
      | read => exact .quiet _ rfl hh (fun _ _ _ => Iff.rfl) (by rw [hf _ hm]; exact .runs hr)
    | write hm hr =>
      cases ha with
      | write => exact .wrote _ _ hm rfl rfl (.runs hr)
    | @lock x _ _ _ _ hr =>
      cases ha with
      | lock _ _ hfree =>
        refine .quiet (some x) rfl ?_ ?_ (.runs hr)
        · intro y
          by_cases hy : y = x
          · subst hy; simp [held_self]
          · rw [held_of_ne _ _ hy, hh]
            simp [Ne.symm hy]
        · intro y w' hw
          by_cases hy : y = x
          · subst hy
            rw [held_self, hfree]
            simp [Ne.symm hw]
          · rw [held_of_ne _ _ hy]
    | @unlock x _ _ _ _ hr =>
      cases ha with
      | unlock _ _ hw0 =>
        refine .quiet none rfl ?_ ?_ (.runs hr)
        · intro y
          by_cases hy : y = x
          · subst hy; simp [held_self]
          · rw [held_of_ne _ _ hy, hh]
            simp [Ne.symm hy]
        · intro y w' hw
          by_cases hy : y = x
          · subst hy
            rw [held_self, hw0]
            simp [Ne.symm hw]
          · rw [held_of_ne _ _ hy]
    | add hg hx hw hr =>
      rcases hx with rfl | ⟨_, h0⟩
      · cases ha with
        | read =>
          refine .quiet _ rfl hh (fun _ _ _ => Iff.rfl) ?_
          rw [hw]
          exact .adding hg hr
      · cases h0

/-- A running body is not disturbed when another worker changes memory where it does not look. -/
theorem Now.congr {h : Option M} {k : Code L M K} {p p' : L → K} {a : List (L × K)} {mem' : L → K}
    (hn : Now kind tid i m0 mem h k p p' a)
    (hg : ∀ l x, kind l = .guarded x → h = some x → mem' l = mem l) :
    Now kind tid i m0 mem' h k p p' a := by
  cases hn with
  | runs hr => exact .runs hr
  | adding hk hr =>
    rw [← hg _ _ hk rfl]
    exact .adding hk hr

end Ceres.Tasks
