import Verif.Tasks.Model
import Verif.Parallel.Props
import Mathlib.Algebra.BigOperators.Group.Finset.Basic
import Mathlib.Order.Interval.Finset.Nat

/-!
# A discipline for loop bodies, under which the schedule does not matter

Every location has a kind: never written; scratch memory of a thread; the result of one index; or a sum
guarded by a mutex, to which bodies only add while they hold the mutex.
-/
namespace Ceres.Tasks

open Finset

/-- The kind of a location. -/
inductive Kind (M : Type) where
  | fixed
  | scratch (tid : ℕ)
  | own (i : ℕ)
  | guarded (m : M)
  deriving DecidableEq

variable {L M K : Type} [DecidableEq L] [DecidableEq M] [AddCommMonoid K]

/-- The locations that the body of index `i` on thread `tid` may use freely. -/
def Mine (kind : L → Kind M) (tid i : ℕ) (l : L) : Prop := kind l = .scratch tid ∨ kind l = .own i

/-- The body keeps to the discipline: holding the mutex `h`, with `p` in its own locations, it runs to its
end, leaves `p'` there and makes the additions `a`.  `free`: mutexes are not used (one thread). -/
inductive Runs (kind : L → Kind M) (free : Bool) (tid i : ℕ) (m0 : L → K) :
    Option M → Code L M K → (L → K) → (L → K) → List (L × K) → Prop where
  | ret (p : L → K) : Runs kind free tid i m0 none .ret p p []
  | readMine {h l f p p' a} : Mine kind tid i l → Runs kind free tid i m0 h (f (p l)) p p' a →
      Runs kind free tid i m0 h (.read l f) p p' a
  | readFixed {h l f p p' a} : kind l = .fixed → Runs kind free tid i m0 h (f (m0 l)) p p' a →
      Runs kind free tid i m0 h (.read l f) p p' a
  | write {h l v k p p' a} : Mine kind tid i l → Runs kind free tid i m0 h k (upd p l v) p' a →
      Runs kind free tid i m0 h (.write l v k) p p' a
  | lock {x k p p' a} : Runs kind free tid i m0 (some x) k p p' a →
      Runs kind free tid i m0 none (.lock x k) p p' a
  | unlock {x k p p' a} : Runs kind free tid i m0 none k p p' a →
      Runs kind free tid i m0 (some x) (.unlock x k) p p' a
  | add {h x l f v k p p' a} : kind l = .guarded x → h = some x ∨ (h = none ∧ free = true) →
      (∀ y, f y = .write l (y + v) k) →
      Runs kind free tid i m0 h k p p' a → Runs kind free tid i m0 h (.read l f) p p' ((l, v) :: a)

/-- What is added to `l`. -/
def sumAt (a : List (L × K)) (l : L) : K := (a.map fun e => if e.1 = l then e.2 else 0).sum

theorem sumAt_nil (l : L) : sumAt ([] : List (L × K)) l = 0 := rfl

theorem sumAt_cons (e : L × K) (a : List (L × K)) (l : L) :
    sumAt (e :: a) l = (if e.1 = l then e.2 else 0) + sumAt a l := by simp [sumAt]

theorem sumAt_append (a b : List (L × K)) (l : L) : sumAt (a ++ b) l = sumAt a l + sumAt b l := by
  simp [sumAt]

/-- All bodies of a loop keep to the discipline.  `fin`: the results; `inc i l`: what index `i` adds to
`l`, whatever thread runs it and whatever its scratch memory holds. -/
structure Disciplined (kind : L → Kind M) (task : ℕ → ℕ → Code L M K) (start stop threads : ℕ)
    (m : L → K) (fin : L → K) (inc : ℕ → L → K) : Prop where
  body : ∀ i tid, start ≤ i → i < stop → tid < threads → ∀ p : L → K,
    (∀ l, kind l = .own i → p l = m l) → ∃ p' a,
      Runs kind (decide (threads = 1)) tid i m none (task tid i) p p' a ∧
      (∀ l, kind l = .own i → p' l = fin l) ∧
      ∀ l x, kind l = .guarded x → sumAt a l = inc i l

/-- What the loop leaves in memory. -/
structure Result (kind : L → Kind M) (start stop : ℕ) (m fin : L → K) (inc : ℕ → L → K) (m' : L → K) :
    Prop where
  fixed : ∀ l, kind l = .fixed → m' l = m l
  own : ∀ l i, kind l = .own i → m' l = if start ≤ i ∧ i < stop then fin l else m l
  sum : ∀ l x, kind l = .guarded x → m' l = m l + ∑ i ∈ Ico start stop, inc i l

end Ceres.Tasks
