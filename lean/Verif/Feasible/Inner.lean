import Verif.Feasible.Minimize
import Verif.Inner.Descent

/-!
# C58: inner iterations stay in the box

Each inner solve is a run of the trust region minimizer over one block, not treated as bounds
constrained (coordinate_descent_minimizer.cc:212-239: the options of the inner minimizer are the
defaults), but with the same `ParameterBlock::Plus`.
-/
namespace Ceres.Feasible

open Ceres.Graph (Prog)
open Ceres.Inner

variable {B V K : Type} [DecidableEq B] [Field K] [LinearOrder K]

/-- What `best` returns is what the trust region minimizer leaves in the array when it starts at the
block's value, and the block's `Plus` lands in the block's box. -/
def InnerSolves (box : B → V → Prop) (best : B → (B → V) → V) : Prop :=
  ∀ b x, ∃ (S D : Type) (o : TrustRegion.Opts K) (env : TrustRegion.Env V D K)
    (strategy : TrustRegion.Strategy S V D K) (s0 : S) (fuel : ℕ) (s : TrustRegion.St S V D K),
    (∀ y d z, env.plus y d = some z → box b z) ∧ env.inner = none ∧
    o.lowest ≤ o.minRelDecrease ∧
    TrustRegion.minimize o env strategy s0 (x b) fuel = .done s ∧ best b x = s.params

theorem innerSolves_box {box : B → V → Prop} {best : B → (B → V) → V}
    (h : InnerSolves (K := K) box best) (b : B) (x : B → V) (hx : box b (x b)) :
    box b (best b x) := by
  obtain ⟨S, D, o, env, strategy, s0, fuel, s, h1, h2, h3, h4, h5⟩ := h b x
  rw [h5]
  exact (minimize_keeps (box b) o env strategy s0 (x b) fuel
    ⟨h1, fun f hf => by rw [h2] at hf; cases hf⟩ h3 (Or.inl hx) s h4).2.2.1 hx

/-- **C58 (a sweep).**  A sweep of inner iterations from a feasible point ends at a feasible point. -/
theorem sweep_keeps {box : B → V → Prop} {best : B → (B → V) → V}
    (h : InnerSolves (K := K) box best) (groups : List (List B)) (x : B → V)
    (hx : ∀ b, box b (x b)) : ∀ b, box b (sweep best groups x b) := by
  unfold sweep
  induction groups generalizing x with
  | nil => exact hx
  | cons g gs ih =>
    rw [List.foldl_cons]
    refine ih _ fun b => ?_
    unfold groupStep
    split
    · exact innerSolves_box h b x (hx b)
    · exact hx b

/-- **C58 (inner iterations).**  Every execution of the inner iterations, with any number of threads
and any interleaving, that starts with every block within its bounds ends with every block within its
bounds. -/
theorem inner_keeps {P : Prog B} {S : Setup B} {groups : List (List B)} {numThreads : ℕ}
    {solver : B → List ℕ → Solver V} (hP : P.blocks.Nodup) (hS : S.Serves P groups)
    (hind : Independent P groups) (ht : 0 < numThreads) (htot : NeverAborts P solver)
    {m : Mem B V} {outer : B → V} (hm : Callable P m outer) {r : Option (Mem B V)}
    (h : MinimizeRun P S numThreads solver m r) {box : B → V → Prop}
    (hbest : InnerSolves (K := K) box (best P solver (frozenCells P m)))
    (hx : ∀ b, box b (valuesAt P m outer b)) :
    ∃ m', r = some m' ∧ ∀ b ∈ P.blocks, box b (m'.array (m.cell b).stateOffset) := by
  obtain ⟨m', e1, e2, -⟩ := minimize_result hP hS hind ht htot hm h
  refine ⟨m', e1, fun b hb => ?_⟩
  rw [e2 b hb]
  exact sweep_keeps hbest groups _ hx b

end Ceres.Feasible
