import Verif.EvalCallback.TrustAsks
import Verif.EvalCallback.Wolfe

/-!
# The evaluation callback: theorems
-/
namespace Ceres.EvalCallback

open LineSearch (Ext Sample Opts LSOptions LSResult CallbackResult)
open TrustRegion (Outcome)

section Fixed

variable {U X R A : Type}

theorem afterFixed_meets {ok : R → Bool} {C : Option X → Call X → Prop} {last : Option X}
    {anyFixed : Bool} {x : X} {stop : A} {p : Prog (Call X) R A}
    (hC : anyFixed = true → C last ⟨x, false, true⟩)
    (hp : ∀ l, Meets ok C l p (fun _ _ => True)) :
    Meets ok C last (afterFixed anyFixed ok x stop p) (fun _ _ => True) := by
  unfold afterFixed
  cases anyFixed with
  | false => exact hp _
  | true =>
    refine ⟨hC rfl, fun r => ?_⟩
    simp only
    cases ok r with
    | true => exact hp _
    | false => trivial

theorem afterFixed_run {ok : R → Bool} {anyFixed : Bool} {x : X} {stop : A}
    {p : Prog (Call X) R A} (f : X → Bool → R) :
    (afterFixed anyFixed ok x stop p).run (fun q => f q.point q.jacobians) =
      if anyFixed = true ∧ ok (f x false) = false then stop
      else p.run (fun q => f q.point q.jacobians) := by
  unfold afterFixed
  cases anyFixed with
  | false => simp
  | true =>
    simp only [if_true, Prog.run]
    cases ok (f x false) <;> simp [Prog.run]

end Fixed

section TrustRegionSolve

variable {U S X D K J V : Type} [Field K] [LinearOrder K]

/-- **The contract of the callback, trust region solver.**  Whatever the user's code computes, and
even if it answers differently each time: in every trust region solve each evaluation of cost
functions is immediately preceded by a call of `PrepareForEvaluation` with the parameter arrays
holding that point and the right derivative flag, and whenever the callback is told that the
point is not new, it is the point of its previous call.  (`lowest` is `-DBL_MAX`; the options'
`min_relative_decrease` is required to be positive.) -/
theorem trust_region_protocol (o : TrustRegion.Opts K) (P : Parts S X D K J V)
    (hmin : o.lowest ≤ o.minRelDecrease) (c : UserCode U X (TRAnswer K J)) (hfail : c.failed = none)
    (anyFixed : Bool) (xUser : X) (stop : Outcome S X D K) (s0 : S) (x0 : X) (j0 : J) (fuel : ℕ)
    (mem : X) (u : U) :
    Protocol (exec c (callbackInSolve true false)
      (afterFixed anyFixed succeeded xUser stop (minimize o P s0 x0 j0 fuel))
      ⟨mem, u, []⟩).1.events := by
  refine exec_protocol (ok := succeeded) (last := none) (Post := fun _ _ => True)
    (by rw [hfail]; rfl) (afterFixed_meets ?_ ?_) _ protocol_nil ?_
  · intro _ h; simp at h
  · intro l
    exact minimize_meets (G := fun _ => True) hmin (fun _ _ _ _ => trivial)
      (by intro l y g _ h; simp at h) (fun y _ _ => rfl) _ _ (Or.inr trivial) _ _ _
  · intro x h; simp at h

/-- **Caching in the callback is sound, trust region solver.**  If the user's code relies on the
contract, the solve has the outcome it has with cost functions that share no data: the same
iterations, costs, final state and termination. -/
theorem trust_region_cached (o : TrustRegion.Opts K) (P : Parts S X D K J V)
    (hmin : o.lowest ≤ o.minRelDecrease) (c : UserCode U X (TRAnswer K J)) (hfail : c.failed = none)
    (f : X → Bool → TRAnswer K J) (Ready : U → X → Bool → Prop) (hc : Honours c f Ready)
    (anyFixed : Bool) (xUser : X) (stop : Outcome S X D K) (s0 : S) (x0 : X) (j0 : J) (fuel : ℕ)
    (mem : X) (u : U) :
    (exec c true (afterFixed anyFixed succeeded xUser stop (minimize o P s0 x0 j0 fuel))
        ⟨mem, u, []⟩).2 =
      if anyFixed = true ∧ f xUser false = none then stop
      else TrustRegion.minimize o (P.answered f j0) (P.answeredStrategy f j0) s0 x0 fuel := by
  rw [exec_honours (ok := succeeded) (last := none) (Post := fun _ _ => True) hc
    (by rw [hfail]; rfl) (afterFixed_meets ?_ ?_), afterFixed_run, minimize_run]
  · congr 1
    simp
  · intro x h; simp at h
  · intro _ h; simp at h
  · intro l
    exact minimize_meets (G := fun _ => True) hmin (fun _ _ _ _ => trivial)
      (by intro l y g _ h; simp at h) (fun y _ _ => rfl) _ _ (Or.inr trivial) _ _ _

/-- **Only feasible points are shown to the user's code.**  If `Plus` ends in `B` whenever it
succeeds (for bounds: it projects, `Feasible.plus_inBox`) and the problem has bounds or the
initial point is in `B`, then every point cost functions and callback get to see in a trust region
solve is in `B`, failed candidates and line search trials included. -/
theorem trust_region_seesOnly (o : TrustRegion.Opts K) (P : Parts S X D K J V)
    (hmin : o.lowest ≤ o.minRelDecrease) (c : UserCode U X (TRAnswer K J)) (hasCallback : Bool)
    (B : X → Prop) (hplus : ∀ x d y, P.plus x d = some y → B y)
    (s0 : S) (x0 : X) (hx0 : o.constrained = true ∨ B x0) (j0 : J) (fuel : ℕ)
    (mem : X) (u : U) :
    SeesOnly B (exec c hasCallback (minimize o P s0 x0 j0 fuel) ⟨mem, u, []⟩).1.events :=
  exec_seesOnly (minimize_meets (C := fun _ q => B q.point) (G := B) hmin hplus
    (fun _ _ _ h => h) (fun _ h => h) _ _ hx0 _ _ none) _ (by intro e he; simp at he)

end TrustRegionSolve

section LineSearchSolve

variable {U X V : Type} [NormedAddCommGroup V] [InnerProductSpace ℝ V]

theorem armijo_computes (mp : List (Sample ℝ X V) → ℝ → ℝ → ℝ) (o : Opts ℝ) :
    Computes (armijo mp o : Search X V) (LineSearch.armijo mp o) :=
  fun F f estimate cost slope => armijo_run mp o F f estimate cost slope

theorem wolfe_computes (mp : List (Sample ℝ X V) → ℝ → ℝ → ℝ) (o : Opts ℝ) :
    Computes (wolfe mp o : Search X V) (LineSearch.wolfe mp o) :=
  fun F f estimate cost slope => wolfe_run mp o F f estimate cost slope

/-- **The contract of the callback, line search solver with Armijo line search.** -/
theorem line_search_protocol (mp : List (Sample ℝ X V) → ℝ → ℝ → ℝ) (lo : Opts ℝ)
    (P : LSParts X V) (o : LSOptions) (oracle : ℕ → CallbackResult × Bool)
    (c : UserCode U X (LSAnswer V)) (hfail : c.failed = none)
    (anyFixed : Bool) (xUser : X) (stop : LSResult X) (x : X) (mem : X) (u : U) :
    Protocol (exec c (callbackInSolve true false)
      (afterFixed anyFixed answered xUser stop (lsMinimize (armijo mp lo) P o oracle x))
      ⟨mem, u, []⟩).1.events := by
  refine exec_protocol (ok := answered) (last := none) (Post := fun _ _ => True)
    (by rw [hfail]; rfl) (afterFixed_meets ?_ ?_) _ protocol_nil ?_
  · intro _ h; simp at h
  · intro l
    exact lsMinimize_meets (armijo_searchMeets _ mp lo) P (by intro l x d y g _ h; simp at h)
      (fun y _ => rfl) _ _ _ _ (by intro h; simp at h)
  · intro x h; simp at h

/-- **Caching in the callback is sound, line search solver with Armijo line search.** -/
theorem line_search_cached (mp : List (Sample ℝ X V) → ℝ → ℝ → ℝ) (lo : Opts ℝ)
    (P : LSParts X V) (o : LSOptions) (oracle : ℕ → CallbackResult × Bool)
    (c : UserCode U X (LSAnswer V)) (hfail : c.failed = none)
    (f : X → Bool → LSAnswer V) (Ready : U → X → Bool → Prop) (hc : Honours c f Ready)
    (anyFixed : Bool) (xUser : X) (stop : LSResult X) (x : X) (mem : X) (u : U) :
    (exec c true
        (afterFixed anyFixed answered xUser stop (lsMinimize (armijo mp lo) P o oracle x))
        ⟨mem, u, []⟩).2 =
      if anyFixed = true ∧ f xUser false = none then stop
      else LineSearch.minimize (LineSearch.armijo mp lo) (P.answered f) o oracle x := by
  rw [exec_honours (ok := answered) (last := none) (Post := fun _ _ => True) hc
    (by rw [hfail]; rfl) (afterFixed_meets ?_ ?_), afterFixed_run,
    lsMinimize_run (armijo_computes mp lo)]
  · congr 1
    simp
  · intro x h; simp at h
  · intro _ h; simp at h
  · intro l
    exact lsMinimize_meets (armijo_searchMeets _ mp lo) P (by intro l x d y g _ h; simp at h)
      (fun y _ => rfl) _ _ _ _ (by intro h; simp at h)

/-- **Caching in the callback, line search solver with Wolfe line search.**  The contract does not
hold here (`wolfe_contract_fails`): after a search that returned its starting point the callback
may be told that this point is not new although the search evaluated other points in between.
What does hold: that is the last evaluation of the solve (`lsMinimize_toEnd`), and the parameters the solve returns are
those it returns with cost functions that share no data.  (`dist` and `norm` are norms, and the
options' `parameter_tolerance` is required not to be negative.)  The
termination type and the last iteration's cost and gradient norm may differ. -/
theorem line_search_wolfe_parameters (mp : List (Sample ℝ X V) → ℝ → ℝ → ℝ) (lo : Opts ℝ)
    (P : LSParts X V) (hdist : ∀ x, P.dist x x = 0) (hnorm : ∀ x, 0 ≤ P.norm x) (o : LSOptions)
    (hpar : 0 ≤ o.parameterTolerance) (oracle : ℕ → CallbackResult × Bool)
    (c : UserCode U X (LSAnswer V)) (hfail : c.failed = none)
    (f : X → Bool → LSAnswer V) (Ready : U → X → Bool → Prop) (hc : Honours c f Ready)
    (x : X) (mem : X) (u : U) :
    (exec c true (lsMinimize (wolfe mp lo) P o oracle x) ⟨mem, u, []⟩).2.x =
      (LineSearch.minimize (LineSearch.wolfe mp lo) (P.answered f) o oracle x).x := by
  rw [← lsMinimize_run (wolfe_computes mp lo)]
  rcases exec_honours_toEnd (ok := answered) hc (by rw [hfail]; rfl)
    (lsMinimize_toEnd (wolfe_searchFine mp lo) P hdist hnorm o hpar oracle x none) ⟨mem, u, []⟩
    (by intro x h; simp at h) with h | ⟨y, h1, h2⟩
  · rw [h]
  · rw [h1, h2]

end LineSearchSolve

end Ceres.EvalCallback
