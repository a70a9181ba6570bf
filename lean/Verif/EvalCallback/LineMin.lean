import Verif.EvalCallback.Search

/-!
# The line search minimizer: what it asks, and that it computes what `LineSearch.minimize` computes
-/
namespace Ceres.EvalCallback

open LineSearch (Ext Sample Opts Summary LSOptions LSStatus LSRecord LSResult LSState Direction
  CallbackResult chooseDirection initialStep LSProblem)

variable {X V : Type} [NormedAddCommGroup V] [InnerProductSpace ℝ V]

/-- The problem of `LineSearch.Minimizer` with the answers given by `f`. -/
def LSParts.answered (P : LSParts X V) (f : X → Bool → LSAnswer V) : LSProblem X V where
  eval := f
  plus := P.plus
  diffSq := P.diffSq
  diffMax := P.diffMax
  dist := P.dist
  norm := P.norm
  dirNorm := P.dirNorm

omit [InnerProductSpace ℝ V] in
theorem takePoint_run (P : LSParts X V) (f : X → Bool → LSAnswer V) (s : Sample ℝ X V) :
    (takePoint s).run (fun q => f q.point q.jacobians) =
      LineSearch.takePoint (P.answered f) s := by
  unfold takePoint LineSearch.takePoint
  simp only [show (P.answered f).eval = f from rfl]
  cases s.vx with
  | none => rfl
  | some y =>
    cases s.vg with
    | some g => rfl
    | none =>
      simp only [Prog.run]
      cases f y true with
      | none => rfl
      | some a =>
        obtain ⟨c, g⟩ := a
        cases c <;> rfl

/-- `search'` is what `search` computes if the answers are given by a function. -/
def Computes (search : Search X V) (search' : LineSearch.Search X V) : Prop :=
  ∀ (F : Fn (LSAnswer V) ℝ X V) (f : X → Bool → LSAnswer V) (estimate cost slope : ℝ),
    (search F estimate cost slope).run (fun q => f q.point q.jacobians) =
      search' (F.answered f) estimate cost slope

theorem lsStep_run {search : Search X V} {search' : LineSearch.Search X V}
    (hs : Computes search search') (P : LSParts X V) (f : X → Bool → LSAnswer V) (o : LSOptions)
    (late : Bool) (x : X) (previous current : LSState V) (dir : Direction V) (restarts : ℕ)
    (last : LSRecord X) :
    (lsStep search P o late x previous current dir restarts last).run
        (fun q => f q.point q.jacobians) =
      Driver.lsStep search' (P.answered f) o late x previous current dir restarts last := by
  unfold lsStep Driver.lsStep
  by_cases h1 : o.maxNumIterations ≤ last.iteration
  · rw [if_pos h1, if_pos h1]; rfl
  rw [if_neg h1, if_neg h1]
  by_cases h2 : late = true
  · rw [if_pos h2, if_pos h2]; rfl
  rw [if_neg h2, if_neg h2]
  cases chooseDirection o (last.iteration + 1) restarts dir previous current with
  | inl s => rfl
  | inr q =>
    obtain ⟨dir', restarts', fresh, d⟩ := q
    simp only
    cases initialStep fresh current.gradientMaxNorm current.cost previous.cost
        (inner ℝ current.gradient d) with
    | none => rfl
    | some e =>
      simp only
      by_cases h3 : e < 0
      · rw [if_pos h3, if_pos h3]; rfl
      rw [if_neg h3, if_neg h3]
      have hfn : (P.fn x d).answered f = (P.answered f).fn x d := rfl
      rw [Prog.run_bind, hs, hfn]
      generalize search' ((P.answered f).fn x d) e current.cost (inner ℝ current.gradient d) = S
      by_cases h4 : S.status = .aborted
      · rw [if_pos h4, if_pos h4]; rfl
      rw [if_neg h4, if_neg h4]
      by_cases h5 : S.status ≠ .success
      · rw [if_pos h5, if_pos h5]; rfl
      rw [if_neg h5, if_neg h5, Prog.run_bind, takePoint_run P]
      cases LineSearch.takePoint (P.answered f) S.optimal with
      | inl s => rfl
      | inr q =>
        obtain ⟨y, c, g⟩ := q
        simp only [Prog.run, lsAccept]
        rfl

theorem lsLoop_eq (search : Search X V) (P : LSParts X V) (o : LSOptions)
    (oracle : ℕ → CallbackResult × Bool) (fuel : ℕ) (x : X) (previous current : LSState V)
    (dir : Direction V) (restarts : ℕ) (records : List (LSRecord X)) (last : LSRecord X) :
    lsLoop search P o oracle fuel x previous current dir restarts records last =
      if (oracle last.iteration).1 = .abort then .ret ⟨x, .userFailure, records ++ [last]⟩
      else if (oracle last.iteration).1 = .terminateSuccessfully then
        .ret ⟨x, .userSuccess, records ++ [last]⟩
      else
        (lsStep search P o (oracle last.iteration).2 x previous current dir restarts last).bind
          fun n =>
            match n with
            | .stop status => .ret ⟨x, status, records ++ [last]⟩
            | .final record status => .ret ⟨record.x, status, records ++ [last] ++ [record]⟩
            | .next previous' current' dir' restarts' record =>
              match fuel with
              | 0 => .ret ⟨record.x, .outOfFuel, records ++ [last] ++ [record]⟩
              | fuel + 1 =>
                lsLoop search P o oracle fuel record.x previous' current' dir' restarts'
                  (records ++ [last]) record := by
  rw [lsLoop.eq_def]
  cases fuel <;> rfl

theorem lsLoop_run {search : Search X V} {search' : LineSearch.Search X V}
    (hs : Computes search search') (P : LSParts X V) (f : X → Bool → LSAnswer V) (o : LSOptions)
    (oracle : ℕ → CallbackResult × Bool) (fuel : ℕ) (x : X) (previous current : LSState V)
    (dir : Direction V) (restarts : ℕ) (records : List (LSRecord X)) (last : LSRecord X) :
    (lsLoop search P o oracle fuel x previous current dir restarts records last).run
        (fun q => f q.point q.jacobians) =
      LineSearch.minimizeLoop search' (P.answered f) o oracle fuel x previous current dir restarts
        records last := by
  induction fuel generalizing x previous current dir restarts records last with
  | _ =>
    rw [lsLoop_eq]
    by_cases h1 : (oracle last.iteration).1 = .abort
    · rw [if_pos h1, LineSearch.minimizeLoop.eq_def]
      simp only [h1, if_true]
      rfl
    by_cases h2 : (oracle last.iteration).1 = .terminateSuccessfully
    · rw [if_neg h1, if_pos h2, LineSearch.minimizeLoop.eq_def]
      simp only [h2, if_true, reduceCtorEq, if_false]
      rfl
    have hc : (oracle last.iteration).1 = .continue := by
      revert h1 h2
      cases (oracle last.iteration).1 <;> simp
    rw [if_neg h1, if_neg h2, Prog.run_bind, lsStep_run hs, Driver.minimizeLoop_step _ _ _ _ _ _ _ _
      _ _ _ _ hc]
    cases Driver.lsStep search' (P.answered f) o (oracle last.iteration).2 x previous current dir
        restarts last with
    | stop s => rfl
    | final r s => rfl
    | next p c d r rec =>
      first
        | rfl
        | (rename_i ih; exact ih _ _ _ _ _ _ _)

/-- With the answers given by a function, the line search minimizer computes what
`LineSearch.minimize` computes. -/
theorem lsMinimize_run {search : Search X V} {search' : LineSearch.Search X V}
    (hs : Computes search search') (P : LSParts X V) (f : X → Bool → LSAnswer V) (o : LSOptions)
    (oracle : ℕ → CallbackResult × Bool) (x : X) :
    (lsMinimize search P o oracle x).run (fun q => f q.point q.jacobians) =
      LineSearch.minimize search' (P.answered f) o oracle x := by
  unfold lsMinimize LineSearch.minimize
  simp only [show (P.answered f).norms = P.norms from rfl,
    show (P.answered f).eval = f from rfl, Prog.run]
  cases hf : f x true with
  | none => rfl
  | some a =>
    obtain ⟨c, g⟩ := a
    cases c with
    | fin c =>
      simp only []
      split
      · rename_i hn; rw [hn]; rfl
      · rename_i sq mx hn
        rw [hn]
        simp only []
        split
        · rfl
        · rw [lsLoop_run hs]
    | pinf => rfl
    | ninf => rfl
    | nan => rfl

/-- Evaluation succeeded. -/
abbrev answered (r : LSAnswer V) : Bool := r.isSome

/-- What the minimizer needs of a search: its questions meet `C`, and if the point it found comes
without a gradient then it is the one last evaluated. -/
def SearchMeets (C : Option X → Call X → Prop) (search : Search X V) : Prop :=
  ∀ (F : Fn (LSAnswer V) ℝ X V), F.Reads answered →
    (∀ l t x g, F.plus t = some x → C l ⟨x, g, true⟩) → ∀ (estimate cost slope : ℝ) (l : Option X),
      Meets answered C l (search F estimate cost slope)
        (fun l T => T.status = .success → T.optimal.vg = none → T.optimal.vx = l ∧ l.isSome)

theorem armijo_searchMeets (C : Option X → Call X → Prop)
    (mp : List (Sample ℝ X V) → ℝ → ℝ → ℝ) (o : Opts ℝ) :
    SearchMeets C (armijo mp o : Search X V) := by
  intro F hF hC estimate cost slope l
  exact (armijo_meets hF hC mp o estimate cost slope l).mono (fun _ _ h => h)
    (fun _ _ h hs _ => h hs)

theorem lsStep_meets {C : Option X → Call X → Prop} {search : Search X V}
    (hs : SearchMeets C search) (P : LSParts X V)
    (hnew : ∀ l x d y g, P.plus x d = some y → C l ⟨y, g, true⟩)
    (hold : ∀ y, C (some y) ⟨y, true, false⟩) (o : LSOptions) (late : Bool) (x : X)
    (previous current : LSState V) (dir : Direction V) (restarts : ℕ) (last : LSRecord X)
    (l : Option X) :
    Meets answered C l (lsStep search P o late x previous current dir restarts last)
      (fun _ _ => True) := by
  unfold lsStep
  by_cases h1 : o.maxNumIterations ≤ last.iteration
  · rw [if_pos h1]; trivial
  rw [if_neg h1]
  by_cases h2 : late = true
  · rw [if_pos h2]; trivial
  rw [if_neg h2]
  cases chooseDirection o (last.iteration + 1) restarts dir previous current with
  | inl s => trivial
  | inr q =>
    obtain ⟨dir', restarts', fresh, d⟩ := q
    simp only
    cases initialStep fresh current.gradientMaxNorm current.cost previous.cost
        (inner ℝ current.gradient d) with
    | none => trivial
    | some e =>
      simp only
      by_cases h3 : e < 0
      · rw [if_pos h3]; trivial
      rw [if_neg h3, meets_bind]
      refine (hs (P.fn x d) ?_ ?_ _ _ _ l).mono (fun _ _ h => h) ?_
      · intro r hr
        simpa [LSParts.fn] using hr
      · intro l t y g hy
        exact hnew _ _ _ _ _ hy
      intro l' S hS
      by_cases h4 : S.status = .aborted
      · rw [if_pos h4]; trivial
      rw [if_neg h4]
      by_cases h5 : S.status ≠ .success
      · rw [if_pos h5]; trivial
      rw [if_neg h5]
      have hS := hS (by simpa using h5)
      rw [meets_bind]
      have htake : Meets answered C l' (takePoint S.optimal) (fun _ _ => True) := by
        unfold takePoint
        cases hvx : S.optimal.vx with
        | none => trivial
        | some y =>
          cases hvg : S.optimal.vg with
          | some g => trivial
          | none =>
            refine ⟨?_, fun r => ?_⟩
            · have := (hS hvg).1
              rw [hvx] at this
              rw [← this]
              exact hold y
            · cases r with
              | none => trivial
              | some a =>
                obtain ⟨c, g⟩ := a
                cases c <;> trivial
      exact htake.mono (fun _ _ h => h) (fun _ _ _ => trivial)

theorem lsLoop_meets {C : Option X → Call X → Prop} {search : Search X V}
    (hs : SearchMeets C search) (P : LSParts X V)
    (hnew : ∀ l x d y g, P.plus x d = some y → C l ⟨y, g, true⟩)
    (hold : ∀ y, C (some y) ⟨y, true, false⟩) (o : LSOptions)
    (oracle : ℕ → CallbackResult × Bool) (fuel : ℕ) (x : X) (previous current : LSState V)
    (dir : Direction V) (restarts : ℕ) (records : List (LSRecord X)) (last : LSRecord X)
    (l : Option X) :
    Meets answered C l
      (lsLoop search P o oracle fuel x previous current dir restarts records last)
      (fun _ _ => True) := by
  induction fuel generalizing x previous current dir restarts records last l with
  | _ =>
    rw [lsLoop_eq]
    by_cases h1 : (oracle last.iteration).1 = .abort
    · rw [if_pos h1]; trivial
    by_cases h2 : (oracle last.iteration).1 = .terminateSuccessfully
    · rw [if_neg h1, if_pos h2]; trivial
    rw [if_neg h1, if_neg h2, meets_bind]
    refine (lsStep_meets hs P hnew hold _ _ _ _ _ _ _ _ l).mono (fun _ _ h => h) ?_
    intro l' n _
    cases n with
    | stop s => trivial
    | final r s => trivial
    | next p c d r rec =>
      first
        | trivial
        | (rename_i ih _; exact ih _ _ _ _ _ _ _ _)

theorem lsMinimize_meets {C : Option X → Call X → Prop} {search : Search X V}
    (hs : SearchMeets C search) (P : LSParts X V)
    (hnew : ∀ l x d y g, P.plus x d = some y → C l ⟨y, g, true⟩)
    (hold : ∀ y, C (some y) ⟨y, true, false⟩) (o : LSOptions)
    (oracle : ℕ → CallbackResult × Bool) (x : X) (l : Option X) (hx : C l ⟨x, true, true⟩) :
    Meets answered C l (lsMinimize search P o oracle x) (fun _ _ => True) := by
  unfold lsMinimize
  refine ⟨hx, fun r => ?_⟩
  cases r with
  | none => trivial
  | some a =>
    obtain ⟨c, g⟩ := a
    cases c with
    | fin c =>
      simp only []
      cases P.norms x g with
      | none => trivial
      | some q =>
        obtain ⟨sq, mx⟩ := q
        simp only []
        by_cases h : mx ≤ o.gradientTolerance
        · rw [if_pos h (α := Prog _ _ _)]; trivial
        · rw [if_neg h (α := Prog _ _ _)]
          exact lsLoop_meets hs P hnew hold _ _ _ _ _ _ _ _ _ _ _
    | pinf => trivial
    | ninf => trivial
    | nan => trivial

end Ceres.EvalCallback
