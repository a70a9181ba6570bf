import Verif.EvalCallback.LineMin

/-!
# The line search minimizer with a Wolfe search

A Wolfe search may return its starting point, which is not the point last evaluated.
-/
namespace Ceres.EvalCallback

open LineSearch (Ext Sample Interp Opts Summary stepSize Bracket Zoom)

variable {R K X V : Type} [Field K] [LinearOrder K]

/-- A valid sample that comes without a gradient is the starting point. -/
def Fine (p : X) (s : Sample K X V) : Prop :=
  s.valueValid = true ∧ (s.vg = none → s.vx = some p)

omit [LinearOrder K] in
theorem fine_initial (p : X) (cost slope : K) :
    Fine p (Sample.initial p cost slope : Sample K X V) := ⟨rfl, fun _ => rfl⟩

omit [LinearOrder K] in
/-- An evaluation with gradient whose slope is finite. -/
theorem evaluate_fine {ok : R → Bool} {F : Fn R K X V} (hfin : ∀ v, (F.slope v).finite = true)
    {C : Option X → Call X → Prop} {t : K}
    (hC : ∀ l x, F.plus t = some x → C l ⟨x, true, true⟩) (last : Option X) :
    Meets ok C last (F.evaluate t true)
      (fun _ s => s.valueValid = true → Fine F.position s ∧ s.gradValid = true) := by
  unfold Fn.evaluate
  cases hp : F.plus t with
  | none =>
    intro h
    simp [Sample.empty] at h
  | some x =>
    refine ⟨hC _ _ hp, fun r => ?_⟩
    intro h
    refine ⟨⟨h, ?_⟩, ?_⟩
    · revert h
      unfold Fn.sample
      split
      · simp [hfin]
      · simp
    · revert h
      unfold Fn.sample
      split
      · simp [hfin]
      · simp

theorem bracketLoop_fine {ok : R → Bool} {F : Fn R K X V} (hfin : ∀ v, (F.slope v).finite = true)
    {C : Option X → Call X → Prop} (hC : ∀ l t x, F.plus t = some x → C l ⟨x, true, true⟩)
    (mp : List (Sample K X V) → K → K → K) (o : Opts K) (cost slope : K) (fuel : ℕ)
    (previous current : Sample K X V) (evals iters : ℕ) (trace : List (Sample K X V))
    (last : Option X) (hprev : Fine F.position previous)
    (hcur : current.valueValid = true → Fine F.position current ∧ current.gradValid = true) :
    Meets ok C last (bracketLoop mp o F cost slope fuel previous current evals iters trace)
      (fun _ B => B.status = .success → Fine F.position B.low) := by
  induction fuel generalizing previous current evals iters trace last with
  | _ =>
    rw [bracketLoop]
    split
    · exact fun _ => hprev
    split
    · rename_i h; exact fun _ => (hcur (by simp at h; exact h.1)).1
    split
    · rename_i h; exact fun _ => (hcur (by simp at h; exact h.1)).1
    split
    · rename_i h; exact fun _ => (hcur (by simp at h; exact h.1)).1
    split
    · intro _
      unfold bracketEnd
      simp only
      split
      · rename_i h; exact (hcur (by simp at h; exact h.1)).1
      · exact fine_initial _ _ _
    split
    · intro h; simp at h
    split
    · intro h; simp at h
    first
      | (intro h; simp at h; done)
      | (rename_i ih _ _ _ _ _ _ _ _ _
         rw [meets_bind]
         refine (evaluate_fine hfin (fun l x h => hC l _ x h) last).mono (fun _ _ h => h) ?_
         intro l s hs
         refine ih _ _ _ _ _ _ ?_ hs
         split
         · rename_i h; exact (hcur h).1
         · exact hprev)

theorem zoomLoop_fine {ok : R → Bool} {F : Fn R K X V} (hfin : ∀ v, (F.slope v).finite = true)
    {C : Option X → Call X → Prop} (hC : ∀ l t x, F.plus t = some x → C l ⟨x, true, true⟩)
    (mp : List (Sample K X V) → K → K → K) (o : Opts K) (cost slope : K) (fuel : ℕ)
    (low high : Sample K X V) (evals iters : ℕ) (trace : List (Sample K X V))
    (last : Option X) (hlow : Fine F.position low) :
    Meets ok C last (zoomLoop mp o F cost slope fuel low high evals iters trace)
      (fun _ Z => Z.solution.valueValid = true → Fine F.position Z.solution) := by
  induction fuel generalizing low high evals iters trace last with
  | _ =>
    rw [zoomLoop]
    split
    · exact fun _ => hlow
    split
    · exact fun _ => hlow
    split
    · exact fun _ => hlow
    rw [meets_bind]
    refine (evaluate_fine hfin (fun l x h => hC l _ x h) last).mono (fun _ _ h => h) ?_
    intro l s hs
    split
    · exact fun h => (hs h).1
    rename_i hv
    have hv : s.valueValid = true := by
      simp at hv; exact hv.1
    first
      | exact fun _ => hlow
      | (simp only
         split
         · rename_i ih _ _ _ _ _ _ _; exact ih _ _ _ _ _ _ hlow
         split
         · exact fun h => (hs h).1
         · rename_i ih _ _ _ _ _ _ _ _; exact ih _ _ _ _ _ _ (hs hv).1)

/-- Whatever the answers are, as long as slopes are finite: a Wolfe search asks only about new
points, and if it succeeds then the point it found comes with its gradient or is the starting
point. -/
theorem wolfe_fine {ok : R → Bool} {F : Fn R K X V} (hfin : ∀ v, (F.slope v).finite = true)
    {C : Option X → Call X → Prop} (hC : ∀ l t x, F.plus t = some x → C l ⟨x, true, true⟩)
    (mp : List (Sample K X V) → K → K → K) (o : Opts K) (estimate cost slope : K)
    (last : Option X) :
    Meets ok C last (wolfe mp o F estimate cost slope)
      (fun _ T => T.status = .success → T.optimal.vg = none → T.optimal.vx = some F.position) := by
  unfold wolfe
  split
  · rw [meets_bind]
    have hb : Meets ok C last (bracketing mp o F estimate cost slope)
        (fun _ B => B.status = .success → Fine F.position B.low) := by
      unfold bracketing
      rw [meets_bind]
      refine (evaluate_fine hfin (fun l x h => hC l _ x h) last).mono (fun _ _ h => h) ?_
      intro l s hs
      exact bracketLoop_fine hfin hC _ _ _ _ _ _ _ _ _ _ _ (fine_initial _ _ _) hs
    refine hb.mono (fun _ _ h => h) ?_
    intro l B hB
    unfold wolfeFinish
    split
    · rename_i h; exact fun h' => absurd h' h
    rename_i hst
    have hB := hB (by simpa using hst)
    split
    · exact fun _ => hB.2
    rw [meets_bind]
    have hz : Meets ok C l (zoomPhase mp o F cost slope B.low B.high B.numEvaluations
        B.numIterations B.trace)
        (fun _ Z => Z.solution.valueValid = true → Fine F.position Z.solution) := by
      unfold zoomPhase
      split
      · intro h; simp [Sample.empty] at h
      split
      · intro h; simp [Sample.empty] at h
      split
      · intro h; simp [Sample.empty] at h
      exact zoomLoop_fine hfin hC _ _ _ _ _ _ _ _ _ _ _ hB
    refine hz.mono (fun _ _ h => h) ?_
    intro l' Z hZ
    show (afterZoom B Z).status = .success → _
    unfold afterZoom
    split
    · intro h; simp at h
    split
    · rename_i h; exact fun h' => absurd h' h.1
    · intro _
      simp only
      split
      · exact hB.2
      · rename_i h
        push Not at h
        exact (hZ (by simpa using h.1)).2
  · intro h
    simp [Summary.abort] at h

/-! ### The minimizer -/

section Minimizer

open LineSearch (LSOptions LSStatus LSRecord LSResult LSState Direction CallbackResult
  chooseDirection initialStep)

variable {Y : Type} {U A B : Type}

theorem Prog.bind_assoc {Q Y A B D : Type} (p : Prog Q Y A) (k : A → Prog Q Y B)
    (m : B → Prog Q Y D) : (p.bind k).bind m = p.bind fun a => (k a).bind m := by
  induction p with
  | ret a => rfl
  | ask q c ih =>
    show Prog.ask q _ = Prog.ask q _
    exact congrArg _ (funext fun r => ih r)

/-- All questions are truthful, except perhaps one after which the program ends at once, with an
outcome that meets `E` whatever the answer is. -/
def TruthfulToEnd (ok : Y → Bool) (E : X → A → Prop) : Option X → Prog (Call X) Y A → Prop
  | _, .ret _ => True
  | last, .ask q k =>
    (Truthful last q ∧
      ∀ r, TruthfulToEnd ok E (if ok r then some q.point else none) (k r)) ∨
    ∀ r, ∃ a, k r = .ret a ∧ E q.point a

omit [Field K] [LinearOrder K] in
theorem TruthfulToEnd.of_bind {ok : Y → Bool} {E : X → B → Prop} {last : Option X}
    {p : Prog (Call X) Y A} {k : A → Prog (Call X) Y B} {Post : Option X → A → Prop}
    (hp : Meets ok Truthful last p Post)
    (hk : ∀ l a, Post l a → TruthfulToEnd ok E l (k a)) :
    TruthfulToEnd ok E last (p.bind k) := by
  induction p generalizing last with
  | ret a => exact hk _ _ hp
  | ask q c ih => exact Or.inl ⟨hp.1, fun r => ih r (hp.2 r)⟩

/-- With user code that relies on the contract, such a program comes to the same end as without
shared data, or both ends meet `E` for some point. -/
theorem exec_honours_toEnd {ok : Y → Bool} {c : UserCode U X Y} {f : X → Bool → Y}
    {Ready : U → X → Bool → Prop} (hc : Honours c f Ready) (hfail : ok c.failed = false)
    {E : X → A → Prop} {p : Prog (Call X) Y A} {last : Option X}
    (hp : TruthfulToEnd ok E last p) (w : World U X)
    (hlast : ∀ x, last = some x → ∃ j, Ready w.user x j) :
    (exec c true p w).2 = (p.run fun q => f q.point q.jacobians) ∨
      ∃ x, E x (exec c true p w).2 ∧ E x (p.run fun q => f q.point q.jacobians) := by
  induction p generalizing last w with
  | ret a => exact Or.inl rfl
  | ask q k ih =>
    rw [exec, Prog.run]
    rcases hp with ⟨hq, hk⟩ | hend
    · by_cases hs : c.stateOk q.point = false
      · have he : evaluate c true w q = (w, c.failed) := by rw [evaluate, if_pos hs]
        rw [he, hc.failed _ _ hs]
        refine ih _ (hk _) w ?_
        intro x hx
        rw [hfail] at hx
        simp at hx
      · have he : evaluate c true w q =
            (⟨q.point, c.prepare q.point q.jacobians q.isNew w.user,
              w.events ++ [.prepare q.point q.jacobians q.isNew] ++
                [.residuals q.point q.jacobians]⟩,
              c.residuals (c.prepare q.point q.jacobians q.isNew w.user) q.point q.jacobians) := by
          rw [evaluate, if_neg hs]; rfl
        have hr : Ready (c.prepare q.point q.jacobians q.isNew w.user) q.point q.jacobians := by
          cases hb : q.isNew with
          | true => exact hc.fresh _ _ _
          | false =>
            obtain ⟨j, hj⟩ := hlast _ (hq hb)
            exact hc.again _ _ _ _ hj
        rw [he, hc.answer _ _ _ (by simpa using hs) hr]
        refine ih _ (hk _) _ ?_
        intro x hx
        split at hx
        · cases hx; exact ⟨_, hr⟩
        · simp at hx
    · right
      obtain ⟨a, ha, hEa⟩ := hend (evaluate c true w q).2
      obtain ⟨b, hb, hEb⟩ := hend (f q.point q.jacobians)
      exact ⟨q.point, by rw [ha]; exact hEa, by rw [hb]; exact hEb⟩

variable [NormedAddCommGroup V] [InnerProductSpace ℝ V]

/-- A search that returns its starting point or a point with gradient. -/
def SearchFine (search : Search X V) : Prop :=
  ∀ (F : Fn (LSAnswer V) ℝ X V), (∀ v, (F.slope v).finite = true) →
    ∀ (estimate cost slope : ℝ) (l : Option X),
      Meets answered Truthful l (search F estimate cost slope)
        (fun _ T => T.status = .success → T.optimal.vg = none → T.optimal.vx = some F.position)

theorem wolfe_searchFine (mp : List (Sample ℝ X V) → ℝ → ℝ → ℝ) (o : Opts ℝ) :
    SearchFine (wolfe mp o : Search X V) := by
  intro F hF estimate cost slope l
  exact wolfe_fine hF (by intro l t x _ h; simp at h) mp o estimate cost slope l

/-- The program of an iteration and what follows it. -/
theorem lsLoop_toEnd {search : Search X V} (hs : SearchFine search) (P : LSParts X V)
    (hdist : ∀ x, P.dist x x = 0) (hnorm : ∀ x, 0 ≤ P.norm x) (o : LSOptions)
    (hpar : 0 ≤ o.parameterTolerance)
    (oracle : ℕ → CallbackResult × Bool) (fuel : ℕ) (x : X) (previous current : LSState V)
    (dir : Direction V) (restarts : ℕ) (records : List (LSRecord X)) (last : LSRecord X)
    (l : Option X) :
    TruthfulToEnd answered (fun y (a : LSResult X) => a.x = y) l
      (lsLoop search P o oracle fuel x previous current dir restarts records last) := by
  induction fuel generalizing x previous current dir restarts records last l with
  | _ =>
    rw [lsLoop_eq]
    by_cases h1 : (oracle last.iteration).1 = .abort
    · rw [if_pos h1]; trivial
    by_cases h2 : (oracle last.iteration).1 = .terminateSuccessfully
    · rw [if_neg h1, if_pos h2]; trivial
    rw [if_neg h1, if_neg h2]
    unfold lsStep
    by_cases h1 : o.maxNumIterations ≤ last.iteration
    · rw [if_pos h1]; trivial
    rw [if_neg h1]
    by_cases h2 : (oracle last.iteration).2 = true
    · rw [if_pos h2]; trivial
    rw [if_neg h2]
    cases chooseDirection o (last.iteration + 1) restarts dir previous current with
    | inl s => trivial
    | inr q =>
      obtain ⟨dir', restarts', fresh, d⟩ := q
      simp only
      cases initialStep fresh current.gradientMaxNorm current.cost previous.cost
          (inner ℝ current.gradient d) with
      | none => trivial
      | some e =>
        simp only
        by_cases h3 : e < 0
        · rw [if_pos h3]; trivial
        rw [if_neg h3]
        rw [Prog.bind_assoc]
        refine TruthfulToEnd.of_bind (hs (P.fn x d) (fun v => rfl) _ _ _ l) ?_
        intro l' S hS
        by_cases h4 : S.status = .aborted
        · rw [if_pos h4]; trivial
        rw [if_neg h4]
        by_cases h5 : S.status ≠ .success
        · rw [if_pos h5]; trivial
        rw [if_neg h5]
        have hS := hS (by simpa using h5)
        unfold takePoint
        cases hvx : S.optimal.vx with
        | none => trivial
        | some y =>
          cases hvg : S.optimal.vg with
          | some g =>
            simp only [Prog.bind]
            generalize lsAccept P o x current dir' restarts' d e last S.optimal.x _ = n
            cases n with
            | stop s => trivial
            | final r s => trivial
            | next p c d r rec =>
              first
                | trivial
                | (rename_i ih _ _ _ _; exact ih _ _ _ _ _ _ _ _)
          | none =>
            have hy : y = x := by
              have := hS hvg
              rw [hvx] at this
              exact Option.some.inj this
            subst hy
            right
            intro r
            cases r with
            | none => exact ⟨_, rfl, rfl⟩
            | some a =>
              obtain ⟨c, g⟩ := a
              cases c with
              | fin c =>
                simp only [Prog.bind, lsAccept]
                cases P.norms y g with
                | none => exact ⟨_, rfl, rfl⟩
                | some q =>
                  obtain ⟨sq, mx⟩ := q
                  have hd : P.dist y y ≤ o.parameterTolerance * (P.norm y + o.parameterTolerance) := by
                    rw [hdist]
                    exact mul_nonneg hpar (add_nonneg (hnorm y) hpar)
                  simp only []
                  rw [if_pos hd]
                  exact ⟨_, rfl, rfl⟩
              | pinf => exact ⟨_, rfl, rfl⟩
              | ninf => exact ⟨_, rfl, rfl⟩
              | nan => exact ⟨_, rfl, rfl⟩

theorem lsMinimize_toEnd {search : Search X V} (hs : SearchFine search) (P : LSParts X V)
    (hdist : ∀ x, P.dist x x = 0) (hnorm : ∀ x, 0 ≤ P.norm x) (o : LSOptions)
    (hpar : 0 ≤ o.parameterTolerance) (oracle : ℕ → CallbackResult × Bool) (x : X)
    (l : Option X) :
    TruthfulToEnd answered (fun y (a : LSResult X) => a.x = y) l
      (lsMinimize search P o oracle x) := by
  unfold lsMinimize
  refine Or.inl ⟨by intro h; simp at h, fun r => ?_⟩
  cases r with
  | none => trivial
  | some a =>
    obtain ⟨c, g⟩ := a
    cases c with
    | fin c =>
      simp only []
      cases P.norms x g with
      | none => trivial
      | some q =>
        obtain ⟨sq, mx⟩ := q
        simp only []
        by_cases h : mx ≤ o.gradientTolerance
        · rw [if_pos h (α := Prog _ _ _)]; trivial
        · rw [if_neg h (α := Prog _ _ _)]
          exact lsLoop_toEnd hs P hdist hnorm _ hpar _ _ _ _ _ _ _ _ _ _
    | pinf => trivial
    | ninf => trivial
    | nan => trivial

end Minimizer

end Ceres.EvalCallback
