import Verif.Driver.Solve
import Verif.TrustRegion.Descent

/-!
# The trust region minimizer inside `Solve` (C53, C54)

`trRun` is the model of `TrustRegionMinimizer` (`TrustRegion.Model`) as a minimizer that talks to
callbacks; `exec_trRun` shows that it is the same loop.
-/
namespace Ceres.Driver

open Ceres.TrustRegion (CB Term Opts Iter Strategy St Outcome recordStep pushIter checkContinue body
  iterationZero enter HeadInv LogInv DescInv Consistent InnerDescends finalize)
open Ceres.Program (Prog Reduced removeFixedBlocks totalCost Used removeFixedBlocks_preserves)

variable {V K A S X D : Type} [Field K] [LinearOrder K]

/-- The environment of the minimizer without callbacks. -/
def quiet (env : TrustRegion.Env X D K) : TrustRegion.Env X D K :=
  { env with callback := fun _ => .continue }

/-- The minimizer's own verdicts; the others cannot come from the minimizer itself. -/
def ownOf : Term → Own
  | .convergence => .convergence
  | .noConvergence => .noConvergence
  | .failure => .failure
  | .userSuccess => .crash
  | .userFailure => .crash

/-- The loop of the trust region minimizer (trust_region_minimizer.cc:86-136).  At every report the
parameter array holds `params` (lines 321, 825-829); `enc` lists the values of the blocks of a
point. -/
def trRun (enc : X → List V) (o : Opts K) (env : TrustRegion.Env X D K)
    (strategy : Strategy S X D K) : Nat → St S X D K → Run V (Iter X K) K A
  | 0, s => .done (enc s.params) .crash
  | fuel + 1, s =>
    let t := pushIter (recordStep strategy s)
    .report (enc t.params) t.cur (fun _ =>
      if (checkContinue o (quiet env) t).2 then
        match body o env strategy t with
        | .cont s' => trRun enc o env strategy fuel s'
        | .stop s' => .done (enc s'.params) (ownOf s'.term)
        | .abort => .done (enc t.params) .crash
      else .done (enc t.params) (ownOf (checkContinue o (quiet env) t).1.term))

/-- `TrustRegionMinimizer::Minimize` (trust_region_minimizer.cc:68-137). -/
def trMinimizer (enc : X → List V) (o : Opts K) (env : TrustRegion.Env X D K)
    (strategy : Strategy S X D K) (s0 : S) (x0 : X) : Run V (Iter X K) K A :=
  let z := iterationZero o env (TrustRegion.init o env s0 x0)
  if z.2 then .initial z.1.initialCost (trRun enc o env strategy (o.maxIter + 1) (enter o env s0 x0))
  else .done (enc z.1.params) (ownOf z.1.term)

/-! ### It is the same loop -/

/-- Callbacks that do nothing but give the answers of `TrustRegion.Env.callback`, remembering the
iterations in `aux`. -/
def Faithful (env : TrustRegion.Env X D K)
    (cbs : List (Callback V (Iter X K) (List (Iter X K)))) : Prop :=
  ∀ p it w, (runCallbacks p it cbs w).2.1 = env.callback (w.aux ++ [it]) ∧
    (runCallbacks p it cbs w).1.aux = w.aux ++ [it]

theorem body_quiet_stop {o : Opts K} {env : TrustRegion.Env X D K} {strategy : Strategy S X D K}
    {s s' : St S X D K} {x0 : X} (hinv : s.numInvalid = TrustRegion.trailingInvalid s.iters)
    (h : body o env strategy s = .stop s') :
    (ownOf s'.term).term = some s'.term ∧ s'.iters = s.iters ∧ s'.params = s.params ∧
      s'.initialCost = s.initialCost := by
  have hq : body o (quiet env) strategy s = .stop s' := h
  obtain ⟨h1, h2⟩ := TrustRegion.body_stop (x0 := x0) hinv hq
  refine ⟨?_, h1.iters, h1.params, h1.initialCost⟩
  have hj := h2
  unfold TrustRegion.Justified at hj
  cases ht : s'.term <;> rw [ht] at hj <;> first | rfl | (simp [quiet] at hj)

/-- The trust region loop as a minimizer with callbacks is the loop of `TrustRegion.Model`. -/
theorem exec_trRun (enc : X → List V) (o : Opts K) (env : TrustRegion.Env X D K)
    (strategy : Strategy S X D K) (cbs : List (Callback V (Iter X K) (List (Iter X K))))
    (hf : Faithful env cbs) (x0 : X) (fuel : Nat) (s : St S X D K) (hs : HeadInv o env x0 s)
    (k : K) (w : World V (List (Iter X K))) (hw : w.aux = s.iters) :
    match TrustRegion.loop o env strategy fuel s with
    | .done s' =>
      (exec cbs (trRun enc o env strategy fuel s) k w).params = enc s'.params ∧
      (exec cbs (trRun enc o env strategy fuel s) k w).term = some s'.term ∧
      s.iters ++ (exec cbs (trRun enc o env strategy fuel s) k w).iters = s'.iters
    | _ => (exec cbs (trRun enc o env strategy fuel s) k w).term = none := by
  induction fuel generalizing s w with
  | zero => rfl
  | succ fuel ih =>
    have hpush := TrustRegion.recordStep_push strategy hs
    obtain ⟨p1, p2, p3, p4, p5, p6, p7, p8, p9, p10, p11, p12, p13, p14, p15, p16, p17⟩ := hpush
    have haux : w.aux ++ [(pushIter (recordStep strategy s)).cur] =
        (pushIter (recordStep strategy s)).iters := by rw [hw, p11]
    obtain ⟨f1, f2⟩ := hf (enc (pushIter (recordStep strategy s)).params)
      (pushIter (recordStep strategy s)).cur w
    rw [haux] at f1 f2
    unfold TrustRegion.loop trRun
    simp only
    unfold exec finalize
    cases hcb : env.callback (pushIter (recordStep strategy s)).iters with
    | terminateSuccessfully =>
      have hc : checkContinue o env (pushIter (recordStep strategy s)) =
          ({ pushIter (recordStep strategy s) with term := .userSuccess }, false) := by
        unfold checkContinue; rw [hcb]
      rw [f1, hcb, hc]
      exact ⟨rfl, rfl, p11.symm⟩
    | abort =>
      have hc : checkContinue o env (pushIter (recordStep strategy s)) =
          ({ pushIter (recordStep strategy s) with term := .userFailure }, false) := by
        unfold checkContinue; rw [hcb]
      rw [f1, hcb, hc]
      exact ⟨rfl, rfl, p11.symm⟩
    | «continue» =>
      have hc : checkContinue o env (pushIter (recordStep strategy s)) =
          checkContinue o (quiet env) (pushIter (recordStep strategy s)) := by
        unfold checkContinue; rw [hcb]; rfl
      have ck := TrustRegion.checkContinue_spec (o := o) (env := quiet env) (strategy := strategy)
        (x0 := x0) _ p2
      rw [f1, hcb, hc]
      simp only
      by_cases h2 : (checkContinue o (quiet env) (pushIter (recordStep strategy s))).2 = true
      · rw [if_pos h2, if_pos h2, (ck.1 h2).1]
        cases hb : body o env strategy (pushIter (recordStep strategy s)) with
        | abort => rfl
        | stop s' =>
          obtain ⟨b1, b2, b3, b4⟩ := body_quiet_stop (x0 := x0) p16 hb
          simp only [exec]
          exact ⟨trivial, b1, by rw [b2, p11]⟩
        | cont s' =>
          have hfin : (finalize o (quiet env) strategy s).2 = true := h2
          have hfe : (finalize o (quiet env) strategy s).1 = pushIter (recordStep strategy s) :=
            (ck.1 h2).1
          have hh := TrustRegion.loop_head (o := o) (env := quiet env) (x0 := x0)
            ⟨⟨hs.num, hs.nsucc, hs.nunsucc, hs.costs, hs.best, hs.wit, hs.first, hs.runs⟩, hs.iter,
              hs.le, hs.cost, hs.cur, hs.zero, hs.inv, hs.invLt⟩ hfin (by rw [hfe]; exact hb)
          have hh' : HeadInv o env x0 s' :=
            ⟨⟨hh.1.num, hh.1.nsucc, hh.1.nunsucc, hh.1.costs, hh.1.best, hh.1.wit, hh.1.first,
              hh.1.runs⟩, hh.1.iter, hh.1.le, hh.1.cost, hh.1.cur, hh.1.zero, hh.1.inv, hh.1.invLt⟩
          have hit : s'.iters = (pushIter (recordStep strategy s)).iters :=
            (TrustRegion.body_cont hb).log.iters
          have := ih s' hh' (runCallbacks (enc (pushIter (recordStep strategy s)).params)
            (pushIter (recordStep strategy s)).cur cbs w).1 (by rw [f2, hit])
          simp only
          split at this
          · next s'' heq =>
            refine ⟨this.1, this.2.1, ?_⟩
            rw [← this.2.2, hit, p11]
            simp
          · exact this
      · rw [if_neg h2, if_neg h2]
        simp only
        obtain ⟨c1, c2⟩ := ck.2 (by simpa using h2)
        simp only [exec]
        refine ⟨by rw [c1.params], ?_, by rw [c1.iters, p11]⟩
        unfold TrustRegion.Justified at c2
        cases ht : (checkContinue o (quiet env) (pushIter (recordStep strategy s))).1.term <;>
          rw [ht] at c2 <;> first | rfl | (simp [quiet] at c2)

/-! ### What is in the parameter array -/

variable [IsStrictOrderedRing K]

/-- Specification: `p` is the point of an accepted iteration of `l`, and no accepted iteration of
`l` has a lower cost; `k` is the cost of the first iteration, which counts as accepted. -/
def BestOf (enc : X → List V) (k : K) (l : List (Iter X K)) (p : List V) : Prop :=
  (∃ b ∈ l, b.stepSuccessful = true ∧ p = enc b.point ∧
    ∀ d ∈ l, d.stepSuccessful = true → b.cost ≤ d.cost) ∧
  ∀ b, l.head? = some b → b.stepSuccessful = true ∧ b.cost = k

/-- Specification: the accepted iterations of `l` record the cost of their point, including the
fixed cost. -/
def CostsOf (o : Opts K) (env : TrustRegion.Env X D K) (l : List (Iter X K)) : Prop :=
  ∀ b ∈ l, b.stepSuccessful = true → ∃ c, env.jac b.point = some c ∧ b.cost = c + o.fixedCost

theorem logInv_best {enc : X → List V} {o : Opts K} {env : TrustRegion.Env X D K} {x0 : X}
    (hbig : ∀ x c, env.jac x = some c → c < o.big) {t : St S X D K} (h : LogInv o env x0 t)
    (hne : t.iters ≠ []) : BestOf enc t.initialCost t.iters (enc t.params) := by
  refine ⟨?_, h.first⟩
  rcases h.wit with ⟨-, hw⟩ | ⟨it, hit, hsi, hpt, hj⟩
  · exfalso
    obtain ⟨a, l, hal⟩ := List.exists_cons_of_ne_nil hne
    have h1 := (h.first a (by rw [hal]; rfl)).1
    obtain ⟨c, hc, hle⟩ := h.best a (by rw [hal]; exact List.mem_cons_self ..) h1
    rw [hw] at hle
    exact absurd (hbig _ _ hc) (not_lt.2 hle)
  · refine ⟨it, hit, hsi, by rw [hpt], ?_⟩
    intro d hd hds
    obtain ⟨c, h1, h2, -⟩ := h.costs it hit hsi
    rw [hpt, hj, Option.some.injEq] at h1
    obtain ⟨c', h3, h4, -⟩ := h.costs d hd hds
    obtain ⟨c'', h5, h6⟩ := h.best d hd hds
    rw [h3, Option.some.injEq] at h5
    rw [h2, h4, ← h1, h5]
    linarith

theorem trRun_along (enc : X → List V) (o : Opts K) (env : TrustRegion.Env X D K)
    (strategy : Strategy S X D K) (x0 : X) (hbig : ∀ x c, env.jac x = some c → c < o.big)
    (fuel : Nat) (s : St S X D K) (hs : HeadInv o (quiet env) x0 s)
    (hfuel : o.maxIter + 1 ≤ fuel + s.iters.length) :
    (trRun enc o env strategy fuel s : Run V (Iter X K) K A).Along
      (fun k h p it => BestOf enc k (h ++ [it]) p ∧ CostsOf o env (h ++ [it]))
      (fun k h p _ => BestOf enc k h p ∧ CostsOf o env h) s.initialCost s.iters := by
  induction fuel generalizing s with
  | zero => exact absurd hs.le (by omega)
  | succ fuel ih =>
    obtain ⟨p1, p2, p3, p4, p5, p6, p7, p8, p9, p10, p11, p12, p13, p14, p15, p16, p17⟩ :=
      TrustRegion.recordStep_push strategy hs
    have hne : (pushIter (recordStep strategy s)).iters ≠ [] := by rw [p11]; simp
    have hgood : BestOf enc s.initialCost (s.iters ++ [(pushIter (recordStep strategy s)).cur])
        (enc (pushIter (recordStep strategy s)).params) ∧
        CostsOf o env (s.iters ++ [(pushIter (recordStep strategy s)).cur]) := by
      rw [← p11, ← p17]
      refine ⟨logInv_best (env := quiet env) hbig p1 hne, ?_⟩
      intro b hb hbs
      obtain ⟨c, h1, h2, -⟩ := p1.costs b hb hbs
      exact ⟨c, h1, h2⟩
    unfold trRun
    refine .report _ _ _ _ _ hgood ?_
    intro a
    have ck := TrustRegion.checkContinue_spec (o := o) (env := quiet env) (strategy := strategy)
      (x0 := x0) _ p2
    split
    · next h2 =>
      cases hb : body o env strategy (pushIter (recordStep strategy s)) with
      | abort => exact .done _ _ _ _ hgood
      | stop s' =>
        obtain ⟨b1, b2, b3, b4⟩ := body_quiet_stop (x0 := x0) p16 hb
        exact .done _ _ _ _ (by rw [b3]; exact hgood)
      | cont s' =>
        have hfin : (finalize o (quiet env) strategy s).2 = true := h2
        have hfe : (finalize o (quiet env) strategy s).1 = pushIter (recordStep strategy s) :=
          (ck.1 h2).1
        have hh := TrustRegion.loop_head hs hfin (by rw [hfe]; exact hb)
        have hl := (TrustRegion.body_cont hb).log
        have := ih s' hh.1 (by rw [hh.2]; omega)
        rw [hl.iters, p11, hl.initialCost, p17] at this
        exact this
    · exact .done _ _ _ _ hgood

/-- In monotone mode the array holds the current point at every report. -/
theorem trRun_current (enc : X → List V) (o : Opts K) (env : TrustRegion.Env X D K)
    (strategy : Strategy S X D K) (x0 : X) (hbig : ∀ x c, env.jac x = some c → c < o.big)
    (hcons : Consistent env) (hlow : o.lowest ≤ 0) (hq : 0 ≤ o.minRelDecrease)
    (hinner : InnerDescends env) (hm : o.nonmono = false)
    (fuel : Nat) (s : St S X D K) (hs : DescInv o (quiet env) x0 s)
    (hx : s.cur.stepSuccessful = false → s.params = s.x) :
    (trRun enc o env strategy fuel s : Run V (Iter X K) K A).Along
      (fun _ _ p it => p = enc it.point) (fun _ _ _ _ => True) s.initialCost s.iters := by
  induction fuel generalizing s with
  | zero => exact .done _ _ _ _ trivial
  | succ fuel ih =>
    obtain ⟨p1, p2, p3, p4, p5, p6, p7, p8, p9, p10, p11, p12, p13, p14, p15, p16, p17⟩ :=
      TrustRegion.recordStep_push strategy hs.toHeadInv
    have hcur : (pushIter (recordStep strategy s)).params = s.x := by
      unfold pushIter recordStep
      by_cases hsucc : s.cur.stepSuccessful = true
      · rw [if_pos hsucc]
        have hlt : s.xCost < s.minCost := by
          rcases hs.wit with ⟨-, hw⟩ | ⟨it, hit, hsi, hpt, hj⟩
          · rw [hw]; exact hbig _ _ hs.cost
          · obtain ⟨c, h1, h2, -⟩ := hs.costs it hit hsi
            have h3 := ((hs.mono hm).2.2 it hit hsi).2 hsucc
            rw [hpt, hj, Option.some.injEq] at h1
            rw [h2, ← h1] at h3
            linarith
        rw [if_pos hlt]
      · rw [if_neg hsucc]
        exact hx (by simpa using hsucc)
    unfold trRun
    refine .report _ _ _ _ _ (by rw [hcur, p14]) ?_
    intro a
    have ck := TrustRegion.checkContinue_spec (o := o) (env := quiet env) (strategy := strategy)
      (x0 := x0) _ p2
    split
    · next h2 =>
      cases hb : body o env strategy (pushIter (recordStep strategy s)) with
      | abort => exact .done _ _ _ _ trivial
      | stop s' => exact .done _ _ _ _ trivial
      | cont s' =>
        have hfin : (finalize o (quiet env) strategy s).2 = true := h2
        have hfe : (finalize o (quiet env) strategy s).1 = pushIter (recordStep strategy s) :=
          (ck.1 h2).1
        have hh := TrustRegion.descInv_step (env := quiet env) hcons hlow hq hinner hs hfin
          (by rw [hfe]; exact hb)
        have hB := TrustRegion.body_cont hb
        have hl := hB.log
        have := ih s' hh (fun hu => by rw [hl.params, hcur, (hB.unsucc hu).1, p5])
        rw [hl.iters, p11, hl.initialCost, p17] at this
        exact this
    · exact .done _ _ _ _ trivial

end Ceres.Driver
