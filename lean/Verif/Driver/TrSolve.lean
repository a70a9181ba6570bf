import Verif.Driver.TrRun

/-!
# `Solve` with the trust region minimizer (C53, C54)
-/
namespace Ceres.Driver

open Ceres.TrustRegion (CB Term Opts Iter Strategy St Outcome recordStep pushIter checkContinue body
  iterationZero enter HeadInv LogInv DescInv Consistent InnerDescends finalize)
open Ceres.Program (Prog Reduced removeFixedBlocks totalCost Used removeFixedBlocks_preserves)

variable {V I K A S X D : Type}

/-- `Holds` determines the memory. -/
theorem Holds.eq_writeBack {blocks : List Nat} {params : List V} {base mem : Nat → V}
    (h : Holds blocks params base mem) (hnd : blocks.Nodup) (hl : params.length = blocks.length) :
    mem = writeBack blocks params base := by
  funext b
  by_cases hb : b ∈ blocks
  · obtain ⟨i, hi⟩ := List.mem_iff_getElem?.1 hb
    have hlt : i < params.length := by
      rw [hl]; exact (List.getElem?_eq_some_iff.1 hi).1
    have hv := List.getElem?_eq_getElem hlt
    rw [h.inside i b _ hi hv, writeBack_inside _ _ _ hnd i b _ hi hv]
  · rw [h.outside b hb, writeBack_outside _ _ _ _ hb]

variable [Field K] [LinearOrder K] [IsStrictOrderedRing K]

theorem enter_desc (o : Opts K) (env : TrustRegion.Env X D K) (strategy : Strategy S X D K)
    (s0 : S) (x0 : X) (hz : (iterationZero o env (TrustRegion.init o env s0 x0)).2 = true) :
    DescInv o env x0 (enter o env s0 x0) ∧ (enter o env s0 x0).cur.stepSuccessful = true := by
  obtain ⟨z1, z2, z3, z4, z5, z6, z7, z8⟩ := TrustRegion.iterationZero_spec o env strategy s0 x0
  obtain ⟨y1, y2, y3, y4, y5, y6, y7, y8, y9⟩ := z7 hz
  refine ⟨⟨TrustRegion.enter_head o env strategy s0 x0 hz, rfl, TrustRegion.chain_init _ _,
    le_of_eq y7.symm, ?_, ?_, ?_⟩, y4⟩
  · intro it hit
    rw [show (enter o env s0 x0).iters = [] from z1] at hit
    cases hit
  · intro _ hi
    exact absurd y3 hi
  · intro hm
    refine ⟨⟨?_, rfl, rfl, rfl, rfl⟩, ?_, ?_⟩
    · simp [enter, hm, TrustRegion.Evaluator.mk']
    · rw [show (enter o env s0 x0).iters = [] from z1]
      simp
    · intro it hit
      rw [show (enter o env s0 x0).iters = [] from z1] at hit
      cases hit

/-- The trust region minimizer: what is in the parameter array when iterations are reported and
when it returns. -/
theorem trMinimizer_along (enc : X → List V) (o : Opts K) (env : TrustRegion.Env X D K)
    (strategy : Strategy S X D K) (s0 : S) (x0 : X)
    (hbig : ∀ x c, env.jac x = some c → c < o.big) (k : K) :
    (trMinimizer enc o env strategy s0 x0 : Run V (Iter X K) K A).Along
      (fun k h p it => BestOf enc k (h ++ [it]) p ∧ CostsOf o env (h ++ [it]))
      (fun k h p t => (h = [] ∧ t = .failure) ∨ (BestOf enc k h p ∧ CostsOf o env h)) k [] := by
  unfold trMinimizer
  simp only
  obtain ⟨z1, z2, z3, z4, z5, z6, z7, z8⟩ := TrustRegion.iterationZero_spec o env strategy s0 x0
  split
  · next hz =>
    have hz' : (iterationZero o (quiet env) (TrustRegion.init o (quiet env) s0 x0)).2 = true := hz
    have hh := TrustRegion.enter_head o (quiet env) strategy s0 x0 hz'
    refine .initial _ _ _ _ ?_
    have := trRun_along (A := A) enc o env strategy x0 hbig (o.maxIter + 1) (enter o env s0 x0) hh
      (by omega)
    have hi : (enter o env s0 x0).iters = [] := z1
    rw [hi] at this
    have weaken : ∀ {k : K} {h : List (Iter X K)} {r : Run V (Iter X K) K A}, r.Along
        (fun k h p it => BestOf enc k (h ++ [it]) p ∧ CostsOf o env (h ++ [it]))
        (fun k h p _ => BestOf enc k h p ∧ CostsOf o env h) k h → r.Along
        (fun k h p it => BestOf enc k (h ++ [it]) p ∧ CostsOf o env (h ++ [it]))
        (fun k h p t => (h = [] ∧ t = .failure) ∨ (BestOf enc k h p ∧ CostsOf o env h)) k h := by
      intro k h r hr
      induction hr with
      | initial k h c next _ ih => exact .initial _ _ _ _ ih
      | evaluate k h upd err next _ ih => exact .evaluate _ _ _ _ _ ih
      | report k h p it next hp _ ih => exact .report _ _ _ _ _ hp ih
      | record k h it next _ ih => exact .record _ _ _ _ ih
      | done k h p t hq => exact .done _ _ _ _ (Or.inr hq)
    exact weaken this
  · next hz =>
    have := (z8 (by simpa using hz)).2
    rw [this]
    exact .done _ _ _ _ (Or.inl ⟨rfl, rfl⟩)

theorem trMinimizer_current (enc : X → List V) (o : Opts K) (env : TrustRegion.Env X D K)
    (strategy : Strategy S X D K) (s0 : S) (x0 : X)
    (hbig : ∀ x c, env.jac x = some c → c < o.big) (hcons : Consistent env) (hlow : o.lowest ≤ 0)
    (hq : 0 ≤ o.minRelDecrease) (hinner : InnerDescends env) (hm : o.nonmono = false) (k : K) :
    (trMinimizer enc o env strategy s0 x0 : Run V (Iter X K) K A).Along
      (fun _ _ p it => p = enc it.point) (fun _ _ _ _ => True) k [] := by
  unfold trMinimizer
  simp only
  obtain ⟨z1, z2, z3, z4, z5, z6, z7, z8⟩ := TrustRegion.iterationZero_spec o env strategy s0 x0
  split
  · next hz =>
    have hz' : (iterationZero o (quiet env) (TrustRegion.init o (quiet env) s0 x0)).2 = true := hz
    obtain ⟨hd, hs⟩ := enter_desc o (quiet env) strategy s0 x0 hz'
    refine .initial _ _ _ _ ?_
    have := trRun_current (A := A) enc o env strategy x0 hbig hcons hlow hq hinner hm
      (o.maxIter + 1) (enter o env s0 x0) hd
      (fun h => absurd (show (enter o env s0 x0).cur.stepSuccessful = true from hs) (by simp [h]))
    have hi : (enter o env s0 x0).iters = [] := z1
    rw [hi] at this
    exact this
  · exact .done _ _ _ _ trivial

theorem trRun_sized (enc : X → List V) (o : Opts K) (env : TrustRegion.Env X D K)
    (strategy : Strategy S X D K) (n : Nat) (henc : ∀ x, (enc x).length = n) (fuel : Nat)
    (s : St S X D K) : (trRun enc o env strategy fuel s : Run V (Iter X K) K A).Sized n := by
  induction fuel generalizing s with
  | zero => exact .done _ _ (henc _)
  | succ fuel ih =>
    unfold trRun
    refine .report _ _ _ (henc _) (fun a => ?_)
    split
    · cases body o env strategy (pushIter (recordStep strategy s)) with
      | abort => exact .done _ _ (henc _)
      | stop s' => exact .done _ _ (henc _)
      | cont s' => exact ih s'
    · exact .done _ _ (henc _)

theorem trMinimizer_sized (enc : X → List V) (o : Opts K) (env : TrustRegion.Env X D K)
    (strategy : Strategy S X D K) (n : Nat) (henc : ∀ x, (enc x).length = n) (s0 : S) (x0 : X) :
    (trMinimizer enc o env strategy s0 x0 : Run V (Iter X K) K A).Sized n := by
  unfold trMinimizer
  simp only
  split
  · exact .initial _ _ (trRun_sized _ _ _ _ n henc _ _)
  · exact .done _ _ (henc _)

/-- The environment of `Solve` when the minimizer is the trust region minimizer: `T blocks` is its
environment for the given blocks, `dec` turns the initial values of the blocks into a point and
`enc` lists the values of the blocks of a point. -/
def trEnv (base : Env V (Iter X K) K A) (T : List Nat → TrustRegion.Env X D K)
    (strategy : List Nat → Strategy S X D K) (s0 : List Nat → S) (ot : Opts K)
    (enc : List Nat → X → List V) (dec : List Nat → List V → X) : Env V (Iter X K) K A :=
  { base with
    minimizer := fun fixed blocks x0 => trMinimizer (enc blocks) { ot with fixedCost := fixed }
      (T blocks) (strategy blocks) (s0 blocks) (dec blocks x0)
    cost := Iter.cost }

/-- **C53/C54 (trust region).**  `Solve` with the trust region minimizer, whose evaluator computes
the cost of the reduced problem (C04, C05).  In every run:
* every accepted iteration records the cost of the *whole* problem (fixed cost included) at its
  point, and the initial cost is that of the first iteration;
* whenever a user callback is called, the parameters handed out (in the user's memory, with
  `update_state_every_iteration`) are those of the best accepted iteration so far;
* if the solution is usable and anything was variable, the memory afterwards holds the point of an
  accepted iteration, no accepted iteration has a lower cost, and its recorded cost is the cost of
  the problem in this memory. -/
theorem solve_trust_region (o : Options V (Iter X K) A) (base : Env V (Iter X K) K A)
    (T : List Nat → TrustRegion.Env X D K) (strategy : List Nat → Strategy S X D K)
    (s0 : List Nat → S) (ot : Opts K) (enc : List Nat → X → List V) (dec : List Nat → List V → X)
    (p : Problem V K) (w : World V A) (hnd : p.prog.pblocks.Nodup)
    (hperm : ∀ l, (base.order l).Perm l) (henc : ∀ blocks x, (enc blocks x).length = blocks.length)
    (hbig : ∀ blocks x c, (T blocks).jac x = some c → c < ot.big)
    (heval : ∀ red, removeFixedBlocks p.isConst w.mem p.prog = .ok red → ∀ x c,
      (T (base.order red.prog.pblocks)).jac x = some c →
      totalCost (writeBack (base.order red.prog.pblocks) (enc (base.order red.prog.pblocks) x)
        w.mem) red.prog.rblocks = some c)
    (hro : ReadOnly o) :
    let env := trEnv base T strategy s0 ot enc dec
    let s := (solve o env p w).2
    (∀ it ∈ s.iters, it.stepSuccessful = true →
      totalCost (writeBack s.blocks (enc s.blocks it.point) w.mem) p.prog.rblocks =
        some it.cost) ∧
    (∀ it, s.iters.head? = some it → it.stepSuccessful = true ∧ it.cost = s.initialCost) ∧
    (∀ c ∈ s.calls, ∀ j, c.kind = .user j →
      (∃ h, h ++ [c.iteration] <+: s.iters ∧ ∃ b ∈ h ++ [c.iteration], b.stepSuccessful = true ∧
        (∀ d ∈ h ++ [c.iteration], d.stepSuccessful = true → b.cost ≤ d.cost) ∧
        (o.updateState = true → Holds s.blocks (enc s.blocks b.point) w.mem c.seen.mem)) ∧
      (o.updateState = false → c.seen.mem = w.mem)) ∧
    (usable s.term = true → s.blocks ≠ [] → ∃ b ∈ s.iters, b.stepSuccessful = true ∧
      Holds s.blocks (enc s.blocks b.point) w.mem (solve o env p w).1.mem ∧
      totalCost (solve o env p w).1.mem p.prog.rblocks = some b.cost ∧
      ∀ d ∈ s.iters, d.stepSuccessful = true → b.cost ≤ d.cost) := by
  intro env s
  have henv : EnvOk env p := ⟨hnd, hperm, fun k blocks x0 hx => by
    simp only [env, trEnv]
    exact trMinimizer_sized _ _ _ _ _ (henc blocks) _ _⟩
  obtain ⟨-, -, -, -, -, -, hsee⟩ := solve_callbacks o env p w henv
  obtain ⟨hm1, hm2, hm3⟩ := solve_memory o env p w henv hro
  rcases solve_cases o env p w henv with ⟨h1, h2, h3, h4, h5⟩ |
      ⟨red, hred, hp, h1, h2, h3, h4, h5, h6, -⟩ | ⟨red, hred, hne, heq⟩
  · simp only [s]
    rw [h2, h3, h4.1]
    exact ⟨by simp, by simp, by simp, by simp [usable, Term.usable]⟩
  · simp only [s]
    rw [h2, h3, h4.1, h5]
    exact ⟨by simp, by simp, by simp, by simp⟩
  · have hrun : solveRun o env red w = exec (minimizerCallbacks o (env.order red.prog.pblocks))
        (trMinimizer (enc (env.order red.prog.pblocks)) { ot with fixedCost := red.fixedCost }
          (T (env.order red.prog.pblocks)) (strategy (env.order red.prog.pblocks))
          (s0 (env.order red.prog.pblocks))
          (dec (env.order red.prog.pblocks) ((env.order red.prog.pblocks).map w.mem))) (-1)
        { w with
          aux := env.prepare w.aux
          gradErr := false } := rfl
    have hal := exec_along (minimizerCallbacks o (env.order red.prog.pblocks))
      (trMinimizer_along (A := A) (enc (env.order red.prog.pblocks))
        { ot with fixedCost := red.fixedCost }
          (T (env.order red.prog.pblocks)) (strategy (env.order red.prog.pblocks))
          (s0 (env.order red.prog.pblocks))
          (dec (env.order red.prog.pblocks) ((env.order red.prog.pblocks).map w.mem))
          (hbig (env.order red.prog.pblocks)) (-1))
        { w with
          aux := env.prepare w.aux
          gradErr := false }
    rw [← hrun] at hal
    have hmin := minimize_eq o env red w hne
    simp only at hmin
    have hsi : s.iters = (solveRun o env red w).iters ∧ s.calls = (solveRun o env red w).calls ∧
        s.initialCost = (solveRun o env red w).initialCost ∧
        s.blocks = env.order red.prog.pblocks ∧ s.params = (solveRun o env red w).params ∧
        (usable s.term = true → usable (solveRun o env red w).term = true) := by
      simp only [s]
      rw [heq, hmin]
      split
      · exact ⟨rfl, rfl, rfl, rfl, rfl, by simp [usable]⟩
      · refine ⟨rfl, rfl, rfl, rfl, rfl, ?_⟩
        simp only
        split
        · simp [usable, Term.usable]
        · exact id
    obtain ⟨e1, e2, e3, e4, e5, e6⟩ := hsi
    simp only [List.nil_append] at hal
    rw [← e1, ← e2, ← e3, ← e5] at hal
    obtain ⟨hcalls, hend⟩ := hal
    -- whichever way the run ended, the log is right
    have hlog : (s.iters = [] ∧ (solveRun o env red w).term = some .failure) ∨
        (BestOf (enc (env.order red.prog.pblocks)) s.initialCost s.iters s.params ∧
          CostsOf { ot with fixedCost := red.fixedCost } (T (env.order red.prog.pblocks))
            s.iters) := by
      rcases hend with ⟨h', it, q1, q2, -⟩ | ⟨t, q1, ⟨q2, q3⟩ | q2⟩
      · right; rw [q1]; exact q2
      · left; exact ⟨q2, by rw [q1, q3]; rfl⟩
      · right; exact q2
    have hcost : ∀ it ∈ s.iters, it.stepSuccessful = true →
        totalCost (writeBack s.blocks (enc s.blocks it.point) w.mem) p.prog.rblocks =
          some it.cost := by
      intro it hit hs
      rcases hlog with ⟨q, -⟩ | ⟨-, q⟩
      · rw [q] at hit; cases hit
      · obtain ⟨c, c1, c2⟩ := q it hit hs
        have hfull := fullCost_eq henv hred (enc (env.order red.prog.pblocks) it.point)
        have hrc : reducedCost red w.mem (env.order red.prog.pblocks)
          (enc (env.order red.prog.pblocks) it.point) = some c := heval red hred it.point c c1
        rw [hrc] at hfull
        rw [e4, c2]
        exact hfull
    refine ⟨hcost, ?_, ?_, ?_⟩
    · rcases hlog with ⟨q, -⟩ | ⟨q, -⟩
      · rw [q]; simp
      · exact q.2
    · intro c hc j hj
      obtain ⟨k', h', q1, ⟨⟨b, hb, hbs, hbp, hbb⟩, -⟩, -⟩ := hcalls c hc
      have hs := hsee hro c hc j hj
      constructor
      · refine ⟨h', q1, b, hb, hbs, hbb, ?_⟩
        intro hu
        rw [if_pos hu] at hs
        have := hs.2
        rw [hbp] at this
        rw [e4] at this ⊢
        exact this
      · intro hu
        rw [if_neg (by simp [hu])] at hs
        exact hs
    · intro hu hb
      obtain ⟨m1, m2, -⟩ := hm2 hu
      rcases hlog with ⟨q1, q2⟩ | ⟨⟨⟨b, hb, hbs, hbp, hbb⟩, -⟩, -⟩
      · have := e6 hu
        rw [q2] at this
        simp [usable, Term.usable] at this
      · have hholds : Holds s.blocks (enc s.blocks b.point) w.mem (solve o env p w).1.mem := by
          rw [e4, ← hbp, ← e4]; exact m2
        refine ⟨b, hb, hbs, hholds, ?_, hbb⟩
        rw [hholds.eq_writeBack (by rw [e4]; exact (order_mem henv hred).1) (henc _ _)]
        exact hcost b hb hbs

/-- **C53 (trust region, monotone mode).**  Without `use_nonmonotonic_steps` the memory a user
callback sees with `update_state_every_iteration` holds the current point of the minimizer, the
point at which the iteration it is called for ended. -/
theorem solve_trust_region_current (o : Options V (Iter X K) A) (base : Env V (Iter X K) K A)
    (T : List Nat → TrustRegion.Env X D K) (strategy : List Nat → Strategy S X D K)
    (s0 : List Nat → S) (ot : Opts K) (enc : List Nat → X → List V) (dec : List Nat → List V → X)
    (p : Problem V K) (w : World V A) (hnd : p.prog.pblocks.Nodup)
    (hperm : ∀ l, (base.order l).Perm l) (henc : ∀ blocks x, (enc blocks x).length = blocks.length)
    (hbig : ∀ blocks x c, (T blocks).jac x = some c → c < ot.big)
    (hcons : ∀ blocks, Consistent (T blocks)) (hlow : ot.lowest ≤ 0) (hq : 0 ≤ ot.minRelDecrease)
    (hinner : ∀ blocks, InnerDescends (T blocks)) (hm : ot.nonmono = false) (hro : ReadOnly o)
    (hu : o.updateState = true) :
    let s := (solve o (trEnv base T strategy s0 ot enc dec) p w).2
    ∀ c ∈ s.calls, ∀ j, c.kind = .user j →
      Holds s.blocks (enc s.blocks c.iteration.point) w.mem c.seen.mem := by
  intro s c hc j hj
  have henv : EnvOk (trEnv base T strategy s0 ot enc dec) p := ⟨hnd, hperm, fun k blocks x0 hx => by
    simp only [trEnv]
    exact trMinimizer_sized _ _ _ _ _ (henc blocks) _ _⟩
  obtain ⟨-, -, -, -, -, -, hsee⟩ := solve_callbacks o (trEnv base T strategy s0 ot enc dec) p w henv
  have hs := hsee hro c hc j hj
  rw [if_pos hu] at hs
  suffices h : c.params = enc s.blocks c.iteration.point by rw [← h]; exact hs.2
  rcases solve_cases o (trEnv base T strategy s0 ot enc dec) p w henv with ⟨h1, h2, h3, h4, h5⟩ |
      ⟨red, hred, hp, h1, h2, h3, h4, h5, h6, -⟩ | ⟨red, hred, hne, heq⟩
  · simp only [s] at hc; rw [h3] at hc; cases hc
  · simp only [s] at hc; rw [h3] at hc; cases hc
  · generalize hE : trEnv base T strategy s0 ot enc dec = env at *
    have hrun : solveRun o env red w = exec (minimizerCallbacks o (env.order red.prog.pblocks))
        (trMinimizer (enc (env.order red.prog.pblocks)) { ot with fixedCost := red.fixedCost }
          (T (env.order red.prog.pblocks)) (strategy (env.order red.prog.pblocks))
          (s0 (env.order red.prog.pblocks))
          (dec (env.order red.prog.pblocks) ((env.order red.prog.pblocks).map w.mem))) (-1)
        { w with
          aux := env.prepare w.aux
          gradErr := false } := by subst hE; rfl
    have hal := exec_along (minimizerCallbacks o (env.order red.prog.pblocks))
      (trMinimizer_current (A := A) (enc (env.order red.prog.pblocks))
        { ot with fixedCost := red.fixedCost }
          (T (env.order red.prog.pblocks)) (strategy (env.order red.prog.pblocks))
          (s0 (env.order red.prog.pblocks))
          (dec (env.order red.prog.pblocks) ((env.order red.prog.pblocks).map w.mem))
          (hbig (env.order red.prog.pblocks)) (hcons _) hlow hq (hinner _) hm (-1))
        { w with
          aux := env.prepare w.aux
          gradErr := false }
    rw [← hrun] at hal
    have hmin := minimize_eq o env red w hne
    simp only at hmin
    have hsi : s.calls = (solveRun o env red w).calls ∧ s.blocks = env.order red.prog.pblocks := by
      simp only [s]
      rw [hE, heq, hmin]
      split <;> exact ⟨rfl, rfl⟩
    rw [hsi.1] at hc
    obtain ⟨k', h', -, q⟩ := hal.1 c hc
    rw [hsi.2]
    exact q

end Ceres.Driver
