import Verif.Feasible.Minimize

/-!
# C58: `Solve` with bounds
-/
namespace Ceres.Feasible

open Ceres.TrustRegion (Opts Iter Strategy St recordStep pushIter checkContinue body iterationZero
  enter HeadInv finalize)
open Ceres.Driver
open Ceres.Program (PB removeFixedBlocks isBoundsConstrained)

section run

variable {V K A S X D : Type} [Field K] [LinearOrder K]

/-- What is in the array of the minimizer is a point of `F` or the initial point. -/
def HoldsF (F : X → Prop) (enc : X → List V) (x0 : X) (p : List V) : Prop :=
  ∃ x, p = enc x ∧ (x = x0 ∨ F x)

theorem trRun_keeps (F : X → Prop) (enc : X → List V) (o : Opts K) (env : TrustRegion.Env X D K)
    (strategy : Strategy S X D K) (x0 : X) (hF : Keeps F env) (hlow : o.lowest ≤ o.minRelDecrease)
    (fuel : ℕ) (s : St S X D K) (hh : HeadInv o (quiet env) x0 s) (hs : Inside F x0 s) :
    (trRun enc o env strategy fuel s : Run V (Iter X K) K A).Along
      (fun _ h p it => HoldsF F enc x0 p ∧ ∀ i ∈ h ++ [it], F i.point)
      (fun _ h p _ => HoldsF F enc x0 p ∧ ∀ i ∈ h, F i.point) s.initialCost s.iters := by
  induction fuel generalizing s with
  | zero => exact .done _ _ _ _ ⟨⟨_, rfl, hs.params⟩, hs.log⟩
  | succ fuel ih =>
    obtain ⟨p1, p2, p3, p4, p5, p6, p7, p8, p9, p10, p11, p12, p13, p14, p15, p16, p17⟩ :=
      TrustRegion.recordStep_push strategy hh
    have hr := record_inside (strategy := strategy) hs
    have hgood : HoldsF F enc x0 (enc (pushIter (recordStep strategy s)).params) ∧
        ∀ i ∈ s.iters ++ [(pushIter (recordStep strategy s)).cur], F i.point := by
      rw [← p11]
      exact ⟨⟨_, rfl, hr.params⟩, hr.log⟩
    unfold trRun
    refine .report _ _ _ _ _ hgood ?_
    intro a
    have ck := TrustRegion.checkContinue_spec (o := o) (env := quiet env) (strategy := strategy)
      (x0 := x0) _ p2
    split
    · next h2 =>
      cases hb : body o env strategy (pushIter (recordStep strategy s)) with
      | abort => exact .done _ _ _ _ hgood
      | stop s' =>
        obtain ⟨b1, b2, b3, b4⟩ := body_quiet_stop (x0 := x0) p16 hb
        exact .done _ _ _ _ (by rw [b3]; exact hgood)
      | cont s' =>
        have hfin : (finalize o (quiet env) strategy s).2 = true := h2
        have hfe : (finalize o (quiet env) strategy s).1 = pushIter (recordStep strategy s) :=
          (ck.1 h2).1
        have hh' := (TrustRegion.loop_head hh hfin (by rw [hfe]; exact hb)).1
        have hl := (TrustRegion.body_cont hb).log
        have := ih s' hh' ⟨body_keeps hF hlow hr.x hb, by rw [hl.iters]; exact hr.log,
          by rw [hl.params]; exact hr.params⟩
        rw [hl.iters, p11, hl.initialCost, p17] at this
        exact this
    · exact .done _ _ _ _ hgood

theorem trMinimizer_keeps (F : X → Prop) (enc : X → List V) (o : Opts K)
    (env : TrustRegion.Env X D K) (strategy : Strategy S X D K) (s0 : S) (x0 : X)
    (hF : Keeps F env) (hlow : o.lowest ≤ o.minRelDecrease)
    (hstart : F x0 ∨ o.constrained = true) (k : K) :
    (trMinimizer enc o env strategy s0 x0 : Run V (Iter X K) K A).Along
      (fun _ h p it => HoldsF F enc x0 p ∧ ∀ i ∈ h ++ [it], F i.point)
      (fun _ h p _ => HoldsF F enc x0 p ∧ ∀ i ∈ h, F i.point) k [] := by
  unfold trMinimizer
  simp only
  obtain ⟨z1, z2, -⟩ := TrustRegion.iterationZero_spec o env strategy s0 x0
  split
  · next hz =>
    have hz' : (iterationZero o (quiet env) (TrustRegion.init o (quiet env) s0 x0)).2 = true := hz
    refine .initial _ _ _ _ ?_
    have := trRun_keeps (A := A) F enc o env strategy x0 hF hlow (o.maxIter + 1) (enter o env s0 x0)
      (TrustRegion.enter_head o (quiet env) strategy s0 x0 hz')
      (enter_inside (strategy := strategy) hF hstart hz)
    have hi : (enter o env s0 x0).iters = [] := z1
    rw [hi] at this
    exact this
  · exact .done _ _ _ _ ⟨⟨_, rfl, Or.inl z2⟩, by simp⟩

end run

variable {α K A S : Type} [LinearOrder α] [Add α] [Field K] [LinearOrder K] [IsStrictOrderedRing K]

/-- A point of the minimizer: a value for every block. -/
abbrev Pt (α : Type) := ℕ → List α

/-- The values of the blocks of a point, in order. -/
def encPt (blocks : List ℕ) (x : Pt α) : List (List α) := blocks.map x

/-- The point with the given values in the given blocks. -/
def decPt (blocks : List ℕ) (vals : List (List α)) : Pt α := writeBack blocks vals fun _ => []

/-- The setting of C58: the minimizer of `Solve` is the trust region minimizer; its step is the
`Plus` of the program of the blocks at hand (program_evaluator.h:306-311), its inner iterations, if
any, keep feasible points feasible (`sweep_keeps`), and the flag `is_constrained` is that of the
program (trust_region_preprocessor.cc:347-348). -/
structure Setting (pb : ℕ → PB α) (nbig big : α) (order : List ℕ → List ℕ)
    (T : List ℕ → TrustRegion.Env (Pt α) (Pt α) K) (ot : Opts K) (p : Problem (List α) K)
    (w : World (List α) A) : Prop where
  plus : ∀ blocks, (T blocks).plus = programPlus pb blocks
  inner : ∀ blocks f, (T blocks).inner = some f → ∀ x, Feasible pb blocks x →
    Feasible pb blocks (f x)
  constrained : ∀ red, removeFixedBlocks p.isConst w.mem p.prog = .ok red →
    ot.constrained = isBoundsConstrained nbig big ((order red.prog.pblocks).map pb)
  isConst : ∀ b ∈ p.prog.pblocks, p.isConst b = (pb b).isConstant
  sized : ∀ b ∈ p.prog.pblocks, BoundsSized (pb b)
  low : ot.lowest ≤ ot.minRelDecrease

theorem holds_inBox {pb : ℕ → PB α} {blocks : List ℕ} {x : Pt α} {base mem : ℕ → List α}
    (h : Holds blocks (encPt blocks x) base mem) (hx : Feasible pb blocks x) (b : ℕ)
    (hb : InBox (pb b) (base b)) : InBox (pb b) (mem b) := by
  by_cases hm : b ∈ blocks
  · obtain ⟨i, hi⟩ := List.mem_iff_getElem?.1 hm
    rw [h.inside i b (x b) hi (by simp [encPt, hi])]
    exact hx b hm
  · rw [h.outside b hm]; exact hb

/-- Blocks of a program that is not treated as bounds constrained have no bounds to violate. -/
theorem unconstrained_inBox {nbig big : α} {b : PB α} {bs : List (PB α)} (hmem : b ∈ bs)
    (hun : isBoundsConstrained nbig big bs = false) (hvar : b.isConstant = false)
    (hb : BoundsSized b) {v : List α} (hrange : ∀ y ∈ v, nbig ≤ y ∧ y ≤ big) : InBox b v := by
  have hno : ¬ ∃ b ∈ bs, ¬ b.Held ∧ ∃ j < b.size, nbig < b.lowerAt nbig j ∨ b.upperAt big j < big := by
    rw [← Program.isBoundsConstrained_iff, hun]; simp
  push Not at hno
  have hb' := hno b hmem (fun h => by
    rw [← Program.PB.isConstant_iff, hvar] at h; cases h)
  intro j y hy
  obtain ⟨r1, r2⟩ := hrange y (List.mem_of_getElem? hy)
  constructor
  · intro l hl
    unfold Program.PB.lo? at hl
    cases hL : b.lower with
    | none => rw [hL] at hl; simp at hl
    | some ll =>
      rw [hL, Option.bind_some] at hl
      have hj : j < b.size := by
        rw [← hb.lower ll hL]; exact (List.getElem?_eq_some_iff.1 hl).1
      have := (hb' j hj).1
      simp only [Program.PB.lowerAt, hL, List.getD_eq_getElem?_getD, hl, Option.getD_some] at this
      exact this.trans r1
  · intro u hu
    unfold Program.PB.hi? at hu
    cases hU : b.upper with
    | none => rw [hU] at hu; simp at hu
    | some uu =>
      rw [hU, Option.bind_some] at hu
      have hj : j < b.size := by
        rw [← hb.upper uu hU]; exact (List.getElem?_eq_some_iff.1 hu).1
      have := (hb' j hj).2
      simp only [Program.PB.upperAt, hU, List.getD_eq_getElem?_getD, hu, Option.getD_some] at this
      exact r2.trans this

/-- The run of the minimizer inside `Solve`, under C58's setting. -/
theorem solveRun_keeps {pb : ℕ → PB α} {nbig big : α} (o : Options (List α) (Iter (Pt α) K) A)
    (base : Env (List α) (Iter (Pt α) K) K A) (T : List ℕ → TrustRegion.Env (Pt α) (Pt α) K)
    (strategy : List ℕ → Strategy S (Pt α) (Pt α) K) (s0 : List ℕ → S) (ot : Opts K)
    (p : Problem (List α) K) (w : World (List α) A)
    (hset : Setting pb nbig big base.order T ot p w)
    (henv : EnvOk (trEnv base T strategy s0 ot encPt decPt) p) {red : Program.Reduced (List α) K}
    (hred : removeFixedBlocks p.isConst w.mem p.prog = .ok red)
    (hstart : (∀ b ∈ p.prog.pblocks, InBox (pb b) (w.mem b)) ∨
      ∀ b ∈ p.prog.pblocks, ∀ y ∈ w.mem b, nbig ≤ y ∧ y ≤ big) :
    let blocks := base.order red.prog.pblocks
    let r := solveRun o (trEnv base T strategy s0 ot encPt decPt) red w
    (∀ c ∈ r.calls, HoldsF (Feasible pb blocks) (encPt blocks)
      (decPt blocks (blocks.map w.mem)) c.params) ∧
    HoldsF (Feasible pb blocks) (encPt blocks) (decPt blocks (blocks.map w.mem)) r.params ∧
    ∀ it ∈ r.iters, Feasible pb blocks it.point := by
  intro blocks r
  obtain ⟨hnd, hmo⟩ := order_mem henv hred
  have hsub : ∀ b ∈ blocks, b ∈ p.prog.pblocks ∧ (pb b).isConstant = false := by
    intro b hb
    have h1 := (hmo b).1 hb
    refine ⟨h1.1, ?_⟩
    rw [← hset.isConst b h1.1]
    exact h1.2.1
  have hdec : ∀ b ∈ blocks, decPt blocks (blocks.map w.mem) b = w.mem b := by
    intro b hb
    obtain ⟨i, hi⟩ := List.mem_iff_getElem?.1 hb
    exact writeBack_inside _ _ _ hnd i b _ hi (by simp [hi])
  have hst : Feasible pb blocks (decPt blocks (blocks.map w.mem)) ∨ ot.constrained = true := by
    rcases hstart with h | h
    · left
      intro b hb
      rw [hdec b hb]
      exact h b (hsub b hb).1
    · by_cases hc : ot.constrained = true
      · exact Or.inr hc
      · left
        intro b hb
        rw [hdec b hb]
        refine unconstrained_inBox (nbig := nbig) (big := big) (bs := blocks.map pb)
          (List.mem_map_of_mem hb) ?_ (hsub b hb).2 (hset.sized b (hsub b hb).1)
          (h b (hsub b hb).1)
        rw [← hset.constrained red hred]
        simpa using hc
  have hal := exec_along (minimizerCallbacks o blocks)
    (trMinimizer_keeps (A := A) (Feasible pb blocks) (encPt blocks)
      { ot with fixedCost := red.fixedCost } (T blocks) (strategy blocks) (s0 blocks)
      (decPt blocks (blocks.map w.mem))
      ⟨fun x d y h => programPlus_feasible (fun b hb => hset.sized b (hsub b hb).1)
        (by rw [hset.plus] at h; exact h), hset.inner blocks⟩
      hset.low hst (-1))
    { w with
      aux := base.prepare w.aux
      gradErr := false }
  have hr : exec (minimizerCallbacks o blocks) (trMinimizer (encPt blocks)
      { ot with fixedCost := red.fixedCost } (T blocks) (strategy blocks) (s0 blocks)
      (decPt blocks (blocks.map w.mem))) (-1)
      { w with
        aux := base.prepare w.aux
        gradErr := false } = r := rfl
  rw [hr] at hal
  simp only [List.nil_append] at hal
  obtain ⟨h1, h2⟩ := hal
  refine ⟨fun c hc => ?_, ?_⟩
  · obtain ⟨-, -, -, q, -⟩ := h1 c hc; exact q
  · rcases h2 with ⟨h', it, q1, ⟨q2, q3⟩, -⟩ | ⟨t, q1, q2, q3⟩
    · exact ⟨q2, by rw [q1]; exact q3⟩
    · exact ⟨q2, q3⟩

theorem trEnv_ok {base : Env (List α) (Iter (Pt α) K) K A}
    {T : List ℕ → TrustRegion.Env (Pt α) (Pt α) K}
    {strategy : List ℕ → Strategy S (Pt α) (Pt α) K} {s0 : List ℕ → S} {ot : Opts K}
    {p : Problem (List α) K} (hnd : p.prog.pblocks.Nodup) (hperm : ∀ l, (base.order l).Perm l) :
    EnvOk (trEnv base T strategy s0 ot encPt decPt) p :=
  ⟨hnd, hperm, fun k blocks x0 hx => by
    simp only [trEnv]
    exact trMinimizer_sized _ _ _ _ _ (fun x => by simp [encPt]) _ _⟩

/-- The parts of the summary of a solve that reached the minimizer. -/
theorem summary_parts {o : Options (List α) (Iter (Pt α) K) A}
    {env : Env (List α) (Iter (Pt α) K) K A} {p : Problem (List α) K} {w : World (List α) A}
    {red : Program.Reduced (List α) K} (hne : env.order red.prog.pblocks ≠ [])
    (heq : solve o env p w = Driver.minimize o env red.fixedCost (-1) (env.order red.prog.pblocks)
        { w with
          aux := env.prepare w.aux
          gradErr := false }) :
    (solve o env p w).2.iters = (solveRun o env red w).iters ∧
    (solve o env p w).2.calls = (solveRun o env red w).calls ∧
    (solve o env p w).2.blocks = env.order red.prog.pblocks ∧
    (solve o env p w).2.params = (solveRun o env red w).params ∧
    ((solve o env p w).2.term = none ↔ (solveRun o env red w).term = none) ∧
    (usable (solve o env p w).2.term = true → usable (solveRun o env red w).term = true) ∧
    ((solve o env p w).2.term ≠ none → (solve o env p w).1.mem =
      writeBack (env.order red.prog.pblocks) (if usable (solveRun o env red w).term then
        (solveRun o env red w).params else (env.order red.prog.pblocks).map w.mem)
        (solveRun o env red w).world.mem) := by
  have hmin := minimize_eq o env red w hne
  simp only at hmin
  rw [heq, hmin]
  split
  · next h => exact ⟨rfl, rfl, rfl, rfl, by simp [h], by simp [usable], by simp⟩
  · next h =>
    refine ⟨rfl, rfl, rfl, rfl, ?_, ?_, fun _ => rfl⟩
    · simp only
      split
      · simp [h]
      · exact Iff.rfl
    · simp only
      split
      · simp [usable, TrustRegion.Term.usable]
      · exact id

/-- **C58.**  A trust region solve of a bounds constrained problem that starts with every block
within its bounds, the callbacks only reading the parameters:
* every iteration in the summary ended at a feasible point;
* whenever a callback of the user is called, every block in memory is within its bounds;
* when `Solve` returns, with whatever verdict, every block in memory is within its bounds. -/
theorem solve_feasible {pb : ℕ → PB α} {nbig big : α} (o : Options (List α) (Iter (Pt α) K) A)
    (base : Env (List α) (Iter (Pt α) K) K A) (T : List ℕ → TrustRegion.Env (Pt α) (Pt α) K)
    (strategy : List ℕ → Strategy S (Pt α) (Pt α) K) (s0 : List ℕ → S) (ot : Opts K)
    (p : Problem (List α) K) (w : World (List α) A) (hnd : p.prog.pblocks.Nodup)
    (hperm : ∀ l, (base.order l).Perm l) (hset : Setting pb nbig big base.order T ot p w)
    (hro : ReadOnly o) (hstart : ∀ b ∈ p.prog.pblocks, InBox (pb b) (w.mem b)) :
    let r := solve o (trEnv base T strategy s0 ot encPt decPt) p w
    (∀ it ∈ r.2.iters, ∀ b ∈ r.2.blocks, InBox (pb b) (it.point b)) ∧
    (∀ c ∈ r.2.calls, ∀ j, c.kind = .user j → ∀ b ∈ p.prog.pblocks,
      InBox (pb b) (c.seen.mem b)) ∧
    (r.2.term ≠ none → ∀ b ∈ p.prog.pblocks, InBox (pb b) (r.1.mem b)) := by
  intro r
  have henv := trEnv_ok (T := T) (strategy := strategy) (s0 := s0) (ot := ot) hnd hperm
  obtain ⟨-, -, -, -, -, -, hsee⟩ := solve_callbacks o
    (trEnv base T strategy s0 ot encPt decPt) p w henv
  rcases solve_cases o (trEnv base T strategy s0 ot encPt decPt) p w henv with
      ⟨h1, h2, h3, h4, h5⟩ | ⟨red, hred, hp, h1, h2, h3, h4, h5, h6, -⟩ | ⟨red, hred, hne, heq⟩
  · simp only [r]
    rw [h1, h3, h4.1]
    exact ⟨by simp, by simp, fun _ => hstart⟩
  · simp only [r]
    rw [h1, h3, h4.1]
    exact ⟨by simp, by simp, fun _ => hstart⟩
  · obtain ⟨k1, k2, k3⟩ := solveRun_keeps o base T strategy s0 ot p w hset henv hred (Or.inl hstart)
    obtain ⟨e1, e2, e3, -, e5, -, e7⟩ := summary_parts hne heq
    have hord : (trEnv base T strategy s0 ot encPt decPt).order = base.order := rfl
    obtain ⟨hndb, hmo⟩ := order_mem henv hred
    rw [hord] at hndb hmo
    have hfeas0 : Feasible pb (base.order red.prog.pblocks) (decPt (base.order red.prog.pblocks)
        ((base.order red.prog.pblocks).map w.mem)) := by
      intro b hb
      obtain ⟨i, hi⟩ := List.mem_iff_getElem?.1 hb
      unfold decPt
      rw [writeBack_inside _ _ _ hndb i b (w.mem b) hi (by simp [hi])]
      exact hstart b ((hmo b).1 hb).1
    have hof : ∀ q, HoldsF (Feasible pb (base.order red.prog.pblocks))
        (encPt (base.order red.prog.pblocks)) (decPt (base.order red.prog.pblocks)
        ((base.order red.prog.pblocks).map w.mem)) q →
        ∃ x, q = encPt (base.order red.prog.pblocks) x ∧
          Feasible pb (base.order red.prog.pblocks) x := by
      rintro q ⟨x, hq, hx | hx⟩
      · exact ⟨x, hq, by rw [hx]; exact hfeas0⟩
      · exact ⟨x, hq, hx⟩
    refine ⟨?_, ?_, ?_⟩
    · intro it hit b hb
      simp only [r] at hit hb
      rw [e1] at hit
      rw [e3] at hb
      exact k3 it hit b hb
    · intro c hc j hj b hb
      have hs := hsee hro c hc j hj
      simp only [r] at hc
      rw [e2] at hc
      obtain ⟨x, hx1, hx2⟩ := hof _ (k1 c hc)
      by_cases hu : o.updateState = true
      · rw [if_pos hu, e3, hx1] at hs
        exact holds_inBox hs.2 hx2 b (hstart b hb)
      · rw [if_neg hu] at hs
        rw [hs]
        exact hstart b hb
    · intro ht b hb
      simp only [r] at ht ⊢
      rw [e7 ht]
      have hcl : Clean o (base.order red.prog.pblocks) w.mem
          (solveRun o (trEnv base T strategy s0 ot encPt decPt) red w).world :=
        (exec_memory o hro (base.order red.prog.pblocks) hndb w.mem
          ((trEnv base T strategy s0 ot encPt decPt).minimizer red.fixedCost
            (base.order red.prog.pblocks)
          ((base.order red.prog.pblocks).map w.mem)) (-1)
          { w with
            aux := base.prepare w.aux
            gradErr := false } ⟨fun _ _ => rfl, fun _ => rfl⟩).1
      by_cases hbm : b ∈ base.order red.prog.pblocks
      · obtain ⟨i, hi⟩ := List.mem_iff_getElem?.1 hbm
        split
        · obtain ⟨x, hx1, hx2⟩ := hof _ k2
          rw [hx1, hord, writeBack_inside _ _ _ hndb i b (x b) hi (by simp [encPt, hi])]
          exact hx2 b hbm
        · rw [hord, writeBack_inside _ _ _ hndb i b (w.mem b) hi (by simp [hi])]
          exact hstart b hb
      · rw [hord, writeBack_outside _ _ _ _ hbm, hcl.1 b hbm]
        exact hstart b hb

/-- **C58 (starting outside the bounds).**  If the initial values are arbitrary (finite) numbers, and
costs are below the largest number:
* every iteration in the summary ended at a feasible point, the first one included;
* whenever a callback of the user is called with `update_state_every_iteration`, every block being
  optimised is within its bounds in memory;
* when `Solve` returns a usable solution, every block it optimised is within its bounds. -/
theorem solve_projects {pb : ℕ → PB α} {nbig big : α} (o : Options (List α) (Iter (Pt α) K) A)
    (base : Env (List α) (Iter (Pt α) K) K A) (T : List ℕ → TrustRegion.Env (Pt α) (Pt α) K)
    (strategy : List ℕ → Strategy S (Pt α) (Pt α) K) (s0 : List ℕ → S) (ot : Opts K)
    (p : Problem (List α) K) (w : World (List α) A) (hnd : p.prog.pblocks.Nodup)
    (hperm : ∀ l, (base.order l).Perm l) (hset : Setting pb nbig big base.order T ot p w)
    (hro : ReadOnly o) (hbig : ∀ blocks x c, (T blocks).jac x = some c → c < ot.big)
    (hstart : ∀ b ∈ p.prog.pblocks, ∀ y ∈ w.mem b, nbig ≤ y ∧ y ≤ big) :
    let r := solve o (trEnv base T strategy s0 ot encPt decPt) p w
    (∀ it ∈ r.2.iters, ∀ b ∈ r.2.blocks, InBox (pb b) (it.point b)) ∧
    (∀ c ∈ r.2.calls, ∀ j, c.kind = .user j → o.updateState = true → ∀ b ∈ r.2.blocks,
      InBox (pb b) (c.seen.mem b)) ∧
    (usable r.2.term = true → ∀ b ∈ r.2.blocks, InBox (pb b) (r.1.mem b)) := by
  intro r
  have henv := trEnv_ok (T := T) (strategy := strategy) (s0 := s0) (ot := ot) hnd hperm
  obtain ⟨-, -, -, -, -, -, hsee⟩ := solve_callbacks o
    (trEnv base T strategy s0 ot encPt decPt) p w henv
  obtain ⟨-, hm2, -⟩ := solve_memory o (trEnv base T strategy s0 ot encPt decPt) p w henv hro
  rcases solve_cases o (trEnv base T strategy s0 ot encPt decPt) p w henv with
      ⟨h1, h2, h3, h4, h5⟩ | ⟨red, hred, hp, h1, h2, h3, h4, h5, h6, -⟩ | ⟨red, hred, hne, heq⟩
  · simp only [r]
    rw [h3, h4.1, h5]
    exact ⟨by simp, by simp, by simp⟩
  · simp only [r]
    rw [h3, h4.1, h5]
    exact ⟨by simp, by simp, by simp⟩
  · obtain ⟨k1, k2, k3⟩ := solveRun_keeps o base T strategy s0 ot p w hset henv hred (Or.inr hstart)
    obtain ⟨e1, e2, e3, e4, e5, e6, e7⟩ := summary_parts hne heq
    have hord : (trEnv base T strategy s0 ot encPt decPt).order = base.order := rfl
    rw [hord] at e3
    have hal := exec_along (minimizerCallbacks o (base.order red.prog.pblocks))
      (trMinimizer_along (A := A) (encPt (base.order red.prog.pblocks))
        { ot with fixedCost := red.fixedCost } (T (base.order red.prog.pblocks))
        (strategy (base.order red.prog.pblocks)) (s0 (base.order red.prog.pblocks))
        (decPt (base.order red.prog.pblocks) ((base.order red.prog.pblocks).map w.mem))
        (hbig (base.order red.prog.pblocks)) (-1))
      { w with
        aux := base.prepare w.aux
        gradErr := false }
    have hr : exec (minimizerCallbacks o (base.order red.prog.pblocks))
        (trMinimizer (encPt (base.order red.prog.pblocks))
        { ot with fixedCost := red.fixedCost } (T (base.order red.prog.pblocks))
        (strategy (base.order red.prog.pblocks)) (s0 (base.order red.prog.pblocks))
        (decPt (base.order red.prog.pblocks) ((base.order red.prog.pblocks).map w.mem))) (-1)
        { w with
          aux := base.prepare w.aux
          gradErr := false } =
        solveRun o (trEnv base T strategy s0 ot encPt decPt) red w := rfl
    rw [hr] at hal
    simp only [List.nil_append] at hal
    obtain ⟨q1, q2⟩ := hal
    have hin : ∀ (x : Pt α) (base' mem : ℕ → List α),
        Holds (base.order red.prog.pblocks) (encPt (base.order red.prog.pblocks) x) base' mem →
        Feasible pb (base.order red.prog.pblocks) x → ∀ b ∈ base.order red.prog.pblocks,
        InBox (pb b) (mem b) := by
      intro x base' mem hh hx b hb
      obtain ⟨i, hi⟩ := List.mem_iff_getElem?.1 hb
      rw [hh.inside i b (x b) hi (by simp [encPt, hi])]
      exact hx b hb
    refine ⟨?_, ?_, ?_⟩
    · intro it hit b hb
      simp only [r] at hit hb
      rw [e1] at hit
      rw [e3] at hb
      exact k3 it hit b hb
    · intro c hc j hj hu b hb
      have hs := hsee hro c hc j hj
      simp only [r] at hc hb
      rw [e3] at hb
      rw [if_pos hu, e3] at hs
      rw [e2] at hc
      obtain ⟨k', h', pre, ⟨⟨it, hit, -, hpt, -⟩, -⟩, -⟩ := q1 c hc
      rw [hpt] at hs
      exact hin _ _ _ hs.2 (k3 it (pre.subset hit)) b hb
    · intro hu b hb
      obtain ⟨-, hh, -⟩ := hm2 hu
      have hu' := e6 hu
      simp only [r] at hb
      rw [e3] at hb hh
      rw [e4] at hh
      have hbest : ∃ it ∈ (solveRun o (trEnv base T strategy s0 ot encPt decPt) red w).iters,
          (solveRun o (trEnv base T strategy s0 ot encPt decPt) red w).params =
            encPt (base.order red.prog.pblocks) it.point := by
        rcases q2 with ⟨h', it, a1, ⟨⟨⟨b', hb', -, hpt, -⟩, -⟩, -⟩, -⟩ | ⟨t, a1, ⟨-, a2⟩ | a2⟩
        · exact ⟨b', by rw [a1]; exact hb', hpt⟩
        · rw [a1, a2] at hu'
          simp [usable, Own.term, TrustRegion.Term.usable] at hu'
        · obtain ⟨⟨⟨b', hb', -, hpt, -⟩, -⟩, -⟩ := a2
          exact ⟨b', hb', hpt⟩
      obtain ⟨it, hit, hpt⟩ := hbest
      rw [hpt] at hh
      exact hin _ _ _ hh (k3 it hit) b hb

end Ceres.Feasible
