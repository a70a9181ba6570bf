import Verif.Inner.Sweep
import Verif.TrustRegion.Descent
import Mathlib.Algebra.Order.Ring.Defs
import Mathlib.Tactic.Linarith
import Mathlib.Tactic.LinearCombination

/-!
# C56: inner iterations do not raise the cost
-/
namespace Ceres.TrustRegion

variable {K : Type} [Field K] [LinearOrder K] {S X D : Type}

theorem loop_initialCost {o : Opts K} {env : Env X D K} {strategy : Strategy S X D K} {x0 : X}
    (fuel : Nat) {s : St S X D K} (h : HeadInv o env x0 s) :
    ∀ s', loop o env strategy fuel s = .done s' → s'.initialCost = s.initialCost := by
  induction fuel generalizing s with
  | zero => intro s' h; simp [loop] at h
  | succ fuel ih =>
    obtain ⟨p1, p2, -, -, -, -, -, -, -, -, -, -, -, -, -, pinv, pc⟩ := recordStep_push strategy h
    have ck := checkContinue_spec (o := o) (env := env) (strategy := strategy) (x0 := x0) _ p2
    simp only [loop]
    by_cases hf : (finalize o env strategy s).2 = true
    · rw [if_pos hf]
      have hfe : (finalize o env strategy s).1 = pushIter (recordStep strategy s) := (ck.1 hf).1
      cases hb : body o env strategy (finalize o env strategy s).1 with
      | cont s' =>
        intro s'' h''
        rw [ih (loop_head h hf hb).1 s'' h'', (body_cont hb).log.initialCost, hfe, pc]
      | stop s' =>
        intro s'' he
        simp only [Outcome.done.injEq] at he
        subst he
        rw [(body_stop (x0 := x0) (by rw [hfe]; exact pinv) hb).1.initialCost, hfe, pc]
      | abort => intro s' h; cases h
    · rw [if_neg hf]
      intro s' he
      simp only [Outcome.done.injEq] at he
      subst he
      exact ((ck.2 (by simpa [finalize] using hf)).1.initialCost).trans pc

/-- **C11 (never worse than the start).**  Without bounds, whenever the initial point can be
evaluated, so can the point in the user's array when the minimizer returns, and its cost is at most
that of the initial point. -/
theorem minimize_never_worse [IsStrictOrderedRing K] (o : Opts K) (env : Env X D K)
    (strategy : Strategy S X D K)
    (s0 : S) (x0 : X) (fuel : Nat) (hcons : Consistent env) (hun : o.constrained = false)
    (hbig : ∀ x c, env.jac x = some c → c < o.big) (s : St S X D K)
    (hs : minimize o env strategy s0 x0 fuel = .done s) (hfuel : o.maxIter + 1 ≤ fuel) {a : K}
    (ha : env.cost x0 = some a) : ∃ c, env.cost s.params = some c ∧ c ≤ a := by
  rcases minimize_returns_best o env strategy s0 x0 fuel hbig s hs hfuel with
    ⟨-, hp, -⟩ | ⟨⟨c, hc, ⟨it, hit, -⟩, hle⟩, hfirst⟩
  · exact ⟨a, by rw [hp, ha], le_rfl⟩
  · refine ⟨c, hcons _ _ hc, ?_⟩
    obtain ⟨e, l, hl⟩ := List.exists_cons_of_ne_nil (List.ne_nil_of_mem hit)
    obtain ⟨f1, f2⟩ := hfirst e (by rw [hl]; rfl)
    obtain ⟨d, -, d2, d3⟩ := hle e (by rw [hl]; exact List.mem_cons_self) f1
    have hz := iterationZero_spec o env strategy s0 x0
    unfold minimize at hs
    simp only at hs
    by_cases h : (iterationZero o env (init o env s0 x0)).2 = true
    · rw [if_pos h] at hs
      have hi := loop_initialCost (strategy := strategy) fuel (enter_head o env strategy s0 x0 h) s hs
      obtain ⟨z1, z2, -, -, -, -, z7, -⟩ := hz
      obtain ⟨y1, y2, -, -, -, -, y7, -⟩ := z7 h
      unfold startPoint at y1
      rw [hun] at y1
      simp only [Bool.false_eq_true, if_false, Option.some.injEq] at y1
      rw [← y1] at y2
      have := hcons _ _ y2
      rw [ha, Option.some.injEq] at this
      have he : (enter o env s0 x0).initialCost = (iterationZero o env (init o env s0 x0)).1.initialCost :=
        rfl
      rw [he, y7, ← this] at hi
      rw [f2, hi] at d2
      have : a = d := by linear_combination d2
      rw [this]; exact d3
    · rw [if_neg h] at hs
      simp only [Outcome.done.injEq] at hs
      subst hs
      rw [hz.1] at hit
      simp at hit

end Ceres.TrustRegion

namespace Ceres.Inner

open Ceres.Graph (Prog Groups)

variable {B α K : Type} [DecidableEq B] [Field K] [LinearOrder K] [IsStrictOrderedRing K]

/-! ## The cost of a list of residual blocks -/

/-- The cost of some residual blocks; `none` if one of them cannot be evaluated. -/
def costOf (f : ℕ → (B → α) → Option K) : List ℕ → (B → α) → Option K
  | [], _ => some 0
  | r :: rs, x => (f r x).bind fun c => (costOf f rs x).map fun d => c + d

/-- Each residual block depends on its own parameter blocks only. -/
def DependsOnOwn (P : Prog B) (f : ℕ → (B → α) → Option K) : Prop :=
  ∀ r ps, P.residuals[r]? = some ps → ∀ x y : B → α, (∀ b ∈ ps, x b = y b) → f r x = f r y

/-- The cost of the whole program. -/
def total (P : Prog B) (f : ℕ → (B → α) → Option K) (x : B → α) : Option K :=
  costOf f (List.range P.residuals.length) x

omit [DecidableEq B] [LinearOrder K] [IsStrictOrderedRing K] in
theorem costOf_congr {f : ℕ → (B → α) → Option K} {rs : List ℕ} {x y : B → α}
    (h : ∀ r ∈ rs, f r x = f r y) : costOf f rs x = costOf f rs y := by
  induction rs with
  | nil => rfl
  | cons r rs ih =>
    simp only [costOf]
    rw [h r List.mem_cons_self, ih fun r hr => h r (List.mem_cons_of_mem _ hr)]

omit [DecidableEq B] in
/-- Changing only the residual blocks selected by `p`, without raising their cost, does not raise the
cost of all. -/
theorem costOf_filter_le {f : ℕ → (B → α) → Option K} (p : ℕ → Bool) {x y : B → α} (rs : List ℕ)
    (hsame : ∀ r ∈ rs, p r = false → f r x = f r y) :
    ∀ a, costOf f rs x = some a →
    ∃ a1, costOf f (rs.filter p) x = some a1 ∧
      ∀ c1, costOf f (rs.filter p) y = some c1 → costOf f rs y = some (a - a1 + c1) := by
  induction rs with
  | nil =>
    intro a h
    simp only [costOf, Option.some.injEq] at h
    refine ⟨0, rfl, fun c1 h1 => ?_⟩
    simp only [List.filter_nil, costOf, Option.some.injEq] at h1
    simp [costOf, ← h, ← h1]
  | cons r rs ih =>
    intro a h
    simp only [costOf] at h
    cases hr : f r x with
    | none => rw [hr] at h; simp at h
    | some c =>
      rw [hr, Option.bind_some] at h
      cases hrs : costOf f rs x with
      | none => rw [hrs] at h; simp at h
      | some d =>
        rw [hrs, Option.map_some, Option.some.injEq] at h
        obtain ⟨a1, e1, e2⟩ := ih (fun r hr => hsame r (List.mem_cons_of_mem _ hr)) d hrs
        cases hp : p r with
        | true =>
          refine ⟨c + a1, ?_, ?_⟩
          · rw [List.filter_cons_of_pos hp]; simp [costOf, hr, e1]
          · intro c1 h1
            rw [List.filter_cons_of_pos hp] at h1
            simp only [costOf] at h1 ⊢
            cases hy : f r y with
            | none => rw [hy] at h1; simp at h1
            | some c' =>
              rw [hy, Option.bind_some] at h1
              rw [Option.bind_some]
              cases hf : costOf f (rs.filter p) y with
              | none => rw [hf] at h1; simp at h1
              | some d' =>
                rw [hf, Option.map_some, Option.some.injEq] at h1
                rw [e2 d' hf, Option.map_some, Option.some.injEq, ← h, ← h1]
                ring
        | false =>
          refine ⟨a1, ?_, ?_⟩
          · rw [List.filter_cons_of_neg (by simp [hp])]; exact e1
          · intro c1 h1
            rw [List.filter_cons_of_neg (by simp [hp])] at h1
            simp only [costOf]
            rw [← hsame r List.mem_cons_self hp, hr, Option.bind_some, e2 c1 h1, Option.map_some,
              Option.some.injEq, ← h]
            ring

/-- The inner solve of a block does not raise the cost of the residual blocks that depend on it. -/
def BlockDescends (P : Prog B) (f : ℕ → (B → α) → Option K) (best : B → (B → α) → α) : Prop :=
  ∀ b x a, costOf f (residualsOf P b) x = some a →
    ∃ c, costOf f (residualsOf P b) (Function.update x b (best b x)) = some c ∧ c ≤ a

theorem residualsOf_filter (P : Prog B) (b : B) :
    residualsOf P b = (List.range P.residuals.length).filter
      fun r => decide (b ∈ P.residuals.getD r []) := rfl

/-- A change of block `b` alone. -/
theorem total_update_le {P : Prog B} {f : ℕ → (B → α) → Option K} (hf : DependsOnOwn P f) (b : B)
    (v : α) {x : B → α} {a : K} (ha : total P f x = some a)
    (hlocal : ∀ a, costOf f (residualsOf P b) x = some a →
      ∃ c, costOf f (residualsOf P b) (Function.update x b v) = some c ∧ c ≤ a) :
    ∃ c, total P f (Function.update x b v) = some c ∧ c ≤ a := by
  obtain ⟨a1, e1, e2⟩ := costOf_filter_le (fun r => decide (b ∈ P.residuals.getD r []))
    (f := f) (x := x) (y := Function.update x b v) (List.range P.residuals.length) (by
      intro r hr hp
      rw [List.mem_range] at hr
      rw [decide_eq_false_iff_not, List.getD_eq_getElem?_getD, List.getElem?_eq_getElem hr] at hp
      refine hf r _ (List.getElem?_eq_getElem hr) _ _ fun b' hb' => ?_
      rw [Function.update_of_ne]
      rintro rfl
      exact hp hb') a ha
  rw [← residualsOf_filter] at e1 e2
  obtain ⟨c, c1, c2⟩ := hlocal a1 e1
  exact ⟨_, e2 c c1, by linarith⟩

/-- Within a group the order of the updates does not matter. -/
theorem group_descends {P : Prog B} {f : ℕ → (B → α) → Option K} (hf : DependsOnOwn P f)
    {best : B → (B → α) → α} (hbest : BlockDescends P f best) (g : List B)
    (hind : ∀ a ∈ g, ∀ b ∈ g, a ≠ b → ¬ P.Share a b) (x : B → α) {a : K}
    (ha : total P f x = some a) :
    ∃ c, total P f (groupStep best x g) = some c ∧ c ≤ a := by
  have main : ∀ (done todo : List B), (∀ b ∈ done ++ todo, b ∈ g) →
      (∃ c, total P f (groupStep best x done) = some c ∧ c ≤ a) →
      ∃ c, total P f (groupStep best x (done ++ todo)) = some c ∧ c ≤ a := by
    intro done todo
    induction todo generalizing done with
    | nil => intro _ h; simpa using h
    | cons b todo ih =>
      intro hmem h
      have : done ++ b :: todo = (done ++ [b]) ++ todo := by simp
      rw [this] at hmem ⊢
      refine ih (done ++ [b]) hmem ?_
      by_cases hbd : b ∈ done
      · have : groupStep best x (done ++ [b]) = groupStep best x done := by
          funext b'
          unfold groupStep
          by_cases h' : b' = b
          · subst h'; simp [hbd]
          · simp [h']
        rw [this]; exact h
      · have hup : groupStep best x (done ++ [b]) =
            Function.update (groupStep best x done) b (best b x) := by
          funext b'
          by_cases h' : b' = b
          · subst h'; simp [groupStep]
          · rw [Function.update_of_ne h']; simp [groupStep, h']
        obtain ⟨c, c1, c2⟩ := h
        rw [hup]
        have hbg : b ∈ g := hmem b (by simp)
        have hagree : ∀ (w : α) (r : ℕ), r ∈ residualsOf P b →
            f r (Function.update (groupStep best x done) b w) = f r (Function.update x b w) := by
          intro w r hr
          obtain ⟨ps, hps, hbps⟩ := mem_residualsOf.1 hr
          refine hf r ps hps _ _ fun b' hb' => ?_
          by_cases h' : b' = b
          · subst h'; simp
          · rw [Function.update_of_ne h', Function.update_of_ne h']
            unfold groupStep
            rw [if_neg]
            intro hd
            exact hind b hbg b' (hmem b' (by simp [hd])) (fun h => h' h.symm)
              ⟨ps, List.mem_of_getElem? hps, hbps, hb'⟩
        have hagree0 : ∀ r ∈ residualsOf P b, f r (groupStep best x done) = f r x := by
          intro r hr
          have h0 := hagree (x b) r hr
          rw [Function.update_eq_self] at h0
          rw [← h0]
          congr 1
          funext b'
          by_cases h' : b' = b
          · subst h'; simp [groupStep, hbd]
          · rw [Function.update_of_ne h']
        obtain ⟨e, e1, e2⟩ := total_update_le hf b (best b x) c1 (by
          intro a0 h0
          rw [costOf_congr hagree0] at h0
          rw [costOf_congr (hagree (best b x))]
          exact hbest b x a0 h0)
        exact ⟨e, e1, e2.trans c2⟩
  have := main [] g (by simp) ⟨a, by
    rw [show groupStep best x [] = x from by funext b; simp [groupStep]]; exact ha, le_rfl⟩
  simpa using this

/-- **C56 (a sweep does not raise the cost).**  If the solve of each block alone does not raise the
cost of the residual blocks that depend on it, and no residual block depends on two blocks of a group,
then a whole sweep does not raise the cost of the program, and does not leave the set of points where
it can be evaluated. -/
theorem sweep_descends {P : Prog B} {f : ℕ → (B → α) → Option K} (hf : DependsOnOwn P f)
    {best : B → (B → α) → α} (hbest : BlockDescends P f best) (groups : List (List B))
    (hind : Independent P groups) (x : B → α) {a : K} (ha : total P f x = some a) :
    ∃ c, total P f (sweep best groups x) = some c ∧ c ≤ a := by
  unfold sweep
  induction groups generalizing x a with
  | nil => exact ⟨a, ha, le_rfl⟩
  | cons g gs ih =>
    obtain ⟨c, c1, c2⟩ := group_descends hf hbest g (hind g List.mem_cons_self) x ha
    obtain ⟨d, d1, d2⟩ := ih (fun g hg => hind g (List.mem_cons_of_mem _ hg)) _ c1
    exact ⟨d, d1, d2.trans c2⟩

/-! ## The inner solves are trust region minimisations -/

/-- What `best` returns is what the trust region minimizer, without bounds and without inner
iterations, leaves in the array when it starts at the block's value and the cost is that of the
residual blocks that depend on the block. -/
def Minimizes (P : Prog B) (f : ℕ → (B → α) → Option K) (best : B → (B → α) → α) : Prop :=
  ∀ b x, ∃ (S D : Type) (o : TrustRegion.Opts K) (env : TrustRegion.Env α D K)
    (strategy : TrustRegion.Strategy S α D K) (s0 : S) (fuel : ℕ) (s : TrustRegion.St S α D K),
    (∀ y, env.cost y = costOf f (residualsOf P b) (Function.update x b y)) ∧
    TrustRegion.Consistent env ∧ o.constrained = false ∧
    (∀ y c, env.jac y = some c → c < o.big) ∧ o.maxIter + 1 ≤ fuel ∧
    TrustRegion.minimize o env strategy s0 (x b) fuel = .done s ∧ best b x = s.params

/-- Solves by the trust region minimizer do not raise the cost. -/
theorem minimizes_descends {P : Prog B} {f : ℕ → (B → α) → Option K} {best : B → (B → α) → α}
    (h : Minimizes P f best) : BlockDescends P f best := by
  intro b x a ha
  obtain ⟨S, D, o, env, strategy, s0, fuel, s, h1, h2, h3, h4, h5, h6, h7⟩ := h b x
  obtain ⟨c, c1, c2⟩ := TrustRegion.minimize_never_worse o env strategy s0 (x b) fuel h2 h3 h4 s h6 h5
    (a := a) (by rw [h1, Function.update_eq_self]; exact ha)
  rw [h1] at c1
  exact ⟨c, by rw [h7]; exact c1, c2⟩

/-- **C56 (inner iterations do not raise the cost).**  Every execution of the inner iterations, with
any number of threads and any interleaving, ends with parameters at which the program can be evaluated
if it could before, at a cost that is not higher. -/
theorem minimize_descends {P : Prog B} {S : Setup B} {groups : List (List B)} {numThreads : ℕ}
    {solver : B → List ℕ → Solver α} (hP : P.blocks.Nodup) (hS : S.Serves P groups)
    (hind : Independent P groups) (ht : 0 < numThreads) (htot : NeverAborts P solver)
    {m : Mem B α} {outer : B → α} (hm : Callable P m outer)
    {f : ℕ → (B → α) → Option K} (hf : DependsOnOwn P f)
    (hmin : Minimizes P f (best P solver (frozenCells P m))) {r : Option (Mem B α)}
    (h : MinimizeRun P S numThreads solver m r) {a : K}
    (ha : total P f (valuesAt P m outer) = some a) :
    ∃ m' c, r = some m' ∧ total P f (valuesAt P m' outer) = some c ∧ c ≤ a := by
  obtain ⟨m', e1, e2, e3, e4, e5⟩ := minimize_result hP hS hind ht htot hm h
  obtain ⟨c, c1, c2⟩ := sweep_descends hf (minimizes_descends hmin) groups hind _ ha
  refine ⟨m', c, e1, ?_, c2⟩
  have hsub : ∀ b ∈ groups.flatten, b ∈ P.blocks := by
    intro b hb
    obtain ⟨⟨rest, s1, s2, -⟩, -⟩ := hS
    exact s2.subset (by rw [s1]; simp [hb])
  have houter : ∀ (x : B → α) b, b ∉ P.blocks →
      sweep (best P solver (frozenCells P m)) groups x b = x b := by
    intro x b hb
    have : ∀ (gs : List (List B)), (∀ g ∈ gs, b ∉ g) → ∀ x : B → α,
        gs.foldl (groupStep (best P solver (frozenCells P m))) x b = x b := by
      intro gs
      induction gs with
      | nil => intro _ x; rfl
      | cons g gs ih =>
        intro hgs x
        rw [List.foldl_cons, ih fun g hg => hgs g (List.mem_cons_of_mem _ hg)]
        simp [groupStep, hgs g List.mem_cons_self]
    exact this groups (fun g hg hbg => hb (hsub b (List.mem_flatten.2 ⟨g, hg, hbg⟩))) x
  have : valuesAt P m' outer = sweep (best P solver (frozenCells P m)) groups (valuesAt P m outer) := by
    funext b
    by_cases hb : b ∈ P.blocks
    · rw [← e2 b hb]
      unfold valuesAt
      rw [if_pos hb, e4 b hb]
    · rw [houter _ b hb]
      unfold valuesAt
      rw [if_neg hb, if_neg hb]
  rw [this]; exact c1

/-- **C56 / C13 (the outer minimizer).**  The descent results for the trust region minimizer hold with
these inner iterations. -/
theorem inner_descends {P : Prog B} {groups : List (List B)} (hind : Independent P groups)
    {f : ℕ → (B → α) → Option K} (hf : DependsOnOwn P f) {best : B → (B → α) → α}
    (hmin : Minimizes P f best) {D : Type} (env : TrustRegion.Env (B → α) D K)
    (hcost : ∀ x, env.cost x = total P f x)
    (hinner : env.inner = some (sweep best groups)) : TrustRegion.InnerDescends env := by
  intro g hg x a b ha hb
  rw [hinner, Option.some.injEq] at hg
  subst hg
  rw [hcost] at ha hb
  obtain ⟨c, c1, c2⟩ := sweep_descends hf (minimizes_descends hmin) groups hind x ha
  rw [hb, Option.some.injEq] at c1
  rw [c1]; exact c2

end Ceres.Inner
