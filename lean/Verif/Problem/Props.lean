import Verif.Problem.Inv4
import Mathlib.Data.List.Perm.Basic
/-!
# Properties C01 – C04 of the `Problem` container

`run env init ops` is the model of the C++ code after the calls `ops`;
`specRun env Spec.empty ops` (Spec.lean) is what the documentation promises.
-/
namespace Ceres.Problem

/-- What the user sees through the query methods agrees with the abstract problem. -/
structure Agrees (env : Env) (s : State) (sp : Spec) : Prop where
  has : ∀ a, hasParameterBlock s a = true ↔ ∃ i, sp.params a = some i
  blocks_once : (getParameterBlocks s).Nodup
  blocks : ∀ a, a ∈ getParameterBlocks s ↔ ∃ i, sp.params a = some i
  num_blocks : numParameterBlocks s = (getParameterBlocks s).length
  residuals_once : (getResidualBlocks s).Nodup
  residuals : ∀ r, r ∈ getResidualBlocks s ↔ ∃ i, sp.residuals r = some i
  num_residuals : numResidualBlocks s = (getResidualBlocks s).length
  size : ∀ a, parameterBlockSize s a =
    match sp.params a with | some i => .ok i.size | none => .error .abort
  const : ∀ a, isParameterBlockConstant env s a =
    match sp.params a with
    | some i => .ok (i.isConst ||
        (match i.manifold with | none => (i.size : Int) | some m => env.tangent m) == (0 : Int))
    | none => .error .abort
  manifold : ∀ a, getManifold s a =
    match sp.params a with | some i => .ok i.manifold | none => .error .abort
  residual_params : ∀ r i, sp.residuals r = some i →
    getParameterBlocksForResidualBlock s r = .ok i.params
  dependents : ∀ a i, sp.params a = some i →
    ∃ l, getResidualBlocksForParameterBlock env s a = .ok l ∧ l.Nodup ∧
      ∀ r, r ∈ l ↔ ∃ i, sp.residuals r = some i ∧ a ∈ i.params

theorem userStates_ok {s : State} (l : List Nat) (h : ∀ p ∈ l, ∃ b, s.pheap p = some b) :
    userStates s l = .ok (l.map (addrOf s.pheap)) := by
  induction l with
  | nil => rfl
  | cons p l ih =>
    obtain ⟨b, hb⟩ := h p (by simp)
    simp only [userStates, getP, hb, ok_bind, ih (fun q hq => h q (by simp [hq]))]
    simp [addrOf, hb]

theorem scanResiduals_ok {s : State} {p : Nat} (l : List Nat)
    (h : ∀ r ∈ l, ∃ rb, s.rheap r = some rb) :
    scanResiduals s p l = .ok (l.filter (fun r => match s.rheap r with
      | some rb => decide (p ∈ rb.params) | none => false)) := by
  induction l with
  | nil => rfl
  | cons r l ih =>
    obtain ⟨rb, hb⟩ := h r (by simp)
    simp only [scanResiduals, getR, hb, ok_bind, ih (fun q hq => h q (by simp [hq]))]
    by_cases hp : p ∈ rb.params <;> simp [hb, hp]

theorem Inv.agrees {env : Env} {s : State} {sp : Spec} (h : Inv env s sp) : Agrees env s sp := by
  have hfind : ∀ a, (∃ p b, mapFind s.pmap a = some p ∧ s.pheap p = some b ∧
      sp.params a = some b.info ∧ b.addr = a) ∨ (mapFind s.pmap a = none ∧ sp.params a = none) := by
    intro a
    cases hm : mapFind s.pmap a with
    | none => exact Or.inr ⟨rfl, (h.p.find_none a).1 hm⟩
    | some p =>
      obtain ⟨b, hb, hba⟩ := (h.p.mf a p).1 hm
      exact Or.inl ⟨p, b, rfl, hb, by rw [← hba]; exact h.p.params_of hb, hba⟩
  have hblocks : ∀ a, a ∈ getParameterBlocks s ↔ ∃ i, sp.params a = some i := by
    intro a
    unfold getParameterBlocks
    rw [List.mem_map]
    constructor
    · rintro ⟨e, he, rfl⟩
      obtain ⟨b, hb, hba⟩ := h.p.entry he
      exact ⟨b.info, by rw [← hba]; exact h.p.params_of hb⟩
    · rintro ⟨i, hi⟩
      rcases hfind a with ⟨p, b, hm, _⟩ | ⟨_, hn⟩
      · exact ⟨(a, p), (mapFind_iff h.p.ms a p).1 hm, rfl⟩
      · rw [hn] at hi; simp at hi
  have hnd : (getParameterBlocks s).Nodup := by
    unfold getParameterBlocks List.Nodup
    rw [List.pairwise_map]
    exact h.p.ms.imp (fun hlt => by omega)
  have hrl : ∀ r ∈ s.rvec, ∃ rb, s.rheap r = some rb := by
    intro r hr
    have := (h.r.rv.mem r).1 hr
    cases hh : s.rheap r with
    | none => simp [hh] at this
    | some rb => exact ⟨rb, rfl⟩
  constructor
  · intro a
    unfold hasParameterBlock
    rcases hfind a with ⟨p, b, hm, _, hq, _⟩ | ⟨hm, hq⟩ <;> simp [hm, hq]
  · exact hnd
  · exact hblocks
  · -- both lists enumerate the live blocks
    unfold numParameterBlocks getParameterBlocks
    rw [List.length_map]
    have hids : (s.pmap.map (·.2)).Nodup := by
      unfold List.Nodup
      rw [List.pairwise_map]
      refine List.Pairwise.imp_of_mem ?_ h.p.ms
      intro e f he hf hlt heq
      obtain ⟨b, hb, hba⟩ := h.p.entry he
      obtain ⟨b', hb', hba'⟩ := h.p.entry hf
      rw [heq, hb'] at hb
      have := Option.some.inj hb
      subst this
      omega
    have hperm : s.pvec.Perm (s.pmap.map (·.2)) := by
      rw [List.perm_ext_iff_of_nodup h.p.pv.nodup hids]
      intro p
      rw [h.p.pv.mem p, List.mem_map]
      constructor
      · intro hp
        cases hh : s.pheap p with
        | none => simp [hh] at hp
        | some b =>
          exact ⟨(b.addr, p), (mapFind_iff h.p.ms _ _).1 ((h.p.mf _ _).2 ⟨b, hh, rfl⟩), rfl⟩
      · rintro ⟨e, he, rfl⟩
        obtain ⟨b, hb, _⟩ := h.p.entry he
        simp [hb]
    simpa using hperm.length_eq
  · exact h.r.rv.nodup
  · intro r
    unfold getResidualBlocks
    rw [h.r.rv.mem r, ← live_iff h]
    cases s.rheap r <;> simp
  · rfl
  · intro a
    unfold parameterBlockSize
    rcases hfind a with ⟨p, b, hm, hb, hq, _⟩ | ⟨hm, hq⟩
    · simp [hm, hq, getP, hb, PBlock.info]
    · simp [hm, hq]
  · intro a
    unfold isParameterBlockConstant
    rcases hfind a with ⟨p, b, hm, hb, hq, _⟩ | ⟨hm, hq⟩
    · simp only [hm, hq, getP, hb, PBlock.info, ok_bind]
      cases b.manifold <;> rfl
    · simp [hm, hq]
  · intro a
    unfold getManifold
    rcases hfind a with ⟨p, b, hm, hb, hq, _⟩ | ⟨hm, hq⟩
    · simp [hm, hq, getP, hb, PBlock.info]
    · simp [hm, hq]
  · intro r i hi
    rw [h.r.ri] at hi
    cases hr : s.rheap r with
    | none => simp [hr] at hi
    | some rb =>
      simp only [hr, Option.map_some, Option.some.injEq] at hi
      subst hi
      unfold getParameterBlocksForResidualBlock
      simp only [getR, hr, ok_bind]
      exact userStates_ok _ (h.r.rl r rb hr)
  · intro a i hi
    rcases hfind a with ⟨p, b, hm, hb, hq, hba⟩ | ⟨_, hn⟩
    · have hiff : ∀ r, (∃ rb, s.rheap r = some rb ∧ p ∈ rb.params) ↔
          ∃ i, sp.residuals r = some i ∧ a ∈ i.params := by
        intro r
        rw [h.r.ri]
        cases hr : s.rheap r with
        | none => simp
        | some rb =>
          simp only [Option.some.injEq, exists_eq_left', Option.map_some]
          rw [← hba, mem_params_iff h hb hr]
      unfold getResidualBlocksForParameterBlock
      simp only [hm]
      by_cases hf : env.fastRemoval = true
      · obtain ⟨d, hd, hdn, hmem⟩ := h.d.dp hf p b hb
        simp only [hf, if_true, getP, hb, ok_bind, hd]
        have hperm := env.order_perm d
        refine ⟨_, rfl, hperm.nodup_iff.2 hdn, ?_⟩
        intro r
        rw [hperm.mem_iff, hmem, hiff]
      · simp only [hf]
        refine ⟨_, scanResiduals_ok _ hrl, h.r.rv.nodup.filter _, ?_⟩
        intro r
        rw [List.mem_filter, ← hiff, h.r.rv.mem r]
        cases hr : s.rheap r <;> simp
    · rw [hn] at hi; simp at hi

/-- **C01.**  Every history of calls either stops at the same call and in the same way as
the specification, or ends in a problem whose every query agrees with the specification. -/
theorem problem_refines_spec (env : Env) (hsafe : env.disableSafety = false) (ops : List Op) :
    match run env init ops, specRun env Spec.empty ops with
    | .ok s, .ok sp => Agrees env s sp
    | .error e, .error e' => e = e'
    | _, _ => False := by
  have := run_sim hsafe ops (inv_init env)
  cases h1 : run env init ops <;> cases h2 : specRun env Spec.empty ops <;>
    rw [h1, h2] at this <;> simp_all [Sim]
  exact this.agrees

/-- A problem the user can have in hand. -/
def Reachable (env : Env) (s : State) : Prop := ∃ ops, run env init ops = .ok s

theorem Reachable.inv {env : Env} (hsafe : env.disableSafety = false) {s : State}
    (h : Reachable env s) : ∃ ops sp, specRun env Spec.empty ops = .ok sp ∧ Inv env s sp := by
  obtain ⟨ops, hrun⟩ := h
  have := run_sim hsafe ops (inv_init env)
  rw [hrun] at this
  cases h2 : specRun env Spec.empty ops with
  | error e => rw [h2] at this; exact this.elim
  | ok sp => rw [h2] at this; exact ⟨ops, sp, h2, this⟩

/-- **C01, no undefined behaviour.**  As long as the caller does not pass a function object
that the problem has already deleted, no sequence of calls makes the container dereference a
dead block, index out of range or use a dead map entry. -/
theorem problem_no_ub (env : Env) (hsafe : env.disableSafety = false) (ops : List Op)
    (hown : env.ownCost = false ∧ env.ownLoss = false) : run env init ops ≠ .error .ub := by
  have key : ∀ (ops : List Op) (sp : Spec), specRun env sp ops ≠ .error .ub := by
    intro ops
    induction ops with
    | nil => intro sp; simp [specRun]
    | cons o os ih =>
      intro sp
      simp only [specRun]
      have hadd : ∀ (sp : Spec) a n, sp.add a n ≠ .error .ub := by
        intro sp a n
        unfold Spec.add
        split
        · simp
        · split
          · split <;> simp
          · split <;> simp
      have haddAll : ∀ l (sp : Spec), sp.addAll l ≠ .error .ub := by
        intro l
        induction l with
        | nil => intro sp; simp [Spec.addAll]
        | cons e l ih =>
          intro sp
          obtain ⟨a, n⟩ := e
          simp only [Spec.addAll]
          cases hx : sp.add a n with
          | error e => rw [error_bind]; intro hh; exact hadd sp a n (by rw [hx]; exact hh ▸ rfl)
          | ok sp1 => rw [ok_bind]; exact ih sp1
      have hman : ∀ (sp : Spec) a m ok, sp.setManifold env a m ok ≠ .error .ub := by
        intro sp a m ok
        unfold Spec.setManifold
        split
        · simp
        · split <;> simp
      have hstep : specStep env sp o ≠ .error .ub := by
        cases o with
        | addParameter a n => exact hadd sp a n
        | addParameterWithManifold a n m ok =>
          simp only [specStep]
          cases hx : sp.add a n with
          | error e => rw [error_bind]; intro hh; exact hadd sp a n (by rw [hx]; exact hh ▸ rfl)
          | ok sp1 => rw [ok_bind]; exact hman sp1 a m ok
        | addResidual c l ps =>
          simp only [specStep, Spec.addResidual]
          cases c with
          | none => simp
          | some c =>
            simp only
            rw [if_neg (by rintro ⟨h, _⟩; rw [hown.1] at h; simp at h),
              if_neg (by rintro ⟨_, _, h, _⟩; rw [hown.2] at h; simp at h)]
            split
            · simp
            · split
              · simp
              · cases hx : sp.addAll (ps.zip (env.sizes c)) with
                | error e =>
                  rw [error_bind]; intro hh; exact haddAll _ sp (by rw [hx]; exact hh ▸ rfl)
                | ok sp1 => simp
        | removeResidual r => simp only [specStep, Spec.removeResidual]; split <;> simp
        | removeParameter r => simp only [specStep, Spec.removeParameter]; split <;> simp
        | setConstant a => simp only [specStep, Spec.setConst]; split <;> simp
        | setVariable a => simp only [specStep, Spec.setConst]; split <;> simp
        | setManifold a m ok => exact hman sp a m ok
      cases hx : specStep env sp o with
      | error e => rw [error_bind]; intro hh; exact hstep (by rw [hx]; exact hh ▸ rfl)
      | ok sp1 => rw [ok_bind]; exact ih sp1
  have := run_sim hsafe ops (inv_init env)
  intro hrun
  rw [hrun] at this
  cases h2 : specRun env Spec.empty ops with
  | ok sp => rw [h2] at this; exact this
  | error e =>
    rw [h2] at this
    have : Err.ub = e := this
    subst this
    exact key ops _ h2

/-- **C02.**  Removing a registered parameter block succeeds, removes it, removes exactly the
residual blocks that depend on it, and leaves every other block and its parameters alone –
in both removal modes. -/
theorem removeParameterBlock_exact (env : Env) (hsafe : env.disableSafety = false) (s : State)
    (hr : Reachable env s) (a : Nat) (ha : a ∈ getParameterBlocks s) :
    ∃ s', removeParameterBlock env s a = .ok s' ∧
      (∀ b, b ∈ getParameterBlocks s' ↔ b ∈ getParameterBlocks s ∧ b ≠ a) ∧
      (∀ r, r ∈ getResidualBlocks s' ↔ r ∈ getResidualBlocks s ∧
        ∀ ps, getParameterBlocksForResidualBlock s r = .ok ps → a ∉ ps) ∧
      (∀ r, r ∈ getResidualBlocks s' →
        getParameterBlocksForResidualBlock s' r = getParameterBlocksForResidualBlock s r) ∧
      (∀ b, b ≠ a → parameterBlockSize s' b = parameterBlockSize s b ∧
        isParameterBlockConstant env s' b = isParameterBlockConstant env s b ∧
        getManifold s' b = getManifold s b) := by
  obtain ⟨_, sp, _, hinv⟩ := hr.inv hsafe
  have hsim := removeParameter_sim hinv a
  have hag := hinv.agrees
  obtain ⟨i, hi⟩ := (hag.blocks a).1 ha
  unfold Spec.removeParameter at hsim
  rw [hi] at hsim
  cases hx : removeParameterBlock env s a with
  | error e => rw [hx] at hsim; exact hsim.elim
  | ok s' =>
    rw [hx] at hsim
    have hinv' : Inv env s' _ := hsim
    have hag' := hinv'.agrees
    refine ⟨s', rfl, ?_, ?_, ?_, ?_⟩
    · intro b
      rw [hag'.blocks, hag.blocks]
      simp only [upd]
      by_cases hb : b = a <;> simp [hb]
    · intro r
      rw [hag'.residuals, hag.residuals]
      simp only
      cases hres : sp.residuals r with
      | none => simp
      | some j =>
        have := hag.residual_params r j hres
        simp only [this]
        by_cases hm : a ∈ j.params <;> simp [hm]
    · intro r hr'
      rw [hag'.residuals] at hr'
      simp only at hr'
      obtain ⟨j, hj⟩ := hr'
      rw [hag'.residual_params r j (by simpa using hj)]
      cases hres : sp.residuals r with
      | none => simp [hres] at hj
      | some j' =>
        rw [hres] at hj
        simp only at hj
        split at hj
        · simp at hj
        · have := Option.some.inj hj
          subst this
          rw [hag.residual_params r j' hres]
    · intro b hb
      rw [hag'.size, hag.size, hag'.const, hag.const, hag'.manifold, hag.manifold]
      simp [upd, hb]

/-- **C02, both modes agree.**  The public content after a history does not depend on
`enable_fast_removal` nor on the iteration order of the hash sets. -/
theorem fastRemoval_irrelevant (env : Env) (hsafe : env.disableSafety = false) (fast : Bool)
    (order : List Nat → List Nat) (horder : ∀ l, (order l).Perm l) (ops : List Op) :
    match run env init ops,
      run { env with fastRemoval := fast, order := order, order_perm := horder } init ops with
    | .ok s, .ok s' =>
      (getParameterBlocks s).Perm (getParameterBlocks s') ∧
      (getResidualBlocks s).Perm (getResidualBlocks s') ∧
      (∀ r ∈ getResidualBlocks s,
        getParameterBlocksForResidualBlock s r = getParameterBlocksForResidualBlock s' r) ∧
      (∀ a, parameterBlockSize s a = parameterBlockSize s' a ∧
        isParameterBlockConstant env s a = isParameterBlockConstant env s' a ∧
        getManifold s a = getManifold s' a)
    | .error e, .error e' => e = e'
    | _, _ => False := by
  set env' : Env := { env with fastRemoval := fast, order := order, order_perm := horder }
  have hspec : ∀ ops (sp : Spec), specRun env' sp ops = specRun env sp ops := by
    intro ops
    induction ops with
    | nil => intro sp; rfl
    | cons o os ih =>
      intro sp
      have hs : specStep env' sp o = specStep env sp o := by cases o <;> rfl
      simp only [specRun, hs]
      congr 1
      funext sp1
      exact ih sp1
  have h1 := run_sim hsafe ops (inv_init env)
  have h2 := run_sim (env := env') hsafe ops (inv_init env')
  rw [hspec] at h2
  cases hx : run env init ops with
  | error e =>
    rw [hx] at h1
    cases hy : specRun env Spec.empty ops with
    | ok sp => rw [hy] at h1; exact h1.elim
    | error e1 =>
      rw [hy] at h1 h2
      cases hz : run env' init ops with
      | ok s' => rw [hz] at h2; exact h2.elim
      | error e2 =>
        rw [hz] at h2
        exact (show e = e1 from h1).trans (show e2 = e1 from h2).symm
  | ok s =>
    rw [hx] at h1
    cases hy : specRun env Spec.empty ops with
    | error e1 => rw [hy] at h1; exact h1.elim
    | ok sp =>
      rw [hy] at h1 h2
      cases hz : run env' init ops with
      | error e => rw [hz] at h2; exact h2.elim
      | ok s' =>
        rw [hz] at h2
        have a1 := Inv.agrees (show Inv env s sp from h1)
        have a2 := Inv.agrees (show Inv env' s' sp from h2)
        simp only
        refine ⟨?_, ?_, ?_, ?_⟩
        · rw [List.perm_ext_iff_of_nodup a1.blocks_once a2.blocks_once]
          intro a; rw [a1.blocks, a2.blocks]
        · rw [List.perm_ext_iff_of_nodup a1.residuals_once a2.residuals_once]
          intro a; rw [a1.residuals, a2.residuals]
        · intro r hr
          obtain ⟨i, hi⟩ := (a1.residuals r).1 hr
          rw [a1.residual_params r i hi, a2.residual_params r i hi]
        · intro a
          rw [a1.size, a2.size, a1.const, a1.manifold, a2.manifold]
          have := a2.const a
          exact ⟨rfl, this.symm, rfl⟩

/-- **C03, acceptance.**  In every reachable problem, registering `[a, a+n)` is accepted iff
the pointer is not null and either the block is already registered with that size or its
range meets no registered block (two non-empty ranges meet iff they share an address). -/
theorem addParameterBlock_accepts_iff (env : Env) (hsafe : env.disableSafety = false) (s : State)
    (hr : Reachable env s) (a n : Nat) :
    ((∃ s', step env s (.addParameter a n) = .ok s') ↔
      a ≠ 0 ∧ (parameterBlockSize s a = .ok n ∨
        (a ∉ getParameterBlocks s ∧
          ∀ b m, parameterBlockSize s b = .ok m → a + n ≤ b ∨ b + m ≤ a))) ∧
    ((¬ ∃ s', step env s (.addParameter a n) = .ok s') →
      step env s (.addParameter a n) = .error .abort) := by
  obtain ⟨_, sp, _, hinv⟩ := hr.inv hsafe
  have hag := hinv.agrees
  have hsim := internalAdd_sim hinv hsafe a n
  have hsz : ∀ b m, parameterBlockSize s b = .ok m ↔ ∃ i, sp.params b = some i ∧ i.size = m := by
    intro b m
    rw [hag.size]
    cases sp.params b <;> simp
  have hnone : a ∉ getParameterBlocks s ↔ sp.params a = none := by
    rw [hag.blocks]
    cases sp.params a <;> simp
  have hspec : (∃ sp', sp.add a n = .ok sp') ↔
      a ≠ 0 ∧ (parameterBlockSize s a = .ok n ∨
        (a ∉ getParameterBlocks s ∧
          ∀ b m, parameterBlockSize s b = .ok m → a + n ≤ b ∨ b + m ≤ a)) := by
    unfold Spec.add
    by_cases ha : a = 0
    · simp [ha]
    · simp only [ha, if_false, ne_eq, not_false_eq_true, true_and]
      rw [hsz, hnone]
      cases hp : sp.params a with
      | some i =>
        simp only [Option.some.injEq, exists_eq_left', reduceCtorEq, false_and, or_false]
        by_cases hn : n = i.size
        · simp [hn]
        · have : ¬ i.size = n := fun h => hn h.symm
          simp [hn, this]
      | none =>
        simp only [reduceCtorEq, false_and, exists_false, true_and, false_or]
        have : sp.rangeFree a n ↔ ∀ b m, parameterBlockSize s b = .ok m → a + n ≤ b ∨ b + m ≤ a := by
          unfold Spec.rangeFree
          constructor
          · intro h b m hb
            obtain ⟨i, hi, rfl⟩ := (hsz b m).1 hb
            exact h b i hi
          · intro h b i hi
            exact h b i.size ((hsz b _).2 ⟨i, hi, rfl⟩)
        rw [← this]
        by_cases hf : sp.rangeFree a n <;> simp [hf]
  have herr : ∀ e, sp.add a n = .error e → e = .abort := by
    intro e he
    unfold Spec.add at he
    split at he
    · simpa using he.symm
    · split at he
      · split at he <;> simp_all
      · split at he <;> simp_all
  simp only [step]
  rw [← hspec]
  cases hx : internalAddParameterBlock env s a n with
  | error e =>
    rw [hx] at hsim
    cases hy : sp.add a n with
    | ok sp' => rw [hy] at hsim; exact hsim.elim
    | error e' =>
      rw [hy] at hsim
      have : e = e' := hsim
      subst this
      simp [herr e hy]
  | ok x =>
    rw [hx] at hsim
    cases hy : sp.add a n with
    | error e => rw [hy] at hsim; exact hsim.elim
    | ok sp' => simp

/-- **C03, invariant.**  In every reachable problem no address belongs to two registered
blocks. -/
theorem parameterBlocks_disjoint (env : Env) (hsafe : env.disableSafety = false) (s : State)
    (hr : Reachable env s) (a b n m : Nat) (ha : parameterBlockSize s a = .ok n)
    (hb : parameterBlockSize s b = .ok m) (hab : a ≠ b) (x : Nat) :
    ¬ ((a ≤ x ∧ x < a + n) ∧ (b ≤ x ∧ x < b + m)) := by
  obtain ⟨_, sp, _, hinv⟩ := hr.inv hsafe
  have hag := hinv.agrees
  have hsz : ∀ b m, parameterBlockSize s b = .ok m → ∃ i, sp.params b = some i ∧ i.size = m := by
    intro b m
    rw [hag.size]
    cases sp.params b <;> simp
  obtain ⟨i, hi, rfl⟩ := hsz a n ha
  obtain ⟨j, hj, rfl⟩ := hsz b m hb
  have := hinv.p.dj a i b j hi hj hab
  omega

/-- **C04.**  After any history, a function object is deleted (once) iff the problem owns
such objects, it was handed over, and no present residual block uses it; the destructor then
deletes each remaining owned object, so that over the whole life every owned object handed
over is deleted exactly once and nothing else is ever deleted.  Manifolds are deleted, once
each, only by the destructor. -/
theorem owned_objects_deleted_once (env : Env) (hsafe : env.disableSafety = false)
    (ops : List Op) (s : State) (hrun : run env init ops = .ok s) :
    ∃ sp, specRun env Spec.empty ops = .ok sp ∧
    (∀ c, (s.cDel c = 1 ↔ env.ownCost = true ∧ sp.usedC c ∧ ¬ sp.inUseC c) ∧ s.cDel c ≤ 1) ∧
    (∀ l, (s.lDel l = 1 ↔ env.ownLoss = true ∧ sp.usedL l ∧ ¬ sp.inUseL l) ∧ s.lDel l ≤ 1) ∧
    (∀ m, s.mDel m = 0) ∧
    (∀ c, ((destroy env s).1 c = 1 ↔ env.ownCost = true ∧ sp.usedC c) ∧ (destroy env s).1 c ≤ 1) ∧
    (∀ l, ((destroy env s).2.1 l = 1 ↔ env.ownLoss = true ∧ sp.usedL l) ∧
      (destroy env s).2.1 l ≤ 1) ∧
    (∀ m, ((destroy env s).2.2 m = 1 ↔ env.ownManifold = true ∧ sp.usedM m) ∧
      (destroy env s).2.2 m ≤ 1) := by
  have hsim := run_sim hsafe ops (inv_init env)
  rw [hrun] at hsim
  cases h2 : specRun env Spec.empty ops with
  | error e => rw [h2] at hsim; exact hsim.elim
  | ok sp =>
  rw [h2] at hsim
  have h : Inv env s sp := hsim
  refine ⟨sp, rfl, ?_, ?_, h.m.md, ?_, ?_, ?_⟩
  · intro c
    have := h.c.cd c
    by_cases hd : sp.deadC env c
    · rw [this.1 hd]; exact ⟨⟨fun _ => hd, fun _ => rfl⟩, Nat.le_refl _⟩
    · rw [this.2 hd]; exact ⟨⟨fun h => by omega, fun h => absurd h hd⟩, by omega⟩
  · intro c
    have := h.c.ld c
    by_cases hd : sp.deadL env c
    · rw [this.1 hd]; exact ⟨⟨fun _ => hd, fun _ => rfl⟩, Nat.le_refl _⟩
    · rw [this.2 hd]; exact ⟨⟨fun h => by omega, fun h => absurd h hd⟩, by omega⟩
  · intro c
    simp only [destroy]
    have hcd := h.c.cd c
    by_cases ho : env.ownCost = true
    · have hcr := h.c.cr ho c
      have hpos := Spec.countC_pos h.c.fr c
      by_cases hin : sp.inUseC c
      · have hc0 : sp.countC c ≠ 0 := by have := hpos.2 hin; omega
        have hnd : ¬ sp.deadC env c := by rintro ⟨_, _, hh⟩; exact hh hin
        have hu := h.c.cu c hin
        rw [hcd.2 hnd, hcr]
        simp [ho, hc0, hu]
      · have hc0 : sp.countC c = 0 := by
          by_contra hc; exact hin (hpos.1 (by omega))
        rw [hcr]
        by_cases hu : sp.usedC c
        · rw [hcd.1 ⟨ho, hu, hin⟩]; simp [ho, hc0, hu]
        · rw [hcd.2 (by rintro ⟨_, hh, _⟩; exact hu hh)]; simp [hc0, hu]
    · have hnd : ¬ sp.deadC env c := by rintro ⟨hh, _⟩; exact ho hh
      rw [hcd.2 hnd]
      simp [ho]
  · intro c
    simp only [destroy]
    have hcd := h.c.ld c
    by_cases ho : env.ownLoss = true
    · have hcr := h.c.lr ho c
      have hpos := Spec.countL_pos h.c.fr c
      by_cases hin : sp.inUseL c
      · have hc0 : sp.countL c ≠ 0 := by have := hpos.2 hin; omega
        have hnd : ¬ sp.deadL env c := by rintro ⟨_, _, hh⟩; exact hh hin
        have hu := h.c.lu c hin
        rw [hcd.2 hnd, hcr]
        simp [ho, hc0, hu]
      · have hc0 : sp.countL c = 0 := by
          by_contra hc; exact hin (hpos.1 (by omega))
        rw [hcr]
        by_cases hu : sp.usedL c
        · rw [hcd.1 ⟨ho, hu, hin⟩]; simp [ho, hc0, hu]
        · rw [hcd.2 (by rintro ⟨_, hh, _⟩; exact hu hh)]; simp [hc0, hu]
    · have hnd : ¬ sp.deadL env c := by rintro ⟨hh, _⟩; exact ho hh
      rw [hcd.2 hnd]
      simp [ho]
  · intro m
    simp only [destroy]
    rw [h.m.md m]
    have := h.m.mo m
    by_cases hm : m ∈ s.mOwned
    · simp [hm, this.1 hm]
    · have h' : ¬ (env.ownManifold = true ∧ sp.usedM m) := fun hh => hm (this.2 hh)
      simp only [hm, if_false]
      exact ⟨⟨fun hh => by omega, fun hh => absurd hh h'⟩, by omega⟩

/-! ### Non-vacuity -/

/-- Cost function `0` takes two blocks of sizes 3 and 2; cost function `1` one block of size 2. -/
def exEnv (fast : Bool) : Env where
  fastRemoval := fast
  disableSafety := false
  ownCost := true
  ownLoss := true
  ownManifold := true
  sizes := fun c => if c = 0 then [3, 2] else [2]
  ambient := fun _ => 3
  tangent := fun _ => 2
  order := List.reverse
  order_perm := List.reverse_perm

/-- Five calls, two residual blocks sharing a parameter block, then a removal. -/
def exOps : List Op :=
  [.addParameter 10 3, .addResidual (some 0) (some 7) [10, 20], .addResidual (some 1) none [20],
   .addResidual (some 0) none [10, 30], .setConstant 20, .removeParameter 20]

/-- The history is accepted in both modes and really removes two of three residual blocks. -/
example : (match run (exEnv true) init exOps with
    | .ok s => (getResidualBlocks s, getParameterBlocks s, s.cDel 0, s.cDel 1, s.lDel 7)
    | .error _ => ([], [], 9, 9, 9)) = ([2], [10, 30], 0, 1, 1) := by decide

example : (match run (exEnv false) init exOps with
    | .ok s => (getResidualBlocks s, getParameterBlocks s, s.cDel 0, s.cDel 1, s.lDel 7)
    | .error _ => ([], [], 9, 9, 9)) = ([2], [10, 30], 0, 1, 1) := by decide

/-- Overlapping registration aborts. -/
example : (match run (exEnv true) init [.addParameter 10 3, .addParameter 12 1] with
    | .ok _ => none
    | .error e => some e) = some .abort := by decide

/-- With the safety checks disabled a duplicated parameter makes a later fast removal abort:
the restriction `disableSafety = false` above is needed. -/
example : (match run { exEnv true with disableSafety := true, sizes := fun _ => [2, 2] } init
      [.addResidual (some 0) none [10, 10], .removeResidual 0] with
    | .ok _ => none
    | .error e => some e) = some .abort := by decide

end Ceres.Problem
