import Verif.Bounds.Props
import Verif.Problem.Props

/-! # What is asked back is what was set, after every history of calls -/
namespace Ceres.Bounds

open Ceres.Problem

variable {K : Type} [LinearOrder K]

/-- The invariant: that of C01, and the arrays of the block at an address hold what is known of the address. -/
structure Rel (env : Env) (small big : K) (s : State K) (k : Known K) : Prop where
  inv : Inv env s.problem k.problem
  lo : ∀ a p, mapFind s.problem.pmap a = some p → ∀ i, (s.lower p).getD (fun _ => small) i = k.lower a i
  up : ∀ a p, mapFind s.problem.pmap a = some p → ∀ i, (s.upper p).getD (fun _ => big) i = k.upper a i

theorem params_none {env : Env} {s : Problem.State} {sp : Spec} (h : Inv env s sp) {a : ℕ}
    (ha : mapFind s.pmap a = none) : sp.params a = none := by
  rw [h.p.pi, ha]; rfl

theorem params_some {env : Env} {s : Problem.State} {sp : Spec} (h : Inv env s sp) {a p : ℕ}
    (ha : mapFind s.pmap a = some p) :
    ∃ b, s.pheap p = some b ∧ b.addr = a ∧ sp.params a = some b.info ∧ p < s.nextP := by
  obtain ⟨b, hb, hab⟩ := (h.p.mf a p).1 ha
  refine ⟨b, hb, hab, ?_, ?_⟩
  · rw [h.p.pi, ha]; simp [hb]
  · rcases Nat.lt_or_ge p s.nextP with h' | h'
    · exact h'
    · rw [h.p.pf p h'] at hb; cases hb

theorem same_block {env : Env} {s : Problem.State} {sp : Spec} (h : Inv env s sp) {a a' p : ℕ}
    (ha : mapFind s.pmap a = some p) (ha' : mapFind s.pmap a' = some p) : a = a' := by
  obtain ⟨b, hb, hab⟩ := (h.p.mf a p).1 ha
  obtain ⟨b', hb', hab'⟩ := (h.p.mf a' p).1 ha'
  rw [hb] at hb'; cases hb'
  exact hab.symm.trans hab'

theorem step_rel (env : Env) (hsafe : env.disableSafety = false) (small big : K) (s : State K) (k : Known K)
    (h : Rel env small big s k) (o : Call K) (ho : Finite small big o) :
    Sim (Rel env small big) (step env small big s o) (k.step env small big o) := by
  cases o with
  | other o =>
    refine Sim.bind (step_sim h.inv hsafe o) fun t u ht hu htu => ?_
    have key : ∀ a p, mapFind t.pmap a = some p →
        (mapFind s.problem.pmap a = some p ∧ p < s.problem.nextP ∧
          (k.problem.params a).isSome ∧ (u.params a).isSome) ∨
        (¬ p < s.problem.nextP ∧ ¬ (k.problem.params a).isSome) := by
      intro a p hp
      obtain ⟨b, -, -, hu', -⟩ := params_some htu hp
      rcases step_new env _ _ h.inv.p.ms o ht a p hp with h1 | ⟨h1, h2⟩
      · obtain ⟨b', -, -, hk, hl⟩ := params_some h.inv h1
        exact .inl ⟨h1, hl, by rw [hk]; rfl, by rw [hu']; rfl⟩
      · right
        rw [params_none h.inv h1]
        exact ⟨Nat.not_lt.2 h2, by simp⟩
    refine ⟨htu, fun a p hp i => ?_, fun a p hp i => ?_⟩
    · rcases key a p hp with ⟨h1, h2, h3⟩ | ⟨h1, h2⟩
      · simp only [if_pos h2, if_pos h3]
        exact h.lo a p h1 i
      · simp only [if_neg h1, if_neg (fun h => h2 (And.left h))]
        rfl
    · rcases key a p hp with ⟨h1, h2, h3⟩ | ⟨h1, h2⟩
      · simp only [if_pos h2, if_pos h3]
        exact h.up a p h1 i
      · simp only [if_neg h1, if_neg (fun h => h2 (And.left h))]
        rfl
  | setLower a i v =>
    simp only [step, Known.step, setLower]
    cases ha : mapFind s.problem.pmap a with
    | none => rw [params_none h.inv ha]; exact rfl
    | some p =>
      obtain ⟨b, hb, hab, hk, hl⟩ := params_some h.inv ha
      simp only [hk, getP, hb, ok_bind, setArrayLower]
      by_cases hi : b.size ≤ i
      · rw [if_pos hi, if_neg (show ¬ i < b.info.size from Nat.not_lt.2 hi)]; exact rfl
      · rw [if_neg hi, if_pos (show i < b.info.size from Nat.not_le.1 hi)]
        by_cases hv : v ≤ small ∧ (s.lower p).isNone
        · rw [if_pos hv]
          have hv' : v = small := le_antisymm hv.1 ho
          have hn : s.lower p = none := by simpa using hv.2
          refine ⟨h.inv, fun a' p' hp' j => ?_, h.up⟩
          have h0 := h.lo a' p' hp' j
          have e : upd s.lower p (s.lower p) = s.lower := by
            funext q; unfold upd; split_ifs with hq
            · rw [hq]
            · rfl
          simp only [e, h0, put]
          split_ifs with hc
          · rw [← h0, hv']
            have hpp : p' = p := by
              have h1 := hc.1 ▸ hp'; rw [ha] at h1; exact (Option.some.inj h1).symm
            rw [hpp, hn]; rfl
          · rfl
        · rw [if_neg hv]
          refine ⟨h.inv, fun a' p' hp' j => ?_, h.up⟩
          simp only [put]
          by_cases hc : a' = a
          · subst hc
            change mapFind s.problem.pmap a' = some p' at hp'
            rw [ha] at hp'; cases hp'
            simp only [upd, if_true, Option.getD_some, true_and]
            split_ifs
            · rfl
            · exact h.lo _ _ ha j
          · have hne : p' ≠ p := fun e => hc (same_block h.inv (e ▸ hp') ha)
            simp only [upd, if_neg hne, if_neg (fun h : a' = a ∧ j = i => hc h.1)]
            exact h.lo a' p' hp' j
  | setUpper a i v =>
    simp only [step, Known.step, setUpper]
    cases ha : mapFind s.problem.pmap a with
    | none => rw [params_none h.inv ha]; exact rfl
    | some p =>
      obtain ⟨b, hb, hab, hk, hl⟩ := params_some h.inv ha
      simp only [hk, getP, hb, ok_bind, setArrayUpper]
      by_cases hi : b.size ≤ i
      · rw [if_pos hi, if_neg (show ¬ i < b.info.size from Nat.not_lt.2 hi)]; exact rfl
      · rw [if_neg hi, if_pos (show i < b.info.size from Nat.not_le.1 hi)]
        by_cases hv : big ≤ v ∧ (s.upper p).isNone
        · rw [if_pos hv]
          have hv' : v = big := le_antisymm ho hv.1
          have hn : s.upper p = none := by simpa using hv.2
          refine ⟨h.inv, h.lo, fun a' p' hp' j => ?_⟩
          have h0 := h.up a' p' hp' j
          have e : upd s.upper p (s.upper p) = s.upper := by
            funext q; unfold upd; split_ifs with hq
            · rw [hq]
            · rfl
          simp only [e, h0, put]
          split_ifs with hc
          · rw [← h0, hv']
            have hpp : p' = p := by
              have h1 := hc.1 ▸ hp'; rw [ha] at h1; exact (Option.some.inj h1).symm
            rw [hpp, hn]; rfl
          · rfl
        · rw [if_neg hv]
          refine ⟨h.inv, h.lo, fun a' p' hp' j => ?_⟩
          simp only [put]
          by_cases hc : a' = a
          · subst hc
            change mapFind s.problem.pmap a' = some p' at hp'
            rw [ha] at hp'; cases hp'
            simp only [upd, if_true, Option.getD_some, true_and]
            split_ifs
            · rfl
            · exact h.up _ _ ha j
          · have hne : p' ≠ p := fun e => hc (same_block h.inv (e ▸ hp') ha)
            simp only [upd, if_neg hne, if_neg (fun h : a' = a ∧ j = i => hc h.1)]
            exact h.up a' p' hp' j

theorem run_rel (env : Env) (hsafe : env.disableSafety = false) (small big : K) (l : List (Call K))
    (hl : ∀ o ∈ l, Finite small big o) (s : State K) (k : Known K) (h : Rel env small big s k) :
    Sim (Rel env small big) (run env small big s l) (k.run env small big l) := by
  induction l generalizing s k with
  | nil => exact h
  | cons o l ih =>
    exact Sim.bind (step_rel env hsafe small big s k h o (hl o List.mem_cons_self))
      fun s1 k1 _ _ h1 => ih (fun o' ho' => hl o' (List.mem_cons_of_mem _ ho')) s1 k1 h1

/-- What a user can ask agrees with what is known: the problem as in C01, and the two bounds of every address. -/
structure Answers (env : Env) (small big : K) (s : State K) (k : Known K) : Prop where
  problem : Agrees env s.problem k.problem
  absent : ∀ a, k.problem.params a = none → ∀ i,
    getLower small s a i = .error .abort ∧ getUpper big s a i = .error .abort
  present : ∀ a b, k.problem.params a = some b → ∀ i < b.size,
    getLower small s a i = .ok (k.lower a i) ∧ getUpper big s a i = .ok (k.upper a i)

theorem Rel.answers {env : Env} {small big : K} {s : State K} {k : Known K} (h : Rel env small big s k) :
    Answers env small big s k := by
  refine ⟨h.inv.agrees, fun a ha i => ?_, fun a b hab i hi => ?_⟩
  · cases hm : mapFind s.problem.pmap a with
    | none => simp only [getLower, getUpper, hm, and_self]
    | some p =>
      obtain ⟨b, -, -, hk, -⟩ := params_some h.inv hm
      rw [ha] at hk; cases hk
  · cases hm : mapFind s.problem.pmap a with
    | none => rw [params_none h.inv hm] at hab; cases hab
    | some p =>
      obtain ⟨b', hb, -, hk, -⟩ := params_some h.inv hm
      rw [hab] at hk; cases hk
      have key : ∀ (d : K) (arr : Option (ℕ → K)), readArray d b'.size arr i = .ok (arr.getD (fun _ => d) i) := by
        intro d arr
        cases arr with
        | none => rfl
        | some f => exact if_pos hi
      simp only [getLower, getUpper, hm, getP, hb, ok_bind, key]
      rw [h.lo a p hm, h.up a p hm]
      exact ⟨rfl, rfl⟩

/-- C98.  For every history of calls on a new problem, in any order, with finite bounds: the calls fail exactly when
the user's own account says so, and otherwise the bound asked back of every coordinate of every block is the one last
set since the block was added, or the largest (least) number if none was. -/
theorem bounds_history (env : Env) (hsafe : env.disableSafety = false) (small big : K) (l : List (Call K))
    (hl : ∀ o ∈ l, Finite small big o) :
    match run env small big init l, (Known.empty small big).run env small big l with
    | .ok s, .ok k => Answers env small big s k
    | .error e, .error e' => e = e'
    | _, _ => False := by
  have h0 : Rel env small big (init : State K) (Known.empty small big) :=
    ⟨inv_init env, fun _ _ _ _ => rfl, fun _ _ _ _ => rfl⟩
  have := run_rel env hsafe small big l hl _ _ h0
  cases h1 : run env small big init l <;> cases h2 : (Known.empty small big).run env small big l <;>
    rw [h1, h2] at this
  · exact this
  · exact this
  · exact this
  · exact this.answers

end Ceres.Bounds
