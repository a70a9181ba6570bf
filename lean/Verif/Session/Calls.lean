import Verif.Session.Basic
/-! `Problem::Evaluate` and `Problem::EvaluateResidualBlock` leave no trace. -/
namespace Ceres.Session

open Ceres.Problem (Err State PBlock upd mapFind getR)

variable {V : Type} {env : Env V} {s : State}

/-- The blocks are as a call must find them. -/
structure Ready (s : State) (w : Work V) : Prop where
  flags : Flags s w
  home : ∀ p ∈ s.pvec, w.ptr p = .user

/-- The blocks are as a call must leave them. -/
structure Back (s : State) (mem : Nat → V) (w : Work V) : Prop where
  mem : w.mem = mem
  home : ∀ p ∈ s.pvec, w.ptr p = .user
  fields : ∀ p b, s.pheap p = some b → w.isConst p = b.isConst ∧ w.index p = (b.index : Int)

theorem lookup_mem (hw : Wf s) : ∀ (as ps : List Nat), lookup s as = .ok ps →
    ∀ p ∈ ps, p ∈ s.pvec := by
  intro as
  induction as with
  | nil => intro ps h; simp [lookup] at h; subst h; simp
  | cons a as ih =>
    intro ps h
    rw [lookup] at h
    cases hf : mapFind s.pmap a with
    | none => simp [hf] at h
    | some p =>
      simp only [hf] at h
      cases hl : lookup s as with
      | error e => simp [hl] at h
      | ok qs =>
        simp only [hl, ok_bind, Except.ok.injEq] at h
        subst h
        intro q hq
        rcases List.mem_cons.1 hq with rfl | hq
        · exact (hw.find a q hf).1
        · exact ih qs hl q hq

/-- From the choice of blocks to the return (problem_impl.cc:667-747), for a program `(rs, ps)`
whose blocks have the user's constness while all others are constant. -/
theorem evaluate_core (hw : Wf s) (rs ps made : List Nat) (sel : Nat → Bool) (w : Work V)
    (hps : ∀ p ∈ ps, p ∈ s.pvec) (hhome : ∀ p ∈ s.pvec, w.ptr p = .user)
    (hcon : ∀ p ∈ ps, isConstant env s w p = !varying env s p)
    (hfl : Flags s (setVarying made w))
    (hj : jacAll env s (here s w.mem) s.pvec = true) :
    ∃ w', (do
      let w2 := setIndex s rs ps w
      let (w3, _) ← setStates env s .user ps w2
      let c ← gather s w3 ps (fun p => w3.mem (addrOf s p))
      let (w4, log) ← evaluator env s ps rs sel w3.next (newBuf w3 c)
      let w5 ← leave env s (setVarying made w4)
      .ok (w5, log)) = .ok (w', if jacAll env s (here s w.mem) ps then
        seen s (here s w.mem) (rs.filter sel) else []) ∧ Back s w.mem w' := by
  obtain ⟨ι, e1, _⟩ := setIndex_eq (s := s) rs ps w
  obtain ⟨π, e2, p2, _⟩ := setStates_spec (env := env) (s := s) .user (here s w.mem) ps
    { w with index := ι } (by intro p _; rfl)
  have hπ : ∀ p ∈ s.pvec, π p = .user := by
    intro p hp
    rcases p2 p with h | ⟨_, _, h⟩
    · rw [h]; exact hhome p hp
    · exact h
  have e3 := gather_spec (s := s) { w with index := ι, ptr := π } ps (by
    intro p hp
    rw [val_eq]
    show look s _ (π p) p = _
    rw [hπ p (hps p hp)]; rfl)
  obtain ⟨π', e4, p4, _⟩ := evaluator_spec (env := env) (s := s) ps rs sel w.next
    (newBuf { w with index := ι, ptr := π } (here s w.mem)) (here s w.mem) (here s w.mem)
    (by simp [newBuf, upd]) (fun _ _ _ _ _ _ => rfl) (by
      intro r hr p hp _
      rw [val_eq]
      show look s _ (π p) p = _
      rw [hπ p (hw.params r p hp)]; rfl)
  have hc : ∀ p ∈ ps, isConstant env s
      (newBuf { w with index := ι, ptr := π } (here s w.mem)) p = !varying env s p := hcon
  obtain ⟨w', e5, m5, u5, f5⟩ := leave_spec (env := env) hw
    (w := setVarying made { newBuf { w with index := ι, ptr := π } (here s w.mem) with
      ptr := π' }) (A := ps.filter (varying env s)) hfl
    (by
      intro p hp hA
      show π' p = .user
      rcases p4 p with h | ⟨h1, h2, _⟩
      · rw [h]; exact hπ p hp
      · refine absurd (List.mem_filter.2 ⟨h1, ?_⟩) hA
        rw [hc p h1] at h2
        simpa using h2)
    (fun p hp => (List.mem_filter.1 hp).2) hj
  refine ⟨w', ?_, ⟨m5, u5, f5⟩⟩
  have hall : ps.all (fun p => isConstant env s
      (newBuf { w with index := ι, ptr := π } (here s w.mem)) p ||
        jacOk env s p (here s w.mem p)) = jacAll env s (here s w.mem) ps := by
    unfold jacAll
    rw [Bool.eq_iff_iff, List.all_eq_true, List.all_eq_true]
    constructor
    · intro h p hp; rw [← hc p hp]; exact h p hp
    · intro h p hp; rw [hc p hp]; exact h p hp
  rw [hall] at e4
  simp only [e1, e2, ok_bind]
  have e3' : gather s { w with index := ι, ptr := π } ps
      (fun p => w.mem (addrOf s p)) = .ok (here s w.mem) := e3
  rw [e3']
  simp only [ok_bind]
  rw [e4]
  simp only [ok_bind]
  rw [e5]
  rfl

/-- `Problem::Evaluate`. -/
theorem evaluate_sim (hw : Wf s) (rsel psel : List Nat) (sel : Nat → Bool) {w : Work V}
    (hr : Ready s w) (hj : jacAll env s (here s w.mem) s.pvec = true) :
    (∃ e, aEvaluate env ⟨s, w.mem⟩ rsel psel sel = .error e ∧
      evaluate env s rsel psel sel w = .error e) ∨
    (∃ log w', aEvaluate env ⟨s, w.mem⟩ rsel psel sel = .ok log ∧
      evaluate env s rsel psel sel w = .ok (w', log) ∧ Back s w.mem w') := by
  unfold aEvaluate evaluate
  by_cases hl : allLive s rsel = true
  swap
  · left; exact ⟨.ub, by simp [hl], by simp [hl]⟩
  · simp only [hl, not_true_eq_false, if_false]
    cases hf : lookup s psel with
    | error e => left; exact ⟨e, rfl, rfl⟩
    | ok found =>
      right
      simp only [ok_bind]
      by_cases hp : psel = []
      · subst hp
        simp only [if_true]
        obtain ⟨w', h1, h2⟩ := evaluate_core (env := env) hw (if rsel = [] then s.rvec else rsel)
          s.pvec [] sel w (fun p hp => hp) hr.home
          (fun p hp => isConstant_eq hw hr.flags hp) (by
            intro p b hb; simpa [setVarying] using hr.flags p b hb) hj
        refine ⟨_, w', ?_, h1, h2⟩
        rw [← apply_ite Except.ok]
      · simp only [hp, if_false]
        obtain ⟨w', h1, h2⟩ := evaluate_core (env := env) hw (if rsel = [] then s.rvec else rsel)
          found (exclude env s found w).2 sel (exclude env s found w).1
          (lookup_mem hw psel found hf) hr.home
          (by
            intro p hp
            have hpv := lookup_mem hw psel found hf p hp
            rw [← isConstant_eq (env := env) hw hr.flags hpv]
            unfold isConstant exclude
            simp [hp])
          (by
            intro p b hb
            have := hr.flags p b hb
            unfold setVarying exclude
            simp only [List.mem_filter]
            split
            · rename_i h
              have h' : isConstant env s w p = false := by
                have h2 := h.2
                simp only [Bool.and_eq_true, Bool.not_eq_true'] at h2
                exact h2.2
              unfold isConstant at h'
              rw [← this]
              simp at h'
              exact h'.1.symm
            · exact this) hj
        refine ⟨_, w', ?_, h1, h2⟩
        rw [← apply_ite Except.ok]
        rfl

/-- The loop of `EvaluateResidualBlock`. -/
theorem pointAll_spec (hw : Wf s) (want : Nat → Bool) (ps : List Nat) :
    ∀ (i : Nat) (w : Work V), (∀ p ∈ ps, p ∈ s.pvec) → Ready s w →
    (jacAll env s (here s w.mem) (beforeRefusal env s want ps i).1 = false ∧
      pointAll env s want ps i w = .error .abort) ∨
    (jacAll env s (here s w.mem) (beforeRefusal env s want ps i).1 = true ∧
      ∃ π : Nat → Ptr, pointAll env s want ps i w =
        .ok ({ w with ptr := π }, !(beforeRefusal env s want ps i).2) ∧
        ∀ p ∈ s.pvec, π p = .user) := by
  induction ps with
  | nil => intro i w _ hr; exact Or.inr ⟨rfl, w.ptr, rfl, hr.home⟩
  | cons p ps ih =>
    intro i w hps hr
    have hpv := hps p (by simp)
    have hc := isConstant_eq (env := env) hw hr.flags hpv
    have hps' : ∀ p' ∈ ps, p' ∈ s.pvec := fun p' h => hps p' (by simp [h])
    rw [pointAll, beforeRefusal]
    cases hv : varying env s p with
    | false =>
      rw [hv] at hc
      simp only [hc, Bool.not_false, if_true, Bool.false_eq_true, not_false_eq_true, true_and]
      by_cases hwt : want i = true
      · simp only [hwt, if_true]
        exact Or.inr ⟨rfl, w.ptr, rfl, hr.home⟩
      · simp only [hwt, if_false, Bool.false_eq_true]
        rcases ih (i + 1) w hps' hr with ⟨h1, h2⟩ | ⟨h1, h2⟩
        · exact Or.inl ⟨by simpa [jacAll, hv] using h1, h2⟩
        · exact Or.inr ⟨by simpa [jacAll, hv] using h1, h2⟩
    | true =>
      rw [hv] at hc
      simp only [hc, Bool.not_true, Bool.false_eq_true, if_false, not_true_eq_false, false_and]
      rw [setState_spec (v := here s w.mem p) hc rfl]
      simp only [ok_bind]
      by_cases hj : jacOk env s p (here s w.mem p) = true
      · simp only [hj, if_true]
        rcases ih (i + 1) { w with ptr := upd w.ptr p .user } hps' ⟨hr.flags, by
          intro q hq
          show upd w.ptr p .user q = .user
          by_cases hqp : q = p <;> simp [upd, hqp, hr.home q hq]⟩ with ⟨h1, h2⟩ | ⟨h1, h2⟩
        · exact Or.inl ⟨by simpa [jacAll, hv, hj] using h1, h2⟩
        · exact Or.inr ⟨by simpa [jacAll, hv, hj] using h1, h2⟩
      · simp only [hj, if_false, Bool.false_eq_true]
        exact Or.inl ⟨by simp [jacAll, hv, hj], trivial⟩

/-- `Problem::EvaluateResidualBlock`. -/
theorem evaluateResidualBlock_sim (hw : Wf s) (r : Nat) (want : Nat → Bool) {w : Work V}
    (hr : Ready s w) (hi : ∀ p b, s.pheap p = some b → w.index p = (b.index : Int)) :
    (∃ e, aEvaluateResidualBlock env ⟨s, w.mem⟩ r want = .error e ∧
      evaluateResidualBlock env s r want w = .error e) ∨
    (∃ log w', aEvaluateResidualBlock env ⟨s, w.mem⟩ r want = .ok log ∧
      evaluateResidualBlock env s r want w = .ok (w', log) ∧ Back s w.mem w') := by
  unfold aEvaluateResidualBlock evaluateResidualBlock getR
  cases hb : s.rheap r with
  | none => left; exact ⟨.ub, rfl, rfl⟩
  | some rb =>
    have hpar : ∀ p ∈ rb.params, p ∈ s.pvec := by
      intro p hp
      exact hw.params r p (by simp [paramsOf, hb, hp])
    simp only [ok_bind]
    rcases pointAll_spec (env := env) hw want rb.params 0 w hpar hr with
      ⟨h1, h2⟩ | ⟨h1, π, h2, h3⟩
    · left
      refine ⟨.abort, ?_, ?_⟩
      · simp [h1]
      · rw [h2]; rfl
    · right
      rw [h2]
      simp only [ok_bind, h1, if_true]
      have hback : Back s w.mem { w with ptr := π } :=
        ⟨rfl, h3, fun p b hb => ⟨hr.flags p b hb, hi p b hb⟩⟩
      cases hrf : (beforeRefusal env s want rb.params 0).2 with
      | true => exact ⟨[], _, by simp, by simp, hback⟩
      | false =>
        refine ⟨seen s (here s w.mem) [r], _, by simp, ?_, hback⟩
        simp only [Bool.not_false, if_true]
        rw [evalResiduals_spec (s := s) _ (here s w.mem)]
        · rfl
        · intro r' hr' p hp
          rw [val_eq]
          show look s _ (π p) p = _
          rw [h3 p (hw.params r' p hp)]; rfl

end Ceres.Session
