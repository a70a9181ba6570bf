import Verif.EvalCallback.Spec

/-!
# Reasoning about programs that ask for evaluations
-/
namespace Ceres.EvalCallback

namespace Prog

variable {Q R A B : Type}

@[simp] theorem run_bind (f : Q → R) (p : Prog Q R A) (k : A → Prog Q R B) :
    (p.bind k).run f = (k (p.run f)).run f := by
  induction p with
  | ret a => rfl
  | ask q c ih => exact ih (f q)

end Prog

variable {U X R A B : Type}

/-- Every question meets `C`, which gets the point of the last successful evaluation (`none` if
the last one failed), and the outcome meets `Post`; whatever the answers are. -/
def Meets (ok : R → Bool) (C : Option X → Call X → Prop) :
    Option X → Prog (Call X) R A → (Option X → A → Prop) → Prop
  | last, .ret a, Post => Post last a
  | last, .ask q k, Post =>
    C last q ∧ ∀ r, Meets ok C (if ok r then some q.point else none) (k r) Post

theorem meets_bind (ok : R → Bool) (C : Option X → Call X → Prop) (last : Option X)
    (p : Prog (Call X) R A) (k : A → Prog (Call X) R B) (Post : Option X → B → Prop) :
    Meets ok C last (p.bind k) Post ↔
      Meets ok C last p (fun l a => Meets ok C l (k a) Post) := by
  induction p generalizing last with
  | ret a => exact Iff.rfl
  | ask q c ih =>
    simp only [Prog.bind, Meets]
    exact and_congr_right fun _ => forall_congr' fun r => ih r _

theorem Meets.mono {ok : R → Bool} {C C' : Option X → Call X → Prop} {last : Option X}
    {p : Prog (Call X) R A} {Post Post' : Option X → A → Prop} (h : Meets ok C last p Post)
    (hC : ∀ l q, C l q → C' l q) (hP : ∀ l a, Post l a → Post' l a) :
    Meets ok C' last p Post' := by
  induction p generalizing last with
  | ret a => exact hP _ _ h
  | ask q c ih => exact ⟨hC _ _ h.1, fun r => ih r (h.2 r)⟩

/-- A question that says the point is not new is about the point last evaluated. -/
def Truthful (last : Option X) (q : Call X) : Prop := q.isNew = false → last = some q.point

theorem lastPrepared_append (l : List (Event X)) (e : Event X) :
    lastPrepared (l ++ [e]) =
      match e with
      | .prepare x _ _ => some x
      | .residuals _ _ => lastPrepared l := by
  induction l with
  | nil => cases e <;> rfl
  | cons a l ih =>
    cases e with
    | prepare x j b => simp only [List.cons_append, lastPrepared, ih]
    | residuals x j => simp only [List.cons_append, lastPrepared, ih]

theorem Protocol.append_prepare {l : List (Event X)} (h : Protocol l) {x : X} {j b : Bool}
    (hb : lastPrepared l ≠ some x → b = true) : Protocol (l ++ [.prepare x j b]) where
  prepared i y j' hi := by
    rcases Nat.lt_or_ge i l.length with hl | hl
    · rw [List.getElem?_append_left hl] at hi
      obtain ⟨b', h0, hp⟩ := h.prepared i y j' hi
      exact ⟨b', h0, by rw [List.getElem?_append_left (by omega)]; exact hp⟩
    · rw [List.getElem?_append_right hl] at hi
      rcases Nat.eq_zero_or_pos (i - l.length) with hz | hz
      · rw [hz] at hi; simp at hi
      · rw [List.getElem?_eq_none (by simp; omega)] at hi; simp at hi
  truthful i y j' b' hi hlast := by
    rcases Nat.lt_or_ge i l.length with hl | hl
    · rw [List.getElem?_append_left hl] at hi
      rw [List.take_append_of_le_length (by omega)] at hlast
      exact h.truthful i y j' b' hi hlast
    · rw [List.getElem?_append_right hl] at hi
      rcases Nat.eq_zero_or_pos (i - l.length) with hz | hz
      · rw [hz] at hi
        have : i = l.length := by omega
        subst this
        simp at hi
        obtain ⟨rfl, rfl, rfl⟩ := hi
        rw [List.take_left] at hlast
        exact hb hlast
      · rw [List.getElem?_eq_none (by simp; omega)] at hi; simp at hi

theorem Protocol.append_residuals {l : List (Event X)} {x : X} {j b : Bool}
    (h : Protocol (l ++ [.prepare x j b])) :
    Protocol (l ++ [.prepare x j b] ++ [.residuals x j]) where
  prepared i y j' hi := by
    set m := l ++ [Event.prepare x j b] with hm
    rcases Nat.lt_or_ge i m.length with hl | hl
    · rw [List.getElem?_append_left hl] at hi
      obtain ⟨b', h0, hp⟩ := h.prepared i y j' hi
      exact ⟨b', h0, by rw [List.getElem?_append_left (by omega)]; exact hp⟩
    · rw [List.getElem?_append_right hl] at hi
      rcases Nat.eq_zero_or_pos (i - m.length) with hz | hz
      · rw [hz] at hi
        simp at hi
        obtain ⟨rfl, rfl⟩ := hi
        have hi' : i = l.length + 1 := by
          have : m.length = l.length + 1 := by simp [hm]
          omega
        subst hi'
        refine ⟨b, by omega, ?_⟩
        simp [hm]
      · rw [List.getElem?_eq_none (by simp; omega)] at hi; simp at hi
  truthful i y j' b' hi hlast := by
    set m := l ++ [Event.prepare x j b] with hm
    rcases Nat.lt_or_ge i m.length with hl | hl
    · rw [List.getElem?_append_left hl] at hi
      rw [List.take_append_of_le_length (by omega)] at hlast
      exact h.truthful i y j' b' hi hlast
    · rw [List.getElem?_append_right hl] at hi
      rcases Nat.eq_zero_or_pos (i - m.length) with hz | hz
      · rw [hz] at hi; simp at hi
      · rw [List.getElem?_eq_none (by simp; omega)] at hi; simp at hi

theorem protocol_nil : Protocol ([] : List (Event X)) where
  prepared i x j h := by simp at h
  truthful i x j b h := by simp at h

/-- A program whose questions are truthful makes the evaluator keep the contract, whatever the
user's code answers. -/
theorem exec_protocol {ok : R → Bool} {c : UserCode U X R} (hfail : ok c.failed = false)
    {p : Prog (Call X) R A} {Post : Option X → A → Prop} {last : Option X}
    (hp : Meets ok Truthful last p Post) (w : World U X) (hw : Protocol w.events)
    (hlast : ∀ x, last = some x → lastPrepared w.events = some x) :
    Protocol (exec c true p w).1.events := by
  induction p generalizing last w with
  | ret a => exact hw
  | ask q k ih =>
    rw [exec]
    obtain ⟨hq, hk⟩ := hp
    by_cases hs : c.stateOk q.point = false
    · have he : evaluate c true w q = (w, c.failed) := by rw [evaluate, if_pos hs]
      rw [he]
      refine ih _ (hk _) w hw ?_
      intro x hx
      rw [hfail] at hx
      simp at hx
    · have he : evaluate c true w q =
          (⟨q.point, c.prepare q.point q.jacobians q.isNew w.user,
            w.events ++ [.prepare q.point q.jacobians q.isNew] ++
              [.residuals q.point q.jacobians]⟩,
            c.residuals (c.prepare q.point q.jacobians q.isNew w.user) q.point q.jacobians) := by
        rw [evaluate, if_neg hs]; rfl
      rw [he]
      refine ih _ (hk _) _ ?_ ?_
      · refine Protocol.append_residuals (Protocol.append_prepare hw ?_)
        intro hne
        cases hb : q.isNew with
        | true => rfl
        | false => exact absurd (hlast _ (hq hb)) hne
      · intro x hx
        split at hx
        · rw [lastPrepared_append, lastPrepared_append]
          exact hx
        · simp at hx

/-- With user code that relies on the contract, a program whose questions are truthful comes to
the same end as if cost functions were evaluated without any shared data. -/
theorem exec_honours {ok : R → Bool} {c : UserCode U X R} {f : X → Bool → R}
    {Ready : U → X → Bool → Prop} (hc : Honours c f Ready) (hfail : ok c.failed = false)
    {p : Prog (Call X) R A} {Post : Option X → A → Prop} {last : Option X}
    (hp : Meets ok Truthful last p Post) (w : World U X)
    (hlast : ∀ x, last = some x → ∃ j, Ready w.user x j) :
    (exec c true p w).2 = p.run fun q => f q.point q.jacobians := by
  induction p generalizing last w with
  | ret a => rfl
  | ask q k ih =>
    rw [exec, Prog.run]
    obtain ⟨hq, hk⟩ := hp
    by_cases hs : c.stateOk q.point = false
    · have he : evaluate c true w q = (w, c.failed) := by rw [evaluate, if_pos hs]
      rw [he, hc.failed _ _ hs]
      refine ih _ (hk _) w ?_
      intro x hx
      rw [hfail] at hx
      simp at hx
    · have he : evaluate c true w q =
          (⟨q.point, c.prepare q.point q.jacobians q.isNew w.user,
            w.events ++ [.prepare q.point q.jacobians q.isNew] ++
              [.residuals q.point q.jacobians]⟩,
            c.residuals (c.prepare q.point q.jacobians q.isNew w.user) q.point q.jacobians) := by
        rw [evaluate, if_neg hs]; rfl
      have hr : Ready (c.prepare q.point q.jacobians q.isNew w.user) q.point q.jacobians := by
        cases hb : q.isNew with
        | true => exact hc.fresh _ _ _
        | false =>
          obtain ⟨j, hj⟩ := hlast _ (hq hb)
          exact hc.again _ _ _ _ hj
      rw [he, hc.answer _ _ _ (by simpa using hs) hr]
      refine ih _ (hk _) _ ?_
      intro x hx
      split at hx
      · cases hx; exact ⟨_, hr⟩
      · simp at hx

/-- A program that asks only about points of `B` shows the user only points of `B`. -/
theorem exec_seesOnly {ok : R → Bool} {B : X → Prop} {c : UserCode U X R} {hasCallback : Bool}
    {p : Prog (Call X) R A} {Post : Option X → A → Prop} {last : Option X}
    (hp : Meets ok (fun _ q => B q.point) last p Post) (w : World U X)
    (hw : SeesOnly B w.events) : SeesOnly B (exec c hasCallback p w).1.events := by
  induction p generalizing last w with
  | ret a => exact hw
  | ask q k ih =>
    rw [exec]
    obtain ⟨hq, hk⟩ := hp
    refine ih _ (hk _) _ ?_
    unfold evaluate
    by_cases hs : c.stateOk q.point = false
    · rw [if_pos hs]; exact hw
    · rw [if_neg hs]
      intro e he
      cases hasCallback with
      | true =>
        simp only [if_true, List.mem_append, List.mem_singleton] at he
        rcases he with (he | he) | he
        · exact hw e he
        · subst he; exact hq
        · subst he; exact hq
      | false =>
        simp only [Bool.false_eq_true, if_false, List.mem_append, List.mem_singleton] at he
        rcases he with he | he
        · exact hw e he
        · subst he; exact hq

end Ceres.EvalCallback
