import Verif.Driver.Model

/-!
# Callbacks (C53) and write-back (C54)
-/
namespace Ceres.Driver

open Ceres.TrustRegion (CB Term)
open Ceres.Program (Prog Reduced removeFixedBlocks totalCost Used)

variable {V I K A : Type}

/-! ### Specification -/

/-- The memory `mem` holds `params` in the blocks `blocks` (the `i`-th value in the `i`-th block)
and agrees with `base` everywhere else. -/
structure Holds (blocks : List Nat) (params : List V) (base mem : Nat → V) : Prop where
  inside : ∀ (i b : Nat) (v : V), blocks[i]? = some b → params[i]? = some v → mem b = v
  outside : ∀ b, b ∉ blocks → mem b = base b

/-- The order in which callbacks are called in every iteration, from the options. -/
def roster (o : Options V I A) : List Kind :=
  (if o.updateState then [.stateUpdating] else []) ++ (if o.silent then [] else [.logging]) ++
    (List.range o.callbacks.length).map Kind.user ++
    (if o.checkGradients then [.gradientChecking] else [])

/-- No callback of the user writes parameter memory. -/
def ReadOnly (o : Options V I A) : Prop := ∀ f ∈ o.callbacks, ∀ it m a, (f it m a).1 = m

/-- Every parameter vector of a run has one value per block. -/
inductive Run.Sized (n : Nat) : Run V I K A → Prop where
  | initial (c : K) (next : Run V I K A) : next.Sized n → Run.Sized n (.initial c next)
  | evaluate (upd : A → A) (err : A → Bool) (next : A → Run V I K A) :
      (∀ a, (next a).Sized n) → Run.Sized n (.evaluate upd err next)
  | report (p : List V) (it : I) (next : A → Run V I K A) : p.length = n →
      (∀ a, (next a).Sized n) → Run.Sized n (.report p it next)
  | record (it : I) (next : Run V I K A) : next.Sized n → Run.Sized n (.record it next)
  | done (p : List V) (t : Own) : p.length = n → Run.Sized n (.done p t)

/-- Along every way through a run that starts with initial cost `k` after the iterations `h`:
`P k h params it` holds when iteration `it` is reported with `params` in the array of the
minimizer, and `Q k h params t` when the minimizer returns by itself with verdict `t`. -/
inductive Run.Along (P : K → List I → List V → I → Prop) (Q : K → List I → List V → Own → Prop) :
    K → List I → Run V I K A → Prop where
  | initial (k : K) (h : List I) (c : K) (next : Run V I K A) : Run.Along P Q c h next →
      Run.Along P Q k h (.initial c next)
  | evaluate (k : K) (h : List I) (upd : A → A) (err : A → Bool) (next : A → Run V I K A) :
      (∀ a, Run.Along P Q k h (next a)) → Run.Along P Q k h (.evaluate upd err next)
  | report (k : K) (h : List I) (p : List V) (it : I) (next : A → Run V I K A) : P k h p it →
      (∀ a, Run.Along P Q k (h ++ [it]) (next a)) → Run.Along P Q k h (.report p it next)
  | record (k : K) (h : List I) (it : I) (next : Run V I K A) : Run.Along P Q k (h ++ [it]) next →
      Run.Along P Q k h (.record it next)
  | done (k : K) (h : List I) (p : List V) (t : Own) : Q k h p t →
      Run.Along P Q k h (.done p t)

/-! ### One round of callbacks -/

/-- **C53 (one round).**  The callbacks called are a prefix of the list, each once and in order,
each seeing the world the previous one left; all but the last called answered "continue"; if all
answered so, all were called and the status is "continue", otherwise the status is the answer of
the last one called, which is not "continue". -/
theorem runCallbacks_spec (p : List V) (it : I) (cbs : List (Callback V I A)) (w : World V A) :
    ∃ called rest : List (Callback V I A), cbs = called ++ rest ∧
      (runCallbacks p it cbs w).2.2.map (fun c => (c.kind, c.iteration, c.params)) =
        called.map (fun c => (c.kind, it, p)) ∧
      (∀ c ∈ (runCallbacks p it cbs w).2.2, ∃ cb ∈ cbs, c.kind = cb.kind ∧
        c.answer = (cb.run p it c.seen).2) ∧
      (((runCallbacks p it cbs w).2.1 = .continue ∧ rest = [] ∧
          ∀ c ∈ (runCallbacks p it cbs w).2.2, c.answer = .continue) ∨
        ∃ pre c, (runCallbacks p it cbs w).2.2 = pre ++ [c] ∧
          (∀ d ∈ pre, d.answer = .continue) ∧ c.answer ≠ .continue ∧
          (runCallbacks p it cbs w).2.1 = c.answer) := by
  induction cbs generalizing w with
  | nil => exact ⟨[], [], by simp [runCallbacks]⟩
  | cons cb cbs ih =>
    unfold runCallbacks
    by_cases h : (cb.run p it w).2 = .continue
    · rw [if_pos h]
      obtain ⟨called, rest, e1, e2, e3, e4⟩ := ih (cb.run p it w).1
      refine ⟨cb :: called, rest, by rw [e1]; rfl, by simp [e2], ?_, ?_⟩
      · intro c hc
        simp only [List.mem_cons] at hc
        rcases hc with rfl | hc
        · exact ⟨cb, by simp, rfl, rfl⟩
        · obtain ⟨d, hd, h1, h2⟩ := e3 c hc
          exact ⟨d, by simp [hd], h1, h2⟩
      · rcases e4 with ⟨a, b, c⟩ | ⟨pre, c, a, b, d, e⟩
        · left
          refine ⟨a, b, ?_⟩
          intro d hd
          simp only [List.mem_cons] at hd
          rcases hd with rfl | hd
          · exact h
          · exact c d hd
        · right
          refine ⟨⟨cb.kind, it, p, w, (cb.run p it w).2⟩ :: pre, c, by simp [a], ?_, d, e⟩
          intro x hx
          simp only [List.mem_cons] at hx
          rcases hx with rfl | hx
          · exact h
          · exact b x hx
    · rw [if_neg h]
      refine ⟨[cb], cbs, rfl, rfl, ?_, Or.inr ⟨[], _, rfl, by simp, h, rfl⟩⟩
      intro c hc
      simp only [List.mem_singleton] at hc
      subst hc
      exact ⟨cb, by simp, rfl, rfl⟩

/-! ### A run with callbacks -/

/-- What a run does to its callbacks. -/
structure CallsOk (cbs : List (Callback V I A)) (r : Result V I K A) : Prop where
  sub : r.reported.Sublist r.iters
  order : r.calls.map (fun c => (c.iteration, c.kind)) <+:
    r.reported.flatMap (fun it => cbs.map (fun cb => (it, cb.kind)))
  answers : ∀ c ∈ r.calls, ∃ cb ∈ cbs, c.kind = cb.kind ∧
    c.answer = (cb.run c.params c.iteration c.seen).2
  through : (∀ c ∈ r.calls, c.answer = .continue) → r.calls.map (fun c => (c.iteration, c.kind)) =
    r.reported.flatMap (fun it => cbs.map (fun cb => (it, cb.kind)))
  stop : ∀ pre c post, r.calls = pre ++ c :: post → c.answer ≠ .continue →
    post = [] ∧ r.iters.getLast? = some c.iteration ∧ r.params = c.params ∧
    r.term = some (if c.answer = .abort then .userFailure else .userSuccess)
  user : (r.term = some .userSuccess → ∃ c ∈ r.calls, c.answer = .terminateSuccessfully) ∧
    (r.term = some .userFailure → ∃ c ∈ r.calls, c.answer = .abort)

theorem exec_callsOk (cbs : List (Callback V I A)) (run : Run V I K A) (k : K) (w : World V A) :
    CallsOk cbs (exec cbs run k w) := by
  induction run generalizing k w with
  | initial c next ih => exact ih c w
  | evaluate upd err next ih => exact ih _ _ _
  | record it next ih =>
    obtain ⟨h0, h1, h2, h3, h4, h5⟩ := ih k w
    refine ⟨h0.cons _, h1, h2, h3, ?_, h5⟩
    intro pre c post heq hne
    obtain ⟨g1, g2, g3, g4⟩ := h4 pre c post heq hne
    refine ⟨g1, ?_, g3, g4⟩
    simp only [exec]
    rw [List.getLast?_cons, g2]; rfl
  | done p t =>
    refine ⟨by simp [exec], by simp [exec], by simp [exec], by simp [exec], by simp [exec], ?_⟩
    cases t <;> simp [exec, Own.term]
  | report p it next ih =>
    obtain ⟨called, rest, e1, e2, e3, e4⟩ := runCallbacks_spec p it cbs w
    have e2' : (runCallbacks p it cbs w).2.2.map (fun c => (c.iteration, c.kind)) =
        called.map (fun c => (it, c.kind)) := by
      have := congrArg (List.map (fun t : Kind × I × List V => (t.2.1, t.1))) e2
      simpa [List.map_map, Function.comp_def] using this
    have e2p : ∀ c ∈ (runCallbacks p it cbs w).2.2, c.iteration = it ∧ c.params = p := by
      intro c hc
      have : (c.kind, c.iteration, c.params) ∈ called.map (fun c => (c.kind, it, p)) := by
        rw [← e2]; exact List.mem_map.2 ⟨c, hc, rfl⟩
      obtain ⟨d, -, hd⟩ := List.mem_map.1 this
      simp only [Prod.mk.injEq] at hd
      exact ⟨hd.2.1.symm, hd.2.2.symm⟩
    have e3' : ∀ c ∈ (runCallbacks p it cbs w).2.2, ∃ cb ∈ cbs, c.kind = cb.kind ∧
        c.answer = (cb.run c.params c.iteration c.seen).2 := by
      intro c hc
      obtain ⟨h1, h2⟩ := e2p c hc
      rw [h1, h2]
      exact e3 c hc
    unfold exec
    rcases e4 with ⟨a, b, c⟩ | ⟨pre, c, a, b, d, e⟩
    · -- everything continued
      rw [a]
      simp only
      subst b
      simp only [List.append_nil] at e1
      subst e1
      have h := ih (runCallbacks p it cbs w).1.aux k (runCallbacks p it cbs w).1
      refine ⟨h.sub.cons_cons _, ?_, ?_, ?_, ?_, ?_⟩
      · simp only [List.map_append, List.flatMap_cons, e2']
        exact List.prefix_append_right_inj _ |>.2 h.order
      · intro x hx
        rcases List.mem_append.1 hx with hx | hx
        · exact e3' x hx
        · exact h.answers x hx
      · intro hall
        simp only [List.map_append, List.flatMap_cons, e2']
        rw [h.through (fun x hx => hall x (List.mem_append_right _ hx))]
      · intro pre x post heq hne
        have hmem : x ∉ (runCallbacks p it cbs w).2.2 := fun hx => hne (c x hx)
        have key : ∃ l, (exec cbs (next (runCallbacks p it cbs w).1.aux) k
            (runCallbacks p it cbs w).1).calls = l ++ x :: post := by
          rcases List.append_eq_append_iff.1 heq with ⟨l, h1, h2⟩ | ⟨l, h1, h2⟩
          · exact ⟨l, h2⟩
          · cases l with
            | nil => exact ⟨[], h2.symm⟩
            | cons y l =>
              simp only [List.cons_append, List.cons.injEq] at h2
              obtain ⟨rfl, h2⟩ := h2
              exact absurd (by rw [h1]; simp) hmem
        obtain ⟨l, h2⟩ := key
        obtain ⟨g1, g2, g3, g4⟩ := h.stop l x post h2 hne
        refine ⟨g1, ?_, g3, g4⟩
        simp only
        rw [List.getLast?_cons, g2]; rfl
      · refine ⟨fun ht => ?_, fun ht => ?_⟩
        · obtain ⟨x, hx, hx'⟩ := h.user.1 ht
          exact ⟨x, List.mem_append_right _ hx, hx'⟩
        · obtain ⟨x, hx, hx'⟩ := h.user.2 ht
          exact ⟨x, List.mem_append_right _ hx, hx'⟩
    · have hcm : c ∈ (runCallbacks p it cbs w).2.2 := by rw [a]; simp
      have main : ∀ (t : Term), t = (if c.answer = .abort then Term.userFailure else .userSuccess) →
          CallsOk cbs (⟨p, some t, k, [it], (runCallbacks p it cbs w).1,
            (runCallbacks p it cbs w).2.2, [it]⟩ : Result V I K A) := by
        intro t ht
        refine ⟨List.Sublist.refl _, ?_, e3', ?_, ?_, ?_⟩
        · simp only [e2', List.flatMap_cons, List.flatMap_nil, List.append_nil]
          rw [e1, List.map_append]
          exact List.prefix_append _ _
        · intro hall
          exact absurd (hall c hcm) d
        · intro pre' x post heq hne
          simp only at heq
          rw [a] at heq
          have hx : x ∉ pre := fun hx => hne (b x hx)
          have hpost : post = [] ∧ x = c := by
            rcases List.append_eq_append_iff.1 heq with ⟨l, h1, h2⟩ | ⟨l, h1, h2⟩
            · cases l with
              | nil => simp only [List.nil_append, List.cons.injEq] at h2; exact ⟨h2.2.symm, h2.1.symm⟩
              | cons y l => simp at h2
            · cases l with
              | nil => simp only [List.nil_append, List.cons.injEq] at h2; exact ⟨h2.2, h2.1⟩
              | cons y l =>
                simp only [List.cons_append, List.cons.injEq] at h2
                obtain ⟨rfl, -⟩ := h2
                exact absurd (by rw [h1]; simp) hx
          obtain ⟨rfl, rfl⟩ := hpost
          obtain ⟨g1, g2⟩ := e2p x hcm
          exact ⟨rfl, by simp [g1], by simp [g2], by simp [ht]⟩
        · simp only [ht]
          refine ⟨fun h => ⟨c, hcm, ?_⟩, fun h => ⟨c, hcm, ?_⟩⟩
          · cases hc : c.answer <;> simp_all
          · cases hc : c.answer <;> simp_all
      rw [e]
      cases hc : c.answer with
      | «continue» => exact absurd hc d
      | terminateSuccessfully => exact main _ (by simp [hc])
      | abort => exact main _ (by simp [hc])

/-- What holds along a run holds of its result. -/
theorem exec_along {P : K → List I → List V → I → Prop} {Q : K → List I → List V → Own → Prop}
    (cbs : List (Callback V I A)) {k : K} {h : List I} {run : Run V I K A}
    (hr : run.Along P Q k h) (w : World V A) :
    (∀ c ∈ (exec cbs run k w).calls, ∃ k' h',
      h' ++ [c.iteration] <+: h ++ (exec cbs run k w).iters ∧ P k' h' c.params c.iteration) ∧
    ((∃ h' it, h ++ (exec cbs run k w).iters = h' ++ [it] ∧
        P (exec cbs run k w).initialCost h' (exec cbs run k w).params it ∧
        ((exec cbs run k w).term = some .userSuccess ∨
          (exec cbs run k w).term = some .userFailure)) ∨
      ∃ t : Own, (exec cbs run k w).term = t.term ∧
        Q (exec cbs run k w).initialCost (h ++ (exec cbs run k w).iters)
          (exec cbs run k w).params t) := by
  induction hr generalizing w with
  | initial k h c next _ ih => exact ih w
  | evaluate k h upd err next _ ih => exact ih _ _
  | record k h it next _ ih =>
    have := ih w
    simp only [List.append_assoc, List.singleton_append] at this
    exact this
  | done k h p t hq => exact ⟨by simp [exec], Or.inr ⟨t, rfl, by simpa [exec] using hq⟩⟩
  | report k h p it next hp _ ih =>
    have hc : ∀ c ∈ (runCallbacks p it cbs w).2.2, c.iteration = it ∧ c.params = p := by
      obtain ⟨called, rest, e1, e2, -⟩ := runCallbacks_spec p it cbs w
      intro c hc
      have : (c.kind, c.iteration, c.params) ∈ called.map (fun c => (c.kind, it, p)) := by
        rw [← e2]; exact List.mem_map.2 ⟨c, hc, rfl⟩
      obtain ⟨d, -, hd⟩ := List.mem_map.1 this
      simp only [Prod.mk.injEq] at hd
      exact ⟨hd.2.1.symm, hd.2.2.symm⟩
    unfold exec
    split
    · obtain ⟨h1, h2⟩ := ih (runCallbacks p it cbs w).1.aux (runCallbacks p it cbs w).1
      simp only [List.append_assoc, List.singleton_append] at h1 h2
      refine ⟨?_, h2⟩
      intro c hcc
      rcases List.mem_append.1 hcc with hcc | hcc
      · obtain ⟨g1, g2⟩ := hc c hcc
        refine ⟨k, h, ?_, by rw [g1, g2]; exact hp⟩
        rw [g1]
        simp only
        exact List.prefix_append_right_inj _ |>.2 ⟨_, rfl⟩
      · exact h1 c hcc
    · refine ⟨fun c hcc => ?_, Or.inl ⟨h, it, rfl, hp, Or.inl rfl⟩⟩
      obtain ⟨g1, g2⟩ := hc c hcc
      exact ⟨k, h, by rw [g1]; exact List.prefix_rfl, by rw [g1, g2]; exact hp⟩
    · refine ⟨fun c hcc => ?_, Or.inl ⟨h, it, rfl, hp, Or.inr rfl⟩⟩
      obtain ⟨g1, g2⟩ := hc c hcc
      exact ⟨k, h, by rw [g1]; exact List.prefix_rfl, by rw [g1, g2]; exact hp⟩

end Ceres.Driver
