import Verif.TrustRegion.Model
import Mathlib.Data.List.Basic
import Mathlib.Data.Rat.Defs
import Mathlib.Algebra.Order.Ring.Rat
import Mathlib.Algebra.Order.Ring.Unbundled.Rat
import Mathlib.Algebra.Field.Rat
import Mathlib.Tactic.Linarith
import Mathlib.Tactic.NormNum

/-!
# C13: the (non-)monotonic step evaluator
-/
namespace Ceres.TrustRegion

variable {K : Type} [Field K] [LinearOrder K]

/-! ### Specification -/

/-- The evaluator after accepting a list of (cost, model cost change) pairs. -/
def Evaluator.run (e : Evaluator K) : List (K × K) → Evaluator K
  | [] => e
  | (c, m) :: h => (e.stepAccepted c m).run h

/-- Every step of the history has positive model cost change and was accepted because its
quality exceeded the threshold `q`. -/
def AcceptedRun (big lowest q : K) (e : Evaluator K) : List (K × K) → Prop
  | [] => True
  | (c, m) :: h => 0 < m ∧ q < e.stepQuality big lowest c m ∧
      AcceptedRun big lowest q (e.stepAccepted c m) h

/-- All costs seen, oldest first: the initial cost and the accepted ones. -/
def costs (init : K) (h : List (K × K)) : List K := init :: h.map Prod.fst

/-! ### Characterisation for arbitrary histories -/

/-- The state of the evaluator after seeing the costs `l` (oldest first). -/
structure Tracks (e : Evaluator K) (l : List K) : Prop where
  current : l.getLast? = some e.current
  ref : e.reference ∈ l
  run : ∃ pre tail, l = pre ++ e.minimum :: tail ∧ (∀ c ∈ pre, e.minimum < c) ∧
    (∀ c ∈ tail, e.minimum ≤ c) ∧ e.numNonmono = tail.length ∧
    e.candidate ∈ e.minimum :: tail ∧ ∀ c ∈ e.minimum :: tail, c ≤ e.candidate

theorem stepAccepted_fields (e : Evaluator K) (c m : K) :
    (e.stepAccepted c m).minimum = (e.accept3abc c m).minimum ∧
    (e.stepAccepted c m).current = c ∧
    (e.stepAccepted c m).candidate = (e.accept3abc c m).candidate ∧
    (e.stepAccepted c m).numNonmono = (e.accept3abc c m).numNonmono ∧
    (e.stepAccepted c m).maxNonmono = e.maxNonmono ∧
    ((e.stepAccepted c m).reference = e.reference ∨
      (e.stepAccepted c m).reference = (e.accept3abc c m).candidate) := by
  have h1 : (e.accept3abc c m).current = c ∧ (e.accept3abc c m).maxNonmono = e.maxNonmono ∧
      (e.accept3abc c m).reference = e.reference := by
    unfold Evaluator.accept3abc
    split
    · simp
    · split <;> simp
  unfold Evaluator.stepAccepted
  split
  · simp [h1]
  · simp [h1]

theorem tracks_step {e : Evaluator K} {l : List K} (h : Tracks e l) (c m : K) :
    Tracks (e.stepAccepted c m) (l ++ [c]) := by
  obtain ⟨f1, f2, f3, f4, -, f6⟩ := stepAccepted_fields e c m
  obtain ⟨pre, tail, hl, hpre, htail, hn, hcm, hcmax⟩ := h.run
  have hcand : ∃ pre tail, l ++ [c] = pre ++ (e.accept3abc c m).minimum :: tail ∧
      (∀ x ∈ pre, (e.accept3abc c m).minimum < x) ∧
      (∀ x ∈ tail, (e.accept3abc c m).minimum ≤ x) ∧
      (e.accept3abc c m).numNonmono = tail.length ∧
      (e.accept3abc c m).candidate ∈ (e.accept3abc c m).minimum :: tail ∧
      ∀ x ∈ (e.accept3abc c m).minimum :: tail, x ≤ (e.accept3abc c m).candidate := by
    unfold Evaluator.accept3abc
    by_cases h1 : c < e.minimum
    · rw [if_pos h1]
      refine ⟨l, [], by simp, ?_, by simp, rfl, by simp, by simp⟩
      intro x hx
      rw [hl, List.mem_append, List.mem_cons] at hx
      simp only
      rcases hx with hx | rfl | hx
      · exact lt_trans h1 (hpre x hx)
      · exact h1
      · exact lt_of_lt_of_le h1 (htail x hx)
    · rw [if_neg h1]
      have hle := not_lt.1 h1
      by_cases h2 : e.candidate < c
      · rw [if_pos h2]
        refine ⟨pre, tail ++ [c], by simp [hl], hpre, ?_, by simp [hn], by simp, ?_⟩
        · intro x hx
          rcases List.mem_append.1 hx with hx | hx
          · exact htail x hx
          · rw [List.mem_singleton.1 hx]; exact hle
        · intro x hx
          simp only
          rcases List.mem_cons.1 hx with rfl | hx
          · exact hle
          · rcases List.mem_append.1 hx with hx | hx
            · exact le_trans (hcmax x (List.mem_cons_of_mem _ hx)) (le_of_lt h2)
            · rw [List.mem_singleton.1 hx]
      · rw [if_neg h2]
        refine ⟨pre, tail ++ [c], by simp [hl], hpre, ?_, by simp [hn], ?_, ?_⟩
        · intro x hx
          rcases List.mem_append.1 hx with hx | hx
          · exact htail x hx
          · rw [List.mem_singleton.1 hx]; exact hle
        · simp only
          rcases List.mem_cons.1 hcm with h3 | h3
          · rw [h3]; exact List.mem_cons_self ..
          · exact List.mem_cons_of_mem _ (List.mem_append_left _ h3)
        · intro x hx
          simp only
          rcases List.mem_cons.1 hx with rfl | hx
          · exact hcmax _ (List.mem_cons_self ..)
          · rcases List.mem_append.1 hx with hx | hx
            · exact hcmax x (List.mem_cons_of_mem _ hx)
            · rw [List.mem_singleton.1 hx]; exact not_lt.1 h2
  refine ⟨by simp [f2], ?_, by rw [f1, f3, f4]; exact hcand⟩
  rcases f6 with h6 | h6
  · rw [h6]; exact List.mem_append_left _ h.ref
  · rw [h6]
    obtain ⟨p, t, h7, -, -, -, h8, -⟩ := hcand
    rw [h7]
    exact List.mem_append_right _ h8

theorem tracks_run {e : Evaluator K} {l : List K} (h : Tracks e l) (hist : List (K × K)) :
    Tracks (e.run hist) (l ++ hist.map Prod.fst) := by
  induction hist generalizing e l with
  | nil => simpa [Evaluator.run] using h
  | cons p hist ih =>
    obtain ⟨c, m⟩ := p
    have := ih (tracks_step h c m)
    simpa [Evaluator.run] using this

theorem tracks_init (c : K) (n : Nat) : Tracks (Evaluator.mk' c n) [c] :=
  ⟨rfl, by simp [Evaluator.mk'], [], [], rfl, by simp, by simp, rfl, by simp [Evaluator.mk'],
    by simp [Evaluator.mk']⟩

/-- **C13 (bookkeeping).**  After any history of accepted steps the evaluator's current cost is
the last cost; its minimum is the least cost seen, first reached at some point of the history;
the number of non-monotonic steps is the number of costs after that point; its candidate cost
is the largest cost from that point on; and its reference cost is one of the costs seen. -/
theorem evaluator_bookkeeping (init : K) (n : Nat) (h : List (K × K)) :
    let e := (Evaluator.mk' init n).run h
    (costs init h).getLast? = some e.current ∧
    (e.minimum ∈ costs init h ∧ ∀ c ∈ costs init h, e.minimum ≤ c) ∧
    e.reference ∈ costs init h ∧
    ∃ pre tail, costs init h = pre ++ e.minimum :: tail ∧ (∀ c ∈ pre, e.minimum < c) ∧
      e.numNonmono = tail.length ∧
      e.candidate ∈ e.minimum :: tail ∧ ∀ c ∈ e.minimum :: tail, c ≤ e.candidate := by
  have ht := tracks_run (tracks_init init n) h
  intro e
  obtain ⟨pre, tail, hl, hpre, htail, hn, hcm, hcmax⟩ := ht.run
  refine ⟨ht.current, ⟨?_, ?_⟩, ht.ref, pre, tail, hl, hpre, hn, hcm, hcmax⟩
  · show _ ∈ costs init h
    unfold costs
    rw [show init :: h.map Prod.fst = [init] ++ h.map Prod.fst from rfl, hl]
    simp
    exact Or.inr (Or.inl rfl)
  · intro c hc
    unfold costs at hc
    rw [show init :: h.map Prod.fst = [init] ++ h.map Prod.fst from rfl, hl] at hc
    rcases List.mem_append.1 hc with hc | hc
    · exact le_of_lt (hpre c hc)
    · rcases List.mem_cons.1 hc with rfl | hc
      · exact le_refl _
      · exact htail c hc

/-- **C13 (reset).**  When a step makes the number of consecutive non-monotonic steps equal to
the limit, the reference cost becomes the largest cost since the minimum was last improved. -/
theorem evaluator_reset (e : Evaluator K) (c m : K)
    (h : (e.stepAccepted c m).numNonmono = e.maxNonmono) :
    (e.stepAccepted c m).reference = (e.stepAccepted c m).candidate := by
  have f := stepAccepted_fields e c m
  rw [f.2.2.2.1] at h
  unfold Evaluator.stepAccepted
  rw [if_pos h]

/-! ### Descent for accepted steps -/

variable [IsStrictOrderedRing K]

/-- Relations between the members that hold between accepted steps. -/
structure Chain (e : Evaluator K) : Prop where
  cc : e.current ≤ e.candidate
  cr : e.candidate ≤ e.reference
  accR : 0 ≤ e.accRef
  accC : 0 ≤ e.accCand

theorem quality_lt {big lowest q : K} (hlow : lowest ≤ q) (hq : 0 ≤ q) {e : Evaluator K}
    (h : Chain e) {c m : K} (hm : 0 < m) (hs : q < e.stepQuality big lowest c m) :
    c < e.reference := by
  unfold Evaluator.stepQuality at hs
  split at hs
  · exact absurd hs (not_lt.2 hlow)
  · rcases lt_max_iff.1 (lt_of_le_of_lt hq hs) with h1 | h1
    · have : 0 < e.current - c := by
        by_contra hn
        exact absurd h1 (not_lt.2 (div_nonpos_of_nonpos_of_nonneg (not_lt.1 hn) (le_of_lt hm)))
      have h2 := h.cc
      have h3 := h.cr
      linarith
    · have hp : 0 < e.accRef + m := by have := h.accR; linarith
      have : 0 < e.reference - c := by
        by_contra hn
        exact absurd h1 (not_lt.2 (div_nonpos_of_nonpos_of_nonneg (not_lt.1 hn) (le_of_lt hp)))
      linarith

theorem chain_step {big lowest q : K} (hlow : lowest ≤ q) (hq : 0 ≤ q) {e : Evaluator K}
    (h : Chain e) {c m : K} (hm : 0 < m) (hs : q < e.stepQuality big lowest c m) :
    Chain (e.stepAccepted c m) ∧ (e.stepAccepted c m).reference ≤ e.reference := by
  have hlt := quality_lt hlow hq h hm hs
  have h3 : Chain (e.accept3abc c m) ∧ (e.accept3abc c m).reference = e.reference := by
    obtain ⟨h1, h2, h3, h4⟩ := h
    unfold Evaluator.accept3abc
    split
    · exact ⟨⟨le_refl _, le_of_lt hlt, by simp only; linarith, le_refl _⟩, rfl⟩
    · split
      · exact ⟨⟨le_refl _, le_of_lt hlt, by simp only; linarith, le_refl _⟩, rfl⟩
      · rename_i hc
        exact ⟨⟨not_lt.1 hc, h2, by simp only; linarith, by simp only; linarith⟩, rfl⟩
  unfold Evaluator.stepAccepted
  split
  · exact ⟨⟨h3.1.cc, le_refl _, h3.1.accC, h3.1.accC⟩, by simp only; rw [← h3.2]; exact h3.1.cr⟩
  · exact ⟨h3.1, le_of_eq h3.2⟩

theorem chain_init (c : K) (n : Nat) : Chain (Evaluator.mk' c n) :=
  ⟨le_refl _, le_refl _, le_refl _, le_refl _⟩

theorem run_below {big lowest q : K} (hlow : lowest ≤ q) (hq : 0 ≤ q) (hist : List (K × K))
    {e : Evaluator K} (h : Chain e) (ha : AcceptedRun big lowest q e hist) :
    (∀ p ∈ hist, p.1 < e.reference) ∧ (e.run hist).reference ≤ e.reference ∧
      Chain (e.run hist) := by
  induction hist generalizing e with
  | nil => exact ⟨by simp, le_refl _, h⟩
  | cons p hist ih =>
    obtain ⟨c, m⟩ := p
    obtain ⟨hm, hs, hr⟩ := ha
    obtain ⟨hc, hle⟩ := chain_step hlow hq h hm hs
    obtain ⟨h1, h2, h3⟩ := ih hc hr
    refine ⟨?_, le_trans h2 hle, h3⟩
    intro p hp
    rcases List.mem_cons.1 hp with rfl | hp
    · exact quality_lt hlow hq h hm hs
    · exact lt_of_lt_of_le (h1 p hp) hle

/-- **C13 (descent).**  If every accepted step had positive model cost change and quality above
a non-negative threshold, then every accepted cost is below the initial cost, and the
reference cost never increases along the history. -/
theorem accepted_below_initial (big lowest q : K) (hlow : lowest ≤ q) (hq : 0 ≤ q)
    (init : K) (n : Nat) (h h' : List (K × K))
    (ha : AcceptedRun big lowest q (Evaluator.mk' init n) (h ++ h')) :
    (∀ p ∈ h ++ h', p.1 < init) ∧
    ((Evaluator.mk' init n).run (h ++ h')).reference ≤ ((Evaluator.mk' init n).run h).reference := by
  have happ : ∀ (h : List (K × K)) (e : Evaluator K), AcceptedRun big lowest q e (h ++ h') →
      AcceptedRun big lowest q e h ∧ AcceptedRun big lowest q (e.run h) h' ∧
      e.run (h ++ h') = (e.run h).run h' := by
    intro h
    induction h with
    | nil => intro e he; exact ⟨trivial, he, rfl⟩
    | cons p h ih =>
      intro e he
      obtain ⟨c, m⟩ := p
      obtain ⟨i1, i2, i3⟩ := ih _ he.2.2
      exact ⟨⟨he.1, he.2.1, i1⟩, i2, i3⟩
  obtain ⟨a1, a2, a3⟩ := happ h _ ha
  have r1 := run_below hlow hq h (chain_init init n) a1
  have r2 := run_below hlow hq h' r1.2.2 a2
  refine ⟨(run_below hlow hq (h ++ h') (chain_init init n) ha).1, ?_⟩
  rw [a3]
  exact r2.2.1

/-- The evaluator in monotonic mode between accepted steps. -/
structure Mono (e : Evaluator K) : Prop where
  max0 : e.maxNonmono = 0
  num0 : e.numNonmono = 0
  cur : e.current = e.minimum
  ref : e.reference = e.current
  accR : e.accRef = 0

theorem mono_quality {big lowest q : K} (hlow : lowest ≤ q) (hq : 0 ≤ q) {e : Evaluator K}
    (h : Mono e) {c m : K} (hm : 0 < m) (hs : q < e.stepQuality big lowest c m) :
    c < e.current ∧ q < (e.current - c) / m := by
  unfold Evaluator.stepQuality at hs
  split at hs
  · exact absurd hs (not_lt.2 hlow)
  · rw [h.ref, h.accR, zero_add, max_self] at hs
    refine ⟨?_, hs⟩
    have h1 := lt_of_le_of_lt hq hs
    by_contra hn
    have : e.current - c ≤ 0 := by linarith [not_lt.1 hn]
    exact absurd h1 (not_lt.2 (div_nonpos_of_nonpos_of_nonneg this (le_of_lt hm)))

theorem mono_step {big lowest q : K} (hlow : lowest ≤ q) (hq : 0 ≤ q) {e : Evaluator K}
    (h : Mono e) {c m : K} (hm : 0 < m) (hs : q < e.stepQuality big lowest c m) :
    Mono (e.stepAccepted c m) := by
  have hlt := (mono_quality hlow hq h hm hs).1
  rw [h.cur] at hlt
  unfold Evaluator.stepAccepted Evaluator.accept3abc
  simp only [if_pos hlt, h.max0, if_true]
  exact ⟨rfl, rfl, rfl, rfl, rfl⟩

/-- **C13 (monotonic mode).**  With the window set to zero, a step is judged only against the
current cost: costs along an accepted history are strictly decreasing, each step achieving more
than the threshold times the predicted decrease. -/
theorem monotonic_mode (big lowest q : K) (hlow : lowest ≤ q) (hq : 0 ≤ q) (init : K)
    (h : List (K × K)) (ha : AcceptedRun big lowest q (Evaluator.mk' init 0) h) :
    (costs init h).IsChain (· > ·) ∧
    ∀ (i : Nat) (a c m : K), (costs init h)[i]? = some a → h[i]? = some (c, m) →
      q * m < a - c := by
  have key : ∀ (h : List (K × K)) (e : Evaluator K), Mono e → AcceptedRun big lowest q e h →
      (costs e.current h).IsChain (· > ·) ∧
      ∀ (i : Nat) (a c m : K), (costs e.current h)[i]? = some a → h[i]? = some (c, m) →
        q * m < a - c := by
    intro h
    induction h with
    | nil => intro e _ _; exact ⟨by simp [costs], by simp⟩
    | cons p h ih =>
      intro e he hr
      obtain ⟨c, m⟩ := p
      obtain ⟨hm, hs, hr⟩ := hr
      have hq' := mono_quality hlow hq he hm hs
      have hcur : (e.stepAccepted c m).current = c := (stepAccepted_fields e c m).2.1
      obtain ⟨i1, i2⟩ := ih _ (mono_step hlow hq he hm hs) hr
      rw [hcur] at i1 i2
      constructor
      · unfold costs at i1 ⊢
        rw [List.map_cons]
        exact List.isChain_cons_cons.2 ⟨hq'.1, i1⟩
      · intro i a c' m' ha hc'
        cases i with
        | zero =>
          simp only [costs, List.getElem?_cons_zero, Option.some.injEq, Prod.mk.injEq] at ha hc'
          obtain ⟨rfl, rfl⟩ := hc'
          subst ha
          exact (lt_div_iff₀ hm).1 hq'.2
        | succ i =>
          simp only [costs, List.map_cons, List.getElem?_cons_succ] at ha hc'
          exact i2 i a c' m' (by simpa [costs] using ha) hc'
  exact key h _ ⟨rfl, rfl, rfl, rfl, rfl⟩ ha

/-- Non-vacuity: window 2, initial cost 10, accepted costs 6, 8, 9, 3: two non-monotonic steps,
then a new minimum. -/
example : AcceptedRun (K := Rat) 1000 (-1000) (1/1000) (Evaluator.mk' 10 2)
    [(6, 4), (8, 2), (9, 1), (3, 5)] := by
  norm_num [AcceptedRun, Evaluator.stepQuality, Evaluator.stepAccepted, Evaluator.accept3abc,
    Evaluator.mk']

example : ((Evaluator.mk' (10 : Rat) 2).run [(6, 4), (8, 2), (9, 1)]).reference = 9 := by
  norm_num [Evaluator.run, Evaluator.stepAccepted, Evaluator.accept3abc, Evaluator.mk']

example : AcceptedRun (K := Rat) 1000 (-1000) (1/1000) (Evaluator.mk' 10 0)
    [(6, 4), (5, 2)] := by
  norm_num [AcceptedRun, Evaluator.stepQuality, Evaluator.stepAccepted, Evaluator.accept3abc,
    Evaluator.mk']

/-- **C13 (finding).**  A negative model cost change (possible after inner iterations that
raised the cost, trust_region_minimizer.cc:562-564) gives a positive quality to a step that
increases the cost: current cost 6, new cost 10, model cost change 1 + (5 - 10) = -4. -/
theorem negative_model_change_accepts_increase :
    (1 : Rat) / 1000 < (Evaluator.mk' 6 0).stepQuality 1000 (-1000) 10 (1 + (5 - 10)) := by
  norm_num [Evaluator.stepQuality, Evaluator.mk']

end Ceres.TrustRegion
