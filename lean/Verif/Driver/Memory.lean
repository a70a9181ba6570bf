import Verif.Driver.Props
import Mathlib.Data.List.Perm.Basic

/-!
# Which memory callbacks see (C53) and what `Solve` leaves behind (C54)
-/
namespace Ceres.Driver

open Ceres.TrustRegion (CB Term)
open Ceres.Program (Prog Reduced removeFixedBlocks totalCost Used)

variable {V I K A : Type}

theorem writeBack_outside (bs : List Nat) (vs : List V) (m : Nat → V) (b : Nat) (h : b ∉ bs) :
    writeBack bs vs m b = m b := by
  induction bs generalizing vs m with
  | nil => cases vs <;> rfl
  | cons c bs ih =>
    cases vs with
    | nil => rfl
    | cons v vs =>
      simp only [List.mem_cons, not_or] at h
      unfold writeBack
      rw [ih _ _ h.2, if_neg h.1]

theorem writeBack_inside (bs : List Nat) (vs : List V) (m : Nat → V) (hnd : bs.Nodup) (i b : Nat)
    (v : V) (hb : bs[i]? = some b) (hv : vs[i]? = some v) : writeBack bs vs m b = v := by
  induction bs generalizing vs m i with
  | nil => simp at hb
  | cons c bs ih =>
    cases vs with
    | nil => simp at hv
    | cons v' vs =>
      simp only [List.nodup_cons] at hnd
      unfold writeBack
      cases i with
      | zero =>
        simp only [List.getElem?_cons_zero, Option.some.injEq] at hb hv
        subst hb; subst hv
        rw [writeBack_outside _ _ _ _ hnd.1, if_pos rfl]
      | succ i =>
        simp only [List.getElem?_cons_succ] at hb hv
        exact ih vs _ hnd.2 i hb hv

theorem writeBack_holds (bs : List Nat) (vs : List V) (m base : Nat → V) (hnd : bs.Nodup)
    (h : ∀ b, b ∉ bs → m b = base b) : Holds bs vs base (writeBack bs vs m) where
  inside i b v hb hv := writeBack_inside bs vs m hnd i b v hb hv
  outside b hb := by rw [writeBack_outside _ _ _ _ hb, h b hb]

/-- Writing the original values of the blocks back restores the memory. -/
theorem writeBack_restore (bs : List Nat) (m base : Nat → V) (hnd : bs.Nodup)
    (h : ∀ b, b ∉ bs → m b = base b) : writeBack bs (bs.map base) m = base := by
  funext b
  by_cases hb : b ∈ bs
  · obtain ⟨i, hi⟩ := List.mem_iff_getElem?.1 hb
    exact writeBack_inside bs _ m hnd i b _ hi (by rw [List.getElem?_map, hi]; rfl)
  · rw [writeBack_outside _ _ _ _ hb, h b hb]

/-! ### The list of callbacks -/

theorem minimizerCallbacks_kinds (o : Options V I A) (blocks : List Nat) :
    (minimizerCallbacks o blocks).map Callback.kind = roster o := by
  have hu : ∀ (l : List (UserCallback V I A)),
      (userCallbacks l).map Callback.kind = (List.range l.length).map Kind.user := by
    intro l
    unfold userCallbacks
    rw [List.map_map]
    apply List.ext_getElem?
    intro i
    simp only [List.getElem?_map, List.getElem?_zipIdx, List.getElem?_range']
    by_cases hi : i < l.length
    · rw [List.getElem?_eq_getElem hi]; simp [hi]
    · rw [List.getElem?_eq_none (by omega)]; simp [hi]
  unfold minimizerCallbacks roster
  cases o.checkGradients <;> cases o.silent <;> cases o.updateState <;>
    simp [hu, loggingCallback, stateUpdatingCallback, gradientCheckingCallback]

theorem mem_userCallbacks (l : List (UserCallback V I A)) (cb : Callback V I A)
    (h : cb ∈ userCallbacks l) : ∃ j f, l[j]? = some f ∧ cb.kind = .user j ∧
      ∀ p it w, cb.run p it w = ({ w with
        mem := (f it w.mem w.aux).1
        aux := (f it w.mem w.aux).2.1 }, (f it w.mem w.aux).2.2) := by
  unfold userCallbacks at h
  obtain ⟨⟨f, j⟩, hm, rfl⟩ := List.mem_map.1 h
  rw [List.mem_zipIdx_iff_getElem?] at hm
  exact ⟨j, f, hm, rfl, fun _ _ _ => rfl⟩

/-- The four kinds of callbacks. -/
theorem mem_minimizerCallbacks (o : Options V I A) (blocks : List Nat) (cb : Callback V I A)
    (h : cb ∈ minimizerCallbacks o blocks) :
    (cb = stateUpdatingCallback blocks ∧ o.updateState = true) ∨ cb = loggingCallback ∨
      cb ∈ userCallbacks o.callbacks ∨ cb = gradientCheckingCallback := by
  unfold minimizerCallbacks at h
  cases h1 : o.checkGradients <;> cases h2 : o.silent <;> cases h3 : o.updateState <;>
    simp only [h1, h2, h3, if_true, if_false, Bool.false_eq_true, List.mem_cons, List.mem_append,
      List.mem_singleton, List.not_mem_nil, or_false] at h <;> tauto

/-! ### Memory during a run -/

/-- The memory invariant of a run: nothing outside the reduced blocks differs from the original
memory, and nothing at all if the state is not updated in every iteration. -/
def Clean (o : Options V I A) (blocks : List Nat) (base : Nat → V) (w : World V A) : Prop :=
  (∀ b, b ∉ blocks → w.mem b = base b) ∧ (o.updateState = false → w.mem = base)

theorem runCallbacks_clean (o : Options V I A) (hro : ReadOnly o) (blocks : List Nat)
    (base : Nat → V) (p : List V) (it : I) (cbs : List (Callback V I A))
    (hc : ∀ cb ∈ cbs, cb ∈ minimizerCallbacks o blocks) (w : World V A)
    (hw : Clean o blocks base w) :
    Clean o blocks base (runCallbacks p it cbs w).1 := by
  induction cbs generalizing w with
  | nil => exact hw
  | cons cb cbs ih =>
    have h1 : Clean o blocks base (cb.run p it w).1 := by
      rcases mem_minimizerCallbacks o blocks cb (hc cb (by simp)) with ⟨rfl, hu⟩ | rfl | h | rfl
      · refine ⟨fun b hb => ?_, fun h => by rw [hu] at h; cases h⟩
        simp only [stateUpdatingCallback]
        rw [writeBack_outside _ _ _ _ hb]
        exact hw.1 b hb
      · exact hw
      · obtain ⟨j, f, hf, -, hr⟩ := mem_userCallbacks _ _ h
        rw [hr]
        have := hro f (List.mem_of_getElem? hf) it w.mem w.aux
        unfold Clean
        simp only [this]
        exact hw
      · exact hw
    unfold runCallbacks
    split
    · exact ih (fun c hc' => hc c (by simp [hc'])) _ h1
    · exact h1

/-- What the user's callbacks see in one round. -/
theorem runCallbacks_seen (o : Options V I A) (hro : ReadOnly o) (blocks : List Nat)
    (hnd : blocks.Nodup) (base : Nat → V) (p : List V) (it : I) (w : World V A)
    (hw : Clean o blocks base w) :
    ∀ c ∈ (runCallbacks p it (minimizerCallbacks o blocks) w).2.2, c.kind ≠ .stateUpdating →
      if o.updateState then Holds blocks p base c.seen.mem else c.seen.mem = base := by
  -- the state updating callback can only be at the front
  have tail : ∀ (cbs : List (Callback V I A)) (w : World V A) (m : Nat → V),
      (∀ cb ∈ cbs, cb = loggingCallback ∨ cb ∈ userCallbacks o.callbacks ∨
        cb = gradientCheckingCallback) → w.mem = m →
      ∀ c ∈ (runCallbacks p it cbs w).2.2, c.seen.mem = m := by
    intro cbs
    induction cbs with
    | nil => intro w m _ _ c hc; simp [runCallbacks] at hc
    | cons cb cbs ih =>
      intro w m hcb hm c hc
      have h1 : (cb.run p it w).1.mem = m := by
        rcases hcb cb (by simp) with rfl | h | rfl
        · exact hm
        · obtain ⟨j, f, hf, -, hr⟩ := mem_userCallbacks _ _ h
          rw [hr]
          simp only
          rw [hro f (List.mem_of_getElem? hf)]
          exact hm
        · exact hm
      unfold runCallbacks at hc
      split at hc
      · simp only [List.mem_cons] at hc
        rcases hc with rfl | hc
        · exact hm
        · exact ih _ m (fun c' hc' => hcb c' (by simp [hc'])) h1 c hc
      · simp only [List.mem_singleton] at hc
        subst hc
        exact hm
  have hrest : ∀ (l : List (Callback V I A)), l = (if o.silent then (if o.checkGradients then
        userCallbacks o.callbacks ++ [gradientCheckingCallback] else userCallbacks o.callbacks)
      else loggingCallback :: (if o.checkGradients then
        userCallbacks o.callbacks ++ [gradientCheckingCallback] else userCallbacks o.callbacks)) →
      ∀ cb ∈ l, cb = loggingCallback ∨ cb ∈ userCallbacks o.callbacks ∨
        cb = gradientCheckingCallback := by
    intro l hl cb hcb
    subst hl
    cases h1 : o.checkGradients <;> cases h2 : o.silent <;>
      simp only [h1, h2, if_true, if_false, Bool.false_eq_true, List.mem_cons, List.mem_append,
        List.mem_singleton, List.not_mem_nil, or_false] at hcb <;> tauto
  intro c hc hk
  by_cases hu : o.updateState = true
  · rw [if_pos hu]
    unfold minimizerCallbacks at hc
    rw [if_pos hu] at hc
    unfold runCallbacks at hc
    rw [if_pos (by rfl)] at hc
    simp only [List.mem_cons] at hc
    rcases hc with rfl | hc
    · exact absurd rfl hk
    · rw [tail _ _ (writeBack blocks p w.mem) (hrest _ rfl) rfl c hc]
      exact writeBack_holds _ _ _ _ hnd hw.1
  · rw [if_neg hu]
    unfold minimizerCallbacks at hc
    rw [if_neg hu] at hc
    exact tail _ _ base (hrest _ rfl) (hw.2 (by simpa using hu)) c hc

theorem exec_memory (o : Options V I A) (hro : ReadOnly o) (blocks : List Nat)
    (hnd : blocks.Nodup) (base : Nat → V) (run : Run V I K A) (k : K) (w : World V A)
    (hw : Clean o blocks base w) :
    Clean o blocks base (exec (minimizerCallbacks o blocks) run k w).world ∧
    ∀ c ∈ (exec (minimizerCallbacks o blocks) run k w).calls, c.kind ≠ .stateUpdating →
      if o.updateState then Holds blocks c.params base c.seen.mem else c.seen.mem = base := by
  induction run generalizing k w with
  | initial c next ih => exact ih c w hw
  | evaluate upd err next ih => exact ih _ _ _ hw
  | record it next ih => exact ih k w hw
  | done p t => exact ⟨hw, by simp [exec]⟩
  | report p it next ih =>
    have hcl := runCallbacks_clean o hro blocks base p it _ (fun _ h => h) w hw
    have hseen := runCallbacks_seen o hro blocks hnd base p it w hw
    have hp : ∀ c ∈ (runCallbacks p it (minimizerCallbacks o blocks) w).2.2, c.params = p := by
      obtain ⟨called, rest, e1, e2, -⟩ := runCallbacks_spec p it (minimizerCallbacks o blocks) w
      intro c hc
      have : (c.kind, c.iteration, c.params) ∈ called.map (fun c => (c.kind, it, p)) := by
        rw [← e2]; exact List.mem_map.2 ⟨c, hc, rfl⟩
      obtain ⟨d, -, hd⟩ := List.mem_map.1 this
      simp only [Prod.mk.injEq] at hd
      exact hd.2.2.symm
    have hthis : ∀ c ∈ (runCallbacks p it (minimizerCallbacks o blocks) w).2.2,
        c.kind ≠ .stateUpdating →
        if o.updateState then Holds blocks c.params base c.seen.mem else c.seen.mem = base := by
      intro c hc hk
      rw [hp c hc]
      exact hseen c hc hk
    unfold exec
    split
    · obtain ⟨h1, h2⟩ := ih (runCallbacks p it (minimizerCallbacks o blocks) w).1.aux k _ hcl
      refine ⟨h1, ?_⟩
      intro c hc hk
      rcases List.mem_append.1 hc with hc | hc
      · exact hthis c hc hk
      · exact h2 c hc hk
    · exact ⟨hcl, hthis⟩
    · exact ⟨hcl, hthis⟩

theorem exec_sized (cbs : List (Callback V I A)) (n : Nat) (run : Run V I K A)
    (h : run.Sized n) (k : K) (w : World V A) :
    (exec cbs run k w).params.length = n ∧
    ∀ c ∈ (exec cbs run k w).calls, c.params.length = n := by
  induction h generalizing k w with
  | initial c next _ ih => exact ih c w
  | evaluate upd err next _ ih => exact ih _ _ _
  | record it next _ ih => exact ih k w
  | done p t hp => exact ⟨hp, by simp [exec]⟩
  | report p it next hp _ ih =>
    have hc : ∀ c ∈ (runCallbacks p it cbs w).2.2, c.params.length = n := by
      obtain ⟨called, rest, e1, e2, -⟩ := runCallbacks_spec p it cbs w
      intro c hc
      have : (c.kind, c.iteration, c.params) ∈ called.map (fun c => (c.kind, it, p)) := by
        rw [← e2]; exact List.mem_map.2 ⟨c, hc, rfl⟩
      obtain ⟨d, -, hd⟩ := List.mem_map.1 this
      simp only [Prod.mk.injEq] at hd
      rw [← hd.2.2]; exact hp
    unfold exec
    split
    · obtain ⟨h1, h2⟩ := ih (runCallbacks p it cbs w).1.aux k (runCallbacks p it cbs w).1
      refine ⟨h1, ?_⟩
      intro c hcc
      rcases List.mem_append.1 hcc with hcc | hcc
      · exact hc c hcc
      · exact h2 c hcc
    · exact ⟨hp, hc⟩
    · exact ⟨hp, hc⟩

end Ceres.Driver
