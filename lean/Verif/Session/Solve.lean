import Verif.Session.Calls
/-! `Solve` leaves no trace except in the memory of the active blocks. -/
namespace Ceres.Session

open Ceres.Problem (Err State PBlock upd mapFind getR)

variable {V : Type} {env : Env V} {s : State}

/-! ### The reduced program -/

theorem markVarying_spec (ps : List Nat) : ∀ w : Work V, ∃ ι : Nat → Int,
    markVarying env s ps w = { w with index := ι } ∧
    ∀ p, ι p ≠ -1 ↔ w.index p ≠ -1 ∨ (p ∈ ps ∧ isConstant env s w p = false) := by
  induction ps with
  | nil => intro w; exact ⟨w.index, rfl, by simp⟩
  | cons q ps ih =>
    intro w
    rw [markVarying]
    by_cases hc : isConstant env s w q = true
    · rw [if_pos hc]
      obtain ⟨ι, h1, h2⟩ := ih w
      refine ⟨ι, h1, fun p => ?_⟩
      rw [h2 p]
      constructor
      · rintro (h | ⟨h, h'⟩)
        · exact Or.inl h
        · exact Or.inr ⟨by simp [h], h'⟩
      · rintro (h | ⟨h, h'⟩)
        · exact Or.inl h
        · rcases List.mem_cons.1 h with rfl | h
          · rw [hc] at h'; cases h'
          · exact Or.inr ⟨h, h'⟩
    · rw [if_neg hc]
      obtain ⟨ι, h1, h2⟩ := ih { w with index := upd w.index q 1 }
      refine ⟨ι, h1, fun p => ?_⟩
      rw [h2 p]
      have hcp : isConstant env s { w with index := upd w.index q 1 } p =
        isConstant env s w p := rfl
      rw [hcp]
      by_cases hp : p = q
      · subst hp
        have : upd w.index p 1 p ≠ -1 := by simp [upd]
        constructor
        · intro _; exact Or.inr ⟨by simp, by simpa using hc⟩
        · intro _; exact Or.inl this
      · have : upd w.index q 1 p = w.index p := by simp [upd, hp]
        simp only [this, List.mem_cons, hp, false_or]

theorem all_isConstant (hw : Wf s) {w : Work V} (hf : Flags s w) (r : Nat) :
    (paramsOf s r).all (isConstant env s w) = !(paramsOf s r).any (varying env s) := by
  rw [Bool.eq_iff_iff, List.all_eq_true]
  simp only [Bool.not_eq_true', List.any_eq_false]
  constructor
  · intro h p hp
    have := h p hp
    rw [isConstant_eq hw hf (hw.params r p hp)] at this
    simpa using this
  · intro h p hp
    rw [isConstant_eq hw hf (hw.params r p hp)]
    simpa using h p hp

theorem fixedLoop_spec (hw : Wf s) (rs : List Nat) : ∀ (fail : Option Nat) (w : Work V),
    Ready s w →
    ∃ (ι : Nat → Int) (keep : List Nat) (ok : Bool),
      fixedLoop env s rs fail w = .ok ({ w with index := ι }, keep,
        seen s (here s w.mem) (match fail with
          | none => rs.filter (fun r => !(paramsOf s r).any (varying env s))
          | some k => (rs.filter (fun r => !(paramsOf s r).any (varying env s))).take (k + 1)),
        ok) ∧
      (fail = none → keep = rs.filter (fun r => (paramsOf s r).any (varying env s)) ∧
        ∀ p, ι p ≠ -1 ↔ w.index p ≠ -1 ∨ (varying env s p = true ∧ ∃ r ∈ rs, p ∈ paramsOf s r)) := by
  induction rs with
  | nil =>
    intro fail w _
    refine ⟨w.index, [], true, ?_, ?_⟩
    · cases fail <;> rfl
    · intro _; simp
  | cons r rs ih =>
    intro fail w hr
    rw [fixedLoop]
    obtain ⟨ι1, hm, hmi⟩ := markVarying_spec (env := env) (s := s) (paramsOf s r) w
    have hr1 : Ready s { w with index := ι1 } := ⟨hr.flags, hr.home⟩
    have hmark : ∀ p, ι1 p ≠ -1 ↔ w.index p ≠ -1 ∨ (varying env s p = true ∧ p ∈ paramsOf s r) := by
      intro p
      rw [hmi p]
      constructor
      · rintro (h | ⟨h, h'⟩)
        · exact Or.inl h
        · rw [isConstant_eq hw hr.flags (hw.params r p h)] at h'
          exact Or.inr ⟨by simpa using h', h⟩
      · rintro (h | ⟨h, h'⟩)
        · exact Or.inl h
        · exact Or.inr ⟨h', by rw [isConstant_eq hw hr.flags (hw.params r p h'), h]; rfl⟩
    have hcomb : ∀ (ι : Nat → Int),
        (∀ p, ι p ≠ -1 ↔ ι1 p ≠ -1 ∨ (varying env s p = true ∧ ∃ r ∈ rs, p ∈ paramsOf s r)) →
        ∀ p, ι p ≠ -1 ↔ w.index p ≠ -1 ∨
          (varying env s p = true ∧ ∃ r' ∈ r :: rs, p ∈ paramsOf s r') := by
      intro ι hι p
      rw [hι p, hmark p]
      constructor
      · rintro ((h | ⟨h, h'⟩) | ⟨h, r', hr', h'⟩)
        · exact Or.inl h
        · exact Or.inr ⟨h, r, by simp, h'⟩
        · exact Or.inr ⟨h, r', by simp [hr'], h'⟩
      · rintro (h | ⟨h, r', hr', h'⟩)
        · exact Or.inl (Or.inl h)
        · rcases List.mem_cons.1 hr' with rfl | hr'
          · exact Or.inl (Or.inr ⟨h, h'⟩)
          · exact Or.inr ⟨h, r', hr', h'⟩
    rw [hm, all_isConstant hw hr.flags r]
    by_cases hv : (paramsOf s r).any (varying env s) = true
    · simp only [hv, Bool.not_true, Bool.false_eq_true, if_false]
      obtain ⟨ι, keep, ok, h1, h2⟩ := ih fail { w with index := ι1 } hr1
      rw [h1]
      refine ⟨ι, r :: keep, ok, ?_, ?_⟩
      · simp only [ok_bind]
        cases fail <;> simp [hv]
      · intro hf
        obtain ⟨hk, hi⟩ := h2 hf
        exact ⟨by rw [hk]; exact (List.filter_cons_of_pos (by simpa using hv)).symm, hcomb ι hi⟩
    · have hv' : (paramsOf s r).any (varying env s) = false := by simpa using hv
      simp only [hv', Bool.not_false, if_true]
      have he : evalResiduals s { w with index := ι1 } [r] = .ok (seen s (here s w.mem) [r]) := by
        apply evalResiduals_spec
        intro r' hr' p hp
        rw [val_eq]
        show look s _ (w.ptr p) p = _
        rw [hr.home p (hw.params r' p hp)]; rfl
      rw [he]
      simp only [ok_bind]
      have hkeep : ((r :: rs).filter fun r => (paramsOf s r).any (varying env s)) =
          rs.filter fun r => (paramsOf s r).any (varying env s) :=
        List.filter_cons_of_neg (by simp [hv'])
      have hfix : ((r :: rs).filter fun r => !(paramsOf s r).any (varying env s)) =
          r :: rs.filter fun r => !(paramsOf s r).any (varying env s) :=
        List.filter_cons_of_pos (by simp [hv'])
      rw [hfix, hkeep]
      match fail with
      | none =>
        obtain ⟨ι, keep, ok, h1, h2⟩ := ih none { w with index := ι1 } hr1
        simp only [h1, ok_bind]
        exact ⟨ι, keep, ok, rfl, fun _ => ⟨(h2 rfl).1, hcomb ι (h2 rfl).2⟩⟩
      | some 0 =>
        exact ⟨ι1, [], false, rfl, by simp⟩
      | some (k + 1) =>
        obtain ⟨ι, keep, ok, h1, h2⟩ := ih (some k) { w with index := ι1 } hr1
        simp only [h1, ok_bind]
        exact ⟨ι, keep, ok, rfl, by simp⟩

theorem unmark_eq (ps : List Nat) (w : Work V) : unmark ps w =
    { w with index := fun p => if p ∈ ps then -1 else w.index p } := rfl

/-- `RemoveFixedBlocks` finds exactly the active blocks and residual blocks. -/
theorem removeFixed_spec (hw : Wf s) {w : Work V} (hr : Ready s w) :
    ∃ (ι : Nat → Int) (ok : Bool), removeFixed env s none w = .ok ({ w with index := ι },
      activeBlocks env s, activeResiduals env s,
      seen s (here s w.mem) (fixedResiduals env s), ok) := by
  obtain ⟨ι, keep, ok, h1, h2⟩ := fixedLoop_spec (env := env) hw s.rvec none
    (unmark s.pvec w) ⟨hr.flags, hr.home⟩
  obtain ⟨hk, hi⟩ := h2 rfl
  refine ⟨ι, ok, ?_⟩
  unfold removeFixed
  simp only [h1, ok_bind]
  subst hk
  have hact : s.pvec.filter (fun p => decide (ι p ≠ -1)) = activeBlocks env s := by
    unfold activeBlocks
    apply List.filter_congr
    intro p hp
    rw [Bool.eq_iff_iff, decide_eq_true_iff, hi p]
    simp [unmark, hp]
  rw [hact]
  rfl

theorem removeFixed_some_spec (hw : Wf s) (k : Nat) {w : Work V} (hr : Ready s w) :
    ∃ (ι : Nat → Int) (ps rs : List Nat) (ok : Bool),
      removeFixed env s (some k) w = .ok ({ w with index := ι }, ps, rs,
        seen s (here s w.mem) ((fixedResiduals env s).take (k + 1)), ok) := by
  obtain ⟨ι, keep, ok, h1, _⟩ := fixedLoop_spec (env := env) hw s.rvec (some k)
    (unmark s.pvec w) ⟨hr.flags, hr.home⟩
  refine ⟨ι, s.pvec.filter (fun p => decide (ι p ≠ -1)), keep, ok, ?_⟩
  unfold removeFixed
  simp only [h1, ok_bind]
  rfl

theorem active_varying {p : Nat} (h : p ∈ activeBlocks env s) : varying env s p = true := by
  have := (List.mem_filter.1 h).2
  simp only [Bool.and_eq_true] at this
  exact this.1

theorem active_pvec {p : Nat} (h : p ∈ activeBlocks env s) : p ∈ s.pvec :=
  (List.mem_filter.1 h).1

/-! ### The minimizer at work -/

/-- While the minimizer works, between two uses of the blocks. -/
structure Busy (env : Env V) (s : State) (w : Work V) : Prop where
  flags : Flags s w
  home : Home s (activeBlocks env s) w

theorem jacAll_perm {ps qs : List Nat} (h : ps.Perm qs) (f : Nat → V) :
    jacAll env s f ps = jacAll env s f qs := by
  unfold jacAll
  rw [Bool.eq_iff_iff, List.all_eq_true, List.all_eq_true]
  constructor
  · intro hh p hp; exact hh p (h.mem_iff.2 hp)
  · intro hh p hp; exact hh p (h.mem_iff.1 hp)

theorem all_jac (hw : Wf s) {w : Work V} (hf : Flags s w) {ps : List Nat}
    (hps : ∀ p ∈ ps, p ∈ s.pvec) (f : Nat → V) :
    ps.all (fun p => isConstant env s w p || jacOk env s p (f p)) = jacAll env s f ps := by
  unfold jacAll
  rw [Bool.eq_iff_iff, List.all_eq_true, List.all_eq_true]
  constructor
  · intro h p hp; rw [← isConstant_eq hw hf (hps p hp)]; exact h p hp
  · intro h p hp; rw [isConstant_eq hw hf (hps p hp)]; exact h p hp

theorem putAll_perm {ps qs : List Nat} (h : ps.Perm qs)
    (hinj : ∀ p ∈ qs, ∀ q ∈ qs, addrOf s p = addrOf s q → p = q) (x mem : Nat → V) :
    putAll s x ps mem = putAll s x qs mem := by
  funext a
  unfold putAll
  cases hq : qs.find? (fun p => decide (addrOf s p = a)) with
  | none =>
    have : ps.find? (fun p => decide (addrOf s p = a)) = none := by
      rw [List.find?_eq_none] at hq ⊢
      intro p hp; exact hq p (h.mem_iff.1 hp)
    rw [this]
  | some q =>
    have hqm := List.mem_of_find?_eq_some hq
    have hqa : addrOf s q = a := by simpa using List.find?_some hq
    cases hp : ps.find? (fun p => decide (addrOf s p = a)) with
    | none =>
      rw [List.find?_eq_none] at hp
      exact absurd (decide_eq_true hqa) (hp q (h.mem_iff.2 hqm))
    | some p =>
      have hpm := h.mem_iff.1 (List.mem_of_find?_eq_some hp)
      have hpa : addrOf s p = a := by simpa using List.find?_some hp
      have : p = q := hinj p hpm q hqm (by rw [hpa, hqa])
      subst this
      rfl

theorem eval_sim (hw : Wf s) {ps rs : List Nat} (hps : ps.Perm (activeBlocks env s))
    {w : Work V} (hb : Busy env s w) (x : Nat → V) (sel : Nat → Bool) :
    ∃ w', evaluator env s ps rs sel w.next (newBuf w x) =
        .ok (w', (aAct env s rs w.mem (.eval x sel)).2) ∧ Busy env s w' ∧ w'.mem = w.mem := by
  have hpp : ∀ p ∈ ps, p ∈ activeBlocks env s := fun p hp => hps.mem_iff.1 hp
  have hf : Flags s (newBuf w x) := hb.flags
  obtain ⟨π, e, h2, _⟩ := evaluator_spec (env := env) (s := s) ps rs sel w.next (newBuf w x) x
    (overlay env s w.mem x) (by simp [newBuf, upd])
    (by
      intro r hr p hp hin hc
      unfold overlay
      rw [if_pos (hpp p hin)])
    (by
      intro r hr p hp hn
      have hpv := hw.params r p hp
      have hna : p ∉ activeBlocks env s := by
        intro ha
        refine hn ⟨hps.mem_iff.2 ha, ?_⟩
        rw [isConstant_eq hw hf hpv, active_varying ha]; rfl
      rw [val_eq]
      show look s _ (w.ptr p) p = _
      rw [hb.home p hpv hna]
      unfold overlay
      rw [if_neg hna]
      rfl)
  rw [all_jac hw hf (fun p hp => active_pvec (hpp p hp)), jacAll_perm hps] at e
  refine ⟨_, e, ⟨hb.flags, ?_⟩, rfl⟩
  intro p hp hna
  show π p = .user
  rcases h2 p with h | ⟨h, _, _⟩
  · rw [h]; exact hb.home p hp hna
  · exact absurd (hpp p h) hna

theorem publish_sim (hw : Wf s) {ps : List Nat} (hps : ps.Perm (activeBlocks env s))
    {w : Work V} (hb : Busy env s w) (x : Nat → V)
    (hx : jacAll env s x (activeBlocks env s) = true) :
    ∃ w', publish env s ps w.next (newBuf w x) = .ok w' ∧ Busy env s w' ∧
      w'.mem = put env s x w.mem := by
  have hpp : ∀ p ∈ ps, p ∈ activeBlocks env s := fun p hp => hps.mem_iff.1 hp
  have hf : Flags s (newBuf w x) := hb.flags
  obtain ⟨π, e, h2, h3⟩ := setStates_spec (env := env) (s := s) (.buf w.next) x ps (newBuf w x)
    (by intro p _; simp [look, newBuf, upd])
  rw [all_jac hw hf (fun p hp => active_pvec (hpp p hp)), jacAll_perm hps, hx] at h3
  have hinj : ∀ p ∈ activeBlocks env s, ∀ q ∈ activeBlocks env s,
      addrOf s p = addrOf s q → p = q :=
    fun p hp q hq => hw.inj p (active_pvec hp) q (active_pvec hq)
  have hc := copyToUser_spec (s := s) x ps { newBuf w x with ptr := π }
    (by
      intro p hp
      refine ⟨w.next, x, h3 rfl p hp ?_, by simp [newBuf, upd], rfl⟩
      rw [isConstant_eq hw hf (active_pvec (hpp p hp)), active_varying (hpp p hp)]; rfl)
    (hps.nodup_iff.2 (hw.nodup.filter _))
    (fun p hp q hq => hinj p (hpp p hp) q (hpp q hq))
  unfold publish
  rw [e]
  simp only [ok_bind]
  rw [hc]
  refine ⟨_, rfl, ⟨hb.flags, ?_⟩, ?_⟩
  · intro p hp hna
    show π p = .user
    rcases h2 p with h | ⟨h, _, _⟩
    · rw [h]; exact hb.home p hp hna
    · exact absurd (hpp p h) hna
  · show putAll s x ps w.mem = _
    exact putAll_perm hps hinj x w.mem

/-! ### Inner iterations -/

/-- All blocks of the reduced program are constant and point into vector `i`, which holds `x`;
if `free` is a block, that one is varying and points anywhere. -/
structure Frozen (env : Env V) (s : State) (i : Nat) (x mem : Nat → V) (free : Option Nat)
    (w : Work V) : Prop where
  lt : i < w.next
  buf : w.bufs i = some x
  inside : ∀ p ∈ activeBlocks env s, some p ≠ free → w.isConst p = true ∧ w.ptr p = .buf i
  outside : ∀ p b, s.pheap p = some b → p ∉ activeBlocks env s →
    w.isConst p = b.isConst ∧ w.ptr p = .user
  loose : ∀ p, free = some p → w.isConst p = false
  mem : w.mem = mem

theorem freeze_spec (i : Nat) (ps : List Nat) : ∀ (w : Work V), ps.Nodup →
    (∀ p ∈ ps, isConstant env s w p = false) → (w.bufs i).isSome →
    ∃ w', freeze env s i ps w = .ok w' ∧ w'.next = w.next ∧ w'.bufs = w.bufs ∧ w'.mem = w.mem ∧
      (∀ p ∈ ps, w'.isConst p = true ∧ w'.ptr p = .buf i) ∧
      (∀ p, p ∉ ps → w'.isConst p = w.isConst p ∧ w'.ptr p = w.ptr p) := by
  induction ps with
  | nil => intro w _ _ _; exact ⟨w, rfl, rfl, rfl, rfl, by simp, fun _ _ => ⟨rfl, rfl⟩⟩
  | cons p ps ih =>
    intro w hn hc hb
    obtain ⟨c, hbc⟩ := Option.isSome_iff_exists.1 hb
    have hnp := (List.nodup_cons.1 hn).1
    rw [freeze, setState_spec (v := c p) (hc p (by simp)) (by simp [look, hbc])]
    simp only [ok_bind]
    obtain ⟨w', h1, h2, h3, h4, h5, h6⟩ := ih
      { w with ptr := upd w.ptr p (.buf i), isConst := upd w.isConst p true }
      (List.nodup_cons.1 hn).2 (by
        intro q hq
        have := hc q (by simp [hq])
        have hqp : q ≠ p := fun h => hnp (h ▸ hq)
        unfold isConstant at this ⊢
        simpa [upd, hqp] using this) hb
    refine ⟨w', h1, h2, h3, h4, ?_, ?_⟩
    · intro q hq
      rcases List.mem_cons.1 hq with rfl | hq
      · have := h6 q hnp
        simpa [upd] using this
      · exact h5 q hq
    · intro q hq
      have hqp : q ≠ p := by simp_all
      have := h6 q (by simp_all)
      simpa [upd, hqp] using this

theorem tries_sim (hw : Wf s) {i p : Nat} {x mem : Nat → V} (hp : p ∈ activeBlocks env s)
    (rs : List Nat) (vs : List V) : ∀ w : Work V, Frozen env s i x mem (some p) w →
    ∃ w', tries env s p (rs.filter (fun r => decide (p ∈ paramsOf s r))) vs w =
        .ok (w', aTries env s mem x rs p vs) ∧ Frozen env s i x mem (some p) w' := by
  induction vs with
  | nil => intro w hz; exact ⟨w, rfl, hz⟩
  | cons v vs ih =>
    intro w hz
    have hcp : isConstant env s (newBuf w (fun _ => v)) p = false := by
      unfold isConstant
      rw [noTangent_of_varying (active_varying hp)]
      simpa [newBuf] using hz.loose p rfl
    have hne : i ≠ w.next := Nat.ne_of_lt hz.lt
    have hbuf : (newBuf w (fun _ => v)).bufs i = some x := by
      simp [newBuf, upd, hne, hz.buf]
    obtain ⟨π, e, h2, _⟩ := evaluator_spec (env := env) (s := s) [p]
      (rs.filter (fun r => decide (p ∈ paramsOf s r))) (fun _ => true) w.next
      (newBuf w (fun _ => v)) (fun _ => v) (overlay env s mem (upd x p v))
      (by simp [newBuf, upd])
      (by
        intro r hr q hq hin _
        have : q = p := by simpa using hin
        subst this
        unfold overlay
        rw [if_pos hp]; simp [upd])
      (by
        intro r hr q hq hn
        have hqp : q ≠ p := by
          intro h; subst h; exact hn ⟨by simp, hcp⟩
        have hpv := hw.params r q hq
        obtain ⟨b, hb⟩ := (hw.live q).1 hpv
        rw [val_eq]
        show look s (newBuf w (fun _ => v)) (w.ptr q) q = _
        unfold overlay
        by_cases ha : q ∈ activeBlocks env s
        · rw [if_pos ha, (hz.inside q ha (by simp [hqp])).2]
          simp [look, hbuf, upd, hqp]
        · rw [if_neg ha, (hz.outside q b hb ha).2]
          simp [look, here, newBuf, hz.mem])
    rw [tries, e]
    simp only [ok_bind]
    have hz' : Frozen env s i x mem (some p) { newBuf w (fun _ => v) with ptr := π } := by
      refine ⟨Nat.lt_succ_of_lt hz.lt, hbuf, ?_, ?_, hz.loose, hz.mem⟩
      · intro q hq hqp
        refine ⟨(hz.inside q hq hqp).1, ?_⟩
        rcases h2 q with h | ⟨h, _, _⟩
        · exact h.trans (hz.inside q hq hqp).2
        · exact absurd (by simpa using h) (fun h : q = p => hqp (by rw [h]))
      · intro q b hb hq
        refine ⟨(hz.outside q b hb hq).1, ?_⟩
        rcases h2 q with h | ⟨h, _, _⟩
        · exact h.trans (hz.outside q b hb hq).2
        · have : q = p := by simpa using h
          exact absurd (this ▸ hp) hq
    obtain ⟨w', e', hw'⟩ := ih _ hz'
    rw [e']
    refine ⟨w', ?_, hw'⟩
    simp only [ok_bind, List.all_cons, List.all_nil, Bool.and_true, hcp, Bool.false_or]
    have hft : ∀ l : List Nat, l.filter (fun _ => true) = l := fun l => by simp
    rw [hft]
    rfl

theorem visit_sim (hw : Wf s) {i : Nat} {x mem : Nat → V} (rs : List Nat) (v : Visit V)
    (hv : v.block ∈ activeBlocks env s) {w : Work V} (hz : Frozen env s i x mem none w) :
    ∃ w', visit env s rs i v w = .ok (w', aTries env s mem x rs v.block v.tried) ∧
      Frozen env s i (upd x v.block v.result) mem none w' := by
  obtain ⟨w2, e, h2⟩ := tries_sim hw hv rs v.tried
    { w with isConst := upd w.isConst v.block false, index := upd w.index v.block 0 }
    (i := i) (x := x) (mem := mem)
    ⟨hz.lt, hz.buf, by
      intro p hp hne
      have hpb : p ≠ v.block := fun h => hne (by rw [h])
      have := hz.inside p hp (by simp)
      simpa [upd, hpb] using this, by
      intro p b hb hp
      have hpb : p ≠ v.block := fun h => hp (h ▸ hv)
      have := hz.outside p b hb hp
      simpa [upd, hpb] using this, by
      intro p hp
      have : v.block = p := by simpa using hp
      subst this
      simp [upd], hz.mem⟩
  unfold visit
  simp only [e, ok_bind]
  have hc : isConstant env s
      ({ w2 with
        bufs := upd w2.bufs i ((w2.bufs i).map (fun c => upd c v.block v.result))
        index := upd w2.index v.block (w.index v.block) } : Work V) v.block = false := by
    unfold isConstant
    rw [noTangent_of_varying (active_varying hv)]
    simpa using h2.loose _ rfl
  rw [setState_spec (v := v.result) hc (by simp [look, upd, h2.buf])]
  refine ⟨_, rfl, ⟨h2.lt, by simp [upd, h2.buf], ?_, ?_, by simp, h2.mem⟩⟩
  · intro p hp _
    by_cases hpb : p = v.block
    · subst hpb; simp [upd]
    · have := h2.inside p hp (by simpa using hpb)
      simpa [upd, hpb] using this
  · intro p b hb hp
    have hpb : p ≠ v.block := fun h => hp (h ▸ hv)
    have := h2.outside p b hb hp
    simpa [upd, hpb] using this

theorem visits_sim (hw : Wf s) {i : Nat} {mem : Nat → V} (rs : List Nat) (vs : List (Visit V)) :
    ∀ (x : Nat → V) (w : Work V), (∀ v ∈ vs, v.block ∈ activeBlocks env s) →
    Frozen env s i x mem none w →
    ∃ w' x', visits env s rs i vs w = .ok (w', aVisits env s mem rs x vs) ∧
      Frozen env s i x' mem none w' := by
  induction vs with
  | nil => intro x w _ hz; exact ⟨w, x, rfl, hz⟩
  | cons v vs ih =>
    intro x w hv hz
    obtain ⟨w1, e1, h1⟩ := visit_sim hw rs v (hv v (by simp)) hz
    obtain ⟨w2, x2, e2, h2⟩ := ih _ w1 (fun v' h' => hv v' (by simp [h'])) h1
    refine ⟨w2, x2, ?_, h2⟩
    simp only [visits, e1, ok_bind, e2]
    rfl

theorem inner_sim (hw : Wf s) {ps rs : List Nat} (hps : ps.Perm (activeBlocks env s))
    {w : Work V} (hb : Busy env s w) (x : Nat → V) (vs : List (Visit V))
    (hv : ∀ v ∈ vs, v.block ∈ activeBlocks env s) :
    ∃ w', innerIterations env s ps rs x vs w = .ok (w', aVisits env s w.mem rs x vs) ∧
      Busy env s w' ∧ w'.mem = w.mem := by
  have hpp : ∀ p ∈ ps, p ∈ activeBlocks env s := fun p hp => hps.mem_iff.1 hp
  have hf : Flags s (newBuf w x) := hb.flags
  obtain ⟨w1, e1, n1, b1, m1, i1, o1⟩ := freeze_spec (env := env) (s := s) w.next ps (newBuf w x)
    (hps.nodup_iff.2 (hw.nodup.filter _))
    (by
      intro p hp
      rw [isConstant_eq hw hf (active_pvec (hpp p hp)), active_varying (hpp p hp)]; rfl)
    (by simp [newBuf, upd])
  have hz : Frozen env s w.next x w.mem none w1 := by
    refine ⟨by rw [n1]; exact Nat.lt_succ_self _, by rw [b1]; simp [newBuf, upd], ?_, ?_,
      by simp, m1⟩
    · intro p hp _; exact i1 p (hps.mem_iff.2 hp)
    · intro p b hpb hp
      have := o1 p (fun h => hp (hpp p h))
      exact ⟨this.1.trans (hb.flags p b hpb),
        this.2.trans (hb.home p ((hw.live p).2 ⟨b, hpb⟩) hp)⟩
  obtain ⟨w2, x2, e2, h2⟩ := visits_sim hw rs vs x w1 hv hz
  unfold innerIterations
  simp only [e1, ok_bind, e2]
  refine ⟨_, rfl, ⟨?_, ?_⟩, h2.mem⟩
  · intro p b hpb
    show (if p ∈ ps then false else w2.isConst p) = b.isConst
    by_cases hp : p ∈ ps
    · rw [if_pos hp]
      obtain ⟨b', hb', hc'⟩ := varying_live (active_varying (hpp p hp))
      rw [hpb] at hb'
      cases hb'
      exact hc'.symm
    · rw [if_neg hp]
      exact (h2.outside p b hpb (fun h => hp (hps.mem_iff.2 h))).1
  · intro p hp hna
    obtain ⟨b, hpb⟩ := (hw.live p).1 hp
    exact (h2.outside p b hpb hna).2

/-! ### The whole solve -/

theorem act_sim (hw : Wf s) {ps rs : List Nat} (hps : ps.Perm (activeBlocks env s))
    {w : Work V} (hb : Busy env s w) (a : Act V) (ha : ActLegal env s a) :
    ∃ w', act env s ps rs w a = .ok (w', (aAct env s rs w.mem a).2) ∧ Busy env s w' ∧
      w'.mem = (aAct env s rs w.mem a).1 := by
  cases a with
  | eval x sel => exact eval_sim hw hps hb x sel
  | publish x =>
    obtain ⟨w', e, h1, h2⟩ := publish_sim hw hps hb x ha
    exact ⟨w', by simp [act, e, aAct], h1, h2⟩
  | inner x vs =>
    obtain ⟨w', e, h1, h2⟩ := inner_sim hw hps hb x vs ha
    exact ⟨w', e, h1, h2⟩
  | write b v => exact ⟨_, rfl, ⟨hb.flags, hb.home⟩, rfl⟩
  | free => exact ⟨_, rfl, ⟨hb.flags, hb.home⟩, rfl⟩

theorem actAll_sim (hw : Wf s) {ps rs : List Nat} (hps : ps.Perm (activeBlocks env s))
    (acts : List (Act V)) : ∀ w : Work V, Busy env s w → (∀ a ∈ acts, ActLegal env s a) →
    ∃ w', actAll env s ps rs acts w = .ok (w', (aActAll env s rs w.mem acts).2) ∧ Busy env s w' ∧
      w'.mem = (aActAll env s rs w.mem acts).1 := by
  induction acts with
  | nil => intro w hb _; exact ⟨w, rfl, hb, rfl⟩
  | cons a as ih =>
    intro w hb hl
    obtain ⟨w1, e1, b1, m1⟩ := act_sim hw hps (rs := rs) hb a (hl a (by simp))
    obtain ⟨w2, e2, b2, m2⟩ := ih w1 b1 (fun a' h' => hl a' (by simp [h']))
    refine ⟨w2, ?_, b2, ?_⟩
    · simp only [actAll, e1, ok_bind, e2, m1, aActAll]
    · rw [m2, m1]; rfl

theorem entry_spec (hw : Wf s) {w : Work V} (hr : Ready s w) :
    ∃ (π : Nat → Ptr) (ok : Bool), setStates env s .user s.pvec w = .ok ({ w with ptr := π }, ok) ∧
      Ready s ({ w with ptr := π } : Work V) := by
  obtain ⟨π, e, h2, _⟩ := setStates_spec (env := env) (s := s) .user (here s w.mem) s.pvec w
    (by intro p _; rfl)
  refine ⟨π, _, e, ⟨hr.flags, ?_⟩⟩
  intro p hp
  show π p = .user
  rcases h2 p with h | ⟨_, _, h⟩
  · rw [h]; exact hr.home p hp
  · exact h

/-- `Solve`: what the cost functions see, what is left in the user's memory, and that the blocks
are put back. -/
theorem solve_sim (hw : Wf s) (c : Course V) (hc : CourseLegal env s c) {w : Work V}
    (hr : Ready s w) (hi : ∀ p b, s.pheap p = some b → w.index p = (b.index : Int))
    (hj : c ≠ .rejected →
      jacAll env s (here s (aSolve env ⟨s, w.mem⟩ c).1) s.pvec = true) :
    ∃ w', solve env s c w = .ok (w', (aSolve env ⟨s, w.mem⟩ c).2) ∧
      Back s (aSolve env ⟨s, w.mem⟩ c).1 w' := by
  obtain ⟨π, ok, e1, r1⟩ := entry_spec (env := env) hw hr
  cases c with
  | rejected =>
    exact ⟨w, rfl, ⟨rfl, hr.home, fun p b hb => ⟨hr.flags p b hb, hi p b hb⟩⟩⟩
  | fixedFails k =>
    obtain ⟨ι, ps, rs, ok2, e2⟩ := removeFixed_some_spec (env := env) hw k r1
    obtain ⟨w', e3, m3, u3, f3⟩ := leave_spec (env := env) (s := s) hw
      (w := { w with ptr := π, index := ι }) (A := []) r1.flags (fun p hp _ => r1.home p hp)
      (by simp) (hj (by simp))
    refine ⟨w', ?_, ⟨m3, u3, f3⟩⟩
    simp only [solve, e1, ok_bind, e2, e3]
    rfl
  | setupFails ps rs =>
    obtain ⟨ι, ok2, e2⟩ := removeFixed_spec (env := env) hw r1
    obtain ⟨ι3, e3, _⟩ := setIndex_eq (s := s) (activeResiduals env s) (activeBlocks env s)
      ({ w with ptr := π, index := ι } : Work V)
    obtain ⟨ι4, e4, _⟩ := setIndex_eq (s := s) rs ps ({ w with ptr := π, index := ι3 } : Work V)
    have e5 : (if activeBlocks env s = [] then ({ w with ptr := π, index := ι3 } : Work V)
        else { w with ptr := π, index := ι4 }) =
        { w with ptr := π, index := if activeBlocks env s = [] then ι3 else ι4 } := by
      split <;> rfl
    obtain ⟨w', e6, m6, u6, f6⟩ := leave_spec (env := env) (s := s) hw
      (w := { w with ptr := π, index := if activeBlocks env s = [] then ι3 else ι4 })
      (A := []) r1.flags (fun p hp _ => r1.home p hp) (by simp) (hj (by simp))
    refine ⟨w', ?_, ⟨m6, u6, f6⟩⟩
    simp only [solve, e1, ok_bind, e2, e3, e4, e5, e6]
    rfl
  | minimized ps rs acts final =>
    obtain ⟨hps, hrs, hacts, hfin⟩ := hc
    obtain ⟨ι, ok2, e2⟩ := removeFixed_spec (env := env) hw r1
    obtain ⟨ι3, e3, _⟩ := setIndex_eq (s := s) (activeResiduals env s) (activeBlocks env s)
      ({ w with ptr := π, index := ι } : Work V)
    obtain ⟨ι4, e4, _⟩ := setIndex_eq (s := s) rs ps ({ w with ptr := π, index := ι3 } : Work V)
    have hj' := hj (by simp)
    by_cases ha : activeBlocks env s = []
    · have ha1 : aSolve env ⟨s, w.mem⟩ (.minimized ps rs acts final) =
          (w.mem, seen s (here s w.mem) (fixedResiduals env s)) := by
        simp only [aSolve, ha, if_true]
      rw [ha1] at hj' ⊢
      obtain ⟨w', e6, m6, u6, f6⟩ := leave_spec (env := env) (s := s) hw
        (w := { w with ptr := π, index := ι3 })
        (A := []) r1.flags (fun p hp _ => r1.home p hp) (by simp) hj'
      refine ⟨w', ?_, ⟨m6, u6, f6⟩⟩
      simp only [solve, e1, ok_bind, e2, e3]
      rw [if_pos ha]
      simp only [e6, ok_bind]
    · have ha1 : aSolve env ⟨s, w.mem⟩ (.minimized ps rs acts final) =
          (put env s final (aActAll env s rs w.mem acts).1,
            seen s (here s w.mem) (fixedResiduals env s) ++
              (aActAll env s rs w.mem acts).2) := by
        simp only [aSolve, ha, if_false]
      rw [ha1] at hj' ⊢
      obtain ⟨w5, e5, b5, m5⟩ := actAll_sim (env := env) hw hps (rs := rs) acts
        ({ w with ptr := π, index := ι4 } : Work V) ⟨r1.flags, fun p hp _ => r1.home p hp⟩ hacts
      obtain ⟨w6, e6, b6, m6⟩ := publish_sim hw hps b5 final hfin
      obtain ⟨w', e7, m7, u7, f7⟩ := leave_spec (env := env) (s := s) hw b6.flags b6.home
        (fun p hp => active_varying hp) (by rw [m6, m5]; exact hj')
      refine ⟨w', ?_, ⟨by rw [m7, m6, m5], u7, f7⟩⟩
      simp only [solve, e1, ok_bind, e2, e3]
      rw [if_neg ha]
      simp only [e4, e5, ok_bind, e6, e7]

end Ceres.Session
