import Verif.Session.Spec
import Verif.Problem.Inv4
/-! Facts about the pieces of which solves and evaluations consist. -/
namespace Ceres.Session

open Ceres.Problem (Err State PBlock upd mapFind getR)

variable {V : Type} {env : Env V} {s : State}

@[simp] theorem ok_bind {α β : Type} (a : α) (f : α → Except Err β) :
    (Except.ok a >>= f) = f a := rfl

@[simp] theorem err_bind {α β : Type} (e : Err) (f : α → Except Err β) :
    ((Except.error e : Except Err α) >>= f) = .error e := rfl

/-- What the container guarantees about its blocks between calls (from `Problem.Inv`). -/
structure Wf (s : State) : Prop where
  nodup : s.pvec.Nodup
  live : ∀ p, p ∈ s.pvec ↔ ∃ b, s.pheap p = some b
  index : ∀ (i p : Nat), s.pvec[i]? = some p → ∃ b, s.pheap p = some b ∧ b.index = i
  rlive : ∀ r, r ∈ s.rvec ↔ ∃ rb, s.rheap r = some rb
  params : ∀ r, ∀ p ∈ paramsOf s r, p ∈ s.pvec
  inj : ∀ p ∈ s.pvec, ∀ q ∈ s.pvec, addrOf s p = addrOf s q → p = q
  find : ∀ a p, mapFind s.pmap a = some p → p ∈ s.pvec ∧ addrOf s p = a

theorem wf_of_inv {e : Problem.Env} {sp : Problem.Spec} (h : Problem.Inv e s sp) : Wf s := by
  have hlive : ∀ p, p ∈ s.pvec ↔ ∃ b, s.pheap p = some b := by
    intro p
    rw [h.p.pv.mem p]
    cases s.pheap p <;> simp
  refine ⟨h.p.pv.nodup, hlive, ?_, ?_, ?_, ?_, ?_⟩
  · intro i p hp
    have := (h.p.pv i p).1 hp
    cases hb : s.pheap p with
    | none => simp [hb] at this
    | some b => simp [hb] at this; exact ⟨b, rfl, this⟩
  · intro r
    rw [h.r.rv.mem r]
    cases s.rheap r <;> simp
  · intro r p hp
    unfold paramsOf at hp
    cases hr : s.rheap r with
    | none => simp [hr] at hp
    | some rb =>
      simp only [hr] at hp
      exact (hlive p).2 (h.r.rl r rb hr p hp)
  · intro p hp q hq he
    obtain ⟨b, hb⟩ := (hlive p).1 hp
    obtain ⟨c, hc⟩ := (hlive q).1 hq
    simp only [addrOf, hb, hc] at he
    have h1 := (h.p.mf b.addr p).2 ⟨b, hb, rfl⟩
    have h2 := (h.p.mf b.addr q).2 ⟨c, hc, he.symm⟩
    rw [h1] at h2
    exact Option.some.inj h2
  · intro a p hf
    obtain ⟨b, hb, hba⟩ := (h.p.mf a p).1 hf
    exact ⟨(hlive p).2 ⟨b, hb⟩, by simp [addrOf, hb, hba]⟩

/-- Reading through a pointer, with the pointer given. -/
def look (s : State) (w : Work V) (q : Ptr) (p : Nat) : Except Err V :=
  match q with
  | .user => .ok (w.mem (addrOf s p))
  | .buf i =>
    match w.bufs i with
    | some c => .ok (c p)
    | none => .error .ub

theorem val_eq (w : Work V) (p : Nat) : val s w p = look s w (w.ptr p) p := by
  unfold val look
  cases w.ptr p <;> rfl

theorem look_ptr (w : Work V) (π : Nat → Ptr) (q : Ptr) (p : Nat) :
    look s { w with ptr := π } q p = look s w q p := rfl

theorem isConstant_ptr (w : Work V) (π : Nat → Ptr) (p : Nat) :
    isConstant env s { w with ptr := π } p = isConstant env s w p := rfl

theorem setState_spec {w : Work V} {p : Nat} {q : Ptr} {v : V}
    (hc : isConstant env s w p = false) (hl : look s w q p = .ok v) :
    setState env s w p q = .ok ({ w with ptr := upd w.ptr p q }, jacOk env s p v) := by
  have hv : val s { w with ptr := upd w.ptr p q } p = .ok v := by
    rw [val_eq]
    have : upd w.ptr p q p = q := by simp [upd]
    show look s _ (upd w.ptr p q p) p = _
    rw [this, look_ptr, hl]
  simp [setState, hc, hv]

/-- The loop that points blocks somewhere: only `ptr` changes, the Boolean says whether all
`PlusJacobian`s succeeded, and if so every varying block of the list points there. -/
theorem setStates_spec (q : Ptr) (f : Nat → V) (ps : List Nat) :
    ∀ w : Work V, (∀ p ∈ ps, look s w q p = .ok (f p)) →
    ∃ π : Nat → Ptr,
      setStates env s q ps w = .ok ({ w with ptr := π },
        ps.all (fun p => isConstant env s w p || jacOk env s p (f p))) ∧
      (∀ p, π p = w.ptr p ∨ (p ∈ ps ∧ isConstant env s w p = false ∧ π p = q)) ∧
      ((ps.all (fun p => isConstant env s w p || jacOk env s p (f p))) = true →
        ∀ p ∈ ps, isConstant env s w p = false → π p = q) := by
  induction ps with
  | nil => intro w _; exact ⟨w.ptr, rfl, fun p => Or.inl rfl, by simp⟩
  | cons p ps ih =>
    intro w hl
    have hl' : ∀ p' ∈ ps, look s w q p' = .ok (f p') := fun p' h => hl p' (by simp [h])
    rw [setStates]
    by_cases hc : isConstant env s w p = true
    · rw [if_pos hc]
      obtain ⟨π, h1, h2, h3⟩ := ih w hl'
      refine ⟨π, ?_, ?_, ?_⟩
      · rw [h1]; simp [hc]
      · intro p'
        rcases h2 p' with h | ⟨h, h', h''⟩
        · exact Or.inl h
        · exact Or.inr ⟨by simp [h], h', h''⟩
      · intro hall p' hp' hn
        simp only [List.all_cons, hc, Bool.true_or, Bool.true_and] at hall
        rcases List.mem_cons.1 hp' with rfl | hp'
        · rw [hc] at hn; exact absurd hn (by simp)
        · exact h3 hall p' hp' hn
    · rw [if_neg hc]
      have hc' : isConstant env s w p = false := by simpa using hc
      rw [setState_spec hc' (hl p (by simp))]
      simp only [ok_bind]
      by_cases hj : jacOk env s p (f p) = true
      · simp only [hj, if_true]
        obtain ⟨π, h1, h2, h3⟩ := ih { w with ptr := upd w.ptr p q } hl'
        refine ⟨π, ?_, ?_, ?_⟩
        · rw [h1]
          simp only [isConstant_ptr, List.all_cons, hj, Bool.or_true, Bool.true_and]
        · intro p'
          rcases h2 p' with h | ⟨h, h', h''⟩
          · by_cases hpp : p' = p
            · subst hpp
              exact Or.inr ⟨by simp, hc', by rw [h]; simp [upd]⟩
            · exact Or.inl (by rw [h]; simp [upd, hpp])
          · exact Or.inr ⟨by simp [h], h', h''⟩
        · intro hall p' hp' hn
          simp only [List.all_cons, hj, Bool.or_true, Bool.true_and] at hall
          by_cases hpp : p' ∈ ps
          · exact h3 hall p' hpp hn
          · have : p' = p := by simpa [hpp] using hp'
            subst this
            rcases h2 p' with h | ⟨_, _, h''⟩
            · rw [h]; simp [upd]
            · exact h''
      · have hj' : jacOk env s p (f p) = false := by simpa using hj
        simp only [hj', Bool.false_eq_true, if_false]
        refine ⟨upd w.ptr p q, ?_, ?_, ?_⟩
        · simp [hc', hj']
        · intro p'
          by_cases hpp : p' = p
          · subst hpp; exact Or.inr ⟨by simp, hc', by simp [upd]⟩
          · exact Or.inl (by simp [upd, hpp])
        · simp [hc', hj']

theorem args_spec (w : Work V) (g : Nat → V) (ps : List Nat)
    (h : ∀ p ∈ ps, val s w p = .ok (g p)) : args s w ps = .ok (ps.map g) := by
  induction ps with
  | nil => rfl
  | cons p ps ih =>
    simp only [args, h p (by simp), ok_bind, ih (fun p' hp' => h p' (by simp [hp']))]
    rfl

theorem evalResiduals_spec (w : Work V) (g : Nat → V) (rs : List Nat)
    (h : ∀ r ∈ rs, ∀ p ∈ paramsOf s r, val s w p = .ok (g p)) :
    evalResiduals s w rs = .ok (seen s g rs) := by
  induction rs with
  | nil => rfl
  | cons r rs ih =>
    simp only [evalResiduals, args_spec w g _ (h r (by simp)), ok_bind,
      ih (fun r' hr' => h r' (by simp [hr']))]
    rfl

theorem seen_congr {f g : Nat → V} {rs : List Nat}
    (h : ∀ r ∈ rs, ∀ p ∈ paramsOf s r, f p = g p) : seen s f rs = seen s g rs := by
  unfold seen
  apply List.map_congr_left
  intro r hr
  rw [List.map_congr_left (h r hr)]

/-- The evaluator: the cost functions see the vector at the varying blocks of the program and
whatever the other blocks point to elsewhere. -/
theorem evaluator_spec (ps rs : List Nat) (sel : Nat → Bool) (i : Nat) (w : Work V) (c g : Nat → V)
    (hb : w.bufs i = some c)
    (hin : ∀ r ∈ rs, ∀ p ∈ paramsOf s r, p ∈ ps → isConstant env s w p = false → g p = c p)
    (hout : ∀ r ∈ rs, ∀ p ∈ paramsOf s r, ¬ (p ∈ ps ∧ isConstant env s w p = false) →
      val s w p = .ok (g p)) :
    ∃ π : Nat → Ptr,
      evaluator env s ps rs sel i w = .ok ({ w with ptr := π },
        if ps.all (fun p => isConstant env s w p || jacOk env s p (c p)) then
          seen s g (rs.filter sel) else []) ∧
      (∀ p, π p = w.ptr p ∨ (p ∈ ps ∧ isConstant env s w p = false ∧ π p = .buf i)) ∧
      ((ps.all (fun p => isConstant env s w p || jacOk env s p (c p))) = true →
        ∀ p ∈ ps, isConstant env s w p = false → π p = .buf i) := by
  obtain ⟨π, h1, h2, h3⟩ := setStates_spec (env := env) (s := s) (.buf i) c ps w
    (by intro p _; simp [look, hb])
  refine ⟨π, ?_, h2, h3⟩
  unfold evaluator
  rw [h1]
  simp only [ok_bind]
  by_cases hall : (ps.all (fun p => isConstant env s w p || jacOk env s p (c p))) = true
  · rw [if_pos hall, if_pos hall]
    rw [evalResiduals_spec (s := s) { w with ptr := π } g]
    · rfl
    · intro r hr p hp
      have hr' := (List.mem_filter.1 hr).1
      by_cases hpp : p ∈ ps ∧ isConstant env s w p = false
      · rw [val_eq]
        have : π p = .buf i := h3 hall p hpp.1 hpp.2
        simp only [this, look, hb, hin r hr' p hp hpp.1 hpp.2]
      · have hv := hout r hr' p hp hpp
        rw [val_eq] at hv ⊢
        rcases h2 p with h | ⟨h, h', _⟩
        · show look s _ (π p) p = _
          rw [h, look_ptr]; exact hv
        · exact absurd ⟨h, h'⟩ hpp
  · rw [if_neg hall, if_neg hall]

/-- Copying to the user when every block points to the vector. -/
theorem copyToUser_spec (x : Nat → V) (ps : List Nat) :
    ∀ w : Work V, (∀ p ∈ ps, ∃ i c, w.ptr p = .buf i ∧ w.bufs i = some c ∧ c p = x p) →
    ps.Nodup → (∀ p ∈ ps, ∀ q ∈ ps, addrOf s p = addrOf s q → p = q) →
    copyToUser s ps w = .ok { w with mem := putAll s x ps w.mem } := by
  induction ps with
  | nil => intro w _ _ _; rfl
  | cons p ps ih =>
    intro w hp hn hinj
    obtain ⟨i, c, h1, h2, h3⟩ := hp p (by simp)
    have hv : val s w p = .ok (x p) := by simp [val, h1, h2, h3]
    simp only [copyToUser, hv, ok_bind]
    rw [ih { w with mem := upd w.mem (addrOf s p) (x p) }
      (fun p' hp' => hp p' (by simp [hp'])) (List.nodup_cons.1 hn).2
      (fun p' hp' q' hq' => hinj p' (by simp [hp']) q' (by simp [hq']))]
    simp only [Except.ok.injEq, Work.mk.injEq, true_and, and_true]
    funext a
    unfold putAll
    by_cases ha : addrOf s p = a
    · have hnone : ps.find? (fun p => decide (addrOf s p = a)) = none := by
        rw [List.find?_eq_none]
        intro q hq hqa
        have : addrOf s p = addrOf s q := by rw [ha]; exact (of_decide_eq_true hqa).symm
        have := hinj p (by simp) q (by simp [hq]) this
        subst this
        exact (List.nodup_cons.1 hn).1 hq
      rw [hnone, List.find?_cons_of_pos (by simpa using ha)]
      simp [upd, ha]
    · rw [List.find?_cons_of_neg (by simpa using ha)]
      cases (ps.find? (fun p => decide (addrOf s p = a))) with
      | some q => rfl
      | none => simp [upd, Ne.symm ha]

theorem gather_spec (w : Work V) (ps : List Nat)
    (h : ∀ p ∈ ps, val s w p = .ok (w.mem (addrOf s p))) :
    gather s w ps (fun p => w.mem (addrOf s p)) = .ok (fun p => w.mem (addrOf s p)) := by
  induction ps with
  | nil => rfl
  | cons p ps ih =>
    simp only [gather, h p (by simp), ok_bind]
    have : upd (fun p => w.mem (addrOf s p)) p (w.mem (addrOf s p)) =
        (fun p => w.mem (addrOf s p)) := by
      funext q; by_cases hq : q = p <;> simp [upd, hq]
    rw [this]
    exact ih (fun p' hp' => h p' (by simp [hp']))

/-! ### Numbering -/

theorem number_eq (ps : List Nat) : ∀ (i : Nat) (w : Work V),
    ∃ ι : Nat → Int, number ps i w = { w with index := ι } ∧
      (∀ p, p ∉ ps → ι p = w.index p) ∧
      (ps.Nodup → ∀ (k p : Nat), ps[k]? = some p → ι p = (i + k : Int)) := by
  induction ps with
  | nil => intro i w; exact ⟨w.index, rfl, fun _ _ => rfl, by simp⟩
  | cons p ps ih =>
    intro i w
    obtain ⟨ι, h1, h2, h3⟩ := ih (i + 1) { w with index := upd w.index p (i : Int) }
    refine ⟨ι, by rw [number, h1], ?_, ?_⟩
    · intro q hq
      rw [h2 q (by simp_all)]
      have : q ≠ p := by simp_all
      simp [upd, this]
    · intro hn k q hk
      cases k with
      | zero =>
        simp at hk
        subst hk
        rw [h2 p (List.nodup_cons.1 hn).1]
        simp [upd]
      | succ k =>
        simp at hk
        rw [h3 (List.nodup_cons.1 hn).2 k q hk]
        push_cast; omega

theorem setIndex_eq (rs ps : List Nat) (w : Work V) :
    ∃ ι : Nat → Int, setIndex s rs ps w = { w with index := ι } ∧
      (ps.Nodup → ∀ (k p : Nat), ps[k]? = some p → ι p = (k : Int)) := by
  obtain ⟨ι, h1, _, h3⟩ := number_eq ps 0 (unmark (rs.flatMap (paramsOf s)) w)
  refine ⟨ι, by rw [setIndex, h1]; rfl, ?_⟩
  intro hn k p hk
  have := h3 hn k p hk
  simpa using this

/-! ### Constness -/

/-- The user's constness flags are in place. -/
def Flags (s : State) (w : Work V) : Prop :=
  ∀ p b, s.pheap p = some b → w.isConst p = b.isConst

theorem isConstant_of_flag {w : Work V} {p : Nat} {b : PBlock} (hb : s.pheap p = some b)
    (h : w.isConst p = b.isConst) : isConstant env s w p = !varying env s p := by
  unfold isConstant varying noTangent
  simp only [hb, h]
  cases b.isConst <;> cases b.manifold <;> simp

theorem isConstant_eq (hw : Wf s) {w : Work V} (h : Flags s w) {p : Nat} (hp : p ∈ s.pvec) :
    isConstant env s w p = !varying env s p := by
  obtain ⟨b, hb⟩ := (hw.live p).1 hp
  exact isConstant_of_flag hb (h p b hb)

theorem varying_live {p : Nat} (h : varying env s p = true) : ∃ b, s.pheap p = some b ∧
    b.isConst = false := by
  unfold varying at h
  cases hb : s.pheap p with
  | none => simp [hb] at h
  | some b => simp [hb] at h; exact ⟨b, rfl, h.1⟩

theorem noTangent_of_varying {p : Nat} (h : varying env s p = true) :
    noTangent env s p = false := by
  unfold varying at h
  unfold noTangent
  cases hb : s.pheap p with
  | none => simp [hb] at h
  | some b =>
    simp only [hb, Bool.and_eq_true] at h ⊢
    cases hm : b.manifold <;> simp_all

/-! ### Leaving -/

/-- Blocks outside `A` point to the user's memory. -/
def Home (s : State) (A : List Nat) (w : Work V) : Prop :=
  ∀ p ∈ s.pvec, p ∉ A → w.ptr p = .user

/-- At the end of a call: flags as the user set them, only varying blocks point elsewhere, and
`PlusJacobian` succeeds at the user's values.  Then everything is put back. -/
theorem leave_spec (hw : Wf s) {w : Work V} {A : List Nat} (hf : Flags s w) (hh : Home s A w)
    (hA : ∀ p ∈ A, varying env s p = true)
    (hj : jacAll env s (here s w.mem) s.pvec = true) :
    ∃ w', leave env s w = .ok w' ∧ w'.mem = w.mem ∧ (∀ p ∈ s.pvec, w'.ptr p = .user) ∧
      (∀ p b, s.pheap p = some b → w'.isConst p = b.isConst ∧ w'.index p = (b.index : Int)) := by
  obtain ⟨π, h1, h2, h3⟩ := setStates_spec (env := env) (s := s) .user (here s w.mem) s.pvec w
    (by intro p _; rfl)
  have hall : s.pvec.all (fun p => isConstant env s w p || jacOk env s p (here s w.mem p)) =
      true := by
    rw [List.all_eq_true]
    intro p hp
    unfold jacAll at hj
    rw [List.all_eq_true] at hj
    rw [isConstant_eq hw hf hp]
    exact hj p hp
  obtain ⟨ι, h4, h5⟩ := setIndex_eq (s := s) s.rvec s.pvec { w with ptr := π }
  refine ⟨freeAll { w with ptr := π, index := ι }, ?_, rfl, ?_, ?_⟩
  · unfold leave
    rw [h1]
    simp only [ok_bind, h4]
  · intro p hp
    show π p = .user
    by_cases hv : varying env s p = true
    · exact h3 hall p hp (by rw [isConstant_eq hw hf hp, hv]; rfl)
    · rcases h2 p with h | ⟨_, _, h⟩
      · rw [h]
        exact hh p hp (fun hpA => hv (hA p hpA))
      · exact h
  · intro p b hb
    refine ⟨hf p b hb, ?_⟩
    show ι p = _
    obtain ⟨k, hk⟩ := List.mem_iff_getElem?.1 ((hw.live p).2 ⟨b, hb⟩)
    rw [h5 hw.nodup k p hk]
    obtain ⟨b', hb', hi⟩ := hw.index k p hk
    rw [hb] at hb'
    cases hb'
    rw [hi]

end Ceres.Session
