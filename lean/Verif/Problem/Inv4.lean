import Verif.Problem.Inv3
/-! Simulation for `RemoveParameterBlock` and the remaining calls. -/
namespace Ceres.Problem

/-- Residuals that do not use address `a`. -/
def dropA (res : Nat → Option ResInfo) (a : Nat) : Nat → Option ResInfo := fun r =>
  match res r with
  | some i => if a ∈ i.params then none else some i
  | none => none

theorem dropA_upd {res : Nat → Option ResInfo} {a r : Nat} {i : ResInfo}
    (hi : res r = some i) (ha : a ∈ i.params) : dropA (upd res r none) a = dropA res a := by
  funext q
  unfold dropA upd
  by_cases hq : q = r
  · subst hq; simp [hi, ha]
  · simp [hq]

theorem dropA_id {res : Nat → Option ResInfo} {a : Nat}
    (h : ∀ r i, res r = some i → a ∉ i.params) : dropA res a = res := by
  funext q
  unfold dropA
  cases hq : res q with
  | none => rfl
  | some i => simp [h q i hq]

theorem mem_params_iff {env : Env} {s : State} {sp : Spec} (h : Inv env s sp) {p : Nat}
    {b : PBlock} (hp : s.pheap p = some b) {r : Nat} {rb : RBlock} (hr : s.rheap r = some rb) :
    b.addr ∈ rb.params.map (addrOf s.pheap) ↔ p ∈ rb.params := by
  rw [List.mem_map]
  constructor
  · rintro ⟨q, hq, ha⟩
    obtain ⟨qb, hqb⟩ := h.r.rl r rb hr q hq
    have : q = p := h.p.inj hqb hp (by simpa [addrOf, hqb] using ha)
    rwa [← this]
  · intro hmem
    exact ⟨p, hmem, by simp [addrOf, hp]⟩

/-- What removing the dependents of `p` leaves alone. -/
structure ScanRel (s s' : State) (p : Nat) : Prop where
  pvec : s'.pvec = s.pvec
  pmap : s'.pmap = s.pmap
  addr : addrOf s'.pheap = addrOf s.pheap
  live : ∀ q, (s'.pheap q).isSome = (s.pheap q).isSome
  free : ∀ q qb, s'.rheap q = some qb → p ∉ qb.params

theorem live_of {s s' : State} {p : Nat} {b : PBlock}
    (addr : addrOf s'.pheap = addrOf s.pheap)
    (live : ∀ q, (s'.pheap q).isSome = (s.pheap q).isSome) (hp : s.pheap p = some b) :
    ∃ b', s'.pheap p = some b' ∧ b'.addr = b.addr := by
  have h1 := live p
  rw [hp] at h1
  cases h2 : s'.pheap p with
  | none => rw [h2] at h1; simp at h1
  | some b' =>
    refine ⟨b', rfl, ?_⟩
    have := congrFun addr p
    simpa [addrOf, h2, hp] using this

theorem backwardScan_ok {env : Env} {p a : Nat} : ∀ (n : Nat) {s : State} {sp : Spec} {b : PBlock},
    Inv env s sp → s.pheap p = some b → b.addr = a → n ≤ s.rvec.length →
    (∀ i q qb, n ≤ i → s.rvec[i]? = some q → s.rheap q = some qb → p ∉ qb.params) →
    ∃ s', backwardScan env p n s = .ok s' ∧
      Inv env s' { sp with residuals := dropA sp.residuals a } ∧ ScanRel s s' p := by
  intro n
  induction n with
  | zero =>
    intro s sp b h hp ha _ hfree
    have hf : ∀ q qb, s.rheap q = some qb → p ∉ qb.params := by
      intro q qb hq
      have := (h.r.rv qb.index q).2 (by simp [hq])
      exact hfree _ q qb (Nat.zero_le _) this hq
    refine ⟨s, rfl, ?_, ⟨rfl, rfl, rfl, fun _ => rfl, hf⟩⟩
    rw [dropA_id]
    · exact h
    · intro r i hi
      rw [h.r.ri] at hi
      cases hr : s.rheap r with
      | none => simp [hr] at hi
      | some rb =>
        simp only [hr, Option.map_some, Option.some.injEq] at hi
        subst hi
        simp only
        rw [← ha, mem_params_iff h hp hr]
        exact hf r rb hr
  | succ n ih =>
    intro s sp b h hp ha hn hfree
    have hlt : n < s.rvec.length := by omega
    obtain ⟨r, hr⟩ : ∃ r, s.rvec[n]? = some r := ⟨_, List.getElem?_eq_getElem hlt⟩
    obtain ⟨rb, hrb, hidx⟩ : ∃ rb, s.rheap r = some rb ∧ rb.index = n := by
      have := (h.r.rv n r).1 hr
      cases hh : s.rheap r with
      | none => simp [hh] at this
      | some rb => exact ⟨rb, rfl, by simpa [hh] using this⟩
    simp only [backwardScan, hr, getR, hrb, ok_bind]
    by_cases hmem : p ∈ rb.params
    · simp only [hmem, if_true]
      obtain ⟨s1, he, hinv, hrel⟩ := internalRemove_ok h hrb
      rw [he, ok_bind]
      obtain ⟨b', hb', hba'⟩ := live_of hrel.addr hrel.live hp
      obtain ⟨t, i, ht, hi, hvec⟩ := hrel.vec
      have hin : i = n := by
        have h1 := (h.r.rv i r).1 hi
        have h2 := (h.r.rv n r).1 hr
        rw [h1] at h2
        simpa using h2
      subst hin
      have hlen : s1.rvec.length = s.rvec.length - 1 := by rw [hvec]; simp
      obtain ⟨s2, he2, hinv2, hrel2⟩ := ih hinv hb' (hba'.trans ha) (by omega) (by
        intro j q qb hj hq hqb
        rw [hvec, List.getElem?_dropLast, List.length_set] at hq
        have hqr : q ≠ r := by
          rintro rfl; rw [hrel.gone] at hqb; simp at hqb
        have hold : ∃ qb0, s.rheap q = some qb0 ∧ qb0.params = qb.params := by
          have := hrel.others q hqr
          rw [hqb] at this
          cases h0 : s.rheap q with
          | none => rw [h0] at this; simp at this
          | some qb0 => rw [h0] at this; exact ⟨qb0, rfl, by simpa using this.symm⟩
        obtain ⟨qb0, hq0, hpar⟩ := hold
        rw [← hpar]
        split at hq
        · rename_i hjl
          rw [List.getElem?_set] at hq
          split at hq
          · -- position of the moved last element
            simp only [Option.some.injEq] at hq
            subst hq
            rw [List.getLast?_eq_getElem?] at ht
            exact hfree (s.rvec.length - 1) t qb0 (by omega) ht hq0
          · exact hfree j q qb0 (by omega) hq hq0
        · simp at hq)
      refine ⟨s2, he2, ?_, ?_⟩
      · have hi' : sp.residuals r = some ⟨rb.cost, rb.loss, rb.params.map (addrOf s.pheap)⟩ := by
          rw [h.r.ri, hrb]; rfl
        have := dropA_upd (a := a) hi' (by simp only; rw [← ha, mem_params_iff h hp hrb]; exact hmem)
        simp only [this] at hinv2
        exact hinv2
      · exact ⟨hrel2.pvec.trans hrel.pvec, hrel2.pmap.trans hrel.pmap, hrel2.addr.trans hrel.addr,
          fun q => (hrel2.live q).trans (hrel.live q), hrel2.free⟩
    · simp only [hmem, if_false]
      apply ih h hp ha (by omega)
      intro j q qb hj hq hqb
      by_cases hjn : j = n
      · subst hjn
        rw [hr] at hq
        have := Option.some.inj hq
        subst this
        rw [hrb] at hqb
        have := Option.some.inj hqb
        subst this
        exact hmem
      · exact hfree j q qb (by omega) hq hqb

theorem removeAll_ok {env : Env} {p a : Nat} : ∀ (l : List Nat) {s : State} {sp : Spec} {b : PBlock},
    Inv env s sp → s.pheap p = some b → b.addr = a → l.Nodup →
    (∀ r, r ∈ l ↔ ∃ rb, s.rheap r = some rb ∧ p ∈ rb.params) →
    ∃ s', removeAll env s l = .ok s' ∧
      Inv env s' { sp with residuals := dropA sp.residuals a } ∧ ScanRel s s' p := by
  intro l
  induction l with
  | nil =>
    intro s sp b h hp ha _ hl
    have hf : ∀ q qb, s.rheap q = some qb → p ∉ qb.params := by
      intro q qb hq hm
      have := (hl q).2 ⟨qb, hq, hm⟩
      simp at this
    refine ⟨s, rfl, ?_, ⟨rfl, rfl, rfl, fun _ => rfl, hf⟩⟩
    rw [dropA_id]
    · exact h
    · intro r i hi
      rw [h.r.ri] at hi
      cases hr : s.rheap r with
      | none => simp [hr] at hi
      | some rb =>
        simp only [hr, Option.map_some, Option.some.injEq] at hi
        subst hi
        simp only
        rw [← ha, mem_params_iff h hp hr]
        exact hf r rb hr
  | cons r l ih =>
    intro s sp b h hp ha hnd hl
    obtain ⟨rb, hrb, hmem⟩ := (hl r).1 (by simp)
    obtain ⟨s1, he, hinv, hrel⟩ := internalRemove_ok h hrb
    obtain ⟨b', hb', hba'⟩ := live_of hrel.addr hrel.live hp
    have hnd' := List.nodup_cons.1 hnd
    obtain ⟨s2, he2, hinv2, hrel2⟩ := ih hinv hb' (hba'.trans ha) hnd'.2 (by
      intro q
      by_cases hq : q = r
      · subst hq
        simp [hrel.gone, hnd'.1]
      · have h1 := hl q
        simp only [List.mem_cons, hq, false_or] at h1
        rw [h1]
        have := hrel.others q hq
        cases h2 : s1.rheap q <;> cases h3 : s.rheap q <;> simp_all)
    refine ⟨s2, by simp only [removeAll, he, ok_bind]; exact he2, ?_, ?_⟩
    · have hi' : sp.residuals r = some ⟨rb.cost, rb.loss, rb.params.map (addrOf s.pheap)⟩ := by
        rw [h.r.ri, hrb]; rfl
      have := dropA_upd (a := a) hi' (by simp only; rw [← ha, mem_params_iff h hp hrb]; exact hmem)
      simp only [this] at hinv2
      exact hinv2
    · exact ⟨hrel2.pvec.trans hrel.pvec, hrel2.pmap.trans hrel.pmap, hrel2.addr.trans hrel.addr,
        fun q => (hrel2.live q).trans (hrel.live q), hrel2.free⟩

theorem deleteParameterInVector_ok {env : Env} {s : State} {sp : Spec} {p : Nat} {b : PBlock}
    (h : Inv env s sp) (hp : s.pheap p = some b)
    (hfree : ∀ q qb, s.rheap q = some qb → p ∉ qb.params) :
    ∃ s', deleteParameterInVector s p = .ok s' ∧
      Inv env s' { sp with params := upd sp.params b.addr none } := by
  have hidx : (fun q => (s.pheap q).map PBlock.index) p = some b.index := by simp [hp]
  have hget := (h.p.pv b.index p).2 hidx
  have hne : s.pvec ≠ [] := by
    intro h; rw [h] at hget; simp at hget
  obtain ⟨t, ht⟩ : ∃ t, s.pvec.getLast? = some t := by
    cases h : s.pvec.getLast? with
    | none => rw [List.getLast?_eq_none_iff] at h; exact absurd h hne
    | some t => exact ⟨t, rfl⟩
  have htmem : t ∈ s.pvec := List.mem_of_getLast? ht
  obtain ⟨tb, htb⟩ : ∃ tb, s.pheap t = some tb := by
    have := (h.p.pv.mem t).1 htmem
    cases h : s.pheap t with
    | none => simp [h] at this
    | some tb => exact ⟨tb, rfl⟩
  have hp2 : ∃ b2, upd s.pheap t (some { tb with index := b.index }) p = some b2 ∧
      b2.addr = b.addr := by
    by_cases hpt : p = t
    · subst hpt
      rw [hp] at htb
      have := Option.some.inj htb
      subst this
      exact ⟨_, upd_same _ _ _, rfl⟩
    · exact ⟨b, by rw [upd_other _ _ hpt]; exact hp, rfl⟩
  obtain ⟨b2, hb2, hb2a⟩ := hp2
  let ph' := upd (upd s.pheap t (some { tb with index := b.index })) p none
  refine ⟨{ s with
    pheap := ph'
    pmap := mapErase s.pmap b.addr
    pvec := (s.pvec.set b.index t).dropLast }, ?_, ?_⟩
  · unfold deleteParameterInVector deleteParameter
    simp only [getP, hp, ok_bind, hget, ne_eq, not_true_eq_false, if_false, ht, htb, hb2, hb2a]
    rfl
  -- pointwise description of the new heap
  have hph : ∀ q, ph' q = if q = p then none else if q = t then some { tb with index := b.index }
      else s.pheap q := by
    intro q; simp only [ph', upd]
  have hphq : ∀ q qb, ph' q = some qb → ∃ qb0, s.pheap q = some qb0 ∧ qb0.addr = qb.addr ∧
      qb0.info = qb.info ∧ qb0.deps = qb.deps ∧ q ≠ p := by
    intro q qb hq
    rw [hph] at hq
    split at hq
    · simp at hq
    · rename_i hqp
      split at hq
      · rename_i hqt
        subst hqt
        have := (Option.some.inj hq).symm
        subst this
        exact ⟨tb, htb, rfl, rfl, rfl, hqp⟩
      · exact ⟨qb, hq, rfl, rfl, rfl, hqp⟩
  have hphq' : ∀ q qb0, s.pheap q = some qb0 → q ≠ p → ∃ qb, ph' q = some qb ∧
      qb0.addr = qb.addr ∧ qb0.info = qb.info := by
    intro q qb0 hq hqp
    rw [hph, if_neg hqp]
    split
    · rename_i hqt
      subst hqt
      rw [htb] at hq
      have := Option.some.inj hq
      subst this
      exact ⟨_, rfl, rfl, rfl⟩
    · exact ⟨qb0, hq, rfl, rfl⟩
  have haddr : ∀ q, q ≠ p → addrOf ph' q = addrOf s.pheap q := by
    intro q hq
    unfold addrOf
    rw [hph, if_neg hq]
    by_cases hqt : q = t
    · subst hqt; simp [htb]
    · simp [hqt]
  refine ⟨?_, ?_, ?_, h.m, ?_⟩
  · constructor
    · have := h.p.pv.swapRemove hidx ht
      intro i q
      rw [this i q]
      simp only [ph', upd]
      split
      · simp
      · split
        · simp
        · rfl
    · exact sorted_mapErase _ h.p.ms
    · intro a q
      simp only
      rw [mapFind_erase _ h.p.ms]
      by_cases ha : a = b.addr
      · simp only [ha, if_true, reduceCtorEq, false_iff]
        rintro ⟨qb, hq, hqa⟩
        obtain ⟨qb0, hq0, ha0, _, _, hqp⟩ := hphq q qb hq
        exact hqp (h.p.inj hq0 hp (ha0.trans hqa))
      · simp only [ha, if_false]
        rw [h.p.mf]
        constructor
        · rintro ⟨qb0, hq0, hqa⟩
          have hqp : q ≠ p := by
            rintro rfl
            rw [hp] at hq0
            have := Option.some.inj hq0
            subst this
            exact ha hqa.symm
          obtain ⟨qb, hq, ha', _⟩ := hphq' q qb0 hq0 hqp
          exact ⟨qb, hq, ha'.symm.trans hqa⟩
        · rintro ⟨qb, hq, hqa⟩
          obtain ⟨qb0, hq0, ha0, _, _, hqp⟩ := hphq q qb hq
          exact ⟨qb0, hq0, ha0.trans hqa⟩
    · intro a
      simp only
      rw [mapFind_erase _ h.p.ms]
      unfold upd
      by_cases ha : a = b.addr
      · simp [ha]
      · simp only [ha, if_false]
        rw [h.p.pi]
        cases hf : mapFind s.pmap a with
        | none => rfl
        | some q =>
          obtain ⟨qb0, hq0, hqa⟩ := (h.p.mf a q).1 hf
          have hqp : q ≠ p := by
            rintro rfl
            rw [hp] at hq0
            have := Option.some.inj hq0
            subst this
            exact ha hqa.symm
          obtain ⟨qb, hq, _, hinfo⟩ := hphq' q qb0 hq0 hqp
          simp [hq, hq0, hinfo]
    · intro q hq
      simp only at hq ⊢
      have h0 := h.p.pf q hq
      rw [hph]
      split
      · rfl
      · split
        · rename_i hqt; subst hqt; rw [h0] at htb; simp at htb
        · exact h0
    · intro a i hi
      simp only [upd] at hi
      split at hi
      · simp at hi
      · exact h.p.nz a i hi
    · intro a i c j hi hj
      simp only [upd] at hi hj
      split at hi
      · simp at hi
      · split at hj
        · simp at hj
        · exact h.p.dj a i c j hi hj
  · refine ⟨h.r.rv, ?_, h.r.rn, ?_, h.r.rf, h.r.nx⟩
    · intro r
      simp only
      rw [h.r.ri]
      cases hr : s.rheap r with
      | none => rfl
      | some rb =>
        simp only [Option.map_some]
        congr 2
        apply List.map_congr_left
        intro q hq
        exact (haddr q (by rintro rfl; exact hfree r rb hr hq)).symm
    · intro r rb hr q hq
      obtain ⟨qb0, hq0⟩ := h.r.rl r rb hr q hq
      obtain ⟨qb, hqb, _⟩ := hphq' q qb0 hq0 (by rintro rfl; exact hfree r rb hr hq)
      exact ⟨qb, hqb⟩
  · exact ⟨h.c.fr, h.c.cr, h.c.cn, h.c.cd, h.c.cu, h.c.lr, h.c.ln, h.c.ld, h.c.lu⟩
  · refine ⟨?_, h.d.rs⟩
    intro hf q qb hq
    obtain ⟨qb0, hq0, _, _, hd, _⟩ := hphq q qb hq
    rw [← hd]
    exact h.d.dp hf q qb0 hq0

theorem removeParameter_sim {env : Env} {s : State} {sp : Spec} (h : Inv env s sp) (a : Nat) :
    Sim (Inv env) (removeParameterBlock env s a) (sp.removeParameter a) := by
  unfold removeParameterBlock Spec.removeParameter
  cases hm : mapFind s.pmap a with
  | none =>
    rw [(h.p.find_none a).1 hm]
    simp [Sim]
  | some p =>
    obtain ⟨b, hb, hba⟩ := (h.p.mf a p).1 hm
    have hq : sp.params a = some b.info := by rw [← hba]; exact h.p.params_of hb
    rw [hq]
    simp only
    have hscan : ∃ s1, removeDependents env s p = Except.ok s1 ∧
        Inv env s1 { sp with residuals := dropA sp.residuals a } ∧ ScanRel s s1 p := by
      unfold removeDependents
      by_cases hf : env.fastRemoval = true
      · rw [if_pos hf]
        obtain ⟨d, hd, hdn, hiff⟩ := h.d.dp hf p b hb
        simp only [getP, hb, ok_bind, hd]
        have hperm := env.order_perm d
        exact removeAll_ok _ h hb hba (hperm.nodup_iff.2 hdn)
          (fun r => by rw [hperm.mem_iff, hiff])
      · rw [if_neg hf]
        apply backwardScan_ok _ h hb hba (Nat.le_refl _)
        intro i q qb hi hq
        rw [List.getElem?_eq_none hi] at hq
        simp at hq
    obtain ⟨s1, he, hinv, hrel⟩ := hscan
    rw [he, ok_bind]
    obtain ⟨b', hb', hba'⟩ := live_of hrel.addr hrel.live hb
    obtain ⟨s2, he2, hinv2⟩ := deleteParameterInVector_ok hinv hb' hrel.free
    rw [he2]
    simp only [Sim]
    rw [hba', hba] at hinv2
    exact hinv2

/-- Changing a block's constancy or manifold. -/
theorem inv_updP {env : Env} {s : State} {sp : Spec} (h : Inv env s sp) {p : Nat}
    {b b' : PBlock} (hp : s.pheap p = some b) (ha : b'.addr = b.addr) (hi : b'.index = b.index)
    (hs : b'.size = b.size) (hd : b'.deps = b.deps) :
    Inv env { s with pheap := upd s.pheap p (some b') }
      { sp with params := upd sp.params b.addr (some b'.info) } := by
  have haddr : addrOf (upd s.pheap p (some b')) = addrOf s.pheap := by
    funext q
    unfold addrOf upd
    by_cases hq : q = p
    · subst hq; simp [hp, ha]
    · simp [hq]
  have hlive : ∀ q qb, s.pheap q = some qb → ∃ qb', upd s.pheap p (some b') q = some qb' := by
    intro q qb hq
    unfold upd
    split
    · exact ⟨_, rfl⟩
    · exact ⟨_, hq⟩
  refine ⟨?_, h.r.heap_congr haddr hlive,
    ⟨h.c.fr, h.c.cr, h.c.cn, h.c.cd, h.c.cu, h.c.lr, h.c.ln, h.c.ld, h.c.lu⟩, h.m, ?_⟩
  · constructor
    · intro i q
      rw [h.p.pv i q]
      simp only [upd]
      split
      · rename_i hq; subst hq; simp [hp, hi]
      · rfl
    · exact h.p.ms
    · intro a q
      rw [h.p.mf]
      simp only [upd]
      split
      · rename_i hq; subst hq; simp [hp, ha]
      · rfl
    · intro a
      simp only [upd]
      by_cases hab : a = b.addr
      · subst hab
        simp only [if_true]
        rw [(h.p.mf b.addr p).2 ⟨b, hp, rfl⟩]
        simp
      · simp only [hab, if_false]
        rw [h.p.pi]
        cases hm : mapFind s.pmap a with
        | none => rfl
        | some q =>
          have hqp : q ≠ p := by
            rintro rfl
            obtain ⟨qb, hq, hqa⟩ := (h.p.mf a q).1 hm
            rw [hp] at hq
            have := Option.some.inj hq
            subst this
            exact hab hqa.symm
          simp [hqp]
    · intro q hq
      simp only [upd]
      split
      · rename_i hqp; subst hqp; rw [h.p.pf q hq] at hp; simp at hp
      · exact h.p.pf q hq
    · intro a i hi'
      simp only [upd] at hi'
      split at hi'
      · rename_i hab; subst hab; exact h.p.nz _ _ (h.p.params_of hp)
      · exact h.p.nz a i hi'
    · have hold := h.p.params_of hp
      intro a i c j hi' hj' hac
      have key : ∀ a i, upd sp.params b.addr (some b'.info) a = some i →
          ∃ i0, sp.params a = some i0 ∧ i0.size = i.size := by
        intro a i hi'
        simp only [upd] at hi'
        split at hi'
        · rename_i hab; subst hab
          have := (Option.some.inj hi').symm
          subst this
          exact ⟨_, hold, by simp [PBlock.info, hs]⟩
        · exact ⟨i, hi', rfl⟩
      obtain ⟨i0, h1, h2⟩ := key a i hi'
      obtain ⟨j0, h3, h4⟩ := key c j hj'
      rw [← h2, ← h4]
      exact h.p.dj a i0 c j0 h1 h3 hac
  · refine ⟨?_, h.d.rs⟩
    intro hf q qb hq
    simp only [upd] at hq
    split at hq
    · rename_i hqp; subst hqp
      have := (Option.some.inj hq).symm
      subst this
      rw [hd]
      exact h.d.dp hf q b hp
    · exact h.d.dp hf q qb hq

theorem setConst_sim {env : Env} {s : State} {sp : Spec} (h : Inv env s sp) (a : Nat) (c : Bool) :
    Sim (Inv env) (setConst s a c) (sp.setConst a c) := by
  unfold setConst Spec.setConst
  cases hm : mapFind s.pmap a with
  | none => rw [(h.p.find_none a).1 hm]; simp [Sim]
  | some p =>
    obtain ⟨b, hb, hba⟩ := (h.p.mf a p).1 hm
    have hq : sp.params a = some b.info := by rw [← hba]; exact h.p.params_of hb
    rw [hq]
    simp only [getP, hb, ok_bind, Sim]
    have := inv_updP h hb (b' := { b with isConst := c }) rfl rfl rfl rfl
    subst hba
    exact this

theorem inv_own {env : Env} {s : State} {sp : Spec} (h : Inv env s sp) (m : Option Nat) :
    Inv env (recordManifold env s m) { sp with usedM := fun k => sp.usedM k ∨ m = some k } := by
  have hc : CInv env s.cRef s.lRef s.cDel s.lDel
      { sp with usedM := fun k => sp.usedM k ∨ m = some k } :=
    ⟨h.c.fr, h.c.cr, h.c.cn, h.c.cd, h.c.cu, h.c.lr, h.c.ln, h.c.ld, h.c.lu⟩
  cases m with
  | none => exact ⟨h.p, h.r, hc, ⟨by intro k; simp [h.m.mo k, recordManifold], h.m.md⟩, h.d⟩
  | some k0 =>
    simp only [recordManifold]
    split
    · rename_i ho
      refine ⟨h.p, h.r, hc, ⟨?_, h.m.md⟩, h.d⟩
      intro k
      simp only [List.mem_append, List.mem_singleton, h.m.mo k, ho, true_and, Option.some.injEq]
      tauto
    · rename_i ho
      refine ⟨h.p, h.r, hc, ⟨?_, h.m.md⟩, h.d⟩
      intro k
      rw [h.m.mo k]
      simp [ho]

theorem setManifold_sim {env : Env} {s : State} {sp : Spec} (h : Inv env s sp) (a : Nat)
    (m : Option Nat) (ok : Bool) :
    Sim (Inv env) (setManifold env s a m ok) (sp.setManifold env a m ok) := by
  unfold setManifold Spec.setManifold
  cases hm : mapFind s.pmap a with
  | none => rw [(h.p.find_none a).1 hm]; simp [Sim]
  | some p =>
    obtain ⟨b, hb, hba⟩ := (h.p.mf a p).1 hm
    have hq : sp.params a = some b.info := by rw [← hba]; exact h.p.params_of hb
    rw [hq]
    have hown := inv_own h m
    simp only
    set s1 : State := recordManifold env s m with hs1
    have hb1 : s1.pheap p = some b := by
      rw [hs1]; cases m with
      | none => exact hb
      | some k => simp only [recordManifold]; split <;> exact hb
    simp only [getP, hb1, ok_bind]
    by_cases h1 : m = b.manifold
    · have h1' : m = b.info.manifold := h1
      rw [if_pos h1, if_pos (Or.inl h1')]
      simp only [Sim]
      have heq : upd sp.params a (some { b.info with manifold := m }) = sp.params := by
        funext x
        unfold upd
        split
        · rename_i hx; subst hx; rw [hq]; simp [h1']
        · rfl
      rw [heq]
      exact hown
    · rw [if_neg h1]
      cases m with
      | none =>
        simp only [true_or, or_true, if_true, Sim]
        have := inv_updP hown hb1 (b' := { b with manifold := none }) rfl rfl rfl rfl
        subst hba
        exact this
      | some k =>
        simp only
        by_cases h2 : env.ambient k ≠ b.size
        · rw [if_pos h2, if_neg]
          · simp [Sim]
          · rintro (hh | hh | ⟨k', hh, hamb, _⟩)
            · exact h1 hh
            · simp at hh
            · have := Option.some.inj hh; subst this
              exact h2 hamb
        · rw [if_neg h2]
          by_cases h3 : env.tangent k < 0
          · rw [if_pos h3, if_neg]
            · simp [Sim]
            · rintro (hh | hh | ⟨k', hh, _, ht, _⟩)
              · exact h1 hh
              · simp at hh
              · have := Option.some.inj hh; subst this
                omega
          · rw [if_neg h3]
            cases ok with
            | false =>
              have h1' : ¬ some k = b.info.manifold := h1
              simp [Sim, h1']
            | true =>
              rw [if_pos (Or.inr (Or.inr ⟨k, rfl, by simpa [PBlock.info] using h2, by omega, rfl⟩))]
              simp only [if_true, Sim]
              have := inv_updP hown hb1 (b' := { b with manifold := some k }) rfl rfl rfl rfl
              subst hba
              exact this

theorem step_sim {env : Env} {s : State} {sp : Spec} (h : Inv env s sp)
    (hsafe : env.disableSafety = false) (o : Op) :
    Sim (Inv env) (step env s o) (specStep env sp o) := by
  cases o with
  | addParameter a n =>
    have := internalAdd_sim h hsafe a n
    simp only [step, specStep]
    cases h1 : internalAddParameterBlock env s a n <;> cases h2 : sp.add a n <;>
      rw [h1, h2] at this <;> simp_all [Sim]
    exact this.1.inv
  | addParameterWithManifold a n m ok =>
    simp only [step, specStep]
    refine Sim.bind (internalAdd_sim h hsafe a n) ?_
    rintro ⟨s1, p⟩ sp1 _ _ ⟨h1, _⟩
    exact setManifold_sim h1.inv a m ok
  | addResidual c l ps =>
    have := addResidual_sim h hsafe c l ps
    simp only [step, specStep]
    cases h1 : addResidualBlock env s c l ps <;> cases h2 : sp.addResidual env c l ps <;>
      rw [h1, h2] at this <;> simp_all [Sim]
  | removeResidual r => exact removeResidual_sim h r
  | removeParameter a => exact removeParameter_sim h a
  | setConstant a => exact setConst_sim h a true
  | setVariable a => exact setConst_sim h a false
  | setManifold a m ok => exact setManifold_sim h a m ok

theorem run_sim {env : Env} (hsafe : env.disableSafety = false) (ops : List Op) :
    ∀ {s : State} {sp : Spec}, Inv env s sp →
    Sim (Inv env) (run env s ops) (specRun env sp ops) := by
  induction ops with
  | nil => intro s sp h; exact h
  | cons o os ih =>
    intro s sp h
    exact Sim.bind (step_sim h hsafe o) (fun a b _ _ hab => ih hab)

end Ceres.Problem
