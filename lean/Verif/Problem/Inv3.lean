import Verif.Problem.Inv2
/-! Simulation for removals and the remaining calls. -/
namespace Ceres.Problem

theorem count_remove {sp sp' : Spec} {r : Nat} {i : ResInfo}
    (hfr : ∀ r, sp.next ≤ r → sp.residuals r = none)
    (hi : sp.residuals r = some i) (hr : sp'.residuals = upd sp.residuals r none)
    (hn : sp'.next = sp.next) (c : Nat) :
    sp.countC c = sp'.countC c + (if i.cost = c then 1 else 0) := by
  have hlt : r < sp.next := by
    by_contra hc
    rw [hfr r (by omega)] at hi; simp at hi
  unfold Spec.countC
  rw [hn]
  by_cases hc : i.cost = c
  · simp only [hc, if_true]
    apply countP_upd_range _ _ hlt
    · simp [hi, hc]
    · simp [hr]
    · intro j hj; rw [hr, upd_other _ _ hj]
  · simp only [hc, if_false, Nat.add_zero]
    apply List.countP_congr
    intro x _
    by_cases hx : x = r
    · subst hx; simp [hi, hr, hc]
    · rw [hr, upd_other _ _ hx]

theorem countL_remove {sp sp' : Spec} {r : Nat} {i : ResInfo}
    (hfr : ∀ r, sp.next ≤ r → sp.residuals r = none)
    (hi : sp.residuals r = some i) (hr : sp'.residuals = upd sp.residuals r none)
    (hn : sp'.next = sp.next) (l : Nat) :
    sp.countL l = sp'.countL l + (if i.loss = some l then 1 else 0) := by
  have hlt : r < sp.next := by
    by_contra hc
    rw [hfr r (by omega)] at hi; simp at hi
  unfold Spec.countL
  rw [hn]
  by_cases hc : i.loss = some l
  · simp only [hc, if_true]
    apply countP_upd_range _ _ hlt
    · simp [hi, hc]
    · simp [hr]
    · intro j hj; rw [hr, upd_other _ _ hj]
  · simp only [hc, if_false, Nat.add_zero]
    apply List.countP_congr
    intro x _
    by_cases hx : x = r
    · subst hx; simp [hi, hr, hc]
    · rw [hr, upd_other _ _ hx]

/-- Effect of `DecrementValueOrDeleteKey` given a correct count. -/
theorem decrement_eq {m : Nat → Option Nat} {del : Nat → Nat} {k n : Nat}
    (h : m k = some (n + 1)) :
    decrementOrDelete m del k = .ok (upd m k (if n = 0 then none else some n),
      upd del k (if n = 0 then del k + 1 else del k)) := by
  unfold decrementOrDelete
  rw [h]
  simp only
  by_cases hn : n = 0
  · simp [hn]
  · have : ¬ n + 1 = 1 := by omega
    simp only [this, if_false, hn]
    congr 2
    funext j
    unfold upd
    split
    · rename_i hj; rw [hj]
    · rfl

theorem deleteResidual_ok {env : Env} {s : State} {sp : Spec} {r : Nat} {rb : RBlock}
    {i : ResInfo} (hc : CInv env s.cRef s.lRef s.cDel s.lDel sp) (hrb : s.rheap r = some rb)
    (hi : sp.residuals r = some i) (h1 : i.cost = rb.cost) (h2 : i.loss = rb.loss) :
    ∃ cRef lRef cDel lDel,
      deleteResidual env s r = .ok { s with
        rheap := upd s.rheap r none, cRef := cRef, lRef := lRef, cDel := cDel, lDel := lDel } ∧
      CInv env cRef lRef cDel lDel { sp with residuals := upd sp.residuals r none } := by
  set sp' : Spec := { sp with residuals := upd sp.residuals r none } with hsp'
  have hfr' : ∀ q, sp'.next ≤ q → sp'.residuals q = none := by
    intro q hq
    simp only [hsp', upd]
    split
    · rfl
    · exact hc.fr q hq
  have hcc := count_remove (sp' := sp') hc.fr hi rfl rfl
  have hcl := countL_remove (sp' := sp') hc.fr hi rfl rfl
  have huC : sp.usedC rb.cost := hc.cu _ ⟨r, i, hi, h1⟩
  have huL : ∀ l, rb.loss = some l → sp.usedL l := fun l hl => hc.lu _ ⟨r, i, hi, by rw [h2, hl]⟩
  have hinUse : ∀ c, sp'.inUseC c → sp.inUseC c := by
    rintro c ⟨q, j, hq, hj⟩
    simp only [hsp', upd] at hq
    split at hq
    · simp at hq
    · exact ⟨q, j, hq, hj⟩
  have hinUseL : ∀ c, sp'.inUseL c → sp.inUseL c := by
    rintro c ⟨q, j, hq, hj⟩
    simp only [hsp', upd] at hq
    split at hq
    · simp at hq
    · exact ⟨q, j, hq, hj⟩
  -- cost part
  have hcost : ∃ cRef cDel, releaseCost env s rb.cost = .ok { s with cRef := cRef, cDel := cDel } ∧
      (env.ownCost = true → ∀ c, cRef c = if sp'.countC c = 0 then none else some (sp'.countC c)) ∧
      (env.ownCost = false → ∀ c, cRef c = none) ∧
      (∀ c, (sp'.deadC env c → cDel c = 1) ∧ (¬ sp'.deadC env c → cDel c = 0)) := by
    by_cases ho : env.ownCost = true
    · have hk : s.cRef rb.cost = some (sp'.countC rb.cost + 1) := by
        rw [hc.cr ho, hcc rb.cost]; simp [h1]
      refine ⟨upd s.cRef rb.cost (if sp'.countC rb.cost = 0 then none else some (sp'.countC rb.cost)),
        upd s.cDel rb.cost (if sp'.countC rb.cost = 0 then s.cDel rb.cost + 1 else s.cDel rb.cost),
        ?_, ?_, ?_, ?_⟩
      · unfold releaseCost; rw [if_pos ho, decrement_eq hk]; rfl
      · intro _ c
        unfold upd
        split
        · rename_i hh; rw [hh]
        · rename_i hh
          have hne : ¬ i.cost = c := by rw [h1]; exact fun h => hh h.symm
          rw [hc.cr ho, hcc c]; simp [hne]
      · intro h; rw [ho] at h; simp at h
      · intro c
        have hd0 : s.cDel rb.cost = 0 := (hc.cd rb.cost).2 (by
          rintro ⟨_, _, hnu⟩; exact hnu ⟨r, i, hi, h1⟩)
        unfold upd
        by_cases hh : c = rb.cost
        · subst hh
          simp only [if_true, hd0]
          have : sp'.deadC env rb.cost ↔ sp'.countC rb.cost = 0 := by
            unfold Spec.deadC
            rw [← Spec.countC_pos hfr']
            simp only [ho, true_and]
            constructor
            · rintro ⟨_, h⟩; omega
            · intro h; exact ⟨huC, by omega⟩
          rw [this]
          constructor
          · intro h; simp [h]
          · intro h; simp [h]
        · simp only [hh, if_false]
          have hne : ¬ i.cost = c := by rw [h1]; exact fun h => hh h.symm
          have : sp'.deadC env c ↔ sp.deadC env c := by
            unfold Spec.deadC
            rw [← Spec.countC_pos hfr', ← Spec.countC_pos hc.fr, hcc c]
            simp [hne, hsp']
          rw [this]; exact hc.cd c
    · refine ⟨s.cRef, s.cDel, by unfold releaseCost; rw [if_neg ho], fun h => absurd h ho, ?_, ?_⟩
      · intro h; exact hc.cn h
      · intro c
        have h1 : ¬ sp'.deadC env c := by rintro ⟨h, _⟩; exact ho h
        have h2 : ¬ sp.deadC env c := by rintro ⟨h, _⟩; exact ho h
        exact ⟨fun h => absurd h h1, fun _ => (hc.cd c).2 h2⟩
  obtain ⟨cRef, cDel, hce, hc1, hc2, hc3⟩ := hcost
  have hloss : ∃ lRef lDel, releaseLoss env { s with cRef := cRef, cDel := cDel } rb.loss =
        .ok { s with cRef := cRef, cDel := cDel, lRef := lRef, lDel := lDel } ∧
      (env.ownLoss = true → ∀ c, lRef c = if sp'.countL c = 0 then none else some (sp'.countL c)) ∧
      (env.ownLoss = false → ∀ c, lRef c = none) ∧
      (∀ c, (sp'.deadL env c → lDel c = 1) ∧ (¬ sp'.deadL env c → lDel c = 0)) := by
    cases hl : rb.loss with
    | none =>
      refine ⟨s.lRef, s.lDel, rfl, ?_, hc.ln, ?_⟩
      · intro ho c
        rw [hc.lr ho, hcl c]; simp [h2, hl]
      · intro c
        have : sp'.deadL env c ↔ sp.deadL env c := by
          unfold Spec.deadL
          rw [← Spec.countL_pos hfr', ← Spec.countL_pos hc.fr, hcl c]
          simp [h2, hl, hsp']
        rw [this]; exact hc.ld c
    | some l =>
      by_cases ho : env.ownLoss = true
      · have hk : s.lRef l = some (sp'.countL l + 1) := by
          rw [hc.lr ho, hcl l]; simp [h2, hl]
        refine ⟨upd s.lRef l (if sp'.countL l = 0 then none else some (sp'.countL l)),
          upd s.lDel l (if sp'.countL l = 0 then s.lDel l + 1 else s.lDel l), ?_, ?_, ?_, ?_⟩
        · simp only [releaseLoss]
          rw [if_pos ho, decrement_eq hk]; rfl
        · intro _ c
          unfold upd
          split
          · rename_i hh; rw [hh]
          · rename_i hh
            have hne : ¬ i.loss = some c := by rw [h2, hl]; simp; exact fun h => hh h.symm
            rw [hc.lr ho, hcl c]; simp [hne]
        · intro h; rw [ho] at h; simp at h
        · intro c
          have hd0 : s.lDel l = 0 := (hc.ld l).2 (by
            rintro ⟨_, _, hnu⟩; exact hnu ⟨r, i, hi, by rw [h2, hl]⟩)
          unfold upd
          by_cases hh : c = l
          · subst hh
            simp only [if_true, hd0]
            have : sp'.deadL env c ↔ sp'.countL c = 0 := by
              unfold Spec.deadL
              rw [← Spec.countL_pos hfr']
              simp only [ho, true_and]
              constructor
              · rintro ⟨_, h⟩; omega
              · intro h; exact ⟨huL c hl, by omega⟩
            rw [this]
            constructor
            · intro h; simp [h]
            · intro h; simp [h]
          · simp only [hh, if_false]
            have hne : ¬ i.loss = some c := by rw [h2, hl]; simp; exact fun h => hh h.symm
            have : sp'.deadL env c ↔ sp.deadL env c := by
              unfold Spec.deadL
              rw [← Spec.countL_pos hfr', ← Spec.countL_pos hc.fr, hcl c]
              simp [hne, hsp']
            rw [this]; exact hc.ld c
      · refine ⟨s.lRef, s.lDel, by simp only [releaseLoss]; rw [if_neg ho], fun h => absurd h ho, ?_, ?_⟩
        · intro h; exact hc.ln h
        · intro c
          have h1 : ¬ sp'.deadL env c := by rintro ⟨h, _⟩; exact ho h
          have h2 : ¬ sp.deadL env c := by rintro ⟨h, _⟩; exact ho h
          exact ⟨fun h => absurd h h1, fun _ => (hc.ld c).2 h2⟩
  obtain ⟨lRef, lDel, hle, hl1, hl2, hl3⟩ := hloss
  refine ⟨cRef, lRef, cDel, lDel, ?_, ⟨hfr', hc1, hc2, hc3, ?_, hl1, hl2, hl3, ?_⟩⟩
  · unfold deleteResidual
    simp only [getR, hrb, ok_bind]
    rw [hce]
    simp only [ok_bind]
    rw [hle]
    rfl
  · intro c h; exact hc.cu c (hinUse c h)
  · intro c h; exact hc.lu c (hinUseL c h)

/-- Removing a residual block from the vector. -/
theorem deleteResidualInVector_ok {env : Env} {s : State} {sp : Spec} {r : Nat} {rb : RBlock}
    (hR : RInv s.pheap s.rheap s.nextR s.rvec sp.residuals sp.next)
    (hC : CInv env s.cRef s.lRef s.cDel s.lDel sp)
    (hrb : s.rheap r = some rb) :
    ∃ rheap rvec cRef lRef cDel lDel,
      deleteResidualInVector env s r = .ok { s with
        rheap := rheap, rvec := rvec, cRef := cRef, lRef := lRef, cDel := cDel, lDel := lDel } ∧
      RInv s.pheap rheap s.nextR rvec (upd sp.residuals r none) sp.next ∧
      CInv env cRef lRef cDel lDel { sp with residuals := upd sp.residuals r none } ∧
      (∀ q, q ≠ r → (rheap q).map RBlock.params = (s.rheap q).map RBlock.params) ∧
      rheap r = none ∧
      (∃ t, s.rvec.getLast? = some t ∧ rvec = (s.rvec.set rb.index t).dropLast) := by
  have hidx : (fun r => (s.rheap r).map RBlock.index) r = some rb.index := by simp [hrb]
  have hget := (hR.rv rb.index r).2 hidx
  have hne : s.rvec ≠ [] := by
    intro h; rw [h] at hget; simp at hget
  obtain ⟨t, ht⟩ : ∃ t, s.rvec.getLast? = some t := by
    cases h : s.rvec.getLast? with
    | none => rw [List.getLast?_eq_none_iff] at h; exact absurd h hne
    | some t => exact ⟨t, rfl⟩
  have htmem : t ∈ s.rvec := List.mem_of_getLast? ht
  obtain ⟨tb, htb⟩ : ∃ tb, s.rheap t = some tb := by
    have := (hR.rv.mem t).1 htmem
    cases h : s.rheap t with
    | none => simp [h] at this
    | some tb => exact ⟨tb, rfl⟩
  -- intermediate state
  let s2 : State := { s with
    rheap := upd s.rheap t (some { tb with index := rb.index })
    rvec := s.rvec.set rb.index t }
  have hrb2 : ∃ rb2, s2.rheap r = some rb2 ∧ rb2.cost = rb.cost ∧ rb2.loss = rb.loss := by
    by_cases hrt : r = t
    · subst hrt
      rw [hrb] at htb
      have := Option.some.inj htb
      subst this
      exact ⟨_, upd_same _ _ _, rfl, rfl⟩
    · exact ⟨rb, by simp only [s2]; rw [upd_other _ _ hrt]; exact hrb, rfl, rfl⟩
  obtain ⟨rb2, hrb2, hk1, hk2⟩ := hrb2
  have hi : sp.residuals r = some ⟨rb.cost, rb.loss, rb.params.map (addrOf s.pheap)⟩ := by
    rw [hR.ri, hrb]; rfl
  obtain ⟨cRef, lRef, cDel, lDel, hdel, hC'⟩ := deleteResidual_ok (s := s2) hC hrb2 hi
    (by simp [hk1]) (by simp [hk2])
  refine ⟨upd s2.rheap r none, s2.rvec.dropLast, cRef, lRef, cDel, lDel, ?_, ?_, hC', ?_, by simp,
    t, ht, rfl⟩
  · unfold deleteResidualInVector
    simp only [getR, hrb, ok_bind, hget, ne_eq, not_true_eq_false, if_false, ht, htb]
    simp only [s2] at hdel ⊢
    rw [hdel]
    rfl
  · constructor
    · have := hR.rv.swapRemove hidx ht
      intro i q
      rw [this i q]
      simp only [s2, upd]
      split
      · simp
      · split
        · simp
        · rfl
    · intro q
      simp only [s2, upd]
      split
      · rfl
      · split
        · rename_i h1 h2
          subst h2
          rw [hR.ri, htb]; rfl
        · exact hR.ri q
    · intro q qb hq
      simp only [s2, upd] at hq
      split at hq
      · simp at hq
      · split at hq
        · rename_i h1 h2
          have := (Option.some.inj hq).symm; subst this
          exact hR.rn t tb htb
        · exact hR.rn q qb hq
    · intro q qb hq
      simp only [s2, upd] at hq
      split at hq
      · simp at hq
      · split at hq
        · have := (Option.some.inj hq).symm; subst this
          exact hR.rl t tb htb
        · exact hR.rl q qb hq
    · intro q hq
      simp only [s2, upd]
      split
      · rfl
      · split
        · rename_i h1 h2
          subst h2
          rw [hR.rf q hq] at htb; simp at htb
        · exact hR.rf q hq
    · exact hR.nx
  · intro q hq
    simp only [s2]
    rw [upd_other _ _ hq]
    simp only [upd]
    split
    · rename_i h; subst h; simp [htb]
    · rfl

theorem removeDeps_eq {r : Nat} (ps : List Nat) :
    ∀ {s : State}, ps.Nodup → (∀ p ∈ ps, ∃ b d, s.pheap p = some b ∧ b.deps = some d ∧ r ∈ d) →
    removeDeps s ps r = .ok { s with pheap := (fun p =>
      if p ∈ ps then (s.pheap p).map (fun b => { b with deps := b.deps.map (·.erase r) })
      else s.pheap p) } := by
  induction ps with
  | nil => intro s _ _; simp [removeDeps]
  | cons p ps ih =>
    intro s hnd h
    obtain ⟨b, d, hb, hd, hr⟩ := h p (by simp)
    have hnd' := List.nodup_cons.1 hnd
    simp only [removeDeps, pbRemoveResidual, getP, hb, ok_bind, hd, hr, if_true]
    rw [ih hnd'.2]
    · congr 2
      funext q
      simp only [upd, List.mem_cons]
      by_cases hqp : q = p
      · subst hqp
        simp [hnd'.1, hb, hd]
      · simp [hqp]
    · intro q hq
      obtain ⟨b', d', h1, h2, h3⟩ := h q (by simp [hq])
      have hne : q ≠ p := by rintro rfl; exact hnd'.1 hq
      exact ⟨b', d', by simp only; rw [upd_other _ _ hne]; exact h1, h2, h3⟩

theorem RInv.heap_congr {ph ph' rh n v q x} (h : RInv ph rh n v q x)
    (ha : addrOf ph' = addrOf ph) (hl : ∀ p b, ph p = some b → ∃ b', ph' p = some b') :
    RInv ph' rh n v q x := by
  refine ⟨h.rv, ?_, h.rn, ?_, h.rf, h.nx⟩
  · intro r; rw [ha]; exact h.ri r
  · intro r rb hr p hp
    obtain ⟨b, hb⟩ := h.rl r rb hr p hp
    exact hl p b hb

/-- What removing a residual block leaves alone. -/
structure RemRel (s s' : State) (r : Nat) : Prop where
  pvec : s'.pvec = s.pvec
  pmap : s'.pmap = s.pmap
  addr : addrOf s'.pheap = addrOf s.pheap
  live : ∀ p, (s'.pheap p).isSome = (s.pheap p).isSome
  others : ∀ q, q ≠ r → (s'.rheap q).map RBlock.params = (s.rheap q).map RBlock.params
  gone : s'.rheap r = none
  vec : ∃ t i, s.rvec.getLast? = some t ∧ s.rvec[i]? = some r ∧
    s'.rvec = (s.rvec.set i t).dropLast

theorem internalRemove_ok {env : Env} {s : State} {sp : Spec} (h : Inv env s sp) {r : Nat}
    {rb : RBlock} (hrb : s.rheap r = some rb) :
    ∃ s', internalRemoveResidualBlock env s r = .ok s' ∧
      Inv env s' { sp with residuals := upd sp.residuals r none } ∧ RemRel s s' r := by
  unfold internalRemoveResidualBlock
  by_cases hfast : env.fastRemoval = true
  · simp only [hfast, if_true, getR, hrb, ok_bind]
    rw [removeDeps_eq rb.params (h.r.rn r rb hrb)]
    · have hrs := h.d.rs hfast
      have hin : r ∈ s.rset := (hrs.2 r).2 ⟨rb, hrb⟩
      simp only [ok_bind, hin, if_true]
      have hP := h.p.deps (P := fun p => p ∈ rb.params) (f := fun o => o.map (·.erase r))
      have ha := addrOf_map_deps (ph := s.pheap) (P := fun p => p ∈ rb.params)
        (f := fun o => o.map (·.erase r))
      have hlv : ∀ p b, s.pheap p = some b → ∃ b',
          (if p ∈ rb.params then (s.pheap p).map
            (fun b => { b with deps := b.deps.map (·.erase r) }) else s.pheap p) = some b' := by
        intro p b hp
        split <;> simp [hp]
      obtain ⟨rheap, rvec, cRef, lRef, cDel, lDel, he, hR', hC', hoth, hgone, t, ht, hvec⟩ :=
        deleteResidualInVector_ok (env := env)
          (s := { s with
            pheap := (fun p => if p ∈ rb.params then (s.pheap p).map
              (fun b => { b with deps := b.deps.map (·.erase r) }) else s.pheap p)
            rset := s.rset.erase r }) (h.r.heap_congr ha hlv) h.c hrb
      refine ⟨_, he, ⟨hP, hR', hC', h.m, ?_⟩, ⟨rfl, rfl, ha, ?_, hoth, hgone,
        t, rb.index, ht, (h.r.rv _ _).2 (by simp [hrb]), hvec⟩⟩
      · have hmem : ∀ q, q ≠ r → ∀ p, (∃ qb, rheap q = some qb ∧ p ∈ qb.params) ↔
            (∃ qb, s.rheap q = some qb ∧ p ∈ qb.params) := by
          intro q hq p
          have := hoth q hq
          simp only at this
          cases h1 : rheap q <;> cases h2 : s.rheap q <;> simp_all
        constructor
        · intro _ p b hp
          simp only at hp
          by_cases hmemp : p ∈ rb.params
          · rw [if_pos hmemp] at hp
            cases hb0 : s.pheap p with
            | none => rw [hb0] at hp; simp at hp
            | some b0 =>
              rw [hb0] at hp
              have hb' := (Option.some.inj hp).symm
              obtain ⟨d, hd, hdn, hiff⟩ := h.d.dp hfast p b0 hb0
              subst hb'
              refine ⟨d.erase r, by simp [hd], hdn.erase r, ?_⟩
              intro q
              rw [hdn.mem_erase_iff]
              by_cases hq : q = r
              · subst hq; simp [hgone]
              · simp only [ne_eq, hq, not_false_eq_true, true_and]
                rw [hiff, hmem q hq p]
          · rw [if_neg hmemp] at hp
            obtain ⟨d, hd, hdn, hiff⟩ := h.d.dp hfast p b hp
            refine ⟨d, hd, hdn, ?_⟩
            intro q
            rw [hiff]
            by_cases hq : q = r
            · subst hq; simp [hgone, hrb, hmemp]
            · rw [hmem q hq p]
        · intro _
          refine ⟨hrs.1.erase r, ?_⟩
          intro q
          simp only
          rw [hrs.1.mem_erase_iff]
          by_cases hq : q = r
          · subst hq; simp [hgone]
          · simp only [ne_eq, hq, not_false_eq_true, true_and]
            rw [hrs.2]
            have := hoth q hq
            simp only at this
            cases h1 : rheap q <;> cases h2 : s.rheap q <;> simp_all
      · intro p
        simp only
        split
        · simp
        · rfl
    · intro p hp
      obtain ⟨b, hb⟩ := h.r.rl r rb hrb p hp
      obtain ⟨d, hd, _, hiff⟩ := h.d.dp hfast p b hb
      exact ⟨b, d, hb, hd, (hiff r).2 ⟨rb, hrb, hp⟩⟩
  · simp only [hfast, if_false, ok_bind, Bool.false_eq_true]
    obtain ⟨rheap, rvec, cRef, lRef, cDel, lDel, he, hR', hC', hoth, hgone, t, ht, hvec⟩ :=
      deleteResidualInVector_ok (env := env) h.r h.c hrb
    exact ⟨_, he, ⟨h.p, hR', hC', h.m, ⟨fun hf => absurd hf hfast, fun hf => absurd hf hfast⟩⟩,
      ⟨rfl, rfl, rfl, fun _ => rfl, hoth, hgone, t, rb.index, ht, (h.r.rv _ _).2 (by simp [hrb]), hvec⟩⟩

theorem live_iff {env : Env} {s : State} {sp : Spec} (h : Inv env s sp) (r : Nat) :
    (∃ rb, s.rheap r = some rb) ↔ ∃ i, sp.residuals r = some i := by
  rw [h.r.ri]
  cases s.rheap r <;> simp

theorem removeResidual_sim {env : Env} {s : State} {sp : Spec} (h : Inv env s sp) (r : Nat) :
    Sim (Inv env) (removeResidualBlock env s r) (sp.removeResidual r) := by
  have hlive : (if env.fastRemoval then (r ∈ s.rset : Prop) else r ∈ s.rvec) ↔
      ∃ rb, s.rheap r = some rb := by
    by_cases hf : env.fastRemoval = true
    · rw [if_pos hf]; exact (h.d.rs hf).2 r
    · rw [if_neg hf, h.r.rv.mem r]
      cases s.rheap r <;> simp
  have hmodel : removeResidualBlock env s r =
      (open Classical in if (∃ rb, s.rheap r = some rb) then internalRemoveResidualBlock env s r
        else .error .abort) := by
    unfold removeResidualBlock
    by_cases hf : env.fastRemoval = true
    · rw [if_pos hf] at hlive ⊢
      by_cases hr : r ∈ s.rset
      · rw [if_pos hr, if_pos (hlive.1 hr)]
      · rw [if_neg hr, if_neg (fun hh => hr (hlive.2 hh))]
    · rw [if_neg hf] at hlive ⊢
      by_cases hr : r ∈ s.rvec
      · rw [if_pos hr, if_pos (hlive.1 hr)]
      · rw [if_neg hr, if_neg (fun hh => hr (hlive.2 hh))]
  rw [hmodel]
  unfold Spec.removeResidual
  by_cases hl : ∃ rb, s.rheap r = some rb
  · rw [if_pos hl]
    obtain ⟨i, hi⟩ := (live_iff h r).1 hl
    obtain ⟨rb, hrb⟩ := hl
    obtain ⟨s', he, hinv, _⟩ := internalRemove_ok h hrb
    rw [he, hi]
    exact hinv
  · rw [if_neg hl]
    have : sp.residuals r = none := by
      cases hr : sp.residuals r with
      | none => rfl
      | some i => exact absurd ((live_iff h r).2 ⟨i, hr⟩) hl
    rw [this]
    simp [Sim]

end Ceres.Problem
