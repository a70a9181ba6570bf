import Verif.Problem.Inv
import Mathlib.Data.List.Nodup
/-! Simulation for `AddResidualBlock`. -/
namespace Ceres.Problem

structure AddsRel (env : Env) (s : State) (l : List (Nat × Nat)) (x : State × List Nat)
    (sp' : Spec) : Prop where
  inv : Inv env x.1 sp'
  len : x.2.length = l.length
  addrs : x.2.map (addrOf x.1.pheap) = l.map (·.1)
  sizes : checkSizes x.1 (x.2.zip (l.map (·.2))) = .ok ()
  live : ∀ p ∈ x.2, ∃ b, x.1.pheap p = some b
  old : ∀ p b, s.pheap p = some b → x.1.pheap p = some b

theorem checkSizes_eq {s : State} {l : List (Nat × Nat)}
    (h : ∀ e ∈ l, ∃ b, s.pheap e.1 = some b ∧ e.2 = b.size) : checkSizes s l = .ok () := by
  induction l with
  | nil => rfl
  | cons e l ih =>
    obtain ⟨b, hb, hs⟩ := h e (by simp)
    simp only [checkSizes, getP, hb, ok_bind, hs, if_true]
    exact ih (fun e he => h e (by simp [he]))

theorem addBlocks_sim {env : Env} (hsafe : env.disableSafety = false) (l : List (Nat × Nat)) :
    ∀ {s : State} {sp : Spec}, Inv env s sp →
    Sim (fun x sp' => AddsRel env s l x sp' ∧ sp'.residuals = sp.residuals ∧ sp'.next = sp.next ∧
      sp'.usedC = sp.usedC ∧ sp'.usedL = sp.usedL ∧ sp'.usedM = sp.usedM)
      (addBlocks env s l) (sp.addAll l) := by
  induction l with
  | nil =>
    intro s sp h
    simp only [addBlocks, Spec.addAll, Sim]
    exact ⟨⟨h, rfl, rfl, rfl, by simp, fun _ _ h => h⟩, by simp⟩
  | cons e l ih =>
    intro s sp h
    obtain ⟨a, n⟩ := e
    simp only [addBlocks, Spec.addAll]
    refine Sim.bind (internalAdd_sim h hsafe a n) ?_
    rintro ⟨s1, p⟩ sp1 _ _ ⟨h1, hr1, hn1, hc1, hl1, hm1⟩
    have := ih h1.inv
    simp only at this ⊢
    cases hx : addBlocks env s1 l with
    | error e =>
      rw [hx] at this
      cases hy : sp1.addAll l with
      | error e' => rw [hy] at this; exact this
      | ok sp2 => rw [hy] at this; exact this.elim
    | ok x =>
      rw [hx] at this
      cases hy : sp1.addAll l with
      | error e => rw [hy] at this; exact this.elim
      | ok sp2 =>
        rw [hy] at this
        obtain ⟨s2, ps⟩ := x
        simp only [ok_bind, Sim] at this ⊢
        obtain ⟨h2, hr2, hn2, hc2, hl2, hm2⟩ := this
        obtain ⟨b, hb, hba, hbs⟩ := h1.blk
        have hb2 := h2.old p b hb
        refine ⟨⟨h2.inv, by simp [h2.len], ?_, ?_, ?_, ?_⟩, by rw [hr2, hr1], by rw [hn2, hn1],
          by rw [hc2, hc1], by rw [hl2, hl1], by rw [hm2, hm1]⟩
        · simp only [List.map_cons]
          rw [h2.addrs]
          simp only at hb2
          simp [addrOf, hb2, hba]
        · simp only [List.map_cons, List.zip_cons_cons, checkSizes, getP]
          simp only at hb2
          simp only [hb2, ok_bind, hbs, if_true]
          exact h2.sizes
        · intro q hq
          rcases List.mem_cons.1 hq with rfl | hq
          · exact ⟨b, hb2⟩
          · exact h2.live q hq
        · intro q bq hq
          exact h2.old q bq (h1.old q bq hq)

/-- Closed form of the dependency-adding loop. -/
theorem addDeps_eq {r : Nat} (ps : List Nat) :
    ∀ {s : State}, ps.Nodup → (∀ p ∈ ps, ∃ b d, s.pheap p = some b ∧ b.deps = some d ∧ r ∉ d) →
    addDeps s ps r = .ok { s with pheap := (fun p =>
      if p ∈ ps then (s.pheap p).map (fun b => { b with deps := b.deps.map (· ++ [r]) })
      else s.pheap p) } := by
  induction ps with
  | nil => intro s _ _; simp [addDeps]
  | cons p ps ih =>
    intro s hnd h
    obtain ⟨b, d, hb, hd, hr⟩ := h p (by simp)
    have hnd' := List.nodup_cons.1 hnd
    simp only [addDeps, pbAddResidual, getP, hb, ok_bind, hd, hr, if_false]
    rw [ih hnd'.2]
    · congr 2
      funext q
      simp only [upd, List.mem_cons]
      by_cases hqp : q = p
      · subst hqp
        simp [hnd'.1, hb, hd]
      · simp [hqp]
    · intro q hq
      obtain ⟨b', d', h1, h2, h3⟩ := h q (by simp [hq])
      have hne : q ≠ p := by rintro rfl; exact hnd'.1 hq
      exact ⟨b', d', by simp only; rw [upd_other _ _ hne]; exact h1, h2, h3⟩

theorem addrOf_map_deps {ph : Nat → Option PBlock} {P : Nat → Prop} [DecidablePred P]
    {f : Option (List Nat) → Option (List Nat)} :
    addrOf (fun p => if P p then (ph p).map (fun b => { b with deps := f b.deps }) else ph p) =
      addrOf ph := by
  funext p
  unfold addrOf
  by_cases h : P p
  · simp only [h, if_true]; cases ph p <;> rfl
  · simp [h]

/-- Changing dependency sets only does not affect `PInv`. -/
theorem PInv.deps {ph n m v q} (h : PInv ph n m v q) {P : Nat → Prop} [DecidablePred P]
    {f : Option (List Nat) → Option (List Nat)} :
    PInv (fun p => if P p then (ph p).map (fun b => { b with deps := f b.deps }) else ph p)
      n m v q := by
  have key : ∀ p, (∃ b, (if P p then (ph p).map (fun b => { b with deps := f b.deps })
      else ph p) = some b ∧ True) ↔ (∃ b, ph p = some b ∧ True) := by
    intro p; split <;> simp
  constructor
  · intro i p
    rw [h.pv i p]
    simp only
    split
    · cases ph p <;> simp
    · rfl
  · exact h.ms
  · intro a p
    rw [h.mf]
    split
    · cases hp : ph p with
      | none => simp
      | some b => simp
    · rfl
  · intro a
    rw [h.pi]
    congr 1
    funext p
    split
    · cases hp : ph p with
      | none => simp
      | some b => simp [PBlock.info]
    · rfl
  · intro p hp
    simp [h.pf p hp]
  · exact h.nz
  · exact h.dj

theorem countC_add {sp sp' : Spec} {c : Nat} {i : ResInfo}
    (hr : sp'.residuals = upd sp.residuals sp.next (some i)) (hn : sp'.next = sp.next + 1) :
    sp'.countC c = sp.countC c + if i.cost = c then 1 else 0 := by
  unfold Spec.countC
  rw [hn, List.range_succ, List.countP_append]
  congr 1
  · apply List.countP_congr
    intro x hx
    have : x < sp.next := List.mem_range.1 hx
    rw [hr, upd_other _ _ (by omega)]
  · simp [hr, List.countP_cons]

theorem countL_add {sp sp' : Spec} {l : Nat} {i : ResInfo}
    (hr : sp'.residuals = upd sp.residuals sp.next (some i)) (hn : sp'.next = sp.next + 1) :
    sp'.countL l = sp.countL l + if i.loss = some l then 1 else 0 := by
  unfold Spec.countL
  rw [hn, List.range_succ, List.countP_append]
  congr 1
  · apply List.countP_congr
    intro x hx
    have : x < sp.next := List.mem_range.1 hx
    rw [hr, upd_other _ _ (by omega)]
  · simp [hr, List.countP_cons]

theorem CInv.add {env : Env} {cRef lRef cDel lDel} {sp : Spec}
    (h : CInv env cRef lRef cDel lDel sp) {c : Nat} {loss : Option Nat} {ps : List Nat}
    (hc : ¬ sp.deadC env c) (hl : ¬ ∃ l, loss = some l ∧ sp.deadL env l)
    {sp' : Spec}
    (hr : sp'.residuals = upd sp.residuals sp.next (some ⟨c, loss, ps⟩))
    (hn : sp'.next = sp.next + 1)
    (hcu : sp'.usedC = fun c' => sp.usedC c' ∨ c' = c)
    (hlu : sp'.usedL = fun l' => sp.usedL l' ∨ loss = some l') :
    CInv env (if env.ownCost then incr cRef c else cRef)
      (if env.ownLoss then incrOpt lRef loss else lRef)
      cDel lDel sp' := by
  have hfr' : ∀ r, sp'.next ≤ r → sp'.residuals r = none := by
    intro r hr'
    rw [hr, upd_other _ _ (by omega)]
    exact h.fr r (by omega)
  have hinC : ∀ c', sp'.inUseC c' ↔ sp.inUseC c' ∨ c' = c := by
    intro c'
    rw [← Spec.countC_pos hfr', ← Spec.countC_pos h.fr, countC_add hr hn]
    simp only
    split <;> simp_all
    intro hh; exact absurd hh.symm ‹_›
  have hinL : ∀ l', sp'.inUseL l' ↔ sp.inUseL l' ∨ loss = some l' := by
    intro c'
    rw [← Spec.countL_pos hfr', ← Spec.countL_pos h.fr, countL_add hr hn]
    simp only
    split <;> simp_all
  refine ⟨hfr', ?_, ?_, ?_, ?_, ?_, ?_, ?_, ?_⟩
  · intro ho c'
    simp only [ho, if_true]
    rw [countC_add hr hn]
    unfold incr upd
    simp only
    by_cases hcc : c' = c
    · subst hcc
      simp only [if_true]
      rw [h.cr ho]
      split <;> simp_all
    · have : ¬ c = c' := fun hh => hcc hh.symm
      simp only [hcc, this, if_false]
      exact h.cr ho c'
  · intro ho c'; simp only [ho]; exact h.cn ho c'
  · intro c'
    have : sp'.deadC env c' ↔ sp.deadC env c' := by
      unfold Spec.deadC
      rw [hcu, hinC]
      simp only
      by_cases hcc : c' = c
      · subst hcc
        simp only [or_true, not_true_eq_false, and_false, false_iff]
        exact hc
      · simp [hcc]
    rw [this]
    exact h.cd c'
  · intro c' hu
    rw [hcu]
    rcases (hinC c').1 hu with h1 | h1
    · exact Or.inl (h.cu _ h1)
    · exact Or.inr h1
  · intro ho l'
    simp only [ho, if_true]
    rw [countL_add hr hn]
    cases loss with
    | none => simp only [reduceCtorEq, if_false, Nat.add_zero, incrOpt]; exact h.lr ho l'
    | some l =>
      unfold incrOpt incr upd
      simp only
      by_cases hcc : l' = l
      · subst hcc
        simp only [if_true]
        rw [h.lr ho]
        split <;> simp_all
      · have : ¬ l = l' := fun hh => hcc hh.symm
        simp only [hcc, Option.some.injEq, this, if_false]
        exact h.lr ho l'
  · intro ho l'; simp only [ho]; exact h.ln ho l'
  · intro l'
    have : sp'.deadL env l' ↔ sp.deadL env l' := by
      unfold Spec.deadL
      rw [hlu, hinL]
      simp only
      by_cases hcc : loss = some l'
      · simp only [hcc, or_true, not_true_eq_false, and_false, false_iff]
        intro hd
        exact hl ⟨l', hcc, hd⟩
      · simp [hcc]
    rw [this]
    exact h.ld l'
  · intro l' hu
    rw [hlu]
    rcases (hinL l').1 hu with h1 | h1
    · exact Or.inl (h.lu _ h1)
    · exact Or.inr h1

/-- Everything `AddResidualBlock` does after the parameter blocks are registered. -/
theorem finish_add {env : Env} {s1 : State} {sp1 : Spec} (h : Inv env s1 sp1)
    {ids ps : List Nat} (haddr : ids.map (addrOf s1.pheap) = ps) (hnd : ids.Nodup)
    (hlive : ∀ p ∈ ids, ∃ b, s1.pheap p = some b) {c : Nat} {loss : Option Nat}
    (hc : ¬ sp1.deadC env c) (hl : ¬ ∃ l, loss = some l ∧ sp1.deadL env l) :
    ∃ s4, registerResidual env s1 c loss ids = .ok (s4, s1.nextR) ∧
      Inv env s4
        { sp1 with
        residuals := upd sp1.residuals sp1.next (some ⟨c, loss, ps⟩)
        next := sp1.next + 1
        usedC := fun c' => sp1.usedC c' ∨ c' = c
        usedL := fun l' => sp1.usedL l' ∨ loss = some l' } := by
  have hnew : s1.rheap s1.nextR = none := h.r.rf _ (Nat.le_refl _)
  have hnx := h.r.nx
  have hrv : VecOk (s1.rvec ++ [s1.nextR]) (fun r =>
      (upd s1.rheap s1.nextR (some ⟨c, loss, ids, s1.rvec.length⟩) r).map RBlock.index) := by
    have := h.r.rv.push (p := s1.nextR) (by simp [hnew])
    intro i q
    rw [this i q]
    simp only [upd]
    split <;> simp
  have hdepnew : env.fastRemoval = true → ∀ p b, s1.pheap p = some b →
      ∃ d, b.deps = some d ∧ s1.nextR ∉ d := by
    intro hf p b hp
    obtain ⟨d, hd, _, hiff⟩ := h.d.dp hf p b hp
    refine ⟨d, hd, ?_⟩
    rw [hiff]
    rintro ⟨rb, hrb, _⟩
    rw [hnew] at hrb; simp at hrb
  have hR : ∀ ph', (∀ p, addrOf ph' p = addrOf s1.pheap p) →
      (∀ p b, s1.pheap p = some b → ∃ b', ph' p = some b') →
      RInv ph' (upd s1.rheap s1.nextR (some ⟨c, loss, ids, s1.rvec.length⟩)) (s1.nextR + 1)
        (s1.rvec ++ [s1.nextR]) (upd sp1.residuals sp1.next (some ⟨c, loss, ps⟩))
        (sp1.next + 1) := by
    intro ph' hph hlv
    have hfun : addrOf ph' = addrOf s1.pheap := funext hph
    refine ⟨hrv, ?_, ?_, ?_, ?_, by rw [hnx]⟩
    · intro r
      rw [hnx, hfun]
      simp only [upd]
      split
      · simp [haddr]
      · exact h.r.ri r
    · intro r rb hr
      simp only [upd] at hr
      split at hr
      · have := (Option.some.inj hr).symm; subst this; exact hnd
      · exact h.r.rn r rb hr
    · intro r rb hr p hp
      simp only [upd] at hr
      split at hr
      · have := (Option.some.inj hr).symm; subst this
        obtain ⟨b, hb⟩ := hlive p hp
        exact hlv p b hb
      · obtain ⟨b, hb⟩ := h.r.rl r rb hr p hp
        exact hlv p b hb
    · intro r hr
      rw [upd_other _ _ (by omega)]
      exact h.r.rf r (by omega)
  unfold registerResidual
  by_cases hfast : env.fastRemoval = true
  · simp only [hfast, if_true]
    rw [addDeps_eq ids hnd]
    · refine ⟨_, rfl, ⟨?_, ?_, ?_, ?_, ?_⟩⟩
      · exact h.p.deps (f := fun o => o.map (· ++ [s1.nextR]))
      · apply hR
        · intro p
          exact congrFun (addrOf_map_deps (f := fun o => o.map (· ++ [s1.nextR]))) p
        · intro p b hp
          simp only
          split <;> simp [hp]
      · exact h.c.add hc hl rfl rfl rfl rfl
      · exact h.m
      · constructor
        · intro _ p b hp
          simp only at hp
          by_cases hmem : p ∈ ids
          · rw [if_pos hmem] at hp
            cases hb0 : s1.pheap p with
            | none => rw [hb0] at hp; simp at hp
            | some b0 =>
              rw [hb0] at hp
              have hb' := (Option.some.inj hp).symm
              obtain ⟨d, hd, hdn, hiff⟩ := h.d.dp hfast p b0 hb0
              subst hb'
              have hnot : s1.nextR ∉ d := by
                obtain ⟨d', hd', hn'⟩ := hdepnew hfast p b0 hb0
                rw [hd] at hd'
                have := Option.some.inj hd'
                subst this
                exact hn'
              refine ⟨d ++ [s1.nextR], by simp [hd], ?_, ?_⟩
              · rw [List.nodup_append]
                refine ⟨hdn, by simp, ?_⟩
                intro x hx y hy
                simp at hy
                subst hy
                rintro rfl
                exact hnot hx
              · intro r
                simp only [List.mem_append, List.mem_singleton, upd]
                by_cases hrn : r = s1.nextR
                · subst hrn; simp [hmem]
                · simp [hrn, hiff]
          · rw [if_neg hmem] at hp
            obtain ⟨d, hd, hdn, hiff⟩ := h.d.dp hfast p b hp
            refine ⟨d, hd, hdn, ?_⟩
            intro r
            rw [hiff]
            simp only [upd]
            by_cases hrn : r = s1.nextR
            · subst hrn
              simp [hnew, hmem]
            · simp [hrn]
        · intro _
          obtain ⟨hn1, hiff⟩ := h.d.rs hfast
          refine ⟨?_, ?_⟩
          · rw [List.nodup_append]
            refine ⟨hn1, by simp, ?_⟩
            intro x hx y hy
            simp at hy
            subst hy
            rintro rfl
            rw [hiff, hnew] at hx
            simp at hx
          · intro r
            simp only [List.mem_append, List.mem_singleton, upd]
            by_cases hrn : r = s1.nextR
            · subst hrn; simp
            · simp [hrn, hiff]
    · intro p hp
      obtain ⟨b, hb⟩ := hlive p hp
      obtain ⟨d, hd, hn⟩ := hdepnew hfast p b hb
      exact ⟨b, d, hb, hd, hn⟩
  · simp only [hfast, if_false, ok_bind, Bool.false_eq_true]
    refine ⟨_, rfl, ⟨h.p, ?_, ?_, h.m, ?_⟩⟩
    · exact hR _ (fun _ => rfl) (fun p b hp => ⟨b, hp⟩)
    · exact h.c.add hc hl rfl rfl rfl rfl
    · exact ⟨fun hf => absurd hf hfast, fun hf => absurd hf hfast⟩

theorem addResidual_sim {env : Env} {s : State} {sp : Spec} (h : Inv env s sp)
    (hsafe : env.disableSafety = false) (cost loss : Option Nat) (ps : List Nat) :
    Sim (fun x sp' => Inv env x.1 sp' ∧ x.2 = sp.next)
      (addResidualBlock env s cost loss ps) (sp.addResidual env cost loss ps) := by
  unfold addResidualBlock Spec.addResidual
  cases cost with
  | none => simp [Sim]
  | some c =>
    simp only
    have hdc : s.cDel c ≠ 0 ↔ sp.deadC env c := by
      have := h.c.cd c
      by_cases hd : sp.deadC env c
      · simp [hd, this.1 hd]
      · simp [hd, this.2 hd]
    by_cases hd : sp.deadC env c
    · rw [if_pos (hdc.2 hd), if_pos hd]; simp [Sim]
    rw [if_neg (by rw [hdc]; exact hd), if_neg hd]
    have hdl : danglingLoss s loss = true ↔
        ∃ l, loss = some l ∧ sp.deadL env l := by
      unfold danglingLoss
      cases loss with
      | none => simp
      | some l =>
        have := h.c.ld l
        by_cases hd : sp.deadL env l
        · simp [hd, this.1 hd]
        · simp [hd, this.2 hd]
    by_cases hdl' : ∃ l, loss = some l ∧ sp.deadL env l
    · rw [if_pos (hdl.2 hdl'), if_pos hdl']; simp [Sim]
    rw [if_neg (by rw [hdl]; exact hdl'), if_neg hdl']
    by_cases hlen : ps.length ≠ (env.sizes c).length
    · rw [if_pos hlen, if_pos hlen]; simp [Sim]
    rw [if_neg hlen, if_neg hlen]
    by_cases hnd : ps.Nodup
    · rw [if_neg (by simp [hnd]), if_neg (by simpa using hnd)]
      refine Sim.bind (addBlocks_sim hsafe _ h) ?_
      rintro ⟨s1, ids⟩ sp1 _ _ ⟨h1, hr1, hn1, hc1, hl1, hm1⟩
      have hlen' : ps.length = (env.sizes c).length := by simpa using hlen
      have haddr : ids.map (addrOf s1.pheap) = ps := by
        have := h1.addrs
        rw [List.map_fst_zip (by omega)] at this
        exact this
      have hsz := h1.sizes
      rw [List.map_snd_zip (by omega)] at hsz
      have hids : ids.Nodup := by
        rw [← haddr] at hnd
        exact List.Nodup.of_map _ hnd
      simp only at hsz
      simp only [hsafe, hsz, ok_bind, Bool.false_eq_true, if_false]
      have hin : ∀ c, sp1.inUseC c ↔ sp.inUseC c := by intro c; simp [Spec.inUseC, hr1]
      have hinl : ∀ c, sp1.inUseL c ↔ sp.inUseL c := by intro c; simp [Spec.inUseL, hr1]
      obtain ⟨s3, hs3, hinv⟩ := finish_add (c := c) (loss := loss) h1.inv haddr hids h1.live
        (by simpa [Spec.deadC, hc1, hin] using hd)
        (by simpa [Spec.deadL, hl1, hinl] using hdl')
      rw [hs3]
      simp only [Sim]
      refine ⟨hinv, ?_⟩
      rw [← hn1]
      exact h1.inv.r.nx.symm
    · rw [if_pos ⟨hsafe, hnd⟩, if_pos hnd]; simp [Sim]

end Ceres.Problem
