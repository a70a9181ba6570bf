import Verif.Problem.Lemmas
/-! The simulation invariant between `State` and `Spec`, and its preservation. -/
namespace Ceres.Problem

def PBlock.info (b : PBlock) : ParamInfo := ⟨b.size, b.isConst, b.manifold⟩

def addrOf (ph : Nat → Option PBlock) (p : Nat) : Nat :=
  match ph p with | some b => b.addr | none => 0

structure PInv (ph : Nat → Option PBlock) (nextP : Nat) (pmap : List (Nat × Nat))
    (pvec : List Nat) (params : Nat → Option ParamInfo) : Prop where
  pv : VecOk pvec (fun p => (ph p).map PBlock.index)
  ms : Sorted pmap
  mf : ∀ a p, mapFind pmap a = some p ↔ ∃ b, ph p = some b ∧ b.addr = a
  pi : ∀ a, params a = (mapFind pmap a).bind (fun p => (ph p).map PBlock.info)
  pf : ∀ p, nextP ≤ p → ph p = none
  nz : ∀ a i, params a = some i → a ≠ 0
  dj : ∀ a i b j, params a = some i → params b = some j → a ≠ b →
    a + i.size ≤ b ∨ b + j.size ≤ a

structure RInv (ph : Nat → Option PBlock) (rh : Nat → Option RBlock) (nextR : Nat)
    (rvec : List Nat) (residuals : Nat → Option ResInfo) (next : Nat) : Prop where
  rv : VecOk rvec (fun r => (rh r).map RBlock.index)
  ri : ∀ r, residuals r = (rh r).map (fun rb => ⟨rb.cost, rb.loss, rb.params.map (addrOf ph)⟩)
  rn : ∀ r rb, rh r = some rb → rb.params.Nodup
  rl : ∀ r rb, rh r = some rb → ∀ p ∈ rb.params, ∃ b, ph p = some b
  rf : ∀ r, nextR ≤ r → rh r = none
  nx : next = nextR

structure CInv (env : Env) (cRef lRef : Nat → Option Nat) (cDel lDel : Nat → Nat)
    (sp : Spec) : Prop where
  fr : ∀ r, sp.next ≤ r → sp.residuals r = none
  cr : env.ownCost = true → ∀ c, cRef c = if sp.countC c = 0 then none else some (sp.countC c)
  cn : env.ownCost = false → ∀ c, cRef c = none
  cd : ∀ c, (sp.deadC env c → cDel c = 1) ∧ (¬ sp.deadC env c → cDel c = 0)
  cu : ∀ c, sp.inUseC c → sp.usedC c
  lr : env.ownLoss = true → ∀ l, lRef l = if sp.countL l = 0 then none else some (sp.countL l)
  ln : env.ownLoss = false → ∀ l, lRef l = none
  ld : ∀ l, (sp.deadL env l → lDel l = 1) ∧ (¬ sp.deadL env l → lDel l = 0)
  lu : ∀ l, sp.inUseL l → sp.usedL l

structure MInv (env : Env) (mOwned : List Nat) (mDel : Nat → Nat) (usedM : Nat → Prop) : Prop where
  mo : ∀ m, m ∈ mOwned ↔ env.ownManifold = true ∧ usedM m
  md : ∀ m, mDel m = 0

structure DInv (env : Env) (ph : Nat → Option PBlock) (rh : Nat → Option RBlock)
    (rset : List Nat) : Prop where
  dp : env.fastRemoval = true → ∀ p b, ph p = some b → ∃ d, b.deps = some d ∧ d.Nodup ∧
    ∀ r, r ∈ d ↔ ∃ rb, rh r = some rb ∧ p ∈ rb.params
  rs : env.fastRemoval = true → rset.Nodup ∧ ∀ r, r ∈ rset ↔ ∃ rb, rh r = some rb

structure Inv (env : Env) (s : State) (sp : Spec) : Prop where
  p : PInv s.pheap s.nextP s.pmap s.pvec sp.params
  r : RInv s.pheap s.rheap s.nextR s.rvec sp.residuals sp.next
  c : CInv env s.cRef s.lRef s.cDel s.lDel sp
  m : MInv env s.mOwned s.mDel sp.usedM
  d : DInv env s.pheap s.rheap s.rset

theorem inv_init (env : Env) : Inv env init Spec.empty := by
  constructor
  · constructor <;> simp [init, Spec.empty, VecOk, Sorted, mapFind]
  · constructor <;> simp [init, Spec.empty, VecOk]
  · constructor <;> simp [init, Spec.empty, Spec.countC, Spec.countL, Spec.deadC, Spec.deadL,
      Spec.inUseC, Spec.inUseL]
  · constructor <;> simp [init, Spec.empty]
  · constructor <;> simp [init]

/-! ### Parameter blocks -/

theorem PInv.inj {ph n m v q} (h : PInv ph n m v q) {p p' b b'} (hp : ph p = some b)
    (hp' : ph p' = some b') (ha : b.addr = b'.addr) : p = p' := by
  have h1 := (h.mf b.addr p).2 ⟨b, hp, rfl⟩
  have h2 := (h.mf b.addr p').2 ⟨b', hp', ha.symm⟩
  rw [h1] at h2
  simpa using h2

theorem PInv.params_of {ph n m v q} (h : PInv ph n m v q) {p b} (hp : ph p = some b) :
    q b.addr = some b.info := by
  rw [h.pi, (h.mf b.addr p).2 ⟨b, hp, rfl⟩]
  simp [hp]

theorem PInv.params_iff {ph n m v q} (h : PInv ph n m v q) (a : Nat) (i : ParamInfo) :
    q a = some i ↔ ∃ p b, ph p = some b ∧ b.addr = a ∧ b.info = i := by
  constructor
  · intro hq
    rw [h.pi] at hq
    cases hm : mapFind m a with
    | none => simp [hm] at hq
    | some p =>
      obtain ⟨b, hb, hba⟩ := (h.mf a p).1 hm
      simp [hm, hb] at hq
      exact ⟨p, b, hb, hba, hq⟩
  · rintro ⟨p, b, hp, rfl, rfl⟩
    exact h.params_of hp

theorem PInv.find_none {ph n m v q} (h : PInv ph n m v q) (a : Nat) :
    mapFind m a = none ↔ q a = none := by
  rw [h.pi]
  cases hm : mapFind m a with
  | none => simp
  | some p =>
    obtain ⟨b, hb, hba⟩ := (h.mf a p).1 hm
    simp [hb]

theorem PInv.entry {ph n m v q} (h : PInv ph n m v q) {e : Nat × Nat} (he : e ∈ m) :
    ∃ b, ph e.2 = some b ∧ b.addr = e.1 := by
  have := (mapFind_iff h.ms e.1 e.2).2 he
  exact (h.mf _ _).1 this

/-- The neighbour test decides freedom of the whole range. -/
theorem neighbour_check {s : State} {q} (h : PInv s.pheap s.nextP s.pmap s.pvec q)
    {a n : Nat} (hn : mapFind s.pmap a = none) :
    (checkNeighbour s (mapPrevious s.pmap a) a n >>= fun _ =>
      checkNeighbour s (mapLowerBound s.pmap a) a n) =
      (open Classical in if (∀ b i, q b = some i → a + n ≤ b ∨ b + i.size ≤ a)
        then Except.ok () else Except.error Err.abort) := by
  have hne : ∀ e ∈ s.pmap, e.1 ≠ a := by
    intro e he hea
    have := (mapFind_iff h.ms e.1 e.2).2 he
    rw [hea, hn] at this
    simp at this
  have hq : ∀ b i, q b = some i ↔ ∃ e ∈ s.pmap, e.1 = b ∧ ∃ pb, s.pheap e.2 = some pb ∧ pb.addr = b ∧ pb.info = i := by
    intro b i
    rw [h.params_iff]
    constructor
    · rintro ⟨p, pb, h1, h2, h3⟩
      exact ⟨(b, p), (mapFind_iff h.ms _ _).1 ((h.mf b p).2 ⟨pb, h1, h2⟩), rfl, pb, h1, h2, h3⟩
    · rintro ⟨e, _, _, pb, h1, h2, h3⟩
      exact ⟨e.2, pb, h1, h2, h3⟩
  -- previous
  have hprev : ∀ x, mapPrevious s.pmap a = x → checkNeighbour s x a n =
      (open Classical in if (∀ b i, b < a → q b = some i → b + i.size ≤ a)
        then Except.ok () else Except.error Err.abort) := by
    intro x hx
    have hs := mapPrevious_spec h.ms a
    rw [hx] at hs
    cases x with
    | none =>
      rw [if_pos]
      · rfl
      · intro b i hb hi
        obtain ⟨e, he, rfl, _⟩ := (hq b i).1 hi
        have := hs e he
        omega
    | some e =>
      obtain ⟨he, hea, hmax⟩ := hs
      obtain ⟨pb, hpb, hpa⟩ := h.entry he
      have hqe : q e.1 = some pb.info := by rw [← hpa]; exact h.params_of hpb
      simp only [checkNeighbour, getP, hpb, ok_bind, regionsAlias, hea, if_true]
      by_cases hc : a < e.1 + pb.size
      · rw [if_pos (by simpa using hc), if_neg]
        intro hall
        have := hall e.1 _ hea hqe
        simp [PBlock.info] at this
        omega
      · rw [if_neg (by simpa using hc), if_pos]
        intro b i hb hi
        obtain ⟨f, hf, rfl, fb, hfb, hfa, rfl⟩ := (hq b i).1 hi
        have hle := hmax f hf hb
        rcases Nat.lt_or_ge f.1 e.1 with hlt | hge
        · rcases h.dj f.1 _ e.1 _ hi hqe (by omega) with h1 | h1
          · omega
          · omega
        · have hfe : f.1 = e.1 := by omega
          rw [hfe] at hi
          rw [hqe] at hi
          have : pb.info = fb.info := by simpa using hi
          rw [← this, hfe]
          simp [PBlock.info]
          omega
  have hlb : ∀ x, mapLowerBound s.pmap a = x → checkNeighbour s x a n =
      (open Classical in if (∀ b i, a < b → q b = some i → a + n ≤ b)
        then Except.ok () else Except.error Err.abort) := by
    intro x hx
    have hs := mapLowerBound_spec h.ms a
    rw [hx] at hs
    cases x with
    | none =>
      rw [if_pos]
      · rfl
      · intro b i hb hi
        obtain ⟨e, he, rfl, _⟩ := (hq b i).1 hi
        have := hs e he
        omega
    | some e =>
      obtain ⟨he, hea, hmin⟩ := hs
      have hne' := hne e he
      obtain ⟨pb, hpb, hpa⟩ := h.entry he
      have hqe : q e.1 = some pb.info := by rw [← hpa]; exact h.params_of hpb
      have hnlt : ¬ e.1 < a := by omega
      simp only [checkNeighbour, getP, hpb, ok_bind, regionsAlias, hnlt, if_false]
      by_cases hc : e.1 < a + n
      · rw [if_pos (by simpa using hc), if_neg]
        intro hall
        have := hall e.1 _ (by omega) hqe
        omega
      · rw [if_neg (by simpa using hc), if_pos]
        intro b i hb hi
        obtain ⟨f, hf, rfl, _⟩ := (hq b i).1 hi
        have := hmin f hf (by omega)
        omega
  rw [hprev _ rfl]
  by_cases h1 : ∀ b i, b < a → q b = some i → b + i.size ≤ a
  · rw [if_pos h1, ok_bind, hlb _ rfl]
    by_cases h2 : ∀ b i, a < b → q b = some i → a + n ≤ b
    · rw [if_pos h2, if_pos]
      intro b i hi
      obtain ⟨e, he, rfl, _⟩ := (hq b i).1 hi
      have := hne e he
      rcases Nat.lt_or_ge e.1 a with h3 | h3
      · exact Or.inr (h1 _ _ h3 hi)
      · exact Or.inl (h2 _ _ (by omega) hi)
    · rw [if_neg h2, if_neg]
      intro hall
      apply h2
      intro b i hb hi
      rcases hall b i hi with h3 | h3
      · exact h3
      · omega
  · rw [if_neg h1, error_bind, if_neg]
    intro hall
    apply h1
    intro b i hb hi
    rcases hall b i hi with h3 | h3
    · omega
    · exact h3

theorem bind_bind_unit {β : Type} (x y : Except Err Unit) (k : Except Err β) :
    (x >>= fun _ => y >>= fun _ => k) = ((x >>= fun _ => y) >>= fun _ => k) := by
  cases x <;> rfl

/-- Relation between the results of adding a block. -/
structure AddRel (env : Env) (s : State) (a n : Nat) (x : State × Nat) (sp' : Spec) : Prop where
  inv : Inv env x.1 sp'
  blk : ∃ b, x.1.pheap x.2 = some b ∧ b.addr = a ∧ b.size = n
  old : ∀ p b, s.pheap p = some b → x.1.pheap p = some b
  nR : x.1.nextR = s.nextR
  cDel : x.1.cDel = s.cDel

theorem addrOf_congr {ph ph' : Nat → Option PBlock} {l : List Nat}
    (h : ∀ p ∈ l, addrOf ph' p = addrOf ph p) : l.map (addrOf ph') = l.map (addrOf ph) :=
  List.map_congr_left h

theorem internalAdd_sim {env : Env} {s : State} {sp : Spec} (h : Inv env s sp)
    (hsafe : env.disableSafety = false) (a n : Nat) :
    Sim (fun x sp' => AddRel env s a n x sp' ∧ sp'.residuals = sp.residuals ∧ sp'.next = sp.next ∧
      sp'.usedC = sp.usedC ∧ sp'.usedL = sp.usedL ∧ sp'.usedM = sp.usedM)
      (internalAddParameterBlock env s a n) (sp.add a n) := by
  unfold internalAddParameterBlock Spec.add
  by_cases ha : a = 0
  · simp [ha, Sim]
  simp only [ha, if_false, hsafe]
  cases hm : mapFind s.pmap a with
  | some p =>
    obtain ⟨b, hb, hba⟩ := (h.p.mf a p).1 hm
    have hq : sp.params a = some b.info := by rw [← hba]; exact h.p.params_of hb
    simp only [hq, getP, hb, ok_bind]
    by_cases hsz : n = b.size
    · have : n = b.info.size := hsz
      simp only [hsz, if_true, PBlock.info]
      simp only [Sim, Bool.false_eq_true, if_false]
      refine ⟨⟨h, ⟨b, hb, hba, rfl⟩, fun p b hp => hp, rfl, rfl⟩, ?_⟩
      simp
    · simp [hsz, PBlock.info, Sim]
  | none =>
    have hq : sp.params a = none := (h.p.find_none a).1 hm
    simp only [hq, Bool.false_eq_true, if_false]
    rw [bind_bind_unit, neighbour_check h.p hm]
    by_cases hfree : sp.rangeFree a n
    · have hfree' : ∀ b i, sp.params b = some i → a + n ≤ b ∨ b + i.size ≤ a := hfree
      rw [if_pos hfree', if_pos hfree, ok_bind]
      have hnew : s.pheap s.nextP = none := h.p.pf _ (Nat.le_refl _)
      have hold : ∀ p b, s.pheap p = some b → p ≠ s.nextP := by
        intro p b hp hc; rw [hc, hnew] at hp; simp at hp
      simp only [Sim]
      refine ⟨⟨⟨?_, ?_, ?_, ?_, ?_⟩, ?_, ?_, rfl, rfl⟩, by simp⟩
      · -- PInv
        constructor
        · have := h.p.pv.push (p := s.nextP) (by simp [hnew])
          intro i q
          rw [this i q]
          simp only [upd]
          split <;> simp
        · exact sorted_mapInsert h.p.ms hm
        · intro a' p'
          rw [mapFind_insert h.p.ms hm]
          simp only [upd]
          by_cases h1 : a' = a
          · subst h1
            simp only [if_true]
            constructor
            · intro hh
              have : s.nextP = p' := by simpa using hh
              subst this
              simp
            · rintro ⟨b, hb, hba⟩
              split at hb
              · rename_i hp; simp [hp]
              · exfalso
                have := (h.p.mf a' p').2 ⟨b, hb, hba⟩
                rw [hm] at this; simp at this
          · simp only [h1, if_false]
            rw [h.p.mf]
            constructor
            · rintro ⟨b, hb, hba⟩
              have := hold _ _ hb
              exact ⟨b, by simp [this, hb], hba⟩
            · rintro ⟨b, hb, hba⟩
              split at hb
              · have : b.addr = a := by
                  have := (Option.some.inj hb).symm
                  rw [this]
                exact absurd (hba.symm.trans this) h1
              · exact ⟨b, hb, hba⟩
        · intro a'
          rw [mapFind_insert h.p.ms hm]
          simp only [upd]
          by_cases h1 : a' = a
          · simp [h1, PBlock.info]
          · simp only [h1, if_false]
            rw [h.p.pi]
            cases hf : mapFind s.pmap a' with
            | none => rfl
            | some p' =>
              obtain ⟨b, hb, _⟩ := (h.p.mf a' p').1 hf
              have := hold _ _ hb
              simp [this]
        · intro p hp
          simp only at hp ⊢
          rw [upd_other _ _ (by omega)]
          exact h.p.pf p (by omega)
        · intro a' i
          simp only [upd]
          split
          · rename_i h1; intro _; rw [h1]; exact ha
          · exact h.p.nz a' i
        · intro a1 i1 a2 i2
          simp only [upd]
          split
          · rename_i h1
            intro e1
            split
            · rename_i h2; intro _ hh; exact absurd (h1.trans h2.symm) hh
            · intro e2 _
              have := hfree' a2 i2 e2
              have e1' := (Option.some.inj e1).symm
              subst e1'
              subst h1
              exact this
          · intro e1
            split
            · rename_i h2; intro e2 _
              have := hfree' a1 i1 e1
              have e2' := (Option.some.inj e2).symm
              subst e2'
              subst h2
              exact this.symm
            · intro e2 hh
              exact h.p.dj a1 i1 a2 i2 e1 e2 hh
      · -- RInv
        refine ⟨h.r.rv, ?_, h.r.rn, ?_, h.r.rf, h.r.nx⟩
        · intro r
          simp only
          rw [h.r.ri r]
          cases hr : s.rheap r with
          | none => rfl
          | some rb =>
            simp only [Option.map_some]
            congr 2
            apply List.map_congr_left
            intro p hp
            obtain ⟨b, hb⟩ := h.r.rl r rb hr p hp
            have := hold _ _ hb
            simp [addrOf, upd, this]
        · intro r rb hr p hp
          obtain ⟨b, hb⟩ := h.r.rl r rb hr p hp
          exact ⟨b, by simp only; rw [upd_other _ _ (hold _ _ hb)]; exact hb⟩
      · -- CInv
        exact ⟨h.c.fr, h.c.cr, h.c.cn, h.c.cd, h.c.cu, h.c.lr, h.c.ln, h.c.ld, h.c.lu⟩
      · exact ⟨h.m.mo, h.m.md⟩
      · refine ⟨?_, h.d.rs⟩
        intro hfast p b hp
        simp only [upd] at hp
        split at hp
        · rename_i hpn
          have := (Option.some.inj hp).symm
          subst this
          refine ⟨[], by simp, by simp, ?_⟩
          intro r
          simp only [List.not_mem_nil, false_iff]
          rintro ⟨rb, hr, hmem⟩
          obtain ⟨b, hb⟩ := h.r.rl r rb hr p hmem
          exact hold _ _ hb hpn
        · exact h.d.dp hfast p b hp
      · exact ⟨_, upd_same _ _ _, rfl, rfl⟩
      · intro p b hp
        simp only
        rw [upd_other _ _ (hold _ _ hp)]
        exact hp
    · have hfree' : ¬ ∀ b i, sp.params b = some i → a + n ≤ b ∨ b + i.size ≤ a := hfree
      rw [if_neg hfree', if_neg hfree, error_bind]
      simp [Sim]

end Ceres.Problem
