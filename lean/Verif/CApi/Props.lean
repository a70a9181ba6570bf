import Verif.CApi.Spec
import Verif.Problem.Props
import Mathlib.Tactic.Common
/-! C99: every history of calls of the C interface does what its specification says. -/
namespace Ceres.CApi

open Ceres.Problem

/-! ### Registering parameter blocks -/

theorem Compatible.sub {l l' : List (Nat × Nat)} (h : Compatible l') (hs : ∀ x ∈ l, x ∈ l') :
    Compatible l := fun x hx => ⟨(h x (hs x hx)).1, fun y hy => (h x (hs x hx)).2 y (hs y hy)⟩

/-- The parameter blocks of the container of C01 are those of the list. -/
def Params (sp : Spec) (l : List (Nat × Nat)) : Prop :=
  ∀ a i, sp.params a = some i ↔ (a, i.size) ∈ l ∧ i.isConst = false ∧ i.manifold = none

theorem compatible_snoc {l : List (Nat × Nat)} {a n : Nat} (hl : Compatible l) :
    Compatible (l ++ [(a, n)]) ↔ a ≠ 0 ∧ ∀ y ∈ l,
      (a = y.1 → n = y.2) ∧ (a ≠ y.1 → a + n ≤ y.1 ∨ y.1 + y.2 ≤ a) := by
  constructor
  · intro h
    have := h (a, n) (by simp)
    exact ⟨this.1, fun y hy => this.2 y (by simp [hy])⟩
  · rintro ⟨h0, h⟩ x hx
    rcases List.mem_append.1 hx with hx | hx
    · refine ⟨(hl x hx).1, fun y hy => ?_⟩
      rcases List.mem_append.1 hy with hy | hy
      · exact (hl x hx).2 y hy
      · obtain rfl := List.mem_singleton.1 hy
        have := h x hx
        exact ⟨fun e => (this.1 e.symm).symm, fun e => (this.2 (Ne.symm e)).symm⟩
    · obtain rfl := List.mem_singleton.1 hx
      refine ⟨h0, fun y hy => ?_⟩
      rcases List.mem_append.1 hy with hy | hy
      · exact h y hy
      · obtain rfl := List.mem_singleton.1 hy
        exact ⟨fun _ => rfl, fun e => absurd rfl e⟩

theorem add_params {sp : Spec} {l : List (Nat × Nat)} (hp : Params sp l) (hl : Compatible l)
    (a n : Nat) :
    (Compatible (l ++ [(a, n)]) → ∃ sp', sp.add a n = .ok sp' ∧ Params sp' (l ++ [(a, n)]) ∧
      sp'.residuals = sp.residuals ∧ sp'.next = sp.next ∧ sp'.usedC = sp.usedC ∧
      sp'.usedL = sp.usedL) ∧
    (¬ Compatible (l ++ [(a, n)]) → sp.add a n = .error .abort) := by
  rw [compatible_snoc hl]
  unfold Spec.add
  by_cases h0 : a = 0
  · exact ⟨fun h => absurd h0 h.1, fun _ => by rw [if_pos h0]⟩
  rw [if_neg h0]
  cases hpa : sp.params a with
  | some i =>
    obtain ⟨hm, hc, hma⟩ := (hp a i).1 hpa
    simp only
    constructor
    · rintro ⟨_, h⟩
      have hn : n = i.size := (h _ hm).1 rfl
      refine ⟨sp, by rw [if_pos hn], ?_, rfl, rfl, rfl, rfl⟩
      intro b j
      rw [hp b j, List.mem_append]
      constructor
      · rintro ⟨h1, h2⟩; exact ⟨.inl h1, h2⟩
      · rintro ⟨h1 | h1, h2⟩
        · exact ⟨h1, h2⟩
        · have := List.mem_singleton.1 h1
          obtain ⟨rfl, hs⟩ := Prod.mk.injEq _ _ _ _ ▸ this
          refine ⟨?_, h2⟩
          rw [hs, hn]; exact hm
    · intro h
      rw [if_neg]
      intro hn
      refine h ⟨h0, fun y hy => ?_⟩
      have hcy := (hl _ hm).2 y hy
      simp only at hcy
      rw [hn]
      exact hcy
  | none =>
    simp only
    have hfree : sp.rangeFree a n ↔ ∀ y ∈ l,
        (a = y.1 → n = y.2) ∧ (a ≠ y.1 → a + n ≤ y.1 ∨ y.1 + y.2 ≤ a) := by
      constructor
      · rintro h ⟨b, m⟩ hy
        have hb : sp.params b = some ⟨m, false, none⟩ := (hp b _).2 ⟨hy, rfl, rfl⟩
        refine ⟨fun e => ?_, fun _ => h b _ hb⟩
        simp only at e
        rw [e, hb] at hpa; cases hpa
      · intro h b i hb
        have hy := ((hp b i).1 hb).1
        refine (h _ hy).2 ?_
        intro e
        simp only at e
        rw [e, hb] at hpa; cases hpa
    constructor
    · rintro ⟨_, h⟩
      refine ⟨{ sp with params := upd sp.params a (some ⟨n, false, none⟩) },
        if_pos (hfree.2 h), ?_, rfl, rfl, rfl, rfl⟩
      intro b j
      by_cases hb : b = a
      · subst hb
        simp only [upd_same, Option.some.injEq, List.mem_append, List.mem_singleton,
          Prod.mk.injEq, true_and]
        constructor
        · rintro rfl; exact ⟨.inr rfl, rfl, rfl⟩
        · rintro ⟨h1 | h1, h2, h3⟩
          · rw [(hp b ⟨j.size, false, none⟩).2 ⟨h1, rfl, rfl⟩] at hpa; cases hpa
          · cases j; simp_all
      · simp only [upd_other _ _ hb, List.mem_append, List.mem_singleton, Prod.mk.injEq, hb,
          false_and, or_false]
        exact hp b j
    · intro h
      rw [if_neg]
      intro hf
      exact h ⟨h0, hfree.1 hf⟩

theorem addAll_params (bs : List (Nat × Nat)) : ∀ {sp : Spec} {l : List (Nat × Nat)},
    Params sp l → Compatible l →
    (Compatible (l ++ bs) → ∃ sp', sp.addAll bs = .ok sp' ∧ Params sp' (l ++ bs) ∧
      sp'.residuals = sp.residuals ∧ sp'.next = sp.next ∧ sp'.usedC = sp.usedC ∧
      sp'.usedL = sp.usedL) ∧
    (¬ Compatible (l ++ bs) → sp.addAll bs = .error .abort) := by
  induction bs with
  | nil =>
    intro sp l hp hl
    rw [List.append_nil]
    exact ⟨fun _ => ⟨sp, rfl, hp, rfl, rfl, rfl, rfl⟩, fun h => absurd hl h⟩
  | cons x bs ih =>
    obtain ⟨a, n⟩ := x
    intro sp l hp hl
    have e : l ++ (a, n) :: bs = (l ++ [(a, n)]) ++ bs := by simp
    rw [e]
    obtain ⟨h1, h2⟩ := add_params hp hl a n
    by_cases hc : Compatible (l ++ [(a, n)])
    · obtain ⟨sp1, e1, hp1, hr1, hn1, hc1, hl1⟩ := h1 hc
      simp only [Spec.addAll, e1, ok_bind]
      obtain ⟨g1, g2⟩ := ih hp1 hc
      refine ⟨fun h => ?_, g2⟩
      obtain ⟨sp2, e2, hp2, hr2, hn2, hc2, hl2⟩ := g1 h
      exact ⟨sp2, e2, hp2, hr2.trans hr1, hn2.trans hn1, hc2.trans hc1, hl2.trans hl1⟩
    · refine ⟨fun h => absurd (h.sub (fun x hx => by simp only [List.mem_append] at hx ⊢; exact .inl hx)) hc,
        fun _ => ?_⟩
      simp only [Spec.addAll, h2 hc, error_bind]

/-! ### The order of the residual blocks -/

theorem internalAdd_rvec {env : Env} {s : State} {a n : Nat} {x : State × Nat}
    (h : internalAddParameterBlock env s a n = .ok x) : x.1.rvec = s.rvec := by
  unfold internalAddParameterBlock at h
  split at h
  · cases h
  by_cases hd : env.disableSafety = true
  · simp only [hd, if_true, ok_bind, pure_eq_ok] at h
    split at h <;> cases h <;> rfl
  · simp only [hd, if_false, Bool.false_eq_true] at h
    split at h
    · cases hg : getP s _ with
      | error e => rw [hg] at h; cases h
      | ok b =>
        rw [hg] at h
        simp only [ok_bind] at h
        split at h <;> cases h
        rfl
    · cases h1 : checkNeighbour s (mapPrevious s.pmap a) a n with
      | error e => rw [h1] at h; cases h
      | ok u =>
        rw [h1] at h
        simp only [ok_bind] at h
        cases h2 : checkNeighbour s (mapLowerBound s.pmap a) a n with
        | error e => rw [h2] at h; cases h
        | ok u' => rw [h2] at h; cases h; rfl

theorem addBlocks_rvec {env : Env} (l : List (Nat × Nat)) : ∀ {s : State} {x : State × List Nat},
    addBlocks env s l = .ok x → x.1.rvec = s.rvec := by
  induction l with
  | nil => intro s x h; cases h; rfl
  | cons y l ih =>
    obtain ⟨a, n⟩ := y
    intro s x h
    simp only [addBlocks] at h
    cases h1 : internalAddParameterBlock env s a n with
    | error e => rw [h1] at h; cases h
    | ok z =>
      rw [h1] at h
      simp only [ok_bind] at h
      cases h2 : addBlocks env z.1 l with
      | error e => rw [h2] at h; cases h
      | ok z' =>
        rw [h2] at h
        cases h
        exact (ih h2).trans (internalAdd_rvec h1)

theorem addResidual_rvec {costs : List CostWrapper} {s : State} {c : Nat} {loss : Option Nat}
    {ps : List Nat} {x : State × Nat}
    (h : Problem.addResidualBlock (envOf costs) s (some c) loss ps = .ok x) :
    x.1.rvec = s.rvec ++ [x.2] := by
  unfold Problem.addResidualBlock at h
  simp only at h
  split at h
  · cases h
  split at h
  · cases h
  split at h
  · cases h
  split at h
  · cases h
  cases h1 : addBlocks (envOf costs) s (ps.zip ((envOf costs).sizes c)) with
  | error e => rw [h1] at h; cases h
  | ok z =>
    rw [h1] at h
    have hd : (envOf costs).disableSafety = false := rfl
    have hf : (envOf costs).fastRemoval = false := rfl
    simp only [ok_bind, hd, Bool.false_eq_true, if_false] at h
    cases h2 : checkSizes z.1 (z.2.zip ((envOf costs).sizes c)) with
    | error e => rw [h2] at h; cases h
    | ok u =>
      rw [h2] at h
      simp only [ok_bind, registerResidual, hf, Bool.false_eq_true, if_false] at h
      cases h
      rw [← addBlocks_rvec _ h1]

/-! ### The invariant -/

/-- The wrapper made for a residual block. -/
def wrapper (a : Added) : CostWrapper := ⟨a.cost, a.numResiduals, a.blocks.map (·.2)⟩

/-- A live problem is what was added to it. -/
structure Live (s : State) (costs : List CostWrapper) (losses : List (Option Callback))
    (added : List Added) (sp : Spec) : Prop where
  inv : Inv (envOf costs) s sp
  costs : costs = added.map wrapper
  losses : losses = added.map Added.loss
  rvec : s.rvec = List.range added.length
  next : sp.next = added.length
  compat : Compatible (blocksOf added)
  params : Params sp (blocksOf added)
  residuals : ∀ r, sp.residuals r = (added[r]?).map (fun a =>
    ⟨r, if a.loss.isSome then some r else none, a.blocks.map (·.1)⟩)
  usedC : ∀ c, sp.usedC c ↔ c < added.length
  usedL : ∀ l, sp.usedL l ↔ ∃ a, added[l]? = some a ∧ a.loss.isSome

theorem inv_env {costs costs' : List CostWrapper} {s : State} {sp : Spec}
    (h : Inv (envOf costs) s sp) : Inv (envOf costs') s sp :=
  ⟨h.p, h.r, ⟨h.c.fr, h.c.cr, h.c.cn, h.c.cd, h.c.cu, h.c.lr, h.c.ln, h.c.ld, h.c.lu⟩,
    ⟨h.m.mo, h.m.md⟩, ⟨h.d.dp, h.d.rs⟩⟩

theorem live_init : Live Problem.init [] [] [] Spec.empty where
  inv := inv_init _
  costs := rfl
  losses := rfl
  rvec := rfl
  next := rfl
  compat := by intro x hx; cases hx
  params := by intro a i; simp [Spec.empty, blocksOf]
  residuals := by intro r; simp [Spec.empty]
  usedC := by intro r; simp [Spec.empty]
  usedL := by intro r; simp [Spec.empty]

theorem live_add {s : State} {costs : List CostWrapper} {losses : List (Option Callback)}
    {added : List Added} {sp : Spec} (h : Live s costs losses added sp)
    (cost : Callback) (lf ld nr : Nat) (blocks : List (Nat × Nat)) :
    ((blocks.map (·.1)).Nodup ∧ Compatible (blocksOf added ++ blocks) →
      ∃ s' costs' losses' sp',
        addResidualBlock s costs losses cost lf ld nr blocks = .ok (.live s' costs' losses') ∧
        Live s' costs' losses'
          (added ++ [⟨cost, if lf = 0 then none else some ⟨lf, ld⟩, nr, blocks⟩]) sp') ∧
    (¬ ((blocks.map (·.1)).Nodup ∧ Compatible (blocksOf added ++ blocks)) →
      addResidualBlock s costs losses cost lf ld nr blocks = .error .abort) := by
  have hlen : costs.length = added.length := by rw [h.costs, List.length_map]
  have hwl : wrapLoss lf ld = if lf = 0 then none else some ⟨lf, ld⟩ := by
    unfold wrapLoss; by_cases hz : lf = 0 <;> simp [hz]
  set costs' := costs ++ [(⟨cost, nr, blocks.map (·.2)⟩ : CostWrapper)] with hcosts'
  set loss := (if lf = 0 then none else some (⟨lf, ld⟩ : Callback)) with hloss
  set a : Added := ⟨cost, loss, nr, blocks⟩ with ha
  have hsz : (envOf costs').sizes costs.length = blocks.map (·.2) := by
    simp [envOf, hcosts']
  have hsim := addResidual_sim (inv_env (costs' := costs') h.inv) rfl (some costs.length)
    (if loss.isSome then some costs.length else none) (blocks.map (·.1))
  have hdeadC : ¬ sp.deadC (envOf costs') costs.length := by
    rintro ⟨_, hu, _⟩
    have := (h.usedC _).1 hu
    omega
  have hdeadL : ¬ ∃ l, (if loss.isSome then some costs.length else none) = some l ∧
      sp.deadL (envOf costs') l := by
    rintro ⟨l, hl, _, hu, _⟩
    obtain ⟨a', ha', _⟩ := (h.usedL _).1 hu
    have hlt := (List.getElem?_eq_some_iff.1 ha').1
    split at hl
    · cases hl; omega
    · cases hl
  obtain ⟨g1, g2⟩ := addAll_params blocks h.params h.compat
  have hz : (blocks.map (·.1)).zip (blocks.map (·.2)) = blocks := by
    clear * -
    induction blocks with
    | nil => rfl
    | cons x l ih => simp [ih]
  have hspec : sp.addResidual (envOf costs') (some costs.length)
      (if loss.isSome then some costs.length else none) (blocks.map (·.1)) =
      if ¬ (blocks.map (·.1)).Nodup then .error .abort else
        sp.addAll blocks >>= fun sp1 => .ok { sp1 with
          residuals := upd sp1.residuals sp1.next (some ⟨costs.length,
            if loss.isSome then some costs.length else none, blocks.map (·.1)⟩)
          next := sp1.next + 1
          usedC := fun c' => sp1.usedC c' ∨ c' = costs.length
          usedL := fun l' => sp1.usedL l' ∨
            (if loss.isSome then some costs.length else none) = some l' } := by
    unfold Spec.addResidual
    simp only
    rw [if_neg hdeadC, if_neg hdeadL, hsz, if_neg (by simp), hz]
  have hmodel : addResidualBlock s costs losses cost lf ld nr blocks =
      (Problem.addResidualBlock (envOf costs') s (some costs.length)
        (if loss.isSome then some costs.length else none) (blocks.map (·.1))) >>=
        fun x => .ok (.live x.1 costs' (losses ++ [loss])) := by
    unfold addResidualBlock
    simp only [hwl]
    rfl
  have hno : ∀ e, sp.addResidual (envOf costs') (some costs.length)
      (if loss.isSome then some costs.length else none) (blocks.map (·.1)) = .error e →
      addResidualBlock s costs losses cost lf ld nr blocks = .error e := by
    intro e he
    rw [he] at hsim
    rw [hmodel]
    cases hm : Problem.addResidualBlock (envOf costs') s (some costs.length)
        (if loss.isSome then some costs.length else none) (blocks.map (·.1)) with
    | error e' => rw [hm] at hsim; cases hsim; rfl
    | ok x => rw [hm] at hsim; exact hsim.elim
  constructor
  · rintro ⟨hnd, hc⟩
    obtain ⟨sp1, e1, hp1, hr1, hn1, hc1, hl1⟩ := g1 hc
    rw [hspec, if_neg (not_not.2 hnd), e1, ok_bind] at hsim
    cases hm : Problem.addResidualBlock (envOf costs') s (some costs.length)
        (if loss.isSome then some costs.length else none) (blocks.map (·.1)) with
    | error e' => rw [hm] at hsim; exact hsim.elim
    | ok x =>
      rw [hm] at hsim
      obtain ⟨hinv, hx2⟩ := hsim
      obtain ⟨sp2, hsp2⟩ : ∃ sp2, sp2 = ({ sp1 with
          residuals := upd sp1.residuals sp1.next (some ⟨costs.length,
            if loss.isSome then some costs.length else none, blocks.map (·.1)⟩)
          next := sp1.next + 1
          usedC := fun c' => sp1.usedC c' ∨ c' = costs.length
          usedL := fun l' => sp1.usedL l' ∨
            (if loss.isSome then some costs.length else none) = some l' } : Spec) := ⟨_, rfl⟩
      rw [← hsp2] at hinv
      have hrv := addResidual_rvec hm
      refine ⟨x.1, costs', losses ++ [loss], sp2, by rw [hmodel, hm]; rfl, ?_⟩
      have hbl : blocksOf (added ++ [a]) = blocksOf added ++ blocks := by
        simp [blocksOf, ha]
      constructor
      · exact hinv
      all_goals try subst hsp2
      · rw [hcosts', h.costs, List.map_append]; rfl
      · rw [h.losses, List.map_append]; rfl
      · rw [hrv, hx2, h.rvec, h.next, List.length_append, List.length_singleton,
          List.range_succ]
      · simp [hn1, h.next]
      · rw [hbl]; exact hc
      · rw [hbl]; exact hp1
      · intro r
        simp only [hr1, hn1, h.next, hlen]
        by_cases hr : r = added.length
        · subst hr; simp [ha]
        · rw [upd_other _ _ hr, h.residuals]
          by_cases hlt : r < added.length
          · rw [List.getElem?_append_left hlt]
          · rw [List.getElem?_eq_none (by omega), List.getElem?_eq_none (by simp; omega)]
      · intro c
        simp only [hc1, h.usedC, hlen, List.length_append, List.length_singleton]
        omega
      · intro l
        simp only [hl1, h.usedL, hlen]
        constructor
        · rintro (⟨a', h1, h2⟩ | h1)
          · have hlt := (List.getElem?_eq_some_iff.1 h1).1
            exact ⟨a', by rw [List.getElem?_append_left hlt]; exact h1, h2⟩
          · by_cases hs : loss.isSome
            · rw [if_pos hs] at h1
              cases h1
              exact ⟨a, by simp, hs⟩
            · rw [if_neg hs] at h1; cases h1
        · rintro ⟨a', h1, h2⟩
          by_cases hlt : l < added.length
          · rw [List.getElem?_append_left hlt] at h1
            exact .inl ⟨a', h1, h2⟩
          · have hlt' := (List.getElem?_eq_some_iff.1 h1).1
            simp at hlt'
            obtain rfl : l = added.length := by omega
            simp at h1
            subst h1
            right
            rw [if_pos h2]
  · intro hneg
    by_cases hnd : (blocks.map (·.1)).Nodup
    · have hc : ¬ Compatible (blocksOf added ++ blocks) := fun hc => hneg ⟨hnd, hc⟩
      exact hno _ (by rw [hspec, if_neg (not_not.2 hnd), g2 hc, error_bind])
    · exact hno _ (by rw [hspec, if_pos hnd])

/-! ### Evaluation -/

theorem evaluateBlock_eq {D : Type} (stock : List (Option (Stock D))) {s : State}
    {costs : List CostWrapper} {losses : List (Option Callback)} {added : List Added} {sp : Spec}
    (h : Live s costs losses added sp) {r : Nat} {a : Added} (hr : added[r]? = some a)
    (valid : Bool) : ∃ rb, getR s r = .ok rb ∧
      evaluateBlock stock s costs losses rb valid = specEvaluate stock a valid := by
  have hres := h.residuals r
  rw [hr, h.inv.r.ri r] at hres
  have hpar := h.inv.agrees.residual_params r _ (by rw [h.residuals r, hr]; rfl)
  cases hrb : s.rheap r with
  | none => rw [hrb] at hres; cases hres
  | some rb =>
    rw [hrb] at hres
    simp only [Option.map_some, Option.some.injEq, ResInfo.mk.injEq] at hres
    obtain ⟨hc, hl, -⟩ := hres
    have hg : getR s r = .ok rb := by simp [getR, hrb]
    refine ⟨rb, hg, ?_⟩
    simp only [getParameterBlocksForResidualBlock, hg, ok_bind] at hpar
    have hresr : sp.residuals r = some ⟨r, if a.loss.isSome then some r else none,
        a.blocks.map (·.1)⟩ := by rw [h.residuals r, hr]; rfl
    have hcd : s.cDel r = 0 := by
      refine (h.inv.c.cd r).2 ?_
      rintro ⟨_, _, hn⟩
      exact hn ⟨r, _, hresr, rfl⟩
    have hcw : costs[r]? = some (wrapper a) := by rw [h.costs, List.getElem?_map, hr]; rfl
    have hlw : losses[r]? = some a.loss := by rw [h.losses, List.getElem?_map, hr]; rfl
    unfold evaluateBlock specEvaluate
    rw [hpar]
    simp only [ok_bind, hc, hcw, hl]
    by_cases hfn : a.cost.fn = 0
    · rw [if_pos (.inr hfn), if_pos hfn]
    rw [if_neg (by rintro (h1 | h1); exacts [h1 hcd, hfn h1]), if_neg hfn]
    cases valid with
    | false => simp [wrapper]
    | true =>
      cases hls : a.loss with
      | none => simp [wrapper]
      | some cb =>
        have hld : s.lDel r = 0 := by
          refine (h.inv.c.ld r).2 ?_
          rintro ⟨_, _, hn⟩
          exact hn ⟨r, _, hresr, by simp [hls]⟩
        simp only [Option.isSome_some, if_true, hld, hlw, hls, ne_eq, not_true_eq_false, if_false,
          Bool.true_eq_false, callLoss]
        by_cases hst : cb.fn = stockFunction
        · rw [if_pos hst, if_pos hst]
          cases hst' : stock[cb.data]? with
          | none => simp
          | some f => cases f <;> simp [wrapper]
        · rw [if_neg hst, if_neg hst]; simp [wrapper]

theorem evaluations_eq {D : Type} (stock : List (Option (Stock D))) {s : State}
    {costs : List CostWrapper} {losses : List (Option Callback)} {added : List Added} {sp : Spec}
    (h : Live s costs losses added sp) (what : List (Nat × Bool)) :
    evaluations stock s costs losses what = specEvaluations stock added what := by
  induction what with
  | nil => rfl
  | cons x what ih =>
    obtain ⟨i, valid⟩ := x
    simp only [evaluations, specEvaluations, h.rvec]
    by_cases hi : i < added.length
    · obtain ⟨rb, e1, e2⟩ := evaluateBlock_eq stock h (List.getElem?_eq_getElem hi) valid
      rw [List.getElem?_range hi, List.getElem?_eq_getElem hi]
      simp only [e1, ok_bind, e2, ih]
    · rw [List.getElem?_eq_none (by simpa using hi), List.getElem?_eq_none (by simpa using hi)]
      exact ih

/-! ### The theorem -/

/-- A problem does what was asked of it.  While it lives it holds the residual blocks that were
added, in order, each with its parameter blocks, and no wrapper was deleted.  Once it is
freed every wrapper that was made has been deleted once. -/
def Holds : Prob → List Added × Bool → Prop
  | .live s costs _, (added, true) =>
    getResidualBlocks s = List.range added.length ∧
    (∀ (r : Nat) (a : Added), added[r]? = some a →
      getParameterBlocksForResidualBlock s r = .ok (a.blocks.map (·.1))) ∧
    (∀ (r : Nat) (w : CostWrapper), costs[r]? = some w ↔ ∃ a : Added, added[r]? = some a ∧
      w.callback = a.cost ∧ w.numResiduals = a.numResiduals ∧ w.sizes = a.blocks.map (·.2)) ∧
    (∀ c, s.cDel c = 0) ∧ (∀ l, s.lDel l = 0)
  | .freed cDel lDel, (added, false) =>
    (∀ c, cDel c = if c < added.length then 1 else 0) ∧
    (∀ l, lDel l = if ∃ a, added[l]? = some a ∧ a.loss ≠ none then 1 else 0)
  | _, _ => False

/-- All of it agrees. -/
structure Match {D : Type} (w : World D) (sw : SpecWorld D) : Prop where
  num : w.problems.length = sw.problems.length
  problems : ∀ (k : Nat) p q, w.problems[k]? = some p → sw.problems[k]? = some q → Holds p q
  stock : w.stock = sw.stock
  log : w.log = sw.log

/-- The invariant behind `Holds`. -/
def HoldsInv : Prob → List Added × Bool → Prop
  | .live s costs losses, (added, true) => ∃ sp, Live s costs losses added sp
  | .freed cDel lDel, (added, false) => Holds (.freed cDel lDel) (added, false)
  | _, _ => False

theorem HoldsInv.holds {p : Prob} {q : List Added × Bool} (h : HoldsInv p q) : Holds p q := by
  obtain ⟨added, b⟩ := q
  cases p with
  | freed c l => cases b with
    | true => exact h.elim
    | false => exact h
  | live s costs losses =>
    cases b with
    | false => exact h.elim
    | true =>
      obtain ⟨sp, h⟩ := h
      have hu : ∀ c, c < added.length → sp.inUseC c := by
        intro c hc
        exact ⟨c, _, by rw [h.residuals c, List.getElem?_eq_getElem hc]; rfl, rfl⟩
      refine ⟨h.rvec, ?_, ?_, ?_, ?_⟩
      · intro r a hr
        exact h.inv.agrees.residual_params r ⟨r, if a.loss.isSome then some r else none, _⟩
          (by rw [h.residuals r, hr]; rfl)
      · intro r w
        rw [h.costs, List.getElem?_map]
        cases added[r]? with
        | none => simp
        | some a =>
          simp only [Option.map_some, Option.some.injEq, wrapper]
          constructor
          · rintro rfl; exact ⟨a, rfl, rfl, rfl, rfl⟩
          · rintro ⟨a', rfl, h1, h2, h3⟩; cases w; simp_all
      · intro c
        refine (h.inv.c.cd c).2 ?_
        rintro ⟨_, h1, h2⟩
        exact h2 (hu c ((h.usedC c).1 h1))
      · intro l
        refine (h.inv.c.ld l).2 ?_
        rintro ⟨_, h1, h2⟩
        obtain ⟨a, ha, hs⟩ := (h.usedL l).1 h1
        exact h2 ⟨l, ⟨l, some l, a.blocks.map (·.1)⟩,
          by rw [h.residuals l, ha]; simp [hs], rfl⟩

theorem Live.free {s : State} {costs : List CostWrapper} {losses : List (Option Callback)}
    {added : List Added} {sp : Spec} (h : Live s costs losses added sp) :
    Holds (.freed (destroy (envOf costs) s).1 (destroy (envOf costs) s).2.1) (added, false) := by
  obtain ⟨_, _, _, hc0, hl0⟩ := HoldsInv.holds (p := .live s costs losses) (q := (added, true)) ⟨sp, h⟩
  have hcr := h.inv.c.cr rfl
  have hlr := h.inv.c.lr rfl
  have hposC := Spec.countC_pos h.inv.c.fr
  have hposL := Spec.countL_pos h.inv.c.fr
  constructor
  · intro c
    have hiff : sp.inUseC c ↔ c < added.length := by
      constructor
      · intro hu; exact (h.usedC c).1 (h.inv.c.cu c hu)
      · intro hc
        exact ⟨c, _, by rw [h.residuals c, List.getElem?_eq_getElem hc]; rfl, rfl⟩
    have := hposC c
    simp only [destroy, hc0, Nat.zero_add, hcr]
    by_cases hlt : c < added.length
    · have h0 : sp.countC c ≠ 0 := by have := this.2 (hiff.2 hlt); omega
      simp [h0, hlt, envOf]
    · have h0 : sp.countC c = 0 := by
        by_contra hn; exact hlt (hiff.1 (this.1 (by omega)))
      simp [h0, hlt]
  · intro l
    have hiff : sp.inUseL l ↔ ∃ a, added[l]? = some a ∧ a.loss ≠ none := by
      constructor
      · intro hu
        obtain ⟨a, ha, hs⟩ := (h.usedL l).1 (h.inv.c.lu l hu)
        exact ⟨a, ha, by rw [← Option.isSome_iff_ne_none]; exact hs⟩
      · rintro ⟨a, ha, hs⟩
        exact ⟨l, ⟨l, some l, a.blocks.map (·.1)⟩,
          by rw [h.residuals l, ha]; simp [Option.isSome_iff_ne_none.2 hs], rfl⟩
    have := hposL l
    simp only [destroy, hl0, Nat.zero_add, hlr]
    by_cases hlt : ∃ a, added[l]? = some a ∧ a.loss ≠ none
    · have h0 : sp.countL l ≠ 0 := by have := this.2 (hiff.2 hlt); omega
      rw [if_pos hlt]
      simp [h0, envOf]
    · have h0 : sp.countL l = 0 := by
        by_contra hn; exact hlt (hiff.1 (this.1 (by omega)))
      rw [if_neg hlt]
      simp [h0]

/-- The invariant of the whole. -/
structure MatchInv {D : Type} (w : World D) (sw : SpecWorld D) : Prop where
  problems : List.Forall₂ HoldsInv w.problems sw.problems
  stock : w.stock = sw.stock
  log : w.log = sw.log

theorem forall₂_get {p : List Prob} {q : List (List Added × Bool)}
    (h : List.Forall₂ HoldsInv p q) (k : Nat) :
    (p[k]? = none ∧ q[k]? = none) ∨ ∃ a b, p[k]? = some a ∧ q[k]? = some b ∧ HoldsInv a b := by
  induction h generalizing k with
  | nil => left; simp
  | cons h0 _ ih =>
    cases k with
    | zero => right; exact ⟨_, _, rfl, rfl, h0⟩
    | succ k => simpa using ih k

theorem forall₂_set {p : List Prob} {q : List (List Added × Bool)}
    (h : List.Forall₂ HoldsInv p q) (k : Nat) {a : Prob} {b : List Added × Bool}
    (hab : HoldsInv a b) : List.Forall₂ HoldsInv (p.set k a) (q.set k b) := by
  induction h generalizing k with
  | nil => exact .nil
  | cons h0 h1 ih =>
    cases k with
    | zero => exact .cons hab h1
    | succ k => exact .cons h0 (ih k)

theorem forall₂_snoc {p : List Prob} {q : List (List Added × Bool)}
    (h : List.Forall₂ HoldsInv p q) {a : Prob} {b : List Added × Bool}
    (hab : HoldsInv a b) : List.Forall₂ HoldsInv (p ++ [a]) (q ++ [b]) := by
  induction h with
  | nil => exact .cons hab .nil
  | cons h0 _ ih => exact .cons h0 ih

theorem step_sim {D : Type} [LinearOrder D] [Zero D] {w : World D} {sw : SpecWorld D}
    (h : MatchInv w sw) (c : Call D) : Sim MatchInv (step w c) (specStep sw c) := by
  cases c with
  | createProblem =>
    exact ⟨forall₂_snoc h.problems ⟨_, live_init⟩, h.stock, h.log⟩
  | freeProblem k =>
    cases k with
    | none => exact h
    | some k =>
      simp only [step, specStep]
      rcases forall₂_get h.problems k with ⟨e1, e2⟩ | ⟨p, ⟨l, b⟩, e1, e2, hpq⟩
      · rw [e1, e2]; rfl
      · rw [e1, e2]
        cases p with
        | freed c d => cases b with
          | true => exact hpq.elim
          | false => rfl
        | live s costs losses => cases b with
          | false => exact hpq.elim
          | true =>
            obtain ⟨sp, hl⟩ := hpq
            exact ⟨forall₂_set h.problems k hl.free, h.stock, h.log⟩
  | createStock f =>
    have hok : ∀ f, Sim MatchInv (.ok { w with stock := w.stock ++ [some f] } : Except Err (World D))
        (.ok { sw with stock := sw.stock ++ [some f] }) :=
      fun f => ⟨h.problems, by simp only [h.stock], h.log⟩
    cases f with
    | tolerant a b =>
      simp only [step, specStep, constructible, Bool.and_eq_true, decide_eq_true_eq]
      by_cases hab : 0 ≤ a ∧ 0 < b
      · rw [if_pos hab, if_pos hab]; exact hok _
      · rw [if_neg hab, if_neg hab]; rfl
    | huber a => exact hok _
    | softl1 a => exact hok _
    | cauchy a => exact hok _
    | arctan a => exact hok _
  | freeStock d =>
    cases d with
    | none => exact h
    | some d =>
      simp only [step, specStep, h.stock]
      cases hd : sw.stock[d]? with
      | none => rfl
      | some f => cases f with
        | none => rfl
        | some f => exact ⟨h.problems, rfl, h.log⟩
  | add k cost lf ld nr blocks =>
    simp only [step, specStep]
    rcases forall₂_get h.problems k with ⟨e1, e2⟩ | ⟨p, ⟨l, b⟩, e1, e2, hpq⟩
    · rw [e1, e2]; rfl
    · rw [e1, e2]
      cases p with
      | freed c d => cases b with
        | true => exact hpq.elim
        | false => rfl
      | live s costs losses => cases b with
        | false => exact hpq.elim
        | true =>
          obtain ⟨sp, hl⟩ := hpq
          obtain ⟨g1, g2⟩ := live_add hl cost lf ld nr blocks
          simp only
          by_cases hc : (blocks.map (·.1)).Nodup ∧ Compatible (blocksOf l ++ blocks)
          · obtain ⟨s', c', l', sp', e, hl'⟩ := g1 hc
            rw [e, if_pos hc]
            exact ⟨forall₂_set h.problems k ⟨sp', hl'⟩, h.stock, h.log⟩
          · rw [g2 hc, if_neg hc]; rfl
  | solve k what =>
    simp only [step, specStep]
    rcases forall₂_get h.problems k with ⟨e1, e2⟩ | ⟨p, ⟨l, b⟩, e1, e2, hpq⟩
    · rw [e1, e2]; rfl
    · rw [e1, e2]
      cases p with
      | freed c d => cases b with
        | true => exact hpq.elim
        | false => rfl
      | live s costs losses => cases b with
        | false => exact hpq.elim
        | true =>
          obtain ⟨sp, hl⟩ := hpq
          simp only [h.stock, evaluations_eq sw.stock hl]
          cases specEvaluations sw.stock l what with
          | error e => rfl
          | ok e => exact ⟨h.problems, rfl, by simp only [h.log]⟩

theorem run_sim {D : Type} [LinearOrder D] [Zero D] (calls : List (Call D)) :
    ∀ {w : World D} {sw : SpecWorld D}, MatchInv w sw →
      Sim MatchInv (run w calls) (specRun sw calls) := by
  induction calls with
  | nil => intro w sw h; exact h
  | cons c cs ih =>
    intro w sw h
    exact Sim.bind (step_sim h c) (fun _ _ _ _ h' => ih h')

/-- **C99.**  Every history of calls of the C interface, on any number of problems, stops at
the same call and in the same way as the specification, or ends with the same calls of the
callbacks of the user, the same live stock data, and problems that hold what was added to
them, or have deleted every wrapper once if they were freed. -/
theorem c_history {D : Type} [LinearOrder D] [Zero D] (calls : List (Call D)) :
    match run World.empty calls, specRun (⟨[], [], []⟩ : SpecWorld D) calls with
    | .ok w, .ok sw => Match w sw
    | .error e, .error e' => e = e'
    | _, _ => False := by
  have := run_sim calls (w := World.empty) (sw := (⟨[], [], []⟩ : SpecWorld D))
    ⟨.nil, rfl, rfl⟩
  cases h1 : run World.empty calls <;> cases h2 : specRun (⟨[], [], []⟩ : SpecWorld D) calls <;>
    rw [h1, h2] at this
  · exact this
  · exact this.elim
  · exact this.elim
  · refine ⟨this.problems.length_eq, ?_, this.stock, this.log⟩
    intro k p q hp hq
    rcases forall₂_get this.problems k with ⟨e1, e2⟩ | ⟨p', q', e1, e2, hpq⟩
    · rw [e1] at hp; cases hp
    · rw [e1] at hp; rw [e2] at hq
      cases hp; cases hq
      exact hpq.holds

end Ceres.CApi
