import Verif.Program.State
import Verif.Program.Reduce
import Mathlib.Order.Lattice
import Mathlib.Order.MinMax
import Mathlib.Data.List.Nodup
import Mathlib.Data.List.Perm.Basic

/-!
# C07 and C08: steps, bounds and feasibility
-/
namespace Ceres.Program

variable {α : Type}

/-! ### Specification -/

/-- The bound arrays, when present, have one entry per coordinate, and the manifold's `Plus`
returns as many coordinates as the block has. -/
structure PB.WF (b : PB α) : Prop where
  lower : ∀ l, b.lower = some l → l.length = b.size
  upper : ∀ u, b.upper = some u → u.length = b.size
  plus : ∀ mf, b.manifold = some mf → ∀ x d y, x.length = b.size → d.length = mf.tangent →
    mf.plus x d = some y → y.length = b.size

/-- Lower bound of coordinate `j`, if the block has lower bounds. -/
def PB.lo? (b : PB α) (j : Nat) : Option α := b.lower.bind (·[j]?)

/-- Upper bound of coordinate `j`, if the block has upper bounds. -/
def PB.hi? (b : PB α) (j : Nat) : Option α := b.upper.bind (·[j]?)

/-- `y` satisfies the bounds of coordinate `j`. -/
def PB.InBounds [LE α] (b : PB α) (j : Nat) (y : α) : Prop :=
  (∀ l, b.lo? j = some l → l ≤ y) ∧ (∀ u, b.hi? j = some u → y ≤ u)

/-- No coordinate's upper bound is below its lower bound. -/
def PB.NonEmpty [LE α] (b : PB α) : Prop :=
  ∀ j l u, b.lo? j = some l → b.hi? j = some u → l ≤ u

/-- The unprojected step: manifold `Plus`, or addition. -/
def PB.rawPlus [Add α] (b : PB α) (x d : List α) : Option (List α) :=
  match b.manifold with
  | some mf => mf.plus x d
  | none => some (x.zipWith (· + ·) d)

/-- `y` is the coordinate-wise projection of `z` onto the block's box: it is in the box, and it
is `z` if `z` is in the box, the violated bound otherwise. -/
def PB.IsProjection [LinearOrder α] (b : PB α) (z y : List α) : Prop :=
  y.length = z.length ∧ ∀ (j : Nat) (zj yj : α), z[j]? = some zj → y[j]? = some yj →
    b.InBounds j yj ∧ (b.InBounds j zj → yj = zj) ∧
    (∀ l, b.lo? j = some l → zj < l → yj = l) ∧ (∀ u, b.hi? j = some u → u < zj → yj = u)

/-! ### Projection -/

variable [LinearOrder α]

theorem clampAll_some (x l u : List α) (hl : l.length = x.length) (hu : u.length = x.length)
    (h : ∀ (j : Nat) (a b : α), l[j]? = some a → u[j]? = some b → a ≤ b) :
    ∃ r, clampAll x l u = some r ∧ r.length = x.length ∧
      ∀ (j : Nat) (xj lj uj rj : α), x[j]? = some xj → l[j]? = some lj → u[j]? = some uj →
        r[j]? = some rj → rj = if xj < lj then lj else if uj < xj then uj else xj := by
  induction x generalizing l u with
  | nil => exact ⟨[], by cases l <;> rfl, rfl, by intro j; simp⟩
  | cons a x ih =>
    cases l with
    | nil => simp at hl
    | cons lj l =>
      cases u with
      | nil => simp at hu
      | cons uj u =>
        obtain ⟨r, hr, hlen, hget⟩ := ih l u (by simpa using hl) (by simpa using hu)
          (fun j a b ha hb => h (j + 1) a b (by simpa using ha) (by simpa using hb))
        have h0 : lj ≤ uj := h 0 lj uj rfl rfl
        refine ⟨_, by simp only [clampAll]; rw [if_neg (not_lt.2 h0), hr], by simp [hlen], ?_⟩
        intro j xj l' u' rj h1 h2 h3 h4
        cases j with
        | zero =>
          simp only [List.getElem?_cons_zero, Option.some.injEq] at h1 h2 h3 h4
          subst h1 h2 h3 h4
          rfl
        | succ j =>
          simp only [List.getElem?_cons_succ] at h1 h2 h3 h4
          exact hget j xj l' u' rj h1 h2 h3 h4

theorem clampAll_none (x l u : List α) (hl : l.length = x.length) (hu : u.length = x.length)
    (h : ∃ (j : Nat) (a b : α), l[j]? = some a ∧ u[j]? = some b ∧ b < a) :
    clampAll x l u = none := by
  induction x generalizing l u with
  | nil =>
    obtain ⟨j, a, b, h1, -⟩ := h
    rw [List.length_eq_zero_iff.1 hl] at h1
    simp at h1
  | cons a x ih =>
    cases l with
    | nil => simp at hl
    | cons lj l =>
      cases u with
      | nil => simp at hu
      | cons uj u =>
        simp only [clampAll]
        split
        · rfl
        · rename_i hlt
          obtain ⟨j, a', b', h1, h2, h3⟩ := h
          cases j with
          | zero =>
            simp only [List.getElem?_cons_zero, Option.some.injEq] at h1 h2
            subst h1 h2
            exact absurd h3 hlt
          | succ j =>
            simp only [List.getElem?_cons_succ] at h1 h2
            rw [ih l u (by simpa using hl) (by simpa using hu) ⟨j, a', b', h1, h2, h3⟩]

theorem project_ok (b : PB α) (hwf : b.WF) (hne : b.NonEmpty) (z : List α)
    (hz : z.length = b.size) : ∃ y, b.project z = .ok y ∧ b.IsProjection z y := by
  unfold PB.project
  cases hl : b.lower with
  | none =>
    cases hu : b.upper with
    | none =>
      refine ⟨z, rfl, rfl, ?_⟩
      intro j zj yj h1 h2
      rw [h1, Option.some.injEq] at h2
      subst h2
      simp [PB.InBounds, PB.lo?, PB.hi?, hl, hu]
    | some u =>
      have hul := hwf.upper u hu
      refine ⟨_, rfl, by simp [hul, hz], ?_⟩
      intro j zj yj h1 h2
      rw [List.getElem?_zipWith, h1] at h2
      cases hj : u[j]? with
      | none => rw [hj] at h2; simp at h2
      | some uj =>
        rw [hj] at h2
        simp only [Option.some.injEq] at h2
        simp only [PB.InBounds, PB.lo?, PB.hi?, hl, hu, Option.bind_none, Option.bind_some, hj]
        subst h2
        by_cases hc : uj < zj
        · simp [hc]
        · simp [hc, not_lt.1 hc]
  | some l =>
    have hll := hwf.lower l hl
    cases hu : b.upper with
    | none =>
      refine ⟨_, rfl, by simp [hll, hz], ?_⟩
      intro j zj yj h1 h2
      rw [List.getElem?_zipWith, h1] at h2
      cases hj : l[j]? with
      | none => rw [hj] at h2; simp at h2
      | some lj =>
        rw [hj] at h2
        simp only [Option.some.injEq] at h2
        simp only [PB.InBounds, PB.lo?, PB.hi?, hl, hu, Option.bind_none, Option.bind_some, hj]
        subst h2
        by_cases hc : zj < lj
        · simp [hc]
        · simp [hc, not_lt.1 hc]
    | some u =>
      have hul := hwf.upper u hu
      obtain ⟨r, hr, hlen, hget⟩ := clampAll_some z l u (by omega) (by omega) (by
        intro j a c ha hc
        exact hne j a c (by simp [PB.lo?, hl, ha]) (by simp [PB.hi?, hu, hc]))
      refine ⟨r, by simp only [hr], hlen, ?_⟩
      intro j zj yj h1 h2
      have hjl : j < z.length := (List.getElem?_eq_some_iff.1 h1).1
      have h3 := List.getElem?_eq_getElem (l := l) (show j < l.length by omega)
      have h4 := List.getElem?_eq_getElem (l := u) (show j < u.length by omega)
      have he := hget j zj _ _ yj h1 h3 h4 h2
      have hle := hne j _ _ (by simp only [PB.lo?, hl, Option.bind_some]; exact h3)
        (by simp only [PB.hi?, hu, Option.bind_some]; exact h4)
      generalize l[j] = lj at h3 he hle
      generalize u[j] = uj at h4 he hle
      simp only [PB.InBounds, PB.lo?, PB.hi?, hl, hu, Option.bind_some, h3, h4,
        Option.some.injEq, forall_eq']
      by_cases hc : zj < lj
      · rw [if_pos hc] at he
        subst he
        refine ⟨⟨le_refl _, hle⟩, fun h => absurd h.1 (not_le.2 hc), fun _ => rfl, ?_⟩
        intro hlt
        exact absurd (lt_trans hlt hc) (not_lt.2 hle)
      · rw [if_neg hc] at he
        by_cases hc2 : uj < zj
        · rw [if_pos hc2] at he
          subst he
          exact ⟨⟨hle, le_refl _⟩, fun h => absurd h.2 (not_le.2 hc2), fun h => absurd h hc,
            fun _ => rfl⟩
        · rw [if_neg hc2] at he
          subst he
          exact ⟨⟨not_lt.1 hc, not_lt.1 hc2⟩, fun _ => rfl, fun h => absurd h hc,
            fun h => absurd h hc2⟩

/-- **C07 (one block).**  For a block whose bound intervals are non-empty, `Plus` fails exactly
when the manifold's `Plus` fails, and otherwise returns the projection of the unprojected step
onto the bounds. -/
theorem plus_block_spec [Add α] (b : PB α) (hwf : b.WF) (hne : b.NonEmpty) (x d : List α)
    (hx : x.length = b.size) (hd : d.length = b.tangentSize) :
    match b.rawPlus x d with
    | none => b.plus x d = .fail
    | some z => ∃ y, b.plus x d = .ok y ∧ y.length = b.size ∧ b.IsProjection z y := by
  unfold PB.rawPlus PB.plus
  cases hm : b.manifold with
  | none =>
    have hd' : d.length = b.size := by simpa [PB.tangentSize, hm] using hd
    obtain ⟨y, h1, h2⟩ := project_ok b hwf hne (x.zipWith (· + ·) d) (by simp [hx, hd'])
    exact ⟨y, h1, by rw [h2.1]; simp [hx, hd'], h2⟩
  | some mf =>
    have hd' : d.length = mf.tangent := by simpa [PB.tangentSize, hm] using hd
    simp only
    cases hp : mf.plus x d with
    | none => rfl
    | some z =>
      have hz := hwf.plus mf hm x d z hx hd' hp
      obtain ⟨y, h1, h2⟩ := project_ok b hwf hne z hz
      exact ⟨y, h1, by rw [h2.1, hz], h2⟩

/-- **C07 (undefined behaviour).**  If a block has both kinds of bounds and some upper bound is
below the lower bound of the same coordinate, `Plus` calls `std::clamp` outside its contract
whenever the manifold's `Plus` succeeds: non-emptiness in `plus_block_spec` is needed. -/
theorem plus_block_ub [Add α] (b : PB α) (hwf : b.WF) (x d z : List α)
    (hx : x.length = b.size) (hd : d.length = b.tangentSize) (hz : b.rawPlus x d = some z)
    (h : ¬ b.NonEmpty) : b.plus x d = .ub := by
  have hzl : z.length = b.size := by
    unfold PB.rawPlus at hz
    cases hm : b.manifold with
    | none =>
      rw [hm] at hz
      have hd' : d.length = b.size := by simpa [PB.tangentSize, hm] using hd
      simp only [Option.some.injEq] at hz
      simp [← hz, hx, hd']
    | some mf =>
      rw [hm] at hz
      exact hwf.plus mf hm x d z hx (by simpa [PB.tangentSize, hm] using hd) hz
  have hpj : b.project z = .ub := by
    unfold PB.NonEmpty at h
    push Not at h
    obtain ⟨j, l, u, h1, h2, h3⟩ := h
    unfold PB.project
    unfold PB.lo? at h1
    unfold PB.hi? at h2
    cases hl : b.lower with
    | none => rw [hl] at h1; simp at h1
    | some ll =>
      cases hu : b.upper with
      | none => rw [hu] at h2; simp at h2
      | some uu =>
        rw [hl] at h1
        rw [hu] at h2
        have := clampAll_none z ll uu (by rw [hwf.lower ll hl, hzl])
          (by rw [hwf.upper uu hu, hzl]) ⟨j, l, u, h1, h2, h3⟩
        simp only [this]
  unfold PB.rawPlus at hz
  unfold PB.plus
  cases hm : b.manifold with
  | none => rw [hm] at hz; simp only [Option.some.injEq] at hz; rw [hz]; exact hpj
  | some mf => rw [hm] at hz; simp only at hz ⊢; rw [hz]; exact hpj

/-! ### The parallel loop -/

/-- The result of block `b` on its own slices. -/
def blockPlus [Add α] (b : PB α) (state delta : Mem α) : PlusRes α :=
  b.plus (readMem state b.stateOff b.size) (readMem delta b.deltaOff b.tangentSize)

theorem run_mono [Add α] {bs : List (PB α)} {st dl : Mem α} {ids : List Nat}
    {s s' : PlusState α} (h : PlusRun bs st dl ids s s') :
    (s.abort = true → s'.abort = true) ∧ (s.ub = true → s'.ub = true) := by
  induction h with
  | nil s => exact ⟨id, id⟩
  | exec i b rest s s' hb hr ih =>
    have : (s.abort = true → (plusBody b st dl s).abort = true) ∧
        (s.ub = true → (plusBody b st dl s).ub = true) := by
      unfold plusBody
      split <;> simp
    exact ⟨fun h => ih.1 (this.1 h), fun h => ih.2 (this.2 h)⟩
  | skip i rest s s' ha hr ih => exact ih

theorem run_spec [Add α] {bs : List (PB α)} {st dl : Mem α}
    (hdis : ∀ (i j : Nat) (b c : PB α), bs[i]? = some b → bs[j]? = some c → i ≠ j →
      Apart b.stateOff b.size c.stateOff c.size)
    (hlen : ∀ b ∈ bs, ∀ r, blockPlus b st dl = .ok r → r.length = b.size)
    {ids : List Nat} {s s' : PlusState α} (h : PlusRun bs st dl ids s s') (hnd : ids.Nodup) :
    (s'.abort = true → s.abort = true ∨ ∃ i ∈ ids, ∃ b, bs[i]? = some b ∧
      blockPlus b st dl = .fail) ∧
    (s'.ub = true → s.ub = true ∨ ∃ i ∈ ids, ∃ b, bs[i]? = some b ∧
      blockPlus b st dl = .ub) ∧
    (s'.abort = false → s'.ub = false → ∀ i ∈ ids, ∃ b r, bs[i]? = some b ∧
      blockPlus b st dl = .ok r ∧ readMem s'.out b.stateOff b.size = r) ∧
    (∀ a, (∀ i ∈ ids, ∀ b, bs[i]? = some b → a < b.stateOff ∨ b.stateOff + b.size ≤ a) →
      s'.out a = s.out a) := by
  induction h with
  | nil s =>
    exact ⟨fun h => Or.inl h, fun h => Or.inl h, by simp, fun _ _ => rfl⟩
  | exec i b rest s s' hb hr ih =>
    obtain ⟨hni, hnr⟩ := List.nodup_cons.1 hnd
    obtain ⟨i1, i2, i3, i4⟩ := ih hnr
    have hbm := List.mem_of_getElem? hb
    have hout : ∀ a, (a < b.stateOff ∨ b.stateOff + b.size ≤ a) →
        (plusBody b st dl s).out a = s.out a := by
      intro a ha
      have hl := hlen b hbm
      unfold blockPlus at hl
      unfold plusBody
      split
      · rename_i r hr'
        exact writeMem_out _ _ _ _ (by rw [hl r hr']; exact ha)
      · rfl
      · rfl
    refine ⟨?_, ?_, ?_, ?_⟩
    · intro h
      rcases i1 h with h1 | ⟨j, hj, c, hc, hf⟩
      · by_cases hf : blockPlus b st dl = .fail
        · exact Or.inr ⟨i, List.mem_cons_self .., b, hb, hf⟩
        · left
          unfold blockPlus at hf
          unfold plusBody at h1
          split at h1
          · exact h1
          · rename_i hx; exact absurd hx hf
          · exact h1
      · exact Or.inr ⟨j, List.mem_cons_of_mem _ hj, c, hc, hf⟩
    · intro h
      rcases i2 h with h1 | ⟨j, hj, c, hc, hf⟩
      · by_cases hf : blockPlus b st dl = .ub
        · exact Or.inr ⟨i, List.mem_cons_self .., b, hb, hf⟩
        · left
          unfold blockPlus at hf
          unfold plusBody at h1
          split at h1
          · exact h1
          · exact h1
          · rename_i hx; exact absurd hx hf
      · exact Or.inr ⟨j, List.mem_cons_of_mem _ hj, c, hc, hf⟩
    · intro ha hu j hj
      rcases List.mem_cons.1 hj with rfl | hj'
      · have hm := run_mono hr
        have hbp : ∃ r, blockPlus b st dl = .ok r := by
          cases hf : blockPlus b st dl with
          | ok r => exact ⟨r, rfl⟩
          | fail =>
            have : (plusBody b st dl s).abort = true := by
              unfold blockPlus at hf
              unfold plusBody
              rw [hf]
            rw [hm.1 this] at ha; cases ha
          | ub =>
            have : (plusBody b st dl s).ub = true := by
              unfold blockPlus at hf
              unfold plusBody
              rw [hf]
            rw [hm.2 this] at hu; cases hu
        obtain ⟨r, hbp⟩ := hbp
        refine ⟨b, r, hb, hbp, ?_⟩
        have hrl := hlen b hbm r hbp
        apply List.ext_getElem
        · rw [readMem_length, hrl]
        · intro k h1 h2
          rw [readMem_get, i4]
          · unfold blockPlus at hbp
            unfold plusBody
            rw [hbp]
            exact writeMem_in _ _ _ _ h2
          · intro j' hj' c hc
            have hne : j' ≠ j := fun e => hni (e ▸ hj')
            rw [readMem_length] at h1
            rcases hdis j j' b c hb hc (Ne.symm hne) with h | h <;> omega
      · exact i3 ha hu j hj'
    · intro a ha
      rw [i4 a (fun j hj c hc => ha j (List.mem_cons_of_mem _ hj) c hc),
        hout a (ha i (List.mem_cons_self ..) b hb)]
  | skip i rest s s' hab hr ih =>
    obtain ⟨hni, hnr⟩ := List.nodup_cons.1 hnd
    obtain ⟨i1, i2, i3, i4⟩ := ih hnr
    refine ⟨fun _ => Or.inl hab, ?_, ?_, ?_⟩
    · intro h
      rcases i2 h with h1 | ⟨j, hj, c, hc, hf⟩
      · exact Or.inl h1
      · exact Or.inr ⟨j, List.mem_cons_of_mem _ hj, c, hc, hf⟩
    · intro ha
      rw [(run_mono hr).1 hab] at ha; cases ha
    · intro a ha
      exact i4 a (fun j hj c hc => ha j (List.mem_cons_of_mem _ hj) c hc)

/-- **C07.**  Take any program (offsets set), any state and step vectors, and any parallel
execution of the step: the block ids in any order, skipped blocks only after a failure.  If
every bound interval is non-empty then no undefined behaviour occurs, the step succeeds
exactly when every block's manifold succeeds on its own slices, and on success the output
slice of every block is the projection onto its bounds of the unprojected step of its own
slices, with no cell outside the vector touched. -/
theorem program_plus_spec [Add α] (bs0 : List (PB α)) (state delta out0 : Mem α)
    (ids : List Nat) (s' : PlusState α)
    (hwf : ∀ b ∈ bs0, b.WF) (hne : ∀ b ∈ bs0, b.NonEmpty)
    (hids : ids.Perm (List.range bs0.length))
    (hrun : PlusRun (setOffsets bs0 0 0 0) state delta ids ⟨out0, false, false⟩ s') :
    s'.ub = false ∧
    (s'.abort = false ↔ ∀ (i : Nat) (b : PB α), bs0[i]? = some b →
      (b.rawPlus (readMem state (offsetOf bs0 PB.size i) b.size)
        (readMem delta (offsetOf bs0 PB.tangentSize i) b.tangentSize)).isSome) ∧
    (s'.abort = false → ∀ (i : Nat) (b : PB α) (z : List α), bs0[i]? = some b →
      b.rawPlus (readMem state (offsetOf bs0 PB.size i) b.size)
        (readMem delta (offsetOf bs0 PB.tangentSize i) b.tangentSize) = some z →
      b.IsProjection z (readMem s'.out (offsetOf bs0 PB.size i) b.size)) ∧
    (∀ a, (bs0.map PB.size).sum ≤ a → s'.out a = out0 a) := by
  obtain ⟨hl, hget⟩ := setOffsets_spec bs0
  have hinv : ∀ (i : Nat) (c : PB α), (setOffsets bs0 0 0 0)[i]? = some c →
      ∃ b, bs0[i]? = some b ∧ c = { b with
        index := (i : Int)
        stateOff := offsetOf bs0 PB.size i
        deltaOff := offsetOf bs0 PB.tangentSize i } := by
    intro i c hc
    have hi : i < bs0.length := by
      have := (List.getElem?_eq_some_iff.1 hc).1
      omega
    have h1 := List.getElem?_eq_getElem hi
    have h2 := hget i _ h1
    rw [hc, Option.some.injEq] at h2
    exact ⟨_, h1, h2⟩
  have hdis : ∀ (i j : Nat) (b c : PB α), (setOffsets bs0 0 0 0)[i]? = some b →
      (setOffsets bs0 0 0 0)[j]? = some c → i ≠ j →
      Apart b.stateOff b.size c.stateOff c.size := by
    intro i j b c hb hc hij
    obtain ⟨b0, hb0, rfl⟩ := hinv i b hb
    obtain ⟨c0, hc0, rfl⟩ := hinv j c hc
    exact (slices_disjoint bs0 PB.size i j b0 c0 hb0 hc0 hij).1
  -- value of a block in terms of the original block
  have hval : ∀ (i : Nat) (b : PB α), bs0[i]? = some b → ∀ c : PB α,
      (setOffsets bs0 0 0 0)[i]? = some c →
      blockPlus c state delta = b.plus (readMem state (offsetOf bs0 PB.size i) b.size)
        (readMem delta (offsetOf bs0 PB.tangentSize i) b.tangentSize) := by
    intro i b hb c hc
    obtain ⟨b', hb', rfl⟩ := hinv i c hc
    rw [hb, Option.some.injEq] at hb'
    subst hb'
    rfl
  have hspec : ∀ (i : Nat) (b : PB α), bs0[i]? = some b → _ :=
    fun i b hb => plus_block_spec b (hwf b (List.mem_of_getElem? hb))
      (hne b (List.mem_of_getElem? hb))
      (readMem state (offsetOf bs0 PB.size i) b.size)
      (readMem delta (offsetOf bs0 PB.tangentSize i) b.tangentSize)
      (readMem_length ..) (readMem_length ..)
  have hlen : ∀ c ∈ setOffsets bs0 0 0 0, ∀ r, blockPlus c state delta = .ok r →
      r.length = c.size := by
    intro c hc r hr
    obtain ⟨i, hi⟩ := List.mem_iff_getElem?.1 hc
    obtain ⟨b, hb, hcb⟩ := hinv i c hi
    have h1 := hval i b hb c hi
    have h2 := hspec i b hb
    rw [hr] at h1
    have hs : c.size = b.size := by rw [hcb]
    rw [hs]
    split at h2
    · rw [h2] at h1; cases h1
    · obtain ⟨y, hy, hyl, -⟩ := h2
      rw [hy] at h1
      cases h1
      exact hyl
  have hnd : ids.Nodup := hids.nodup_iff.2 List.nodup_range
  have hmem : ∀ (i : Nat) (b : PB α), bs0[i]? = some b → i ∈ ids := by
    intro i b hb
    rw [hids.mem_iff, List.mem_range]
    exact (List.getElem?_eq_some_iff.1 hb).1
  obtain ⟨r1, r2, r3, r4⟩ := run_spec hdis hlen hrun hnd
  have hub : s'.ub = false := by
    cases hu : s'.ub with
    | false => rfl
    | true =>
      rcases r2 hu with h | ⟨i, hi, c, hc, hcu⟩
      · cases h
      · obtain ⟨b, hb, -⟩ := hinv i c hc
        have h1 := hval i b hb c hc
        have h2 := hspec i b hb
        rw [hcu] at h1
        split at h2
        · rw [h2] at h1; cases h1
        · obtain ⟨y, hy, -⟩ := h2
          rw [hy] at h1; cases h1
  refine ⟨hub, ⟨?_, ?_⟩, ?_, ?_⟩
  · intro ha i b hb
    obtain ⟨c, r, hc, hok, -⟩ := r3 ha hub i (hmem i b hb)
    have h1 := hval i b hb c hc
    have h2 := hspec i b hb
    rw [hok] at h1
    split at h2
    · rw [h2] at h1; cases h1
    · rename_i z hz
      rw [hz]; rfl
  · intro h
    cases ha : s'.abort with
    | false => rfl
    | true =>
      rcases r1 ha with h' | ⟨i, hi, c, hc, hcf⟩
      · cases h'
      · obtain ⟨b, hb, -⟩ := hinv i c hc
        have h1 := hval i b hb c hc
        have h2 := hspec i b hb
        have h3 := h i b hb
        rw [hcf] at h1
        split at h2
        · rename_i hn; rw [hn] at h3; cases h3
        · obtain ⟨y, hy, -⟩ := h2
          rw [hy] at h1; cases h1
  · intro ha i b z hb hz
    obtain ⟨c, r, hc, hok, hread⟩ := r3 ha hub i (hmem i b hb)
    have h1 := hval i b hb c hc
    have h2 := hspec i b hb
    rw [hok] at h1
    rw [hz] at h2
    obtain ⟨y, hy, -, hp⟩ := h2
    rw [hy] at h1
    cases h1
    obtain ⟨b', hb', rfl⟩ := hinv i c hc
    rw [hb, Option.some.injEq] at hb'
    subst hb'
    simp only at hread
    rw [hread]
    exact hp
  · intro a ha
    rw [r4 a]
    intro i hi c hc
    obtain ⟨b, hb, rfl⟩ := hinv i c hc
    right
    have hlt : i < bs0.length := (List.getElem?_eq_some_iff.1 hb).1
    have h6 := offsetOf_mono bs0 PB.size (show i + 1 ≤ bs0.length from hlt)
    rw [offsetOf_succ bs0 PB.size i _ hb] at h6
    have h7 : offsetOf bs0 PB.size bs0.length = (bs0.map PB.size).sum := by
      unfold offsetOf; rw [List.take_length]
    simp only
    omega

/-- Non-vacuity: two blocks, the second bounded to at most 5; executed in reverse order. -/
def boundedPB : PB Int := { plainPB 20 1 with upper := some [5] }

example : PlusRun (setOffsets [plainPB 10 2, boundedPB] 0 0 0) (fun a => (a : Int)) (fun _ => 7)
    [1, 0] ⟨fun _ => 0, false, false⟩
    (plusBody { plainPB 10 2 with index := 0 } (fun a => (a : Int)) (fun _ => 7)
      (plusBody { boundedPB with
          index := 1
          stateOff := 2
          deltaOff := 2 } (fun a => (a : Int)) (fun _ => 7)
        ⟨fun _ => 0, false, false⟩)) :=
  .exec 1 _ _ _ _ rfl (.exec 0 _ _ _ _ rfl (.nil _))

example : readMem (plusBody { plainPB 10 2 with index := 0 } (fun a => (a : Int)) (fun _ => 7)
      (plusBody { boundedPB with
          index := 1
          stateOff := 2
          deltaOff := 2 } (fun a => (a : Int)) (fun _ => 7)
        ⟨fun _ => 0, false, false⟩)).out 0 3 = [7, 8, 5] := by decide

example : ∀ b ∈ [plainPB 10 2, boundedPB], b.WF ∧ b.NonEmpty := by
  intro b hb
  simp only [List.mem_cons, List.not_mem_nil, or_false] at hb
  rcases hb with rfl | rfl
  · exact ⟨⟨by simp [plainPB], by simp [plainPB], by simp [plainPB]⟩,
      by intro j l u h; simp [PB.lo?, plainPB] at h⟩
  · exact ⟨⟨by simp [boundedPB, plainPB], by simp [boundedPB, plainPB],
      by simp [boundedPB, plainPB]⟩, by intro j l u h; simp [PB.lo?, boundedPB, plainPB] at h⟩

/-! ### C08 -/

/-- A fold of bound updates: `none` if one of them aborts. -/
def setUppers (big : α) (b : PB α) : List (Nat × α) → Option (PB α)
  | [] => some b
  | (i, v) :: ops =>
    match b.setUpper big i v with
    | none => none
    | some b' => setUppers big b' ops

/-- A fold of bound updates: `none` if one of them aborts. -/
def setLowers (nbig : α) (b : PB α) : List (Nat × α) → Option (PB α)
  | [] => some b
  | (i, v) :: ops =>
    match b.setLower nbig i v with
    | none => none
    | some b' => setLowers nbig b' ops

/-- The value most recently set for coordinate `j`, if any. -/
def lastSet (ops : List (Nat × α)) (j : Nat) : Option α :=
  (ops.reverse.find? (fun p => p.1 == j)).map Prod.snd

omit [LinearOrder α] in
theorem lastSet_cons (i : Nat) (v : α) (ops : List (Nat × α)) (j : Nat) :
    lastSet ((i, v) :: ops) j = (lastSet ops j).or (if i = j then some v else none) := by
  unfold lastSet
  rw [List.reverse_cons, List.find?_append]
  cases List.find? (fun p => p.1 == j) ops.reverse with
  | some p => simp
  | none =>
    by_cases h : i = j
    · simp [List.find?, h]
    · have : (i == j) = false := by simp [h]
      simp [List.find?, this, h]

theorem setUpper_spec (big : α) (b b' : PB α) (hwf : b.WF) (i : Nat) (v : α) (hv : v ≤ big)
    (h : b.setUpper big i v = some b') :
    b'.WF ∧ b'.size = b.size ∧ b'.isConstant = b.isConstant ∧
    (∀ nb j, b'.lowerAt nb j = b.lowerAt nb j) ∧
    (∀ j, b'.upperAt big j = if i = j then v else b.upperAt big j) := by
  unfold PB.setUpper at h
  by_cases hi : i < b.size
  · rw [if_pos hi] at h
    cases hu : b.upper with
    | none =>
      rw [hu] at h
      simp only at h
      split at h
      · rename_i hbv
        simp only [Option.some.injEq] at h
        subst h
        refine ⟨hwf, rfl, rfl, fun _ _ => rfl, ?_⟩
        intro j
        simp only [PB.upperAt, hu]
        split
        · exact le_antisymm hbv hv
        · rfl
      · simp only [Option.some.injEq] at h
        subst h
        refine ⟨⟨hwf.lower, by simp, hwf.plus⟩, rfl, rfl, fun _ _ => rfl, ?_⟩
        intro j
        simp only [PB.upperAt, hu]
        rw [List.getD_eq_getElem?_getD, List.getElem?_set]
        by_cases hij : i = j
        · subst hij; simp [hi]
        · simp only [if_neg hij, List.getElem?_replicate]
          split <;> rfl
    | some u =>
      rw [hu] at h
      simp only [Option.some.injEq] at h
      subst h
      have hul := hwf.upper u hu
      refine ⟨⟨hwf.lower, by simp [hul], hwf.plus⟩, rfl, rfl, fun _ _ => rfl, ?_⟩
      intro j
      simp only [PB.upperAt, hu]
      rw [List.getD_eq_getElem?_getD, List.getElem?_set, List.getD_eq_getElem?_getD]
      by_cases hij : i = j
      · subst hij; simp [hul, hi]
      · simp [hij]
  · rw [if_neg hi] at h; cases h

theorem setLower_spec (nbig : α) (b b' : PB α) (hwf : b.WF) (i : Nat) (v : α) (hv : nbig ≤ v)
    (h : b.setLower nbig i v = some b') :
    b'.WF ∧ b'.size = b.size ∧ b'.isConstant = b.isConstant ∧
    (∀ bg j, b'.upperAt bg j = b.upperAt bg j) ∧
    (∀ j, b'.lowerAt nbig j = if i = j then v else b.lowerAt nbig j) := by
  unfold PB.setLower at h
  by_cases hi : i < b.size
  · rw [if_pos hi] at h
    cases hu : b.lower with
    | none =>
      rw [hu] at h
      simp only at h
      split at h
      · rename_i hbv
        simp only [Option.some.injEq] at h
        subst h
        refine ⟨hwf, rfl, rfl, fun _ _ => rfl, ?_⟩
        intro j
        simp only [PB.lowerAt, hu]
        split
        · exact le_antisymm hv hbv
        · rfl
      · simp only [Option.some.injEq] at h
        subst h
        refine ⟨⟨by simp, hwf.upper, hwf.plus⟩, rfl, rfl, fun _ _ => rfl, ?_⟩
        intro j
        simp only [PB.lowerAt, hu]
        rw [List.getD_eq_getElem?_getD, List.getElem?_set]
        by_cases hij : i = j
        · subst hij; simp [hi]
        · simp only [if_neg hij, List.getElem?_replicate]
          split <;> rfl
    | some u =>
      rw [hu] at h
      simp only [Option.some.injEq] at h
      subst h
      have hul := hwf.lower u hu
      refine ⟨⟨by simp [hul], hwf.upper, hwf.plus⟩, rfl, rfl, fun _ _ => rfl, ?_⟩
      intro j
      simp only [PB.lowerAt, hu]
      rw [List.getD_eq_getElem?_getD, List.getElem?_set, List.getD_eq_getElem?_getD]
      by_cases hij : i = j
      · subst hij; simp [hul, hi]
      · simp [hij]
  · rw [if_neg hi] at h; cases h

/-- **C08 (upper bounds).**  After any sequence of upper-bound updates with representable
values on a block that had no upper bound, the bound of every coordinate is the last value set
for it, or the largest double if none was; the sequence aborts exactly when some index is out
of range. -/
theorem upperBounds_last_set (big : α) (b : PB α) (hwf : b.WF) (hno : b.upper = none)
    (ops : List (Nat × α)) (hv : ∀ p ∈ ops, p.2 ≤ big) :
    (setUppers big b ops = none ↔ ∃ p ∈ ops, b.size ≤ p.1) ∧
    ∀ b', setUppers big b ops = some b' → ∀ j, b'.upperAt big j = (lastSet ops j).getD big := by
  have key : ∀ (b : PB α), b.WF → 
      (setUppers big b ops = none ↔ ∃ p ∈ ops, b.size ≤ p.1) ∧
      ∀ b', setUppers big b ops = some b' → ∀ j,
        b'.upperAt big j = (lastSet ops j).getD (b.upperAt big j) := by
    clear hwf hno
    induction ops with
    | nil =>
      intro b _
      refine ⟨by simp [setUppers], ?_⟩
      intro b' h j
      simp only [setUppers, Option.some.injEq] at h
      subst h
      rfl
    | cons p ops ih =>
      obtain ⟨i, v⟩ := p
      intro b hwf
      have hv0 : v ≤ big := hv (i, v) (List.mem_cons_self ..)
      simp only [setUppers]
      cases hs : b.setUpper big i v with
      | none =>
        have hi : b.size ≤ i := by
          unfold PB.setUpper at hs
          by_contra hc
          rw [if_pos (by omega)] at hs
          split at hs
          · split at hs <;> cases hs
          · cases hs
        refine ⟨by simp [hi], ?_⟩
        intro b' h; cases h
      | some b1 =>
        obtain ⟨h1, h2, -, -, h3⟩ := setUpper_spec big b b1 hwf i v hv0 hs
        obtain ⟨i1, i2⟩ := ih (fun p hp => hv p (List.mem_cons_of_mem _ hp)) b1 h1
        have hi : i < b.size := by
          unfold PB.setUpper at hs
          by_contra hc
          rw [if_neg hc] at hs
          cases hs
        constructor
        · simp only [i1, h2, List.mem_cons, exists_eq_or_imp]
          constructor
          · exact fun h => Or.inr h
          · rintro (h | h)
            · omega
            · exact h
        · intro b' h j
          rw [i2 b' h j, h3 j, lastSet_cons]
          cases lastSet ops j with
          | some w => rfl
          | none => split <;> rfl
  obtain ⟨k1, k2⟩ := key b hwf
  refine ⟨k1, fun b' h j => ?_⟩
  rw [k2 b' h j]
  simp [PB.upperAt, hno]

/-- **C08 (lower bounds).**  The same for lower bounds, with the lowest double. -/
theorem lowerBounds_last_set (nbig : α) (b : PB α) (hwf : b.WF) (hno : b.lower = none)
    (ops : List (Nat × α)) (hv : ∀ p ∈ ops, nbig ≤ p.2) :
    (setLowers nbig b ops = none ↔ ∃ p ∈ ops, b.size ≤ p.1) ∧
    ∀ b', setLowers nbig b ops = some b' → ∀ j,
      b'.lowerAt nbig j = (lastSet ops j).getD nbig := by
  have key : ∀ (b : PB α), b.WF → 
      (setLowers nbig b ops = none ↔ ∃ p ∈ ops, b.size ≤ p.1) ∧
      ∀ b', setLowers nbig b ops = some b' → ∀ j,
        b'.lowerAt nbig j = (lastSet ops j).getD (b.lowerAt nbig j) := by
    clear hwf hno
    induction ops with
    | nil =>
      intro b _
      refine ⟨by simp [setLowers], ?_⟩
      intro b' h j
      simp only [setLowers, Option.some.injEq] at h
      subst h
      rfl
    | cons p ops ih =>
      obtain ⟨i, v⟩ := p
      intro b hwf
      have hv0 : nbig ≤ v := hv (i, v) (List.mem_cons_self ..)
      simp only [setLowers]
      cases hs : b.setLower nbig i v with
      | none =>
        have hi : b.size ≤ i := by
          unfold PB.setLower at hs
          by_contra hc
          rw [if_pos (by omega)] at hs
          split at hs
          · split at hs <;> cases hs
          · cases hs
        refine ⟨by simp [hi], ?_⟩
        intro b' h; cases h
      | some b1 =>
        obtain ⟨h1, h2, -, -, h3⟩ := setLower_spec nbig b b1 hwf i v hv0 hs
        obtain ⟨i1, i2⟩ := ih (fun p hp => hv p (List.mem_cons_of_mem _ hp)) b1 h1
        have hi : i < b.size := by
          unfold PB.setLower at hs
          by_contra hc
          rw [if_neg hc] at hs
          cases hs
        constructor
        · simp only [i1, h2, List.mem_cons, exists_eq_or_imp]
          constructor
          · exact fun h => Or.inr h
          · rintro (h | h)
            · omega
            · exact h
        · intro b' h j
          rw [i2 b' h j, h3 j, lastSet_cons]
          cases lastSet ops j with
          | some w => rfl
          | none => split <;> rfl
  obtain ⟨k1, k2⟩ := key b hwf
  refine ⟨k1, fun b' h j => ?_⟩
  rw [k2 b' h j]
  simp [PB.lowerAt, hno]

/-- A block the solver may not move: the user fixed it, or its manifold (the Euclidean space of
its own dimension by default) has no directions. -/
def PB.Held (b : PB α) : Prop :=
  b.setConst = true ∨ (b.manifold = none ∧ b.size = 0) ∨ ∃ mf, b.manifold = some mf ∧ mf.tangent = 0

omit [LinearOrder α] in
theorem PB.isConstant_iff (b : PB α) : b.isConstant = true ↔ b.Held := by
  unfold PB.isConstant PB.Held PB.tangentSize
  cases b.manifold <;> simp

omit [LinearOrder α] in
theorem PB.isConstant_false_iff (b : PB α) : b.isConstant = false ↔ ¬ b.Held := by
  rw [← PB.isConstant_iff]; simp

/-- **C08 (feasibility).**  A program is declared feasible exactly when every coordinate of
every held block has its current value within its bounds and every coordinate of every
other block has its lower bound strictly below its upper bound. -/
theorem isFeasible_iff (nbig big : α) (m : Mem α) (bs : List (PB α)) :
    isFeasible nbig big m bs = true ↔ ∀ b ∈ bs, ∀ j < b.size,
      (b.Held → b.lowerAt nbig j ≤ m (b.user + j) ∧
        m (b.user + j) ≤ b.upperAt big j) ∧
      (¬ b.Held → b.lowerAt nbig j < b.upperAt big j) := by
  simp only [← PB.isConstant_iff]
  unfold isFeasible
  rw [List.all_eq_true]
  apply forall_congr'
  intro b
  apply imp_congr_right
  intro _
  unfold PB.feasible
  cases hc : b.isConstant with
  | true =>
    simp [List.all_eq_true]
  | false =>
    simp [List.all_eq_true]

/-- **C08 (feasible ⇒ steps defined).**  A variable block of a feasible program has non-empty
bound intervals, so the hypotheses of the step theorem hold for it. -/
theorem feasible_nonEmpty (nbig big : α) (m : Mem α) (bs : List (PB α))
    (h : isFeasible nbig big m bs = true) (b : PB α) (hb : b ∈ bs) (hwf : b.WF)
    (hvar : ¬ b.Held) : b.NonEmpty := by
  intro j l u hl hu
  unfold PB.lo? at hl
  unfold PB.hi? at hu
  cases hL : b.lower with
  | none => rw [hL] at hl; simp at hl
  | some ll =>
    cases hU : b.upper with
    | none => rw [hU] at hu; simp at hu
    | some uu =>
      rw [hL] at hl
      rw [hU] at hu
      simp only [Option.bind_some] at hl hu
      have hj : j < b.size := by
        rw [← hwf.lower ll hL]
        exact (List.getElem?_eq_some_iff.1 hl).1
      have := ((isFeasible_iff nbig big m bs).1 h b hb j hj).2 hvar
      simp only [PB.lowerAt, PB.upperAt, hL, hU, List.getD_eq_getElem?_getD, hl, hu,
        Option.getD_some] at this
      exact le_of_lt this

/-- **C08 (constrained).**  A program is treated as bounds constrained exactly when some
coordinate of some variable block has a lower bound above the lowest double or an upper bound
below the largest. -/
theorem isBoundsConstrained_iff (nbig big : α) (bs : List (PB α)) :
    isBoundsConstrained nbig big bs = true ↔ ∃ b ∈ bs, ¬ b.Held ∧
      ∃ j < b.size, nbig < b.lowerAt nbig j ∨ b.upperAt big j < big := by
  simp only [← PB.isConstant_iff]
  unfold isBoundsConstrained
  simp [List.any_eq_true]

/-- **C08 (finding).**  Feasibility of a program says nothing about the current value of a
variable block: here the value 100 violates the upper bound 5. -/
theorem isFeasible_ignores_variable_values :
    ∃ (m : Mem Int) (b : PB Int), isFeasible (-1000) 1000 m [b] = true ∧
      ¬ b.Held ∧ b.upperAt 1000 0 < m (b.user + 0) :=
  ⟨fun _ => 100, boundedPB, by decide, by rw [← PB.isConstant_iff]; decide, by decide⟩

example : ∃ b', setUppers (1000 : Int) (plainPB 10 2) [(0, 3), (1, 4), (0, 7)] = some b' ∧
    b'.upperAt 1000 0 = 7 ∧ b'.upperAt 1000 1 = 4 := ⟨_, rfl, by decide, by decide⟩

example : isFeasible (-1000) 1000 (fun _ => 3) [boundedPB, constPB 0 2] = true ∧
    isFeasible (-1000) 1000 (fun _ => 6) [{ boundedPB with setConst := true }] = false := by
  decide

end Ceres.Program
