import Verif.Bounds.Model

/-! # Bounds follow the history of calls -/
namespace Ceres.Bounds

open Ceres.Problem

/-! ## Which block an address has -/

theorem ex_bind {ε α β : Type} {x : Except ε α} {f : α → Except ε β} {b : β} (h : (x >>= f) = .ok b) :
    ∃ a, x = .ok a ∧ f a = .ok b := by
  cases x with
  | ok a => exact ⟨a, rfl, h⟩
  | error e => cases h

/-- The map of the addresses is as it was. -/
def Keep (s s' : Problem.State) : Prop := s'.pmap = s.pmap ∧ s'.nextP = s.nextP

theorem Keep.refl (s : Problem.State) : Keep s s := ⟨rfl, rfl⟩
theorem Keep.trans {s t u : Problem.State} (h : Keep s t) (h' : Keep t u) : Keep s u :=
  ⟨h'.1.trans h.1, h'.2.trans h.2⟩

theorem addDeps_keep (ps : List ℕ) (r : ℕ) (s s' : Problem.State) (h : addDeps s ps r = .ok s') : Keep s s' := by
  induction ps generalizing s with
  | nil => cases h; exact Keep.refl _
  | cons p ps ih =>
    obtain ⟨s1, h1, h2⟩ := ex_bind h
    refine Keep.trans ?_ (ih s1 h2)
    unfold pbAddResidual at h1
    obtain ⟨b, -, h1⟩ := ex_bind h1
    split at h1
    · cases h1
    · cases h1; exact ⟨rfl, rfl⟩

theorem registerResidual_keep (env : Env) (s : Problem.State) (c : ℕ) (loss : Option ℕ) (ids : List ℕ)
    (x : Problem.State × ℕ) (h : registerResidual env s c loss ids = .ok x) : Keep s x.1 := by
  unfold registerResidual at h
  simp only at h
  by_cases hf : env.fastRemoval = true
  · rw [if_pos hf] at h
    obtain ⟨s3, h3, h⟩ := ex_bind h
    cases h
    have := addDeps_keep _ _ _ _ h3
    exact ⟨this.1, this.2⟩
  · rw [if_neg hf] at h
    cases h
    exact ⟨rfl, rfl⟩

theorem removeDeps_keep (ps : List ℕ) (r : ℕ) (s s' : Problem.State) (h : removeDeps s ps r = .ok s') :
    Keep s s' := by
  induction ps generalizing s with
  | nil => cases h; exact Keep.refl _
  | cons p ps ih =>
    obtain ⟨s1, h1, h2⟩ := ex_bind h
    refine Keep.trans ?_ (ih s1 h2)
    unfold pbRemoveResidual at h1
    obtain ⟨b, -, h1⟩ := ex_bind h1
    split at h1
    · cases h1
    · split_ifs at h1
      · cases h1; exact ⟨rfl, rfl⟩

theorem deleteResidual_keep (env : Env) (s s' : Problem.State) (r : ℕ) (h : deleteResidual env s r = .ok s') :
    Keep s s' := by
  unfold deleteResidual at h
  obtain ⟨rb, -, h⟩ := ex_bind h
  obtain ⟨s1, h1, h⟩ := ex_bind h
  obtain ⟨s2, h2, h⟩ := ex_bind h
  cases h
  have k1 : Keep s s1 := by
    unfold releaseCost at h1
    split_ifs at h1
    · obtain ⟨x, -, h1⟩ := ex_bind h1
      cases h1; exact ⟨rfl, rfl⟩
    · cases h1; exact Keep.refl s
  have k2 : Keep s1 s2 := by
    unfold releaseLoss at h2
    split at h2
    · cases h2; exact Keep.refl _
    · split_ifs at h2
      · obtain ⟨x, -, h2⟩ := ex_bind h2
        cases h2; exact ⟨rfl, rfl⟩
      · cases h2; exact Keep.refl _
  exact k1.trans k2

theorem deleteResidualInVector_keep (env : Env) (s s' : Problem.State) (r : ℕ)
    (h : deleteResidualInVector env s r = .ok s') : Keep s s' := by
  unfold deleteResidualInVector at h
  obtain ⟨rb, -, h⟩ := ex_bind h
  split at h
  · cases h
  · split_ifs at h
    split at h
    · cases h
    · obtain ⟨tb, -, h⟩ := ex_bind h
      obtain ⟨s3, h3, h⟩ := ex_bind h
      cases h
      have := deleteResidual_keep env _ _ _ h3
      exact ⟨this.1, this.2⟩

theorem internalRemove_keep (env : Env) (s s' : Problem.State) (r : ℕ)
    (h : internalRemoveResidualBlock env s r = .ok s') : Keep s s' := by
  unfold internalRemoveResidualBlock at h
  simp only at h
  split_ifs at h
  · obtain ⟨rb, -, h⟩ := ex_bind h
    obtain ⟨s0, h0, h⟩ := ex_bind h
    have k0 := removeDeps_keep _ _ _ _ h0
    split_ifs at h
    · obtain ⟨s1, h1, h⟩ := ex_bind h
      cases h1
      have := deleteResidualInVector_keep env _ _ _ h
      exact k0.trans ⟨this.1, this.2⟩
    · cases h
  · obtain ⟨s1, h1, h⟩ := ex_bind h
    cases h1
    exact deleteResidualInVector_keep env _ _ _ h

theorem removeAll_keep (env : Env) (rs : List ℕ) (s s' : Problem.State) (h : removeAll env s rs = .ok s') :
    Keep s s' := by
  induction rs generalizing s with
  | nil => cases h; exact Keep.refl _
  | cons r rs ih =>
    obtain ⟨s1, h1, h2⟩ := ex_bind h
    exact (internalRemove_keep env _ _ _ h1).trans (ih s1 h2)

theorem backwardScan_keep (env : Env) (p n : ℕ) (s s' : Problem.State) (h : backwardScan env p n s = .ok s') :
    Keep s s' := by
  induction n generalizing s with
  | zero => cases h; exact Keep.refl _
  | succ i ih =>
    unfold backwardScan at h
    split at h
    · cases h
    · obtain ⟨rb, -, h⟩ := ex_bind h
      simp only at h
      split_ifs at h
      · obtain ⟨s1, h1, h⟩ := ex_bind h
        exact (internalRemove_keep env _ _ _ h1).trans (ih s1 h)
      · exact ih s h

theorem removeDependents_keep (env : Env) (p : ℕ) (s s' : Problem.State)
    (h : removeDependents env s p = .ok s') : Keep s s' := by
  unfold removeDependents at h
  split_ifs at h
  · obtain ⟨b, -, h⟩ := ex_bind h
    split at h
    · cases h
    · exact removeAll_keep env _ _ _ h
  · exact backwardScan_keep env _ _ _ _ h

theorem setConst_keep (s s' : Problem.State) (a : ℕ) (c : Bool) (h : setConst s a c = .ok s') : Keep s s' := by
  unfold setConst at h
  split at h
  · cases h
  · obtain ⟨b, -, h⟩ := ex_bind h
    cases h; exact ⟨rfl, rfl⟩

theorem recordManifold_keep (env : Env) (s : Problem.State) (m : Option ℕ) : Keep s (recordManifold env s m) := by
  unfold recordManifold
  split
  · split_ifs
    · exact ⟨rfl, rfl⟩
    · exact Keep.refl s
  · exact Keep.refl s

theorem setManifold_keep (env : Env) (s s' : Problem.State) (a : ℕ) (m : Option ℕ) (ok : Bool)
    (h : setManifold env s a m ok = .ok s') : Keep s s' := by
  have hr := recordManifold_keep env s m
  unfold setManifold at h
  split at h
  · cases h
  · simp only at h
    obtain ⟨b, -, h⟩ := ex_bind h
    by_cases hm : m = b.manifold
    · rw [if_pos hm] at h; cases h; exact hr
    · rw [if_neg hm] at h
      split at h
      · cases h; exact ⟨hr.1, hr.2⟩
      · split_ifs at h
        cases h; exact ⟨hr.1, hr.2⟩

/-- Blocks have been added: every address has the block it had, and an address that has a block had it before, or had
none and the block is new. -/
structure Added (s s' : Problem.State) : Prop where
  next : s.nextP ≤ s'.nextP
  sorted : Sorted s'.pmap
  old : ∀ a p, mapFind s.pmap a = some p → mapFind s'.pmap a = some p
  new : ∀ a p, mapFind s'.pmap a = some p → mapFind s.pmap a = some p ∨ (mapFind s.pmap a = none ∧ s.nextP ≤ p)

theorem Keep.added {s s' : Problem.State} (h : Keep s s') (hs : Sorted s.pmap) : Added s s' :=
  ⟨Nat.le_of_eq h.2.symm, by rw [h.1]; exact hs, fun a p hp => by rw [h.1]; exact hp, fun a p hp => .inl (by rw [← h.1]; exact hp)⟩

theorem Added.trans {s t u : Problem.State} (h : Added s t) (h' : Added t u) : Added s u := by
  refine ⟨Nat.le_trans h.next h'.next, h'.sorted, fun a p hp => h'.old a p (h.old a p hp), fun a p hp => ?_⟩
  rcases h'.new a p hp with h1 | ⟨h1, h2⟩
  · exact h.new a p h1
  · right
    refine ⟨?_, Nat.le_trans h.next h2⟩
    cases hs : mapFind s.pmap a with
    | none => rfl
    | some q => rw [h.old a q hs] at h1; cases h1

theorem internalAdd_added (env : Env) (s : Problem.State) (hs : Sorted s.pmap) (a n : ℕ) (x : Problem.State × ℕ)
    (h : internalAddParameterBlock env s a n = .ok x) : Added s x.1 := by
  unfold internalAddParameterBlock at h
  have key : mapFind s.pmap a = none → ∀ b : PBlock, Added s { s with pheap := upd s.pheap s.nextP (some b), nextP := s.nextP + 1, pmap := mapInsert s.pmap a s.nextP, pvec := s.pvec ++ [s.nextP] } := by
    intro hf b
    refine ⟨Nat.le_succ _, sorted_mapInsert hs hf, fun c p hp => ?_, fun c p hp => ?_⟩
    · show mapFind (mapInsert s.pmap a s.nextP) c = some p
      rw [mapFind_insert hs hf, if_neg]
      · exact hp
      · rintro rfl; rw [hf] at hp; cases hp
    · change mapFind (mapInsert s.pmap a s.nextP) c = some p at hp
      rw [mapFind_insert hs hf] at hp
      split_ifs at hp with hc
      · cases hp; subst hc; exact .inr ⟨hf, Nat.le_refl _⟩
      · exact .inl hp
  by_cases h0 : a = 0
  · rw [if_pos h0] at h; cases h
  rw [if_neg h0] at h
  cases hf : mapFind s.pmap a with
  | some p =>
    rw [hf] at h
    simp only at h
    by_cases hd : env.disableSafety = true
    · rw [if_pos hd] at h
      cases h; exact (Keep.refl s).added hs
    · rw [if_neg hd] at h
      obtain ⟨b, -, h⟩ := ex_bind h
      split_ifs at h
      cases h; exact (Keep.refl s).added hs
  | none =>
    rw [hf] at h
    simp only at h
    by_cases hd : env.disableSafety = true
    · rw [if_pos hd] at h
      cases h; exact key hf _
    · rw [if_neg hd] at h
      obtain ⟨_, -, h⟩ := ex_bind h
      obtain ⟨_, -, h⟩ := ex_bind h
      cases h; exact key hf _

theorem addBlocks_added (env : Env) (l : List (ℕ × ℕ)) (s : Problem.State) (hs : Sorted s.pmap)
    (x : Problem.State × List ℕ) (h : addBlocks env s l = .ok x) : Added s x.1 := by
  induction l generalizing s x with
  | nil => cases h; exact (Keep.refl s).added hs
  | cons q l ih =>
    obtain ⟨⟨s1, p⟩, h1, h⟩ := ex_bind h
    obtain ⟨⟨s2, ps⟩, h2, h⟩ := ex_bind h
    cases h
    have k1 := internalAdd_added env s hs _ _ _ h1
    exact k1.trans (ih s1 k1.sorted (s2, ps) h2)

theorem addResidual_added (env : Env) (s : Problem.State) (hs : Sorted s.pmap) (c l : Option ℕ) (ps : List ℕ)
    (x : Problem.State × ℕ) (h : addResidualBlock env s c l ps = .ok x) : Added s x.1 := by
  unfold addResidualBlock at h
  split at h
  · cases h
  · split_ifs at h
    all_goals
      obtain ⟨⟨s1, ids⟩, h1, h⟩ := ex_bind h
      have k1 := addBlocks_added env _ s hs _ h1
      simp only at h
    · exact k1.trans ((registerResidual_keep env _ _ _ _ _ h).added k1.sorted)
    · obtain ⟨_, -, h⟩ := ex_bind h
      exact k1.trans ((registerResidual_keep env _ _ _ _ _ h).added k1.sorted)

/-- After any call: an address that has a block had it before, or had none and the block is new. -/
theorem step_new (env : Env) (s s' : Problem.State) (hs : Sorted s.pmap) (o : Op) (h : Problem.step env s o = .ok s') :
    ∀ a p, mapFind s'.pmap a = some p →
      mapFind s.pmap a = some p ∨ (mapFind s.pmap a = none ∧ s.nextP ≤ p) := by
  cases o with
  | addParameter a n =>
    obtain ⟨⟨s1, p⟩, h1, h⟩ := ex_bind h
    cases h
    exact (internalAdd_added env s hs _ _ _ h1).new
  | addParameterWithManifold a n m ok =>
    obtain ⟨⟨s1, p⟩, h1, h⟩ := ex_bind h
    have k1 := internalAdd_added env s hs _ _ _ h1
    exact (k1.trans ((setManifold_keep env _ _ _ _ _ h).added k1.sorted)).new
  | addResidual c l ps =>
    obtain ⟨⟨s1, p⟩, h1, h⟩ := ex_bind h
    cases h
    exact (addResidual_added env s hs _ _ _ _ h1).new
  | removeResidual r =>
    change removeResidualBlock env s r = .ok s' at h
    unfold removeResidualBlock at h
    split_ifs at h
    · exact ((internalRemove_keep env _ _ _ h).added hs).new
    · exact ((internalRemove_keep env _ _ _ h).added hs).new
  | removeParameter a =>
    change removeParameterBlock env s a = .ok s' at h
    unfold removeParameterBlock at h
    split at h
    · cases h
    · obtain ⟨s1, h1, h⟩ := ex_bind h
      have k1 := removeDependents_keep env _ _ _ h1
      have hs1 : Sorted s1.pmap := by rw [k1.1]; exact hs
      have hne : ∃ b, s'.pmap = mapErase s1.pmap b := by
        unfold deleteParameterInVector at h
        obtain ⟨b, -, h⟩ := ex_bind h
        split at h
        · cases h
        · split_ifs at h
          split at h
          · cases h
          · obtain ⟨tb, -, h⟩ := ex_bind h
            simp only at h
            obtain ⟨s3, h3, h⟩ := ex_bind h
            cases h
            unfold deleteParameter at h3
            obtain ⟨b', -, h3⟩ := ex_bind h3
            cases h3
            exact ⟨_, rfl⟩
      obtain ⟨b, hb⟩ := hne
      intro c p hp
      rw [hb, mapFind_erase b hs1] at hp
      split_ifs at hp
      rw [k1.1] at hp
      exact .inl hp
  | setConstant a => exact ((setConst_keep _ _ _ _ h).added hs).new
  | setVariable a => exact ((setConst_keep _ _ _ _ h).added hs).new
  | setManifold a m ok => exact ((setManifold_keep env _ _ _ _ _ h).added hs).new

end Ceres.Bounds
