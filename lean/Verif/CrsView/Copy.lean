import Verif.CrsView.Protocol

/-!
# The streamed buffer: every value arrives, whatever the schedule
-/
namespace Ceres.CrsView

variable {K : Type} {c : Call K} {pinned gpu out : ℕ → K} {s : St K}

/-- **When `CopyToGpu` has returned**, each value has been stored where its thread stores it, and nothing else
has changed: for every schedule of the host and the streams, whether or not the caller's array is
page-locked. -/
theorem copy_correct (hc : c.Ok) (h : Reach c pinned gpu out s) (hd : s.host = .done) :
    (∀ id < c.num, ∀ q, c.dest id = some (some q) → s.out q = c.«from» id) ∧
    ∀ q, (∀ id < c.num, c.dest id ≠ some (some q)) → s.out q = out q := by
  obtain ⟨n, hI⟩ := inv_reach hc h
  refine ⟨fun id hid => ?_, hI.frame⟩
  have hH := hI.host
  unfold HostInv at hH
  rw [hd] at hH
  have hlt : id / c.per < n := by
    rw [Nat.div_lt_iff_lt_mul hc.per]
    omega
  have hb : id / c.per % 2 < 2 := Nat.mod_lt _ (by decide)
  have hmem : id / c.per ∈ batches (id / c.per % 2) n := by
    unfold batches
    rw [List.mem_filter]
    exact ⟨List.mem_range.2 hlt, by simp⟩
  have hdone : Done c s (id / c.per) := by
    rcases hI.stream _ hb with ⟨-, k2⟩ | ⟨pre, cur, L, front, k1, k2, k3, k4⟩
    · exact k2 _ hmem
    · rw [hH.2 _ hb] at k4
      cases k3 <;> cases k4
  have hmod := Nat.mod_lt id hc.per
  have hdm := Nat.div_add_mod id c.per
  rw [Nat.mul_comm] at hdm
  have := hdone (id % c.per) (by
    unfold Call.n Call.size
    omega)
  rw [hdm] at this
  exact this

/-- No thread reads out of range. -/
theorem copy_defined (hc : c.Ok) (h : Reach c pinned gpu out s) : s.host ≠ .undefined := by
  obtain ⟨n, hI⟩ := inv_reach hc h
  intro hu
  have hH := hI.host
  unfold HostInv at hH
  rw [hu] at hH
  exact hH

theorem device_moves (hc : c.Ok) {n b : ℕ} (hI : Inv c out s n) (hb : b < 2) (hq : s.queue b ≠ []) :
    ∃ s', Step c s s' := by
  rcases hI.stream b hb with ⟨k1, -⟩ | ⟨pre, cur, L, front, k1, k2, k3, k4⟩
  · exact absurd k1 hq
  cases k3 with
  | memcpy T f1 f2 f3 =>
    cases T with
    | nil => exact ⟨_, .transferred hb k4⟩
    | cons j T => exact ⟨_, .transfer hb k4 (by simp : j ∈ j :: T)⟩
  | record f1 f2 f3 => exact ⟨_, .record hb k4⟩
  | kernel T f1 f2 f3 f4 =>
    cases T with
    | nil => exact ⟨_, .finished hb k4⟩
    | cons j T =>
      cases hdst : c.dest (cur * c.per + j) with
      | none => exact ⟨_, .outOfRange hb k4 (by simp : j ∈ j :: T) hdst⟩
      | some o => exact ⟨_, .thread hb k4 (by simp : j ∈ j :: T) hdst⟩

/-- **No deadlock**: until the call has returned something can happen. -/
theorem copy_progress (hc : c.Ok) (h : Reach c pinned gpu out s) (hd : s.host ≠ .done) : ∃ s', Step c s s' := by
  obtain ⟨n, hI⟩ := inv_reach hc h
  have hH := hI.host
  unfold HostInv at hH
  cases hh : s.host with
  | batch off b =>
    rw [hh] at hH
    by_cases hlt : off < c.num
    · by_cases hv : c.viaPinned = true
      · by_cases hr : Op.record ∈ s.queue b
        · refine device_moves hc hI (b := b) (by rw [hH.2]; exact Nat.mod_lt _ (by decide)) fun he => ?_
          rw [he] at hr
          cases hr
        · exact ⟨_, .wait hh hlt hv hr⟩
      · exact ⟨_, .direct hh hlt (by simpa using hv)⟩
    · exact ⟨_, .exit hh (by omega)⟩
  | copy off b T =>
    cases T with
    | nil => exact ⟨_, .copied hh⟩
    | cons j T => exact ⟨_, .copy hh (by simp : j ∈ j :: T)⟩
  | launch off b => exact ⟨_, .launch hh⟩
  | sync i =>
    by_cases hi : i < numBatches
    · by_cases he : s.queue i = []
      · exact ⟨_, .sync hh hi he⟩
      · exact device_moves hc hI hi he
    · exact ⟨_, .return hh (by omega)⟩
  | done => exact absurd hh hd
  | undefined => rw [hh] at hH; exact hH.elim

/-! ## Termination -/

def Op.weight : Op → ℕ
  | .memcpy _ _ T => T.length + 1
  | .record => 1
  | .kernel _ _ T => T.length + 1

def weights (l : List Op) : ℕ := (l.map Op.weight).sum

def Host.weight (c : Call K) : Host → ℕ
  | .batch off _ => (c.num - off) * (3 * c.per + 10) + 4
  | .copy off _ T => (c.num - off - 1) * (3 * c.per + 10) + (2 * c.per + 3) + T.length + 7
  | .launch off _ => (c.num - off - 1) * (3 * c.per + 10) + (2 * c.per + 3) + 6
  | .sync i => 2 - i + 1
  | .done => 0
  | .undefined => 0

def measureOf (c : Call K) (s : St K) : ℕ := s.host.weight c + (weights (s.queue 0) + weights (s.queue 1))

theorem weights_update (f : ℕ → List Op) {b : ℕ} (hb : b < 2) (l : List Op) (k : ℕ)
    (h : weights l + k = weights (f b)) :
    weights (Function.update f b l 0) + weights (Function.update f b l 1) + k =
      weights (f 0) + weights (f 1) := by
  have : b = 0 ∨ b = 1 := by omega
  rcases this with rfl | rfl
  · rw [Function.update_self, Function.update_of_ne (by decide)]
    omega
  · rw [Function.update_self, Function.update_of_ne (by decide)]
    omega

theorem ops_weight (c : Call K) (off b : ℕ) : weights (c.ops off b) ≤ 2 * c.per + 3 := by
  have : c.size off ≤ c.per := Nat.min_le_right _ _
  unfold Call.ops weights
  cases c.viaPinned <;> simp [Op.weight] <;> omega

theorem weights_append (l l' : List Op) : weights (l ++ l') = weights l + weights l' := by
  simp [weights]

theorem weights_cons (o : Op) (l : List Op) : weights (o :: l) = o.weight + weights l := by
  simp [weights]

theorem measure_step (hper : 0 < c.per) {s' : St K} (hs : Step c s s') (hu : s'.host ≠ .undefined) :
    measureOf c s' < measureOf c s := by
  have hmul : ∀ off, off < c.num →
      (c.num - off) * (3 * c.per + 10) = (c.num - off - 1) * (3 * c.per + 10) + (3 * c.per + 10) := by
    intro off h
    obtain ⟨k, hk⟩ : ∃ k, c.num - off = k + 1 := ⟨c.num - off - 1, by omega⟩
    rw [hk, Nat.add_sub_cancel, Nat.add_mul, Nat.one_mul]
  have herase : ∀ {j : ℕ} {T : List ℕ}, j ∈ T → (T.erase j).length + 1 = T.length := by
    intro j T hj
    rw [List.length_erase_of_mem hj]
    have := List.length_pos_of_mem hj
    omega
  cases hs with
  | @wait off b h1 h2 h3 h4 =>
    show Host.weight c (.copy off b _) + _ < Host.weight c s.host + _
    rw [h1]
    simp only [Host.weight, List.length_range]
    have := hmul off h2
    have : c.size off ≤ c.per := Nat.min_le_right _ _
    omega
  | @direct off b h1 h2 h3 =>
    show Host.weight c (.launch off b) + _ < Host.weight c s.host + _
    rw [h1]
    simp only [Host.weight]
    have := hmul off h2
    omega
  | @copy off b j T h1 h2 =>
    show Host.weight c (.copy off b _) + _ < Host.weight c s.host + _
    rw [h1]
    simp only [Host.weight]
    have := herase h2
    omega
  | @copied off b h1 =>
    show Host.weight c (.launch off b) + _ < Host.weight c s.host + _
    rw [h1]
    simp only [Host.weight]
    omega
  | @launch off b h1 =>
    show Host.weight c (.batch _ _) +
      (weights (Function.update s.queue b _ 0) + weights (Function.update s.queue b _ 1)) <
      Host.weight c s.host + _
    rw [h1]
    have hle : weights (Function.update s.queue b (s.queue b ++ c.ops off b) 0) +
        weights (Function.update s.queue b (s.queue b ++ c.ops off b) 1) ≤
        weights (s.queue 0) + weights (s.queue 1) + (2 * c.per + 3) := by
      have hw := ops_weight c off b
      by_cases hb0 : b = 0
      · subst hb0
        rw [Function.update_self, Function.update_of_ne (by decide), weights_append]
        omega
      · by_cases hb1 : b = 1
        · subst hb1
          rw [Function.update_self, Function.update_of_ne (by decide), weights_append]
          omega
        · rw [Function.update_of_ne (fun h => hb0 h.symm), Function.update_of_ne (fun h => hb1 h.symm)]
          omega
    simp only [Host.weight]
    have : (c.num - (off + c.per)) * (3 * c.per + 10) ≤ (c.num - off - 1) * (3 * c.per + 10) :=
      Nat.mul_le_mul_right _ (by omega)
    omega
  | @exit off b h1 h2 =>
    show Host.weight c (.sync 0) + _ < Host.weight c s.host + _
    rw [h1]
    simp only [Host.weight]
    omega
  | @sync i h1 h2 h3 =>
    show Host.weight c (.sync (i + 1)) + _ < Host.weight c s.host + _
    rw [h1]
    simp only [Host.weight, numBatches] at h2 ⊢
    omega
  | @«return» i h1 h2 =>
    show Host.weight c .done + _ < Host.weight c s.host + _
    rw [h1]
    simp only [Host.weight]
    omega
  | @transfer b d j src T rest hb h1 h2 =>
    have := weights_update s.queue hb (.memcpy d src (T.erase j) :: rest) 1 (by
      rw [h1, weights_cons, weights_cons]
      have := herase h2
      simp only [Op.weight]
      omega)
    unfold measureOf
    simp only
    omega
  | @transferred b d src rest hb h1 =>
    have := weights_update s.queue hb rest 1 (by rw [h1, weights_cons]; simp [Op.weight]; omega)
    unfold measureOf
    simp only
    omega
  | @record b rest hb h1 =>
    have := weights_update s.queue hb rest 1 (by rw [h1, weights_cons]; simp [Op.weight]; omega)
    unfold measureOf
    simp only
    omega
  | @thread b p off j o T rest hb h1 h2 h3 =>
    have := weights_update s.queue hb (.kernel p off (T.erase j) :: rest) 1 (by
      rw [h1, weights_cons, weights_cons]
      have := herase h2
      simp only [Op.weight]
      omega)
    unfold measureOf
    simp only
    omega
  | @outOfRange b p off j T rest hb h1 h2 h3 => exact absurd rfl hu
  | @finished b p off rest hb h1 =>
    have := weights_update s.queue hb rest 1 (by rw [h1, weights_cons]; simp [Op.weight]; omega)
    unfold measureOf
    simp only
    omega

/-- **Every schedule ends**: there is no infinite run. -/
theorem copy_terminates (hc : c.Ok) (f : ℕ → St K) (h0 : f 0 = start pinned gpu out) :
    ¬ ∀ k, Step c (f k) (f (k + 1)) := by
  intro hf
  have hr : ∀ k, Reach c pinned gpu out (f k) := by
    intro k
    induction k with
    | zero => rw [h0]; exact Relation.ReflTransGen.refl
    | succ k ih => exact ih.tail (hf k)
  have hm : ∀ k, measureOf c (f k) + k ≤ measureOf c (f 0) := by
    intro k
    induction k with
    | zero => omega
    | succ k ih =>
      have := measure_step hc.per (hf k) (copy_defined hc (hr (k + 1)))
      omega
  have := hm (measureOf c (f 0) + 1)
  omega

theorem reach_done (hc : c.Ok) (s : St K) (h : Reach c pinned gpu out s) :
    ∃ s', Reach c pinned gpu out s' ∧ s'.host = .done := by
  generalize hm : measureOf c s = m
  induction m using Nat.strong_induction_on generalizing s with
  | _ m ih =>
    by_cases hd : s.host = .done
    · exact ⟨s, h, hd⟩
    · obtain ⟨s', hs'⟩ := copy_progress hc h hd
      have hr' : Reach c pinned gpu out s' := h.tail hs'
      have := measure_step hc.per hs' (copy_defined hc hr')
      exact ih _ (by omega) s' hr' rfl

/-- The call can return. -/
theorem copy_returns (hc : c.Ok) (pinned gpu out : ℕ → K) :
    ∃ s, Reach c pinned gpu out s ∧ s.host = .done :=
  reach_done hc _ Relation.ReflTransGen.refl

/-! ## Races -/

/-- What the host accesses. -/
theorem host_access {n : ℕ} (hI : Inv c out s n) {j : ℕ} {w : Bool} {p : Place}
    (h : Access c s numBatches j w p) :
    j < c.per ∧ ((w = false ∧ ∃ i, p = .user i) ∨
      ∃ b, b < 2 ∧ p = .pinned (c.slot b + j) ∧ Op.record ∉ s.queue b) := by
  have hH := hI.host
  unfold HostInv at hH
  have key : ∀ {off b : ℕ} {T : List ℕ}, s.host = .copy off b T → j ∈ T →
      j < c.per ∧ b < 2 ∧ Op.record ∉ s.queue b := by
    intro off b T h1 h2
    rw [h1] at hH
    exact ⟨(n_lt (hH.2.2.2.2.2.1 j h2)).1, by rw [hH.2.1]; exact Nat.mod_lt _ (by decide), hH.2.2.2.2.1⟩
  generalize hwho : numBatches = who at h
  cases h with
  | @hostRead off b _ T h1 h2 => exact ⟨(key h1 h2).1, .inl ⟨rfl, _, rfl⟩⟩
  | @hostWrite off b _ T h1 h2 => exact ⟨(key h1 h2).1, .inr ⟨b, (key h1 h2).2.1, rfl, (key h1 h2).2.2⟩⟩
  | memcpyRead hb => omega
  | memcpyWrite hb => omega
  | kernelRead hb => omega
  | kernelWrite hb => omega

/-- What a stream accesses. -/
theorem stream_access {n : ℕ} (hI : Inv c out s n) {b j : ℕ} {w : Bool} {p : Place} (hb : b < 2)
    (h : Access c s b j w p) : j < c.per ∧
    ((w = false ∧ ((∃ i, p = .user i) ∨ (p = .pinned (c.slot b + j) ∧ Op.record ∈ s.queue b))) ∨
      p = .gpu (c.slot b + j) ∨
      ∃ cur q, cur % 2 = b ∧ j < c.n cur ∧ p = .out q ∧ c.dest (cur * c.per + j) = some (some q)) := by
  have hmem : ∀ {cur : ℕ} {pre L : List ℕ}, batches b n = pre ++ cur :: L → cur % 2 = b := by
    intro cur pre L h
    have : cur ∈ batches b n := by rw [h]; simp
    unfold batches at this
    simpa using (List.mem_filter.1 this).2
  cases h with
  | hostRead h1 h2 => exact absurd hb (by decide)
  | hostWrite h1 h2 => exact absurd hb (by decide)
  | @memcpyRead _ d _ src T rest _ h1 h2 =>
    rcases hI.stream b hb with ⟨k1, -⟩ | ⟨pre, cur, L, front, k1, k2, k3, k4⟩
    · rw [k1] at h1; cases h1
    cases k3 with
    | record f1 f2 f3 => rw [h1] at k4; cases k4
    | kernel T f1 f2 f3 f4 => rw [h1] at k4; cases k4
    | memcpy T' f1 f2 f3 =>
      have k4' := k4
      rw [h1] at k4
      injection k4 with e1 e2
      injection e1 with e3 e4 e5
      subst e3 e4 e5 e2
      refine ⟨(n_lt (f1 j h2)).1, .inl ⟨rfl, ?_⟩⟩
      unfold Call.src
      cases hv : c.viaPinned with
      | false => exact .inl ⟨_, rfl⟩
      | true => exact .inr ⟨rfl, by rw [k4']; simp [recs, hv]⟩
  | @memcpyWrite _ d _ src T rest _ h1 h2 =>
    rcases hI.stream b hb with ⟨k1, -⟩ | ⟨pre, cur, L, front, k1, k2, k3, k4⟩
    · rw [k1] at h1; cases h1
    cases k3 with
    | record f1 f2 f3 => rw [h1] at k4; cases k4
    | kernel T f1 f2 f3 f4 => rw [h1] at k4; cases k4
    | memcpy T' f1 f2 f3 =>
      rw [h1] at k4
      injection k4 with e1 e2
      injection e1 with e3 e4 e5
      subst e3 e4 e5 e2
      exact ⟨(n_lt (f1 j h2)).1, .inr (.inl rfl)⟩
  | @kernelRead _ p off _ T rest _ h1 h2 =>
    rcases hI.stream b hb with ⟨k1, -⟩ | ⟨pre, cur, L, front, k1, k2, k3, k4⟩
    · rw [k1] at h1; cases h1
    cases k3 with
    | memcpy T f1 f2 f3 => rw [h1] at k4; cases k4
    | record f1 f2 f3 => rw [h1] at k4; cases k4
    | kernel T' f1 f2 f3 f4 =>
      rw [h1] at k4
      injection k4 with e1 e2
      injection e1 with e3 e4 e5
      subst e3 e4 e5 e2
      exact ⟨(n_lt (f1 j h2)).1, .inr (.inl rfl)⟩
  | @kernelWrite _ p off _ q T rest _ h1 h2 h3 =>
    rcases hI.stream b hb with ⟨k1, -⟩ | ⟨pre, cur, L, front, k1, k2, k3, k4⟩
    · rw [k1] at h1; cases h1
    cases k3 with
    | memcpy T f1 f2 f3 => rw [h1] at k4; cases k4
    | record f1 f2 f3 => rw [h1] at k4; cases k4
    | kernel T' f1 f2 f3 f4 =>
      rw [h1] at k4
      injection k4 with e1 e2
      injection e1 with e3 e4 e5
      subst e3 e4 e5 e2
      exact ⟨(n_lt (f1 j h2)).1, .inr (.inr ⟨cur, q, hmem k1, f1 j h2, rfl, h3⟩)⟩

theorem access_who {b j : ℕ} {w : Bool} {p : Place} (h : Access c s b j w p) : b < 2 ∨ b = numBatches := by
  cases h with
  | hostRead h1 h2 => exact .inr rfl
  | hostWrite h1 h2 => exact .inr rfl
  | memcpyRead hb => exact .inl hb
  | memcpyWrite hb => exact .inl hb
  | kernelRead hb => exact .inl hb
  | kernelWrite hb => exact .inl hb

/-- **No data races**: a number that something is about to write is not about to be read or written by
anything else at the same time. -/
theorem copy_race_free (hc : c.Ok) (h : Reach c pinned gpu out s) {who who' j j' : ℕ} {w : Bool} {p : Place}
    (h1 : Access c s who j true p) (h2 : Access c s who' j' w p) : who = who' ∧ j = j' := by
  obtain ⟨n, hI⟩ := inv_reach hc h
  have slots : ∀ {b b' : ℕ}, j < c.per → j' < c.per → c.slot b + j = c.slot b' + j' → b = b' ∧ j = j' := by
    intro b b' hj hj' he
    by_cases hb : b = b'
    · subst hb; exact ⟨rfl, by omega⟩
    · exact absurd he (slot_ne c hb hj hj')
  rcases access_who h1 with hb | rfl
  · obtain ⟨hj, h1⟩ := stream_access hI hb h1
    rcases access_who h2 with hb' | rfl
    · obtain ⟨hj', h2⟩ := stream_access hI hb' h2
      rcases h1 with ⟨h1, -⟩ | h1 | ⟨cur, q, m1, l1, h1, d1⟩
      · cases h1
      · subst h1
        rcases h2 with ⟨-, ⟨i, h2⟩ | ⟨h2, -⟩⟩ | h2 | ⟨cur, q, -, -, h2, -⟩
        · cases h2
        · cases h2
        · injection h2 with h2
          exact slots hj hj' h2
        · cases h2
      · subst h1
        rcases h2 with ⟨-, ⟨i, h2⟩ | ⟨h2, -⟩⟩ | h2 | ⟨cur', q', m2, l2, h2, d2⟩
        · cases h2
        · cases h2
        · cases h2
        · injection h2 with h2
          subst h2
          have he := hc.inj _ (n_lt l1).2 _ (n_lt l2).2 q d1 d2
          have hcur : cur = cur' := by
            have e1 : (cur * c.per + j) / c.per = cur := by
              rw [Nat.mul_comm, Nat.mul_add_div hc.per, Nat.div_eq_of_lt hj, Nat.add_zero]
            have e2 : (cur' * c.per + j') / c.per = cur' := by
              rw [Nat.mul_comm, Nat.mul_add_div hc.per, Nat.div_eq_of_lt hj', Nat.add_zero]
            rw [← e1, ← e2, he]
          subst hcur
          exact ⟨m1.symm.trans m2, by omega⟩
    · obtain ⟨hj', h2⟩ := host_access hI h2
      rcases h1 with ⟨h1, -⟩ | h1 | ⟨cur, q, m1, l1, h1, d1⟩
      · cases h1
      · subst h1
        rcases h2 with ⟨-, i, h2⟩ | ⟨b', -, h2, -⟩ <;> cases h2
      · subst h1
        rcases h2 with ⟨-, i, h2⟩ | ⟨b', -, h2, -⟩ <;> cases h2
  · obtain ⟨hj, h1⟩ := host_access hI h1
    rcases h1 with ⟨h1, -⟩ | ⟨b, hb, h1, hr⟩
    · cases h1
    subst h1
    rcases access_who h2 with hb' | rfl
    · obtain ⟨hj', h2⟩ := stream_access hI hb' h2
      rcases h2 with ⟨-, ⟨i, h2⟩ | ⟨h2, hr'⟩⟩ | h2 | ⟨cur, q, -, -, h2, -⟩
      · cases h2
      · injection h2 with h2
        obtain ⟨rfl, -⟩ := slots hj hj' h2
        exact absurd hr' hr
      · cases h2
      · cases h2
    · obtain ⟨hj', h2⟩ := host_access hI h2
      rcases h2 with ⟨-, i, h2⟩ | ⟨b', -, h2, -⟩
      · cases h2
      · injection h2 with h2
        exact ⟨rfl, (slots hj hj' h2).2⟩

end Ceres.CrsView
