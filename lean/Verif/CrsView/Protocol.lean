import Verif.CrsView.Buffer
import Mathlib.Tactic.Ring
import Mathlib.Data.List.Basic
import Mathlib.Data.Nat.Basic

/-!
# The streamed buffer: what is true at every moment
-/
namespace Ceres.CrsView

variable {K : Type}

/-- The values in batch `i`. -/
def Call.n (c : Call K) (i : ℕ) : ℕ := c.size (i * c.per)

def Stored (c : Call K) (s : St K) (id : ℕ) : Prop := ∀ q, c.dest id = some (some q) → s.out q = c.«from» id

def Done (c : Call K) (s : St K) (i : ℕ) : Prop := ∀ j < c.n i, Stored c s (i * c.per + j)

def PinnedOk (c : Call K) (s : St K) (b i : ℕ) : Prop :=
  ∀ j < c.n i, s.pinned (c.slot b + j) = c.«from» (i * c.per + j)

def GpuOk (c : Call K) (s : St K) (b i : ℕ) : Prop :=
  ∀ j < c.n i, s.gpu (c.slot b + j) = c.«from» (i * c.per + j)

/-- The kernel of batch `i`. -/
def kern (c : Call K) (b i : ℕ) : Op := .kernel (c.slot b) (i * c.per) (List.range (c.n i))

def recs (c : Call K) : List Op := if c.viaPinned then [.record] else []

/-- What is left of the operations of the batch `cur` in stream `b`; `L` are the batches behind it. -/
inductive Front (c : Call K) (s : St K) (b cur : ℕ) (L : List ℕ) : List Op → Prop where
  | memcpy (T : List ℕ) : (∀ j ∈ T, j < c.n cur) →
      (∀ j < c.n cur, j ∉ T → s.gpu (c.slot b + j) = c.«from» (cur * c.per + j)) →
      (c.viaPinned = true → L = [] ∧ PinnedOk c s b cur) →
      Front c s b cur L (.memcpy (c.slot b) (c.src (cur * c.per) b) T :: (recs c ++ [kern c b cur]))
  | record : c.viaPinned = true → L = [] → GpuOk c s b cur → Front c s b cur L [.record, kern c b cur]
  | kernel (T : List ℕ) : (∀ j ∈ T, j < c.n cur) → GpuOk c s b cur →
      (∀ j < c.n cur, j ∉ T → Stored c s (cur * c.per + j)) →
      (c.viaPinned = true → L.length ≤ 1 ∧ ∀ x ∈ L, PinnedOk c s b x) →
      Front c s b cur L [.kernel (c.slot b) (cur * c.per) T]

/-- The batches below `h` in stream `b`. -/
def batches (b h : ℕ) : List ℕ := (List.range h).filter fun i => i % 2 = b

def Stream (c : Call K) (s : St K) (b h : ℕ) : Prop :=
  (s.queue b = [] ∧ ∀ i ∈ batches b h, Done c s i) ∨
  ∃ pre cur L front, batches b h = pre ++ cur :: L ∧ (∀ i ∈ pre, Done c s i) ∧ Front c s b cur L front ∧
    s.queue b = front ++ L.flatMap fun i => c.ops (i * c.per) b

def HostInv (c : Call K) (s : St K) (h : ℕ) : Prop :=
  match s.host with
  | .batch off b => off = h * c.per ∧ b = h % 2
  | .copy off b T => off = h * c.per ∧ b = h % 2 ∧ off < c.num ∧ c.viaPinned = true ∧ Op.record ∉ s.queue b ∧
      (∀ j ∈ T, j < c.n h) ∧ ∀ j < c.n h, j ∉ T → s.pinned (c.slot b + j) = c.«from» (h * c.per + j)
  | .launch off b => off = h * c.per ∧ b = h % 2 ∧ off < c.num ∧
      (c.viaPinned = true → Op.record ∉ s.queue b ∧ PinnedOk c s b h)
  | .sync i => c.num ≤ h * c.per ∧ ∀ b < i, b < 2 → s.queue b = []
  | .done => c.num ≤ h * c.per ∧ ∀ b < 2, s.queue b = []
  | .undefined => False

/-- The kernels may run: every thread has a place of its own, or none. -/
structure Call.Ok (c : Call K) : Prop where
  per : 0 < c.per
  def' : ∀ id < c.num, c.dest id ≠ none
  inj : ∀ id < c.num, ∀ id' < c.num, ∀ q, c.dest id = some (some q) → c.dest id' = some (some q) → id = id'

structure Inv (c : Call K) (out : ℕ → K) (s : St K) (h : ℕ) : Prop where
  host : HostInv c s h
  stream : ∀ b < 2, Stream c s b h
  frame : ∀ q, (∀ id < c.num, c.dest id ≠ some (some q)) → s.out q = out q

theorem n_lt {c : Call K} {i j : ℕ} (h : j < c.n i) : j < c.per ∧ i * c.per + j < c.num := by
  unfold Call.n Call.size at h
  omega

theorem batches_succ_self {b h : ℕ} (hb : h % 2 = b) : batches b (h + 1) = batches b h ++ [h] := by
  unfold batches
  rw [List.range_succ, List.filter_append]
  simp [hb]

theorem batches_succ_other {b h : ℕ} (hb : h % 2 ≠ b) : batches b (h + 1) = batches b h := by
  unfold batches
  rw [List.range_succ, List.filter_append]
  simp [hb]

theorem ops_eq (c : Call K) (b i : ℕ) : c.ops (i * c.per) b =
    .memcpy (c.slot b) (c.src (i * c.per) b) (List.range (c.n i)) :: (recs c ++ [kern c b i]) := rfl

/-! ## Steps that leave a stream alone -/

theorem Front.congr {c : Call K} {s s' : St K} {b cur : ℕ} {L : List ℕ} {front : List Op}
    (h : Front c s b cur L front)
    (hg : ∀ k < c.per, s'.gpu (c.slot b + k) = s.gpu (c.slot b + k))
    (hp : (c.viaPinned = true ∧ Op.record ∉ front ++ L.flatMap fun i => c.ops (i * c.per) b) ∨
      ∀ k < c.per, s'.pinned (c.slot b + k) = s.pinned (c.slot b + k))
    (ho : ∀ id < c.num, Stored c s id → Stored c s' id) : Front c s' b cur L front := by
  have hP : ∀ i, PinnedOk c s b i → (∀ k < c.per, s'.pinned (c.slot b + k) = s.pinned (c.slot b + k)) →
      PinnedOk c s' b i := fun i h1 h2 j hj => (h2 j (n_lt hj).1).trans (h1 j hj)
  have hG : ∀ i, GpuOk c s b i → GpuOk c s' b i := fun i h1 j hj => (hg j (n_lt hj).1).trans (h1 j hj)
  cases h with
  | memcpy T h1 h2 h3 =>
    refine .memcpy T h1 (fun j hj hT => (hg j (n_lt hj).1).trans (h2 j hj hT)) fun hv => ?_
    refine ⟨(h3 hv).1, ?_⟩
    rcases hp with ⟨-, hp⟩ | hp
    · exact absurd (by simp [recs, hv]) hp
    · exact hP _ (h3 hv).2 hp
  | record h1 h2 h3 => exact .record h1 h2 (hG _ h3)
  | kernel T h1 h2 h3 h4 =>
    refine .kernel T h1 (hG _ h2) (fun j hj hT => ho _ (n_lt hj).2 (h3 j hj hT)) fun hv => ⟨(h4 hv).1, ?_⟩
    intro x hx
    rcases hp with ⟨-, hp⟩ | hp
    · refine absurd ?_ hp
      refine List.mem_append_right _ (List.mem_flatMap.2 ⟨x, hx, ?_⟩)
      simp [Call.ops, hv]
    · exact hP _ ((h4 hv).2 x hx) hp

theorem Stream.congr {c : Call K} {s s' : St K} {b h : ℕ} (hs : Stream c s b h)
    (hq : s'.queue b = s.queue b)
    (hg : ∀ k < c.per, s'.gpu (c.slot b + k) = s.gpu (c.slot b + k))
    (hp : (c.viaPinned = true ∧ Op.record ∉ s.queue b) ∨
      ∀ k < c.per, s'.pinned (c.slot b + k) = s.pinned (c.slot b + k))
    (ho : ∀ id < c.num, Stored c s id → Stored c s' id) : Stream c s' b h := by
  have hD : ∀ i, Done c s i → Done c s' i := fun i h j hj => ho _ (n_lt hj).2 (h j hj)
  rcases hs with ⟨h1, h2⟩ | ⟨pre, cur, L, front, h1, h2, h3, h4⟩
  · exact .inl ⟨hq.trans h1, fun i hi => hD i (h2 i hi)⟩
  · refine .inr ⟨pre, cur, L, front, h1, fun i hi => hD i (h2 i hi), ?_, hq.trans h4⟩
    rw [h4] at hp
    exact h3.congr hg hp ho

theorem HostInv.congr {c : Call K} {s s' : St K} {h : ℕ} (hs : HostInv c s h) (hh : s'.host = s.host)
    (hp : s'.pinned = s.pinned) (hr : ∀ b, Op.record ∈ s'.queue b → Op.record ∈ s.queue b)
    (he : ∀ b, s.queue b = [] → s'.queue b = []) : HostInv c s' h := by
  unfold HostInv at hs ⊢
  rw [hh]
  cases hS : s.host with
  | batch off b => rw [hS] at hs; exact hs
  | copy off b T =>
    rw [hS] at hs
    exact ⟨hs.1, hs.2.1, hs.2.2.1, hs.2.2.2.1, fun h => hs.2.2.2.2.1 (hr _ h), hs.2.2.2.2.2.1,
      by rw [hp]; exact hs.2.2.2.2.2.2⟩
  | launch off b =>
    rw [hS] at hs
    exact ⟨hs.1, hs.2.1, hs.2.2.1, fun hv => ⟨fun h => (hs.2.2.2 hv).1 (hr _ h), by
      unfold PinnedOk; rw [hp]; exact (hs.2.2.2 hv).2⟩⟩
  | sync i => rw [hS] at hs; exact ⟨hs.1, fun b hb hb2 => he _ (hs.2 b hb hb2)⟩
  | done => rw [hS] at hs; exact ⟨hs.1, fun b hb => he _ (hs.2 b hb)⟩
  | undefined => rw [hS] at hs; exact hs

theorem slot_ne (c : Call K) {b b' j k : ℕ} (hb : b ≠ b') (hj : j < c.per) (hk : k < c.per) :
    c.slot b + j ≠ c.slot b' + k := by
  unfold Call.slot
  intro h
  rcases Nat.lt_or_gt_of_ne hb with hlt | hlt
  · have := Nat.mul_le_mul_left c.per (Nat.succ_le_of_lt hlt)
    rw [Nat.mul_succ] at this
    omega
  · have := Nat.mul_le_mul_left c.per (Nat.succ_le_of_lt hlt)
    rw [Nat.mul_succ] at this
    omega

theorem not_mem_erase {T : List ℕ} {j k : ℕ} (h : k ∉ T.erase j) : k = j ∨ k ∉ T := by
  by_cases hk : k = j
  · exact .inl hk
  · exact .inr fun hT => h ((List.mem_erase_of_ne hk).2 hT)

/-- A device step on stream `b` that changes the queue of `b` only (and the memory as said). -/
theorem Inv.device {c : Call K} {out : ℕ → K} {s s' : St K} {h b : ℕ} (hI : Inv c out s h)
    (hh : s'.host = s.host) (hp : s'.pinned = s.pinned)
    (hq : ∀ b' ≠ b, s'.queue b' = s.queue b') (hne : s.queue b ≠ [])
    (hr : Op.record ∈ s'.queue b → Op.record ∈ s.queue b)
    (hg : ∀ b' ≠ b, ∀ k < c.per, s'.gpu (c.slot b' + k) = s.gpu (c.slot b' + k))
    (ho : ∀ id < c.num, Stored c s id → Stored c s' id)
    (hf : ∀ q, (∀ id < c.num, c.dest id ≠ some (some q)) → s'.out q = s.out q)
    (hb : Stream c s' b h) : Inv c out s' h where
  host := hI.host.congr hh hp
    (fun b' => by
      by_cases hbb : b' = b
      · subst hbb; exact hr
      · rw [hq b' hbb]; exact id)
    (fun b' he => by
      by_cases hbb : b' = b
      · subst hbb; exact absurd he hne
      · rw [hq b' hbb]; exact he)
  stream b' hb' := by
    by_cases hbb : b' = b
    · subst hbb; exact hb
    · exact (hI.stream b' hb').congr (hq b' hbb) (hg b' hbb) (.inr fun k _ => by rw [hp]) ho
  frame q hq' := (hf q hq').trans (hI.frame q hq')

theorem record_not_mem_kern {c : Call K} {b i : ℕ} : Op.record ≠ kern c b i := by
  unfold kern; exact fun h => nomatch h

theorem Inv.streams {c : Call K} {out : ℕ → K} {s : St K} {h : ℕ} (hI : Inv c out s h) (host : Host) :
    ∀ b < 2, Stream c { s with host := host } b h := fun b hb =>
  (hI.stream b hb).congr rfl (fun _ _ => rfl) (.inr fun _ _ => rfl) fun _ _ h => h

theorem inv_step {c : Call K} (hc : c.Ok) {out : ℕ → K} {s s' : St K} {h : ℕ} (hI : Inv c out s h)
    (hs : Step c s s') : ∃ h', Inv c out s' h' := by
  have hH := hI.host
  unfold HostInv at hH
  cases hs with
  | @wait off b h1 h2 h3 h4 =>
    rw [h1] at hH
    obtain ⟨rfl, rfl⟩ := hH
    refine ⟨h, ⟨⟨rfl, rfl, h2, h3, h4, fun j hj => List.mem_range.1 hj,
      fun j hj hT => absurd (List.mem_range.2 hj) hT⟩, hI.streams _, hI.frame⟩⟩
  | @direct off b h1 h2 h3 =>
    rw [h1] at hH
    obtain ⟨rfl, rfl⟩ := hH
    exact ⟨h, ⟨⟨rfl, rfl, h2, fun hv => absurd hv (by rw [h3]; decide)⟩, hI.streams _, hI.frame⟩⟩
  | @copy off b j T h1 h2 =>
    rw [h1] at hH
    obtain ⟨rfl, rfl, h3, h4, h5, h6, h7⟩ := hH
    refine ⟨h, ⟨⟨rfl, rfl, h3, h4, h5, fun k hk => h6 k (List.mem_of_mem_erase hk), fun k hk hT => ?_⟩,
      fun b' hb' => ?_, hI.frame⟩⟩
    · show Function.update s.pinned (c.slot (h % 2) + j) _ (c.slot (h % 2) + k) = _
      rw [Function.update_apply]
      split
      · rename_i heq
        have : k = j := by omega
        rw [this]
      · rename_i hne
        rcases not_mem_erase hT with rfl | hT
        · exact absurd rfl hne
        · exact h7 k hk hT
    · refine (hI.stream b' hb').congr rfl (fun _ _ => rfl) ?_ fun _ _ h => h
      by_cases hb : b' = h % 2
      · subst hb; exact .inl ⟨h4, h5⟩
      · refine .inr fun k hk => ?_
        exact Function.update_of_ne (slot_ne c hb hk (n_lt (h6 j h2)).1) _ _
  | @copied off b h1 =>
    rw [h1] at hH
    obtain ⟨rfl, rfl, h3, h4, h5, h6, h7⟩ := hH
    exact ⟨h, ⟨⟨rfl, rfl, h3, fun _ => ⟨h5, fun j hj => h7 j hj (by simp)⟩⟩, hI.streams _, hI.frame⟩⟩
  | @launch off b h1 =>
    rw [h1] at hH
    obtain ⟨rfl, rfl, h3, h4⟩ := hH
    refine ⟨h + 1, ⟨⟨by ring, by simp [numBatches]⟩, fun b' hb' => ?_, hI.frame⟩⟩
    by_cases hb : b' = h % 2
    · subst hb
      rcases hI.stream (h % 2) hb' with ⟨k1, k2⟩ | ⟨pre, cur, L, front, k1, k2, k3, k4⟩
      · refine .inr ⟨batches (h % 2) h, h, [], c.ops (h * c.per) (h % 2), batches_succ_self rfl, k2, ?_, ?_⟩
        · exact .memcpy (List.range (c.n h)) (fun j hj => List.mem_range.1 hj)
            (fun j hj hT => absurd (List.mem_range.2 hj) hT) fun hv => ⟨rfl, (h4 hv).2⟩
        · show Function.update s.queue (h % 2) _ (h % 2) = _
          rw [Function.update_self, k1, ops_eq]
          simp
      · refine .inr ⟨pre, cur, L ++ [h], front, by rw [batches_succ_self rfl, k1]; simp, k2, ?_, ?_⟩
        · cases k3 with
          | memcpy T f1 f2 f3 =>
            refine .memcpy T f1 f2 fun hv => absurd ?_ (h4 hv).1
            rw [k4]
            simp [recs, hv]
          | record f1 f2 f3 =>
            refine absurd ?_ (h4 f1).1
            rw [k4]
            simp
          | kernel T f1 f2 f3 f4 =>
            refine .kernel T f1 f2 f3 fun hv => ?_
            have hL : L = [] := by
              by_contra hL
              obtain ⟨x, hx⟩ := List.exists_mem_of_ne_nil L hL
              refine absurd ?_ (h4 hv).1
              rw [k4]
              refine List.mem_append_right _ (List.mem_flatMap.2 ⟨x, hx, ?_⟩)
              simp [Call.ops, hv]
            subst hL
            refine ⟨by simp, fun x hx => ?_⟩
            have : x = h := by simpa using hx
            subst this
            exact (h4 hv).2
        · show Function.update s.queue (h % 2) _ (h % 2) = _
          rw [Function.update_self, k4]
          simp
    · have hbat : batches b' (h + 1) = batches b' h := batches_succ_other fun h => hb h.symm
      have hq : Function.update s.queue (h % 2) (s.queue (h % 2) ++ c.ops (h * c.per) (h % 2)) b' = s.queue b' :=
        Function.update_of_ne hb _ _
      have := (hI.stream b' hb').congr (s' := { s with
        queue := Function.update s.queue (h % 2) (s.queue (h % 2) ++ c.ops (h * c.per) (h % 2))
        host := .batch (h * c.per + c.per) ((h % 2 + 1) % numBatches) }) hq (fun _ _ => rfl)
        (.inr fun _ _ => rfl) fun _ _ h => h
      unfold Stream at this ⊢
      rw [hbat]
      exact this
  | @exit off b h1 h2 =>
    rw [h1] at hH
    obtain ⟨rfl, rfl⟩ := hH
    exact ⟨h, ⟨⟨h2, fun b hb => absurd hb (Nat.not_lt_zero _)⟩, hI.streams _, hI.frame⟩⟩
  | @sync i h1 h2 h3 =>
    rw [h1] at hH
    refine ⟨h, ⟨⟨hH.1, fun b hb hb2 => ?_⟩, hI.streams _, hI.frame⟩⟩
    rcases Nat.lt_succ_iff_lt_or_eq.1 hb with hb | rfl
    · exact hH.2 b hb hb2
    · exact h3
  | @«return» i h1 h2 =>
    rw [h1] at hH
    exact ⟨h, ⟨⟨hH.1, fun b hb => hH.2 b (lt_of_lt_of_le hb h2) hb⟩, hI.streams _, hI.frame⟩⟩
  | @transfer b d j src T rest hb h1 h2 =>
    refine ⟨h, ?_⟩
    rcases hI.stream b hb with ⟨k1, -⟩ | ⟨pre, cur, L, front, k1, k2, k3, k4⟩
    · rw [k1] at h1; cases h1
    cases k3 with
    | record f1 f2 f3 => rw [h1] at k4; cases k4
    | kernel T f1 f2 f3 f4 => rw [h1] at k4; cases k4
    | memcpy T' f1 f2 f3 =>
      rw [h1] at k4
      injection k4 with e1 e2
      injection e1 with e3 e4 e5
      subst e3 e4 e5 e2
      have hread : c.read s (c.src (cur * c.per) b) j = c.«from» (cur * c.per + j) := by
        unfold Call.src
        cases hv : c.viaPinned with
        | false => rfl
        | true => exact (f3 hv).2 j (f1 j h2)
      refine hI.device (b := b) rfl rfl (fun b' hb' => Function.update_of_ne hb' _ _) (by rw [h1]; simp) ?_ ?_
        (fun _ _ h => h) (fun _ _ => rfl) ?_
      · show Op.record ∈ Function.update s.queue b _ b → _
        rw [Function.update_self, h1]
        intro hm
        simpa using hm
      · intro b' hb' k hk
        exact Function.update_of_ne (slot_ne c hb' hk (n_lt (f1 j h2)).1) _ _
      · refine .inr ⟨pre, cur, L, _, k1, k2, .memcpy (T.erase j) (fun k hk => f1 k (List.mem_of_mem_erase hk))
          (fun k hk hT => ?_) f3, ?_⟩
        · show Function.update s.gpu (c.slot b + j) _ (c.slot b + k) = _
          rw [Function.update_apply]
          split
          · rename_i heq
            have : k = j := by omega
            rw [this]
            exact hread
          · rename_i hne
            rcases not_mem_erase hT with rfl | hT
            · exact absurd rfl hne
            · exact f2 k hk hT
        · show Function.update s.queue b _ b = _
          rw [Function.update_self]
          rfl
  | @transferred b d src rest hb h1 =>
    refine ⟨h, ?_⟩
    rcases hI.stream b hb with ⟨k1, -⟩ | ⟨pre, cur, L, front, k1, k2, k3, k4⟩
    · rw [k1] at h1; cases h1
    cases k3 with
    | record f1 f2 f3 => rw [h1] at k4; cases k4
    | kernel T f1 f2 f3 f4 => rw [h1] at k4; cases k4
    | memcpy T' f1 f2 f3 =>
      rw [h1] at k4
      injection k4 with e1 e2
      injection e1 with e3 e4 e5
      subst e3 e4 e5 e2
      refine hI.device (b := b) rfl rfl (fun b' hb' => Function.update_of_ne hb' _ _) (by rw [h1]; simp) ?_
        (fun _ _ _ _ => rfl) (fun _ _ h => h) (fun _ _ => rfl) ?_
      · show Op.record ∈ Function.update s.queue b _ b → _
        rw [Function.update_self, h1]
        exact List.mem_cons_of_mem _
      · have hG : GpuOk c s b cur := fun j hj => f2 j hj (by simp)
        by_cases hv : c.viaPinned = true
        · refine .inr ⟨pre, cur, L, _, k1, k2, .record hv (f3 hv).1 hG, ?_⟩
          show Function.update s.queue b _ b = _
          rw [Function.update_self]
          simp [recs, hv]
        · refine .inr ⟨pre, cur, L, _, k1, k2, .kernel (List.range (c.n cur)) (fun j hj => List.mem_range.1 hj) hG
            (fun j hj hT => absurd (List.mem_range.2 hj) hT) (fun h => absurd h hv), ?_⟩
          show Function.update s.queue b _ b = _
          rw [Function.update_self]
          simp [recs, hv, kern]
  | @record b rest hb h1 =>
    refine ⟨h, ?_⟩
    rcases hI.stream b hb with ⟨k1, -⟩ | ⟨pre, cur, L, front, k1, k2, k3, k4⟩
    · rw [k1] at h1; cases h1
    cases k3 with
    | memcpy T f1 f2 f3 => rw [h1] at k4; cases k4
    | kernel T f1 f2 f3 f4 => rw [h1] at k4; cases k4
    | record f1 f2 f3 =>
      rw [h1] at k4
      injection k4 with e1 e2
      subst e2 f2
      refine hI.device (b := b) rfl rfl (fun b' hb' => Function.update_of_ne hb' _ _) (by rw [h1]; simp) ?_
        (fun _ _ _ _ => rfl) (fun _ _ h => h) (fun _ _ => rfl) ?_
      · intro _
        rw [h1]
        simp
      · refine .inr ⟨pre, cur, [], _, k1, k2, .kernel (List.range (c.n cur)) (fun j hj => List.mem_range.1 hj) f3
          (fun j hj hT => absurd (List.mem_range.2 hj) hT) (fun _ => ⟨by simp, by simp⟩), ?_⟩
        show Function.update s.queue b _ b = _
        rw [Function.update_self]
        rfl
  | @thread b p off j o T rest hb h1 h2 h3 =>
    refine ⟨h, ?_⟩
    rcases hI.stream b hb with ⟨k1, -⟩ | ⟨pre, cur, L, front, k1, k2, k3, k4⟩
    · rw [k1] at h1; cases h1
    cases k3 with
    | memcpy T f1 f2 f3 => rw [h1] at k4; cases k4
    | record f1 f2 f3 => rw [h1] at k4; cases k4
    | kernel T' f1 f2 f3 f4 =>
      rw [h1] at k4
      injection k4 with e1 e2
      injection e1 with e3 e4 e5
      subst e3 e4 e5 e2
      have hval : s.gpu (c.slot b + j) = c.«from» (cur * c.per + j) := f2 j (f1 j h2)
      have hid := (n_lt (f1 j h2)).2
      have hst : ∀ id < c.num, Stored c s id ∨ id = cur * c.per + j →
          ∀ q, c.dest id = some (some q) → store s.out o (s.gpu (c.slot b + j)) q = c.«from» id := by
        intro id hlt hor q hq
        cases o with
        | none =>
          rcases hor with hor | rfl
          · exact hor q hq
          · rw [h3] at hq; cases hq
        | some q0 =>
          show Function.update s.out q0 _ q = _
          rw [Function.update_apply]
          split
          · rename_i heq
            subst heq
            rw [hval, hc.inj _ hid _ hlt q h3 hq]
          · rename_i hne
            rcases hor with hor | rfl
            · exact hor q hq
            · rw [h3] at hq
              injection hq with hq
              injection hq with hq
              exact absurd hq.symm hne
      refine hI.device (b := b) rfl rfl (fun b' hb' => Function.update_of_ne hb' _ _) (by rw [h1]; simp) ?_
        (fun _ _ _ _ => rfl) (fun id hlt hS q hq => hst id hlt (.inl hS) q hq) ?_ ?_
      · show Op.record ∈ Function.update s.queue b _ b → _
        rw [Function.update_self, h1]
        intro hm
        simpa using hm
      · intro q hq
        cases o with
        | none => rfl
        | some q0 =>
          refine Function.update_of_ne ?_ _ _
          rintro rfl
          exact hq _ hid h3
      · refine .inr ⟨pre, cur, L, _, k1, fun i hi k hk q hq => hst _ (n_lt hk).2 (.inl (k2 i hi k hk)) q hq,
          .kernel (T.erase j) (fun k hk => f1 k (List.mem_of_mem_erase hk)) f2 (fun k hk hT q hq => ?_) f4, ?_⟩
        · refine hst _ (n_lt hk).2 ?_ q hq
          rcases not_mem_erase hT with rfl | hT
          · exact .inr rfl
          · exact .inl (f3 k hk hT)
        · show Function.update s.queue b _ b = _
          rw [Function.update_self]
          rfl
  | @outOfRange b p off j T rest hb h1 h2 h3 =>
    exfalso
    rcases hI.stream b hb with ⟨k1, -⟩ | ⟨pre, cur, L, front, k1, k2, k3, k4⟩
    · rw [k1] at h1; cases h1
    cases k3 with
    | memcpy T f1 f2 f3 => rw [h1] at k4; cases k4
    | record f1 f2 f3 => rw [h1] at k4; cases k4
    | kernel T' f1 f2 f3 f4 =>
      rw [h1] at k4
      injection k4 with e1 e2
      injection e1 with e3 e4 e5
      subst e3 e4 e5 e2
      exact hc.def' _ (n_lt (f1 j h2)).2 h3
  | @finished b p off rest hb h1 =>
    refine ⟨h, ?_⟩
    rcases hI.stream b hb with ⟨k1, -⟩ | ⟨pre, cur, L, front, k1, k2, k3, k4⟩
    · rw [k1] at h1; cases h1
    cases k3 with
    | memcpy T f1 f2 f3 => rw [h1] at k4; cases k4
    | record f1 f2 f3 => rw [h1] at k4; cases k4
    | kernel T' f1 f2 f3 f4 =>
      rw [h1] at k4
      injection k4 with e1 e2
      injection e1 with e3 e4 e5
      subst e3 e4 e5 e2
      have hD : Done c s cur := fun j hj => f3 j hj (by simp)
      have hpre : ∀ i ∈ pre ++ [cur], Done c s i := by
        intro i hi
        rcases List.mem_append.1 hi with hi | hi
        · exact k2 i hi
        · have : i = cur := by simpa using hi
          rw [this]; exact hD
      refine hI.device (b := b) rfl rfl (fun b' hb' => Function.update_of_ne hb' _ _) (by rw [h1]; simp) ?_
        (fun _ _ _ _ => rfl) (fun _ _ h => h) (fun _ _ => rfl) ?_
      · show Op.record ∈ Function.update s.queue b _ b → _
        rw [Function.update_self, h1]
        exact List.mem_cons_of_mem _
      · cases L with
        | nil =>
          refine .inl ⟨?_, ?_⟩
          · show Function.update s.queue b _ b = _
            rw [Function.update_self]
            rfl
          · rw [k1]
            exact hpre
        | cons x L =>
          refine .inr ⟨pre ++ [cur], x, L, _, by rw [k1]; simp, hpre,
            .memcpy (List.range (c.n x)) (fun j hj => List.mem_range.1 hj)
            (fun j hj hT => absurd (List.mem_range.2 hj) hT) (fun hv => ⟨?_, ?_⟩), ?_⟩
          · have := (f4 hv).1
            rw [← List.length_eq_zero_iff]
            rw [List.length_cons] at this
            omega
          · exact (f4 hv).2 x (by simp)
          · show Function.update s.queue b _ b = _
            rw [Function.update_self]
            rfl

theorem inv_start (c : Call K) (pinned gpu out : ℕ → K) : Inv c out (start pinned gpu out) 0 where
  host := ⟨by simp, rfl⟩
  stream _ _ := .inl ⟨rfl, fun i hi => by simp [batches] at hi⟩
  frame _ _ := rfl

theorem inv_reach {c : Call K} (hc : c.Ok) {pinned gpu out : ℕ → K} {s : St K}
    (h : Reach c pinned gpu out s) : ∃ h', Inv c out s h' := by
  induction h with
  | refl => exact ⟨0, inv_start c pinned gpu out⟩
  | tail _ hs ih =>
    obtain ⟨h', hI⟩ := ih
    exact inv_step hc hI hs

end Ceres.CrsView
