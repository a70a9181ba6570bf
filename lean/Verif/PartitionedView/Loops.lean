import Verif.PartitionedView.Model
import Verif.PartitionedView.Parts
import Verif.BlockSparse.Races

/-!
# Loops whose indices own disjoint parts of the result
-/
namespace Ceres.PartitionedView

open Matrix Ceres.Tasks Ceres.BlockSparse

variable {K : Type} [CommRing K]
  {f : Block → Block → ℕ → Prog K → Prog K} {es : Mem K → Block → Block → ℕ → List (Loc × K)}
  {reads : Block → Block → ℕ → Loc → Prop}

/-- The additions of some cells. -/
def listEs (es : Mem K → Block → Block → ℕ → List (Loc × K)) (m : Mem K) (l : List Triple) : List (Loc × K) :=
  l.flatMap fun t => es m t.1 t.2.1 t.2.2

/-- What the additions of some cells come to. -/
def total (es : Mem K → Block → Block → ℕ → List (Loc × K)) (m : Mem K) (l : List Triple) (x : Loc) : K :=
  (l.map fun t => Tasks.sumAt (es m t.1 t.2.1 t.2.2) x).sum

theorem sumAt_listEs (m : Mem K) (l : List Triple) (x : Loc) :
    Tasks.sumAt (listEs es m l) x = total es m l x := sumAt_flatMap _ _ _

theorem total_append (m : Mem K) (a b : List Triple) (x : Loc) :
    total es m (a ++ b) x = total es m a x + total es m b x := by simp [total]

theorem total_perm (m : Mem K) {a b : List Triple} (h : a.Perm b) (x : Loc) :
    total es m a x = total es m b x := (h.map _).sum_eq

theorem total_zero {m : Mem K} {l : List Triple} {x : Loc}
    (h : ∀ t ∈ l, ∀ e ∈ es m t.1 t.2.1 t.2.2, e.1 ≠ x) : total es m l x = 0 := by
  refine List.sum_eq_zero fun z hz => ?_
  obtain ⟨t, ht, rfl⟩ := List.mem_map.1 hz
  exact sumAt_of_not_mem (h t ht)

theorem kernels_runs (h : IsAdd f es reads) {kind : Loc → Kind Empty} {free : Bool} {tid i : ℕ} {m0 : Mem K}
    {l : List Triple} {k : Prog K} {p p' : Mem K} {a : List (Loc × K)}
    (h1 : ∀ t ∈ l, ∀ x, reads t.1 t.2.1 t.2.2 x → kind x = .fixed)
    (h2 : ∀ t ∈ l, ∀ e ∈ es m0 t.1 t.2.1 t.2.2, Mine kind tid i e.1)
    (hr : Runs kind free tid i m0 none k (addTo (listEs es m0 l) p) p' a) :
    Runs kind free tid i m0 none (kernels f l k) p p' a := by
  unfold kernels listEs at *
  induction l generalizing p with
  | nil => exact hr
  | cons c cs ih =>
    rw [List.foldr_cons]
    refine h.runs (h1 c (by simp)) (h2 c (by simp)) ?_
    refine ih (fun c' hc => h1 c' (by simp [hc])) (fun c' hc => h2 c' (by simp [hc])) ?_
    rw [List.flatMap_cons, addTo_append] at hr
    exact hr

theorem zeros_runs {kind : Loc → Kind Empty} {free : Bool} {tid i : ℕ} {m0 : Mem K} {z : List ℕ} {k : Prog K}
    {p p' : Mem K} {a : List (Loc × K)} (h1 : ∀ r ∈ z, Mine kind tid i (.y r))
    (hr : Runs kind free tid i m0 none k (setTo (z.map fun r => (Loc.y r, (0 : K))) p) p' a) :
    Runs kind free tid i m0 none (zeros z k) p p' a := by
  refine runs_writes _ ?_ hr
  intro e he
  obtain ⟨r, hr, rfl⟩ := List.mem_map.1 he
  exact h1 r hr

theorem setTo_zeros (z : List ℕ) (p : Mem K) (l : Loc) :
    setTo (z.map fun r => (Loc.y r, (0 : K))) p l = if ∃ r ∈ z, l = .y r then 0 else p l := by
  induction z generalizing p with
  | nil => simp [setTo]
  | cons a z ih =>
    have : setTo ((a :: z).map fun r => (Loc.y r, (0 : K))) p =
        setTo (z.map fun r => (Loc.y r, (0 : K))) (upd p (.y a) 0) := rfl
    rw [this, ih]
    by_cases h : ∃ r ∈ z, l = .y r
    · obtain ⟨r, hr, rfl⟩ := h
      rw [if_pos ⟨r, hr, rfl⟩, if_pos ⟨r, List.mem_cons_of_mem _ hr, rfl⟩]
    · rw [if_neg h]
      by_cases ha : l = .y a
      · rw [if_pos ⟨a, by simp, ha⟩, ha]; simp [upd]
      · rw [if_neg, upd, if_neg ha]
        rintro ⟨r, hr, rfl⟩
        rcases List.mem_cons.1 hr with rfl | hr
        · exact ha rfl
        · exact h ⟨r, hr, rfl⟩

/-- The kinds: `nx` elements of the vector and `nv` values may be read, element `r` of the result belongs to
index `own r`. -/
def ownKind (own : ℕ → ℕ) (nx nv stop : ℕ) : Loc → Kind Empty
  | .x i => if i < nx then .fixed else .own stop
  | .y r => .own (own r)
  | .val p => if p < nv then .fixed else .own stop

/-- What a loop may assume of its cells: index `i` has the cells `tri i`, after it has set `zero i` to zero. -/
structure Owned (es : Mem K → Block → Block → ℕ → List (Loc × K)) (reads : Block → Block → ℕ → Loc → Prop)
    (tri : ℕ → List Triple) (zero : ℕ → List ℕ) (own : ℕ → ℕ) (start stop nx nv : ℕ) (m : Mem K) : Prop where
  reads : ∀ i, start ≤ i → i < stop → ∀ t ∈ tri i, ∀ l, reads t.1 t.2.1 t.2.2 l →
    (∃ k < nx, l = .x k) ∨ ∃ p < nv, l = .val p
  adds : ∀ i, start ≤ i → i < stop → ∀ t ∈ tri i, ∀ e ∈ es m t.1 t.2.1 t.2.2, ∃ k, own k = i ∧ e.1 = .y k
  zeros : ∀ i, start ≤ i → i < stop → ∀ k ∈ zero i, own k = i

variable {tri : ℕ → List Triple} {zero : ℕ → List ℕ} {own : ℕ → ℕ} {start stop nx nv threads : ℕ} {m : Mem K}

/-- What the loop leaves in the part of an index. -/
noncomputable def ownFin (es : Mem K → Block → Block → ℕ → List (Loc × K)) (tri : ℕ → List Triple)
    (zero : ℕ → List ℕ) (own : ℕ → ℕ) (m : Mem K) : Mem K
  | .y r => (if r ∈ zero (own r) then 0 else m (.y r)) + total es m (tri (own r)) (.y r)
  | l => m l

theorem own_disciplined (h : IsAdd f es reads) (ho : Owned es reads tri zero own start stop nx nv m) :
    Disciplined (ownKind own nx nv stop) (fun _ i => zeros (zero i) (kernels f (tri i) .ret)) start stop threads m
      (ownFin es tri zero own m) fun _ _ => 0 := by
  refine ⟨fun i tid h1 h2 _ p hm => ?_⟩
  refine ⟨addTo (listEs es m (tri i)) (setTo ((zero i).map fun r => (Loc.y r, (0 : K))) p), [], ?_, ?_, ?_⟩
  · refine zeros_runs ?_ (kernels_runs h ?_ ?_ (.ret _))
    · intro r hr
      exact Or.inr (by simp only [ownKind]; rw [ho.zeros i h1 h2 r hr])
    · intro t ht l hl
      rcases ho.reads i h1 h2 t ht l hl with ⟨k, hk, rfl⟩ | ⟨k, hk, rfl⟩
      · exact if_pos hk
      · exact if_pos hk
    · intro t ht e he
      obtain ⟨k, k1, k2⟩ := ho.adds i h1 h2 t ht e he
      exact Or.inr (by rw [k2]; simp only [ownKind]; rw [k1])
  · intro l hl
    rw [addTo_eq, sumAt_listEs, setTo_zeros]
    cases l with
    | y r =>
      have hk : own r = i := by
        have : Kind.own (M := Empty) (own r) = .own i := hl
        injection this
      simp only [ownFin]
      rw [hk, hm _ hl]
      congr 1
      by_cases hz : r ∈ zero i
      · rw [if_pos hz, if_pos ⟨r, hz, rfl⟩]
      · rw [if_neg hz, if_neg]
        rintro ⟨r', hr', he⟩
        injection he with he
        exact hz (he ▸ hr')
    | x j =>
      simp only [ownKind] at hl
      split_ifs at hl with h1
      injection hl with hl
      omega
    | val j =>
      simp only [ownKind] at hl
      split_ifs at hl with h1
      injection hl with hl
      omega
  · intro l x hl
    cases x

theorem total_flatMap (l : List ℕ) (x : Loc) :
    total es m (l.flatMap tri) x = (l.map fun i => total es m (tri i) x).sum := by
  unfold total
  rw [Sparse.sum_flatMap]

open Classical in
/-- **The loop adds what its cells say**, whatever the schedule. -/
theorem own_result (ho : Owned es reads tri zero own start stop nx nv m) {m' : Mem K} {inc : ℕ → Mem K}
    (h : Result (ownKind own nx nv stop) start stop m (ownFin es tri zero own m) inc m') (l : Loc) :
    m' l = (if ∃ r, l = .y r ∧ ∃ i, start ≤ i ∧ i < stop ∧ r ∈ zero i then 0 else m l) +
      total es m ((List.range' start (stop - start)).flatMap tri) l := by
  have hoff : ∀ l, (∀ r, l ≠ .y r) → total es m ((List.range' start (stop - start)).flatMap tri) l = 0 := by
    intro l hl
    refine total_zero fun t ht e he heq => ?_
    obtain ⟨i, hi, ht⟩ := List.mem_flatMap.1 ht
    rw [List.mem_range'_1] at hi
    obtain ⟨k, -, k2⟩ := ho.adds i hi.1 (by omega) t ht e he
    exact hl k (heq ▸ k2)
  cases l with
  | x j =>
    rw [hoff _ (fun r h => Loc.noConfusion h), add_zero, if_neg (by rintro ⟨r, h, -⟩; exact Loc.noConfusion h)]
    by_cases hj : j < nx
    · exact h.fixed (.x j) (if_pos hj)
    · rw [h.own (.x j) stop (if_neg hj), if_neg (by omega)]
  | val j =>
    rw [hoff _ (fun r h => Loc.noConfusion h), add_zero, if_neg (by rintro ⟨r, h, -⟩; exact Loc.noConfusion h)]
    by_cases hj : j < nv
    · exact h.fixed (.val j) (if_pos hj)
    · rw [h.own (.val j) stop (if_neg hj), if_neg (by omega)]
  | y r =>
    rw [h.own (.y r) (own r) rfl, total_flatMap]
    have hzero : ∀ i, start ≤ i → i < stop → i ≠ own r → total es m (tri i) (.y r) = 0 := by
      intro i h1 h2 hne
      refine total_zero fun t ht e he heq => hne ?_
      obtain ⟨k, k1, k2⟩ := ho.adds i h1 h2 t ht e he
      rw [heq] at k2
      injection k2 with k2
      rw [← k1, k2]
    by_cases hin : start ≤ own r ∧ own r < stop
    · rw [if_pos hin]
      show (if r ∈ zero (own r) then 0 else m (.y r)) + total es m (tri (own r)) (.y r) = _
      congr 1
      · by_cases hz : r ∈ zero (own r)
        · rw [if_pos hz, if_pos ⟨r, rfl, _, hin.1, hin.2, hz⟩]
        · rw [if_neg hz, if_neg]
          rintro ⟨r', he, i, h1, h2, h3⟩
          injection he with he
          subst he
          exact hz (by rw [ho.zeros i h1 h2 r h3]; exact h3)
      · rw [sum_single (fun i => total es m (tri i) (.y r)) _ (own r - start)]
        · rw [List.getElem?_range' (by omega)]
          simp only [Nat.one_mul]
          congr 2
          omega
        · intro i hi hne
          rw [List.length_range'] at hi
          rw [List.getElem_range']
          exact hzero _ (by omega) (by omega) (by omega)
    · rw [if_neg hin, if_neg, List.sum_eq_zero, add_zero]
      · intro z hz
        obtain ⟨i, hi, rfl⟩ := List.mem_map.1 hz
        rw [List.mem_range'_1] at hi
        exact hzero i hi.1 (by omega) (by rintro rfl; omega)
      · rintro ⟨r', he, i, h1, h2, h3⟩
        injection he with he
        subst he
        rw [ho.zeros i h1 h2 r h3] at hin
        omega

/-- What a loop may access. -/
theorem own_inBounds {ny : ℕ} (hy : ∀ r, start ≤ own r → own r < stop → r < ny) {l : Loc}
    (hl : Usable (ownKind own nx nv stop) start stop l) : InBounds nx ny nv l := by
  cases l with
  | x i =>
    by_contra hi
    have hi' : ¬ i < nx := hi
    simp only [Usable, ownKind, if_neg hi'] at hl
    omega
  | val p =>
    by_contra hi
    have hi' : ¬ p < nv := hi
    simp only [Usable, ownKind, if_neg hi'] at hl
    omega
  | y r => exact hy r hl.1 hl.2

open Classical in
/-- The same work by one thread. -/
theorem alone_result (h : IsAdd f es reads) (z : List ℕ) (l : List Triple)
    (h1 : ∀ t ∈ l, ∀ x, reads t.1 t.2.1 t.2.2 x → (∃ i, x = .x i) ∨ ∃ p, x = .val p)
    (h2 : ∀ t ∈ l, ∀ e ∈ es m t.1 t.2.1 t.2.2, ∃ k, e.1 = .y k) :
    ∃ m', runAlone (zeros z (kernels f l .ret)) m = some m' ∧
      ∀ x, m' x = (if ∃ r ∈ z, x = .y r then 0 else m x) + total es m l x := by
  have hr : Runs (fun | Loc.y _ => .own 0 | _ => .fixed) true 0 0 m none (zeros z (kernels f l .ret)) m
      (addTo (listEs es m l) (setTo (z.map fun r => (Loc.y r, (0 : K))) m)) [] := by
    refine zeros_runs (fun r _ => Or.inr rfl) (kernels_runs h ?_ ?_ (.ret _))
    · intro t ht x hx
      rcases h1 t ht x hx with ⟨j, rfl⟩ | ⟨j, rfl⟩ <;> rfl
    · intro t ht e he
      obtain ⟨k, hk⟩ := h2 t ht e he
      exact Or.inr (by rw [hk])
  obtain ⟨m', e1, e2, -, e4⟩ := exec_runs hr m (fun _ => false) (fun _ _ => rfl) (fun _ _ => rfl) (by simp)
  refine ⟨m', by unfold runAlone; rw [e1]; rfl, fun x => ?_⟩
  have hoff : (∀ r, x ≠ .y r) → total es m l x = 0 := by
    intro hx
    refine total_zero fun t ht e he heq => ?_
    obtain ⟨k, hk⟩ := h2 t ht e he
    exact hx k (heq ▸ hk)
  cases x with
  | y r =>
    rw [e2 _ (Or.inr rfl), addTo_eq, sumAt_listEs, setTo_zeros]
  | x i =>
    rw [e4 _ (by rintro (h | h) <;> exact nomatch h) (fun x => by cases x), hoff (fun r h => Loc.noConfusion h),
      add_zero, if_neg (by rintro ⟨r, -, h⟩; exact Loc.noConfusion h)]
  | val i =>
    rw [e4 _ (by rintro (h | h) <;> exact nomatch h) (fun x => by cases x), hoff (fun r h => Loc.noConfusion h),
      add_zero, if_neg (by rintro ⟨r, -, h⟩; exact Loc.noConfusion h)]

end Ceres.PartitionedView
