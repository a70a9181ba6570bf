import Verif.Tasks.Props
import Mathlib.Data.Fin.Tuple.Basic
import Mathlib.Data.Matrix.Basic
import Mathlib.Data.List.FinRange

/-!
# Pieces of code: adding to, writing and reading rows of locations
-/
namespace Ceres.Tasks

variable {L M K : Type} [DecidableEq L] [DecidableEq M]

/-- `*l += v` for a list of locations. -/
def adds [Add K] : List (L × K) → Code L M K → Code L M K
  | [], k => k
  | e :: es, k => .read e.1 fun x => .write e.1 (x + e.2) (adds es k)

/-- `*l = v` for a list of locations. -/
def writes : List (L × K) → Code L M K → Code L M K
  | [], k => k
  | e :: es, k => .write e.1 e.2 (writes es k)

/-- Reading `n` locations. -/
def readVec : (n : ℕ) → (Fin n → L) → ((Fin n → K) → Code L M K) → Code L M K
  | 0, _, k => k Fin.elim0
  | n + 1, loc, k => .read (loc 0) fun v => readVec n (fun i => loc i.succ) fun vs => k (Fin.cons v vs)

/-- Reading `m` rows of `n` locations. -/
def readMat : (m n : ℕ) → (Fin m → Fin n → L) → (Matrix (Fin m) (Fin n) K → Code L M K) → Code L M K
  | 0, _, _, k => k fun i => i.elim0
  | m + 1, n, loc, k =>
    readVec n (loc 0) fun v => readMat m n (fun i => loc i.succ) fun vs => k (Fin.cons v vs)

/-- The entries of a vector with their locations. -/
def vecEntries {n : ℕ} (v : Fin n → K) (loc : Fin n → L) : List (L × K) :=
  (List.finRange n).map fun i => (loc i, v i)

/-- The entries of a matrix with their locations, row by row. -/
def matEntries {m n : ℕ} (A : Matrix (Fin m) (Fin n) K) (loc : Fin m → Fin n → L) : List (L × K) :=
  (List.finRange m).flatMap fun i => (List.finRange n).map fun j => (loc i j, A i j)

/-- `MakeConditionalLock` (parallel_for.h:48-52): no mutex with one thread. -/
def condLock (threads : ℕ) (x : M) (k : Code L M K) : Code L M K :=
  if threads = 1 then k else .lock x k

/-- The end of the scope of a conditional lock. -/
def condUnlock (threads : ℕ) (x : M) (k : Code L M K) : Code L M K :=
  if threads = 1 then k else .unlock x k

/-- A memory after some additions. -/
def addTo [Add K] (es : List (L × K)) (p : L → K) : L → K :=
  es.foldl (fun p e => upd p e.1 (p e.1 + e.2)) p

/-- A memory after some assignments. -/
def setTo (es : List (L × K)) (p : L → K) : L → K := es.foldl (fun p e => upd p e.1 e.2) p

theorem setTo_of_not_mem {es : List (L × K)} {p : L → K} {l : L} (h : ∀ e ∈ es, e.1 ≠ l) :
    setTo es p l = p l := by
  unfold setTo
  induction es generalizing p with
  | nil => rfl
  | cons e es ih =>
    rw [List.foldl_cons, ih fun e' he => h e' (by simp [he])]
    exact if_neg fun he => h e (by simp) he.symm

theorem setTo_of_mem {es : List (L × K)} {p : L → K} {e : L × K}
    (hn : (es.map Prod.fst).Nodup) (he : e ∈ es) : setTo es p e.1 = e.2 := by
  induction es generalizing p with
  | nil => cases he
  | cons e' es ih =>
    rw [List.map_cons, List.nodup_cons] at hn
    rcases List.mem_cons.1 he with rfl | he
    · have : setTo (e :: es) p e.1 = setTo es (upd p e.1 e.2) e.1 := rfl
      rw [this, setTo_of_not_mem]
      · simp [upd]
      · intro e'' he' h
        exact hn.1 (List.mem_map.2 ⟨e'', he', h⟩)
    · exact ih (p := upd p e'.1 e'.2) hn.2 he

theorem mem_matEntries {m n : ℕ} {A : Matrix (Fin m) (Fin n) K} {loc : Fin m → Fin n → L}
    {e : L × K} : e ∈ matEntries A loc ↔ ∃ i j, e = (loc i j, A i j) := by
  unfold matEntries
  simp only [List.mem_flatMap, List.mem_finRange, List.mem_map, true_and]
  constructor
  · rintro ⟨i, j, rfl⟩; exact ⟨i, j, rfl⟩
  · rintro ⟨i, j, rfl⟩; exact ⟨i, j, rfl⟩

theorem mem_vecEntries {n : ℕ} {v : Fin n → K} {loc : Fin n → L}
    {e : L × K} : e ∈ vecEntries v loc ↔ ∃ i, e = (loc i, v i) := by
  unfold vecEntries
  simp only [List.mem_finRange, List.mem_map, true_and]
  constructor
  · rintro ⟨i, rfl⟩; exact ⟨i, rfl⟩
  · rintro ⟨i, rfl⟩; exact ⟨i, rfl⟩

theorem matEntries_nodup {m n : ℕ} {A : Matrix (Fin m) (Fin n) K} {loc : Fin m → Fin n → L}
    (h : ∀ i j i' j', loc i j = loc i' j' → i = i' ∧ j = j') :
    ((matEntries A loc).map Prod.fst).Nodup := by
  unfold matEntries
  rw [List.map_flatMap]
  rw [List.nodup_flatMap]
  refine ⟨fun i _ => ?_, ?_⟩
  · rw [List.map_map]
    refine List.Nodup.map (fun j j' hj => (h i j i j' hj).2) (List.nodup_finRange n)
  · refine (List.nodup_finRange m).imp fun {i i'} hne => ?_
    intro l h1 h2
    simp only [List.map_map, List.mem_map, List.mem_finRange, true_and, Function.comp] at h1 h2
    obtain ⟨j, rfl⟩ := h1
    obtain ⟨j', h2⟩ := h2
    exact hne (h i' j' i j h2).1.symm

theorem vecEntries_nodup {n : ℕ} {v : Fin n → K} {loc : Fin n → L} (h : Function.Injective loc) :
    ((vecEntries v loc).map Prod.fst).Nodup := by
  unfold vecEntries
  rw [List.map_map]
  exact List.Nodup.map h (List.nodup_finRange n)

section
variable [AddCommMonoid K]

theorem addTo_of_not_mem {es : List (L × K)} {p : L → K} {l : L} (h : ∀ e ∈ es, e.1 ≠ l) :
    addTo es p l = p l := by
  unfold addTo
  induction es generalizing p with
  | nil => rfl
  | cons e es ih =>
    rw [List.foldl_cons, ih fun e' he => h e' (by simp [he])]
    exact if_neg fun he => h e (by simp) he.symm

theorem addTo_eq (es : List (L × K)) (p : L → K) (l : L) : addTo es p l = p l + sumAt es l := by
  unfold addTo
  induction es generalizing p with
  | nil => simp [sumAt]
  | cons e es ih =>
    rw [List.foldl_cons, ih, sumAt_cons, ← add_assoc]
    congr 1
    by_cases h : l = e.1
    · subst h; simp [upd]
    · rw [if_neg (Ne.symm h), add_zero]; simp [upd, h]

theorem sumAt_of_not_mem {es : List (L × K)} {l : L} (h : ∀ e ∈ es, e.1 ≠ l) : sumAt es l = 0 := by
  induction es with
  | nil => rfl
  | cons e es ih =>
    rw [sumAt_cons, if_neg (h e (by simp)), ih fun e' he => h e' (by simp [he]), add_zero]

theorem sumAt_of_mem {es : List (L × K)} {e : L × K} (hn : (es.map Prod.fst).Nodup) (he : e ∈ es) :
    sumAt es e.1 = e.2 := by
  induction es with
  | nil => cases he
  | cons e' es ih =>
    rw [List.map_cons, List.nodup_cons] at hn
    rcases List.mem_cons.1 he with rfl | he
    · rw [sumAt_cons, if_pos rfl, sumAt_of_not_mem, add_zero]
      intro e'' he' h
      exact hn.1 (List.mem_map.2 ⟨e'', he', h⟩)
    · rw [sumAt_cons, if_neg, zero_add, ih hn.2 he]
      intro h
      exact hn.1 (List.mem_map.2 ⟨e, he, h.symm⟩)

theorem sumAt_flatMap {α : Type} (l : List α) (f : α → List (L × K)) (x : L) :
    sumAt (l.flatMap f) x = (l.map fun a => sumAt (f a) x).sum := by
  induction l with
  | nil => rfl
  | cons a l ih => rw [List.flatMap_cons, sumAt_append, ih, List.map_cons, List.sum_cons]

theorem sumAt_matEntries {m n : ℕ} (A : Matrix (Fin m) (Fin n) K) {loc : Fin m → Fin n → L}
    (h : ∀ i j i' j', loc i j = loc i' j' → i = i' ∧ j = j') (i : Fin m) (j : Fin n) :
    sumAt (matEntries A loc) (loc i j) = A i j :=
  sumAt_of_mem (e := (loc i j, A i j)) (matEntries_nodup h) (mem_matEntries.2 ⟨i, j, rfl⟩)

theorem sumAt_vecEntries {n : ℕ} (v : Fin n → K) {loc : Fin n → L} (h : Function.Injective loc)
    (i : Fin n) : sumAt (vecEntries v loc) (loc i) = v i :=
  sumAt_of_mem (e := (loc i, v i)) (vecEntries_nodup h) (mem_vecEntries.2 ⟨i, rfl⟩)

variable {kind : L → Kind M} {free : Bool} {tid i : ℕ} {m0 : L → K} {h : Option M} {k : Code L M K}
  {p p' : L → K} {a : List (L × K)}

theorem runs_adds_mine (es : List (L × K)) (hm : ∀ e ∈ es, Mine kind tid i e.1)
    (hr : Runs kind free tid i m0 h k (addTo es p) p' a) :
    Runs kind free tid i m0 h (adds es k) p p' a := by
  induction es generalizing p with
  | nil => exact hr
  | cons e es ih =>
    refine .readMine (hm e (by simp)) (.write (hm e (by simp)) (ih (fun e' he => hm e' (by simp [he])) ?_))
    exact hr

theorem runs_writes (es : List (L × K)) (hm : ∀ e ∈ es, Mine kind tid i e.1)
    (hr : Runs kind free tid i m0 h k (setTo es p) p' a) :
    Runs kind free tid i m0 h (writes es k) p p' a := by
  induction es generalizing p with
  | nil => exact hr
  | cons e es ih =>
    exact .write (hm e (by simp)) (ih (fun e' he => hm e' (by simp [he])) hr)

theorem runs_readVec {n : ℕ} {loc : Fin n → L} {f : (Fin n → K) → Code L M K}
    (hm : ∀ j, Mine kind tid i (loc j))
    (hr : Runs kind free tid i m0 h (f fun j => p (loc j)) p p' a) :
    Runs kind free tid i m0 h (readVec n loc f) p p' a := by
  induction n with
  | zero =>
    have : (fun j => p (loc j)) = (Fin.elim0 : Fin 0 → K) := by funext j; exact j.elim0
    rw [this] at hr
    exact hr
  | succ n ih =>
    refine .readMine (hm 0) (ih (f := fun vs => f (Fin.cons (p (loc 0)) vs)) (fun j => hm j.succ) ?_)
    have : (Fin.cons (p (loc 0)) (fun j => p (loc j.succ)) : Fin (n + 1) → K) = fun j => p (loc j) := by
      funext j
      refine Fin.cases rfl (fun j => rfl) j
    rw [this]
    exact hr

/-- Reading locations that are never written. -/
theorem runs_readVec_fixed {n : ℕ} {loc : Fin n → L} {f : (Fin n → K) → Code L M K}
    (hm : ∀ j, kind (loc j) = .fixed)
    (hr : Runs kind free tid i m0 h (f fun j => m0 (loc j)) p p' a) :
    Runs kind free tid i m0 h (readVec n loc f) p p' a := by
  induction n with
  | zero =>
    have : (fun j => m0 (loc j)) = (Fin.elim0 : Fin 0 → K) := by funext j; exact j.elim0
    rw [this] at hr
    exact hr
  | succ n ih =>
    refine .readFixed (hm 0) (ih (f := fun vs => f (Fin.cons (m0 (loc 0)) vs)) (fun j => hm j.succ) ?_)
    have : (Fin.cons (m0 (loc 0)) (fun j => m0 (loc j.succ)) : Fin (n + 1) → K) = fun j => m0 (loc j) := by
      funext j
      refine Fin.cases rfl (fun j => rfl) j
    rw [this]
    exact hr

theorem runs_readMat {m n : ℕ} {loc : Fin m → Fin n → L} {f : Matrix (Fin m) (Fin n) K → Code L M K}
    (hm : ∀ r c, Mine kind tid i (loc r c))
    (hr : Runs kind free tid i m0 h (f fun r c => p (loc r c)) p p' a) :
    Runs kind free tid i m0 h (readMat m n loc f) p p' a := by
  induction m with
  | zero =>
    have : (fun (r : Fin 0) c => p (loc r c)) = fun (r : Fin 0) => r.elim0 := by funext r; exact r.elim0
    rw [this] at hr
    exact hr
  | succ m ih =>
    refine runs_readVec (fun c => hm 0 c) ?_
    refine ih (f := fun vs => f (Fin.cons (fun c => p (loc 0 c)) vs)) (fun r c => hm r.succ c) ?_
    have : (Fin.cons (fun c => p (loc 0 c)) (fun r c => p (loc r.succ c)) : Fin (m + 1) → Fin n → K) =
        fun r c => p (loc r c) := by
      funext r
      refine Fin.cases rfl (fun r => rfl) r
    rw [this]
    exact hr

/-- Additions to a sum, while holding its mutex if there is more than one thread. -/
theorem runs_adds_guarded (x : M) (es : List (L × K)) (hm : ∀ e ∈ es, kind e.1 = .guarded x)
    (hx : h = some x ∨ (h = none ∧ free = true)) (hr : Runs kind free tid i m0 h k p p' a) :
    Runs kind free tid i m0 h (adds es k) p p' (es ++ a) := by
  induction es with
  | nil => exact hr
  | cons e es ih =>
    exact .add (hm e (by simp)) hx (fun _ => rfl) (ih fun e' he => hm e' (by simp [he]))

/-- Additions under a conditional lock. -/
theorem runs_condLock {threads : ℕ} (hf : threads = 1 → free = true) (x : M) (es : List (L × K))
    (hm : ∀ e ∈ es, kind e.1 = .guarded x) (hr : Runs kind free tid i m0 none k p p' a) :
    Runs kind free tid i m0 none
      (condLock threads x (adds es (condUnlock threads x k))) p p' (es ++ a) := by
  unfold condLock condUnlock
  by_cases ht : threads = 1
  · rw [if_pos ht, if_pos ht]
    exact runs_adds_guarded x es hm (Or.inr ⟨rfl, hf ht⟩) hr
  · rw [if_neg ht, if_neg ht]
    exact .lock (runs_adds_guarded x es hm (Or.inl rfl) (.unlock hr))

end

end Ceres.Tasks
