import Verif.Schur.Elim
import Verif.Schur.Spec
import Mathlib.LinearAlgebra.Matrix.NonsingularInverse
import Mathlib.LinearAlgebra.Matrix.ToLinearEquiv
import Mathlib.Data.List.TakeWhile

/-!
# Schur complement solvers solve the full problem
-/

noncomputable section

namespace Ceres.Schur

open Matrix

variable {sz : ℕ → ℕ}

/-! ## Lists of sums -/

theorem mulVec_list_sum {α : Type*} {m n : ℕ} (l : List α) (f : α → Matrix (Fin m) (Fin n) ℝ)
    (u : Fin n → ℝ) : (l.map f).sum *ᵥ u = (l.map fun a => f a *ᵥ u).sum := by
  induction l with
  | nil => simp
  | cons a l ih => simp [add_mulVec, ih]

theorem transpose_list_sum {α : Type*} {m n : ℕ} (l : List α) (f : α → Matrix (Fin m) (Fin n) ℝ) :
    (l.map f).sumᵀ = (l.map fun a => (f a)ᵀ).sum := by
  induction l with
  | nil => simp
  | cons a l ih => simp [ih]

theorem sum_list_swap {α ι M : Type*} [AddCommMonoid M] (l : List α) (s : Finset ι)
    (f : ι → α → M) :
    ∑ y ∈ s, (l.map (f y)).sum = (l.map fun a => ∑ y ∈ s, f y a).sum := by
  induction l with
  | nil => simp
  | cons a l ih => simp [Finset.sum_add_distrib, ih]

theorem list_sum_sub {α M : Type*} [AddCommGroup M] (l : List α) (f g : α → M) :
    (l.map fun a => f a - g a).sum = (l.map f).sum - (l.map g).sum := by
  induction l with
  | nil => simp
  | cons a l ih => simp only [List.map_cons, List.sum_cons, ih]; abel

theorem dot_list_sum {α : Type*} {n : ℕ} (l : List α) (f : α → Fin n → ℝ) (u : Fin n → ℝ) :
    u ⬝ᵥ (l.map f).sum = (l.map fun a => u ⬝ᵥ f a).sum := by
  induction l with
  | nil => simp
  | cons a l ih => simp [dotProduct_add, ih]

theorem list_sum_zero {α M : Type*} [AddCommMonoid M] {l : List α} {f : α → M}
    (h : ∀ a ∈ l, f a = 0) : (l.map f).sum = 0 := by
  rw [List.map_congr_left (g := fun _ => 0) h]
  simp

theorem list_sum_flatten {α β M : Type*} [AddCommMonoid M] (l : List (α × List β)) (f : β → M) :
    (((l.map Prod.snd).flatten).map f).sum = (l.map fun c => (c.2.map f).sum).sum := by
  induction l with
  | nil => simp
  | cons a l ih =>
    simp only [List.map_cons, List.flatten_cons, List.map_append, List.sum_append, List.sum_cons,
      ih]

/-! ## Rows -/

/-- `A x` of some of the cells of a row. -/
def applyCells {m : ℕ} (cells : List (Cell sz m)) (x : BVec sz) : Fin m → ℝ :=
  (cells.map fun c => c.val *ᵥ x c.id).sum

theorem at_mulVec {m : ℕ} (c : Cell sz m) (x : BVec sz) (s : Finset ℕ) (h : c.id ∈ s) :
    c.val *ᵥ x c.id = ∑ b ∈ s, c.at b *ᵥ x b := by
  rw [Finset.sum_eq_single c.id]
  · rw [c.at_self]
  · intro b _ hb
    rw [c.at_ne (Ne.symm hb), zero_mulVec]
  · exact fun h' => absurd h h'

theorem applyCells_eq {m : ℕ} (cells : List (Cell sz m)) (x : BVec sz) (s : Finset ℕ)
    (h : ∀ c ∈ cells, c.id ∈ s) : applyCells cells x = ∑ b ∈ s, sumAt cells b *ᵥ x b := by
  unfold applyCells
  induction cells with
  | nil => simp
  | cons c cs ih =>
    rw [List.map_cons, List.sum_cons, at_mulVec c x s (h c (by simp)),
      ih fun d hd => h d (by simp [hd]), ← Finset.sum_add_distrib]
    exact Finset.sum_congr rfl fun b _ => by rw [sumAt_cons, add_mulVec]

theorem applyCells_congr {m : ℕ} (cells : List (Cell sz m)) {x y : BVec sz}
    (h : ∀ c ∈ cells, x c.id = y c.id) : applyCells cells x = applyCells cells y := by
  unfold applyCells
  rw [List.map_congr_left fun c hc => by rw [h c hc]]

theorem applyCells_sub {m : ℕ} (cells : List (Cell sz m)) (x y : BVec sz) :
    applyCells cells (x - y) = applyCells cells x - applyCells cells y := by
  unfold applyCells
  rw [← list_sum_sub]
  congr 1
  refine List.map_congr_left fun c _ => ?_
  rw [← mulVec_sub]; rfl

theorem Ordered.sublist {ne nb : ℕ} {rows rows' : List (Row sz)} (h : Ordered ne nb rows)
    (hs : rows'.Sublist rows) : Ordered ne nb rows' where
  sorted r hr := h.sorted r (hs.subset hr)
  nonempty r hr := h.nonempty r (hs.subset hr)
  bound r hr := h.bound r (hs.subset hr)
  independent r hr := h.independent r (hs.subset hr)
  eFirst := h.eFirst.sublist hs
  grouped r s t hst := h.grouped r s t (hst.trans hs)

theorem Ordered.cells {ne nb : ℕ} {rows : List (Row sz)} (h : Ordered ne nb rows) {r : Row sz}
    (hr : r ∈ rows) {e : ℕ} (hf : r.front = some e) :
    ∃ c cs, r.cells = c :: cs ∧ c.id = e ∧ (∀ d ∈ cs, e < d.id) ∧
      (e < ne → ∀ d ∈ cs, ne ≤ d.id) := by
  have hs := h.sorted r hr
  have hi := h.independent r hr
  unfold Row.front at hf
  cases hc : r.cells with
  | nil => simp [hc] at hf
  | cons c cs =>
    rw [hc] at hf hs hi
    have he : c.id = e := by simpa using hf
    have hp := (List.pairwise_cons.1 hs).1
    refine ⟨c, cs, rfl, he, fun d hd => he ▸ hp d hd, fun hlt d hd => ?_⟩
    by_contra hne
    have := hi c (by simp) d (by simp [hd]) (he ▸ hlt) (by omega)
    have := hp d hd
    omega

theorem Ordered.front_iff {ne nb : ℕ} {rows : List (Row sz)} (h : Ordered ne nb rows)
    {r : Row sz} (hr : r ∈ rows) {e : ℕ} (he : e < ne) :
    (∃ c ∈ r.cells, c.id = e) ↔ r.front = some e := by
  constructor
  · rintro ⟨c, hc, hce⟩
    have hs := h.sorted r hr
    have hi := h.independent r hr
    unfold Row.front
    cases hcs : r.cells with
    | nil => simp [hcs] at hc
    | cons d ds =>
      rw [hcs] at hc hs hi
      rcases List.mem_cons.1 hc with rfl | hc'
      · simp [hce]
      · have := (List.pairwise_cons.1 hs).1 c hc'
        have := hi d (by simp) c hc (by omega) (by omega)
        omega
  · intro hf
    obtain ⟨c, cs, hc, hce, -⟩ := h.cells hr hf
    exact ⟨c, by simp [hc], hce⟩

theorem Ordered.front_some {ne nb : ℕ} {rows : List (Row sz)} (h : Ordered ne nb rows)
    {r : Row sz} (hr : r ∈ rows) : ∃ e, r.front = some e := by
  have := h.nonempty r hr
  unfold Row.front
  cases hc : r.cells with
  | nil => exact absurd hc this
  | cons c cs => exact ⟨c.id, by simp⟩

/-- The chunks of a matrix. -/
theorem detectChunks_chunk (ne : ℕ) (rows : List (Row sz)) :
    ∀ ch ∈ (detectChunks ne rows).1, ch.1 < ne ∧ ch.2 ≠ [] ∧ ∀ r ∈ ch.2, r.front = some ch.1 := by
  fun_induction detectChunks ne rows with
  | case1 => simp
  | case2 => simp
  | case3 => simp
  | case4 r rs id hf hlt chunk rest ih =>
    intro ch hch
    rcases List.mem_cons.1 hch with rfl | hch
    · refine ⟨by omega, by simp [chunk], ?_⟩
      intro s hs
      rcases List.mem_cons.1 hs with rfl | hs
      · exact hf
      · simpa using List.mem_takeWhile_imp hs
    · exact ih ch hch

theorem detectChunks_mem (ne : ℕ) (rows : List (Row sz)) {ch : ℕ × List (Row sz)}
    (hch : ch ∈ (detectChunks ne rows).1) {r : Row sz} (hr : r ∈ ch.2) : r ∈ rows := by
  rw [← detectChunks_flatten ne rows]
  exact List.mem_append_left _ (List.mem_flatten.2 ⟨ch.2, List.mem_map.2 ⟨ch, hch, rfl⟩, hr⟩)

theorem detectChunks_rest_mem (ne : ℕ) (rows : List (Row sz)) {r : Row sz}
    (hr : r ∈ (detectChunks ne rows).2) : r ∈ rows := by
  rw [← detectChunks_flatten ne rows]
  exact List.mem_append_right _ hr

theorem mem_dropWhile {α : Type*} {p : α → Bool} {l : List α} {t : α} (ht : t ∈ l.dropWhile p)
    (hpt : p t = true) : ∃ s, [s, t].Sublist (l.dropWhile p) ∧ p s = false := by
  cases hd : l.dropWhile p with
  | nil => simp [hd] at ht
  | cons s l' =>
    have hps : p s = false := by
      have := List.head_dropWhile_not p (l := l) (by simp [hd])
      simpa [hd] using this
    refine ⟨s, ?_, hps⟩
    rw [hd] at ht
    rcases List.mem_cons.1 ht with rfl | ht
    · simp [hpt] at hps
    · exact List.Sublist.cons_cons _ (List.singleton_sublist.2 ht)

/-- No e block has two chunks, and the other rows have no e block. -/
theorem detectChunks_ordered {ne nb : ℕ} {rows : List (Row sz)} (h : Ordered ne nb rows) :
    ((detectChunks ne rows).1.map Prod.fst).Nodup ∧
      ∀ r ∈ (detectChunks ne rows).2, ∀ c ∈ r.cells, ne ≤ c.id := by
  fun_induction detectChunks ne rows with
  | case1 => simp
  | case2 r rs hf =>
    obtain ⟨e, he⟩ := h.front_some (r := r) (by simp)
    rw [hf] at he
    simp at he
  | case3 r rs id hf hle =>
    refine ⟨by simp, ?_⟩
    obtain ⟨c, cs, hc, hce, hcs, -⟩ := h.cells (r := r) (by simp) hf
    have hr : ¬∃ c ∈ r.cells, c.id < ne := by
      rintro ⟨d, hd, hlt⟩
      rw [hc] at hd
      rcases List.mem_cons.1 hd with rfl | hd
      · omega
      · have := hcs d hd; omega
    intro s hs d hd
    by_contra hlt
    rcases List.mem_cons.1 hs with rfl | hs
    · exact hr ⟨d, hd, by omega⟩
    · exact hr ((List.pairwise_cons.1 h.eFirst).1 s hs ⟨d, hd, by omega⟩)
  | case4 r rs id hf hlt chunk rest ih =>
    have hsub : (rs.dropWhile fun s => s.front = some id).Sublist (r :: rs) :=
      (List.dropWhile_suffix _).sublist.trans (List.sublist_cons_self r rs)
    obtain ⟨h1, h2⟩ := ih (h.sublist hsub)
    refine ⟨?_, h2⟩
    rw [List.map_cons, List.nodup_cons]
    refine ⟨?_, h1⟩
    intro hm
    obtain ⟨ch, hch, hid⟩ := List.mem_map.1 hm
    obtain ⟨-, hne, hfr⟩ := detectChunks_chunk ne _ ch hch
    obtain ⟨t, ht⟩ := List.exists_mem_of_ne_nil _ hne
    have htf : t.front = some id := by rw [hfr t ht, hid]
    have htd := detectChunks_mem ne _ hch ht
    obtain ⟨s, hst, hs⟩ := mem_dropWhile htd (by simpa using htf)
    have h3 : [r, s, t].Sublist (r :: rs) :=
      List.Sublist.cons_cons _ (hst.trans (List.dropWhile_suffix _).sublist)
    have hid' : id < ne := by omega
    have := h.grouped r s t h3 id hid' ((h.front_iff (by simp) hid').2 hf)
      ((h.front_iff (hsub.subset htd) hid').2 htf)
    rw [h.front_iff (h3.subset (by simp)) hid'] at this
    simp [this] at hs

/-! ## Normal equations -/

/-- Half the gradient of the cost with respect to block `b`. -/
def grad (rows : List (Row sz)) (D : Option (BVec sz)) (x : BVec sz) (b : ℕ) : Fin (sz b) → ℝ :=
  (rows.map fun r => (sumAt r.cells b)ᵀ *ᵥ (r.apply x - r.rhs)).sum + eteInit D b *ᵥ x b

theorem row_expand {m : ℕ} (cells : List (Cell sz m)) (rhs : Fin m → ℝ) (x w : BVec sz)
    (s : Finset ℕ) (h : ∀ c ∈ cells, c.id ∈ s) :
    ∑ i, (applyCells cells w i - rhs i) ^ 2 = ∑ i, (applyCells cells x i - rhs i) ^ 2 +
      ∑ i, (applyCells cells (w - x) i) ^ 2 +
      2 * ∑ b ∈ s, (w - x) b ⬝ᵥ ((sumAt cells b)ᵀ *ᵥ (applyCells cells x - rhs)) := by
  have e : ∑ b ∈ s, (w - x) b ⬝ᵥ ((sumAt cells b)ᵀ *ᵥ (applyCells cells x - rhs)) =
      applyCells cells (w - x) ⬝ᵥ (applyCells cells x - rhs) := by
    rw [applyCells_eq cells (w - x) s h, sum_dotProduct]
    refine Finset.sum_congr rfl fun b _ => ?_
    rw [dotProduct_mulVec, vecMul_transpose]
  rw [e, dotProduct, Finset.mul_sum, ← Finset.sum_add_distrib, ← Finset.sum_add_distrib]
  refine Finset.sum_congr rfl fun i _ => ?_
  rw [applyCells_sub]
  simp only [Pi.sub_apply]
  ring

theorem list_sum_add' {α : Type*} (l : List α) (f g : α → ℝ) :
    (l.map fun a => f a + g a).sum = (l.map f).sum + (l.map g).sum := by
  induction l with
  | nil => simp
  | cons a l ih => simp only [List.map_cons, List.sum_cons, ih]; ring

theorem list_sum_mul' {α : Type*} (l : List α) (k : ℝ) (f : α → ℝ) :
    (l.map fun a => k * f a).sum = k * (l.map f).sum := by
  induction l with
  | nil => simp
  | cons a l ih => simp only [List.map_cons, List.sum_cons, ih]; ring

/-- The cost is quadratic. -/
theorem cost_expand {nb : ℕ} {rows : List (Row sz)}
    (hb : ∀ r ∈ rows, ∀ c ∈ r.cells, c.id < nb) (D : Option (BVec sz)) (x w : BVec sz) :
    cost nb rows D w = cost nb rows D x + energy nb rows D (w - x) +
      2 * ∑ b ∈ Finset.range nb, (w - x) b ⬝ᵥ grad rows D x b := by
  have h1 : (rows.map fun r => ∑ i, (r.apply w i - r.rhs i) ^ 2).sum =
      (rows.map fun r => ∑ i, (r.apply x i - r.rhs i) ^ 2).sum +
      (rows.map fun r => ∑ i, (r.apply (w - x) i) ^ 2).sum +
      2 * ∑ b ∈ Finset.range nb, (w - x) b ⬝ᵥ
        (rows.map fun r => (sumAt r.cells b)ᵀ *ᵥ (r.apply x - r.rhs)).sum := by
    simp only [dot_list_sum]
    rw [sum_list_swap, ← list_sum_mul', ← list_sum_add', ← list_sum_add']
    congr 1
    refine List.map_congr_left fun r hr => ?_
    exact row_expand r.cells r.rhs x w (Finset.range nb)
      fun c hc => Finset.mem_range.2 (hb r hr c hc)
  have h2 : D.elim 0 (fun D => ∑ b ∈ Finset.range nb, ∑ i, (D b i * w b i) ^ 2) =
      D.elim 0 (fun D => ∑ b ∈ Finset.range nb, ∑ i, (D b i * x b i) ^ 2) +
      D.elim 0 (fun D => ∑ b ∈ Finset.range nb, ∑ i, (D b i * (w - x) b i) ^ 2) +
      2 * ∑ b ∈ Finset.range nb, (w - x) b ⬝ᵥ (eteInit D b *ᵥ x b) := by
    cases D with
    | none => simp [eteInit]
    | some D =>
      simp only [Option.elim]
      rw [Finset.mul_sum, ← Finset.sum_add_distrib, ← Finset.sum_add_distrib]
      refine Finset.sum_congr rfl fun b _ => ?_
      rw [dotProduct, Finset.mul_sum, ← Finset.sum_add_distrib, ← Finset.sum_add_distrib]
      refine Finset.sum_congr rfl fun i _ => ?_
      simp only [eteInit, mulVec_diagonal, Pi.sub_apply]
      ring
  unfold cost energy
  rw [h1, h2]
  simp only [grad, dotProduct_add, Finset.sum_add_distrib]
  ring

theorem energy_nonneg (nb : ℕ) (rows : List (Row sz)) (D : Option (BVec sz)) (x : BVec sz) :
    0 ≤ energy nb rows D x := by
  unfold energy
  refine add_nonneg ?_ ?_
  · refine List.sum_nonneg ?_
    intro a ha
    obtain ⟨r, -, rfl⟩ := List.mem_map.1 ha
    exact Finset.sum_nonneg fun i _ => sq_nonneg _
  · cases D with
    | none => exact le_rfl
    | some D => exact Finset.sum_nonneg fun b _ => Finset.sum_nonneg fun i _ => sq_nonneg _

/-- The normal equations characterise the minimisers. -/
theorem minimiser_of_grad {nb : ℕ} {rows : List (Row sz)}
    (hb : ∀ r ∈ rows, ∀ c ∈ r.cells, c.id < nb) {D : Option (BVec sz)} {x : BVec sz}
    (hg : ∀ b < nb, grad rows D x b = 0) (w : BVec sz) : cost nb rows D x ≤ cost nb rows D w := by
  rw [cost_expand hb D x w, Finset.sum_eq_zero]
  · have := energy_nonneg nb rows D (w - x)
    linarith
  · intro b hb'
    rw [hg b (Finset.mem_range.1 hb'), dotProduct_zero]

/-! ## Back substitution -/

theorem foldl_sub_cells {m : ℕ} (cells : List (Cell sz m)) (z : BVec sz) (v : Fin m → ℝ) :
    cells.foldl (fun sj c => sj - c.val *ᵥ z c.id) v = v - applyCells cells z := by
  induction cells generalizing v with
  | nil => simp [applyCells]
  | cons c cs ih =>
    rw [List.foldl_cons, ih]
    simp only [applyCells, List.map_cons, List.sum_cons]
    abel

/-- What back substitution multiplies with the inverse. -/
def backRhs (ch : ℕ × List (Row sz)) (z : BVec sz) : Fin (sz ch.1) → ℝ :=
  (ch.2.map fun r => (r.eCell ch.1)ᵀ *ᵥ (r.rhs - applyCells r.fCells z)).sum

theorem backSubstituteChunk_spec (inv : Inverter) (D : Option (BVec sz)) (z y : BVec sz)
    (ch : ℕ × List (Row sz)) :
    backSubstituteChunk inv D z y ch =
      Function.update y ch.1 (inv _ (eteOf D ch) *ᵥ (y ch.1 + backRhs ch z)) := by
  have key : ∀ (l : List (Row sz)) (s : Matrix (Fin (sz ch.1)) (Fin (sz ch.1)) ℝ ×
      (Fin (sz ch.1) → ℝ)),
      l.foldl (fun (s : Matrix (Fin (sz ch.1)) (Fin (sz ch.1)) ℝ × (Fin (sz ch.1) → ℝ)) r =>
        let E := r.eCell ch.1
        let sj := r.cells.tail.foldl (fun sj c => sj - c.val *ᵥ z c.id) r.rhs
        let EtE := Eᵀ * E
        (s.1 + EtE, s.2 + Eᵀ *ᵥ sj)) s =
      (s.1 + (l.map fun r => (r.eCell ch.1)ᵀ * r.eCell ch.1).sum,
       s.2 + (l.map fun r => (r.eCell ch.1)ᵀ *ᵥ (r.rhs - applyCells r.fCells z)).sum) := by
    intro l
    induction l with
    | nil => simp
    | cons r l ih =>
      intro s
      rw [List.foldl_cons, ih]
      simp only [foldl_sub_cells, List.map_cons, List.sum_cons, add_assoc]
  unfold backSubstituteChunk
  simp only [key]
  rfl

theorem backSubstitute_spec (inv : Inverter) (D : Option (BVec sz)) (z : BVec sz)
    (order : List (ℕ × List (Row sz))) (hn : (order.map Prod.fst).Nodup) (y : BVec sz) :
    (∀ ch ∈ order, backSubstitute inv D z y order ch.1 =
      inv _ (eteOf D ch) *ᵥ (y ch.1 + backRhs ch z)) ∧
    (∀ b, b ∉ order.map Prod.fst → backSubstitute inv D z y order b = y b) := by
  unfold backSubstitute
  induction order generalizing y with
  | nil => simp
  | cons ch order ih =>
    rw [List.map_cons, List.nodup_cons] at hn
    obtain ⟨h1, h2⟩ := ih hn.2 (backSubstituteChunk inv D z y ch)
    rw [List.foldl_cons]
    constructor
    · intro c hc
      rcases List.mem_cons.1 hc with rfl | hc
      · rw [h2 _ hn.1, backSubstituteChunk_spec, Function.update_self]
      · rw [h1 c hc, backSubstituteChunk_spec, Function.update_of_ne]
        intro h
        exact hn.1 (h ▸ List.mem_map_of_mem hc)
    · intro b hb
      rw [List.map_cons, List.mem_cons, not_or] at hb
      rw [h2 b hb.2, backSubstituteChunk_spec, Function.update_of_ne hb.1]

/-! ## Chunks and the normal equations -/

theorem eteInit_symm (D : Option (BVec sz)) (e : ℕ) : (eteInit D e)ᵀ = eteInit D e := by
  cases D with
  | none => simp [eteInit]
  | some D => simp [eteInit]

theorem eteOf_symm (D : Option (BVec sz)) (ch : ℕ × List (Row sz)) :
    (eteOf D ch)ᵀ = eteOf D ch := by
  unfold eteOf
  rw [transpose_add, eteInit_symm, transpose_list_sum]
  simp

theorem eteInit_nonneg (D : Option (BVec sz)) (e : ℕ) (t : Fin (sz e) → ℝ) :
    0 ≤ t ⬝ᵥ eteInit D e *ᵥ t := by
  cases D with
  | none => simp [eteInit]
  | some D =>
    rw [dotProduct]
    refine Finset.sum_nonneg fun i _ => ?_
    simp only [eteInit, mulVec_diagonal]
    have : t i * (D e i ^ 2 * t i) = (D e i * t i) ^ 2 := by ring
    rw [this]; exact sq_nonneg _

theorem list_sum_eq_zero {α : Type*} {l : List α} {f : α → ℝ} (hf : ∀ a ∈ l, 0 ≤ f a)
    (h : (l.map f).sum = 0) : ∀ a ∈ l, f a = 0 := by
  induction l with
  | nil => simp
  | cons a l ih =>
    have h1 := hf a (by simp)
    have h2 : 0 ≤ (l.map f).sum := by
      refine List.sum_nonneg ?_
      intro x hx
      obtain ⟨b, hb, rfl⟩ := List.mem_map.1 hx
      exact hf b (by simp [hb])
    rw [List.map_cons, List.sum_cons] at h
    intro b hb
    rcases List.mem_cons.1 hb with rfl | hb
    · linarith
    · exact ih (fun c hc => hf c (by simp [hc])) (by linarith) b hb

theorem dot_self_nonneg' {n : ℕ} (v : Fin n → ℝ) : 0 ≤ v ⬝ᵥ v :=
  Finset.sum_nonneg fun i _ => mul_self_nonneg _

theorem dot_self_zero {n : ℕ} {v : Fin n → ℝ} (h : v ⬝ᵥ v = 0) : v = 0 := by
  funext i
  have := (Finset.sum_eq_zero_iff_of_nonneg fun i _ => mul_self_nonneg (v i)).1 h i
    (Finset.mem_univ i)
  simpa using this

theorem eteOf_quad (D : Option (BVec sz)) (ch : ℕ × List (Row sz)) (t : Fin (sz ch.1) → ℝ) :
    t ⬝ᵥ eteOf D ch *ᵥ t = t ⬝ᵥ eteInit D ch.1 *ᵥ t +
      (ch.2.map fun r => (r.eCell ch.1 *ᵥ t) ⬝ᵥ (r.eCell ch.1 *ᵥ t)).sum := by
  unfold eteOf
  rw [add_mulVec, dotProduct_add, mulVec_list_sum, dot_list_sum]
  congr 2
  refine List.map_congr_left fun r _ => ?_
  rw [← mulVec_mulVec, dotProduct_mulVec, vecMul_transpose]

theorem eteOf_ker (D : Option (BVec sz)) (ch : ℕ × List (Row sz)) {t : Fin (sz ch.1) → ℝ}
    (h : eteOf D ch *ᵥ t = 0) : ∀ r ∈ ch.2, r.eCell ch.1 *ᵥ t = 0 := by
  have h1 := eteOf_quad D ch t
  rw [h, dotProduct_zero] at h1
  have h2 := eteInit_nonneg D ch.1 t
  have h3 : ∀ r ∈ ch.2, 0 ≤ (r.eCell ch.1 *ᵥ t) ⬝ᵥ (r.eCell ch.1 *ᵥ t) :=
    fun r _ => dot_self_nonneg' _
  have h4 : 0 ≤ (ch.2.map fun r => (r.eCell ch.1 *ᵥ t) ⬝ᵥ (r.eCell ch.1 *ᵥ t)).sum := by
    refine List.sum_nonneg ?_
    intro x hx
    obtain ⟨b, hb, rfl⟩ := List.mem_map.1 hx
    exact h3 b hb
  intro r hr
  exact dot_self_zero (list_sum_eq_zero h3 (by linarith) r hr)

/-- The generalised inverse solves the equations of the chunk. -/
theorem eteOf_mul_inv {inv : Inverter} {D : Option (BVec sz)} {ch : ℕ × List (Row sz)}
    (hi : Inverts inv (eteOf D ch)) (u : (r : Row sz) → Fin r.size → ℝ) :
    eteOf D ch *ᵥ (inv _ (eteOf D ch) *ᵥ (ch.2.map fun r => (r.eCell ch.1)ᵀ *ᵥ u r).sum) =
      (ch.2.map fun r => (r.eCell ch.1)ᵀ *ᵥ u r).sum := by
  set M := eteOf D ch with hM
  set w := (ch.2.map fun r => (r.eCell ch.1)ᵀ *ᵥ u r).sum with hw
  set P := M * inv _ M with hP
  rw [mulVec_mulVec]
  have hsym : Mᵀ = M := eteOf_symm D ch
  have hker : ∀ s : Fin (sz ch.1) → ℝ, M *ᵥ ((1 - P)ᵀ *ᵥ s) = 0 := by
    intro s
    rw [mulVec_mulVec]
    have : M * (1 - P)ᵀ = ((1 - P) * M)ᵀ := by rw [transpose_mul, hsym]
    rw [this, Matrix.sub_mul, Matrix.one_mul, hP, hi.1, sub_self, transpose_zero, zero_mulVec]
  have hz : ∀ s : Fin (sz ch.1) → ℝ, s ⬝ᵥ ((1 - P) *ᵥ w) = 0 := by
    intro s
    have hk := eteOf_ker D ch (hker s)
    rw [dotProduct_mulVec, ← mulVec_transpose, hw, dot_list_sum]
    refine list_sum_zero fun r hr => ?_
    rw [dotProduct_mulVec, vecMul_transpose, hk r hr, zero_dotProduct]
  have h0 : (1 - P) *ᵥ w = 0 := dot_self_zero (hz _)
  rw [sub_mulVec, one_mulVec, sub_eq_zero] at h0
  exact h0.symm

theorem dBlock_eq (D : Option (BVec sz)) (ne nb x : ℕ) (z : BVec sz) (h1 : ne ≤ x) (h2 : x < nb) :
    ∑ y ∈ Finset.Ico ne nb, dBlock D x y *ᵥ z y = eteInit D x *ᵥ z x := by
  rw [Finset.sum_eq_single x]
  · congr 1
    cases D with
    | none => rfl
    | some D =>
      ext i j
      simp [dBlock, eteInit, diagonal_apply, Fin.ext_iff]
  · intro y _ hy
    have : dBlock D x y = 0 := by
      cases D with
      | none => rfl
      | some D => ext i j; simp [dBlock, Ne.symm hy]
    rw [this, zero_mulVec]
  · intro h
    exact absurd (Finset.mem_Ico.2 ⟨h1, h2⟩) h

theorem dBlock_symm (D : Option (BVec sz)) (x y : ℕ) : (dBlock D x y)ᵀ = dBlock D y x := by
  cases D with
  | none => rfl
  | some D =>
    ext i j
    simp only [dBlock, transpose_apply, of_apply]
    by_cases h : x = y
    · subst h
      by_cases hij : (i : ℕ) = j
      · have : i = j := Fin.ext hij
        subst this; rfl
      · simp [hij, Ne.symm hij]
    · simp [h, Ne.symm h]

theorem schurLhs_symm {inv : Inverter} {ne : ℕ} {rows : List (Row sz)} {D : Option (BVec sz)}
    (hi : ∀ ch ∈ (detectChunks ne rows).1, Inverts inv (eteOf D ch)) (x y : ℕ) :
    (schurLhs inv ne rows D x y)ᵀ = schurLhs inv ne rows D y x := by
  unfold schurLhs
  rw [transpose_add, transpose_add, dBlock_symm, transpose_list_sum, transpose_list_sum]
  congr 1
  · congr 2
    refine List.map_congr_left fun ch hch => ?_
    unfold chunkLhs
    rw [transpose_sub, transpose_list_sum, transpose_mul, transpose_mul, (hi ch hch).2,
      transpose_transpose, Matrix.mul_assoc]
    simp
  · congr 1
    refine List.map_congr_left fun r _ => ?_
    simp

section Main

variable {inv : Inverter} {ne nb : ℕ} {rows : List (Row sz)} {D : Option (BVec sz)}

theorem chunk_row (h : Ordered ne nb rows) {ch : ℕ × List (Row sz)}
    (hch : ch ∈ (detectChunks ne rows).1) {r : Row sz} (hr : r ∈ ch.2) :
    (∀ d ∈ r.fCells, ne ≤ d.id ∧ d.id < nb) ∧
    (∀ X : BVec sz, r.apply X = r.eCell ch.1 *ᵥ X ch.1 + applyCells r.fCells X) ∧
    sumAt r.cells ch.1 = r.eCell ch.1 ∧
    (∀ b, b ≠ ch.1 → sumAt r.cells b = sumAt r.fCells b) := by
  obtain ⟨hlt, -, hf⟩ := detectChunks_chunk ne rows ch hch
  have hmem := detectChunks_mem ne rows hch hr
  obtain ⟨c, cs, hc, hce, hcs, hcs'⟩ := h.cells hmem (hf r hr)
  have hE : r.eCell ch.1 = c.at ch.1 := by unfold Row.eCell; rw [hc]
  have hF : r.fCells = cs := by unfold Row.fCells; rw [hc]; rfl
  refine ⟨?_, ?_, ?_, ?_⟩
  · intro d hd
    rw [hF] at hd
    exact ⟨hcs' hlt d hd, h.bound r hmem d (by simp [hc, hd])⟩
  · intro X
    have : r.apply X = applyCells r.cells X := rfl
    rw [this, hE, hF, hc]
    simp only [applyCells, List.map_cons, List.sum_cons]
    congr 1
    have := at_mulVec c X {ch.1} (by simp [hce])
    simpa using this
  · rw [hE, hc, sumAt_cons, sumAt_zero (cells := cs), add_zero]
    intro d hd h'
    have := hcs d hd
    omega
  · intro b hb
    rw [hF, hc, sumAt_cons, c.at_ne (by rw [hce]; exact Ne.symm hb), zero_add]

theorem grad_split (X : BVec sz) (b : ℕ) :
    grad rows D X b =
      ((detectChunks ne rows).1.map fun ch =>
        (ch.2.map fun r => (sumAt r.cells b)ᵀ *ᵥ (r.apply X - r.rhs)).sum).sum +
      ((detectChunks ne rows).2.map fun r => (sumAt r.cells b)ᵀ *ᵥ (r.apply X - r.rhs)).sum +
      eteInit D b *ᵥ X b := by
  unfold grad
  conv_lhs => rw [← detectChunks_flatten ne rows]
  rw [List.map_append, List.sum_append, list_sum_flatten]

/-- Whatever the f part, the back substituted e part makes the e part of the gradient vanish. -/
theorem grad_e_zero (h : Ordered ne nb rows)
    (hi : ∀ ch ∈ (detectChunks ne rows).1, Inverts inv (eteOf D ch)) {X : BVec sz}
    (hX : ∀ ch ∈ (detectChunks ne rows).1, X ch.1 = inv _ (eteOf D ch) *ᵥ backRhs ch X)
    (hX0 : ∀ b, b < ne → b ∉ (detectChunks ne rows).1.map Prod.fst → X b = 0)
    {e : ℕ} (he : e < ne) : grad rows D X e = 0 := by
  obtain ⟨hn, hrest⟩ := detectChunks_ordered h
  have h2 : ((detectChunks ne rows).2.map fun r =>
      (sumAt r.cells e)ᵀ *ᵥ (r.apply X - r.rhs)).sum = 0 := by
    refine list_sum_zero fun r hr => ?_
    rw [sumAt_zero, transpose_zero, zero_mulVec]
    intro c hc h'
    have := hrest r hr c hc
    omega
  have hother : ∀ ch ∈ (detectChunks ne rows).1, ch.1 ≠ e →
      (ch.2.map fun r => (sumAt r.cells e)ᵀ *ᵥ (r.apply X - r.rhs)).sum = 0 := by
    intro ch hch hce
    refine list_sum_zero fun r hr => ?_
    obtain ⟨k1, -, -, k4⟩ := chunk_row h hch hr
    rw [k4 e (Ne.symm hce), sumAt_zero, transpose_zero, zero_mulVec]
    intro c hc h'
    have := (k1 c hc).1
    omega
  rw [grad_split (ne := ne), h2, add_zero]
  by_cases hm : e ∈ (detectChunks ne rows).1.map Prod.fst
  · obtain ⟨ch, hch, rfl⟩ := List.mem_map.1 hm
    obtain ⟨l1, l2, hl⟩ := List.append_of_mem hch
    have hn' := hn
    rw [hl, List.map_append, List.map_cons, List.nodup_append] at hn'
    have hn1 : ∀ c ∈ l1, c.1 ≠ ch.1 := fun c hc =>
      hn'.2.2 c.1 (List.mem_map_of_mem hc) ch.1 (by simp)
    have hn2 : ∀ c ∈ l2, c.1 ≠ ch.1 := by
      intro c hc h'
      exact (List.nodup_cons.1 hn'.2.1).1 (h' ▸ List.mem_map_of_mem hc)
    rw [hl, List.map_append, List.sum_append, List.map_cons, List.sum_cons,
      list_sum_zero (l := l1) fun c hc => hother c (by simp [hl, hc]) (hn1 c hc),
      list_sum_zero (l := l2) fun c hc => hother c (by simp [hl, hc]) (hn2 c hc),
      zero_add, add_zero]
    have e1 : (ch.2.map fun r => (sumAt r.cells ch.1)ᵀ *ᵥ (r.apply X - r.rhs)).sum =
        (ch.2.map fun r => (r.eCell ch.1)ᵀ * r.eCell ch.1).sum *ᵥ X ch.1 - backRhs ch X := by
      rw [mulVec_list_sum, backRhs, ← list_sum_sub]
      congr 1
      refine List.map_congr_left fun r hr => ?_
      obtain ⟨-, k2, k3, -⟩ := chunk_row h hch hr
      rw [k2, k3, ← mulVec_mulVec, ← mulVec_sub]
      congr 1
      abel
    have e2 : eteOf D ch *ᵥ X ch.1 = backRhs ch X := by
      rw [hX ch hch]
      exact eteOf_mul_inv (hi ch hch) _
    rw [e1]
    unfold eteOf at e2
    rw [add_mulVec] at e2
    rw [← e2]
    abel
  · rw [hX0 e he hm, mulVec_zero, add_zero]
    refine list_sum_zero fun ch hch => hother ch hch ?_
    rintro rfl
    exact hm (List.mem_map_of_mem hch)

/-- The f part of the gradient is the residual of the reduced system. -/
theorem grad_f (h : Ordered ne nb rows) {X : BVec sz}
    (hX : ∀ ch ∈ (detectChunks ne rows).1, X ch.1 = inv _ (eteOf D ch) *ᵥ backRhs ch X)
    {x : ℕ} (h1 : ne ≤ x) (h2 : x < nb) :
    grad rows D X x = ∑ y ∈ Finset.Ico ne nb, schurLhs inv ne rows D x y *ᵥ X y -
      schurRhs inv ne rows D x := by
  obtain ⟨hn, hrest⟩ := detectChunks_ordered h
  have hA : ((detectChunks ne rows).2.map fun r =>
      (sumAt r.cells x)ᵀ *ᵥ (r.apply X - r.rhs)).sum =
      ∑ y ∈ Finset.Ico ne nb, ((detectChunks ne rows).2.map fun r =>
        (sumAt r.cells x)ᵀ * sumAt r.cells y).sum *ᵥ X y -
      ((detectChunks ne rows).2.map fun r => (sumAt r.cells x)ᵀ *ᵥ r.rhs).sum := by
    simp only [mulVec_list_sum]
    rw [sum_list_swap, ← list_sum_sub]
    congr 1
    refine List.map_congr_left fun r hr => ?_
    have : r.apply X = applyCells r.cells X := rfl
    rw [mulVec_sub, this, applyCells_eq r.cells X (Finset.Ico ne nb)
      fun c hc => Finset.mem_Ico.2 ⟨hrest r hr c hc,
        h.bound r (detectChunks_rest_mem ne rows hr) c hc⟩, mulVec_sum]
    simp only [mulVec_mulVec]
  have hB : ((detectChunks ne rows).1.map fun ch =>
        (ch.2.map fun r => (sumAt r.cells x)ᵀ *ᵥ (r.apply X - r.rhs)).sum).sum =
      ∑ y ∈ Finset.Ico ne nb, ((detectChunks ne rows).1.map fun ch =>
        chunkLhs inv D ch x y).sum *ᵥ X y -
      ((detectChunks ne rows).1.map fun ch => chunkRhs inv D ch x).sum := by
    simp only [mulVec_list_sum]
    rw [sum_list_swap, ← list_sum_sub]
    congr 1
    refine List.map_congr_left fun ch hch => ?_
    have hlt := (detectChunks_chunk ne rows ch hch).1
    have hx : x ≠ ch.1 := by omega
    -- the buffer
    have hbuf : ∀ u : Fin (sz ch.1) → ℝ, (bufOf ch x)ᵀ *ᵥ u =
        (ch.2.map fun r => (sumAt r.fCells x)ᵀ *ᵥ (r.eCell ch.1 *ᵥ u)).sum := by
      intro u
      unfold bufOf
      rw [transpose_list_sum, mulVec_list_sum]
      congr 1
      refine List.map_congr_left fun r _ => ?_
      rw [transpose_mul, transpose_transpose, mulVec_mulVec]
    have hFz : ∀ r ∈ ch.2, applyCells r.fCells X =
        ∑ y ∈ Finset.Ico ne nb, sumAt r.fCells y *ᵥ X y := fun r hr =>
      applyCells_eq r.fCells X _ fun c hc => Finset.mem_Ico.2 ((chunk_row h hch hr).1 c hc)
    have hback : backRhs ch X = gOf ch - ∑ y ∈ Finset.Ico ne nb, bufOf ch y *ᵥ X y := by
      unfold backRhs gOf bufOf
      simp only [mulVec_list_sum]
      rw [sum_list_swap, ← list_sum_sub]
      congr 1
      refine List.map_congr_left fun r hr => ?_
      rw [mulVec_sub, hFz r hr, mulVec_sum]
      simp only [mulVec_mulVec]
    have hL : ∑ y ∈ Finset.Ico ne nb, chunkLhs inv D ch x y *ᵥ X y =
        (ch.2.map fun r => (sumAt r.fCells x)ᵀ *ᵥ applyCells r.fCells X).sum -
        (bufOf ch x)ᵀ *ᵥ (inv _ (eteOf D ch) *ᵥ
          ∑ y ∈ Finset.Ico ne nb, bufOf ch y *ᵥ X y) := by
      unfold chunkLhs
      simp only [sub_mulVec, Finset.sum_sub_distrib, mulVec_list_sum]
      rw [sum_list_swap]
      congr 1
      · congr 1
        refine List.map_congr_left fun r hr => ?_
        rw [hFz r hr, mulVec_sum]
        simp only [mulVec_mulVec]
      · rw [mulVec_sum, mulVec_sum]
        simp only [mulVec_mulVec, Matrix.mul_assoc]
    rw [hL]
    have hR : chunkRhs inv D ch x = (ch.2.map fun r => (sumAt r.fCells x)ᵀ *ᵥ r.rhs).sum -
        (bufOf ch x)ᵀ *ᵥ (inv _ (eteOf D ch) *ᵥ gOf ch) := by
      rw [hbuf, ← list_sum_sub]
      unfold chunkRhs
      congr 1
      refine List.map_congr_left fun r _ => ?_
      rw [mulVec_sub]
    have hT : (ch.2.map fun r => (sumAt r.cells x)ᵀ *ᵥ (r.apply X - r.rhs)).sum =
        (ch.2.map fun r => (sumAt r.fCells x)ᵀ *ᵥ applyCells r.fCells X).sum +
        (bufOf ch x)ᵀ *ᵥ X ch.1 - (ch.2.map fun r => (sumAt r.fCells x)ᵀ *ᵥ r.rhs).sum := by
      rw [hbuf, ← List.sum_map_add, ← list_sum_sub]
      congr 1
      refine List.map_congr_left fun r hr => ?_
      obtain ⟨-, k2, -, k4⟩ := chunk_row h hch hr
      rw [k4 x hx, k2, mulVec_sub, mulVec_add]
      abel
    rw [hT, hR, hX ch hch, hback, mulVec_sub, mulVec_sub]
    abel
  rw [grad_split (ne := ne), hA, hB, ← dBlock_eq D ne nb x X h1 h2]
  unfold schurLhs schurRhs
  simp only [add_mulVec, Finset.sum_add_distrib]
  abel

end Main

end Ceres.Schur
