import Verif.Schur.Solve
import Mathlib.Tactic.FinCases
import Mathlib.Tactic.NormNum

/-!
# C51: Schur complement solvers solve the full linear least squares problem
-/

noncomputable section

namespace Ceres.Schur

open Matrix

variable {sz : ℕ → ℕ}

/-! ## Storage -/

/-- No non zero block of the upper triangle of the reduced matrix is missing from the storage. -/
def Covers (inv : Inverter) (ne nb : ℕ) (rows : List (Row sz)) (D : Option (BVec sz))
    (has : ℕ → ℕ → Bool) : Prop :=
  ∀ x y, ne ≤ x → x ≤ y → y < nb → has x y = false → schurLhs inv ne rows D x y = 0

theorem upperPairs_mem (l : List ℕ) (hs : l.Pairwise (· < ·)) {x y : ℕ} (hx : x ∈ l) (hy : y ∈ l)
    (hxy : x < y) : (x, y) ∈ upperPairs l := by
  induction l with
  | nil => simp at hx
  | cons a l ih =>
    have hp := List.pairwise_cons.1 hs
    rw [upperPairs, List.mem_append]
    rcases List.mem_cons.1 hx with rfl | hx
    · rcases List.mem_cons.1 hy with rfl | hy
      · omega
      · exact .inl (List.mem_map.2 ⟨y, hy, rfl⟩)
    · rcases List.mem_cons.1 hy with hya | hy
      · have := hp.1 x hx; omega
      · exact .inr (ih hp.2 hx hy)

/-- The sparse storage has a cell for every block that can be non zero. -/
theorem sparse_covers (inv : Inverter) (ne nb : ℕ) (rows : List (Row sz)) (D : Option (BVec sz)) :
    Covers inv ne nb rows D (sparseHas ne nb rows) := by
  intro x y h1 h2 h3 hh
  have hnot : (x, y) ∉ blockPairs ne nb rows := by simpa [sparseHas] using hh
  unfold blockPairs at hnot
  rw [List.mem_append, List.mem_append, not_or, not_or] at hnot
  obtain ⟨⟨n1, n2⟩, n3⟩ := hnot
  have hne : x ≠ y := by
    rintro rfl
    refine n1 (List.mem_map.2 ⟨x, ?_, rfl⟩)
    rw [List.mem_range'_1]; omega
  have hlt : x < y := by omega
  have hd : dBlock D x y = 0 := by
    cases D with
    | none => rfl
    | some D => ext i j; simp [dBlock, hne]
  unfold schurLhs
  rw [hd, zero_add, list_sum_zero, list_sum_zero, add_zero]
  · intro r hr
    by_cases hx : ∃ c ∈ r.cells, c.id = x
    · by_cases hy : ∃ c ∈ r.cells, c.id = y
      · obtain ⟨c, hc, rfl⟩ := hx
        obtain ⟨d, hd', rfl⟩ := hy
        refine absurd (List.mem_flatMap.2 ⟨r, hr, ?_⟩) n3
        refine List.mem_flatMap.2 ⟨c, hc, List.mem_map.2 ⟨d, ?_, rfl⟩⟩
        exact List.mem_filter.2 ⟨hd', by simpa using hlt.le⟩
      · rw [sumAt_zero (b := y) fun c hc h => hy ⟨c, hc, h⟩, Matrix.mul_zero]
    · rw [sumAt_zero (b := x) fun c hc h => hx ⟨c, hc, h⟩, transpose_zero, Matrix.zero_mul]
  · intro ch hch
    obtain ⟨k1, k2⟩ := bufferKeys_spec ch.2
    have hz : ∀ b, b ∉ bufferKeys ch.2 → ∀ r ∈ ch.2, sumAt r.fCells b = 0 := by
      intro b hb r hr
      exact sumAt_zero fun c hc h => hb ((k2 b).2 ⟨r, hr, c, hc, h⟩)
    unfold chunkLhs
    by_cases hx : x ∈ bufferKeys ch.2
    · by_cases hy : y ∈ bufferKeys ch.2
      · exact absurd (List.mem_flatMap.2 ⟨ch, hch, upperPairs_mem _ k1 hx hy hlt⟩) n2
      · rw [bufOf_zero ch hy, list_sum_zero fun r hr => by rw [hz y hy r hr, Matrix.mul_zero]]
        simp
    · rw [bufOf_zero ch hx, list_sum_zero fun r hr => by
        rw [hz x hx r hr, transpose_zero, Matrix.zero_mul]]
      simp

theorem dense_covers (inv : Inverter) (ne nb : ℕ) (rows : List (Row sz)) (D : Option (BVec sz)) :
    Covers inv ne nb rows D denseHas := fun _ _ _ _ _ h => by simp [denseHas] at h

section Main

variable {inv : Inverter} {ne nb : ℕ} {rows : List (Row sz)} {D : Option (BVec sz)}
  {has : ℕ → ℕ → Bool} {order order' : List (ℕ × List (Row sz))}

/-- The stored reduced matrix is the Schur complement. -/
theorem eliminate_sym (h : Ordered ne nb rows)
    (hi : ∀ ch ∈ (detectChunks ne rows).1, Inverts inv (eteOf D ch))
    (hc : Covers inv ne nb rows D has) (ho : order.Perm (detectChunks ne rows).1) {x y : ℕ}
    (hx : ne ≤ x) (hx' : x < nb) (hy : ne ≤ y) (hy' : y < nb) :
    (eliminate inv ne nb has rows D order).1.sym x y = schurLhs inv ne rows D x y := by
  obtain ⟨h1, h2, -⟩ := eliminate_spec inv ne nb has rows D order ho h.sorted
  have key : ∀ x y, ne ≤ x → x ≤ y → y < nb →
      (if (eliminate inv ne nb has rows D order).1.has x y then
        (eliminate inv ne nb has rows D order).1.val x y else 0) = schurLhs inv ne rows D x y := by
    intro x y a1 a2 a3
    rw [h1]
    split_ifs with hh
    · exact h2 x y a1 a2 (by omega) hh
    · exact (hc x y a1 a2 a3 (by simpa using hh)).symm
  unfold Lhs.sym
  by_cases hxy : x ≤ y
  · rw [if_pos hxy]
    exact key x y hx hxy hy'
  · rw [if_neg hxy, ← schurLhs_symm hi, ← key y x hy (by omega) hx']

/-- The answer with the f part `z`: the e part is computed from it. -/
def completed (inv : Inverter) (ne : ℕ) (D : Option (BVec sz))
    (order' : List (ℕ × List (Row sz))) (z : BVec sz) : BVec sz :=
  backSubstitute inv D (fun b => if ne ≤ b then z b else 0) (fun b => if ne ≤ b then z b else 0)
    order'

theorem completed_spec (h : Ordered ne nb rows) (ho' : order'.Perm (detectChunks ne rows).1)
    (z : BVec sz) :
    (∀ b, ne ≤ b → completed inv ne D order' z b = z b) ∧
    (∀ ch ∈ (detectChunks ne rows).1, completed inv ne D order' z ch.1 =
      inv _ (eteOf D ch) *ᵥ backRhs ch (completed inv ne D order' z)) ∧
    (∀ b, b < ne → b ∉ (detectChunks ne rows).1.map Prod.fst →
      completed inv ne D order' z b = 0) := by
  obtain ⟨hn, -⟩ := detectChunks_ordered h
  have hp : (order'.map Prod.fst).Perm ((detectChunks ne rows).1.map Prod.fst) := ho'.map _
  obtain ⟨h1, h2⟩ := backSubstitute_spec inv D (fun b => if ne ≤ b then z b else 0) order'
    (hp.nodup_iff.2 hn) (fun b => if ne ≤ b then z b else 0)
  have hf : ∀ b, ne ≤ b → completed inv ne D order' z b = z b := by
    intro b hb
    unfold completed
    rw [h2 b]
    · simp [hb]
    · intro hm
      obtain ⟨ch, hch, rfl⟩ := List.mem_map.1 (hp.subset hm)
      have := (detectChunks_chunk ne rows ch hch).1
      omega
  refine ⟨hf, ?_, ?_⟩
  · intro ch hch
    have hlt := (detectChunks_chunk ne rows ch hch).1
    have hb : backRhs ch (completed inv ne D order' z) =
        backRhs ch (fun b => if ne ≤ b then z b else 0) := by
      unfold backRhs
      congr 1
      refine List.map_congr_left fun r hr => ?_
      rw [applyCells_congr]
      intro c hc
      have hge := ((chunk_row h hch hr).1 c hc).1
      rw [hf _ hge]
      simp [hge]
    rw [hb]
    unfold completed
    rw [h1 ch (ho'.symm.subset hch)]
    simp [Nat.not_le.2 hlt]
  · intro b hb hm
    unfold completed
    rw [h2 b fun hm' => hm (hp.subset hm')]
    simp [Nat.not_le.2 hb]

/-- The gradient at a completed answer: zero in the e blocks, the residual of the reduced
system in the f blocks. -/
theorem grad_completed (h : Ordered ne nb rows)
    (hi : ∀ ch ∈ (detectChunks ne rows).1, Inverts inv (eteOf D ch))
    (hc : Covers inv ne nb rows D has) (ho : order.Perm (detectChunks ne rows).1)
    (ho' : order'.Perm (detectChunks ne rows).1) (z : BVec sz) :
    (∀ b, b < ne → grad rows D (completed inv ne D order' z) b = 0) ∧
    (∀ x, ne ≤ x → x < nb → grad rows D (completed inv ne D order' z) x =
      ∑ y ∈ Finset.Ico ne nb, (eliminate inv ne nb has rows D order).1.sym x y *ᵥ z y -
        (eliminate inv ne nb has rows D order).2 x) := by
  obtain ⟨c1, c2, c3⟩ := completed_spec (inv := inv) (D := D) h ho' z
  refine ⟨fun b hb => grad_e_zero h hi c2 c3 hb, fun x hx hx' => ?_⟩
  rw [grad_f h c2 hx hx', (eliminate_spec inv ne nb has rows D order ho h.sorted).2.2 x]
  congr 1
  refine Finset.sum_congr rfl fun y hy => ?_
  rw [Finset.mem_Ico] at hy
  rw [eliminate_sym h hi hc ho hx hx' hy.1 hy.2, c1 y hy.1]

/-- The general statement behind the theorems below. -/
theorem solve_minimises_core (h : Ordered ne nb rows)
    (hi : ∀ ch ∈ (detectChunks ne rows).1, Inverts inv (eteOf D ch))
    (hc : Covers inv ne nb rows D has) (ho : order.Perm (detectChunks ne rows).1)
    (ho' : order'.Perm (detectChunks ne rows).1)
    {reduced : Lhs sz → BVec sz → Term × BVec sz}
    (hr : ∀ L rhs, (reduced L rhs).1 = .success → SolvesReduced ne nb L rhs (reduced L rhs).2)
    (hs : (solve inv ne nb has rows D reduced order order').1 = .success) (w : BVec sz) :
    cost nb rows D (solve inv ne nb has rows D reduced order order').2 ≤ cost nb rows D w := by
  unfold solve at hs ⊢
  simp only at hs ⊢
  split_ifs at hs ⊢ with hsucc
  · obtain ⟨g1, g2⟩ := grad_completed h hi hc ho ho'
      (reduced (eliminate inv ne nb has rows D order).1 (eliminate inv ne nb has rows D order).2).2
    refine minimiser_of_grad h.bound ?_ w
    intro b hb
    rcases Nat.lt_or_ge b ne with hbe | hbe
    · exact g1 b hbe
    · have := g2 b hbe hb
      rw [hr _ _ hsucc b hbe hb, sub_self] at this
      exact this
  · exact absurd hs hsucc

/-- With full rank e blocks the matrices of the chunks are invertible. -/
theorem eteOf_isUnit (h : Ordered ne nb rows) (hfull : FullRankE ne nb rows D) (hnb : ne ≤ nb)
    {ch : ℕ × List (Row sz)} (hch : ch ∈ (detectChunks ne rows).1) :
    IsUnit (eteOf D ch).det := by
  rw [isUnit_iff_ne_zero]
  intro hdet
  obtain ⟨t, ht0, ht⟩ := Matrix.exists_mulVec_eq_zero_iff.2 hdet
  apply ht0
  obtain ⟨hlt, hne, hf⟩ := detectChunks_chunk ne rows ch hch
  obtain ⟨hnod, hrest⟩ := detectChunks_ordered h
  have hE := eteOf_ker D ch ht
  have hq := eteOf_quad D ch t
  rw [ht, dotProduct_zero, list_sum_zero fun r hr => by rw [hE r hr, zero_dotProduct],
    add_zero] at hq
  set x : BVec sz := Function.update (fun _ => 0) ch.1 t with hx
  have hx1 : ∀ b, ne ≤ b → x b = 0 := by
    intro b hb
    rw [hx, Function.update_of_ne (by omega)]
  obtain ⟨r, hr⟩ := List.exists_mem_of_ne_nil _ hne
  obtain ⟨c, cs, hcells, hce, -⟩ := h.cells (detectChunks_mem ne rows hch hr) (hf r hr)
  have hen : energy nb rows D x = 0 := by
    unfold energy
    rw [list_sum_zero, zero_add]
    · cases D with
      | none => rfl
      | some D =>
        simp only [Option.elim]
        have hb := h.bound r (detectChunks_mem ne rows hch hr) c (by simp [hcells])
        rw [Finset.sum_eq_single ch.1]
        · rw [hx, Function.update_self]
          rw [hq]
          rw [dotProduct]
          refine Finset.sum_congr rfl fun i _ => ?_
          simp only [eteInit, mulVec_diagonal]
          ring
        · intro b _ hb'
          rw [hx, Function.update_of_ne hb']
          simp
        · intro h'
          rw [Finset.mem_range] at h'
          omega
    · intro s hs
      have hz : s.apply x = 0 := by
        have hs' := hs
        rw [← detectChunks_flatten ne rows] at hs'
        rcases List.mem_append.1 hs' with hs1 | hs1
        · obtain ⟨l, hl, hsl⟩ := List.mem_flatten.1 hs1
          obtain ⟨ch', hch', rfl⟩ := List.mem_map.1 hl
          obtain ⟨k1, k2, -, -⟩ := chunk_row h hch' hsl
          have hz2 : applyCells s.fCells x = 0 := by
            rw [applyCells_congr s.fCells (y := fun _ => 0) fun d hd => hx1 _ (k1 d hd).1]
            unfold applyCells
            exact list_sum_zero fun d _ => mulVec_zero _
          rw [k2, hz2, add_zero]
          by_cases he : ch'.1 = ch.1
          · have : ch' = ch := List.inj_on_of_nodup_map hnod hch' hch he
            subst this
            rw [hx, Function.update_self]
            exact hE s hsl
          · rw [hx, Function.update_of_ne he, mulVec_zero]
        · have : s.apply x = applyCells s.cells x := rfl
          rw [this, applyCells_congr s.cells (y := fun _ => 0) fun d hd => hx1 _ (hrest s hs1 d hd)]
          unfold applyCells
          exact list_sum_zero fun d _ => mulVec_zero _
      simp [hz]
  have := hfull x hx1 hen r (detectChunks_mem ne rows hch hr) c (by simp [hcells]) (by omega)
  rw [hce, hx, Function.update_self] at this
  exact this

theorem inverts_of_isUnit {n : ℕ} {M : Matrix (Fin n) (Fin n) ℝ} (hM : IsUnit M.det)
    (hs : Mᵀ = M) (hinv : inv n M = M⁻¹) : Inverts inv M := by
  refine ⟨?_, ?_⟩
  · rw [hinv, Matrix.mul_nonsing_inv _ hM, Matrix.one_mul]
  · rw [hinv, Matrix.transpose_nonsing_inv, hs]

/-- What `InvertPSDMatrix` promises when told to assume full rank. -/
def InvertsFullRank (inv : Inverter) : Prop :=
  ∀ n (M : Matrix (Fin n) (Fin n) ℝ), IsUnit M.det → inv n M = M⁻¹

end Main

/-! ## The property -/

section Property

variable {inv : Inverter} {ne nb : ℕ} {rows : List (Row sz)} {D : Option (BVec sz)}
  {order order' : List (ℕ × List (Row sz))}

/-- **DENSE_SCHUR** (C51): whenever it reports success it returns a global minimiser of
`‖A x - b‖² + ‖D x‖²` over all the parameters, in whatever order the threads process the
chunks. -/
theorem dense_schur_minimises (h : Ordered ne nb rows) (hnb : ne ≤ nb)
    (hfull : FullRankE ne nb rows D) (hinv : InvertsFullRank inv)
    (ho : order.Perm (detectChunks ne rows).1) (ho' : order'.Perm (detectChunks ne rows).1)
    {reduced : Lhs sz → BVec sz → Term × BVec sz}
    (hr : ∀ L rhs, (reduced L rhs).1 = .success → SolvesReduced ne nb L rhs (reduced L rhs).2)
    (hs : (solve inv ne nb denseHas rows D reduced order order').1 = .success) (w : BVec sz) :
    cost nb rows D (solve inv ne nb denseHas rows D reduced order order').2 ≤
      cost nb rows D w :=
  solve_minimises_core h (fun ch hch => inverts_of_isUnit (eteOf_isUnit h hfull hnb hch)
    (eteOf_symm D ch) (hinv _ _ (eteOf_isUnit h hfull hnb hch))) (dense_covers inv ne nb rows D) ho ho' hr hs w

/-- **SPARSE_SCHUR** (C51), and ITERATIVE_SCHUR with an explicit Schur complement: the same,
although only the blocks found by `InitStorage` are stored. -/
theorem sparse_schur_minimises (h : Ordered ne nb rows) (hnb : ne ≤ nb)
    (hfull : FullRankE ne nb rows D) (hinv : InvertsFullRank inv)
    (ho : order.Perm (detectChunks ne rows).1) (ho' : order'.Perm (detectChunks ne rows).1)
    {reduced : Lhs sz → BVec sz → Term × BVec sz}
    (hr : ∀ L rhs, (reduced L rhs).1 = .success → SolvesReduced ne nb L rhs (reduced L rhs).2)
    (hs : (solve inv ne nb (sparseHas ne nb rows) rows D reduced order order').1 = .success)
    (w : BVec sz) :
    cost nb rows D (solve inv ne nb (sparseHas ne nb rows) rows D reduced order order').2 ≤
      cost nb rows D w :=
  solve_minimises_core h (fun ch hch => inverts_of_isUnit (eteOf_isUnit h hfull hnb hch)
    (eteOf_symm D ch) (hinv _ _ (eteOf_isUnit h hfull hnb hch))) (sparse_covers inv ne nb rows D) ho ho' hr hs w

/-- With a pseudo inverse no rank condition is needed. -/
theorem schur_minimises_pseudo_inverse (h : Ordered ne nb rows)
    (hinv : ∀ n (M : Matrix (Fin n) (Fin n) ℝ), Mᵀ = M → Inverts inv M)
    (ho : order.Perm (detectChunks ne rows).1) (ho' : order'.Perm (detectChunks ne rows).1)
    {reduced : Lhs sz → BVec sz → Term × BVec sz}
    (hr : ∀ L rhs, (reduced L rhs).1 = .success → SolvesReduced ne nb L rhs (reduced L rhs).2)
    (hs : (solve inv ne nb (sparseHas ne nb rows) rows D reduced order order').1 = .success)
    (w : BVec sz) :
    cost nb rows D (solve inv ne nb (sparseHas ne nb rows) rows D reduced order order').2 ≤
      cost nb rows D w :=
  solve_minimises_core h (fun ch _ => hinv _ _ (eteOf_symm D ch)) (sparse_covers inv ne nb rows D) ho ho' hr hs w

/-- Elimination gives the same stored values whatever the order of the chunks. -/
theorem eliminate_order_irrelevant (h : Ordered ne nb rows) (has : ℕ → ℕ → Bool)
    (ho : order.Perm (detectChunks ne rows).1) (ho' : order'.Perm (detectChunks ne rows).1) :
    (∀ x y, ne ≤ x → x ≤ y → y < nb → has x y →
      (eliminate inv ne nb has rows D order).1.val x y =
        (eliminate inv ne nb has rows D order').1.val x y) ∧
    (eliminate inv ne nb has rows D order).2 = (eliminate inv ne nb has rows D order').2 := by
  obtain ⟨-, a2, a3⟩ := eliminate_spec inv ne nb has rows D order ho h.sorted
  obtain ⟨-, b2, b3⟩ := eliminate_spec inv ne nb has rows D order' ho' h.sorted
  refine ⟨fun x y h1 h2 h3 h4 => ?_, funext fun x => ?_⟩
  · rw [a2 x y h1 h2 (by omega) h4, b2 x y h1 h2 (by omega) h4]
  · rw [a3, b3]

theorem energy_sub_comm (nb : ℕ) (rows : List (Row sz)) (D : Option (BVec sz)) (Y X : BVec sz) :
    energy nb rows D (Y - X) = energy nb rows D (X - Y) := by
  unfold energy
  have hr : ∀ r : Row sz, r.apply (Y - X) = -r.apply (X - Y) := by
    intro r
    have a1 : r.apply (Y - X) = applyCells r.cells (Y - X) := rfl
    have a2 : r.apply (X - Y) = applyCells r.cells (X - Y) := rfl
    rw [a1, a2, applyCells_sub, applyCells_sub]
    abel
  congr 1
  · simp only [hr, Pi.neg_apply, neg_sq]
  · cases D with
    | none => rfl
    | some D =>
      simp only [Option.elim]
      refine Finset.sum_congr rfl fun b _ => Finset.sum_congr rfl fun i _ => ?_
      simp only [Pi.sub_apply]
      ring

/-- The columns of `[A; D]` are linearly independent. -/
def FullRank (nb : ℕ) (rows : List (Row sz)) (D : Option (BVec sz)) : Prop :=
  ∀ x : BVec sz, energy nb rows D x = 0 → ∀ b < nb, x b = 0

/-- The reduced matrix is positive definite if the problem has full rank, so that its Cholesky
factorisation exists. -/
theorem reduced_posDef (h : Ordered ne nb rows) (hnb : ne ≤ nb) (hfull : FullRank nb rows D)
    (hinv : InvertsFullRank inv) {has : ℕ → ℕ → Bool}
    (hhas : has = denseHas ∨ has = sparseHas ne nb rows)
    (ho : order.Perm (detectChunks ne rows).1) (z : BVec sz)
    (hz : ∃ b, ne ≤ b ∧ b < nb ∧ z b ≠ 0) :
    0 < ∑ x ∈ Finset.Ico ne nb, z x ⬝ᵥ
      ∑ y ∈ Finset.Ico ne nb, (eliminate inv ne nb has rows D order).1.sym x y *ᵥ z y := by
  have hfe : FullRankE ne nb rows D := fun x _ he r hr c hc hlt => hfull x he _ (by omega)
  have hi : ∀ ch ∈ (detectChunks ne rows).1, Inverts inv (eteOf D ch) := fun ch hch =>
    inverts_of_isUnit (eteOf_isUnit h hfe hnb hch) (eteOf_symm D ch)
      (hinv _ _ (eteOf_isUnit h hfe hnb hch))
  have hc : Covers inv ne nb rows D has := by
    rcases hhas with rfl | rfl
    · exact dense_covers inv ne nb rows D
    · exact sparse_covers inv ne nb rows D
  obtain ⟨x1, x2⟩ := grad_completed h hi hc ho ho z
  obtain ⟨y1, y2⟩ := grad_completed h hi hc ho ho 0
  have hXf := (completed_spec (inv := inv) (D := D) h ho z).1
  have hYf := (completed_spec (inv := inv) (D := D) h ho 0).1
  generalize completed inv ne D order z = X at *
  generalize completed inv ne D order 0 = Y at *
  have e1 := cost_expand h.bound D X Y
  have e2 := cost_expand h.bound D Y X
  have en := energy_sub_comm nb rows D Y X
  have key : energy nb rows D (X - Y) =
      ∑ b ∈ Finset.range nb, (X - Y) b ⬝ᵥ (grad rows D X b - grad rows D Y b) := by
    have hneg : ∑ b ∈ Finset.range nb, (Y - X) b ⬝ᵥ grad rows D X b =
        -∑ b ∈ Finset.range nb, (X - Y) b ⬝ᵥ grad rows D X b := by
      rw [← Finset.sum_neg_distrib]
      refine Finset.sum_congr rfl fun b _ => ?_
      rw [← neg_dotProduct]
      congr 1
      simp
    rw [hneg] at e1
    simp only [dotProduct_sub, Finset.sum_sub_distrib]
    linarith
  have hsplit : ∑ b ∈ Finset.range nb, (X - Y) b ⬝ᵥ (grad rows D X b - grad rows D Y b) =
      ∑ x ∈ Finset.Ico ne nb, z x ⬝ᵥ
      ∑ y ∈ Finset.Ico ne nb, (eliminate inv ne nb has rows D order).1.sym x y *ᵥ z y := by
    rw [Finset.range_eq_Ico, ← Finset.sum_Ico_consecutive _ (Nat.zero_le ne) hnb,
      Finset.sum_eq_zero, zero_add]
    · refine Finset.sum_congr rfl fun x hx => ?_
      rw [Finset.mem_Ico] at hx
      rw [x2 x hx.1 hx.2, y2 x hx.1 hx.2]
      have : (X - Y) x = z x := by
        rw [Pi.sub_apply, hXf x hx.1, hYf x hx.1]; simp
      rw [this]
      simp
    · intro b hb
      rw [Finset.mem_Ico] at hb
      rw [x1 b hb.2, y1 b hb.2, sub_self, dotProduct_zero]
  rw [← hsplit, ← key]
  refine lt_of_le_of_ne (energy_nonneg ..) ?_
  intro h0
  obtain ⟨b, hb1, hb2, hb3⟩ := hz
  apply hb3
  have := hfull _ h0.symm b hb2
  rw [Pi.sub_apply, hXf b hb1, hYf b hb1] at this
  simpa using this

/-- A reduced solver that succeeds on positive definite matrices and then solves the system. -/
def SolvesPosDef (ne nb : ℕ) (reduced : Lhs sz → BVec sz → Term × BVec sz) : Prop :=
  ∀ L rhs, (∀ z : BVec sz, (∃ b, ne ≤ b ∧ b < nb ∧ z b ≠ 0) →
      0 < ∑ x ∈ Finset.Ico ne nb, z x ⬝ᵥ ∑ y ∈ Finset.Ico ne nb, L.sym x y *ᵥ z y) →
    (reduced L rhs).1 = .success ∧ SolvesReduced ne nb L rhs (reduced L rhs).2

/-- On a problem of full rank the Schur solvers succeed with the unique minimiser, given
a factorisation that works for positive definite matrices. -/
theorem schur_full_rank (h : Ordered ne nb rows) (hnb : ne ≤ nb) (hfull : FullRank nb rows D)
    (hinv : InvertsFullRank inv) {has : ℕ → ℕ → Bool}
    (hhas : has = denseHas ∨ has = sparseHas ne nb rows)
    (ho : order.Perm (detectChunks ne rows).1) (ho' : order'.Perm (detectChunks ne rows).1)
    {reduced : Lhs sz → BVec sz → Term × BVec sz} (hr : SolvesPosDef ne nb reduced) :
    (solve inv ne nb has rows D reduced order order').1 = .success ∧
    ∀ w, cost nb rows D (solve inv ne nb has rows D reduced order order').2 ≤ cost nb rows D w ∧
      (cost nb rows D w = cost nb rows D (solve inv ne nb has rows D reduced order order').2 →
        ∀ b < nb, w b = (solve inv ne nb has rows D reduced order order').2 b) := by
  have hfe : FullRankE ne nb rows D := fun x _ he r hr c hc hlt => hfull x he _ (by omega)
  have hi : ∀ ch ∈ (detectChunks ne rows).1, Inverts inv (eteOf D ch) := fun ch hch =>
    inverts_of_isUnit (eteOf_isUnit h hfe hnb hch) (eteOf_symm D ch)
      (hinv _ _ (eteOf_isUnit h hfe hnb hch))
  have hc : Covers inv ne nb rows D has := by
    rcases hhas with rfl | rfl
    · exact dense_covers inv ne nb rows D
    · exact sparse_covers inv ne nb rows D
  obtain ⟨hs, hsol⟩ := hr (eliminate inv ne nb has rows D order).1
    (eliminate inv ne nb has rows D order).2
    (fun z hz => reduced_posDef h hnb hfull hinv hhas ho z hz)
  obtain ⟨g1, g2⟩ := grad_completed h hi hc ho ho'
      (reduced (eliminate inv ne nb has rows D order).1 (eliminate inv ne nb has rows D order).2).2
  have hsolve : solve inv ne nb has rows D reduced order order' = (.success,
      completed inv ne D order' (reduced (eliminate inv ne nb has rows D order).1
        (eliminate inv ne nb has rows D order).2).2) := by
    unfold solve
    simp only [hs, if_true]
    rfl
  rw [hsolve]
  have hg : ∀ b < nb, grad rows D (completed inv ne D order'
      (reduced (eliminate inv ne nb has rows D order).1
        (eliminate inv ne nb has rows D order).2).2) b = 0 := by
    intro b hb
    rcases Nat.lt_or_ge b ne with hbe | hbe
    · exact g1 b hbe
    · have := g2 b hbe hb
      rw [hsol b hbe hb, sub_self] at this
      exact this
  refine ⟨rfl, fun w => ⟨minimiser_of_grad h.bound hg w, fun heq b hb => ?_⟩⟩
  have := cost_expand h.bound D (completed inv ne D order'
      (reduced (eliminate inv ne nb has rows D order).1
        (eliminate inv ne nb has rows D order).2).2) w
  rw [Finset.sum_eq_zero fun b hb' => by rw [hg b (Finset.mem_range.1 hb'), dotProduct_zero],
    heq] at this
  have hz := hfull _ (by linarith) b hb
  rw [Pi.sub_apply, sub_eq_zero] at hz
  exact hz

end Property

end Ceres.Schur
