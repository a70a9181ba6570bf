import Verif.Schur.Props

/-!
# C51: the eliminator specialised for one f block computes the same
-/

noncomputable section

namespace Ceres.Schur

open Matrix

variable {sz : ℕ → ℕ} {ne : ℕ} {rows : List (Row sz)} {D : Option (BVec sz)}

/-- The matrix inverse. -/
def exactInv : Inverter := fun _ M => M⁻¹

theorem exactInv_fullRank : InvertsFullRank exactInv := fun _ _ _ => rfl

theorem chunk_fCell (h : Ordered ne (ne + 1) rows) {ch : ℕ × List (Row sz)}
    (hch : ch ∈ (detectChunks ne rows).1) {r : Row sz} (hr : r ∈ ch.2) :
    (r.fCell ne = none ∧ sumAt r.fCells ne = 0 ∧ ∀ X : BVec sz, applyCells r.fCells X = 0) ∨
    (r.fCell ne = some (sumAt r.fCells ne) ∧
      ∀ X : BVec sz, applyCells r.fCells X = sumAt r.fCells ne *ᵥ X ne) := by
  obtain ⟨hlt, -, hf⟩ := detectChunks_chunk ne rows ch hch
  have hmem := detectChunks_mem ne rows hch hr
  obtain ⟨c, cs, hc, hce, hcs, hcs'⟩ := h.cells hmem (hf r hr)
  have hF : r.fCells = cs := by unfold Row.fCells; rw [hc]; rfl
  have hsort := h.sorted r hmem
  have hb := h.bound r hmem
  rw [hF]
  unfold Row.fCell
  rw [hc] at hsort hb ⊢
  match cs, hcs' hlt, hsort, hb with
  | [], _, _, _ => exact .inl ⟨rfl, rfl, fun _ => rfl⟩
  | [d], h1, _, h3 =>
    have hd : d.id = ne := by
      have := h1 d (by simp); have := h3 d (by simp); omega
    refine .inr ⟨by simp, fun X => ?_⟩
    have := at_mulVec d X {ne} (by simp [hd])
    simpa [applyCells] using this
  | d :: d' :: l, h1, h2, h3 =>
    have a1 := h1 d (by simp)
    have a2 := h3 d' (by simp)
    have a3 := (List.pairwise_cons.1 (List.pairwise_cons.1 h2).2).1 d' (by simp)
    omega

theorem oneChunkRows_spec (h : Ordered ne (ne + 1) rows) {ch : ℕ × List (Row sz)}
    (hch : ch ∈ (detectChunks ne rows).1) (lhs : Matrix (Fin (sz ne)) (Fin (sz ne)) ℝ) :
    oneChunkRows D ne ch lhs =
      ⟨eteOf D ch, bufOf ch ne, gOf ch,
        (ch.2.map fun r => (sumAt r.fCells ne)ᵀ *ᵥ r.rhs).sum,
        lhs + (ch.2.map fun r => (sumAt r.fCells ne)ᵀ * sumAt r.fCells ne).sum⟩ := by
  have key : ∀ (l : List (Row sz)) (hl : ∀ r ∈ l, r ∈ ch.2) (a : OneAcc sz ch.1 ne),
      l.foldl
        (fun (a : OneAcc sz ch.1 ne) r =>
          let E := r.eCell ch.1
          let EtE := Eᵀ * E
          let a := { a with ete := a.ete + EtE, etb := a.etb + Eᵀ *ᵥ r.rhs }
          match r.fCell ne with
          | none => a
          | some F =>
            let EtF := Eᵀ * F
            let FtF := Fᵀ * F
            { a with etf := a.etf + EtF, lhs := a.lhs + FtF, ftb := a.ftb + Fᵀ *ᵥ r.rhs }) a =
      ⟨a.ete + (l.map fun r => (r.eCell ch.1)ᵀ * r.eCell ch.1).sum,
       a.etf + (l.map fun r => (r.eCell ch.1)ᵀ * sumAt r.fCells ne).sum,
       a.etb + (l.map fun r => (r.eCell ch.1)ᵀ *ᵥ r.rhs).sum,
       a.ftb + (l.map fun r => (sumAt r.fCells ne)ᵀ *ᵥ r.rhs).sum,
       a.lhs + (l.map fun r => (sumAt r.fCells ne)ᵀ * sumAt r.fCells ne).sum⟩ := by
    intro l
    induction l with
    | nil => intro _ a; simp
    | cons r l ih =>
      intro hl a
      rw [List.foldl_cons, ih fun s hs => hl s (by simp [hs])]
      simp only [List.map_cons, List.sum_cons]
      rcases chunk_fCell h hch (hl r (by simp)) with ⟨h1, h2, -⟩ | ⟨h1, -⟩
      · simp only [h1, h2, Matrix.mul_zero, transpose_zero, zero_mulVec, Matrix.zero_mul, zero_add,
          add_assoc]
      · simp only [h1, add_assoc]
  unfold oneChunkRows
  refine (key ch.2 (fun _ hr => hr) _).trans ?_
  simp only [zero_add]
  rfl

theorem chunkRhs_alt (inv : Inverter) (ch : ℕ × List (Row sz)) (x : ℕ) :
    chunkRhs inv D ch x = (ch.2.map fun r => (sumAt r.fCells x)ᵀ *ᵥ r.rhs).sum -
      (bufOf ch x)ᵀ *ᵥ (inv _ (eteOf D ch) *ᵥ gOf ch) := by
  have hbuf : ∀ u : Fin (sz ch.1) → ℝ, (bufOf ch x)ᵀ *ᵥ u =
      (ch.2.map fun r => (sumAt r.fCells x)ᵀ *ᵥ (r.eCell ch.1 *ᵥ u)).sum := by
    intro u
    unfold bufOf
    rw [transpose_list_sum, mulVec_list_sum]
    congr 1
    refine List.map_congr_left fun r _ => ?_
    rw [transpose_mul, transpose_transpose, mulVec_mulVec]
  rw [hbuf, ← list_sum_sub]
  unfold chunkRhs
  congr 1
  refine List.map_congr_left fun r _ => ?_
  rw [mulVec_sub]

/-- The specialised elimination computes the Schur complement. -/
theorem oneEliminate_spec (h : Ordered ne (ne + 1) rows) :
    oneEliminate ne rows D = (schurLhs exactInv ne rows D ne ne, schurRhs exactInv ne rows D ne) := by
  have k1 : ∀ (l : List (ℕ × List (Row sz))), (∀ ch ∈ l, ch ∈ (detectChunks ne rows).1) →
      ∀ s, l.foldl (oneChunk D ne) s =
        (s.1 + (l.map fun ch => chunkLhs exactInv D ch ne ne).sum,
          s.2 + (l.map fun ch => chunkRhs exactInv D ch ne).sum) := by
    intro l
    induction l with
    | nil => intro _ s; simp
    | cons ch l ih =>
      intro hl s
      rw [List.foldl_cons, ih fun c hc => hl c (by simp [hc])]
      simp only [oneChunk, oneChunkRows_spec h (hl ch (by simp)), List.map_cons, List.sum_cons]
      rw [chunkRhs_alt]
      refine Prod.ext ?_ ?_
      · simp only [chunkLhs, exactInv, Matrix.mul_assoc]
        abel
      · simp only [exactInv]
        abel
  have k2 : ∀ (l : List (Row sz)), (∀ r ∈ l, r ∈ (detectChunks ne rows).2) →
      ∀ s : Matrix (Fin (sz ne)) (Fin (sz ne)) ℝ × (Fin (sz ne) → ℝ), l.foldl
    (fun s r =>
      let F := r.eCell ne
      let FtF := Fᵀ * F
      (s.1 + FtF, s.2 + Fᵀ *ᵥ r.rhs)) s =
        (s.1 + (l.map fun r => (sumAt r.cells ne)ᵀ * sumAt r.cells ne).sum,
          s.2 + (l.map fun r => (sumAt r.cells ne)ᵀ *ᵥ r.rhs).sum) := by
    intro l
    induction l with
    | nil => intro _ s; simp
    | cons r l ih =>
      intro hl s
      have hr := hl r (by simp)
      have hmem := detectChunks_rest_mem ne rows hr
      have hE : r.eCell ne = sumAt r.cells ne := by
        have h1 := (detectChunks_ordered h).2 r hr
        have h2 := h.bound r hmem
        have h3 := h.sorted r hmem
        have h4 := h.nonempty r hmem
        unfold Row.eCell
        match hc : r.cells, h1, h2, h3, h4 with
        | [], _, _, _, h4 => exact absurd rfl h4
        | [d], _, _, _, _ => simp
        | d :: d' :: l, h1, h2, h3, _ =>
          have a1 := h1 d (by simp)
          have a2 := h2 d' (by simp)
          have a3 := (List.pairwise_cons.1 h3).1 d' (by simp)
          omega
      rw [List.foldl_cons, ih fun c hc => hl c (by simp [hc])]
      simp only [hE, List.map_cons, List.sum_cons, add_assoc]
  unfold oneEliminate
  simp only
  rw [k1 _ (fun _ hc => hc), k2 _ (fun _ hr => hr)]
  refine Prod.ext ?_ ?_
  · simp only [schurLhs]
    congr 2
    cases D with
    | none => rfl
    | some D => ext i j; simp [dBlock, eteInit, diagonal_apply, Fin.ext_iff]
  · simp only [schurRhs, zero_add]

theorem oneBackSubstitute_spec (h : Ordered ne (ne + 1) rows) (z : Fin (sz ne) → ℝ) :
    let X := oneBackSubstitute ne rows D z (Function.update (fun _ => 0) ne z)
    (X ne = z) ∧
    (∀ ch ∈ (detectChunks ne rows).1, X ch.1 = exactInv _ (eteOf D ch) *ᵥ backRhs ch X) ∧
    (∀ b, b < ne → b ∉ (detectChunks ne rows).1.map Prod.fst → X b = 0) := by
  intro X
  obtain ⟨hn, -⟩ := detectChunks_ordered h
  have htmp : ∀ (ch) (_ : ch ∈ (detectChunks ne rows).1) (X : BVec sz), X ne = z →
      (ch.2.foldl
        (fun (t : Fin (sz ch.1) → ℝ) r =>
          match r.fCell ne with
          | none => t + (r.eCell ch.1)ᵀ *ᵥ r.rhs
          | some F => t + (r.eCell ch.1)ᵀ *ᵥ (r.rhs - F *ᵥ z)) 0) = backRhs ch X := by
    intro ch hch X hX
    have key : ∀ (l : List (Row sz)), (∀ r ∈ l, r ∈ ch.2) → ∀ t : Fin (sz ch.1) → ℝ,
        l.foldl
        (fun (t : Fin (sz ch.1) → ℝ) r =>
          match r.fCell ne with
          | none => t + (r.eCell ch.1)ᵀ *ᵥ r.rhs
          | some F => t + (r.eCell ch.1)ᵀ *ᵥ (r.rhs - F *ᵥ z)) t =
        t + (l.map fun r => (r.eCell ch.1)ᵀ *ᵥ (r.rhs - applyCells r.fCells X)).sum := by
      intro l
      induction l with
      | nil => intro _ t; simp
      | cons r l ih =>
        intro hl t
        rw [List.foldl_cons, ih fun s hs => hl s (by simp [hs])]
        rw [List.map_cons, List.sum_cons]
        rcases chunk_fCell h hch (hl r (by simp)) with ⟨h1, -, h3⟩ | ⟨h1, h3⟩
        · simp only [h1, h3, sub_zero, add_assoc]
        · simp only [h1, h3, hX, add_assoc]
    rw [key _ (fun _ hr => hr), zero_add]
    rfl
  have key : ∀ (l : List (ℕ × List (Row sz))), (l.map Prod.fst).Nodup →
      (∀ ch ∈ l, ch ∈ (detectChunks ne rows).1) → ∀ y : BVec sz,
      (∀ ch ∈ l, ∀ X : BVec sz, X ne = z → l.foldl
        (fun (y : BVec sz) (ch : ℕ × List (Row sz)) =>
          let tmp : Fin (sz ch.1) → ℝ := ch.2.foldl
            (fun t r =>
              match r.fCell ne with
              | none => t + (r.eCell ch.1)ᵀ *ᵥ r.rhs
              | some F => t + (r.eCell ch.1)ᵀ *ᵥ (r.rhs - F *ᵥ z)) 0
          Function.update y ch.1 ((oneChunkRows D ne ch 0).ete⁻¹ *ᵥ tmp)) y ch.1 =
        (eteOf D ch)⁻¹ *ᵥ backRhs ch X) ∧
      (∀ b, b ∉ l.map Prod.fst → l.foldl
        (fun (y : BVec sz) (ch : ℕ × List (Row sz)) =>
          let tmp : Fin (sz ch.1) → ℝ := ch.2.foldl
            (fun t r =>
              match r.fCell ne with
              | none => t + (r.eCell ch.1)ᵀ *ᵥ r.rhs
              | some F => t + (r.eCell ch.1)ᵀ *ᵥ (r.rhs - F *ᵥ z)) 0
          Function.update y ch.1 ((oneChunkRows D ne ch 0).ete⁻¹ *ᵥ tmp)) y b = y b) := by
    intro l
    induction l with
    | nil => intro _ _ y; simp
    | cons ch l ih =>
      intro hn hl y
      rw [List.map_cons, List.nodup_cons] at hn
      obtain ⟨h1, h2⟩ := ih hn.2 (fun c hc => hl c (by simp [hc])) (Function.update y ch.1
        ((oneChunkRows D ne ch 0).ete⁻¹ *ᵥ (ch.2.foldl
            (fun (t : Fin (sz ch.1) → ℝ) r =>
              match r.fCell ne with
              | none => t + (r.eCell ch.1)ᵀ *ᵥ r.rhs
              | some F => t + (r.eCell ch.1)ᵀ *ᵥ (r.rhs - F *ᵥ z)) 0)))
      constructor
      · intro c hc X hX
        rw [List.foldl_cons]
        rcases List.mem_cons.1 hc with rfl | hc
        · rw [h2 _ hn.1, Function.update_self, htmp c (hl c (by simp)) X hX,
            oneChunkRows_spec h (hl c (by simp))]
        · exact h1 c hc X hX
      · intro b hb
        rw [List.map_cons, List.mem_cons, not_or] at hb
        rw [List.foldl_cons, h2 b hb.2, Function.update_of_ne hb.1]
  obtain ⟨a1, a2⟩ := key (detectChunks ne rows).1 hn (fun _ hc => hc)
    (Function.update (fun _ => 0) ne z)
  have hX : X ne = z := by
    have := a2 ne fun hm => by
      obtain ⟨ch, hch, he⟩ := List.mem_map.1 hm
      have := (detectChunks_chunk ne rows ch hch).1
      omega
    rw [Function.update_self] at this
    exact this
  refine ⟨hX, fun ch hch => a1 ch hch X hX, fun b hb hm => ?_⟩
  have := a2 b hm
  rw [Function.update_of_ne (by omega)] at this
  exact this

/-- The Schur solver with the eliminator for one f block (C51): success means a global minimiser
of the full problem. -/
theorem one_f_block_minimises (h : Ordered ne (ne + 1) rows) (hfull : FullRankE ne (ne + 1) rows D)
    {reduced : Matrix (Fin (sz ne)) (Fin (sz ne)) ℝ → (Fin (sz ne) → ℝ) →
      Term × (Fin (sz ne) → ℝ)}
    (hr : ∀ L rhs, (reduced L rhs).1 = .success → L *ᵥ (reduced L rhs).2 = rhs)
    (hs : (oneSolve ne rows D reduced).1 = .success) (w : BVec sz) :
    cost (ne + 1) rows D (oneSolve ne rows D reduced).2 ≤ cost (ne + 1) rows D w := by
  have hi : ∀ ch ∈ (detectChunks ne rows).1, Inverts exactInv (eteOf D ch) := fun ch hch =>
    inverts_of_isUnit (eteOf_isUnit h hfull (by omega) hch) (eteOf_symm D ch) rfl
  unfold oneSolve at hs ⊢
  simp only at hs ⊢
  split_ifs at hs ⊢ with hsucc
  · have hsol := hr _ _ hsucc
    rw [oneEliminate_spec h] at hsol ⊢
    set z := (reduced (schurLhs exactInv ne rows D ne ne) (schurRhs exactInv ne rows D ne)).2
    obtain ⟨c1, c2, c3⟩ := oneBackSubstitute_spec (D := D) h z
    refine minimiser_of_grad h.bound ?_ w
    intro b hb
    rcases Nat.lt_or_ge b ne with hbe | hbe
    · exact grad_e_zero h hi c2 c3 hbe
    · obtain rfl : b = ne := by omega
      rw [grad_f h c2 le_rfl (by omega), Nat.Ico_succ_singleton, Finset.sum_singleton, c1, hsol,
        sub_self]
  · exact absurd hs hsucc

end Ceres.Schur
