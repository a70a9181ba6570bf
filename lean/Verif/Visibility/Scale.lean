import Verif.Visibility.Store

/-!
# The pairs of blocks, and the scaling of the blocks between clusters
-/

noncomputable section

namespace Ceres.Visibility

open Matrix Ceres.BlockSparse Ceres.InnerProduct Ceres.Direct Ceres.Schur Ceres.SchurThreads Ceres.SchurDirect

variable {bs : BS} {ne : ℕ} {ps : List (ℕ × ℕ)}

/-! ## The pairs -/

theorem upperPairs_map (f : ℕ → ℕ) (l : List ℕ) :
    Schur.upperPairs (l.map f) = (Schur.upperPairs l).map fun p => (f p.1, f p.2) := by
  induction l with
  | nil => rfl
  | cons a l ih =>
    rw [List.map_cons, Schur.upperPairs, Schur.upperPairs, List.map_append, ih, List.map_map, List.map_map]
    rfl

theorem mem_inserted {call : Call} (hf : Fits ne bs call) (cluster : ℕ → ℕ) (pairs : List (ℕ × ℕ)) (q : ℕ × ℕ) :
    q ∈ insertedPairs bs ne cluster pairs ↔
      (q.1 = q.2 ∧ q.1 < bs.cols.length - ne) ∨
      ((ne + q.1, ne + q.2) ∈ blockPairs ne bs.cols.length (rowsOf bs call.A.values call.b) ∧ q.1 ≠ q.2 ∧
        inPreconditioner cluster pairs q.1 q.2 = true) ∨
      (q.1 = q.2 ∧ (ne + q.1, ne + q.2) ∈ blockPairs ne bs.cols.length (rowsOf bs call.A.values call.b) ∧
        inPreconditioner cluster pairs q.1 q.2 = true) := by
  have hb : ∀ p ∈ blockPairs ne bs.cols.length (rowsOf bs (fun _ => 0) fun _ => 0),
      (ne ≤ p.1 ∧ p.1 < bs.cols.length) ∧ ne ≤ p.2 ∧ p.2 < bs.cols.length := by
    intro p hp
    rw [blockPairs_rowsOf bs ne _ _ call.A.values call.b] at hp
    exact blockPairs_bounds (ordered_call hf) hp
  rw [← blockPairs_rowsOf bs ne (fun _ => 0) (fun _ => 0) call.A.values call.b]
  have hq : (ne + q.1, ne + q.2) ∈ blockPairs ne bs.cols.length (rowsOf bs (fun _ => 0) fun _ => 0) ↔
      ∃ p ∈ blockPairs ne bs.cols.length (rowsOf bs (fun _ => 0) fun _ => 0), (p.1 - ne, p.2 - ne) = q := by
    constructor
    · intro h
      exact ⟨_, h, by simp⟩
    · rintro ⟨p, hp, rfl⟩
      obtain ⟨⟨h1, -⟩, h2, -⟩ := hb p hp
      have : (ne + (p.1 - ne), ne + (p.2 - ne)) = p := Prod.ext (by simp; omega) (by simp; omega)
      rw [this]
      exact hp
  have hsub : ∀ (l : List (ℕ × ℕ)), q ∈ (l.map fun p => (p.1 - ne, p.2 - ne)).filter
      (fun p => inPreconditioner cluster pairs p.1 p.2) ↔
      (∃ p ∈ l, (p.1 - ne, p.2 - ne) = q) ∧ inPreconditioner cluster pairs q.1 q.2 = true := by
    intro l
    rw [List.mem_filter, List.mem_map]
  rw [hq]
  unfold insertedPairs blockPairs
  simp only [List.mem_append, List.mem_flatMap, upperPairs_map, hsub]
  constructor
  · rintro ((h | ⟨ch, h1, ⟨p, h2, h3⟩, h4⟩) | ⟨r, h1, ⟨p, h2, h3⟩, h4⟩)
    · obtain ⟨b, hb, rfl⟩ := List.mem_map.1 h
      exact .inl ⟨rfl, List.mem_range.1 hb⟩
    · by_cases he : q.1 = q.2
      · exact .inr (.inr ⟨he, ⟨p, .inl (.inr ⟨ch, h1, h2⟩), h3⟩, h4⟩)
      · exact .inr (.inl ⟨⟨p, .inl (.inr ⟨ch, h1, h2⟩), h3⟩, he, h4⟩)
    · by_cases he : q.1 = q.2
      · exact .inr (.inr ⟨he, ⟨p, .inr ⟨r, h1, h2⟩, h3⟩, h4⟩)
      · exact .inr (.inl ⟨⟨p, .inr ⟨r, h1, h2⟩, h3⟩, he, h4⟩)
  · have hdiag : q.1 = q.2 → q.1 < bs.cols.length - ne →
        q ∈ (List.range (bs.cols.length - ne)).map (fun b => (b, b)) := fun he hlt =>
      List.mem_map.2 ⟨q.1, List.mem_range.2 hlt, Prod.ext rfl he⟩
    have key : (∃ p, ((p ∈ (List.range' ne (bs.cols.length - ne)).map (fun b => (b, b)) ∨
        ∃ ch ∈ (detectChunks ne (rowsOf bs (fun _ => 0) fun _ => 0)).1, p ∈ Schur.upperPairs (Schur.bufferKeys ch.2)) ∨
        ∃ r ∈ (detectChunks ne (rowsOf bs (fun _ => 0) fun _ => 0)).2, p ∈ rowPairs r) ∧ (p.1 - ne, p.2 - ne) = q) →
        inPreconditioner cluster pairs q.1 q.2 = true →
        (q ∈ (List.range (bs.cols.length - ne)).map (fun b => (b, b)) ∨
        ∃ ch ∈ (detectChunks ne (rowsOf bs (fun _ => 0) fun _ => 0)).1,
          (∃ p ∈ Schur.upperPairs (Schur.bufferKeys ch.2), (p.1 - ne, p.2 - ne) = q) ∧
            inPreconditioner cluster pairs q.1 q.2 = true) ∨
        ∃ r ∈ (detectChunks ne (rowsOf bs (fun _ => 0) fun _ => 0)).2,
          (∃ p ∈ rowPairs r, (p.1 - ne, p.2 - ne) = q) ∧ inPreconditioner cluster pairs q.1 q.2 = true := by
      rintro ⟨p, (h | ⟨ch, h1, h2⟩) | ⟨r, h1, h2⟩, h3⟩ h4
      · obtain ⟨b, hb, rfl⟩ := List.mem_map.1 h
        rw [List.mem_range'_1] at hb
        subst h3
        exact .inl (.inl (hdiag rfl (by simp only; omega)))
      · exact .inl (.inr ⟨ch, h1, ⟨p, h2, h3⟩, h4⟩)
      · exact .inr ⟨r, h1, ⟨p, h2, h3⟩, h4⟩
    rintro (⟨he, hlt⟩ | ⟨h1, -, h2⟩ | ⟨-, h1, h2⟩)
    · exact .inl (.inl (hdiag he hlt))
    · exact key h1 h2
    · exact key h1 h2

/-! ## The scaling -/

theorem foldl_halve (l : List ℕ) (hl : l.Nodup) (v : Vec) (a : ℕ) :
    l.foldl halve v a = if a ∈ l then v a * (1 / 2) else v a := by
  induction l generalizing v with
  | nil => simp
  | cons b l ih =>
    rw [List.nodup_cons] at hl
    rw [List.foldl_cons, ih hl.2]
    unfold halve
    by_cases hab : a = b
    · subst hab
      rw [if_neg hl.1, Function.update_self, if_pos (by simp)]
    · rw [Function.update_of_ne hab]
      simp [hab]

theorem halveCell_eq (v : Vec) (c : CellRef) (rows cols : ℕ) :
    halveCell v c rows cols =
      ((List.range rows).flatMap fun i => (List.range cols).map fun j => c.address i j).foldl halve v := by
  unfold halveCell
  rw [List.foldl_flatMap]
  congr 1
  funext v i
  rw [List.foldl_map]

theorem halveCell_spec (v : Vec) (c : CellRef) (rows cols : ℕ)
    (hinj : ∀ i < rows, ∀ j < cols, ∀ i' < rows, ∀ j' < cols, c.address i j = c.address i' j' → i = i' ∧ j = j')
    (a : ℕ) : ((∃ i < rows, ∃ j < cols, c.address i j = a) → halveCell v c rows cols a = v a * (1 / 2)) ∧
      ((∀ i < rows, ∀ j < cols, c.address i j ≠ a) → halveCell v c rows cols a = v a) := by
  have hnd : ((List.range rows).flatMap fun i => (List.range cols).map fun j => c.address i j).Nodup := by
    rw [List.nodup_flatMap]
    constructor
    · intro i hi
      refine List.Nodup.map_on ?_ List.nodup_range
      intro j hj j' hj' he
      exact (hinj i (List.mem_range.1 hi) j (List.mem_range.1 hj) i (List.mem_range.1 hi) j' (List.mem_range.1 hj') he).2
    · refine List.Pairwise.imp_of_mem ?_ (List.nodup_range (n := rows))
      intro i i' hi hi' hne
      show List.Disjoint _ _
      intro b hb hb'
      obtain ⟨j, hj, rfl⟩ := List.mem_map.1 hb
      obtain ⟨j', hj', he⟩ := List.mem_map.1 hb'
      exact hne (hinj i (List.mem_range.1 hi) j (List.mem_range.1 hj) i' (List.mem_range.1 hi') j'
        (List.mem_range.1 hj') he.symm).1
  rw [halveCell_eq, foldl_halve _ hnd]
  constructor
  · rintro ⟨i, hi, j, hj, rfl⟩
    exact if_pos (List.mem_flatMap.2 ⟨i, List.mem_range.2 hi, List.mem_map.2 ⟨j, List.mem_range.2 hj, rfl⟩⟩)
  · intro h
    refine if_neg fun hm => ?_
    obtain ⟨i, hi, hm⟩ := List.mem_flatMap.1 hm
    obtain ⟨j, hj, he⟩ := List.mem_map.1 hm
    exact h i (List.mem_range.1 hi) j (List.mem_range.1 hj) he

theorem scale_loop (hp : GoodPairs bs ne ps) (cluster : ℕ → ℕ) (l : List (ℕ × ℕ)) (hl : l.Nodup) (hsub : ∀ p ∈ l, p ∈ ps)
    (v : Vec) : ∃ v', l.foldlM (fun v p =>
        if cluster p.1 ≠ cluster p.2 then
          ((pairStorage bs ne ps).cell p.1 p.2).map fun c =>
            halveCell v c (blockAt (tail bs.cols ne) p.1).size (blockAt (tail bs.cols ne) p.2).size
        else some v) v = some v' ∧
      ∀ x y, ne ≤ x → ne ≤ y → ∀ c, (pairStorage bs ne ps).cell (x - ne) (y - ne) = some c →
        ∀ i < szOf bs x, ∀ j < szOf bs y, v' (c.address i j) =
          if (x - ne, y - ne) ∈ l ∧ cluster (x - ne) ≠ cluster (y - ne) then v (c.address i j) * (1 / 2)
          else v (c.address i j) := by
  induction l generalizing v with
  | nil => exact ⟨v, rfl, fun x y _ _ c _ i _ j _ => by simp⟩
  | cons p l ih =>
    rw [List.nodup_cons] at hl
    rw [List.foldlM_cons]
    by_cases hc : cluster p.1 ≠ cluster p.2
    · rw [if_pos hc]
      obtain ⟨hb1, hb2⟩ := hp.bounds p (hsub p (by simp))
      have hsome := (layoutFind_isSome hp (x := p.1) (y := p.2) hb1).2 (hsub p (by simp))
      obtain ⟨a, ha⟩ := Option.isSome_iff_exists.1 hsome
      have hcell : ∃ d, (pairStorage bs ne ps).cell p.1 p.2 = some d := by
        unfold pairStorage
        simp only
        rw [ha]
        exact ⟨_, rfl⟩
      obtain ⟨d, hd⟩ := hcell
      rw [hd, Option.map_some]
      have s1 : (blockAt (tail bs.cols ne) p.1).size = szOf bs (ne + p.1) := by
        have := blockAt_tail (bs := bs) (ne := ne) (b := ne + p.1) (by omega)
        rwa [Nat.add_sub_cancel_left] at this
      have s2 : (blockAt (tail bs.cols ne) p.2).size = szOf bs (ne + p.2) := by
        have := blockAt_tail (bs := bs) (ne := ne) (b := ne + p.2) (by omega)
        rwa [Nat.add_sub_cancel_left] at this
      rw [s1, s2]
      have hd' : (pairStorage bs ne ps).cell (ne + p.1 - ne) (ne + p.2 - ne) = some d := by
        rw [Nat.add_sub_cancel_left, Nat.add_sub_cancel_left, hd]
      obtain ⟨v', h1, h2⟩ := ih hl.2 (fun q hq => hsub q (by simp [hq])) (halveCell v d (szOf bs (ne + p.1)) (szOf bs (ne + p.2)))
      refine ⟨v', h1, fun x y hx hy c hcc i hi j hj => ?_⟩
      rw [h2 x y hx hy c hcc i hi j hj]
      have hspec := halveCell_spec v d (szOf bs (ne + p.1)) (szOf bs (ne + p.2)) (by
        intro i hi j hj i' hi' j' hj' he
        exact (pair_inj hp (by omega) (by omega) (by omega) (by omega) hd' hd' hi hj hi' hj' he).2.2) (c.address i j)
      by_cases hpq : (x - ne, y - ne) = p
      · have e1 : x = ne + p.1 := by rw [← hpq]; simp; omega
        have e2 : y = ne + p.2 := by rw [← hpq]; simp; omega
        rw [if_neg (by rw [hpq]; exact fun h => hl.1 h.1), if_pos (by rw [hpq]; exact ⟨by simp, by
          have h1 : x - ne = p.1 := by rw [← hpq]
          have h2 : y - ne = p.2 := by rw [← hpq]
          rw [h1, h2]
          exact hc⟩)]
        subst e1 e2
        rw [hd'] at hcc
        cases hcc
        exact hspec.1 ⟨i, hi, j, hj, rfl⟩
      · have e : halveCell v d (szOf bs (ne + p.1)) (szOf bs (ne + p.2)) (c.address i j) = v (c.address i j) := by
          refine hspec.2 fun i' hi' j' hj' he => hpq ?_
          obtain ⟨e1, e2, -⟩ := pair_inj hp (by omega) (by omega) hx hy hd' hcc hi' hj' hi hj he
          exact Prod.ext (by simp only; omega) (by simp only; omega)
        rw [e]
        simp only [List.mem_cons, hpq, false_or]
    · rw [if_neg hc]
      obtain ⟨v', h1, h2⟩ := ih hl.2 (fun q hq => hsub q (by simp [hq])) v
      refine ⟨v', h1, fun x y hx hy c hcc i hi j hj => ?_⟩
      rw [h2 x y hx hy c hcc i hi j hj]
      have : ((x - ne, y - ne) ∈ p :: l ∧ cluster (x - ne) ≠ cluster (y - ne)) ↔
          ((x - ne, y - ne) ∈ l ∧ cluster (x - ne) ≠ cluster (y - ne)) := by
        rw [List.mem_cons]
        constructor
        · rintro ⟨rfl | h, h'⟩
          · exact absurd h' hc
          · exact ⟨h, h'⟩
        · rintro ⟨h, h'⟩
          exact ⟨.inr h, h'⟩
      simp only [this]

theorem scale_spec {P : Prec} (hp : GoodPairs bs ne P.blockPairs) (v : Vec) :
    ∃ v', scaleOffDiagonal bs ne P v = some v' ∧
      ∀ x y, ne ≤ x → ne ≤ y → ∀ c, (pairStorage bs ne P.blockPairs).cell (x - ne) (y - ne) = some c →
        ∀ i < szOf bs x, ∀ j < szOf bs y, v' (c.address i j) =
          if P.cluster (x - ne) ≠ P.cluster (y - ne) then v (c.address i j) * (1 / 2) else v (c.address i j) := by
  have hnd : P.blockPairs.Nodup := by
    refine hp.sorted.imp ?_
    rintro a b h rfl
    unfold SchurDirect.Before at h
    omega
  obtain ⟨v', h1, h2⟩ := scale_loop hp P.cluster P.blockPairs hnd (fun _ h => h) v
  refine ⟨v', h1, fun x y hx hy c hc i hi j hj => ?_⟩
  rw [h2 x y hx hy c hc i hi j hj]
  have hm : (x - ne, y - ne) ∈ P.blockPairs := by
    obtain ⟨r, hr, d, hd, hdy, -⟩ := pair_cell hc
    have hlt : x - ne < (tail bs.cols ne).length := by
      have := pair_block hr
      exact (List.getElem?_eq_some_iff.1 this).1
    refine (layoutFind_isSome hp hlt).1 ?_
    unfold pairStorage at hc
    obtain ⟨p, hp', -⟩ := Option.map_eq_some_iff.1 hc
    rw [hp']
    rfl
  simp only [hm, true_and]

end Ceres.Visibility
