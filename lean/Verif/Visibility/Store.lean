import Verif.Visibility.Model
import Verif.SchurDirect.Sparse

/-!
# The storage of the blocks in the preconditioner
-/

noncomputable section

namespace Ceres.Visibility

open Matrix Ceres.BlockSparse Ceres.InnerProduct Ceres.Direct Ceres.Schur Ceres.SchurThreads Ceres.SchurDirect

variable {bs : BS} {ne : ℕ} {ps : List (ℕ × ℕ)}

/-- What is asked of the pairs. -/
structure GoodPairs (bs : BS) (ne : ℕ) (ps : List (ℕ × ℕ)) : Prop where
  sorted : ps.Pairwise SchurDirect.Before
  bounds : ∀ p, p ∈ ps → p.1 < (tail bs.cols ne).length ∧ p.2 < (tail bs.cols ne).length
  sizes : ∀ b, b < bs.cols.length → 0 < szOf bs b

/-- The cells of a row block of the reduced matrix. -/
theorem pair_row (hp : GoodPairs bs ne ps) {k : ℕ} {r : BRow} (hr : (raStructure (tail bs.cols ne) ps).rows[k]? = some r) :
    r.cells.map BlockSparse.Cell.blockId = ((ps).filter fun p => p.1 = k).map Prod.snd := by
  have := raRows_get _ _ _ _ _ hp.sorted (fun _ _ => Nat.zero_le _) k hr
  rwa [Nat.zero_add] at this

theorem pair_block {k : ℕ} {r : BRow} (hr : (raStructure (tail bs.cols ne) ps).rows[k]? = some r) :
    (tail bs.cols ne)[k]? = some r.block := by
  have := raRows_blocks (tail bs.cols ne) 0 (tail bs.cols ne) (ps) 0
  rw [← this, List.getElem?_map]
  show Option.map _ ((raStructure (tail bs.cols ne) ps).rows[k]?) = _
  rw [hr]
  rfl

theorem pair_some {x : ℕ} (hx : ne ≤ x) (hx' : x < bs.cols.length) :
    ∃ r, (raStructure (tail bs.cols ne) ps).rows[x - ne]? = some r ∧ r.block = ⟨szOf bs x, fPos bs ne x⟩ := by
  have h := tail_get hx hx'
  have := raRows_blocks (tail bs.cols ne) 0 (tail bs.cols ne) (ps) 0
  rw [← this, List.getElem?_map] at h
  change Option.map _ ((raStructure (tail bs.cols ne) ps).rows[x - ne]?) = _ at h
  cases hr : (raStructure (tail bs.cols ne) ps).rows[x - ne]? with
  | none => rw [hr] at h; cases h
  | some r =>
    rw [hr] at h
    exact ⟨r, rfl, by simpa using h⟩

theorem pair_sorted (hp : GoodPairs bs ne ps) : CellsSorted (raStructure (tail bs.cols ne) ps) := by
  intro r hr
  obtain ⟨k, hk⟩ := List.mem_iff_getElem?.1 hr
  rw [pair_row hp hk, List.pairwise_map]
  refine List.Pairwise.imp_of_mem ?_ (hp.sorted.filter _)
  intro a b ha hb h
  have ha : a.1 = k := by simpa using (List.mem_filter.1 ha).2
  have hb : b.1 = k := by simpa using (List.mem_filter.1 hb).2
  unfold SchurDirect.Before at h
  omega

/-- The reduced matrix is a block sparse matrix. -/
theorem pair_ok (hp : GoodPairs bs ne ps) (v : Vec) : (BMat.ofStructure (raStructure (tail bs.cols ne) ps) v).Ok := by
  refine ofStructure_ok (tail_laid bs ne) ?_ ?_ ?_
  · show Laid 0 ((raRows _ _ _ _ _).map BRow.block)
    rw [raRows_blocks]
    exact tail_laid bs ne
  · intro r hr c hc
    obtain ⟨k, hk⟩ := List.mem_iff_getElem?.1 hr
    have : c.blockId ∈ r.cells.map BlockSparse.Cell.blockId := List.mem_map_of_mem hc
    rw [pair_row hp hk] at this
    obtain ⟨p, hm, he⟩ := List.mem_map.1 this
    rw [← he]
    exact (hp.bounds _ (List.mem_of_mem_filter hm)).2
  · obtain ⟨n, hn⟩ := raRows_slots (tail bs.cols ne) 0 (tail bs.cols ne) (ps) 0 hp.sorted
      fun _ _ => Nat.zero_le _
    have hn : (raStructure (tail bs.cols ne) ps).slots = List.range' 0 n := hn
    rw [hn, List.length_range', List.range_eq_range']

theorem pair_numRows (v : Vec) : (BMat.ofStructure (raStructure (tail bs.cols ne) ps) v).numRows = fCols bs ne := by
  rw [← tail_sum]
  show ((raRows _ _ _ _ _).map fun r => r.block.size).sum = _
  have := raRows_blocks (tail bs.cols ne) 0 (tail bs.cols ne) (ps) 0
  have := congrArg (fun l => (l.map Block.size).sum) this
  simp only [List.map_map] at this
  rw [← this]
  rfl

theorem pair_numCols (v : Vec) : (BMat.ofStructure (raStructure (tail bs.cols ne) ps) v).numCols = fCols bs ne := tail_sum bs ne

/-! ## The cells -/

theorem layoutFind_isSome (hp : GoodPairs bs ne ps) {x y : ℕ} (hx : x < (tail bs.cols ne).length) :
    (layoutFind (raStructure (tail bs.cols ne) ps) x y).isSome = true ↔ (x, y) ∈ ps := by
  have hlt : x < (raStructure (tail bs.cols ne) ps).rows.length := by
    have := congrArg List.length (raRows_blocks (tail bs.cols ne) 0 (tail bs.cols ne) (ps) 0)
    rw [List.length_map] at this
    exact lt_of_lt_of_eq hx this.symm
  have hr := List.getElem?_eq_getElem hlt
  unfold layoutFind
  rw [hr, Option.bind_some, Option.isSome_map, List.find?_isSome]
  have h := pair_row hp hr
  constructor
  · rintro ⟨c, hc, he⟩
    have he : c.blockId = y := by simpa using he
    have hm : c.blockId ∈ ((raStructure (tail bs.cols ne) ps).rows[x]).cells.map BlockSparse.Cell.blockId := List.mem_map_of_mem hc
    rw [h] at hm
    obtain ⟨p, hp, hp2⟩ := List.mem_map.1 hm
    obtain ⟨hp, hp1⟩ := List.mem_filter.1 hp
    have hp1 : p.1 = x := by simpa using hp1
    rw [← hp1, ← he, ← hp2]
    exact hp
  · intro hp
    have hm : y ∈ ((raStructure (tail bs.cols ne) ps).rows[x]).cells.map BlockSparse.Cell.blockId := by
      rw [h]
      exact List.mem_map.2 ⟨(x, y), List.mem_filter.2 ⟨hp, by simp⟩, rfl⟩
    obtain ⟨c, hc, he⟩ := List.mem_map.1 hm
    exact ⟨c, hc, by simpa using he⟩

theorem pair_has (hp : GoodPairs bs ne ps) {x y : ℕ} (hx : ne ≤ x) (hx' : x < bs.cols.length) (hy : ne ≤ y) :
    (pairStorage bs ne ps).has ne x y = true ↔ (x - ne, y - ne) ∈ ps := by
  rw [← layoutFind_isSome hp (by rw [tail_length]; omega)]
  unfold Storage.has pairStorage
  simp [hx, hy]

/-- Where an element is. -/
theorem pair_cell {x y : ℕ} {c : CellRef} (h : (pairStorage bs ne ps).cell x y = some c) :
    ∃ r, (raStructure (tail bs.cols ne) ps).rows[x]? = some r ∧ ∃ d ∈ r.cells, d.blockId = y ∧
      ∀ i j, c.address i j = d.position + i * (blockAt (tail bs.cols ne) y).size + j := by
  unfold pairStorage at h
  obtain ⟨p, hp, rfl⟩ := Option.map_eq_some_iff.1 h
  unfold layoutFind at hp
  obtain ⟨r, hr, hp⟩ := Option.bind_eq_some_iff.1 hp
  obtain ⟨d, hd, rfl⟩ := Option.map_eq_some_iff.1 hp
  refine ⟨r, hr, d, List.mem_of_find?_eq_some hd, by simpa using List.find?_some hd, fun i j => ?_⟩
  unfold CellRef.address
  simp

/-- Different elements are at different addresses. -/
theorem pair_inj (hp : GoodPairs bs ne ps) {x y x' y' : ℕ} (hx : ne ≤ x) (hy : ne ≤ y) (hx' : ne ≤ x')
    (hy' : ne ≤ y') {c c' : CellRef} (h : (pairStorage bs ne ps).cell (x - ne) (y - ne) = some c)
    (h' : (pairStorage bs ne ps).cell (x' - ne) (y' - ne) = some c') {i j i' j' : ℕ} (hi : i < szOf bs x)
    (hj : j < szOf bs y) (hi' : i' < szOf bs x') (hj' : j' < szOf bs y') (he : c.address i j = c'.address i' j') :
    x = x' ∧ y = y' ∧ i = i' ∧ j = j' := by
  obtain ⟨r, hr, d, hd, hdy, ha⟩ := pair_cell h
  obtain ⟨r', hr', d', hd', hdy', ha'⟩ := pair_cell h'
  rw [ha, ha'] at he
  have hnd : (raStructure (tail bs.cols ne) ps).slots.Nodup :=
    (pair_ok hp fun _ => 0).bs.slots.nodup_iff.2 List.nodup_range
  have hsz : ∀ {x : ℕ} {r : BRow}, ne ≤ x → (raStructure (tail bs.cols ne) ps).rows[x - ne]? = some r →
      r.block.size = szOf bs x := by
    intro x r hx hr
    have := pair_block hr
    rw [← blockAt_tail hx]
    unfold blockAt
    rw [List.getD_eq_getElem?_getD, this]
    rfl
  have hmem : ∀ {x y i j : ℕ} {r : BRow} {d : Cell}, ne ≤ x → ne ≤ y →
      (raStructure (tail bs.cols ne) ps).rows[x - ne]? = some r → d.blockId = y - ne → i < szOf bs x → j < szOf bs y →
      d.position + i * (blockAt (tail bs.cols ne) (y - ne)).size + j ∈
        List.range' d.position (r.block.size * ((raStructure (tail bs.cols ne) ps).col d.blockId).size) := by
    intro x y i j r d hx hy hr hdy hi hj
    rw [List.mem_range'_1, hdy, hsz hx hr]
    have e : ((raStructure (tail bs.cols ne) ps).col (y - ne)).size = szOf bs y := blockAt_tail hy
    rw [e, blockAt_tail hy]
    have : (i + 1) * szOf bs y ≤ szOf bs x * szOf bs y := Nat.mul_le_mul_right _ hi
    rw [Nat.add_mul, one_mul] at this
    omega
  have m1 := hmem hx hy hr hdy hi hj
  have m2 := hmem hx' hy' hr' hdy' hi' hj'
  rw [← he] at m2
  have k1 : x - ne = x' - ne := flatMap_unique hnd hr hr' (List.mem_flatMap.2 ⟨d, hd, m1⟩)
    (List.mem_flatMap.2 ⟨d', hd', m2⟩)
  have k1 : x = x' := by omega
  subst k1
  rw [hr] at hr'
  cases hr'
  have hnd2 := (List.nodup_flatMap.1 hnd).1 r (List.mem_of_getElem? hr)
  obtain ⟨a, ha1⟩ := List.mem_iff_getElem?.1 hd
  obtain ⟨b, hb1⟩ := List.mem_iff_getElem?.1 hd'
  have k2 : a = b := flatMap_unique hnd2 ha1 hb1 m1 m2
  subst k2
  rw [ha1] at hb1
  cases hb1
  have k3 : y = y' := by omega
  subst k3
  rw [blockAt_tail hy] at he
  have he : i * szOf bs y + j = i' * szOf bs y + j' := by omega
  have h1 : i = i' := by
    have := congrArg (· / szOf bs y) he
    beta_reduce at this
    rwa [mul_comm i, Nat.mul_add_div (by omega), Nat.div_eq_of_lt hj, mul_comm i', Nat.mul_add_div (by omega),
      Nat.div_eq_of_lt hj', add_zero, add_zero] at this
  subst h1
  exact ⟨rfl, rfl, rfl, by omega⟩

theorem pair_holds (hp : GoodPairs bs ne ps) (m : SchurThreads.Mem) :
    ∃ v, (pairStorage bs ne ps).Holds ne (szOf bs) v m := by
  classical
  refine ⟨fun a => if h : ∃ q : (ℕ × ℕ) × ℕ × ℕ, ne ≤ q.1.1 ∧ ne ≤ q.1.2 ∧ q.2.1 < szOf bs q.1.1 ∧
      q.2.2 < szOf bs q.1.2 ∧ ∃ c, (pairStorage bs ne ps).cell (q.1.1 - ne) (q.1.2 - ne) = some c ∧
        c.address q.2.1 q.2.2 = a then m (.lhs h.choose.1.1 h.choose.1.2 h.choose.2.1 h.choose.2.2) else 0, ?_⟩
  intro x y hx hy c hc i hi j hj
  have hex : ∃ q : (ℕ × ℕ) × ℕ × ℕ, ne ≤ q.1.1 ∧ ne ≤ q.1.2 ∧ q.2.1 < szOf bs q.1.1 ∧
      q.2.2 < szOf bs q.1.2 ∧ ∃ c', (pairStorage bs ne ps).cell (q.1.1 - ne) (q.1.2 - ne) = some c' ∧
        c'.address q.2.1 q.2.2 = c.address i j := ⟨((x, y), i, j), hx, hy, hi, hj, c, hc, rfl⟩
  refine Eq.trans (dif_pos hex) ?_
  obtain ⟨g1, g2, g3, g4, c', g5, g6⟩ := hex.choose_spec
  obtain ⟨e1, e2, e3, e4⟩ := pair_inj hp g1 g2 hx hy g5 hc g3 g4 hi hj g6
  rw [e1, e2, e3, e4]

theorem pair_square (hp : GoodPairs bs ne ps) : Square (raStructure (tail bs.cols ne) ps) (fCols bs ne) where
  ok := pair_ok hp
  rows := pair_numRows (bs := bs) (ne := ne) fun _ => 0
  cols := tail_sum bs ne
  sorted := pair_sorted hp
  sizes := by
    intro r hr c hc
    have h1 := (pair_ok hp fun _ => 0).bs.ids r hr c hc
    have h1 : c.blockId < (tail bs.cols ne).length := h1
    rw [tail_length] at h1
    have e : ((raStructure (tail bs.cols ne) ps).col (ne + c.blockId - ne)).size = szOf bs (ne + c.blockId) :=
      blockAt_tail (Nat.le_add_right _ _)
    rw [Nat.add_sub_cancel_left] at e
    have := hp.sizes (ne + c.blockId) (by omega)
    omega

/-- The elements of the reduced matrix. -/
theorem pair_entry (hp : GoodPairs bs ne ps) (v : Vec) {x y : ℕ} (hx : ne ≤ x)
    (hx' : x < bs.cols.length) (hy : ne ≤ y) (hy' : y < bs.cols.length) {i j : ℕ} (hi : i < szOf bs x)
    (hj : j < szOf bs y) :
    (raStructure (tail bs.cols ne) ps).entry v (fPos bs ne x + i) (fPos bs ne y + j) =
      ((pairStorage bs ne ps).cell (x - ne) (y - ne)).elim 0 fun c => v (c.address i j) := by
  have hok := pair_ok hp v
  obtain ⟨r, hr, hb⟩ := pair_some (bs := bs) hx hx'
  have hcol : (raStructure (tail bs.cols ne) ps).col (y - ne) = ⟨szOf bs y, fPos bs ne y⟩ := by
    show (tail bs.cols ne).getD _ _ = _
    rw [List.getD_eq_getElem?_getD, tail_get hy hy']
    rfl
  have hlen : y - ne < (raStructure (tail bs.cols ne) ps).cols.length := by
    show y - ne < (tail bs.cols ne).length
    rw [tail_length]
    omega
  have h := entry_row hok.bs.cols hok.bs.rows hok.bs.ids v (List.mem_of_getElem? hr) (k := i) (i := y - ne) (a := j)
    (by rw [hb]; exact hi) hlen (by
      show j < ((raStructure (tail bs.cols ne) ps).col (y - ne)).size
      rw [hcol]; exact hj)
  have h : (raStructure (tail bs.cols ne) ps).entry v (r.block.position + i) (((raStructure (tail bs.cols ne) ps).col (y - ne)).position + j)
    = rowEntry (raStructure (tail bs.cols ne) ps) v r i (y - ne) j := h
  rw [hb, hcol] at h
  rw [h]
  unfold rowEntry
  rw [hcol]
  rw [find_sum (pair_sorted hp r (List.mem_of_getElem? hr)) (y - ne) fun p => v (p + i * szOf bs y + j)]
  unfold pairStorage layoutFind
  simp only
  rw [hr, Option.bind_some, blockAt_tail hy]
  cases (List.find? (fun c => decide (c.blockId = y - ne)) r.cells) with
  | none => rfl
  | some d =>
    simp [CellRef.address]

end Ceres.Visibility
