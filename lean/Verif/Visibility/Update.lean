import Verif.Visibility.Scale
import Verif.Visibility.Algebra
import Verif.Visibility.Clusters
import Verif.SchurMatrix.Eliminated

/-!
# The update of the preconditioner
-/

noncomputable section

namespace Ceres.Visibility

open Matrix Ceres.BlockSparse Ceres.InnerProduct Ceres.Direct Ceres.Schur Ceres.SchurThreads Ceres.SchurDirect
  Ceres.SchurMatrix

variable {bs : BS} {ne : ℕ}

/-! ## The factorisation -/

/-- What is kept between updates. -/
def Keeps (c : SparseChol) (R : BS) (n : ℕ) (K : Kept c) : Prop :=
  (K.crs = none ∧ K.chol = c.init) ∨
  ∃ A v P, K.crs = some A ∧ CrsOf c.upper R n A v ∧ Reach c P K.chol ∧ SamePattern P A

theorem factorize_spec {c : SparseChol} (hc : c.Correct) {R : BS} {n : ℕ} (hsq : Square R n) {K : Kept c}
    (hK : Keeps c R n K) (v old : Vec) {H : Buf} (hsym : ∀ p < n, ∀ q < n, H p q = H q p)
    (hH : ∀ p < n, ∀ q < n, p ≤ q → R.entry v p q = H p q) :
    ∃ ok K', factorize c K (BMat.ofStructure R v) old = some (ok, K') ∧ Keeps c R n K' ∧
      (ok = true → ∀ x, Eqs n H (apply K' x) x) ∧ (PosDef n H → ok = true) ∧
      (Definite c → ok = true → PosDef n H) := by
  obtain ⟨A, hA, hcrs⟩ := theCrs_spec (upper := c.upper) hsq (crs := K.crs) (by
    intro A hA
    rcases hK with ⟨h1, -⟩ | ⟨B, w, P, h1, h2, -⟩
    · rw [h1] at hA; cases hA
    · rw [h1] at hA
      cases hA
      exact ⟨w, h2⟩) v old
  have hin := crs_input hsq hcrs
  obtain ⟨P, hreach, hpat⟩ : ∃ P, Reach c P K.chol ∧ SamePattern P A := by
    rcases hK with ⟨-, h2⟩ | ⟨B, w, P, -, h2, h3, h4⟩
    · exact ⟨A, by rw [h2]; exact .init, rfl, rfl, fun _ _ => rfl, fun _ _ => rfl⟩
    · exact ⟨P, h3, pattern_trans h4 (pattern_nnz h4) (crs_pattern h2 hcrs)⟩
  have e : ∀ p < n, ∀ q < n, A.sym p q = H p q := by
    intro p hp q hq
    rw [crs_sym hsq hcrs hp hq]
    split_ifs with hpq
    · exact hH p hp q hq hpq
    · rw [hH q hq p hp (by omega), hsym q hq p hp]
  have hn : A.numCols = n := hcrs.numCols
  refine ⟨(c.factorize K.chol A).1, ⟨some A, (c.factorize K.chol A).2⟩, ?_, ?_, ?_, ?_, ?_⟩
  · unfold factorize
    rw [hA]
    rfl
  · exact Or.inr ⟨A, v, P, rfl, hcrs, .factorize _ hreach hin hpat, hpat⟩
  · intro hfac x
    have hsol := (hc.solves P K.chol A x hreach hin hpat hfac).2
    rw [hn] at hsol
    exact eqs_congr e hsol
  · intro hpd
    refine hc.complete P K.chol A hreach hin hpat ?_
    rw [hn]
    exact posDef_congr (fun p hp q hq => (e p hp q hq).symm) hpd
  · intro hdef hok
    have := hdef P K.chol A hreach hin hpat hok
    rw [hn] at this
    exact posDef_congr e this

/-! ## The constructor -/

/-- What is known of the preconditioner. -/
structure Built (cfg : Config) (bs : BS) (ne : ℕ) (P : Prec) (F : SimpleGraph ℕ) : Prop where
  clusters : ∀ a < bs.cols.length - ne, P.cluster a < P.numClusters
  joined : Joined cfg bs ne P F
  good : GoodPairs bs ne P.blockPairs
  pairs : ∀ (values b : Vec) (x y : ℕ), x < bs.cols.length - ne → y < bs.cols.length - ne → ((x, y) ∈ P.blockPairs ↔
    x = y ∨ (ne + x, ne + y) ∈ blockPairs ne bs.cols.length (rowsOf bs values b) ∧
      (P.cluster x = P.cluster y ∨ F.Adj (P.cluster x) (P.cluster y)))

theorem construct_built {call : Call} (hf : Fits ne bs call) (hn : ne < bs.cols.length) (cfg : Config) {o : Orders}
    (hok : o.Ok) : ∃ P F, construct cfg o bs ne = some P ∧ Built cfg bs ne P F ∧ 0 < P.numClusters ∧
      P.numClusters ≤ bs.cols.length - ne ∧
      (if cfg.canonical then CanonicalClusters bs ne (bs.cols.length - ne) P.numClusters P.cluster
        else LinkageClusters bs ne (bs.cols.length - ne) P.numClusters P.cluster) := by
  obtain ⟨num, cluster, h1, h2, h3, h4, h5⟩ := clusterCameras_spec hf.ordered (n := bs.cols.length - ne) (by omega) cfg hok
  obtain ⟨ps, F, k1, k2, k3⟩ := clusterPairs_spec hf.ordered cfg hok (bs.cols.length - ne) num cluster
  refine ⟨⟨num, cluster, ps, (insertedPairs bs ne cluster ps).foldl (fun s p => insertPair p s) []⟩, F, ?_,
    ⟨h4, k2, ⟨?_, ?_, ?_⟩, ?_⟩, h2, h3, h5⟩
  · unfold construct
    rw [if_pos (by omega)]
    simp only
    rw [h1, Option.bind_some, k1]
    rfl
  · exact (foldl_insertPair _ [] List.Pairwise.nil).1
  · intro p hp
    rw [tail_length]
    rw [(foldl_insertPair _ [] List.Pairwise.nil).2, mem_inserted hf] at hp
    have hbd : (ne + p.1, ne + p.2) ∈ blockPairs ne bs.cols.length (rowsOf bs call.A.values call.b) →
        p.1 < bs.cols.length - ne ∧ p.2 < bs.cols.length - ne := by
      intro h
      have := blockPairs_bounds (ordered_call hf) h
      dsimp only at this
      omega
    rcases hp with (h | h | h) | h
    · omega
    · exact hbd h.1
    · exact hbd h.2.1
    · exact absurd h List.not_mem_nil
  · intro b hb
    exact sz_pos hf hb
  · intro values b x y hx hy
    dsimp only
    rw [(foldl_insertPair _ [] List.Pairwise.nil).2, mem_inserted hf, blockPairs_rowsOf bs ne _ _ values b]
    have hin := inPreconditioner_iff k3 (h4 x hx) (h4 y hy)
    simp only [List.not_mem_nil, or_false, hin]
    constructor
    · rintro (h | h | h)
      · exact .inl h.1
      · exact .inr ⟨h.1, h.2.2⟩
      · exact .inl h.1
    · rintro (rfl | h)
      · exact .inl ⟨rfl, hx⟩
      · by_cases hxy : x = y
        · exact .inr (.inr ⟨hxy, h⟩)
        · exact .inr (.inl ⟨h.1, hxy, h.2⟩)

/-! ## The update -/

theorem cameraOf_eq {x i : ℕ} (hx : ne ≤ x) (hx' : x < bs.cols.length) (hi : i < szOf bs x) :
    cameraOf bs ne (fPos bs ne x + i) = x - ne :=
  blockOf_eq (tail_laid bs ne) (tail_get hx hx') (r := fPos bs ne x + i) (by simp) (by simpa using hi)

theorem cameraOf_lt {p : ℕ} (hp : p < fCols bs ne) : cameraOf bs ne p < bs.cols.length - ne := by
  obtain ⟨x, hx, hx', i, hi, -, he⟩ := f_split hp
  unfold cameraOf
  omega

theorem weight_symm (cluster : ℕ → ℕ) (F : SimpleGraph ℕ) (s : ℝ) (a b : ℕ) :
    weight cluster F s a b = weight cluster F s b a := by
  unfold weight
  by_cases h : cluster a = cluster b
  · rw [if_pos h, if_pos h.symm]
  · rw [if_neg h, if_neg (c := cluster b = cluster a) fun h' => h h'.symm]
    by_cases h' : F.Adj (cluster a) (cluster b)
    · rw [if_pos h', if_pos h'.symm]
    · rw [if_neg h', if_neg fun h => h' h.symm]

/-- The arguments of the update, as those of a call of a linear solver. -/
def asCall (A : BMat ℝ) (D : Option Vec) : Call := ⟨A, fun _ => 0, D⟩

section Run

variable {cfg : Config} {P : Prec} {F : SimpleGraph ℕ} {inv : Inverter} {A : BMat ℝ} {D : Option Vec} {threads : ℕ}

theorem storage_cols (bs : BS) (ne : ℕ) (ps : List (ℕ × ℕ)) : (pairStorage bs ne ps).cols = fCols bs ne := tail_sum bs ne

/-- What the storage holds after the elimination. -/
theorem stored_values (hB : Built cfg bs ne P F) (hf : Fits ne bs (asCall A D)) (hinv : InvertsFullRank inv)
    (ht : 0 < threads) {m : SchurThreads.Mem} {e : Option SchurThreads.Mem}
    (h : EliminateRun inv ne bs.cols.length ((pairStorage bs ne P.blockPairs).has ne)
      (rowsOf bs A.values fun _ => 0) (D.map (blocksOf bs)) false threads m e) :
    ∃ m', e = some m' ∧ ∀ v, (pairStorage bs ne P.blockPairs).Holds ne (szOf bs) v m' →
      ∀ S, IsSchur A.numRows (eCols bs ne) (fCols bs ne) A.entry D S →
      ∀ x y, ne ≤ x → x ≤ y → y < bs.cols.length → ∀ i < szOf bs x, ∀ j < szOf bs y, ∀ s,
        ((pairStorage bs ne P.blockPairs).cell (x - ne) (y - ne)).elim 0 (fun c =>
          (if P.cluster (x - ne) ≠ P.cluster (y - ne) then s else 1) * v (c.address i j)) =
          masked bs ne P.cluster F s S (fPos bs ne x + i) (fPos bs ne y + j) := by
  obtain ⟨m', h1, h2, -, -⟩ := eliminate_no_rhs_threads ht h
  refine ⟨m', h1, fun v hv S hS x y hx hxy hy' i hi j hj s => ?_⟩
  have ho := ordered_call hf
  obtain ⟨H, hH⟩ := exists_buf (ne := ne) (schurLhs inv ne (rowsOf bs A.values fun _ => 0) (D.map (blocksOf bs)))
  have hHS := schurLhs_isSchur hf rfl hinv hH
  have hp := fPos_bound hx (show x < bs.cols.length by omega)
  have hq := fPos_bound (show ne ≤ y by omega) hy'
  have e1 : S (fPos bs ne x + i) (fPos bs ne y + j) =
      schurLhs inv ne (rowsOf bs A.values fun _ => 0) (D.map (blocksOf bs)) x y ⟨i, hi⟩ ⟨j, hj⟩ := by
    rw [← hH x y hx (by omega) (by omega) hy' ⟨i, hi⟩ ⟨j, hj⟩]
    exact isSchur_unique hS hHS (by omega) (by omega)
  unfold masked
  rw [cameraOf_eq hx (by omega) hi, cameraOf_eq (by omega) hy' hj, e1]
  cases hc : (pairStorage bs ne P.blockPairs).cell (x - ne) (y - ne) with
  | some c =>
    have hhas : (pairStorage bs ne P.blockPairs).has ne x y = true := by
      unfold Storage.has
      rw [hc]
      simp
      omega
    have hval : v (c.address i j) =
        schurLhs inv ne (rowsOf bs A.values fun _ => 0) (D.map (blocksOf bs)) x y ⟨i, hi⟩ ⟨j, hj⟩ := by
      rw [hv x y hx (by omega) c hc i hi j hj,
        ← (eliminate_spec inv ne bs.cols.length _ (rowsOf bs A.values fun _ => 0) (D.map (blocksOf bs)) _
          (List.Perm.refl _) ho.sorted).2.1 x y hx hxy (by omega) hhas]
      have := congrArg (fun L : Lhs (szOf bs) => L.val x y ⟨i, hi⟩ ⟨j, hj⟩) h2
      exact this
    have hm := (pair_has hB.good hx (by omega) (by omega)).1 hhas
    rw [hB.pairs (fun _ => 0) (fun _ => 0) _ _ (by omega) (by omega)] at hm
    rw [Option.elim_some, hval]
    congr 1
    unfold weight
    by_cases hcl : P.cluster (x - ne) = P.cluster (y - ne)
    · rw [if_neg (not_not.2 hcl), if_pos hcl]
    · rw [if_pos hcl, if_neg hcl, if_pos]
      rcases hm with hm | hm
      · rw [hm] at hcl
        exact absurd rfl hcl
      · exact hm.2.resolve_left hcl
  | none =>
    have hhas : ¬ (pairStorage bs ne P.blockPairs).has ne x y = true := by
      unfold Storage.has
      rw [hc]
      simp
    rw [pair_has hB.good hx (by omega) (by omega), hB.pairs A.values (fun _ => 0) _ _ (by omega) (by omega), not_or,
      not_and_or] at hhas
    rw [Option.elim_none]
    symm
    rcases hhas.2 with hh | hh
    · have hz := sparse_covers inv ne bs.cols.length (rowsOf bs A.values fun _ => 0) (D.map (blocksOf bs)) x y hx hxy hy' (by
        unfold sparseHas
        rw [decide_eq_false_iff_not]
        rwa [Nat.add_sub_cancel' hx, Nat.add_sub_cancel' (by omega)] at hh)
      rw [hz]
      simp
    · rw [not_or] at hh
      unfold weight
      rw [if_neg hh.1, if_neg hh.2, zero_mul]

/-- The matrix that is factorised. -/
theorem entry_masked (hB : Built cfg bs ne P F) {S : Buf} {v : Vec} {s : ℝ}
    (h : ∀ x y, ne ≤ x → x ≤ y → y < bs.cols.length → ∀ i < szOf bs x, ∀ j < szOf bs y,
        ((pairStorage bs ne P.blockPairs).cell (x - ne) (y - ne)).elim 0 (fun c => v (c.address i j)) =
          masked bs ne P.cluster F s S (fPos bs ne x + i) (fPos bs ne y + j)) :
    ∀ p < fCols bs ne, ∀ q < fCols bs ne, p ≤ q →
      (raStructure (tail bs.cols ne) P.blockPairs).entry v p q = masked bs ne P.cluster F s S p q := by
  intro p hp q hq hpq
  obtain ⟨x, hx, hx', i, hi, rfl, -⟩ := f_split hp
  obtain ⟨y, hy, hy', j, hj, rfl, -⟩ := f_split hq
  rw [pair_entry hB.good v hx hx' hy hy' hi hj]
  exact h x y hx (f_block_le hx hx' hy hy' hi hj hpq) hy' i hi j hj

theorem masked_symm (P : Prec) (F : SimpleGraph ℕ) (s : ℝ) {S : Buf} {n : ℕ} (hS : ∀ p < n, ∀ q < n, S p q = S q p) :
    ∀ p < n, ∀ q < n, masked bs ne P.cluster F s S p q = masked bs ne P.cluster F s S q p := by
  intro p hp q hq
  unfold masked
  rw [weight_symm, hS p hp q hq]

/-- With half of the blocks between clusters the matrix is positive definite; without joined clusters in any case. -/
theorem masked_posDef (hB : Built cfg bs ne P F) {S : Buf} {s : ℝ} (hs : s = 1 / 2 ∨ cfg.tridiagonal = false)
    (hsym : ∀ p < fCols bs ne, ∀ q < fCols bs ne, S p q = S q p) (hpd : PosDef (fCols bs ne) S) :
    PosDef (fCols bs ne) (masked bs ne P.cluster F s S) := by
  have hj := hB.joined
  unfold Joined at hj
  refine half_posDef (num := P.numClusters) (F := F) hsym hpd (fun p => P.cluster (cameraOf bs ne p))
    (fun p hp => hB.clusters _ (cameraOf_lt hp)) ?_ ?_ ?_
  · split_ifs at hj with ht
    · exact hj.degree
    · subst hj
      exact fun c x y z h => absurd h (by simp)
  · split_ifs at hj with ht
    · exact hj.bound
    · subst hj
      exact fun c x h => absurd h (by simp)
  · intro p hp q hq
    unfold masked
    congr 1
    rcases hs with rfl | hs
    · unfold weight
      rfl
    · rw [hs] at hj
      simp only [Bool.false_eq_true, if_false] at hj
      subst hj
      unfold weight
      simp

/-- What an update may do, for the Schur complement `S`. -/
def Outcome (cfg : Config) (bs : BS) (ne : ℕ) (P : Prec) (F : SimpleGraph ℕ) (c : SparseChol) (fatal : Bool) (S : Buf)
    (ok : Bool) (K : Kept c) : Prop :=
  (cfg.tridiagonal = false ∨ fatal = false → PosDef (fCols bs ne) S → ok = true) ∧
  (ok = true → ∃ s : ℝ, (s = 1 ∨ s = 1 / 2 ∧ cfg.tridiagonal = true) ∧
    (∀ x, Eqs (fCols bs ne) (masked bs ne P.cluster F s S) (apply K x) x) ∧
    ((PosDef (fCols bs ne) S ∧ (cfg.tridiagonal = false ∨ s = 1 / 2)) ∨ Definite c →
      PosDef (fCols bs ne) (masked bs ne P.cluster F s S)))

theorem updateFrom_spec {c : SparseChol} (hc : c.Correct) (hB : Built cfg bs ne P F) {K : Kept c}
    (hK : Keeps c (raStructure (tail bs.cols ne) P.blockPairs) (fCols bs ne) K) (fatal : Bool) {S : Buf}
    (hsym : ∀ p < fCols bs ne, ∀ q < fCols bs ne, S p q = S q p) {v : Vec}
    (hv : ∀ x y, ne ≤ x → x ≤ y → y < bs.cols.length → ∀ i < szOf bs x, ∀ j < szOf bs y, ∀ s,
        ((pairStorage bs ne P.blockPairs).cell (x - ne) (y - ne)).elim 0 (fun c =>
          (if P.cluster (x - ne) ≠ P.cluster (y - ne) then s else 1) * v (c.address i j)) =
          masked bs ne P.cluster F s S (fPos bs ne x + i) (fPos bs ne y + j)) (old : Vec) :
    ∃ ok K', updateFrom cfg c fatal bs ne P K old v = some (ok, K') ∧
      Keeps c (raStructure (tail bs.cols ne) P.blockPairs) (fCols bs ne) K' ∧ Outcome cfg bs ne P F c fatal S ok K' := by
  have hsq := pair_square hB.good
  obtain ⟨ok, K', f1, f2, f3, f4, f5⟩ := factorize_spec hc hsq hK v old (masked_symm P F 1 hsym)
    (entry_masked hB (s := 1) (S := S) fun x y hx hxy hy i hi j hj => by
      rw [← hv x y hx hxy hy i hi j hj 1]
      simp)
  unfold updateFrom
  simp only
  rw [f1, Option.bind_some]
  simp only
  have first : ok = true → ∃ s : ℝ, (s = 1 ∨ s = 1 / 2 ∧ cfg.tridiagonal = true) ∧
      (∀ x, Eqs (fCols bs ne) (masked bs ne P.cluster F s S) (apply K' x) x) ∧
      ((PosDef (fCols bs ne) S ∧ (cfg.tridiagonal = false ∨ s = 1 / 2)) ∨ Definite c →
        PosDef (fCols bs ne) (masked bs ne P.cluster F s S)) := by
    intro hok
    refine ⟨1, .inl rfl, f3 hok, ?_⟩
    rintro (⟨hpd, ht | h⟩ | hdef)
    · exact masked_posDef hB (.inr ht) hsym hpd
    · norm_num at h
    · exact f5 hdef hok
  split_ifs with h1 h2
  · refine ⟨false, K', rfl, f2, ?_, fun h => absurd h (by simp)⟩
    rintro (h | h) hpd
    · rw [f4 (masked_posDef hB (.inr h) hsym hpd)] at h1
      exact absurd h1.1 (by simp)
    · rw [h] at h1
      exact absurd h1.2 (by simp)
  · obtain ⟨v', g1, g2⟩ := scale_spec hB.good v
    rw [g1, Option.bind_some]
    obtain ⟨ok', K'', k1, k2, k3, k4, k5⟩ := factorize_spec hc hsq f2 v' old (masked_symm P F (1 / 2) hsym)
      (entry_masked hB (s := 1 / 2) (S := S) fun x y hx hxy hy i hi j hj => by
        rw [← hv x y hx hxy hy i hi j hj (1 / 2)]
        cases hcell : (pairStorage bs ne P.blockPairs).cell (x - ne) (y - ne) with
        | none => rfl
        | some c =>
          rw [Option.elim_some, Option.elim_some, g2 x y hx (by omega) c hcell i hi j hj]
          split_ifs
          · ring
          · ring)
    refine ⟨ok', K'', k1, k2, fun _ hpd => k4 (masked_posDef hB (.inl rfl) hsym hpd), fun hok =>
      ⟨1 / 2, .inr ⟨rfl, h2.2⟩, k3 hok, ?_⟩⟩
    rintro (⟨hpd, -⟩ | hdef)
    · exact masked_posDef hB (.inl rfl) hsym hpd
    · exact k5 hdef hok
  · refine ⟨ok, K', rfl, f2, ?_, first⟩
    intro h hpd
    cases ok with
    | true => rfl
    | false =>
      by_cases ht : cfg.tridiagonal = true
      · exact absurd ⟨rfl, ht⟩ h2
      · exact f4 (masked_posDef hB (.inr (by simpa using ht)) hsym hpd)

theorem update_outcome {c : SparseChol} (hc : c.Correct) (hB : Built cfg bs ne P F) (hinv : InvertsFullRank inv)
    (ht : 0 < threads) (hn : ne < bs.cols.length) {K : Kept c}
    (hK : Keeps c (raStructure (tail bs.cols ne) P.blockPairs) (fCols bs ne) K) (hf : Fits ne bs (asCall A D))
    (fatal : Bool) :
    (∃ o, Update cfg c fatal inv ne P K A D threads o) ∧
    ∀ o, Update cfg c fatal inv ne P K A D threads o → ∃ ok K', o = some (ok, K') ∧
      Keeps c (raStructure (tail bs.cols ne) P.blockPairs) (fCols bs ne) K' ∧
      ∀ S, IsSchur A.numRows (eCols bs ne) (fCols bs ne) A.entry D S → Outcome cfg bs ne P F c fatal S ok K' := by
  have hbs : A.bs = bs := hf.structure_
  have hpos : (pairStorage A.bs ne P.blockPairs).cols ≠ 0 := by
    rw [hbs, storage_cols]
    have := fPos_bound (bs := bs) le_rfl hn
    have := sz_pos hf hn
    omega
  obtain ⟨S0, hS0⟩ := isSchur_exists hf
  have hS0 : IsSchur A.numRows (eCols bs ne) (fCols bs ne) A.entry D S0 := hS0
  unfold Update
  rw [hbs] at hpos ⊢
  constructor
  · simp only [if_neg hpos]
    obtain ⟨m', hm'⟩ := eliminate_exists (inv := inv) (ne := ne) (nb := bs.cols.length)
      (has := (pairStorage bs ne P.blockPairs).has ne) (rows := rowsOf bs A.values fun _ => 0)
      (D := D.map (blocksOf bs)) (wantRhs := false) (m := fun _ => 0) ht
    obtain ⟨v, hv⟩ := pair_holds hB.good m'
    exact ⟨_, _, some m', hm', v, fun _ => 0, hv, rfl⟩
  · intro o h
    rw [if_neg hpos] at h
    obtain ⟨m, e, h1, h2⟩ := h
    obtain ⟨m', rfl, h3⟩ := stored_values hB hf hinv ht h1
    obtain ⟨v, old, hv, rfl⟩ := h2
    obtain ⟨ok, K', k1, k2, -⟩ := updateFrom_spec hc hB hK fatal hS0.symm (fun x y hx hxy hy i hi j hj s =>
      h3 v hv S0 hS0 x y hx hxy hy i hi j hj s) old
    refine ⟨ok, K', k1, k2, fun S hS => ?_⟩
    obtain ⟨ok', K'', l1, -, l3⟩ := updateFrom_spec hc hB hK fatal hS.symm (fun x y hx hxy hy i hi j hj s =>
      h3 v hv S hS x y hx hxy hy i hi j hj s) old
    rw [k1] at l1
    cases l1
    exact l3

theorem after_keeps {c : SparseChol} (hc : c.Correct) (hB : Built cfg bs ne P F) (hinv : InvertsFullRank inv)
    (ht : 0 < threads) (hn : ne < bs.cols.length) {calls : List (BMat ℝ × Option Vec)}
    (hcalls : ∀ q ∈ calls, Fits ne bs (asCall q.1 q.2)) {K : Kept c} (hK : After cfg c inv ne P threads calls K) :
    Keeps c (raStructure (tail bs.cols ne) P.blockPairs) (fCols bs ne) K := by
  induction hK with
  | nil => exact .inl ⟨rfl, rfl⟩
  | snoc fatal A D ok K' _ hu ih =>
    have ih := ih fun q h => hcalls q (List.mem_append_left _ h)
    obtain ⟨-, h⟩ := update_outcome hc hB hinv ht hn ih (hcalls (A, D) (by simp)) fatal
    obtain ⟨ok', K'', he, hk, -⟩ := h _ hu
    cases he
    exact hk

end Run

end Ceres.Visibility
