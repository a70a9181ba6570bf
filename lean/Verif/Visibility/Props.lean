import Verif.Visibility.Update

/-!
# C86, C87: the visibility based preconditioners
-/

noncomputable section

namespace Ceres.Visibility

open Matrix Ceres.BlockSparse Ceres.InnerProduct Ceres.Direct Ceres.Schur Ceres.SchurThreads Ceres.SchurDirect
  Ceres.SchurMatrix

variable {bs : BS} {ne : ℕ}

/-! ## Coupled cameras -/

theorem blockPairs_rows {sz : ℕ → ℕ} {nb : ℕ} {rows : List (Schur.Row sz)} (ho : Ordered ne nb rows) {x y : ℕ}
    (hx : ne ≤ x) (hxy : x < y) :
    (x, y) ∈ blockPairs ne nb rows ↔
      (∃ e < ne, (∃ r ∈ rows, (∃ c ∈ r.cells, c.id = e) ∧ ∃ d ∈ r.cells, d.id = x) ∧
        ∃ r ∈ rows, (∃ c ∈ r.cells, c.id = e) ∧ ∃ d ∈ r.cells, d.id = y) ∨
      ∃ r ∈ rows, (∀ c ∈ r.cells, ne ≤ c.id) ∧ (∃ c ∈ r.cells, c.id = x) ∧ ∃ d ∈ r.cells, d.id = y := by
  obtain ⟨hnd, hrest⟩ := detectChunks_ordered ho
  have split : ∀ r ∈ rows, (∃ ch ∈ (detectChunks ne rows).1, r ∈ ch.2) ∨ r ∈ (detectChunks ne rows).2 := by
    intro r hr
    rw [← detectChunks_flatten ne rows, List.mem_append, List.mem_flatten] at hr
    rcases hr with ⟨l, hl, hr⟩ | hr
    · obtain ⟨ch, hch, rfl⟩ := List.mem_map.1 hl
      exact .inl ⟨ch, hch, hr⟩
    · exact .inr hr
  have inChunk : ∀ e < ne, ∀ r ∈ rows, (∃ c ∈ r.cells, c.id = e) → ∃ ch ∈ (detectChunks ne rows).1, r ∈ ch.2 ∧ ch.1 = e := by
    intro e he r hr hc
    rcases split r hr with ⟨ch, hch, hm⟩ | h
    · obtain ⟨-, -, hf⟩ := detectChunks_chunk ne rows ch hch
      have h1 := hf r hm
      rw [(ho.front_iff hr he).1 hc] at h1
      exact ⟨ch, hch, hm, by simpa using h1.symm⟩
    · obtain ⟨c, hc, rfl⟩ := hc
      have := hrest r h c hc
      omega
  unfold blockPairs
  rw [List.mem_append, List.mem_append, List.mem_flatMap, List.mem_flatMap]
  constructor
  · rintro ((h | ⟨ch, hch, h⟩) | ⟨r, hr, h⟩)
    · obtain ⟨b, -, he⟩ := List.mem_map.1 h
      rw [Prod.mk.injEq] at he
      omega
    · obtain ⟨hk1, hk2⟩ := bufferKeys_spec ch.2
      obtain ⟨m1, m2, -⟩ := (mem_upper hk1 (x, y)).1 h
      obtain ⟨hlt, -, hf⟩ := detectChunks_chunk ne rows ch hch
      have key : ∀ z ∈ Schur.bufferKeys ch.2, ∃ r ∈ rows, (∃ c ∈ r.cells, c.id = ch.1) ∧ ∃ d ∈ r.cells, d.id = z := by
        intro z hz
        obtain ⟨r, hr, d, hd, rfl⟩ := (hk2 z).1 hz
        have hm := detectChunks_mem ne rows hch hr
        exact ⟨r, hm, (ho.front_iff hm hlt).2 (hf r hr), d, List.mem_of_mem_tail hd, rfl⟩
      exact .inl ⟨ch.1, hlt, key x m1, key y m2⟩
    · have hm := detectChunks_rest_mem ne rows hr
      unfold rowPairs at h
      obtain ⟨c, hc, h⟩ := List.mem_flatMap.1 h
      obtain ⟨d, hd, he⟩ := List.mem_map.1 h
      rw [Prod.mk.injEq] at he
      exact .inr ⟨r, hm, hrest r hr, ⟨c, hc, he.1⟩, d, List.mem_of_mem_filter hd, he.2⟩
  · rintro (⟨e, he, ⟨r, hr, hre, hrx⟩, s, hs, hse, hsy⟩ | ⟨r, hr, h0, ⟨c, hc, rfl⟩, d, hd, rfl⟩)
    · obtain ⟨ch, hch, hrc, rfl⟩ := inChunk e he r hr hre
      obtain ⟨ch', hch', hsc, he'⟩ := inChunk ch.1 he s hs hse
      obtain rfl := List.inj_on_of_nodup_map hnd hch' hch he'
      obtain ⟨hk1, hk2⟩ := bufferKeys_spec ch'.2
      have key : ∀ t ∈ ch'.2, t ∈ rows → ∀ z, ne ≤ z → (∃ d ∈ t.cells, d.id = z) → z ∈ Schur.bufferKeys ch'.2 := by
        rintro t ht htr z hz ⟨d, hd, rfl⟩
        obtain ⟨-, -, hf⟩ := detectChunks_chunk ne rows ch' hch'
        obtain ⟨c, cs, hc, hce, -⟩ := ho.cells htr (hf t ht)
        refine (hk2 _).2 ⟨t, ht, d, ?_, rfl⟩
        unfold Row.fCells
        rw [hc] at hd ⊢
        rcases List.mem_cons.1 hd with rfl | hd
        · omega
        · exact hd
      exact .inl (.inr ⟨ch', hch', (mem_upper hk1 (x, y)).2 ⟨key r hrc hr x hx hrx, key s hsc hs y (by omega) hsy, hxy⟩⟩)
    · rcases split r hr with ⟨ch, hch, hm⟩ | h
      · obtain ⟨hlt, -, hf⟩ := detectChunks_chunk ne rows ch hch
        obtain ⟨c', hc', he⟩ := (ho.front_iff hr hlt).2 (hf r hm)
        have := h0 c' hc'
        omega
      · refine .inr ⟨r, h, ?_⟩
        unfold rowPairs
        refine List.mem_flatMap.2 ⟨c, hc, List.mem_map.2 ⟨d, List.mem_filter.2 ⟨hd, ?_⟩, rfl⟩⟩
        simp only [decide_eq_true_eq]
        omega

theorem blockPairs_coupled {call : Call} (hf : Fits ne bs call) {x y : ℕ} (hxy : x < y) :
    (ne + x, ne + y) ∈ blockPairs ne bs.cols.length (rowsOf bs call.A.values call.b) ↔ Coupled bs ne x y := by
  rw [blockPairs_rows (ordered_call hf) (by omega) (by omega)]
  have hcell : ∀ (R : BRow) (k : ℕ), (∃ c ∈ (rowOf bs call.A.values call.b R).cells, c.id = k) ↔
      ∃ c ∈ R.cells, c.blockId = k := by
    intro R k
    constructor
    · rintro ⟨c, hc, hp⟩
      obtain ⟨c0, hc0, rfl⟩ := List.mem_map.1 hc
      exact ⟨c0, hc0, hp⟩
    · rintro ⟨c, hc, hp⟩
      exact ⟨_, List.mem_map_of_mem hc, hp⟩
  have hall : ∀ (R : BRow), (∀ c ∈ (rowOf bs call.A.values call.b R).cells, ne ≤ c.id) ↔
      ∀ c ∈ R.cells, ne ≤ c.blockId := by
    intro R
    constructor
    · intro h c hc
      exact h _ (List.mem_map_of_mem hc)
    · intro h c hc
      obtain ⟨c0, hc0, rfl⟩ := List.mem_map.1 hc
      exact h c0 hc0
  have hrows : ∀ p : Schur.Row (szOf bs) → Prop, (∃ r ∈ rowsOf bs call.A.values call.b, p r) ↔
      ∃ R ∈ bs.rows, p (rowOf bs call.A.values call.b R) := by
    intro p
    constructor
    · rintro ⟨r, hr, h⟩
      obtain ⟨R, hR, rfl⟩ := List.mem_map.1 hr
      exact ⟨R, hR, h⟩
    · rintro ⟨R, hR, h⟩
      exact ⟨_, List.mem_map_of_mem hR, h⟩
  simp only [hrows, hcell, hall]
  unfold Coupled Sees
  refine or_congr (exists_congr fun e => ?_) Iff.rfl
  exact ⟨fun ⟨h1, h2, h3⟩ => ⟨⟨h1, h2⟩, h1, h3⟩, fun ⟨⟨h1, h2⟩, _, h3⟩ => ⟨h1, h2, h3⟩⟩

/-! ## C86 -/

/-- **The constructor**: for every structure that may be given to a Schur solver with at least one camera, and in
whatever order hash tables are visited, no `CHECK` fails, the cameras are in clusters around canonical views or in
clusters of chains of similar cameras, as asked; joined are no clusters (CLUSTER_JACOBI) or chains of a maximum
spanning forest with at most two neighbours (CLUSTER_TRIDIAGONAL), and the blocks of the preconditioner are the
diagonal ones and those of two coupled cameras in one cluster or in joined clusters. -/
theorem construct_spec {call : Call} (hf : Fits ne bs call) (hn : ne < bs.cols.length) (cfg : Config) {o : Orders}
    (hok : o.Ok) : ∃ P F, construct cfg o bs ne = some P ∧ 0 < P.numClusters ∧
      P.numClusters ≤ bs.cols.length - ne ∧ (∀ a < bs.cols.length - ne, P.cluster a < P.numClusters) ∧
      (if cfg.canonical then CanonicalClusters bs ne (bs.cols.length - ne) P.numClusters P.cluster
        else LinkageClusters bs ne (bs.cols.length - ne) P.numClusters P.cluster) ∧
      Joined cfg bs ne P F ∧
      ∀ x y, x ≤ y → y < bs.cols.length - ne → ((x, y) ∈ P.blockPairs ↔
        x = y ∨ Coupled bs ne x y ∧ (P.cluster x = P.cluster y ∨ F.Adj (P.cluster x) (P.cluster y))) := by
  obtain ⟨P, F, h1, h2, h3, h4, h5⟩ := construct_built hf hn cfg hok
  refine ⟨P, F, h1, h3, h4, h2.clusters, h5, h2.joined, fun x y hxy hy => ?_⟩
  rw [h2.pairs call.A.values call.b x y (by omega) hy]
  rcases Nat.lt_or_eq_of_le hxy with h | rfl
  · rw [blockPairs_coupled hf h]
  · simp

/-! ## C87 -/

/-- **CLUSTER_JACOBI and CLUSTER_TRIDIAGONAL**: for a correct sparse factorisation and a correct inverse of the e
blocks, after any history of updates with one block structure, on any number of threads, for every schedule and every
order of hash tables, an update returns; if it returns true, applying the preconditioner to `x` gives the solution `y`
of `M y = x`, where `M` is the Schur complement of `[A; D]` (any `S` with `IsSchur`) with the blocks between clusters
that are not joined set to zero, and those between joined clusters multiplied with 1 or with 1/2.  If the least squares
problem has a unique solution then CLUSTER_JACOBI always succeeds, with a positive definite `M`, and so does
CLUSTER_TRIDIAGONAL unless the factorisation reports a fatal error; its `M` is positive definite if the factor is 1/2,
or if the library accepts positive definite matrices only. -/
theorem update_spec {c : SparseChol} (hc : c.Correct) {inv : Inverter} (hinv : InvertsFullRank inv) {threads : ℕ}
    (ht : 0 < threads) (hn : ne < bs.cols.length) (cfg : Config) {o : Orders} (hok : o.Ok) {P : Prec}
    (hP : construct cfg o bs ne = some P) {calls : List (BMat ℝ × Option Vec)}
    (hcalls : ∀ q ∈ calls, Fits ne bs (asCall q.1 q.2)) {K : Kept c} (hK : After cfg c inv ne P threads calls K)
    {A : BMat ℝ} {D : Option Vec} (hf : Fits ne bs (asCall A D)) (fatal : Bool) {S : Buf}
    (hS : IsSchur A.numRows (eCols bs ne) (fCols bs ne) A.entry D S) :
    (∃ o, Update cfg c fatal inv ne P K A D threads o) ∧
    ∃ F, Joined cfg bs ne P F ∧
    ∀ o, Update cfg c fatal inv ne P K A D threads o → ∃ ok K', o = some (ok, K') ∧
      (Regular A.numRows A.numCols A.entry D → cfg.tridiagonal = false ∨ fatal = false → ok = true) ∧
      (ok = true → ∃ s : ℝ, (s = 1 ∨ s = 1 / 2 ∧ cfg.tridiagonal = true) ∧
        (∀ x, Eqs (fCols bs ne) (masked bs ne P.cluster F s S) (apply K' x) x) ∧
        (Regular A.numRows A.numCols A.entry D ∧ (cfg.tridiagonal = false ∨ s = 1 / 2) ∨ Definite c →
          PosDef (fCols bs ne) (masked bs ne P.cluster F s S))) := by
  obtain ⟨P', F, h1, hB, -⟩ := construct_built hf hn cfg hok
  rw [hP] at h1
  cases h1
  have hkeep := after_keeps hc hB hinv ht hn hcalls hK
  obtain ⟨u1, u2⟩ := update_outcome hc hB hinv ht hn hkeep hf fatal
  have hcols : A.numCols = eCols bs ne + fCols bs ne := by
    have h1 : A.numCols = (A.bs.cols.map Block.size).sum := hf.ok.numCols
    have h2 : A.bs = bs := hf.structure_
    rw [h1, h2, cols_split bs ne]
  have hpd : Regular A.numRows A.numCols A.entry D → PosDef (fCols bs ne) S := by
    intro h
    rw [hcols] at h
    exact isSchur_posDef hS h
  refine ⟨u1, F, hB.joined, fun o ho => ?_⟩
  obtain ⟨ok, K', e, -, k⟩ := u2 o ho
  obtain ⟨k1, k2⟩ := k S hS
  refine ⟨ok, K', e, fun hr h => k1 h (hpd hr), fun h => ?_⟩
  obtain ⟨s, s1, s2, s3⟩ := k2 h
  refine ⟨s, s1, s2, fun h => s3 ?_⟩
  rcases h with ⟨h, h'⟩ | h
  · exact .inl ⟨hpd h, h'⟩
  · exact .inr h

/-- Such a history is possible. -/
theorem after_exists {c : SparseChol} (hc : c.Correct) {inv : Inverter} (hinv : InvertsFullRank inv) {threads : ℕ}
    (ht : 0 < threads) (hn : ne < bs.cols.length) (cfg : Config) {o : Orders} (hok : o.Ok) {P : Prec}
    (hP : construct cfg o bs ne = some P) (calls : List (BMat ℝ × Option Vec))
    (hcalls : ∀ q ∈ calls, Fits ne bs (asCall q.1 q.2)) : ∃ K, After cfg c inv ne P threads calls K := by
  induction calls using List.reverseRecOn with
  | nil => exact ⟨_, .nil⟩
  | append_singleton calls q ih =>
    have hcalls' : ∀ q ∈ calls, Fits ne bs (asCall q.1 q.2) := fun q h => hcalls q (List.mem_append_left _ h)
    obtain ⟨K, hK⟩ := ih hcalls'
    have hf := hcalls q (by simp)
    obtain ⟨S, hS⟩ := isSchur_exists hf
    obtain ⟨⟨u, hu⟩, F, -, hall⟩ := update_spec hc hinv ht hn cfg hok hP hcalls' hK hf false hS
    obtain ⟨ok, K', rfl, -⟩ := hall u hu
    exact ⟨_, .snoc false q.1 q.2 ok K' hK hu⟩

end Ceres.Visibility
