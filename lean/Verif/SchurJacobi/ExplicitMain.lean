import Verif.SchurJacobi.Explicit

/-!
# ITERATIVE_SCHUR with an explicit Schur complement
-/

noncomputable section

namespace Ceres.SchurJacobi

open Matrix Ceres.BlockSparse Ceres.InnerProduct Ceres.Direct Ceres.Schur Ceres.SchurThreads Ceres.SchurDirect
  Ceres.SchurMatrix
open Ceres.PartitionedView (LltOk)

variable {bs : BS} {ne : ℕ} {inv : Inverter} {call : Call} {threads : ℕ}
  {llt : (n : ℕ) → Matrix (Fin n) (Fin n) ℝ → Matrix (Fin n) (Fin n) ℝ} {o : CG.Options}

/-- What the elimination leaves. -/
theorem eliminated (hf : Fits ne bs call) {S : Storage} (hS : S.Fine bs ne) (hinv : InvertsFullRank inv) (ht : 0 < threads)
    {m : SchurThreads.Mem} {e : Option SchurThreads.Mem}
    (h : Eliminates inv bs ne (S.has ne) (rowsOf bs call.A.values call.b) (call.D.map (blocksOf bs)) threads
      (fillSol m) e) :
    ∃ m1, e = some m1 ∧ (∀ b i, m1 (.sol b i) = 0) ∧
      ∀ v r, S.Holds ne (szOf bs) v m1 → S.HoldsRhs ne (szOf bs) r m1 →
        ∃ H c, IsReduced call.A.numRows (eCols bs ne) (fCols bs ne) call.A.entry call.b call.D H r c ∧
          (∀ x y, ne ≤ x → x ≤ y → y < bs.cols.length → ∀ i < szOf bs x, ∀ j < szOf bs y,
            H (fPos bs ne x + i) (fPos bs ne y + j) =
              (S.cell (x - ne) (y - ne)).elim 0 fun c => v (c.address i j)) ∧
          (Regular call.A.numRows call.A.numCols call.A.entry call.D → PosDef (fCols bs ne) H) := by
  have ho := ordered_call hf
  have hinv' := invOf_fullRank (bs := bs) (ne := ne) hinv
  have hi := inverts_call hf hinv'
  obtain ⟨m1, h1, h2, h3, h4⟩ := eliminates_result ho hi ht (eliminator_some hf)
    (fun inv => hS.covers call.A.values call.b _ inv) hS.diag h
  refine ⟨m1, h1, h4, fun v r hv hr => ?_⟩
  obtain ⟨H, hH⟩ := exists_buf (ne := ne) (schurLhs (invOf inv bs ne) ne (rowsOf bs call.A.values call.b)
    (call.D.map (blocksOf bs)))
  obtain ⟨c, hc⟩ := schur_isReduced (r := r) hf hinv' hH (by
    intro x hx hx' i
    have := hr x hx i i.2
    rw [hS.blocks] at this
    rw [← h3 x hx hx']
    exact this)
  refine ⟨H, c, hc, ?_, fun hreg => ?_⟩
  · intro x y hx hxy hy' i hi' j hj'
    rw [hH x y hx (by omega) (by omega) hy' ⟨i, hi'⟩ ⟨j, hj'⟩, ← h2 x y hx (by omega) (by omega) hy']
    cases hc : S.cell (x - ne) (y - ne) with
    | none => rw [sym_absent _ hxy (by unfold Storage.has; rw [hc]; simp)]; rfl
    | some c =>
      rw [sym_stored _ hxy (by unfold Storage.has; rw [hc]; simp; omega)]
      exact (hv x y hx (by omega) c hc i hi' j hj').symm
  · refine posDef_blocks hH fun z hz => ?_
    have hfull := fullRank_flat hf.ok call.b hreg
    rw [hf.structure_] at hfull
    have := reduced_posDef ho hf.blocks hfull hinv' (.inl rfl) (List.Perm.refl _) z hz
    refine lt_of_lt_of_eq this ?_
    refine Finset.sum_congr rfl fun x hx => ?_
    congr 1
    refine Finset.sum_congr rfl fun y hy => ?_
    rw [Finset.mem_Ico] at hx hy
    rw [eliminate_sym ho hi (dense_covers _ ne _ _ _) (List.Perm.refl _) hx.1 hx.2 hy.1 hy.2]

/-- The blocks of `x`. -/
theorem blocksOf_holds (hf : Fits ne bs call) {S : Storage} (hS : S.Fine bs ne) {x : Vec} {m : SchurThreads.Mem}
    (h : S.HoldsX bs ne call.A.numCols x m) : blocksOf bs x = solOf m := by
  have hn : call.A.numCols = (bs.cols.map Block.size).sum := by rw [hf.ok.numCols, hf.structure_]
  funext b i
  by_cases hb : b < bs.cols.length
  · have := h b hb i i.2
    rw [hn, xAddress_eq (laid_call hf) hS.blocks hS.cols hb] at this
    exact this
  · have h1 : (i : ℕ) < szOf bs b := i.2
    have h2 := szOf_out hb
    omega

theorem zBlocks_eq {S : Storage} (hS : S.Fine bs ne) (z : Vec) {b : ℕ} :
    S.zBlocks bs ne z b = fun i : Fin (szOf bs b) => z (fPos bs ne b + i) := by
  unfold Storage.zBlocks
  rw [hS.blocks]
  rfl

/-- What back substitution leaves. -/
theorem back_least (hf : Fits ne bs call) {S : Storage} (hS : S.Fine bs ne) (hinv : InvertsFullRank inv) (ht : 0 < threads)
    {m1 : SchurThreads.Mem} (hm : ∀ b i, m1 (.sol b i) = 0) {z : Vec} {e : Option SchurThreads.Mem}
    (h : BackSubstitutes inv bs ne (rowsOf bs call.A.values call.b) (call.D.map (blocksOf bs)) threads
      (storeReduced ne (S.zBlocks bs ne z) m1) e) :
    ∃ m2, e = some m2 ∧ ∀ x, S.HoldsX bs ne call.A.numCols x m2 →
      (∀ p < fCols bs ne, x (eCols bs ne + p) = z p) ∧
      ∀ w : Vec, (∀ p < fCols bs ne, w (eCols bs ne + p) = z p) →
        lsq call.A.numRows (eCols bs ne + fCols bs ne) call.A.entry call.b call.D x ≤
          lsq call.A.numRows (eCols bs ne + fCols bs ne) call.A.entry call.b call.D w := by
  have ho := ordered_call hf
  have hi := inverts_call hf (invOf_fullRank (bs := bs) (ne := ne) hinv)
  obtain ⟨m2, h1, h2, h3, h4⟩ := back_result ho ht (S.zBlocks bs ne z) hm h
  refine ⟨m2, h1, fun x hx => ?_⟩
  have e := blocksOf_holds hf hS hx
  refine ⟨(ends_blocks hf x z).2 fun b hb hb' => ?_, fun w hw => ?_⟩
  · rw [e, h2 b hb hb', zBlocks_eq hS]
  · rw [← cost_call hf, ← cost_call hf, e]
    refine best_e ho hi h3 h4 fun b hb hb' => ?_
    rw [(ends_blocks hf w z).1 hw b hb hb', h2 b hb hb', zBlocks_eq hS]

/-- What is there if nothing is substituted back. -/
theorem not_back (hf : Fits ne bs call) {S : Storage} (hS : S.Fine bs ne) {m1 : SchurThreads.Mem}
    (hm : ∀ b i, m1 (.sol b i) = 0) {z x : Vec}
    (hx : S.HoldsX bs ne call.A.numCols x (storeReduced ne (S.zBlocks bs ne z) m1)) :
    (∀ p < fCols bs ne, x (eCols bs ne + p) = z p) ∧ ∀ p < eCols bs ne, x p = 0 := by
  have hc := laid_call hf
  have e := blocksOf_holds hf hS hx
  rw [stored _ hm] at e
  refine ⟨(ends_blocks hf x z).2 fun b hb hb' => ?_, fun p hp => ?_⟩
  · rw [e]
    simp only [if_pos hb]
    rw [zBlocks_eq hS]
  · have ht : Laid 0 (bs.cols.take ne) := laid_take hc
    obtain ⟨blk, hk, h1, h2⟩ := PartitionedView.blockOf_mem
      (blockOf_total ht (Nat.zero_le p) (by rw [Nat.zero_add]; exact hp))
    set b := blockOf (bs.cols.take ne) p
    have hlt : b < (bs.cols.take ne).length := PartitionedView.get_lt hk
    rw [List.length_take] at hlt
    rw [List.getElem?_take, if_pos (by omega), col_getElem (by omega)] at hk
    obtain rfl : bs.col b = blk := by simpa using hk
    have := congrFun (congrFun e b) ⟨p - (bs.col b).position, by unfold szOf; omega⟩
    simp only [if_neg (by omega : ¬ne ≤ b)] at this
    unfold SchurDirect.blocksOf at this
    rw [Nat.add_sub_cancel' h1] at this
    exact this

/-- There are executions, whatever the reduced solver does. -/
theorem solve_run (hf : Fits ne bs call) {S : Storage} (hS : S.Fine bs ne) (hinv : InvertsFullRank inv) (ht : 0 < threads)
    {σ : Type} (reduced : Vec → Vec → Option (Bool × Vec × σ)) (hstore : ∀ m, ∃ v, S.Holds ne (szOf bs) v m) :
    ∃ out, Solve inv ne S reduced call threads out := by
  have hbs := hf.structure_
  have ho := ordered_call hf
  have hc := laid_call hf
  have hn : call.A.numCols = (bs.cols.map Block.size).sum := by rw [hf.ok.numCols, hf.structure_]
  obtain ⟨el, hel⟩ := eliminator_some hf
  have hE : ∃ m1, Eliminates inv bs ne (S.has ne) (rowsOf bs call.A.values call.b) (call.D.map (blocksOf bs)) threads
      (fillSol fun _ => 0) (some m1) := by
    cases el with
    | general t =>
      obtain ⟨m1, h1⟩ := eliminate_exists (inv := inv) (ne := ne) (nb := bs.cols.length) (has := S.has ne)
        (rows := rowsOf bs call.A.values call.b) (D := call.D.map (blocksOf bs)) (wantRhs := true)
        (m := fillSol fun _ => 0) ht
      exact ⟨m1, .general t _ hel h1⟩
    | oneFBlock t => exact ⟨_, .one t hel⟩
  obtain ⟨m1, hE⟩ := hE
  obtain ⟨v, hv⟩ := hstore m1
  have hr : ∃ r, S.HoldsRhs ne (szOf bs) r m1 := by
    obtain ⟨r, hr⟩ := exists_f (bs := bs) (ne := ne) fun x i => m1 (.rhs x i)
    refine ⟨r, fun x hx i hi => ?_⟩
    rw [hS.blocks]
    by_cases hx' : x < bs.cols.length
    · exact hr x hx hx' ⟨i, hi⟩
    · rw [szOf_out hx'] at hi
      omega
  obtain ⟨r, hr⟩ := hr
  have hX : ∀ m2, ∃ x, S.HoldsX bs ne call.A.numCols x m2 := by
    intro m2
    obtain ⟨x, hx⟩ := exists_flat hc (solOf m2)
    refine ⟨x, fun b hb i hi => ?_⟩
    rw [hn, xAddress_eq hc hS.blocks hS.cols hb]
    exact congrFun (congrFun hx b) ⟨i, hi⟩
  subst hbs
  cases h3 : reduced v r with
  | none => exact ⟨_, .aborts (fun _ => 0) m1 v r hE hv hr h3⟩
  | some a =>
    obtain ⟨ok, z, s⟩ := a
    cases ok with
    | false =>
      obtain ⟨x, hx⟩ := hX (storeReduced ne (S.zBlocks call.A.bs ne z) m1)
      exact ⟨_, .failed (fun _ => 0) m1 v r z s x hE hv hr h3 hx⟩
    | true =>
      have hB : ∃ m2, BackSubstitutes inv call.A.bs ne (rowsOf call.A.bs call.A.values call.b)
          (call.D.map (blocksOf call.A.bs)) threads (storeReduced ne (S.zBlocks call.A.bs ne z) m1) (some m2) := by
        cases el with
        | general t =>
          obtain ⟨m2, h2⟩ := Tasks.forRun_exists (back_disciplined inv (call.D.map (blocksOf call.A.bs))
            (detectChunks ne (rowsOf call.A.bs call.A.values call.b)).1
            (detectChunks_ordered ho).1 (chunks_tail ho) threads (storeReduced ne (S.zBlocks call.A.bs ne z) m1)) ht
          exact ⟨m2, .general t _ hel h2⟩
        | oneFBlock t => exact ⟨_, .one t hel⟩
      obtain ⟨m2, hB⟩ := hB
      obtain ⟨x, hx⟩ := hX m2
      exact ⟨_, .done (fun _ => 0) m1 m2 v r z s x hE hv hr h3 hB hx⟩

/-- The reduced problem and the original one. -/
theorem reduced_best {m e f : ℕ} {A : Buf} {b : Vec} {D : Option Vec} {H : Buf} {r z x : Vec} {c : ℝ}
    (h : IsReduced m e f A b D H r c) (hx : ∀ p < f, x (e + p) = z p)
    (hbest : ∀ w : Vec, (∀ p < f, w (e + p) = z p) → lsq m (e + f) A b D x ≤ lsq m (e + f) A b D w) :
    lsq m (e + f) A b D x = reducedCost f H r z + c := by
  obtain ⟨⟨w, hw, hwc⟩, hle⟩ := h.least z
  have h1 := hle ⟨x, hx, rfl⟩
  have h2 := hbest w hw
  unfold reducedCost
  linarith

theorem reduced_zero {m e f : ℕ} {A : Buf} {b : Vec} {D : Option Vec} {H : Buf} {r w : Vec} {c : ℝ}
    (h : IsReduced m e f A b D H r c) (hw : ∀ p < f, w (e + p) = 0) : c ≤ lsq m (e + f) A b D w := by
  have := (h.least fun _ => 0).2 ⟨w, hw, rfl⟩
  unfold quadratic at this
  simpa using this

theorem exact_min {n : ℕ} {H : Buf} {r z : Vec} (hs : ∀ p < n, ∀ q < n, H p q = H q p) (hp : PosDef n H)
    (hz : Eqs n H z r) (u : Vec) : reducedCost n H r z ≤ reducedCost n H r u := by
  have hspd := corner_spd hs hp
  have e1 : ∀ u : Vec, reducedCost n H r u = CG.qf (corner n H) (front n r) (front n u) := by
    intro u
    unfold CG.qf reducedCost
    rw [corner_quadratic, dotProduct, Finset.sum_range]
    rfl
  rw [e1, e1]
  have hzf : corner n H *ᵥ front n z = front n r := by
    funext i
    rw [corner_mulVec]
    exact hz i i.2
  have := CG.qf_add (b := front n r) hspd.1 (front n z) (front n u - front n z)
  rw [add_sub_cancel, hzf, sub_self, dotProduct_zero] at this
  rw [this]
  have := hspd.nonneg (front n u - front n z)
  linarith

/-- **ITERATIVE_SCHUR with an explicit Schur complement**, on any number of threads and for every schedule: a call
returns.  If conjugate gradients converge, the step is as good as every step that moves eliminated blocks only, and the
eliminated blocks are the best for the others.  If the solution is unique, the small factorisations are correct, and
conjugate gradients may make as many iterations as there are equations and have no tolerance, the solution is exact.
If conjugate gradients stop early, the eliminated blocks do not move; with one iteration, and unless only eliminated
blocks need to move, they do stop early, with a step for the others. -/
theorem explicit_schur (hf : Fits ne bs call) (hinv : InvertsFullRank inv) (ht : 0 < threads) :
    (∃ out, ExplicitSolve llt o inv ne call threads out) ∧
    ∀ out, ExplicitSolve llt o inv ne call threads out → ∃ ok x t, out = some (ok, x, t) ∧
      Returned (eCols bs ne) call ok x t ∧
      (LltOk llt → Regular call.A.numRows call.A.numCols call.A.entry call.D → Exact o (fCols bs ne) →
        ok = true ∧ Minimises call.A.numRows call.A.numCols call.A.entry call.b call.D x) ∧
      (LltOk llt → Regular call.A.numRows call.A.numCols call.A.entry call.D → CG.Early o →
        (∀ w : Vec, (∀ p, eCols bs ne ≤ p → p < call.A.numCols → w p = 0) →
          ¬Minimises call.A.numRows call.A.numCols call.A.entry call.b call.D w) →
        t = .noConvergence ∧ ∃ p, eCols bs ne ≤ p ∧ p < call.A.numCols ∧ x p ≠ 0) := by
  have hbs := hf.structure_
  have hS := sparse_fine bs ne
  constructor
  · have : ∀ v r, ∃ out, Reduced llt o threads (sparseStorage bs ne) (reducedStructure bs ne) v r out := fun v r =>
      reduced_exists llt ht o v r
    choose reduced hred using this
    obtain ⟨out, h⟩ := solve_run hf hS hinv ht reduced (sparse_holds hf)
    refine ⟨out, reduced, ?_⟩
    rw [hbs]
    exact ⟨hred, h⟩
  · rintro out ⟨reduced, hred, h⟩
    rw [hbs] at hred h
    have hnum := numCols_call hf
    have conv : ∀ w u : Vec, (∀ p, eCols bs ne ≤ p → p < call.A.numCols → w p = u p) ↔
        ∀ p < fCols bs ne, w (eCols bs ne + p) = u (eCols bs ne + p) := by
      intro w u
      rw [hnum]
      exact ⟨fun h p hp => h _ (by omega) (by omega), fun h p h1 h2 => by
        have := h (p - eCols bs ne) (by omega)
        rwa [Nat.add_sub_cancel' h1] at this⟩
    have key : ∀ m m1 v r, Eliminates inv bs ne ((sparseStorage bs ne).has ne) (rowsOf bs call.A.values call.b)
          (call.D.map (blocksOf bs)) threads (fillSol m) (some m1) →
        (sparseStorage bs ne).Holds ne (szOf bs) v m1 → (sparseStorage bs ne).HoldsRhs ne (szOf bs) r m1 →
        (∀ b i, m1 (.sol b i) = 0) ∧ ∃ H c, IsReduced call.A.numRows (eCols bs ne) (fCols bs ne) call.A.entry call.b call.D
          H r c ∧ (Regular call.A.numRows call.A.numCols call.A.entry call.D → PosDef (fCols bs ne) H) ∧
        ∃ ok z t, reduced v r = some (ok, z, t) ∧ (ok = true ↔ t = .success) ∧ reducedCost (fCols bs ne) H r z ≤ 0 ∧
          (LltOk llt → PosDef (fCols bs ne) H → Exact o (fCols bs ne) → ok = true ∧ Eqs (fCols bs ne) H z r) ∧
          (LltOk llt → PosDef (fCols bs ne) H → CG.Early o → (∃ p < fCols bs ne, r p ≠ 0) →
            t = .noConvergence ∧ ∃ p < fCols bs ne, z p ≠ 0) := by
      intro m m1 v r hE hv hr
      obtain ⟨m1', h1, h2, h3⟩ := eliminated hf hS hinv ht hE
      cases h1
      obtain ⟨H, c, k1, k2, k3⟩ := h3 v r hv hr
      exact ⟨h2, H, c, k1, k3, reduced_outcome hf ht o k1.symm k2 (hred v r)⟩
    have early : ∀ {H : Buf} {c : ℝ} {r z x : Vec} {t : CG.Term}, IsReduced call.A.numRows (eCols bs ne) (fCols bs ne)
        call.A.entry call.b call.D H r c → LltOk llt → Regular call.A.numRows call.A.numCols call.A.entry call.D →
        PosDef (fCols bs ne) H → CG.Early o → (LltOk llt → PosDef (fCols bs ne) H → CG.Early o →
          (∃ p < fCols bs ne, r p ≠ 0) → t = .noConvergence ∧ ∃ p < fCols bs ne, z p ≠ 0) →
        (∀ p < fCols bs ne, x (eCols bs ne + p) = z p) →
        (∀ w : Vec, (∀ p, eCols bs ne ≤ p → p < call.A.numCols → w p = 0) →
          ¬Minimises call.A.numRows call.A.numCols call.A.entry call.b call.D w) →
        t = .noConvergence ∧ ∃ p, eCols bs ne ≤ p ∧ p < call.A.numCols ∧ x p ≠ 0 := by
      intro H c r z x t hR hl hreg hpd ho h5 hx hw
      obtain ⟨h1, p, hp, hz⟩ := h5 hl hpd ho (by
        by_contra hno
        push Not at hno
        obtain ⟨⟨w, hw0, hwc⟩, -⟩ := hR.least fun _ => 0
        refine hw w ((conv w fun _ => 0).2 hw0) fun y => ?_
        have e1 := exact_min hR.symm hpd (z := fun _ => 0) (r := r) (fun i hi => by simp [hno i hi]) fun p =>
          y (eCols bs ne + p)
        have e2 := (hR.least fun p => y (eCols bs ne + p)).2 ⟨y, fun _ _ => rfl, rfl⟩
        rw [hnum]
        unfold reducedCost at e1
        linarith)
      exact ⟨h1, eCols bs ne + p, by omega, by omega, by rw [hx p hp]; exact hz⟩
    cases h with
    | stuck m h =>
      rw [hbs] at h
      obtain ⟨m1, h1, -⟩ := eliminated hf hS hinv ht h
      exact nomatch h1
    | aborts m m1 v r h hv hr hnone =>
      rw [hbs] at h hv hr
      obtain ⟨-, H, c, -, -, ok, z, t, h1, -⟩ := key m m1 v r h hv hr
      rw [hnone] at h1
      exact nomatch h1
    | failed m m1 v r z t x h hv hr hfail hx =>
      rw [hbs] at h hv hr hx
      obtain ⟨hm, H, c, hR, hpd, ok, z', t', h1, h2, h3, h4, h5⟩ := key m m1 v r h hv hr
      rw [hfail] at h1
      simp only [Option.some.injEq, Prod.mk.injEq] at h1
      obtain ⟨rfl, rfl, rfl⟩ := h1
      obtain ⟨k1, k2⟩ := not_back hf hS hm hx
      refine ⟨false, x, t, rfl, ⟨h2, fun h => absurd h (by simp), fun h => absurd h (by simp), fun _ => k2, ?_⟩,
        fun hl hreg ho => absurd (h4 hl (hpd hreg) ho).1 (by simp), fun hl hreg ho hw => early hR hl hreg (hpd hreg) ho h5 k1 hw⟩
      obtain ⟨⟨w, hw, hwc⟩, -⟩ := hR.least z
      refine ⟨w, (conv w x).2 fun p hp => by rw [hw p hp, k1 p hp], ?_⟩
      have := reduced_zero hR (w := fun _ => 0) fun _ _ => rfl
      rw [hnum]
      unfold reducedCost at h3
      linarith
    | backStuck m m1 v r z t h hv hr hok hb =>
      rw [hbs] at h hv hr hb
      obtain ⟨hm, -⟩ := key m m1 v r h hv hr
      obtain ⟨m2, h1, -⟩ := back_least hf hS hinv ht hm hb
      exact nomatch h1
    | done m m1 m2 v r z t x h hv hr hok hb hx =>
      rw [hbs] at h hv hr hb hx
      obtain ⟨hm, H, c, hR, hpd, ok, z', t', h1, h2, h3, h4, h5⟩ := key m m1 v r h hv hr
      rw [hok] at h1
      simp only [Option.some.injEq, Prod.mk.injEq] at h1
      obtain ⟨rfl, rfl, rfl⟩ := h1
      obtain ⟨m2', k0, k⟩ := back_least hf hS hinv ht hm hb
      cases k0
      obtain ⟨k1, k2⟩ := k x hx
      have hval := reduced_best hR k1 k2
      have hworse : ∀ w : Vec, (∀ p, eCols bs ne ≤ p → p < call.A.numCols → w p = 0) →
          lsq call.A.numRows call.A.numCols call.A.entry call.b call.D x ≤
            lsq call.A.numRows call.A.numCols call.A.entry call.b call.D w := by
        intro w hw
        have := reduced_zero hR ((conv w fun _ => 0).1 hw)
        rw [hnum, hval]
        linarith
      refine ⟨true, x, t, rfl, ⟨h2, fun _ w hw => ?_, fun _ => hworse, fun h => absurd h (by simp),
        ⟨x, fun _ _ _ => rfl, hworse _ fun _ _ _ => rfl⟩⟩, fun hl hreg ho => ⟨rfl, fun y => ?_⟩,
        fun hl hreg ho hw => early hR hl hreg (hpd hreg) ho h5 k1 hw⟩
      · rw [hnum]
        exact k2 w fun p hp => by rw [(conv w x).1 hw p hp, k1 p hp]
      · rw [hnum, hval]
        have e1 := exact_min hR.symm (hpd hreg) (h4 hl (hpd hreg) ho).2 fun p => y (eCols bs ne + p)
        have e2 := (hR.least fun p => y (eCols bs ne + p)).2 ⟨y, fun _ _ => rfl, rfl⟩
        unfold reducedCost at e1 ⊢
        linarith

end Ceres.SchurJacobi
