import Verif.IterSchur.Power
import Verif.IterSchur.Spec
import Verif.SchurJacobi.Props
import Verif.Visibility.Props
import Verif.Visibility.Witness
import Verif.Cgnr.Jacobi

/-!
# C92: ITERATIVE_SCHUR on the implicit Schur complement
-/

noncomputable section

namespace Ceres.IterSchur

open Matrix Ceres.Tasks Ceres.BlockSparse Ceres.SchurDirect Ceres.CG
open Ceres.Direct hiding extend
open Ceres.PartitionedView (Does View Implicit Tmp LltOk Gives Holds sysOf colsE colsF bind_iff)
open Ceres.SchurJacobi (front extend front_extend corner corner_mulVec corner_spd)
open Ceres.SchurMatrix (IsSchur)
open Ceres.Schur (InvertsFullRank)

variable {ne threads : ℕ} {bs : BS} {call : Call} {c : SparseChol}
  {llt : (n : ℕ) → Matrix (Fin n) (Fin n) ℝ → Matrix (Fin n) (Fin n) ℝ} {inv : Schur.Inverter}

/-! ## What is asked -/

theorem view_ordered (hf : SchurDirect.Fits ne bs call) : PartitionedView.Ordered bs ne where
  le := hf.blocks
  cells := hf.ordered.nonempty
  one := by
    intro r hr x hx
    have hs := hf.ordered.sorted r hr
    have hi := hf.ordered.independent r hr
    cases h : r.cells with
    | nil => rw [h] at hx; simp at hx
    | cons c0 cs =>
      rw [h] at hx hs hi
      simp only [List.drop_succ_cons, List.drop_zero] at hx
      rw [List.map_cons, List.pairwise_cons] at hs
      have h1 := hs.1 x.blockId (List.mem_map_of_mem hx)
      by_contra hlt
      have := hi c0 (by simp) x (by simp [hx]) (by omega) (by omega)
      omega
  first := by
    have key : ∀ r ∈ bs.rows, (∃ c ∈ r.cells, c.blockId < ne) ↔ PartitionedView.HasE ne r := by
      intro r hr
      have hs := hf.ordered.sorted r hr
      unfold PartitionedView.HasE
      cases h : r.cells with
      | nil => simp
      | cons c0 cs =>
        rw [h, List.map_cons, List.pairwise_cons] at hs
        simp only [List.head?_cons, Option.some.injEq]
        constructor
        · rintro ⟨x, hx, hlt⟩
          refine ⟨c0, rfl, ?_⟩
          rcases List.mem_cons.1 hx with rfl | hx
          · exact hlt
          · have := hs.1 x.blockId (List.mem_map_of_mem hx)
            omega
        · rintro ⟨x, rfl, hlt⟩
          exact ⟨c0, by simp, hlt⟩
    refine List.Pairwise.imp_of_mem ?_ hf.ordered.eFirst
    intro r s hr hs h h'
    exact (key r hr).1 (h ((key s hs).2 h'))

theorem lsq_lsCost (A : BMat ℝ) (b : Vec) (D : Option Vec) (x : Vec) :
    lsq A.numRows A.numCols A.entry b D x = PartitionedView.lsCost A D b x := by
  unfold lsq PartitionedView.lsCost
  cases D <;> rfl

theorem independent (hr : Regular call.A.numRows call.A.numCols call.A.entry call.D) :
    PartitionedView.Independent call.A call.D := by
  intro z hz
  rw [← lsq_lsCost, lsq_eq] at hz
  have h1 : 0 ≤ ∑ k ∈ Finset.range call.A.numRows, (∑ j ∈ Finset.range call.A.numCols, call.A.entry k j * z j - 0) ^ 2 :=
    Finset.sum_nonneg fun _ _ => sq_nonneg _
  have hd : ∀ j, 0 ≤ dsq call.D j * z j ^ 2 := by
    intro j
    refine mul_nonneg ?_ (sq_nonneg _)
    unfold dsq
    cases call.D with
    | none => exact le_rfl
    | some d => exact sq_nonneg _
  have h2 : 0 ≤ ∑ j ∈ Finset.range call.A.numCols, dsq call.D j * z j ^ 2 := Finset.sum_nonneg fun j _ => hd j
  refine hr z (fun k hk => ?_) ?_
  · have h3 : ∑ k ∈ Finset.range call.A.numRows, (∑ j ∈ Finset.range call.A.numCols, call.A.entry k j * z j - 0) ^ 2 = 0 := by
      linarith
    have := (Finset.sum_eq_zero_iff_of_nonneg fun _ _ => sq_nonneg _).1 h3 k (Finset.mem_range.2 hk)
    simpa using this
  · have h3 : ∑ j ∈ Finset.range call.A.numCols, dsq call.D j * z j ^ 2 = 0 := by linarith
    have h4 := (Finset.sum_eq_zero_iff_of_nonneg fun j _ => hd j).1 h3
    unfold Annihilates
    unfold dsq at h4
    cases hD : call.D with
    | none => trivial
    | some d =>
      intro j hj
      have := h4 j (Finset.mem_range.2 hj)
      rw [hD] at this
      simp only [← mul_pow] at this
      exact pow_eq_zero_iff (two_ne_zero) |>.1 this

theorem ne_pos (hf : SchurDirect.Fits ne bs call) : 0 < ne := by
  obtain ⟨r, -, x, -, hx⟩ := hf.first
  omega

theorem asCall_fits (hf : SchurDirect.Fits ne bs call) : SchurDirect.Fits ne bs (Visibility.asCall call.A call.D) :=
  ⟨hf.ok, hf.structure_, hf.ordered, hf.blocks, hf.cols, hf.rows, hf.first, hf.regular⟩

theorem sys_oneF (hM : call.A.Ok) (h : OneFBlock ne call.A.bs) : OneF (sysOf call.A ne call.D call.b) := by
  intro r i j hi hj
  obtain ⟨ri, hri, ci, hci, i1, i2, i3, i4⟩ := PartitionedView.entry_cell (M := call.A) (r := r)
    (c := colsE call.A.bs ne + i) hi
  obtain ⟨rj, hrj, cj, hcj, j1, j2, j3, j4⟩ := PartitionedView.entry_cell (M := call.A) (r := r)
    (c := colsE call.A.bs ne + j) hj
  obtain ⟨ki, hki⟩ := List.mem_iff_getElem?.1 hri
  obtain ⟨kj, hkj⟩ := List.mem_iff_getElem?.1 hrj
  have e1 := blockOf_eq hM.bs.rows (i := ki) (b := ri.block) (by simp [hki]) i1 i2
  have e2 := blockOf_eq hM.bs.rows (i := kj) (b := rj.block) (by simp [hkj]) j1 j2
  have e3 : ki = kj := e1.symm.trans e2
  subst e3
  have e4 : ri = rj := by rw [hki] at hkj; injection hkj
  subst e4
  have a1 := PartitionedView.col_get (hM.bs.ids ri hri ci hci)
  have a2 := PartitionedView.col_get (hM.bs.ids ri hri cj hcj)
  have f1 := blockOf_eq hM.bs.cols a1 i3 i4
  have f2 := blockOf_eq hM.bs.cols a2 j3 j4
  show blockOf call.A.bs.cols (colsE call.A.bs ne + i) = blockOf call.A.bs.cols (colsE call.A.bs ne + j)
  rw [f1, f2]
  have ge : ∀ {c : Cell} {k : ℕ}, call.A.bs.cols[c.blockId]? = some (call.A.bs.col c.blockId) →
      colsE call.A.bs ne + k < (call.A.bs.col c.blockId).position + (call.A.bs.col c.blockId).size → ne ≤ c.blockId := by
    intro c k ha hp
    have := (PartitionedView.col_e hM.bs.cols (ne := ne) ha)
    by_contra hge
    have := this.1 (by omega)
    omega
  exact h ri hri ci hci cj hcj (ge a1 i4) (ge a2 j4)

/-! ## The preconditioner -/

/-- What is kept of the clusters. -/
def Inv (inv : Schur.Inverter) (k : Kind) (ne : ℕ) (bs : BS) (threads : ℕ) (st : State c) : Prop :=
  ∀ cfg, k = .cluster cfg → ∀ P K, st.clusters = some (P, K) → ∃ ord : Visibility.Orders, ord.Ok ∧
    Visibility.construct cfg ord bs ne = some P ∧ ∃ calls, (∀ q ∈ calls, SchurDirect.Fits ne bs (Visibility.asCall q.1 q.2)) ∧
      Visibility.After cfg c inv ne P threads calls K

theorem create_spec (hf : SchurDirect.Fits ne bs call) (hn : ne < bs.cols.length) (k : Kind) {st : State c}
    (hI : Inv inv k ne bs threads st) : (∃ o, Create k st call.A ne o) ∧ ∀ o, Create k st call.A ne o →
      ∃ st', o = some st' ∧ Inv inv k ne bs threads st' ∧ ∀ cfg, k = .cluster cfg → st'.clusters ≠ none := by
  cases k with
  | identity => exact ⟨⟨_, rfl⟩, fun o ho => ⟨st, ho, hI, fun _ h => nomatch h⟩⟩
  | jacobi => exact ⟨⟨_, rfl⟩, fun o ho => ⟨st, ho, hI, fun _ h => nomatch h⟩⟩
  | powerSeries => exact ⟨⟨_, rfl⟩, fun o ho => ⟨st, ho, hI, fun _ h => nomatch h⟩⟩
  | schurJacobi => exact ⟨⟨_, rfl⟩, fun o ho => ⟨st, ho, hI, fun _ h => nomatch h⟩⟩
  | cluster cfg =>
    unfold Create
    cases hst : st.clusters with
    | some q => exact ⟨⟨_, rfl⟩, fun o ho => ⟨st, ho, hI, fun _ _ h => nomatch h.symm.trans hst⟩⟩
    | none =>
      refine ⟨⟨_, Visibility.someOrders, Visibility.someOrders_ok, rfl⟩, ?_⟩
      rintro o ⟨ord, hord, rfl⟩
      obtain ⟨P, F, h1, -⟩ := Visibility.construct_built hf hn cfg hord
      rw [hf.structure_, h1]
      refine ⟨_, rfl, ?_, fun _ _ => by simp⟩
      intro cfg' hcfg P' K' hP
      cases hcfg
      simp only [Option.some.injEq, Prod.mk.injEq] at hP
      obtain ⟨rfl, rfl⟩ := hP
      exact ⟨ord, hord, h1, [], by simp, .nil⟩

/-- What the preconditioner does after an update. -/
structure Applied (o : Options) (S : Implicit ℝ) (st : State c) (A : BMat ℝ) (ne n : ℕ) : Prop where
  returns : ∀ x y, ∃ z, ∀ out, apply o S st A ne x y out ↔ out = some z
  definite : (o.kind.Tridiagonal → Visibility.Definite c) → ∃ M : Matrix (Fin n) (Fin n) ℝ, SPD M ∧
    ∀ x z, apply o S st A ne x 0 (some z) → front n z = M *ᵥ front n x

theorem applied_of_gives {o : Options} {S : Implicit ℝ} {st : State c} {A : BMat ℝ} {n : ℕ}
    {M : Matrix (Fin n) (Fin n) ℝ} (hM : SPD M) {f : (ℕ → ℝ) → (ℕ → ℝ) → Fin n → ℝ}
    (h : ∀ x y, Gives (apply o S st A ne x y) n (f x y) y) (hf : ∀ x, f x 0 = M *ᵥ front n x) :
    Applied o S st A ne n := by
  refine ⟨fun x y => ?_, fun _ => ⟨M, hM, fun x z hz => ?_⟩⟩
  · obtain ⟨z, h1, -⟩ := h x y
    exact ⟨z, h1⟩
  · obtain ⟨z', h1, h2, -⟩ := h x 0
    obtain rfl : z = z' := by simpa using (h1 _).1 hz
    rw [← hf]
    exact front_eq h2

theorem inverse_of_eqs {n : ℕ} {H : Buf} (hH : SPD (corner n H)) {u x : Vec}
    (h : Eqs n H u x) : front n u = (corner n H)⁻¹ *ᵥ front n x := by
  have h5 : corner n H *ᵥ front n u = front n x := by
    funext i
    rw [corner_mulVec]
    exact h i i.2
  rw [← h5, mulVec_mulVec, Matrix.nonsing_inv_mul _ hH.isUnit_det, one_mulVec]

theorem update_spec (hl : LltOk llt) (hinv : InvertsFullRank inv) (hc : c.Correct) (ht : 0 < threads)
    (ha : Asked ne bs call) (hn : ne < bs.cols.length) (o : Options) {st : State c}
    (hI : Inv inv o.kind ne bs threads st) (hsome : ∀ cfg, o.kind = .cluster cfg → st.clusters ≠ none) {V : View}
    (hV : PartitionedView.create call.A ne threads = some V) {S : Implicit ℝ}
    (hS : Holds S V call.A ne call.D call.b o.compute) :
    (∃ u, Update llt inv o.kind st call.A call.D ne threads u) ∧
    ∀ u, Update llt inv o.kind st call.A call.D ne threads u → ∃ ok st', u = some (ok, st') ∧
      Inv inv o.kind ne bs threads st' ∧ (ok = false → o.kind.Tridiagonal) ∧
      (ok = true → Applied o S st' call.A ne (colsF call.A.bs ne)) := by
  have hf := ha.fits
  obtain rfl := hf.structure_
  have ho := view_ordered hf
  have hM := hf.ok
  have hv := PartitionedView.create_isView ho hV
  have hF : S.A.numColsF = colsF call.A.bs ne := by rw [hS.view]; exact hv.numColsF
  have hT : S.A.threads = threads := by rw [hS.view]; exact hv.numThreads
  have hfull := PartitionedView.sys_fullRank (ne := ne) (b := call.b) hM (independent ha.regular)
  have hE := PartitionedView.sys_oneE (D := call.D) (b := call.b) hM ho
  obtain ⟨S0, hS0⟩ := SchurMatrix.isSchur_exists (asCall_fits hf)
  cases hk : o.kind with
  | identity =>
    refine ⟨⟨_, rfl⟩, fun u hu => ⟨true, st, hu, hk ▸ hI, nofun, fun _ => ?_⟩⟩
    refine applied_of_gives (M := 1) CG.one_spd (f := fun x y => front _ y + front _ x) (fun x y => ?_) fun x => ?_
    · unfold apply
      rw [hk, hF]
      refine ⟨_, fun _ => Iff.rfl, fun i => ?_, fun i hi => ?_⟩
      · simp only [if_pos i.2]
        rfl
      · simp only [if_neg (Nat.not_lt.2 hi)]
    · rw [one_mulVec]
      exact zero_add _
  | jacobi =>
    refine ⟨⟨_, rfl⟩, fun u hu => ⟨true, st, hu, hk ▸ hI, nofun, fun _ => ?_⟩⟩
    have hco : o.compute = true := by unfold Options.compute; rw [hk]
    obtain ⟨f, hf0, hf1, hf2, hf3, hf4⟩ := hS.ftf hco
    refine applied_of_gives (M := (sysOf call.A ne call.D call.b).ftfInv) (Schur.ftfInv_spd hfull)
      (f := fun x y => front _ y + (sysOf call.A ne call.D call.b).ftfInv *ᵥ front _ x) (fun x y => ?_) fun x => ?_
    · unfold apply
      rw [hk, hf0, hT]
      exact PartitionedView.gives_mulBlocks hf1 ht hf2 hf3 hf4 (fun _ => rfl) (fun _ => rfl)
    · exact zero_add _
  | powerSeries =>
    refine ⟨⟨_, rfl⟩, fun u hu => ⟨true, st, hu, hk ▸ hI, nofun, fun _ => ?_⟩⟩
    have hco : o.compute = true := by unfold Options.compute; rw [hk]
    rw [hco] at hS
    refine applied_of_gives (M := (sysOf call.A ne call.D call.b).seriesMatrix o.maxSeries)
      (Schur.seriesMatrix_spd hE hfull _)
      (f := fun x y => (sysOf call.A ne call.D call.b).powerSeries o.maxSeries 0 (front _ x) (front _ y))
      (fun x y => ?_) fun x => ?_
    · unfold apply
      rw [hk]
      exact gives_exists fun term => gives_exists fun prev => gives_series hM ho hV ht hS _ _ term prev x y
    · exact Schur.powerSeries_applies _ _ _
  | schurJacobi =>
    obtain ⟨p1, ⟨w0, p2⟩, p3⟩ := SchurJacobi.schur_jacobi hl hinv ht hn (asCall_fits hf) ha.regular hS0
    refine ⟨⟨_, _, p2, rfl⟩, ?_⟩
    rintro u ⟨w, hw, rfl⟩
    obtain ⟨w, rfl, happ⟩ := p3 w hw
    refine ⟨true, _, rfl, (fun cfg h => nomatch h), nofun, fun _ => ?_⟩
    have hsp : SPD (corner (fCols call.A.bs ne) (SchurJacobi.diagonalBlocks call.A.bs ne S0)) := by
      refine corner_spd (fun p hp q hq => ?_) p1
      unfold SchurJacobi.diagonalBlocks
      have hsym : PartitionedView.SameBlock call.A.bs ne call.A.bs.cols.length p q ↔
          PartitionedView.SameBlock call.A.bs ne call.A.bs.cols.length q p := by
        unfold PartitionedView.SameBlock
        constructor <;> rintro ⟨b, h1, h2, blk, h3, h4, h5, h6, h7⟩ <;> exact ⟨b, h1, h2, blk, h3, h6, h7, h4, h5⟩
      rw [hS0.symm p hp q hq]
      by_cases h : PartitionedView.SameBlock call.A.bs ne call.A.bs.cols.length p q
      · rw [if_pos h, if_pos (hsym.1 h)]
      · rw [if_neg h, if_neg fun h' => h (hsym.2 h')]
    refine ⟨fun x y => ?_, fun _ => ⟨_, hsp.inv, fun x z hz => ?_⟩⟩
    · obtain ⟨z, h1, -⟩ := happ x y
      refine ⟨z, ?_⟩
      unfold apply
      rw [hk, hT]
      exact h1
    · obtain ⟨z', h1, h2, -⟩ := happ x 0
      unfold apply at hz
      rw [hk, hT] at hz
      obtain rfl : z = z' := by simpa using (h1 _).1 hz
      have : (fun p => z p - (0 : Vec) p) = z := funext fun p => sub_zero _
      rw [this] at h2
      exact inverse_of_eqs hsp h2
  | cluster cfg =>
    unfold Update
    cases hst : st.clusters with
    | none => exact absurd hst (hsome cfg hk)
    | some q =>
      obtain ⟨P, K⟩ := q
      obtain ⟨ord, hord, hP, calls, hcalls, hK⟩ := hI cfg hk P K hst
      have spec := fun fatal => Visibility.update_spec hc hinv ht hn cfg hord hP hcalls hK (asCall_fits hf) fatal hS0
      refine ⟨?_, ?_⟩
      · obtain ⟨u, hu⟩ := (spec false).1
        exact ⟨_, false, u, hu, rfl⟩
      · rintro u ⟨fatal, v, hv, rfl⟩
        obtain ⟨-, F, -, hall⟩ := spec fatal
        obtain ⟨ok, K', rfl, h1, h2⟩ := hall v hv
        refine ⟨ok, _, rfl, ?_, ?_, ?_⟩
        · intro cfg' hcfg P' K'' hP'
          cases hcfg
          simp only [Option.some.injEq, Prod.mk.injEq] at hP'
          obtain ⟨rfl, rfl⟩ := hP'
          refine ⟨ord, hord, hP, calls ++ [(call.A, call.D)], ?_, .snoc fatal _ _ ok _ hK hv⟩
          intro q hq
          rcases List.mem_append.1 hq with hq | hq
          · exact hcalls q hq
          · rw [List.mem_singleton] at hq
            subst hq
            exact asCall_fits hf
        · intro hok
          refine ⟨cfg, rfl, ?_⟩
          by_contra htri
          rw [h1 ha.regular (.inl (by simpa using htri))] at hok
          cases hok
        · intro hok
          obtain ⟨s, hs, happ, hpd⟩ := h2 hok
          refine ⟨fun x y => ?_, fun hdef => ?_⟩
          · unfold apply
            rw [hk]
            exact ⟨_, fun _ => Iff.rfl⟩
          · have hpos : PosDef (fCols call.A.bs ne) (Visibility.masked call.A.bs ne P.cluster F s S0) := by
              apply hpd
              by_cases htri : cfg.tridiagonal = true
              · exact .inr (hdef ⟨cfg, hk, htri⟩)
              · exact .inl ⟨ha.regular, .inl (by simpa using htri)⟩
            have hsp : SPD (corner (fCols call.A.bs ne) (Visibility.masked call.A.bs ne P.cluster F s S0)) :=
              corner_spd (Visibility.masked_symm P F s hS0.symm) hpos
            refine ⟨_, hsp.inv, fun x z hz => ?_⟩
            unfold apply at hz
            rw [hk, hF] at hz
            simp only [Option.some.injEq] at hz
            have : front (colsF call.A.bs ne) z = front (colsF call.A.bs ne) (Visibility.apply K' x) := by
              rw [hz]
              funext i
              show (if (i : ℕ) < colsF call.A.bs ne then _ else _) = _
              rw [if_pos i.2]
              rfl
            rw [this]
            exact inverse_of_eqs hsp (happ x)

/-! ## The solver -/

section
variable (hl : LltOk llt) (ht : 0 < threads) (ha : Asked ne bs call)
include hl ht ha

/-- `Init` returns, and holds the reduced system. -/
theorem init_spec (compute : Bool) {V : View} (hV : PartitionedView.create call.A ne threads = some V) :
    (∃ out, ∃ oldE oldF oldRhs tmp, PartitionedView.init llt V call.A call.D call.b compute oldE oldF oldRhs tmp out) ∧
    ∀ out, (∃ oldE oldF oldRhs tmp, PartitionedView.init llt V call.A call.D call.b compute oldE oldF oldRhs tmp out) →
      ∃ S, out = some S ∧ Holds S V call.A ne call.D call.b compute := by
  have hf := ha.fits
  obtain rfl := hf.structure_
  have key := fun oldE oldF oldRhs tmp => PartitionedView.implicit_init hf.ok
    (Cgnr.simple_of_sorted hf.ordered.sorted) (view_ordered hf) hV ht hl
    (independent ha.regular) call.b oldE oldF oldRhs compute tmp
  refine ⟨?_, ?_⟩
  · obtain ⟨S, h1, -⟩ := key 0 0 0 ⟨0, 0, 0, 0⟩
    exact ⟨some S, 0, 0, 0, ⟨0, 0, 0, 0⟩, (h1 _).2 rfl⟩
  · rintro out ⟨oldE, oldF, oldRhs, tmp, h⟩
    obtain ⟨S, h1, h2, -⟩ := key oldE oldF oldRhs tmp
    exact ⟨S, (h1 _).1 h, h2⟩

end

/-- The outcome of a call of `BackSubstitute`. -/
structure Back (call : Call) (ne : ℕ) (before z : Vec) (u : CG.Vec (colsF call.A.bs ne)) : Prop where
  rest : ∀ p : Fin (colsF call.A.bs ne), z (colsE call.A.bs ne + p) = u p
  beyond : ∀ p, call.A.numCols ≤ p → z p = before p
  cost : lsq call.A.numRows call.A.numCols call.A.entry call.b call.D z =
    (sysOf call.A ne call.D call.b).cost ((sysOf call.A ne call.D call.b).backSubstitute u)

section
variable (ht : 0 < threads) (hM : call.A.Ok) (ho : PartitionedView.Ordered call.A.bs ne) {V : View}
  (hV : PartitionedView.create call.A ne threads = some V) {S : Implicit ℝ} {compute : Bool}
  (hS : Holds S V call.A ne call.D call.b compute)
include ht hM ho hV hS

theorem back_spec (tmp : Tmp ℝ) (x before : Vec) : ∃ z, (∀ out, PartitionedView.backSubstitute S call.A tmp x before out ↔
    out = some z) ∧ Back call ne before z (front _ x) := by
  obtain ⟨z, h1, h2, h3, h4⟩ := PartitionedView.gives_backSubstitute hM ho hV ht hS tmp x before
  refine ⟨z, h1, h3, h4, ?_⟩
  rw [lsq_lsCost, PartitionedView.lsCost_eq (ne := ne) hM]
  congr 1
  exact Prod.ext (funext h2) (funext h3)

/-- Conjugate gradients return, and solve with the Schur complement. -/
theorem conjugate_spec (o : Options) {st : State c} (hA : Applied o S st call.A ne (colsF call.A.bs ne)) (x0 : Vec) :
    (∃ out, Conjugate o S st call.A ne (colsF call.A.bs ne) x0 out) ∧
    ∀ out, Conjugate o S st call.A ne (colsF call.A.bs ne) x0 out → ∃ s, out = some s ∧
      ∃ lhs prec : CG.Op (colsF call.A.bs ne),
      CG.Applies lhs (sysOf call.A ne call.D call.b).schur ∧
      ((o.kind.Tridiagonal → Visibility.Definite c) → ∃ M, SPD M ∧ CG.Applies prec M) ∧
      s = CG.solver o.cg lhs prec (sysOf call.A ne call.D call.b).rhs (front _ x0) := by
  have mul := fun tmp x y => PartitionedView.gives_rightMultiply hM ho hV ht hS tmp x y
  have hrhs : front (colsF call.A.bs ne) S.rhs = (sysOf call.A ne call.D call.b).rhs := front_eq hS.rhs
  refine ⟨?_, ?_⟩
  · choose z hz using fun x y => mul ⟨0, 0, 0, 0⟩ x y
    choose w hw using hA.returns
    exact ⟨_, .inr ⟨fun x y => front _ (z (extend x) (extend y)), fun x y => front _ (w (extend x) (extend y)),
      fun x y => ⟨_, _, ((hz _ _).1 _).2 rfl, rfl⟩, fun x y => ⟨_, (hw _ _ _).2 rfl, rfl⟩, rfl⟩⟩
  · rintro out (⟨-, x, y, ⟨tmp, h⟩ | h⟩ | ⟨lhs, prec, hlhs, hprec, rfl⟩)
    · obtain ⟨z, h1, -⟩ := mul tmp x y
      exact nomatch (h1 _).1 h
    · obtain ⟨z, h1⟩ := hA.returns x y
      exact nomatch (h1 _).1 h
    · refine ⟨_, rfl, lhs, prec, fun x => ?_, fun hdef => ?_, by rw [hrhs]⟩
      · obtain ⟨tmp, z, h1, h2⟩ := hlhs x 0
        obtain ⟨z', k1, k2, -⟩ := mul tmp (extend x) (extend 0)
        obtain rfl : z = z' := by simpa using (k1 _).1 h1
        rw [h2, front_eq k2]
        have e1 : (fun i : Fin (colsF call.A.bs ne) => extend x i) = x := front_extend x
        have := Schur.rightMultiply_applies (sysOf call.A ne call.D call.b) x
        rw [← this, e1]
        rfl
      · obtain ⟨M, hM1, hM2⟩ := hA.definite hdef
        refine ⟨M, hM1, fun x => ?_⟩
        obtain ⟨z, h1, h2⟩ := hprec x 0
        have e0 : extend (0 : CG.Vec (colsF call.A.bs ne)) = 0 := by
          funext i
          unfold extend
          split <;> rfl
        rw [e0] at h1
        rw [h2, hM2 _ _ h1, front_extend]

theorem guess_spec (o : Options) (hco : o.init ≠ none → compute = true) :
    ∃ x0, (∀ out, Guess o S call.A out ↔ out = some x0) ∧
      front (colsF call.A.bs ne) x0 = match o.init with
        | none => 0
        | some tol => (sysOf call.A ne call.D call.b).powerSeries o.maxSeries tol (sysOf call.A ne call.D call.b).rhs 0 := by
  unfold Guess
  cases hi : o.init with
  | none => exact ⟨_, fun _ => Iff.rfl, rfl⟩
  | some tol =>
    rw [hco (by rw [hi]; simp)] at hS
    obtain ⟨z, h1, h2, -⟩ := gives_exists fun term => gives_exists fun prev =>
      gives_series hM ho hV ht hS o.maxSeries tol term prev S.rhs fun _ => 0
    refine ⟨z, h1, ?_⟩
    rw [front_eq h2, front_eq hS.rhs]
    rfl

end

theorem qf_zero {n : ℕ} (A : Matrix (Fin n) (Fin n) ℝ) (b : CG.Vec n) : qf A b 0 = 0 := by
  unfold qf
  simp

theorem good_of_back (ha : Asked ne bs call) {o : Options} {before : Vec} {st : State c} {t : CG.Term} (htn : t ≠ .failure)
    {z : Vec} {u : CG.Vec (colsF call.A.bs ne)} (hz : Back call ne before z u)
    (hdesc : o.init = none ∨ OneFBlock ne bs →
      qf (sysOf call.A ne call.D call.b).schur (sysOf call.A ne call.D call.b).rhs u ≤ 0)
    (hstrict : o.init = none → u ≠ 0 →
      qf (sysOf call.A ne call.D call.b).schur (sysOf call.A ne call.D call.b).rhs u < 0)
    (hsolve : SchurJacobi.Exact o.cg (colsF call.A.bs ne) → o.init = none → (o.kind.Tridiagonal → Visibility.Definite c) →
      t = .success ∧ (sysOf call.A ne call.D call.b).schur *ᵥ u = (sysOf call.A ne call.D call.b).rhs) :
    Good o ne bs call before (⟨st, t, z⟩ : Result c) := by
  have hf := ha.fits
  obtain rfl := hf.structure_
  have ho := view_ordered hf
  have hM := hf.ok
  have hfull := PartitionedView.sys_fullRank (ne := ne) (b := call.b) hM (independent ha.regular)
  have hE := PartitionedView.sys_oneE (D := call.D) (b := call.b) hM ho
  have hsum : call.A.numCols = eCols call.A.bs ne + colsF call.A.bs ne := by
    rw [show eCols call.A.bs ne = colsE call.A.bs ne from rfl, PartitionedView.colsE_add_colsF, hM.numCols]
  have hlow : ∀ w : Vec, (sysOf call.A ne call.D call.b).cost ((sysOf call.A ne call.D call.b).backSubstitute
      fun j => w (colsE call.A.bs ne + j)) ≤ lsq call.A.numRows call.A.numCols call.A.entry call.b call.D w := by
    intro w
    rw [lsq_lsCost, PartitionedView.lsCost_eq (ne := ne) hM]
    exact Schur.backSubstitute_optimal hE hfull _ _
  have hpart : ∀ (w v : Vec), (∀ p, eCols call.A.bs ne ≤ p → p < call.A.numCols → w p = v p) →
      (fun j : Fin (colsF call.A.bs ne) => w (colsE call.A.bs ne + j)) =
        fun j : Fin (colsF call.A.bs ne) => v (colsE call.A.bs ne + j) := by
    intro w v h
    funext j
    exact h _ (Nat.le_add_right _ _) (by rw [hsum]; exact Nat.add_lt_add_left j.2 _)
  have hu : (fun j : Fin (colsF call.A.bs ne) => z (colsE call.A.bs ne + j)) = u := funext hz.rest
  have hcost := Schur.cost_backSubstitute hE hfull u
  refine ⟨hz.beyond, fun h => absurd h htn, fun _ w hw => ?_, fun _ hi w hw => ?_, fun _ hi hne w hw => ?_,
    fun hex hi hdef => ?_⟩
  · have := hlow w
    rw [hpart w z hw, hu] at this
    exact hz.cost.trans_le this
  · have := hlow w
    rw [hpart w (fun _ => 0) hw] at this
    have h2 := hdesc hi
    have h3 := hz.cost
    show lsq _ _ _ _ _ z ≤ _
    rw [h3, hcost]
    refine le_trans ?_ this
    show _ ≤ (sysOf call.A ne call.D call.b).cost ((sysOf call.A ne call.D call.b).backSubstitute 0)
    linarith
  · have := hlow w
    rw [hpart w (fun _ => 0) hw] at this
    have h2 := hstrict hi (by
      rintro h0
      obtain ⟨p, hp1, hp2, hp3⟩ := hne
      apply hp3
      have := congrFun (hu.trans h0) ⟨p - eCols call.A.bs ne, by omega⟩
      simp only at this
      rwa [show colsE call.A.bs ne + (p - eCols call.A.bs ne) = p from Nat.add_sub_cancel' hp1] at this)
    show lsq _ _ _ _ _ z < _
    rw [hz.cost, hcost]
    refine lt_of_lt_of_le ?_ this
    show _ < (sysOf call.A ne call.D call.b).cost ((sysOf call.A ne call.D call.b).backSubstitute 0)
    linarith
  · obtain ⟨h1, h2⟩ := hsolve hex hi hdef
    refine .inl ⟨h1, fun w => ?_⟩
    show lsq _ _ _ _ _ z ≤ _
    rw [hz.cost, lsq_lsCost, PartitionedView.lsCost_eq (ne := ne) hM]
    by_cases he : (fun j : Fin (colsE call.A.bs ne) => w j, fun j : Fin (colsF call.A.bs ne) => w (colsE call.A.bs ne + j)) =
        (sysOf call.A ne call.D call.b).backSubstitute u
    · rw [he]
    · exact (Schur.backSubstitute_unique hE hfull h2 _ he).le

/-- A call that returns, followed by one that returns. -/
theorem bind_total {α β : Type} {R : Does α} {T : α → Does β} {Q : α → Prop} {Q' : β → Prop}
    (hR : (∃ o, R o) ∧ ∀ o, R o → ∃ a, o = some a ∧ Q a)
    (hT : ∀ a, Q a → (∃ o, T a o) ∧ ∀ o, T a o → ∃ b, o = some b ∧ Q' b) :
    (∃ o, Does.bind R T o) ∧ ∀ o, Does.bind R T o → ∃ b, o = some b ∧ Q' b := by
  obtain ⟨⟨o0, h0⟩, h1⟩ := hR
  constructor
  · obtain ⟨a, rfl, hq⟩ := h1 o0 h0
    obtain ⟨⟨o1, h2⟩, -⟩ := hT a hq
    exact ⟨o1, .next a o1 h0 h2⟩
  · intro o h
    cases h with
    | stuck h =>
      obtain ⟨a, h', -⟩ := h1 _ h
      cases h'
    | next a o h2 h3 =>
      obtain ⟨a', h', hq⟩ := h1 _ h2
      cases h'
      exact (hT a hq).2 o h3

theorem done_total {β : Type} {b : β} {Q : β → Prop} (h : Q b) :
    (∃ o, (fun o : Option β => o = some b) o) ∧ ∀ o, (fun o : Option β => o = some b) o → ∃ b, o = some b ∧ Q b :=
  ⟨⟨_, rfl⟩, fun _ ho => ⟨b, ho, h⟩⟩

theorem solveFrom_good (hl : LltOk llt) (hinv : InvertsFullRank inv) (hc : c.Correct) (ht : 0 < threads) (o : Options)
    {st : State c} (hI : Inv inv o.kind ne bs threads st) (ha : Asked ne bs call) (before : Vec) {V : View}
    (hV : PartitionedView.create call.A ne threads = some V) {S : Implicit ℝ}
    (hS : Holds S V call.A ne call.D call.b o.compute) :
    (∃ out, SolveFrom llt inv o ne threads st call before S out) ∧
    ∀ out, SolveFrom llt inv o ne threads st call before S out →
      ∃ r, out = some r ∧ Good o ne bs call before r ∧ Inv inv o.kind ne bs threads r.state := by
  have hf := ha.fits
  obtain rfl := hf.structure_
  have ho := view_ordered hf
  have hM := hf.ok
  have hfull := PartitionedView.sys_fullRank (ne := ne) (b := call.b) hM (independent ha.regular)
  have hE := PartitionedView.sys_oneE (D := call.D) (b := call.b) hM ho
  have hF : S.A.numColsF = colsF call.A.bs ne := by rw [hS.view]; exact (PartitionedView.create_isView ho hV).numColsF
  have back : ∀ x before : Vec,
      (∃ o, (fun out => ∃ tmp, PartitionedView.backSubstitute S call.A tmp x before out) o) ∧
      ∀ o, (fun out => ∃ tmp, PartitionedView.backSubstitute S call.A tmp x before out) o →
        ∃ z, o = some z ∧ Back call ne before z (front _ x) := by
    intro x before
    refine ⟨?_, ?_⟩
    · obtain ⟨z, h1, -⟩ := back_spec ht hM ho hV hS ⟨0, 0, 0, 0⟩ x before
      exact ⟨some z, ⟨0, 0, 0, 0⟩, (h1 _).2 rfl⟩
    · rintro o ⟨tmp, h⟩
      obtain ⟨z, h1, h2⟩ := back_spec ht hM ho hV hS tmp x before
      exact ⟨z, (h1 _).1 h, h2⟩
  unfold SolveFrom
  rw [hF]
  by_cases h0 : call.A.bs.cols.length - ne = 0
  · rw [if_pos h0]
    have hF0 : colsF call.A.bs ne = 0 := by
      unfold colsF
      rw [List.drop_eq_nil_of_le (by omega)]
      rfl
    refine bind_total (Q := fun z => ∃ x, Back call ne before z (front _ x)) ⟨?_, ?_⟩ fun z hz => done_total ⟨?_, hI⟩
    · obtain ⟨o, tmp, h⟩ := (back 0 before).1
      exact ⟨o, tmp, 0, h⟩
    · rintro out ⟨tmp, null, h⟩
      obtain ⟨z, h1, h2⟩ := (back null before).2 out ⟨tmp, h⟩
      exact ⟨z, h1, null, h2⟩
    · obtain ⟨x, hz⟩ := hz
      refine good_of_back ha (by simp) hz ?_ ?_ ?_
      · intro _
        have : front (colsF call.A.bs ne) x = 0 := funext fun i => absurd i.2 (by omega)
        rw [this, qf_zero]
      · intro _ hne
        exact absurd (funext fun i => absurd i.2 (by omega)) hne
      · intro _ _ _
        exact ⟨rfl, funext fun i => absurd i.2 (by omega)⟩
  · rw [if_neg h0]
    have hn : ne < call.A.bs.cols.length := by omega
    obtain ⟨x0, g1, g2⟩ := guess_spec ht hM ho hV hS o (by
      intro hi
      unfold Options.compute
      cases o.kind <;> simp [Option.isSome_iff_ne_none, hi])
    refine bind_total (Q := fun x => x = x0) ⟨⟨_, (g1 _).2 rfl⟩, fun o h => ⟨x0, (g1 _).1 h, rfl⟩⟩ fun x hx => ?_
    subst hx
    refine bind_total (create_spec (inv := inv) (threads := threads) hf hn o.kind hI) fun st1 ⟨hI1, hs1⟩ => ?_
    refine bind_total (Q := fun u => Inv inv o.kind ne call.A.bs threads u.2 ∧ (u.1 = false → o.kind.Tridiagonal) ∧
      (u.1 = true → Applied o S u.2 call.A ne (colsF call.A.bs ne))) ⟨?_, ?_⟩ fun u ⟨hI2, hfail, happ⟩ => ?_
    · exact (update_spec hl hinv hc ht ha hn o hI1 hs1 hV hS).1
    · intro u hu
      obtain ⟨ok, st', h1, h2⟩ := (update_spec hl hinv hc ht ha hn o hI1 hs1 hV hS).2 u hu
      exact ⟨_, h1, h2⟩
    obtain ⟨ok, st2⟩ := u
    have failed : ∀ (_ : o.kind.Tridiagonal ∨ (SchurJacobi.Exact o.cg (fCols call.A.bs ne) → o.init = none →
        (o.kind.Tridiagonal → Visibility.Definite c) → False)),
        Good o ne call.A.bs call before (⟨st2, .failure, before⟩ : Result c) := by
      intro hwhy
      refine ⟨fun _ _ => rfl, fun _ => rfl, fun h => absurd rfl h, fun h => absurd rfl h, fun h => absurd rfl h,
        fun h1 h2 h3 => .inr ⟨rfl, ?_⟩⟩
      exact hwhy.resolve_right fun h => h h1 h2 h3
    cases ok with
    | false =>
      rw [if_pos rfl]
      exact done_total ⟨failed (.inl (hfail rfl)), hI2⟩
    | true =>
      rw [if_neg (by simp)]
      refine bind_total (conjugate_spec ht hM ho hV hS o (happ rfl) x) fun s hs => ?_
      obtain ⟨lhs, prec, hlhs, hprec, rfl⟩ := hs
      have hspd := Schur.schur_spd hE hfull
      have conv : SchurJacobi.Exact o.cg (colsF call.A.bs ne) → o.init = none → (o.kind.Tridiagonal → Visibility.Definite c) →
          (CG.solver o.cg lhs prec (sysOf call.A ne call.D call.b).rhs (front _ x)).termination = .success ∧
          (sysOf call.A ne call.D call.b).schur *ᵥ
            (CG.solver o.cg lhs prec (sysOf call.A ne call.D call.b).rhs (front _ x)).x =
              (sysOf call.A ne call.D call.b).rhs := by
        intro hex hi hdef
        obtain ⟨M, hM1, hM2⟩ := hprec hdef
        rw [hi] at g2
        rw [g2]
        obtain ⟨k1, -, -, k4⟩ := CG.cg_converges o.cg hlhs hM2 hspd hM1 hex.q hex.r.ge hex.min hex.max
          (sysOf call.A ne call.D call.b).rhs
        exact ⟨k1, k4 hex.r⟩
      by_cases hterm : (CG.solver o.cg lhs prec (sysOf call.A ne call.D call.b).rhs (front _ x)).termination = .failure
      · rw [if_neg (by simpa using hterm), hterm]
        refine done_total ⟨failed (.inr fun h1 h2 h3 => ?_), hI2⟩
        have := (conv h1 h2 h3).1
        rw [hterm] at this
        cases this
      · rw [if_pos hterm]
        refine bind_total (back _ before) fun z hz => done_total ⟨?_, hI2⟩
        rw [front_extend] at hz
        have zero : (sysOf call.A ne call.D call.b).rhs = 0 →
            (CG.solver o.cg lhs prec (sysOf call.A ne call.D call.b).rhs (front _ x)).x = 0 := by
          intro h
          rw [h]
          exact Schur.solver_zero_rhs _ _ _ _
        refine good_of_back ha hterm hz (fun hi => ?_) (fun hi hne => ?_) conv
        · by_cases hb : (sysOf call.A ne call.D call.b).rhs = 0
          · rw [zero hb, qf_zero]
          · refine (CG.cg_never_worse o.cg (prec := prec) hlhs hspd.1 _ (front _ x) hb).1.trans ?_
            rw [g2]
            cases hin : o.init with
            | none => exact (qf_zero _ _).le
            | some tol =>
              rw [hin] at hi
              rcases hi with hi | hi
              · cases hi
              · exact guess_descends hE (sys_oneF hM hi) hfull _ _ _ _
        · have hb : (sysOf call.A ne call.D call.b).rhs ≠ 0 := fun h => hne (zero h)
          have h0 : front (colsF call.A.bs ne) x = 0 := by rw [g2, hi]
          have := (CG.cg_never_worse o.cg (prec := prec) hlhs hspd.1 _ (front _ x) hb).2.1 (by rw [h0] at hne ⊢; exact hne)
          refine this.trans_le ?_
          rw [h0, qf_zero]

theorem solve_good (hl : LltOk llt) (hinv : InvertsFullRank inv) (hc : c.Correct) (ht : 0 < threads) (o : Options)
    {st : State c} (hI : Inv inv o.kind ne bs threads st) (ha : Asked ne bs call) (before : Vec) :
    (∃ out, Solve llt inv o ne threads st call before out) ∧
    ∀ out, Solve llt inv o ne threads st call before out →
      ∃ r, out = some r ∧ Good o ne bs call before r ∧ Inv inv o.kind ne bs threads r.state := by
  have ho := view_ordered ha.fits
  obtain ⟨V, hV⟩ := PartitionedView.create_some (threads := threads) ha.fits.ok
    (by rw [ha.fits.structure_]; exact ho) (.inr (ne_pos ha.fits))
  unfold Solve
  rw [hV]
  exact bind_total (init_spec hl ht ha o.compute hV) fun S hS => solveFrom_good hl hinv hc ht o hI ha before hV hS

/-- What is kept after any calls. -/
theorem after_inv (hl : LltOk llt) (hinv : InvertsFullRank inv) (hc : c.Correct) (ht : 0 < threads) {o : Options}
    {calls : List Call} (hcalls : ∀ call ∈ calls, Asked ne bs call) {st : State c}
    (hst : After c llt inv o ne threads calls st) : Inv inv o.kind ne bs threads st := by
  induction hst with
  | nil v => exact fun _ _ _ _ h => nomatch h
  | snoc cg call x r _ hsolve ih =>
    obtain ⟨r', hr', -, hI'⟩ := (solve_good hl hinv hc ht { o with cg := cg }
      (ih fun call h => hcalls call (List.mem_append_left _ h)) (hcalls call (by simp)) x).2 _ hsolve
    cases hr'
    exact hI'

/-- **ITERATIVE_SCHUR** on the implicit Schur complement with IDENTITY, JACOBI, SCHUR_POWER_SERIES_EXPANSION,
SCHUR_JACOBI, CLUSTER_JACOBI or CLUSTER_TRIDIAGONAL: after any history of calls with the same block structure, on any
number of threads and for every schedule, a call returns.  A failure writes nothing.  Otherwise the eliminated part of
the step is the best for the rest, the step is as good as every one that moves eliminated blocks only, also if conjugate
gradients were stopped before they converged, and better if it moves others; run to the end it is the minimiser. -/
theorem iterative_schur_solves (hl : LltOk llt) (hinv : InvertsFullRank inv) (hc : c.Correct) (ht : 0 < threads)
    (o : Options) {calls : List Call} (hcalls : ∀ call ∈ calls, Asked ne bs call) {st : State c}
    (hst : After c llt inv o ne threads calls st) {call : Call} (hcall : Asked ne bs call) (cg : CG.Options)
    (before : Vec) :
    (∃ out, Solve llt inv { o with cg := cg } ne threads st call before out) ∧
    ∀ out, Solve llt inv { o with cg := cg } ne threads st call before out →
      ∃ r, out = some r ∧ Good { o with cg := cg } ne bs call before r := by
  obtain ⟨h1, h2⟩ := solve_good hl hinv hc ht { o with cg := cg } (after_inv (o := o) hl hinv hc ht hcalls hst) hcall before
  refine ⟨h1, fun out h => ?_⟩
  obtain ⟨r, k1, k2, -⟩ := h2 out h
  exact ⟨r, k1, k2⟩

/-- Such a history is possible. -/
theorem after_exists (hl : LltOk llt) (hinv : InvertsFullRank inv) (hc : c.Correct) (ht : 0 < threads) (o : Options)
    (calls : List Call) (hcalls : ∀ call ∈ calls, Asked ne bs call) : ∃ st, After c llt inv o ne threads calls st := by
  induction calls using List.reverseRecOn with
  | nil => exact ⟨_, .nil fun _ => 0⟩
  | append_singleton calls call ih =>
    have hprev := fun call h => hcalls call (List.mem_append_left _ h)
    obtain ⟨st, hst⟩ := ih hprev
    obtain ⟨⟨out, hout⟩, hall⟩ := iterative_schur_solves hl hinv hc ht o hprev hst (hcalls call (by simp)) o.cg fun _ => 0
    obtain ⟨r, rfl, -⟩ := hall out hout
    exact ⟨_, .snoc o.cg call _ r hst hout⟩

end Ceres.IterSchur
