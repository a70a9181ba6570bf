import Mathlib.Algebra.Order.BigOperators.Group.List
import Verif.Overflow.Model

/-! # The block sparse layout with machine integers -/
namespace Ceres.Overflow

open Ceres.Evaluator

theorem mulInt_ok {a b : ℕ} (h : a * b ≤ intMax) : mulInt a b = .ok (a * b) := by
  unfold mulInt; rw [if_pos h]

theorem addUnsigned_eq {a b : ℕ} (ha : a ≤ intMax) (hb : b ≤ intMax) : addUnsigned a b = a + b := by
  unfold addUnsigned
  unfold intMax at ha hb
  exact Nat.mod_eq_of_lt (by omega)

theorem bind_ok {α β : Type} {o : Out α} {f : α → Out β} {b : β} (h : o.bind f = .ok b) :
    ∃ a, o = .ok a ∧ f a = .ok b := by
  cases o with
  | ok a => exact ⟨a, rfl, h⟩
  | _ => exact absurd h (by simp [Out.bind])

/-! ## The first loop -/

theorem countArgs_eq (P : Prog) (ne n : ℕ) (l : List (ℕ × ℕ)) (hb : ∀ p ∈ l, n * P.size p.1 ≤ intMax)
    (b f : ℕ) (hbl : b + l.length < 2 ^ 32) (hf : f + sumE P ne n l ≤ intMax) :
    countArgs P ne n l b f = .ok (b + l.length, f + sumE P ne n l) := by
  induction l generalizing b f with
  | nil => rfl
  | cons p l ih =>
    obtain ⟨i, j⟩ := p
    have hp : n * P.size i ≤ intMax := hb (i, j) (by simp)
    have hl : (((i, j) :: l) : List (ℕ × ℕ)).length = l.length + 1 := rfl
    rw [hl] at hbl ⊢
    have hb1 : addUnsigned b 1 = b + 1 := Nat.mod_eq_of_lt (by omega)
    unfold countArgs
    rw [hb1]
    by_cases hi : i < ne
    · have hs : sumE P ne n ((i, j) :: l) = n * P.size i + sumE P ne n l := by
        unfold sumE; rw [List.map_cons, List.sum_cons, if_pos hi]
      rw [hs] at hf ⊢
      rw [if_pos hi, mulInt_ok hp]
      show countArgs P ne n l (b + 1) (addUnsigned f (n * P.size i)) = _
      rw [addUnsigned_eq (by omega) hp, ih (fun p hp => hb p (by simp [hp])) _ _ (by omega) (by omega),
        show b + 1 + l.length = b + (l.length + 1) by omega, Nat.add_assoc f]
    · have hs : sumE P ne n ((i, j) :: l) = sumE P ne n l := by
        unfold sumE; rw [List.map_cons, List.sum_cons, if_neg hi, Nat.zero_add]
      rw [hs] at hf ⊢
      rw [if_neg hi, ih (fun p hp => hb p (by simp [hp])) _ _ (by omega) (by omega),
        show b + 1 + l.length = b + (l.length + 1) by omega]

/-- Entries of E, of F, and the number of cells, of a list of residual blocks. -/
def eSum (P : Prog) (ne : ℕ) (l : List RB) : ℕ := (l.map fun rb => sumE P ne rb.numResiduals (activeArgs rb)).sum
def fSum (P : Prog) (ne : ℕ) (l : List RB) : ℕ := (l.map fun rb => sumF P ne rb.numResiduals (activeArgs rb)).sum
def cellSum (l : List RB) : ℕ := (l.map fun rb => (activeArgs rb).length).sum

theorem eSum_cons (P : Prog) (ne : ℕ) (rb : RB) (l : List RB) :
    eSum P ne (rb :: l) = sumE P ne rb.numResiduals (activeArgs rb) + eSum P ne l := by
  unfold eSum; rw [List.map_cons, List.sum_cons]
theorem fSum_cons (P : Prog) (ne : ℕ) (rb : RB) (l : List RB) :
    fSum P ne (rb :: l) = sumF P ne rb.numResiduals (activeArgs rb) + fSum P ne l := by
  unfold fSum; rw [List.map_cons, List.sum_cons]
theorem cellSum_cons (rb : RB) (l : List RB) : cellSum (rb :: l) = (activeArgs rb).length + cellSum l := by
  unfold cellSum; rw [List.map_cons, List.sum_cons]

theorem activeArgs_length (rb : RB) : (activeArgs rb).length ≤ rb.args.length := by
  unfold activeArgs
  refine (List.length_filterMap_le _ _).trans ?_
  rw [List.length_zipIdx]

theorem countLoop_eq (P : Prog) (ne : ℕ) (l : List RB)
    (hb : ∀ rb ∈ l, ∀ p ∈ activeArgs rb, rb.numResiduals * P.size p.1 ≤ intMax)
    (ha : ∀ rb ∈ l, rb.args.length ≤ intMax) (b f : ℕ) (hbl : b ≤ intMax) (hf : f + eSum P ne l ≤ intMax) :
    countLoop P ne l b f =
      if b + cellSum l ≤ intMax then .ok (b + cellSum l, f + eSum P ne l) else .refused := by
  induction l generalizing b f with
  | nil =>
    show Out.ok (b, f) = if b + 0 ≤ intMax then .ok (b + 0, f + 0) else .refused
    rw [Nat.add_zero, Nat.add_zero, if_pos hbl]
  | cons rb l ih =>
    have hl := (activeArgs_length rb).trans (ha rb (by simp))
    rw [eSum_cons] at hf
    unfold countLoop
    rw [countArgs_eq P ne _ _ (hb rb (by simp)) b f (by unfold intMax at *; omega) (by omega)]
    show (if intMax < b + (activeArgs rb).length then _ else countLoop P ne l (b + (activeArgs rb).length)
      (f + sumE P ne rb.numResiduals (activeArgs rb))) = _
    rw [cellSum_cons, eSum_cons]
    by_cases h : intMax < b + (activeArgs rb).length
    · rw [if_pos h, if_neg (by omega)]
    · rw [if_neg h, ih (fun r hr => hb r (by simp [hr])) (fun r hr => ha r (by simp [hr])) _ _ (by omega)
        (by omega)]
      simp only [Nat.add_assoc]

/-! ## The second loop -/

theorem castInt_eq {a : ℕ} (h : a ≤ intMax) : castInt a = a := by unfold castInt; rw [if_pos h]

/-- A store of a position, as a store of an `int`. -/
def toInt (w : ℕ × ℕ) : ℕ × ℤ := (w.1, (w.2 : ℤ))

theorem placeCells_eq (P : Prog) (ne n : ℕ) (S : List ((ℕ × ℕ) × ℕ))
    (hb : ∀ p ∈ S, n * P.size p.1.1 ≤ intMax) (e f : ℕ) (he : e + sumE P ne n (S.map Prod.fst) ≤ intMax)
    (hf : f ≤ intMax) :
    placeCells P ne n S e f =
      if f + sumF P ne n (S.map Prod.fst) ≤ intMax then
        .ok ((Evaluator.placeCells P ne n S e f).1.map toInt, (Evaluator.placeCells P ne n S e f).2)
      else .refused := by
  induction S generalizing e f with
  | nil =>
    show Out.ok ([], e, f) = if f + 0 ≤ intMax then _ else _
    rw [Nat.add_zero, if_pos hf]
    rfl
  | cons q S ih =>
    obtain ⟨⟨i, j⟩, k⟩ := q
    have hp : n * P.size i ≤ intMax := hb ((i, j), k) (by simp)
    have hb' : ∀ p ∈ S, n * P.size p.1.1 ≤ intMax := fun p hp => hb p (by simp [hp])
    unfold placeCells Evaluator.placeCells
    rw [mulInt_ok hp]
    simp only [Out.bind]
    by_cases hi : i < ne
    · have hs : sumE P ne n ((((i, j), k) :: S).map Prod.fst) = n * P.size i + sumE P ne n (S.map Prod.fst) := by
        unfold sumE; rw [List.map_cons, List.map_cons, List.sum_cons, if_pos hi]
      have hs' : sumF P ne n ((((i, j), k) :: S).map Prod.fst) = sumF P ne n (S.map Prod.fst) := by
        unfold sumF; rw [List.map_cons, List.map_cons, List.sum_cons, if_pos hi, Nat.zero_add]
      rw [hs] at he
      rw [hs', if_pos hi, if_pos hi]
      unfold addInt
      rw [if_pos (by omega)]
      simp only
      rw [ih hb' _ _ (by omega) hf]
      by_cases h : f + sumF P ne n (S.map Prod.fst) ≤ intMax
      · rw [if_pos h, if_pos h]; rfl
      · rw [if_neg h, if_neg h]
    · have hs : sumE P ne n ((((i, j), k) :: S).map Prod.fst) = sumE P ne n (S.map Prod.fst) := by
        unfold sumE; rw [List.map_cons, List.map_cons, List.sum_cons, if_neg hi, Nat.zero_add]
      have hs' : sumF P ne n ((((i, j), k) :: S).map Prod.fst) = n * P.size i + sumF P ne n (S.map Prod.fst) := by
        unfold sumF; rw [List.map_cons, List.map_cons, List.sum_cons, if_neg hi]
      rw [hs] at he
      rw [hs', if_neg hi, if_neg hi, addUnsigned_eq hf hp]
      by_cases hlt : intMax < f + n * P.size i
      · rw [if_pos hlt, if_neg (by omega)]
      · rw [if_neg hlt, ih hb' _ _ he (by omega), castInt_eq hf]
        by_cases h : f + n * P.size i + sumF P ne n (S.map Prod.fst) ≤ intMax
        · rw [if_pos h, if_pos (by omega)]; rfl
        · rw [if_neg h, if_neg (by omega)]

theorem exec_toInt (ws : List (ℕ × ℕ)) (a : ℕ → ℕ) :
    exec (ws.map toInt) (fun k => (a k : ℤ)) = fun k => ((exec ws a k : ℕ) : ℤ) := by
  induction ws generalizing a with
  | nil => rfl
  | cons w ws ih =>
    show exec (ws.map toInt) (Function.update (fun k => (a k : ℤ)) w.1 (w.2 : ℤ)) = _
    have : Function.update (fun k => (a k : ℤ)) w.1 (w.2 : ℤ) = fun k => ((Function.update a w.1 w.2 k : ℕ) : ℤ) := by
      funext k
      by_cases h : k = w.1
      · subst h; rw [Function.update_self, Function.update_self]
      · rw [Function.update_of_ne h, Function.update_of_ne h]
    rw [this, ih]
    rfl

theorem layoutLoop_eq (P : Prog) (ne : ℕ) (l : List RB)
    (hb : ∀ rb ∈ l, ∀ p ∈ activeArgs rb, rb.numResiduals * P.size p.1 ≤ intMax) (e f : ℕ)
    (he : e + eSum P ne l ≤ intMax) (hf : f ≤ intMax) :
    layoutLoop P ne l e f =
      if f + fSum P ne l ≤ intMax then
        .ok ((Evaluator.layoutLoop P ne l e f).map fun L k => (L k : ℤ))
      else .refused := by
  induction l generalizing e f with
  | nil =>
    show Out.ok [] = if f + 0 ≤ intMax then _ else _
    rw [Nat.add_zero, if_pos hf]
    rfl
  | cons rb l ih =>
    rw [eSum_cons] at he
    rw [fSum_cons]
    have hE := sumE_perm P ne rb.numResiduals (sortedActive_fst_perm rb)
    have hF := sumF_perm P ne rb.numResiduals (sortedActive_fst_perm rb)
    have hS : ∀ p ∈ sortedActive rb, rb.numResiduals * P.size p.1.1 ≤ intMax := fun p hp =>
      hb rb (by simp) p.1 ((sortedActive_fst_perm rb).mem_iff.1 (List.mem_map.2 ⟨p, hp, rfl⟩))
    unfold layoutLoop Evaluator.layoutLoop
    rw [placeCells_eq P ne _ _ hS e f (by omega) hf, hF]
    by_cases h : f + sumF P ne rb.numResiduals (activeArgs rb) ≤ intMax
    · rw [if_pos h]
      simp only [Out.bind]
      have hend := placeCells_end P ne rb.numResiduals (sortedActive rb) e f
      rw [hE, hF] at hend
      rw [hend]
      simp only
      rw [ih (fun r hr => hb r (by simp [hr])) _ _ (by omega) h]
      by_cases h' : f + sumF P ne rb.numResiduals (activeArgs rb) + fSum P ne l ≤ intMax
      · rw [if_pos h', if_pos (by omega)]
        simp only [List.map_cons]
        have := exec_toInt (Evaluator.placeCells P ne rb.numResiduals (sortedActive rb) e f).1 fun _ => 0
        simp only [Nat.cast_zero] at this
        rw [this]
      · rw [if_neg h', if_neg (by omega)]
    · rw [if_neg h, if_neg (by omega)]
      rfl

/-! ## If there are too many entries of E -/

theorem placeCells_e (P : Prog) (ne n : ℕ) (S : List ((ℕ × ℕ) × ℕ)) (e f : ℕ)
    {r : List (ℕ × ℤ) × ℕ × ℕ} (h : placeCells P ne n S e f = .ok r) (he : e ≤ intMax) :
    r.2.1 = e + sumE P ne n (S.map Prod.fst) ∧ r.2.1 ≤ intMax := by
  induction S generalizing e f r with
  | nil =>
    have : r = ([], e, f) := by
      unfold placeCells at h
      injection h with h; exact h.symm
    subst this
    exact ⟨rfl, he⟩
  | cons q S ih =>
    obtain ⟨⟨i, j⟩, k⟩ := q
    unfold placeCells at h
    obtain ⟨s, hs, h⟩ := bind_ok h
    have hs : s = n * P.size i := by
      unfold mulInt at hs
      by_cases hle : n * P.size i ≤ intMax
      · rw [if_pos hle] at hs; injection hs with hs; exact hs.symm
      · rw [if_neg hle] at hs; cases hs
    subst hs
    by_cases hi : i < ne
    · have hs : sumE P ne n ((((i, j), k) :: S).map Prod.fst) = n * P.size i + sumE P ne n (S.map Prod.fst) := by
        unfold sumE; rw [List.map_cons, List.map_cons, List.sum_cons, if_pos hi]
      rw [if_pos hi] at h
      obtain ⟨e', he', h⟩ := bind_ok h
      obtain ⟨r', hr', h⟩ := bind_ok h
      injection h with h
      subst h
      unfold addInt at he'
      by_cases hle : e + n * P.size i ≤ intMax
      · rw [if_pos hle] at he'
        injection he' with he'
        subst he'
        obtain ⟨h1, h2⟩ := ih _ _ hr' hle
        exact ⟨by rw [hs]; show r'.2.1 = _; omega, h2⟩
      · rw [if_neg hle] at he'; cases he'
    · have hs : sumE P ne n ((((i, j), k) :: S).map Prod.fst) = sumE P ne n (S.map Prod.fst) := by
        unfold sumE; rw [List.map_cons, List.map_cons, List.sum_cons, if_neg hi, Nat.zero_add]
      rw [if_neg hi] at h
      by_cases hlt : intMax < addUnsigned f (n * P.size i)
      · rw [if_pos hlt] at h; cases h
      · rw [if_neg hlt] at h
        obtain ⟨r', hr', h⟩ := bind_ok h
        injection h with h
        subst h
        rw [hs]
        exact ih (r := r') _ _ hr' he

theorem layoutLoop_e (P : Prog) (ne : ℕ) (l : List RB) (e f : ℕ) {L : List (ℕ → ℤ)}
    (h : layoutLoop P ne l e f = .ok L) (he : e ≤ intMax) : e + eSum P ne l ≤ intMax := by
  induction l generalizing e f L with
  | nil => exact he
  | cons rb l ih =>
    unfold layoutLoop at h
    obtain ⟨r, hr, h⟩ := bind_ok h
    obtain ⟨L', hL', -⟩ := bind_ok h
    obtain ⟨h1, h2⟩ := placeCells_e P ne _ _ _ _ hr he
    have := ih _ _ hL' h2
    rw [h1, sumE_perm P ne rb.numResiduals (sortedActive_fst_perm rb)] at this
    rw [eSum_cons]
    omega

/-! ## The layout -/

theorem eEntries_eSum (P : Prog) (ne : ℕ) : eEntries P ne = eSum P ne P.residuals := rfl

theorem entries_eq (P : Prog) (ne : ℕ) : entries P = eSum P ne P.residuals + fSum P ne P.residuals := by
  unfold entries eSum fSum
  generalize P.residuals = l
  induction l with
  | nil => rfl
  | cons rb l ih =>
    simp only [List.map_cons, List.sum_cons, ih]
    have : ((activeArgs rb).map fun p => rb.numResiduals * P.size p.1).sum =
        sumE P ne rb.numResiduals (activeArgs rb) + sumF P ne rb.numResiduals (activeArgs rb) := by
      rw [sumE_add_sumF]
      induction activeArgs rb with
      | nil => rfl
      | cons p l ih => simp only [List.map_cons, List.sum_cons, ih, Nat.mul_add]
    omega

theorem cells_le_entries {P : Prog} (hP : Sane P) : cellSum P.residuals ≤ entries P := by
  unfold cellSum entries
  refine List.sum_le_sum fun rb hrb => ?_
  calc (activeArgs rb).length = ((activeArgs rb).map fun _ => 1).sum := by simp
    _ ≤ _ := List.sum_le_sum fun p hp => Nat.mul_pos (hP.residuals rb hrb) (hP.sizes rb hrb p hp)

/-- **The block sparse Jacobian is refused exactly if it is too large**, as long as the entries of the eliminated
blocks alone are not; and what is made otherwise is the layout of unbounded integers. -/
theorem block_exact {P : Prog} (hP : Sane P) {ne : ℕ} (he : eEntries P ne ≤ intMax) :
    buildLayout P ne = if entries P ≤ intMax then
      .ok ((Evaluator.buildLayout P ne).map fun L k => (L k : ℤ)) else .refused := by
  rw [eEntries_eSum] at he
  unfold buildLayout
  rw [countLoop_eq P ne _ hP.block hP.args 0 0 (Nat.zero_le _) (by omega), Nat.zero_add, Nat.zero_add]
  by_cases hc : cellSum P.residuals ≤ intMax
  · rw [if_pos hc]
    show layoutLoop P ne P.residuals 0 (eSum P ne P.residuals) = _
    rw [layoutLoop_eq P ne _ hP.block 0 _ (by omega) he, entries_eq P ne]
    rfl
  · rw [if_neg hc, if_neg (by have := cells_le_entries hP; omega)]
    rfl

theorem countArgs_abort (P : Prog) (ne n : ℕ) (l : List (ℕ × ℕ)) (b f : ℕ) :
    countArgs P ne n l b f ≠ .aborts := by
  induction l generalizing b f with
  | nil => simp [countArgs]
  | cons p l ih =>
    obtain ⟨i, j⟩ := p
    unfold countArgs mulInt
    split_ifs <;> simp [Out.bind, ih]

theorem countLoop_abort (P : Prog) (ne : ℕ) (l : List RB) (b f : ℕ) : countLoop P ne l b f ≠ .aborts := by
  induction l generalizing b f with
  | nil => simp [countLoop]
  | cons rb l ih =>
    unfold countLoop
    have := countArgs_abort P ne rb.numResiduals (activeArgs rb) b f
    cases hc : countArgs P ne rb.numResiduals (activeArgs rb) b f with
    | ok r => simp only [Out.bind]; split_ifs <;> simp [ih]
    | aborts => exact absurd hc this
    | _ => simp [Out.bind]

theorem placeCells_abort (P : Prog) (ne n : ℕ) (S : List ((ℕ × ℕ) × ℕ)) (e f : ℕ) :
    placeCells P ne n S e f ≠ .aborts := by
  induction S generalizing e f with
  | nil => simp [placeCells]
  | cons q S ih =>
    obtain ⟨⟨i, j⟩, k⟩ := q
    have aux : ∀ e f (w : ℕ × ℤ), ((placeCells P ne n S e f).bind fun r => Out.ok (w :: r.1, r.2)) ≠ .aborts := by
      intro e f w
      have := ih e f
      cases hc : placeCells P ne n S e f with
      | aborts => exact absurd hc this
      | _ => simp [Out.bind]
    unfold placeCells mulInt addInt
    by_cases h1 : n * P.size i ≤ intMax
    · rw [if_pos h1]
      show (if i < ne then _ else _) ≠ _
      by_cases hi : i < ne
      · rw [if_pos hi]
        by_cases h2 : e + n * P.size i ≤ intMax
        · rw [if_pos h2]; exact aux _ _ _
        · rw [if_neg h2]; simp [Out.bind]
      · rw [if_neg hi]
        by_cases h2 : intMax < addUnsigned f (n * P.size i)
        · rw [if_pos h2]; simp
        · rw [if_neg h2]; exact aux _ _ _
    · rw [if_neg h1]; simp [Out.bind]

theorem layoutLoop_abort (P : Prog) (ne : ℕ) (l : List RB) (e f : ℕ) : layoutLoop P ne l e f ≠ .aborts := by
  induction l generalizing e f with
  | nil => simp [layoutLoop]
  | cons rb l ih =>
    unfold layoutLoop
    have := placeCells_abort P ne rb.numResiduals (sortedActive rb) e f
    cases hc : placeCells P ne rb.numResiduals (sortedActive rb) e f with
    | ok r =>
      simp only [Out.bind]
      have := ih r.2.1 r.2.2
      cases hd : layoutLoop P ne l r.2.1 r.2.2 with
      | aborts => exact absurd hd this
      | _ => simp
    | aborts => exact absurd hc this
    | _ => simp [Out.bind]

/-- **No layout is made for a Jacobian that is too large**: whatever is made fits, and is the layout of unbounded
integers; whatever is refused does not fit; and where the behaviour is undefined the entries of the eliminated
blocks alone do not fit. -/
theorem block_sound {P : Prog} (hP : Sane P) (ne : ℕ) :
    match buildLayout P ne with
    | .ok L => entries P ≤ intMax ∧ L = (Evaluator.buildLayout P ne).map fun L k => (L k : ℤ)
    | .refused => intMax < entries P
    | .undefined => intMax < eEntries P ne
    | .aborts => False := by
  by_cases he : eEntries P ne ≤ intMax
  · rw [block_exact hP he]
    by_cases h : entries P ≤ intMax
    · rw [if_pos h]; exact ⟨h, rfl⟩
    · rw [if_neg h]; exact not_le.1 h
  · have hen : intMax < entries P := by
      rw [entries_eq P ne, ← eEntries_eSum]; omega
    cases hb : buildLayout P ne with
    | undefined => exact not_le.1 he
    | refused => exact hen
    | ok L =>
      unfold buildLayout at hb
      obtain ⟨r, -, hr⟩ := bind_ok hb
      have := layoutLoop_e P ne _ _ _ hr (Nat.zero_le _)
      rw [← eEntries_eSum] at this
      omega
    | aborts =>
      unfold buildLayout at hb
      have := countLoop_abort P ne P.residuals 0 0
      cases hc : countLoop P ne P.residuals 0 0 with
      | ok r => rw [hc] at hb; exact layoutLoop_abort P ne _ _ _ hb
      | aborts => exact this hc
      | undefined => rw [hc] at hb; cases hb
      | refused => rw [hc] at hb; cases hb

/-! ## Undefined behaviour -/

theorem countArgs_blocks (P : Prog) (ne n : ℕ) (l : List (ℕ × ℕ)) (hb : ∀ p ∈ l, n * P.size p.1 ≤ intMax)
    (b f : ℕ) (hbl : b + l.length ≤ intMax) : ∃ f', countArgs P ne n l b f = .ok (b + l.length, f') := by
  induction l generalizing b f with
  | nil => exact ⟨f, rfl⟩
  | cons p l ih =>
    obtain ⟨i, j⟩ := p
    have hp : n * P.size i ≤ intMax := hb (i, j) (by simp)
    rw [List.length_cons] at hbl ⊢
    have hb1 : addUnsigned b 1 = b + 1 := addUnsigned_eq (by omega) (by unfold intMax; omega)
    unfold countArgs
    rw [hb1, show b + (l.length + 1) = b + 1 + l.length by omega, mulInt_ok hp]
    split_ifs
    · exact ih (fun p hp => hb p (by simp [hp])) _ _ (by omega)
    · exact ih (fun p hp => hb p (by simp [hp])) _ _ (by omega)

theorem countLoop_blocks (P : Prog) (ne : ℕ) (l : List RB)
    (hb : ∀ rb ∈ l, ∀ p ∈ activeArgs rb, rb.numResiduals * P.size p.1 ≤ intMax) (b f : ℕ)
    (hbl : b + cellSum l ≤ intMax) : ∃ f', countLoop P ne l b f = .ok (b + cellSum l, f') := by
  induction l generalizing b f with
  | nil => exact ⟨f, rfl⟩
  | cons rb l ih =>
    rw [cellSum_cons] at hbl ⊢
    obtain ⟨f', hf'⟩ := countArgs_blocks P ne _ _ (hb rb (by simp)) b f (by omega)
    unfold countLoop
    rw [hf']
    show ∃ f'', (if intMax < b + (activeArgs rb).length then _ else _) = _
    rw [if_neg (by omega), ← Nat.add_assoc]
    exact ih (fun r hr => hb r (by simp [hr])) _ _ (by omega)

theorem placeCells_all_e (P : Prog) (ne n : ℕ) (S : List ((ℕ × ℕ) × ℕ)) (hS : ∀ p ∈ S, p.1.1 < ne) (e f : ℕ) :
    placeCells P ne n S e f ≠ .refused := by
  induction S generalizing e f with
  | nil => simp [placeCells]
  | cons q S ih =>
    obtain ⟨⟨i, j⟩, k⟩ := q
    have hi : i < ne := hS ((i, j), k) (by simp)
    unfold placeCells mulInt addInt
    by_cases h1 : n * P.size i ≤ intMax
    · rw [if_pos h1]
      show (if i < ne then _ else _) ≠ _
      rw [if_pos hi]
      by_cases h2 : e + n * P.size i ≤ intMax
      · rw [if_pos h2]
        show ((placeCells P ne n S _ f).bind _) ≠ _
        have := ih (fun p hp => hS p (by simp [hp])) (e + n * P.size i) f
        cases hc : placeCells P ne n S (e + n * P.size i) f with
        | refused => exact absurd hc this
        | _ => simp [Out.bind]
      · rw [if_neg h2]; simp [Out.bind]
    · rw [if_neg h1]; simp [Out.bind]

theorem layoutLoop_all_e (P : Prog) (ne : ℕ) (l : List RB) (hl : ∀ rb ∈ l, ∀ p ∈ activeArgs rb, p.1 < ne)
    (e f : ℕ) : layoutLoop P ne l e f ≠ .refused := by
  induction l generalizing e f with
  | nil => simp [layoutLoop]
  | cons rb l ih =>
    unfold layoutLoop
    have := placeCells_all_e P ne rb.numResiduals (sortedActive rb)
      (fun p hp => hl rb (by simp) p.1 ((sortedActive_fst_perm rb).mem_iff.1 (List.mem_map.2 ⟨p, hp, rfl⟩))) e f
    cases hc : placeCells P ne rb.numResiduals (sortedActive rb) e f with
    | ok r =>
      simp only [Out.bind]
      have := ih (fun r hr => hl r (by simp [hr])) r.2.1 r.2.2
      cases hd : layoutLoop P ne l r.2.1 r.2.2 with
      | refused => exact absurd hd this
      | _ => simp
    | refused => exact absurd hc this
    | _ => simp [Out.bind]

/-- **A Jacobian of eliminated blocks only is never refused**: if it is too large, and it has at most `intMax`
dense blocks, an `int` overflows. -/
theorem block_all_e_undefined {P : Prog} (hP : Sane P) {ne : ℕ}
    (hall : ∀ rb ∈ P.residuals, ∀ p ∈ activeArgs rb, p.1 < ne)
    (hcells : (P.residuals.map fun rb => (activeArgs rb).length).sum ≤ intMax) (h : intMax < entries P) :
    buildLayout P ne = .undefined := by
  obtain ⟨f, hf⟩ := countLoop_blocks P ne P.residuals hP.block 0 0 (by rw [Nat.zero_add]; exact hcells)
  have hs := block_sound hP ne
  cases hb : buildLayout P ne with
  | undefined => rfl
  | aborts => rw [hb] at hs; exact hs.elim
  | ok L => rw [hb] at hs; exact absurd hs.1 (not_le.2 h)
  | refused =>
    unfold buildLayout at hb
    rw [hf] at hb
    exact absurd hb (layoutLoop_all_e P ne _ hall _ _)

end Ceres.Overflow
