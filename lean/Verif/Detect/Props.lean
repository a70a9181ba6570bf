import Verif.Detect.Model

/-!
# C52: detected block sizes are sound
-/

namespace Ceres.Detect

/-! ## Specification -/

/-- The row has an e block in front. -/
def Row.hasE (ne : ℕ) (r : Row) : Prop := ∃ e cs, r.cells = e :: cs ∧ e < ne

/-- Rows with e blocks come first and are not empty. -/
def EFirst (ne : ℕ) (rows : List Row) : Prop :=
  rows.Pairwise fun r s => s.hasE ne → r.hasE ne

/-- `s` describes the sizes that satisfy `P`: there is none and `s = 0`, or they all equal `s`,
or `s` is `Dynamic` and there are two different ones. -/
def Describes (P : ℤ → Prop) (s : ℤ) : Prop :=
  (s = 0 ∧ ∀ n, ¬ P n) ∨ (0 < s ∧ ∀ n, P n ↔ n = s) ∨ (s = dynamic ∧ ∃ a b, P a ∧ P b ∧ a ≠ b)

/-- The sizes of the row blocks with an e block. -/
def RowSize (bs : Structure) (ne : ℕ) (n : ℤ) : Prop := ∃ r ∈ bs.rows, r.hasE ne ∧ r.size = n

/-- The sizes of the e blocks. -/
def ESize (bs : Structure) (ne : ℕ) (n : ℤ) : Prop :=
  ∃ r ∈ bs.rows, r.hasE ne ∧ ∃ e, r.cells.head? = some e ∧ bs.cols e = n

/-- The sizes of the f blocks in rows with an e block. -/
def FSize (bs : Structure) (ne : ℕ) (n : ℤ) : Prop :=
  ∃ r ∈ bs.rows, r.hasE ne ∧ ∃ c ∈ r.cells.tail, bs.cols c = n

/-- All sizes are positive. -/
def Positive (bs : Structure) : Prop := (∀ b, 0 < bs.cols b) ∧ ∀ r ∈ bs.rows, 0 < r.size

/-! ## Proofs -/

theorem Describes.congr {P Q : ℤ → Prop} (h : ∀ n, P n ↔ Q n) {s : ℤ} (hs : Describes P s) :
    Describes Q s := by
  have : P = Q := funext fun n => propext (h n)
  rwa [← this]

theorem describes_update {P : ℤ → Prop} {s n : ℤ} (h : Describes P s) (hn : 0 < n) :
    Describes (fun k => P k ∨ k = n) (update s n) := by
  unfold update
  rcases h with ⟨rfl, h⟩ | ⟨hs, h⟩ | ⟨rfl, a, b, ha, hb, hab⟩
  · rw [if_pos rfl]
    exact .inr (.inl ⟨hn, fun k => by simp [h]⟩)
  · rw [if_neg hs.ne']
    by_cases hsn : s = n
    · rw [if_neg (by simp [hsn])]
      refine .inr (.inl ⟨hs, fun k => ?_⟩)
      simp only [h, hsn, or_self]
    · rw [if_pos ⟨by unfold dynamic; omega, hsn⟩]
      exact .inr (.inr ⟨rfl, s, n, .inl ((h s).2 rfl), .inr rfl, hsn⟩)
  · rw [if_neg (by decide), if_neg (by simp)]
    exact .inr (.inr ⟨rfl, a, b, .inl ha, .inl hb, hab⟩)

theorem fLoop_spec (cols : ℕ → ℤ) (hc : ∀ b, 0 < cols b) :
    ∀ (cs : List ℕ) {P : ℤ → Prop} {f : ℤ}, Describes P f → f ≠ 0 →
      Describes (fun k => P k ∨ ∃ c ∈ cs, cols c = k) (fLoop cols cs f) := by
  intro cs
  induction cs with
  | nil => intro P f h _; exact h.congr (by simp [fLoop])
  | cons c cs ih =>
    intro P f h h0
    rw [fLoop]
    by_cases hd : f = dynamic
    · rw [if_neg (by simp [hd])]
      rcases h with ⟨h, _⟩ | ⟨h, _⟩ | ⟨_, a, b, ha, hb, hab⟩
      · exact absurd h h0
      · rw [hd] at h; exact absurd h (by decide)
      · exact .inr (.inr ⟨hd, a, b, .inl ha, .inl hb, hab⟩)
    · rw [if_pos hd]
      have hu := describes_update h (hc c)
      unfold update at hu
      rw [if_neg h0] at hu
      have e : (if f ≠ cols c then dynamic else f) =
          if f ≠ dynamic ∧ f ≠ cols c then dynamic else f := by simp [hd]
      rw [e]
      have hne : (if f ≠ dynamic ∧ f ≠ cols c then dynamic else f) ≠ 0 := by
        split_ifs
        · decide
        · exact h0
      refine (ih hu hne).congr fun n => ?_
      simp only [List.mem_cons, exists_eq_or_imp, or_assoc]
      constructor <;> rintro (h | h | h)
      · exact .inl h
      · exact .inr (.inl h.symm)
      · exact .inr (.inr h)
      · exact .inl h
      · exact .inr (.inl h.symm)
      · exact .inr (.inr h)

theorem fUpdate_spec (cols : ℕ → ℤ) (hc : ∀ b, 0 < cols b) (cells : List ℕ) {P : ℤ → Prop} {f : ℤ}
    (h : Describes P f) :
    Describes (fun k => P k ∨ ∃ c ∈ cells.tail, cols c = k) (fUpdate cols cells f) := by
  unfold fUpdate
  match cells with
  | [] => exact h.congr (by simp)
  | [_] => exact h.congr (by simp)
  | _ :: c :: cs =>
    simp only
    by_cases h0 : f = 0
    · rw [if_pos h0]
      have h1 : Describes (fun k => P k ∨ k = cols c) (cols c) := by
        have := describes_update h (hc c)
        rwa [h0, update, if_pos rfl] at this
      refine (fLoop_spec cols hc (c :: cs) h1 (hc c).ne').congr fun n => ?_
      simp only [List.tail_cons, List.mem_cons, exists_eq_or_imp, or_assoc]
      constructor
      · rintro (h | h | h | h)
        exacts [.inl h, .inr (.inl h.symm), .inr (.inl h), .inr (.inr h)]
      · rintro (h | h | h)
        exacts [.inl h, .inr (.inr (.inl h)), .inr (.inr (.inr h))]
    · rw [if_neg h0]
      exact fLoop_spec cols hc (c :: cs) h h0

theorem Describes.mono_dynamic {P Q : ℤ → Prop} (h : Describes P dynamic) (hPQ : ∀ n, P n → Q n) :
    Describes Q dynamic := by
  rcases h with ⟨h, _⟩ | ⟨h, _⟩ | ⟨_, a, b, ha, hb, hab⟩
  · exact absurd h (by decide)
  · exact absurd h (by decide)
  · exact .inr (.inr ⟨rfl, a, b, hPQ _ ha, hPQ _ hb, hab⟩)

theorem loop_spec (cols : ℕ → ℤ) (hc : ∀ b, 0 < cols b) (ne : ℕ) :
    ∀ (rows : List Row) {PR PE PF : ℤ → Prop} {s : Sizes}, (∀ r ∈ rows, 0 < r.size) →
      EFirst ne rows → Describes PR s.row → Describes PE s.e → Describes PF s.f →
      Describes (fun n => PR n ∨ RowSize ⟨cols, rows⟩ ne n) (loop cols ne rows s).row ∧
      Describes (fun n => PE n ∨ ESize ⟨cols, rows⟩ ne n) (loop cols ne rows s).e ∧
      Describes (fun n => PF n ∨ FSize ⟨cols, rows⟩ ne n) (loop cols ne rows s).f := by
  intro rows
  induction rows with
  | nil =>
    intro PR PE PF s _ _ hR hE hF
    exact ⟨hR.congr (by simp [loop, RowSize]), hE.congr (by simp [loop, ESize]),
      hF.congr (by simp [loop, FSize])⟩
  | cons r rs ih =>
    intro PR PE PF s hp hfirst hR hE hF
    have hcons := List.pairwise_cons.1 hfirst
    have none_of : ¬ r.hasE ne → loop cols ne (r :: rs) s = s →
        Describes (fun n => PR n ∨ RowSize ⟨cols, r :: rs⟩ ne n) (loop cols ne (r :: rs) s).row ∧
        Describes (fun n => PE n ∨ ESize ⟨cols, r :: rs⟩ ne n) (loop cols ne (r :: rs) s).e ∧
        Describes (fun n => PF n ∨ FSize ⟨cols, r :: rs⟩ ne n) (loop cols ne (r :: rs) s).f := by
      intro hno hl
      have hall : ∀ q ∈ r :: rs, ¬ q.hasE ne := by
        intro q hq hqe
        rcases List.mem_cons.1 hq with rfl | hq
        · exact hno hqe
        · exact hno (hcons.1 q hq hqe)
      rw [hl]
      refine ⟨hR.congr fun n => ?_, hE.congr fun n => ?_, hF.congr fun n => ?_⟩
      · exact ⟨.inl, fun h => h.resolve_right fun ⟨q, hq, hqe, _⟩ => hall q hq hqe⟩
      · exact ⟨.inl, fun h => h.resolve_right fun ⟨q, hq, hqe, _⟩ => hall q hq hqe⟩
      · exact ⟨.inl, fun h => h.resolve_right fun ⟨q, hq, hqe, _⟩ => hall q hq hqe⟩
    match hcells : r.cells with
    | [] =>
      refine none_of (fun ⟨e, cs, h, _⟩ => by simp [hcells] at h) ?_
      rw [loop, hcells]
    | e :: cs =>
      by_cases hlt : ne ≤ e
      · refine none_of (fun ⟨e', cs', h, h'⟩ => ?_) ?_
        · rw [hcells] at h
          injection h with h1 _
          omega
        · rw [loop, hcells]
          simp [hlt]
      · have hhas : r.hasE ne := ⟨e, cs, hcells, by omega⟩
        have hR' := describes_update hR (hp r (by simp))
        have hE' := describes_update hE (hc e)
        have hF' := fUpdate_spec cols hc r.cells hF
        rw [loop, hcells]
        simp only [hlt, if_false]
        rw [← hcells]
        have eR : ∀ n, RowSize ⟨cols, r :: rs⟩ ne n ↔ n = r.size ∨ RowSize ⟨cols, rs⟩ ne n := by
          intro n
          constructor
          · rintro ⟨q, hq, hqe, hn⟩
            rcases List.mem_cons.1 hq with rfl | hq
            · exact .inl hn.symm
            · exact .inr ⟨q, hq, hqe, hn⟩
          · rintro (h | ⟨q, hq, hqe, hn⟩)
            · exact ⟨r, by simp, hhas, h.symm⟩
            · exact ⟨q, List.mem_cons_of_mem _ hq, hqe, hn⟩
        have eE : ∀ n, ESize ⟨cols, r :: rs⟩ ne n ↔ n = cols e ∨ ESize ⟨cols, rs⟩ ne n := by
          intro n
          constructor
          · rintro ⟨q, hq, hqe, hn⟩
            rcases List.mem_cons.1 hq with rfl | hq
            · obtain ⟨e', he', hn⟩ := hn
              rw [hcells] at he'
              injection he' with he'
              exact .inl (he' ▸ hn.symm)
            · exact .inr ⟨q, hq, hqe, hn⟩
          · rintro (h | ⟨q, hq, hqe, hn⟩)
            · exact ⟨r, by simp, hhas, e, by simp [hcells], h.symm⟩
            · exact ⟨q, List.mem_cons_of_mem _ hq, hqe, hn⟩
        have eF : ∀ n, FSize ⟨cols, r :: rs⟩ ne n ↔
            (∃ c ∈ r.cells.tail, cols c = n) ∨ FSize ⟨cols, rs⟩ ne n := by
          intro n
          constructor
          · rintro ⟨q, hq, hqe, hn⟩
            rcases List.mem_cons.1 hq with rfl | hq
            · exact .inl hn
            · exact .inr ⟨q, hq, hqe, hn⟩
          · rintro (h | ⟨q, hq, hqe, hn⟩)
            · exact ⟨r, by simp, hhas, h⟩
            · exact ⟨q, List.mem_cons_of_mem _ hq, hqe, hn⟩
        split_ifs with hdyn
        · obtain ⟨d1, d2, d3⟩ := hdyn
          rw [d1] at hR'
          rw [d2] at hE'
          rw [d3] at hF'
          simp only [d1, d2, d3]
          refine ⟨hR'.mono_dynamic fun n h => ?_, hE'.mono_dynamic fun n h => ?_,
            hF'.mono_dynamic fun n h => ?_⟩
          · rw [eR]; tauto
          · rw [eE]; tauto
          · rw [eF]; exact h.imp_right .inl
        · obtain ⟨i1, i2, i3⟩ := ih (s := ⟨update s.row r.size, update s.e (cols e),
            fUpdate cols r.cells s.f⟩) (fun q hq => hp q (List.mem_cons_of_mem _ hq)) hcons.2
            hR' hE' hF'
          refine ⟨i1.congr fun n => ?_, i2.congr fun n => ?_, i3.congr fun n => ?_⟩
          · rw [eR, or_assoc]
          · rw [eE, or_assoc]
          · rw [eF, or_assoc]

/-- **C52**: each detected size is the common size of the blocks concerned, `Dynamic` exactly if
there are two sizes, and zero (f blocks only) exactly if there is no such block. -/
theorem detectStructure_sound {bs : Structure} {ne : ℕ} (hp : Positive bs) (hf : EFirst ne bs.rows)
    {s : Sizes} (h : detectStructure bs ne = some s) :
    Describes (RowSize bs ne) s.row ∧ Describes (ESize bs ne) s.e ∧ Describes (FSize bs ne) s.f := by
  unfold detectStructure at h
  simp only at h
  split_ifs at h with h0
  injection h with h
  have z : Describes (fun _ => False) 0 := .inl ⟨rfl, fun _ h => h⟩
  have := loop_spec bs.cols hp.1 ne bs.rows (s := ⟨0, 0, 0⟩) hp.2 hf z z z
  rw [h] at this
  simpa using this

/-- It fails exactly if the first row has no e block. -/
theorem detectStructure_none {bs : Structure} {ne : ℕ} (hp : Positive bs) (hf : EFirst ne bs.rows) :
    detectStructure bs ne = none ↔ ∀ r ∈ bs.rows, ¬ r.hasE ne := by
  have z : Describes (fun _ => False) 0 := .inl ⟨rfl, fun _ h => h⟩
  obtain ⟨h1, h2, -⟩ := loop_spec bs.cols hp.1 ne bs.rows (s := ⟨0, 0, 0⟩) hp.2 hf z z z
  have key : ∀ {P : ℤ → Prop} {s : ℤ}, Describes P s → (s = 0 ↔ ∀ n, ¬ P n) := by
    rintro P s (⟨rfl, h⟩ | ⟨hs, h⟩ | ⟨rfl, a, b, ha, hb, hab⟩)
    · simp [h]
    · constructor
      · rintro rfl; omega
      · intro h'; exact absurd ((h s).2 rfl) (h' s)
    · constructor
      · intro h; exact absurd h (by decide)
      · intro h'; exact absurd ha (h' a)
  unfold detectStructure
  simp only
  rw [ite_eq_right_iff]
  simp only [reduceCtorEq, imp_false, not_and_or, not_not]
  rw [key h1, key h2]
  constructor
  · rintro (h | h) r hr hre
    · exact h r.size (.inr ⟨r, hr, hre, rfl⟩)
    · obtain ⟨e, cs, hc, he⟩ := id hre
      exact h (bs.cols e) (.inr ⟨r, hr, hre, e, by simp [hc], rfl⟩)
  · intro h
    left
    rintro n (h' | ⟨r, hr, hre, _⟩)
    · exact h'
    · exact h r hr hre

/-- A template with arguments `t` handles the structure: every static size is the size of all
blocks it is used for. -/
def Fits (bs : Structure) (ne : ℕ) (t : Sizes) : Prop :=
  (∀ n, RowSize bs ne n → t.row = dynamic ∨ n = t.row) ∧
  (∀ n, ESize bs ne n → t.e = dynamic ∨ n = t.e) ∧
  (∀ n, FSize bs ne n → t.f = dynamic ∨ n = t.f)

theorem create_spec (o : Sizes) :
    ((create o).row = dynamic ∨ (create o).row = o.row) ∧
    ((create o).e = dynamic ∨ (create o).e = o.e) ∧
    ((create o).f = dynamic ∨ (create o).f = o.f) := by
  unfold create
  cases h : specialisations.find? (matchesSpec o) with
  | none => simp
  | some t =>
    have := List.find?_some h
    simp only [matchesSpec, Bool.and_eq_true, Bool.or_eq_true, beq_iff_eq] at this
    obtain ⟨⟨h1, h2⟩, h3⟩ := this
    exact ⟨h1.imp_right Eq.symm, h2.imp_right Eq.symm, h3.imp_right Eq.symm⟩

theorem Describes.fits {P : ℤ → Prop} {s t : ℤ} (h : Describes P s) (ht : t = dynamic ∨ t = s) :
    ∀ n, P n → t = dynamic ∨ n = t := by
  intro n hn
  rcases ht with ht | rfl
  · exact .inl ht
  · rcases h with ⟨_, h⟩ | ⟨_, h⟩ | ⟨h, _⟩
    · exact absurd hn (h n)
    · exact .inr ((h n).1 hn)
    · exact .inl h

/-- The chosen eliminator can handle the structure; the one for one f block also needs that there is
just one. -/
def Eliminator.Fits (bs : Structure) (numCols ne : ℕ) : Eliminator → Prop
  | .general t => Detect.Fits bs ne t
  | .oneFBlock t => Detect.Fits bs ne t ∧ numCols = ne + 1 ∧ ∃ n, FSize bs ne n

/-- **C52**: whatever the structure, the specialisation that is chosen has the right static
sizes, and the eliminator for one f block is chosen only if there is just one f block. -/
theorem chooseEliminator_fits {bs : Structure} {numCols ne : ℕ} (hp : Positive bs)
    (hf : EFirst ne bs.rows) {el : Eliminator} (h : chooseEliminator bs numCols ne = some el) :
    el.Fits bs numCols ne := by
  unfold chooseEliminator at h
  cases hs : detectStructure bs ne with
  | none => simp [hs] at h
  | some s =>
    obtain ⟨h1, h2, h3⟩ := detectStructure_sound hp hf hs
    rw [hs] at h
    simp only [Option.map_some, Option.some.injEq] at h
    split_ifs at h with hc
    · obtain ⟨c1, c2, c3, c4⟩ := hc
      rw [← h]
      refine ⟨⟨h1.fits (.inr c1.symm), h2.fits (.inr c2.symm), h3.fits (.inr c3.symm)⟩,
        by omega, ?_⟩
      rw [c3] at h3
      rcases h3 with ⟨h, _⟩ | ⟨_, h⟩ | ⟨h, _⟩
      · exact absurd h (by decide)
      · exact ⟨6, (h 6).2 rfl⟩
      · exact absurd h (by decide)
    · obtain ⟨c1, c2, c3⟩ := create_spec s
      rw [← h]
      exact ⟨h1.fits c1, h2.fits c2, h3.fits c3⟩

/-- A specialisation is used whenever there is one for exactly the sizes. -/
theorem create_exact {o : Sizes} (h : o ∈ specialisations) : create o = o := by
  revert o
  decide

/-- A bundle adjustment structure with one camera and two points. -/
def exampleStructure : Structure where
  cols b := if b < 2 then 3 else 6
  rows := [⟨2, [0, 2]⟩, ⟨2, [1, 2]⟩, ⟨5, [2]⟩]

theorem exampleStructure_ok : Positive exampleStructure ∧ EFirst 2 exampleStructure.rows := by
  constructor
  · constructor
    · intro b; simp only [exampleStructure]; split_ifs <;> decide
    · intro r hr; simp [exampleStructure] at hr; rcases hr with rfl | rfl | rfl <;> decide
  · simp [EFirst, exampleStructure, Row.hasE]

example : detectStructure exampleStructure 2 = some ⟨2, 3, 6⟩ := by decide

example : ∃ t, chooseEliminator exampleStructure 3 2 = some (.oneFBlock t) := ⟨_, rfl⟩

/-- Mixed f blocks are dynamic. -/
example : detectStructure ⟨fun b => b + 1, [⟨2, [0, 2]⟩, ⟨2, [1, 3]⟩]⟩ 2 = some ⟨2, -1, -1⟩ := by
  decide

end Ceres.Detect
