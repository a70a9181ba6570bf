import Verif.Options.Spec
import Mathlib.Tactic.Linarith
import Mathlib.Tactic.NormNum

/-! # Option validation: C55 -/

namespace Ceres.Options

/-! ### Doubles -/

theorem Dbl.le_iff (x y : Dbl) : x.le y = true ↔ x.Le y := by
  cases x <;> cases y <;> simp [Dbl.le, Dbl.Le, Dbl.val]

theorem Dbl.lt_iff (x y : Dbl) : x.lt y = true ↔ x.Lt y := by
  cases x <;> cases y <;> simp [Dbl.lt, Dbl.Lt, Dbl.val]
  exact WithBot.coe_lt_coe.2 (WithTop.coe_lt_top _)

theorem Dbl.fin_le (a b : ℚ) : (Dbl.fin a).Le (.fin b) ↔ a ≤ b := by simp [← Dbl.le_iff, Dbl.le]

theorem Dbl.fin_lt (a b : ℚ) : (Dbl.fin a).Lt (.fin b) ↔ a < b := by simp [← Dbl.lt_iff, Dbl.lt]

theorem Dbl.Le.trans {x y z : Dbl} (h : x.Le y) (h' : y.Le z) : x.Le z := by
  obtain ⟨a, ha, b, hb, h⟩ := h
  obtain ⟨b', hb', c, hc, h'⟩ := h'
  rw [Option.mem_def] at hb hb'
  rw [hb] at hb'
  cases hb'
  exact ⟨a, ha, c, hc, h.trans h'⟩

theorem Dbl.Lt.trans_le {x y z : Dbl} (h : x.Lt y) (h' : y.Le z) : x.Lt z := by
  obtain ⟨a, ha, b, hb, h⟩ := h
  obtain ⟨b', hb', c, hc, h'⟩ := h'
  rw [Option.mem_def] at hb hb'
  rw [hb] at hb'
  cases hb'
  exact ⟨a, ha, c, hc, h.trans_le h'⟩

theorem Dbl.Lt.le {x y : Dbl} (h : x.Lt y) : x.Le y := by
  obtain ⟨a, ha, b, hb, h⟩ := h
  exact ⟨a, ha, b, hb, h.le⟩

theorem Op.holds_iff (op : Op) (x y : Dbl) : op.holds x y = true ↔ op.Holds x y := by
  cases op <;> simp [Op.holds, Op.Holds, Dbl.le_iff, Dbl.lt_iff]

/-! ### Sequences of checks -/

theorem bind_ok {c : Except Err Unit} {f : Unit → Except Err Unit} :
    (c >>= f) = .ok () ↔ c = .ok () ∧ f () = .ok () := by
  cases c with
  | error e => simp [bind, Except.bind]
  | ok u => simp [bind, Except.bind]

theorem check_ok {o : Opts} {x : Field} {op : Op} {y : Rhs} :
    check o x op y = .ok () ↔ op.Holds (x.value o) (y.value o) := by
  rw [← Op.holds_iff]
  unfold check
  split <;> simp_all

theorem refuse_ok {c : Bool} {e : Err} : refuse c e = .ok () ↔ c = false := by
  cases c <;> simp [refuse]

theorem onlyIf_ok {c : Bool} {d : Except Err Unit} :
    onlyIf c d = .ok () ↔ (c = true → d = .ok ()) := by
  cases c <;> simp [onlyIf]

theorem bind_error {c : Except Err Unit} {f : Unit → Except Err Unit} {e : Err} :
    (c >>= f) = .error e ↔ c = .error e ∨ (c = .ok () ∧ f () = .error e) := by
  cases c with
  | error e => simp [bind, Except.bind]
  | ok u => simp [bind, Except.bind]

theorem check_error {o : Opts} {x : Field} {op : Op} {y : Rhs} {e : Err} :
    check o x op y = .error e ↔ e = .range x op y ∧ ¬op.Holds (x.value o) (y.value o) := by
  rw [← Op.holds_iff]
  unfold check
  by_cases h : op.holds (x.value o) (y.value o) = true
  · rw [if_pos h]
    exact ⟨fun h => by simp at h, fun h' => absurd h h'.2⟩
  · rw [if_neg h]
    exact ⟨fun h' => ⟨(Except.error.inj h').symm, h⟩, fun h' => by rw [h'.1]⟩

theorem refuse_error {c : Bool} {e e' : Err} : refuse c e = .error e' ↔ c = true ∧ e = e' := by
  cases c <;> simp [refuse]

theorem onlyIf_error {c : Bool} {d : Except Err Unit} {e : Err} :
    onlyIf c d = .error e ↔ c = true ∧ d = .error e := by
  cases c <;> simp [onlyIf]

/-! ### The functions -/

theorem commonValid_ok (o : Opts) : commonValid o = .ok () ↔ CommonValid o := by
  simp only [commonValid, bind_ok, check_ok, onlyIf_ok, Op.Holds, Field.value, Rhs.value,
    Dbl.fin_le, Dbl.fin_lt]
  constructor
  · rintro ⟨h1, h2, h3, h4, h5, h6, h7⟩
    exact ⟨by exact_mod_cast h1, h2, h3, h4, h5, by exact_mod_cast h6, h7⟩
  · rintro ⟨h1, h2, h3, h4, h5, h6, h7⟩
    exact ⟨by exact_mod_cast h1, h2, h3, h4, h5, by exact_mod_cast h6, h7⟩

/-- Everything that factorizes sparse matrices needs this. -/
theorem sparseCholeskyValid_ok (b : Build) (o : Opts) :
    sparseCholeskyValid b o = .ok () ↔
      CanFactor b o.sparseLib ∧ (o.ordering = .NESDIS → CanNesdis b o.sparseLib) ∧
        (o.mixedPrecision = true → o.sparseLib = .SUITE_SPARSE → b.cholmodFloat = true) ∧
        (o.dynamicSparsity = true → o.sparseLib ≠ .ACCELERATE_SPARSE) := by
  have h : sparseLibraryValid b o = .ok () ↔ sparseAvailable b o.sparseLib = true ∧
      (o.sparseLib = .CUDA_SPARSE → b.cudss = true) := by
    unfold sparseLibraryValid
    by_cases h : sparseAvailable b o.sparseLib = true
    · rw [if_pos h, refuse_ok]
      simp [h]
    · rw [if_neg h]
      simp [h]
  simp only [sparseCholeskyValid, bind_ok, refuse_ok, h]
  cases hl : o.sparseLib <;> cases ho : o.ordering <;> cases hm : o.mixedPrecision <;>
    cases hd : o.dynamicSparsity <;>
    simp [CanFactor, CanNesdis, sparseAvailable, nesdisAvailable]

theorem denseSolverValid_ok (b : Build) (o : Opts) :
    denseSolverValid b o = .ok () ↔ HasDense b o.denseLib := by
  simp only [denseSolverValid, refuse_ok]
  cases o.denseLib <;> simp [HasDense, denseAvailable]

theorem linearSolverValid_ok (b : Build) (o : Opts) :
    linearSolverValid b o = .ok () ∧ (o.strategy = .DOGLEG → isIterative o.linearSolver = false) ↔
      LinearSolverValid b o := by
  constructor
  · rintro ⟨h, hd⟩
    unfold linearSolverValid at h
    cases hl : o.linearSolver <;> rw [hl] at h hd <;>
      simp only [denseQrValid, denseSchurValid, sparseSchurValid, iterativeSchurValid, cgnrValid,
        bind_ok, refuse_ok, onlyIf_ok, check_ok, Op.Holds, Field.value, Rhs.value,
        sparseCholeskyValid_ok, denseSolverValid_ok, Dbl.fin_le] at h <;>
      simp [isIterative] at hd <;>
      constructor <;> simp [hl, UsesDense, UsesSparseCholesky] <;>
      (try norm_cast at h) <;> simp_all [sparseAvailable]
    have := h.1
    tauto
  · intro h
    have h' := h
    obtain ⟨h1, h2, h3, h4, h5, h6, h7, h8, h9, h10, h11, h12, h13⟩ := h
    unfold linearSolverValid
    cases hl : o.linearSolver <;>
      simp only [denseQrValid, denseSchurValid, sparseSchurValid, iterativeSchurValid, cgnrValid,
        bind_ok, refuse_ok, onlyIf_ok, check_ok, Op.Holds, Field.value, Rhs.value,
        sparseCholeskyValid_ok, denseSolverValid_ok, Dbl.fin_le] <;>
      simp_all [UsesDense, UsesSparseCholesky, isIterative, sparseAvailable]
    · intro h
      exact_mod_cast (h8 h).1
    · tauto

theorem trustRegionValid_ok (b : Build) (o : Opts) :
    trustRegionValid b o = .ok () ↔ TrustRegionValid b o := by
  simp only [trustRegionValid, bind_ok, check_ok, onlyIf_ok, refuse_ok, Op.Holds, Field.value,
    Rhs.value, Dbl.fin_le, Dbl.fin_lt]
  constructor
  · rintro ⟨h1, h2, h3, h4, h5, h6, h7, h8, h9, h10, h11, h12, h13, h14, h15, h16, h17, h18, h19,
      h20⟩
    refine ⟨h2, h5, h6, h7, h8, h10, by exact_mod_cast h11, h12, by exact_mod_cast h13,
      by exact_mod_cast h15, h16, fun h => by exact_mod_cast h17 h, ?_, ?_⟩
    · refine (linearSolverValid_ok b o).1 ⟨h19, fun h => ?_⟩
      simpa [h] using h18
    · intro ha hb hc
      simp [ha, hb, hc] at h20
  · rintro ⟨h2, h5, h6, h7, h8, h10, h11, h12, h13, h15, h16, h17, h18, h20⟩
    obtain ⟨h19, hd⟩ := (linearSolverValid_ok b o).2 h18
    refine ⟨h2.trans_le h5, h2, (h2.trans_le h5).trans_le h6, h5.trans h6, h5, h6, h7, h8,
      h8.trans h10, h10, by exact_mod_cast h11, h12, by exact_mod_cast h13,
      by exact_mod_cast h13.trans h15, by exact_mod_cast h15, h16,
      fun h => by exact_mod_cast h17 h, ?_, h19, ?_⟩
    · cases hs : o.strategy <;> simp_all
    · by_cases ha : o.iterationsToDump = [] <;> by_cases hb : o.dumpFormat = .CONSOLE <;>
        simp_all

theorem lineSearchValid_ok (o : Opts) : lineSearchValid o = .ok () ↔ LineSearchValid o := by
  simp only [lineSearchValid, bind_ok, check_ok, refuse_ok, Op.Holds, Field.value, Rhs.value,
    Dbl.fin_le, Dbl.fin_lt]
  constructor
  · rintro ⟨h1, h2, h3, h4, h5, h6, h7, h8, h9, h10, h11, h12⟩
    refine ⟨by exact_mod_cast h1, h2, h3, h5, h6, ?_, fun h => ?_, h8, h9, h10, h11, fun h => ?_⟩
    · split at h7
      · exact_mod_cast h7
      · have : (1 : ℤ) ≤ o.maxStepSizeIterations := by exact_mod_cast h7
        omega
    · rw [if_neg (by rw [h]; decide)] at h7
      exact_mod_cast h7
    · rcases h with h | h <;> simpa [h] using h12
  · rintro ⟨h1, h2, h3, h5, h6, h7, h7', h8, h9, h10, h11, h12⟩
    refine ⟨by exact_mod_cast h1, h2, h3, h5.trans_le h6, h5, h6, ?_, h8, h9, h10, h11, ?_⟩
    · split
      · exact_mod_cast h7
      · rename_i h
        have : o.minimizerType = .LINE_SEARCH := by
          cases hm : o.minimizerType with
          | LINE_SEARCH => rfl
          | TRUST_REGION => exact absurd hm h
        exact_mod_cast h7' this
    · cases hd : o.direction <;> simp_all

/-- **C55.** The options are accepted exactly if they satisfy the documented conditions. -/
theorem isValid_iff (b : Build) (o : Opts) : isValid b o = .ok () ↔ Valid b o := by
  simp only [isValid, bind_ok, onlyIf_ok, commonValid_ok, trustRegionValid_ok, lineSearchValid_ok,
    beq_iff_eq]
  exact ⟨fun ⟨h1, h2, h3⟩ => ⟨h1, h2, h3⟩, fun ⟨h1, h2, h3⟩ => ⟨h1, h2, h3⟩⟩

/-! ### The reported reason -/

theorem sparseCholeskyValid_error {b : Build} {o : Opts} {e : Err} (hu : UsesSparseCholesky o)
    (h : sparseCholeskyValid b o = .error e) : e.Says b o := by
  have hl : ∀ e, sparseLibraryValid b o = .error e → o.sparseLib ≠ .NO_SPARSE →
      e.Says b o := by
    intro e he hn
    unfold sparseLibraryValid at he
    by_cases hs : sparseAvailable b o.sparseLib = true
    · rw [if_pos hs, refuse_error] at he
      obtain ⟨h1, rfl⟩ := he
      simp only [Bool.and_eq_true, beq_iff_eq, Bool.not_eq_true'] at h1
      refine ⟨hu, ?_⟩
      rw [h1.1]
      rintro ⟨-, h2⟩
      rw [h1.2] at h2
      cases h2
    · rw [if_neg hs] at he
      cases he
      refine ⟨hu, ?_⟩
      cases hb : o.sparseLib <;> rw [hb] at hs <;> simp_all [sparseAvailable, CanFactor]
  simp only [sparseCholeskyValid, bind_error, bind_ok, refuse_error, refuse_ok] at h
  rcases h with ⟨h1, rfl⟩ | ⟨h1, h | ⟨-, ⟨h2, rfl⟩ | ⟨-, ⟨h2, rfl⟩ | ⟨-, h2, rfl⟩⟩⟩⟩
  · exact ⟨hu, by simpa using h1⟩
  · exact hl e h (by simpa using h1)
  · simp only [Bool.and_eq_true, beq_iff_eq, Bool.not_eq_true'] at h2
    refine ⟨hu, h2.1, ?_⟩
    cases hb : o.sparseLib <;> rw [hb] at h2 <;> simp_all [nesdisAvailable, CanNesdis]
  · simp only [Bool.and_eq_true, beq_iff_eq, Bool.not_eq_true'] at h2
    exact ⟨hu, h2.1.2, h2.2, h2.1.1⟩
  · simpa [Err.Says] using h2

theorem denseSolverValid_error {b : Build} {o : Opts} {e : Err} (hu : UsesDense o)
    (h : denseSolverValid b o = .error e) : e.Says b o := by
  simp only [denseSolverValid, refuse_error] at h
  obtain ⟨h, rfl⟩ := h
  refine ⟨hu, ?_⟩
  cases hb : o.denseLib <;> rw [hb] at h <;> simp_all [denseAvailable, HasDense]

theorem linearSolverValid_error {b : Build} {o : Opts} {e : Err}
    (h : linearSolverValid b o = .error e) : e.Says b o := by
  unfold linearSolverValid at h
  cases hl : o.linearSolver <;> rw [hl] at h <;>
    simp only [denseQrValid, denseSchurValid, sparseSchurValid, iterativeSchurValid, cgnrValid,
      bind_error, bind_ok, refuse_error, refuse_ok, onlyIf_error, onlyIf_ok, check_error,
      check_ok] at h
  · exact denseSolverValid_error (.inl hl) h
  · rcases h with h | ⟨-, h, rfl⟩
    · exact denseSolverValid_error (.inr (.inl hl)) h
    · exact ⟨h, .inl hl⟩
  · exact sparseCholeskyValid_error (.inl hl) h
  · rcases h with ⟨h, rfl⟩ | ⟨-, h⟩
    · exact ⟨h, by rw [hl]; decide⟩
    · exact denseSolverValid_error (.inr (.inr hl)) h
  · rcases h with ⟨h, rfl⟩ | ⟨-, h⟩
    · exact ⟨h, by rw [hl]; decide⟩
    · exact sparseCholeskyValid_error (.inr (.inl hl)) h
  · rcases h with ⟨h, rfl⟩ | ⟨-, ⟨h0, ⟨h, rfl⟩ | ⟨-, h, rfl⟩⟩ | ⟨-, ⟨-, ⟨rfl, h⟩ | ⟨-, rfl, h⟩⟩ |
      ⟨-, ⟨h, rfl⟩ | ⟨-, ⟨h, rfl⟩ | ⟨-, ⟨h, rfl⟩ | ⟨-, h, h'⟩⟩⟩⟩⟩⟩
    · exact ⟨h, by rw [hl]; decide⟩
    · exact ⟨h0, by simpa using h⟩
    · exact ⟨h0, h⟩
    · exact h
    · exact h
    · exact ⟨h, .inr (.inl hl)⟩
    · exact ⟨h, by rw [hl]; decide⟩
    · exact ⟨hl, by simpa using h⟩
    · exact sparseCholeskyValid_error (.inr (.inr (.inl ⟨hl, by simpa using h⟩))) h'
  · rcases h with ⟨h, rfl⟩ | ⟨-, ⟨h, rfl⟩ | ⟨-, ⟨h, rfl⟩ | ⟨-, ⟨h0, ⟨h, rfl⟩ | ⟨-, ⟨h, rfl⟩ |
      ⟨-, h⟩⟩⟩ | ⟨-, h0, h, rfl⟩⟩⟩⟩
    · exact ⟨hl, by simpa [not_or, and_assoc] using h⟩
    · exact ⟨h, .inr (.inr hl)⟩
    · exact ⟨h, by rw [hl]; decide⟩
    · exact ⟨by simpa using h0, by simpa using h⟩
    · exact ⟨by simpa using h0, by simpa using h⟩
    · exact sparseCholeskyValid_error (.inr (.inr (.inr ⟨hl, by simpa using h0⟩))) h
    · exact ⟨hl, by simpa using h0, by simpa [sparseAvailable] using h⟩

/-- **C55.** The reason given for a refusal is true of the options: the quoted constraint is
violated, the quoted combination is the one in the options. -/
theorem isValid_error {b : Build} {o : Opts} {e : Err} (h : isValid b o = .error e) :
    e.Says b o := by
  simp only [isValid, commonValid, trustRegionValid, lineSearchValid, bind_error, bind_ok,
    onlyIf_error, onlyIf_ok, check_error, check_ok, refuse_error, refuse_ok] at h
  rcases h with h | ⟨-, h | ⟨-, h⟩⟩
  · rcases h with ⟨rfl, h⟩ | ⟨-, ⟨rfl, h⟩ | ⟨-, ⟨rfl, h⟩ | ⟨-, ⟨rfl, h⟩ | ⟨-, ⟨rfl, h⟩ |
      ⟨-, ⟨rfl, h⟩ | ⟨-, -, ⟨rfl, h⟩ | ⟨-, rfl, h⟩⟩⟩⟩⟩⟩⟩ <;> exact h
  · obtain ⟨-, h⟩ := h
    iterate 15
      rcases h with ⟨rfl, h⟩ | ⟨-, h⟩
      · exact h
    rcases h with ⟨-, rfl, h⟩ | ⟨-, h⟩
    · exact h
    rcases h with ⟨-, rfl, h⟩ | ⟨-, h⟩
    · exact h
    rcases h with ⟨h, rfl⟩ | ⟨-, h | ⟨-, h, rfl⟩⟩
    · simp only [Bool.and_eq_true, beq_iff_eq, isIterative, Bool.or_eq_true] at h
      exact h
    · exact linearSolverValid_error h
    · simp only [Bool.and_eq_true, Bool.not_eq_true', List.isEmpty_eq_false_iff,
        String.isEmpty_iff] at h
      exact ⟨h.1.1, h.2⟩
  · iterate 11
      rcases h with ⟨rfl, h⟩ | ⟨-, h⟩
      · exact h
    obtain ⟨h, rfl⟩ := h
    simpa [Err.Says] using h

/-- Options that are not valid are refused with a reason. -/
theorem isValid_refuses {b : Build} {o : Opts} (h : ¬Valid b o) :
    ∃ e, isValid b o = .error e := by
  rcases hi : isValid b o with e | u
  · exact ⟨e, rfl⟩
  · exact absurd ((isValid_iff b o).1 hi) h

end Ceres.Options
