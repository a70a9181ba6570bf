import Verif.Names.Spec

/-! # Options by name: theorems -/
namespace Ceres.Names

theorem upper_iff (c d : Char) (hd : ¬ ('a'.toNat ≤ d.toNat ∧ d.toNat ≤ 'z'.toNat)) :
    c.toUpper = d ↔ (c = d ∨ ('A'.toNat ≤ d.toNat ∧ d.toNat ≤ 'Z'.toNat ∧ c.toNat = d.toNat + 32)) := by
  have hle : ∀ a b : Char, a.val ≤ b.val ↔ a.toNat ≤ b.toNat := fun a b => Iff.rfl
  have hinj : ∀ a b : Char, a = b ↔ a.toNat = b.toNat :=
    fun a b => ⟨fun h => by rw [h], fun h => Char.ext (UInt32.toNat_inj.1 h)⟩
  have hA : 'A'.toNat = 65 := rfl
  have hZ : 'Z'.toNat = 90 := rfl
  have ha : 'a'.toNat = 97 := rfl
  have hz : 'z'.toNat = 122 := rfl
  by_cases h : 'a'.val ≤ c.val ∧ c.val ≤ 'z'.val
  · have hc : c.toUpper.toNat = c.toNat - 32 := by
      unfold Char.toUpper
      rw [dif_pos h]
      rw [hle, hle] at h
      show (c.val + ('A'.val - 'a'.val)).toNat = _
      rw [UInt32.toNat_add]
      have : ('A'.val - 'a'.val).toNat = 2 ^ 32 - 32 := rfl
      rw [this]
      show (c.toNat + _) % _ = _
      omega
    rw [hle, hle] at h
    rw [hinj, hinj, hc]
    omega
  · have hc : c.toUpper = c := by unfold Char.toUpper; rw [dif_neg h]
    rw [hle, hle] at h
    rw [hinj, hinj, hc]
    omega

/-- No small letters. -/
def Capital (s : String) : Bool := s.toList.all fun d => !(decide ('a'.toNat ≤ d.toNat) && decide (d.toNat ≤ 'z'.toNat))

theorem upperCase_iff {s n : String} (hn : Capital n = true) : upperCase s = n ↔ SameUpToCase s n := by
  unfold upperCase SameUpToCase
  rw [← String.toList_inj, String.toList_ofList]
  have h : ∀ d ∈ n.toList, ¬ ('a'.toNat ≤ d.toNat ∧ d.toNat ≤ 'z'.toNat) := by
    intro d hd
    have := List.all_eq_true.1 hn d hd
    simp only [Bool.not_eq_true', Bool.and_eq_false_iff, decide_eq_false_iff_not] at this
    exact fun h => this.elim (fun f => f h.1) (fun f => f h.2)
  generalize n.toList = l at h
  generalize s.toList = k
  induction l generalizing k with
  | nil => cases k <;> simp
  | cons d l ih =>
    cases k with
    | nil => simp
    | cons c k =>
      rw [List.map_cons, List.cons.injEq, List.forall₂_cons]
      exact and_congr (upper_iff c d (h d (by simp))) (ih (fun x hx => h x (List.mem_cons_of_mem _ hx)) k)

/-- Different enumerators have different names and values, and none is called `UNKNOWN`. -/
def WellFormed (e : Enum) : Prop :=
  (e.map (·.1)).Nodup ∧ (e.map (·.2)).Nodup ∧ "UNKNOWN" ∉ e.map (·.1) ∧ ∀ n ∈ e.map (·.1), Capital n = true

instance (e : Enum) : Decidable (WellFormed e) := by unfold WellFormed; infer_instance

theorem value_iff {e : Enum} (he : (e.map (·.1)).Nodup) (n : String) (v : ℤ) :
    e.value n = some v ↔ (n, v) ∈ e := by
  unfold Enum.value
  induction e with
  | nil => simp
  | cons p e ih =>
    rw [List.map_cons, List.nodup_cons] at he
    by_cases h : p.1 = n
    · subst h
      rw [List.find?_cons_of_pos (by simp)]
      simp only [Option.map_some, Option.some.injEq, List.mem_cons]
      constructor
      · intro h; exact Or.inl (by rw [← h])
      · rintro (h | h)
        · rw [← h]
        · exact absurd (List.mem_map.2 ⟨_, h, rfl⟩) he.1
    · rw [List.find?_cons_of_neg (by simpa using h), ih he.2, List.mem_cons]
      constructor
      · exact Or.inr
      · rintro (h' | h')
        · exact absurd (by rw [← h']) h
        · exact h'

theorem switch_pos {e : Enum} (he : WellFormed e) {cases : List String} {n : String} {v : ℤ} (h : (n, v) ∈ e)
    (hn : n ∈ cases) : switch e cases v = n := by
  induction cases with
  | nil => simp at hn
  | cons x xs ih =>
    unfold switch
    by_cases hx : e.value x = some v
    · rw [if_pos hx]
      rw [value_iff he.1] at hx
      exact congrArg Prod.fst (List.inj_on_of_nodup_map he.2.1 hx h rfl)
    · rw [if_neg hx]
      refine ih ((List.mem_cons.1 hn).resolve_left ?_)
      rintro rfl
      exact hx ((value_iff he.1 _ _).2 h)

theorem switch_neg {e : Enum} (he : WellFormed e) {cases : List String} {v : ℤ} (h : ∀ n, (n, v) ∉ e) :
    switch e cases v = "UNKNOWN" := by
  induction cases with
  | nil => rfl
  | cons x xs ih =>
    unfold switch
    rw [if_neg (fun hx => h x ((value_iff he.1 _ _).1 hx)), ih]

theorem select_pos {e : Enum} (he : WellFormed e) {cases : List String} {n : String} {v old : ℤ}
    (h : (n, v) ∈ e) (hn : n ∈ cases) : select e cases n old = (true, v) := by
  induction cases with
  | nil => simp at hn
  | cons x xs ih =>
    unfold select
    by_cases hx : n = x
    · rw [if_pos hx, ← hx, (value_iff he.1 _ _).2 h]; rfl
    · rw [if_neg hx]; exact ih ((List.mem_cons.1 hn).resolve_left hx)

theorem select_neg {e : Enum} {cases : List String} {s : String} {old : ℤ} (h : s ∉ cases) :
    select e cases s old = (false, old) := by
  induction cases with
  | nil => rfl
  | cons x xs ih =>
    rw [List.mem_cons, not_or] at h
    unfold select
    rw [if_neg h.1, ih h.2]

theorem printed_of {e : Enum} (he : WellFormed e) {cases : List String} (h : ∀ n ∈ e.map (·.1), n ∈ cases) :
    Printed e (switch e cases) := by
  have hname : ∀ n v, (n, v) ∈ e → switch e cases v = n := fun n v hv =>
    switch_pos he hv (h n (List.mem_map.2 ⟨_, hv, rfl⟩))
  refine ⟨hname, fun v hv => switch_neg he hv, fun v w hvw hu => ?_⟩
  by_cases hv : ∃ n, (n, v) ∈ e
  · by_cases hw : ∃ n, (n, w) ∈ e
    · obtain ⟨n, hn⟩ := hv
      obtain ⟨m, hm⟩ := hw
      rw [hname n v hn, hname m w hm] at hvw
      subst hvw
      exact congrArg Prod.snd (List.inj_on_of_nodup_map he.1 hn hm rfl)
    · exact absurd (hvw.trans (switch_neg he (not_exists.1 hw))) hu
  · exact absurd (switch_neg he (not_exists.1 hv)) hu

theorem readBack_of {e : Enum} (he : WellFormed e) {cases : List String}
    (h₁ : ∀ n ∈ e.map (·.1), n ∈ cases) (h₂ : ∀ n ∈ cases, n ∈ e.map (·.1)) : ReadBack e (parse e cases) := by
  refine ⟨fun s n v old hv hs => ?_, fun s old hs => select_neg fun hc => ?_⟩
  · have hn : n ∈ e.map (·.1) := List.mem_map.2 ⟨_, hv, rfl⟩
    unfold parse
    rw [(upperCase_iff (he.2.2.2 n hn)).2 hs]
    exact select_pos he hv (h₁ n hn)
  · have hm := h₂ _ hc
    obtain ⟨⟨n, v⟩, hv, hn⟩ := List.mem_map.1 hm
    have hn : n = upperCase s := hn
    exact hs n v hv ((upperCase_iff (by rw [hn]; exact he.2.2.2 _ hm)).1 hn.symm)

theorem sameUpToCase_refl (s : String) : SameUpToCase s s :=
  List.forall₂_same.2 fun _ _ => Or.inl rfl

theorem not_unknown {e : Enum} (he : WellFormed e) {n : String} {v : ℤ} (hv : (n, v) ∈ e) :
    ¬ SameUpToCase "UNKNOWN" n := by
  intro h
  have hn : n ∈ e.map (·.1) := List.mem_map.2 ⟨_, hv, rfl⟩
  have := (upperCase_iff (he.2.2.2 n hn)).2 h
  rw [show upperCase "UNKNOWN" = "UNKNOWN" by decide +kernel] at this
  exact he.2.2.1 (this ▸ hn)

theorem roundTrip_of {e : Enum} (he : WellFormed e) {show_ : ℤ → String} {read : String → ℤ → Bool × ℤ}
    (hp : Printed e show_) (hr : ReadBack e read) : RoundTrip e show_ read := by
  refine ⟨fun n v old hv => ?_, fun s old v h => ?_, fun v old hv => ?_⟩
  · rw [hp.name n v hv]; exact hr.accepts n n v old hv (sameUpToCase_refl n)
  · by_cases hs : ∃ n w, (n, w) ∈ e ∧ SameUpToCase s n
    · obtain ⟨n, w, hw, hn⟩ := hs
      rw [hr.accepts s n w old hw hn] at h
      have : w = v := congrArg Prod.snd h
      subst this
      exact ⟨n, hw, hp.name n w hw, hn⟩
    · rw [hr.refuses s old (fun n w hw hn => hs ⟨n, w, hw, hn⟩)] at h
      simp at h
  · rw [hp.unknown v hv]; exact hr.refuses _ _ fun n w hw => not_unknown he hw

theorem LinearSolverType_names : Printed LinearSolverType LinearSolverTypeToString ∧ ReadBack LinearSolverType StringToLinearSolverType ∧
    RoundTrip LinearSolverType LinearSolverTypeToString StringToLinearSolverType := by
  have he : WellFormed LinearSolverType := by decide +kernel
  have hp : Printed LinearSolverType LinearSolverTypeToString := printed_of he (by decide +kernel)
  have hr : ReadBack LinearSolverType StringToLinearSolverType := readBack_of he (by decide +kernel) (by decide +kernel)
  exact ⟨hp, hr, roundTrip_of he hp hr⟩

theorem PreconditionerType_names : Printed PreconditionerType PreconditionerTypeToString ∧ ReadBack PreconditionerType StringToPreconditionerType ∧
    RoundTrip PreconditionerType PreconditionerTypeToString StringToPreconditionerType := by
  have he : WellFormed PreconditionerType := by decide +kernel
  have hp : Printed PreconditionerType PreconditionerTypeToString := printed_of he (by decide +kernel)
  have hr : ReadBack PreconditionerType StringToPreconditionerType := readBack_of he (by decide +kernel) (by decide +kernel)
  exact ⟨hp, hr, roundTrip_of he hp hr⟩

theorem SparseLinearAlgebraLibraryType_names : Printed SparseLinearAlgebraLibraryType SparseLinearAlgebraLibraryTypeToString ∧ ReadBack SparseLinearAlgebraLibraryType StringToSparseLinearAlgebraLibraryType ∧
    RoundTrip SparseLinearAlgebraLibraryType SparseLinearAlgebraLibraryTypeToString StringToSparseLinearAlgebraLibraryType := by
  have he : WellFormed SparseLinearAlgebraLibraryType := by decide +kernel
  have hp : Printed SparseLinearAlgebraLibraryType SparseLinearAlgebraLibraryTypeToString := printed_of he (by decide +kernel)
  have hr : ReadBack SparseLinearAlgebraLibraryType StringToSparseLinearAlgebraLibraryType := readBack_of he (by decide +kernel) (by decide +kernel)
  exact ⟨hp, hr, roundTrip_of he hp hr⟩

theorem LinearSolverOrderingType_names : Printed LinearSolverOrderingType LinearSolverOrderingTypeToString ∧ ReadBack LinearSolverOrderingType StringToLinearSolverOrderingType ∧
    RoundTrip LinearSolverOrderingType LinearSolverOrderingTypeToString StringToLinearSolverOrderingType := by
  have he : WellFormed LinearSolverOrderingType := by decide +kernel
  have hp : Printed LinearSolverOrderingType LinearSolverOrderingTypeToString := printed_of he (by decide +kernel)
  have hr : ReadBack LinearSolverOrderingType StringToLinearSolverOrderingType := readBack_of he (by decide +kernel) (by decide +kernel)
  exact ⟨hp, hr, roundTrip_of he hp hr⟩

theorem DenseLinearAlgebraLibraryType_names : Printed DenseLinearAlgebraLibraryType DenseLinearAlgebraLibraryTypeToString ∧ ReadBack DenseLinearAlgebraLibraryType StringToDenseLinearAlgebraLibraryType ∧
    RoundTrip DenseLinearAlgebraLibraryType DenseLinearAlgebraLibraryTypeToString StringToDenseLinearAlgebraLibraryType := by
  have he : WellFormed DenseLinearAlgebraLibraryType := by decide +kernel
  have hp : Printed DenseLinearAlgebraLibraryType DenseLinearAlgebraLibraryTypeToString := printed_of he (by decide +kernel)
  have hr : ReadBack DenseLinearAlgebraLibraryType StringToDenseLinearAlgebraLibraryType := readBack_of he (by decide +kernel) (by decide +kernel)
  exact ⟨hp, hr, roundTrip_of he hp hr⟩

theorem TrustRegionStrategyType_names : Printed TrustRegionStrategyType TrustRegionStrategyTypeToString ∧ ReadBack TrustRegionStrategyType StringToTrustRegionStrategyType ∧
    RoundTrip TrustRegionStrategyType TrustRegionStrategyTypeToString StringToTrustRegionStrategyType := by
  have he : WellFormed TrustRegionStrategyType := by decide +kernel
  have hp : Printed TrustRegionStrategyType TrustRegionStrategyTypeToString := printed_of he (by decide +kernel)
  have hr : ReadBack TrustRegionStrategyType StringToTrustRegionStrategyType := readBack_of he (by decide +kernel) (by decide +kernel)
  exact ⟨hp, hr, roundTrip_of he hp hr⟩

theorem DoglegType_names : Printed DoglegType DoglegTypeToString ∧ ReadBack DoglegType StringToDoglegType ∧
    RoundTrip DoglegType DoglegTypeToString StringToDoglegType := by
  have he : WellFormed DoglegType := by decide +kernel
  have hp : Printed DoglegType DoglegTypeToString := printed_of he (by decide +kernel)
  have hr : ReadBack DoglegType StringToDoglegType := readBack_of he (by decide +kernel) (by decide +kernel)
  exact ⟨hp, hr, roundTrip_of he hp hr⟩

theorem MinimizerType_names : Printed MinimizerType MinimizerTypeToString ∧ ReadBack MinimizerType StringToMinimizerType ∧
    RoundTrip MinimizerType MinimizerTypeToString StringToMinimizerType := by
  have he : WellFormed MinimizerType := by decide +kernel
  have hp : Printed MinimizerType MinimizerTypeToString := printed_of he (by decide +kernel)
  have hr : ReadBack MinimizerType StringToMinimizerType := readBack_of he (by decide +kernel) (by decide +kernel)
  exact ⟨hp, hr, roundTrip_of he hp hr⟩

theorem LineSearchDirectionType_names : Printed LineSearchDirectionType LineSearchDirectionTypeToString ∧ ReadBack LineSearchDirectionType StringToLineSearchDirectionType ∧
    RoundTrip LineSearchDirectionType LineSearchDirectionTypeToString StringToLineSearchDirectionType := by
  have he : WellFormed LineSearchDirectionType := by decide +kernel
  have hp : Printed LineSearchDirectionType LineSearchDirectionTypeToString := printed_of he (by decide +kernel)
  have hr : ReadBack LineSearchDirectionType StringToLineSearchDirectionType := readBack_of he (by decide +kernel) (by decide +kernel)
  exact ⟨hp, hr, roundTrip_of he hp hr⟩

theorem LineSearchType_names : Printed LineSearchType LineSearchTypeToString ∧ ReadBack LineSearchType StringToLineSearchType ∧
    RoundTrip LineSearchType LineSearchTypeToString StringToLineSearchType := by
  have he : WellFormed LineSearchType := by decide +kernel
  have hp : Printed LineSearchType LineSearchTypeToString := printed_of he (by decide +kernel)
  have hr : ReadBack LineSearchType StringToLineSearchType := readBack_of he (by decide +kernel) (by decide +kernel)
  exact ⟨hp, hr, roundTrip_of he hp hr⟩

theorem LineSearchInterpolationType_names : Printed LineSearchInterpolationType LineSearchInterpolationTypeToString ∧ ReadBack LineSearchInterpolationType StringToLineSearchInterpolationType ∧
    RoundTrip LineSearchInterpolationType LineSearchInterpolationTypeToString StringToLineSearchInterpolationType := by
  have he : WellFormed LineSearchInterpolationType := by decide +kernel
  have hp : Printed LineSearchInterpolationType LineSearchInterpolationTypeToString := printed_of he (by decide +kernel)
  have hr : ReadBack LineSearchInterpolationType StringToLineSearchInterpolationType := readBack_of he (by decide +kernel) (by decide +kernel)
  exact ⟨hp, hr, roundTrip_of he hp hr⟩

theorem NonlinearConjugateGradientType_names : Printed NonlinearConjugateGradientType NonlinearConjugateGradientTypeToString ∧ ReadBack NonlinearConjugateGradientType StringToNonlinearConjugateGradientType ∧
    RoundTrip NonlinearConjugateGradientType NonlinearConjugateGradientTypeToString StringToNonlinearConjugateGradientType := by
  have he : WellFormed NonlinearConjugateGradientType := by decide +kernel
  have hp : Printed NonlinearConjugateGradientType NonlinearConjugateGradientTypeToString := printed_of he (by decide +kernel)
  have hr : ReadBack NonlinearConjugateGradientType StringToNonlinearConjugateGradientType := readBack_of he (by decide +kernel) (by decide +kernel)
  exact ⟨hp, hr, roundTrip_of he hp hr⟩

theorem CovarianceAlgorithmType_names : Printed CovarianceAlgorithmType CovarianceAlgorithmTypeToString ∧ ReadBack CovarianceAlgorithmType StringToCovarianceAlgorithmType ∧
    RoundTrip CovarianceAlgorithmType CovarianceAlgorithmTypeToString StringToCovarianceAlgorithmType := by
  have he : WellFormed CovarianceAlgorithmType := by decide +kernel
  have hp : Printed CovarianceAlgorithmType CovarianceAlgorithmTypeToString := printed_of he (by decide +kernel)
  have hr : ReadBack CovarianceAlgorithmType StringToCovarianceAlgorithmType := readBack_of he (by decide +kernel) (by decide +kernel)
  exact ⟨hp, hr, roundTrip_of he hp hr⟩

theorem NumericDiffMethodType_names : Printed NumericDiffMethodType NumericDiffMethodTypeToString ∧ ReadBack NumericDiffMethodType StringToNumericDiffMethodType ∧
    RoundTrip NumericDiffMethodType NumericDiffMethodTypeToString StringToNumericDiffMethodType := by
  have he : WellFormed NumericDiffMethodType := by decide +kernel
  have hp : Printed NumericDiffMethodType NumericDiffMethodTypeToString := printed_of he (by decide +kernel)
  have hr : ReadBack NumericDiffMethodType StringToNumericDiffMethodType := readBack_of he (by decide +kernel) (by decide +kernel)
  exact ⟨hp, hr, roundTrip_of he hp hr⟩

theorem VisibilityClusteringType_names : Printed VisibilityClusteringType VisibilityClusteringTypeToString ∧ ReadBack VisibilityClusteringType StringToVisibilityClusteringType ∧
    RoundTrip VisibilityClusteringType VisibilityClusteringTypeToString StringToVisibilityClusteringType := by
  have he : WellFormed VisibilityClusteringType := by decide +kernel
  have hp : Printed VisibilityClusteringType VisibilityClusteringTypeToString := printed_of he (by decide +kernel)
  have hr : ReadBack VisibilityClusteringType StringToVisibilityClusteringType := readBack_of he (by decide +kernel) (by decide +kernel)
  exact ⟨hp, hr, roundTrip_of he hp hr⟩

theorem LoggingType_names : Printed LoggingType LoggingTypeToString ∧ ReadBack LoggingType StringToLoggingType ∧
    RoundTrip LoggingType LoggingTypeToString StringToLoggingType := by
  have he : WellFormed LoggingType := by decide +kernel
  have hp : Printed LoggingType LoggingTypeToString := printed_of he (by decide +kernel)
  have hr : ReadBack LoggingType StringToLoggingType := readBack_of he (by decide +kernel) (by decide +kernel)
  exact ⟨hp, hr, roundTrip_of he hp hr⟩

theorem DumpFormatType_names : Printed DumpFormatType DumpFormatTypeToString ∧ ReadBack DumpFormatType StringToDumpFormatType ∧
    RoundTrip DumpFormatType DumpFormatTypeToString StringToDumpFormatType := by
  have he : WellFormed DumpFormatType := by decide +kernel
  have hp : Printed DumpFormatType DumpFormatTypeToString := printed_of he (by decide +kernel)
  have hr : ReadBack DumpFormatType StringToDumpFormatType := readBack_of he (by decide +kernel) (by decide +kernel)
  exact ⟨hp, hr, roundTrip_of he hp hr⟩

/-- How a solve ended is printed; it is never read. -/
theorem TerminationType_names : Printed TerminationType TerminationTypeToString :=
  printed_of (by decide +kernel) (by decide +kernel)

end Ceres.Names
