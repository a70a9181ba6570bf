import Verif.Names.Props

/-! # Options by name: concrete cases -/
namespace Ceres.Names

example : ("SPARSE_SCHUR", 4) ∈ LinearSolverType := by decide +kernel

example : SameUpToCase "Sparse_schur" "SPARSE_SCHUR" := by
  unfold SameUpToCase
  decide +kernel

/-- A name in small letters is read, whatever the variable held. -/
example (old : ℤ) : StringToLinearSolverType "sparse_schur" old = (true, 4) :=
  LinearSolverType_names.2.1.accepts _ "SPARSE_SCHUR" _ old (by decide +kernel)
    (by unfold SameUpToCase; decide +kernel)

/-- A text that no enumerator matches: the hypothesis of `refuses` is met. -/
example (old : ℤ) : StringToLinearSolverType "sparse schur" old = (false, old) :=
  LinearSolverType_names.2.1.refuses _ old (by
    have h : ∀ p ∈ LinearSolverType, ¬ SameUpToCase "sparse schur" p.1 := by
      unfold SameUpToCase
      decide +kernel
    exact fun n v hv => h (n, v) hv)

/-- A value that is no enumerator. -/
example : DoglegTypeToString 7 = "UNKNOWN" :=
  DoglegType_names.1.unknown 7 (by
    have h : ∀ p ∈ DoglegType, p.2 ≠ 7 := by decide +kernel
    exact fun n hn => h (n, 7) hn rfl)

example : TerminationTypeToString 2 = "FAILURE" := TerminationType_names.name _ _ (by decide +kernel)

end Ceres.Names
