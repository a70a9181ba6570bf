import Verif.Names.Model

/-! # Options by name: what the conversions must do -/
namespace Ceres.Names

/-- `s` is `name`, except that letters of `name` may be small in `s`. -/
def SameUpToCase (s name : String) : Prop :=
  List.Forall₂ (fun c d => c = d ∨ ('A'.toNat ≤ d.toNat ∧ d.toNat ≤ 'Z'.toNat ∧ c.toNat = d.toNat + 32))
    s.toList name.toList

/-- An enumeration is printed by `show_`: every enumerator as its name, anything else as `UNKNOWN`, and no two
values alike. -/
structure Printed (e : Enum) (show_ : ℤ → String) : Prop where
  name : ∀ n v, (n, v) ∈ e → show_ v = n
  unknown : ∀ v, (∀ n, (n, v) ∉ e) → show_ v = "UNKNOWN"
  tells_apart : ∀ v w, show_ v = show_ w → show_ v ≠ "UNKNOWN" → v = w

/-- It is read by `read`, which is given the text and what the variable holds: the name of an enumerator, in
small or capital letters, sets the variable to it; anything else is refused and the variable is left as it was. -/
structure ReadBack (e : Enum) (read : String → ℤ → Bool × ℤ) : Prop where
  accepts : ∀ s n v old, (n, v) ∈ e → SameUpToCase s n → read s old = (true, v)
  refuses : ∀ s old, (∀ n v, (n, v) ∈ e → ¬ SameUpToCase s n) → read s old = (false, old)

/-- What is printed for an enumerator is read back as it, and only an enumerator is ever read. -/
structure RoundTrip (e : Enum) (show_ : ℤ → String) (read : String → ℤ → Bool × ℤ) : Prop where
  back : ∀ n v old, (n, v) ∈ e → read (show_ v) old = (true, v)
  only : ∀ s old v, read s old = (true, v) → ∃ n, (n, v) ∈ e ∧ show_ v = n ∧ SameUpToCase s n
  never_unknown : ∀ v old, (∀ n, (n, v) ∉ e) → read (show_ v) old = (false, old)

end Ceres.Names
