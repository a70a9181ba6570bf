import Verif.Direct.Spec
import Mathlib.Order.Bounds.Basic

/-!
# The Schur complement, as a matrix
-/

noncomputable section

namespace Ceres.SchurMatrix

open Ceres.Direct

/-- `x'Sx`. -/
def quadratic (f : ℕ) (S : Buf) (x : Vec) : ℝ :=
  ∑ p ∈ Finset.range f, ∑ q ∈ Finset.range f, x p * S p q * x q

/-- `S` is the Schur complement of `A'A + D²` (`A` has `m` rows and `e + f` columns) after the elimination of the
first `e` variables: symmetric, and `z'Sz` is the least value of `‖A w‖² + ‖D w‖²` over all `w` that end in `z`. -/
structure IsSchur (m e f : ℕ) (A : Buf) (D : Option Vec) (S : Buf) : Prop where
  symm : ∀ p < f, ∀ q < f, S p q = S q p
  least : ∀ z : Vec, IsLeast {c | ∃ w : Vec, (∀ p < f, w (e + p) = z p) ∧ c = lsq m (e + f) A (fun _ => 0) D w}
    (quadratic f S z)

/-- `S`, `r` and `c` are the least squares problem `‖A w - b‖² + ‖D w‖²` with the first `e` variables eliminated: `S`
is symmetric, and `z'Sz - 2r'z + c` is the least value over all `w` that end in `z`. -/
structure IsReduced (m e f : ℕ) (A : Buf) (b : Vec) (D : Option Vec) (S : Buf) (r : Vec) (c : ℝ) : Prop where
  symm : ∀ p < f, ∀ q < f, S p q = S q p
  least : ∀ z : Vec, IsLeast {v | ∃ w : Vec, (∀ p < f, w (e + p) = z p) ∧ v = lsq m (e + f) A b D w}
    (quadratic f S z - 2 * ∑ p ∈ Finset.range f, r p * z p + c)

end Ceres.SchurMatrix
