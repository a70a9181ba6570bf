import Verif.Visibility.Spec
import Verif.SchurMatrix.Spec
import Verif.SchurDirect.Layout

/-!
# What the visibility based preconditioners are asked for
-/

noncomputable section

namespace Ceres.Visibility

open Ceres.BlockSparse Ceres.Direct Ceres.SchurDirect Ceres.SchurMatrix

/-- The f block of a column of the reduced system, counted from the first f block. -/
def cameraOf (bs : BS) (ne p : ℕ) : ℕ := blockOf (tail bs.cols ne) p

open Classical in
/-- What the block of two cameras is multiplied with: 1 in a cluster, `s` between clusters that are joined. -/
def weight (cluster : ℕ → ℕ) (F : SimpleGraph ℕ) (s : ℝ) (a b : ℕ) : ℝ :=
  if cluster a = cluster b then 1 else if F.Adj (cluster a) (cluster b) then s else 0

/-- `S`, every block multiplied with its weight. -/
def masked (bs : BS) (ne : ℕ) (cluster : ℕ → ℕ) (F : SimpleGraph ℕ) (s : ℝ) (S : Buf) : Buf :=
  fun p q => weight cluster F s (cameraOf bs ne p) (cameraOf bs ne q) * S p q

/-- The joined clusters of the preconditioner: none for CLUSTER_JACOBI, chains for CLUSTER_TRIDIAGONAL. -/
def Joined (cfg : Config) (bs : BS) (ne : ℕ) (P : Prec) (F : SimpleGraph ℕ) : Prop :=
  if cfg.tridiagonal then Chains bs ne (bs.cols.length - ne) P.numClusters P.cluster F else F = ⊥

/-- `Factorize` succeeds only for positive definite matrices. -/
def Definite (c : SparseChol) : Prop :=
  ∀ P s A, Reach c P s → Input c.upper A → SamePattern P A → (c.factorize s A).1 = true → PosDef A.numCols A.sym

end Ceres.Visibility
