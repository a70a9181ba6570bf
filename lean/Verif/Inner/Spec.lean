import Verif.Inner.Model

/-!
# Specification of the inner iterations

A sweep goes through the groups in order; within a group every block is replaced by what the
minimisation over that block alone returns, all other blocks being fixed at their values from before
the group.
-/
namespace Ceres.Inner

open Ceres.Graph (Prog Groups)

variable {B α : Type} [DecidableEq B]

/-- The `i`-th parameter block of the `n`-th residual block of the list `res`. -/
def paramOf (P : Prog B) (res : List ℕ) (n i : ℕ) : Option B :=
  (res[n]?.bind fun r => P.residuals[r]?).bind fun ps => ps[i]?

/-- What the minimisation over block `b` alone leaves in `parameter`, when the other blocks are and
stay as in `others`; `none` if it aborts.  The state is the contents of `parameter` and of the vector
that the block's state was last set to.  The block itself is seen as variable, with index and offsets
zero. -/
def Solver.run (P : Prog B) (res : List ℕ) (b : B) (others : B → View α) :
    Solver α → α × Option α → Option α
  | .done, s => some s.1
  | .abort, _ => none
  | .loadX f, s => (f s.1).run P res b others s
  | .storeX v k, s => k.run P res b others (v, s.2)
  | .setState v k, s => k.run P res b others (s.1, some v)
  | .look n i f, s =>
    match paramOf P res n i with
    | none => none
    | some b' =>
      (f (if b' = b then ⟨s.2.getD s.1, false, 0, 0, 0⟩ else others b')).run P res b others s
  | .own f, s => (f ⟨s.2.getD s.1, false, 0, 0, 0⟩).run P res b others s

/-- The residual blocks that depend on block `b`, in the order of the program. -/
def residualsOf (P : Prog B) (b : B) : List ℕ :=
  (List.range P.residuals.length).filter fun r => decide (b ∈ P.residuals.getD r [])

/-- All blocks of `g` at once. -/
def groupStep (best : B → (B → α) → α) (x : B → α) (g : List B) : B → α :=
  fun b => if b ∈ g then best b x else x b

/-- One sweep. -/
def sweep (best : B → (B → α) → α) (groups : List (List B)) (x : B → α) : B → α :=
  groups.foldl (groupStep best) x

/-- No residual block depends on two blocks of one group. -/
def Independent (P : Prog B) (groups : List (List B)) : Prop :=
  ∀ g ∈ groups, ∀ a ∈ g, ∀ b ∈ g, a ≠ b → ¬ P.Share a b

/-- The set-up serves the groups: its blocks are those of the groups, then the other blocks of the
program; each group is the range between two offsets, followed by empty ranges; each block of a group
has the list of exactly the residual blocks that depend on it. -/
structure Setup.Serves (S : Setup B) (P : Prog B) (groups : List (List B)) : Prop where
  blocks : ∃ rest, S.blocks = groups.flatten ++ rest ∧ S.blocks.Perm P.blocks ∧
    S.offsets = (List.range (groups.length + 1)).map (fun k => (groups.take k).flatten.length) ++
      List.replicate rest.length groups.flatten.length
  residuals : S.residuals = groups.flatten.map (residualsOf P)

/-- The groups of an ordering as lists of blocks, by increasing group number. -/
def groupsOf {V : Type} (known : V → Option B) (G : Groups V) : List (List B) :=
  G.groupToElements.map fun g => g.2.filterMap known

/-- The problem's map from addresses to blocks: each block is found under its own address, and under
no other. -/
structure Addressed {V : Type} (known : V → Option B) (user : B → V) : Prop where
  found : ∀ b, known (user b) = some b
  own : ∀ v b, known v = some b → user b = v

/-- The groups are those of the ordering `G`, by increasing number. -/
structure Arranged {V : Type} [DecidableEq V] (user : B → V) (G : Groups V)
    (groups : List (List B)) : Prop where
  mem : ∀ b, b ∈ groups.flatten ↔ 0 ≤ G.groupId (user b)
  same : ∀ g ∈ groups, ∀ a ∈ g, ∀ b ∈ g, G.groupId (user a) = G.groupId (user b)
  increasing : groups.Pairwise fun g h => ∀ a ∈ g, ∀ b ∈ h, G.groupId (user a) < G.groupId (user b)

end Ceres.Inner
