/-!
# Model of `OrderedGroups<T>` (include/ceres/ordered_groups.h)

`std::map<int, std::set<T>>` is an association list in increasing key order whose values are
lists of elements; `std::unordered_map<T, int>` is an association list.
Simplifications: group ids are unbounded integers; the iteration order inside a set is the
insertion order (nothing observable here depends on it).
-/
namespace Ceres.OrderedGroups

variable {T : Type} [DecidableEq T]

/-- The two members (ordered_groups.h:206-207). -/
structure OG (T : Type) where
  g2e : List (Int × List T)
  e2g : List (T × Int)

/-- Default constructed. -/
def empty : OG T := ⟨[], []⟩

/-- `element_to_group_.find`. -/
def eFind : List (T × Int) → T → Option Int
  | [], _ => none
  | (f, h) :: m, e => if e = f then some h else eFind m e

/-- `element_to_group_[e] = g`. -/
def eSet : List (T × Int) → T → Int → List (T × Int)
  | [], e, g => [(e, g)]
  | (f, h) :: m, e, g => if e = f then (e, g) :: m else (f, h) :: eSet m e g

/-- `element_to_group_.erase(e)`. -/
def eErase (m : List (T × Int)) (e : T) : List (T × Int) := m.filter (fun x => x.1 ≠ e)

/-- `group_to_elements_[g].insert(e)`. -/
def gInsert : List (Int × List T) → Int → T → List (Int × List T)
  | [], g, e => [(g, [e])]
  | (h, s) :: m, g, e =>
    if g < h then (g, [e]) :: (h, s) :: m
    else if g = h then (h, if e ∈ s then s else s ++ [e]) :: m
    else (h, s) :: gInsert m g e

/-- `group_to_elements_[g].erase(e)` followed by erasing the group when its size is `0`
(lines 73-76 and 96-101).  On a missing key `operator[]` creates an empty set, which is then
erased: no effect. -/
def gErase : List (Int × List T) → Int → T → List (Int × List T)
  | [], _, _ => []
  | (h, s) :: m, g, e =>
    if g = h then (if s.erase e = [] then m else (h, s.erase e) :: m)
    else (h, s) :: gErase m g e

/-- `GroupId` (lines 147-153). -/
def groupId (s : OG T) (e : T) : Int :=
  match eFind s.e2g e with
  | none => -1
  | some g => g

/-- `IsMember` (lines 155-158). -/
def isMember (s : OG T) (e : T) : Bool := (eFind s.e2g e).isSome

/-- `AddElementToGroup` (lines 61-82). -/
def add (s : OG T) (e : T) (g : Int) : OG T × Bool :=
  if g < 0 then (s, false)
  else
    match eFind s.e2g e with
    | some h =>
      if h = g then (s, true)
      else ({ g2e := gInsert (gErase s.g2e h e) g e, e2g := eSet s.e2g e g }, true)
    | none => ({ g2e := gInsert s.g2e g e, e2g := eSet s.e2g e g }, true)

/-- `Clear` (lines 84-87). -/
def clear (_ : OG T) : OG T := ⟨[], []⟩

/-- `Remove(element)` (lines 91-106). -/
def remove (s : OG T) (e : T) : OG T × Bool :=
  let c := groupId s e
  if c < 0 then (s, false)
  else ({ g2e := gErase s.g2e c e, e2g := eErase s.e2g e }, true)

/-- The loop of the bulk `Remove` (lines 115-119). -/
def removeLoop : OG T → List T → OG T × Nat
  | s, [] => (s, 0)
  | s, e :: es =>
    let r := remove s e
    let r' := removeLoop r.1 es
    (r'.1, (if r.2 then 1 else 0) + r'.2)

/-- Bulk `Remove` (lines 110-120). -/
def removeMany (s : OG T) (es : List T) : OG T × Nat :=
  if s.e2g.length = 0 ∨ es.length = 0 then (s, 0) else removeLoop s es

/-- The loop of `Reverse` over the remaining groups in descending order (lines 133-139):
new groups and new element map. -/
def reverseLoop : Int → List (Int × List T) → List (T × Int) →
    List (Int × List T) × List (T × Int)
  | _, [], m => ([], m)
  | k, (_, s) :: rest, m =>
    let m1 := s.foldl (fun acc e => eSet acc e k) m
    let r := reverseLoop (k + 1) rest m1
    ((k, s) :: r.1, r.2)

/-- `Reverse` (lines 123-143).  The new map's keys are increasing, so appending keeps order. -/
def reverse (s : OG T) : OG T :=
  match s.g2e.reverse with
  | [] => s
  | (g, t) :: rest =>
    let r := reverseLoop (g + 1) rest s.e2g
    { g2e := (g, t) :: r.1, e2g := r.2 }

/-- `GroupSize` (lines 162-165). -/
def groupSize (s : OG T) (g : Int) : Nat :=
  match s.g2e.find? (fun x => x.1 == g) with
  | none => 0
  | some x => x.2.length

/-- `NumElements` (line 167). -/
def numElements (s : OG T) : Nat := s.e2g.length

/-- `NumGroups` (line 170). -/
def numGroups (s : OG T) : Nat := s.g2e.length

/-- `MinNonZeroGroup` (lines 175-178); `none` is the failed `CHECK`. -/
def minNonZeroGroup (s : OG T) : Option Int := s.g2e.head?.map (·.1)

/-- Mutating calls. -/
inductive Op (T : Type) where
  | add (e : T) (g : Int)
  | remove (e : T)
  | removeMany (es : List T)
  | reverse
  | clear

/-- State after one call. -/
def step (s : OG T) : Op T → OG T
  | .add e g => (add s e g).1
  | .remove e => (remove s e).1
  | .removeMany es => (removeMany s es).1
  | .reverse => reverse s
  | .clear => clear s

/-- State after a history, starting from an empty object. -/
def run (ops : List (Op T)) : OG T := ops.foldl step empty

end Ceres.OrderedGroups
