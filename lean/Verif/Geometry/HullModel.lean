import Verif.Basic.Loop
/-
Model of `convex_hull` and `orientation`, `/repo/src/geometry.rs`.  Coordinates are unbounded
integers (`to_i32` never fails and `i32` does not overflow); distances are compared through their
squares.  `Vec::sort_by` is an insertion sort that only asks whether the comparison says `Less`,
as the standard library's sort does; on the points it is applied to that comparison is a strict
weak order in which only equal points tie (`sortBy_pairwise`, `before_of_not`), so every stable sort
gives this result.  The list `remaining_points` (lines 220-233) is computed but never used and is
left out.
-/
namespace Verif.Geometry

/-- `Point<T>`. -/
abbrev Pt := Int × Int

/-- `Orientation`, geometry.rs:256-260. -/
inductive Orientation where
  | collinear | clockwise | counterClockwise
  deriving DecidableEq, Repr

/-- `orientation`, geometry.rs:263-270. -/
def orientation (p q r : Pt) : Orientation :=
  let val := (q.2 - p.2) * (r.1 - q.1) - (q.1 - p.1) * (r.2 - q.2)
  if val = 0 then .collinear else if val > 0 then .clockwise else .counterClockwise

/-- Square of `distance`, point.rs:70-79. -/
def distSq (p q : Pt) : Int := (p.1 - q.1) ^ 2 + (p.2 - q.2) ^ 2

/-- Whether the comparison of geometry.rs:207-217 gives `Less`. -/
def before (s a b : Pt) : Bool :=
  match orientation s a b with
  | .collinear => decide (distSq s a < distSq s b)
  | .clockwise => false
  | .counterClockwise => true

/-- Insertion into a sorted list, after the elements that do not come later. -/
def insertBy {α : Type _} (lt : α → α → Bool) (a : α) : List α → List α
  | [] => [a]
  | b :: l => if lt b a then b :: insertBy lt a l else a :: b :: l

/-- `Vec::sort_by`, see above. -/
def sortBy {α : Type _} (lt : α → α → Bool) : List α → List α
  | [] => []
  | a :: l => insertBy lt a (sortBy lt l)

/-- The start point and its position, geometry.rs:196-203: `i` is the index of the head of the
list. -/
def findStart : List Pt → Nat → Pt → Nat → Pt × Nat
  | [], _, s, pos => (s, pos)
  | p :: l, i, s, pos =>
    if p.2 < s.2 ∨ (p.2 = s.2 ∧ p.1 < s.1) then findStart l (i + 1) p i
    else findStart l (i + 1) s pos

/-- The inner `while` loop, geometry.rs:241-249; the top of the stack is the head of the list. -/
def popStack (p : Pt) : List Pt → List Pt
  | t :: u :: st => if orientation u t p ≠ .counterClockwise then popStack p (u :: st) else t :: u :: st
  | st => st

/-- The scan, geometry.rs:240-251. -/
def scan : List Pt → List Pt → List Pt
  | [], st => st
  | p :: l, st => scan l (p :: popStack p st)

/-- `convex_hull`, geometry.rs:188-253. -/
def convexHull (points : List Pt) : List Pt :=
  match points with
  | [] => []
  | p0 :: l =>
    let (s, pos) := findStart l 1 p0 0
    -- `points.swap(0, pos); points.remove(0)`
    let rest := ((p0 :: l).set pos p0).tail
    (scan (sortBy (before s) rest) [s]).reverse

end Verif.Geometry
