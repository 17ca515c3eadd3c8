import Verif.Geometry.HullModel
import Mathlib.Analysis.SpecialFunctions.Complex.Arg
import Mathlib.Algebra.Order.Floor.Ring
/-
Model of `min_area_rect` and `rotating_calipers`, `/repo/src/geometry.rs` l.99-183, and of `Rotation`,
`/repo/src/point.rs` l.81-115.  `f64` values are real numbers, `atan2(y, x)` is the argument of `x + i y`, and
`f64::MAX`/`f64::MIN` are larger/smaller than every value that occurs.  The coordinate type is
signed and unbounded: `cast` of the rounded corners never fails.
-/
namespace Verif.Geometry
noncomputable section

/-- Point.rs l.100-105 `rotate`, the rotation given by its cosine and sine. -/
def rotate (c s : ℝ) (p : ℝ × ℝ) : ℝ × ℝ := (p.1 * c + p.2 * s, p.2 * c - p.1 * s)

/-- Point.rs l.108-112 `invert_rotation`. -/
def invertRotation (c s : ℝ) (p : ℝ × ℝ) : ℝ × ℝ := (p.1 * c - p.2 * s, p.2 * c + p.1 * s)

/-- Point.rs l.49-52 `to_f64`. -/
def toReal (p : Pt) : ℝ × ℝ := (p.1, p.2)

/-- The `%` of `f64` for a nonnegative dividend. -/
def fmod (x m : ℝ) : ℝ := x - m * (⌊x / m⌋ : ℝ)

/-- geometry.rs l.127-128: the angle of the edge from `p` to `q`. -/
def edgeAngle (p q : Pt) : ℝ :=
  |fmod (Complex.arg ⟨(toReal q).1 - (toReal p).1, (toReal q).2 - (toReal p).2⟩ + Real.pi) (Real.pi / 2)|

/-- geometry.rs l.124-130: the angles of `windows(2)`. -/
def edgeAngles : List Pt → List ℝ
  | p :: q :: l => edgeAngle p q :: edgeAngles (q :: l)
  | _ => []

open Classical in
/-- `Vec::dedup`, geometry.rs l.132. -/
def dedup : List ℝ → List ℝ
  | a :: b :: l => if a = b then dedup (b :: l) else a :: dedup (b :: l)
  | l => l

/-- The fold of geometry.rs l.140-148: `(min_x, max_x, min_y, max_y)` of the rotated points `p, l`; the
start values `f64::MAX`, `f64::MIN` disappear with the first point. -/
def bounds (c s : ℝ) (p : Pt) (l : List Pt) : ℝ × ℝ × ℝ × ℝ :=
  let first := rotate c s (toReal p)
  l.foldl (fun acc q =>
    let p := rotate c s (toReal q)
    (min acc.1 p.1, max acc.2.1 p.1, min acc.2.2.1 p.2, max acc.2.2.2 p.2))
    (first.1, first.1, first.2, first.2)

open Classical in
/-- Body of the loop of geometry.rs l.136-158; the state is `(min_area, res)`, `none` at the start. -/
def caliperStep (p : Pt) (l : List Pt) (st : Option (ℝ × List (ℝ × ℝ))) (angle : ℝ) :
    Option (ℝ × List (ℝ × ℝ)) :=
  let s := Real.sin angle
  let c := Real.cos angle
  let b := bounds c s p l
  let area := (b.2.1 - b.1) * (b.2.2.2 - b.2.2.1)
  let new := some (area, [invertRotation c s (b.2.1, b.2.2.1), invertRotation c s (b.1, b.2.2.1),
    invertRotation c s (b.1, b.2.2.2), invertRotation c s (b.2.1, b.2.2.2)])
  match st with
  | none => new
  | some (minArea, res) => if area < minArea then new else some (minArea, res)

/-- geometry.rs l.124-158: least area and corners before sorting and rounding. -/
def calipers (p : Pt) (l : List Pt) : Option (ℝ × List (ℝ × ℝ)) :=
  (dedup (edgeAngles (p :: l))).foldl (caliperStep p l) none

open Classical in
/-- geometry.rs l.160-182: sort by column, label the corners and round outwards. -/
def labelCorners (res : List (ℝ × ℝ)) : Option (List Pt) :=
  match sortBy (fun a b => decide (a.1 < b.1)) res with
  | [r0, r1, r2, r3] =>
    let i1 := if r1.2 > r0.2 then r0 else r1
    let i2 := if r3.2 > r2.2 then r2 else r3
    let i3 := if r3.2 > r2.2 then r3 else r2
    let i4 := if r1.2 > r0.2 then r1 else r0
    some [(⌊i1.1⌋, ⌊i1.2⌋), (⌈i2.1⌉, ⌊i2.2⌋), (⌈i3.1⌉, ⌈i3.2⌉), (⌊i4.1⌋, ⌈i4.2⌉)]
  | _ => none

/-- geometry.rs l.102-114 `min_area_rect`. -/
def minAreaRect (points : List Pt) : Option (List Pt) :=
  match convexHull points with
  | [] => none
  | [p] => some [p, p, p, p]
  | [p, q] => some [p, q, q, p]
  | p :: l => (calipers p l).bind fun r => labelCorners r.2

/-- `min_area_rect` for `Point<u32>`: the corners are cast with `cast(..).unwrap()` (geometry.rs l.165-182),
which panics for a negative number. -/
def minAreaRectU32 (points : List Pt) : Option (List Pt) :=
  (minAreaRect points).bind fun out =>
    if out.all fun p => decide (0 ≤ p.1 ∧ p.1 < 2 ^ 32 ∧ 0 ≤ p.2 ∧ p.2 < 2 ^ 32) then some out else none

end
end Verif.Geometry
