import Verif.Corners.Model
import Mathlib.Data.Rat.Floor
/-
Model of `intensity_centroid` and `oriented_fast`, `/repo/src/corners.rs` l.117-241.  The value
`-(y as f32).atan2(x as f32)` is a parameter `orient y x`.  The random sample of pixels is an arbitrary
list; `f32` arithmetic on the corner fraction is exact.  Products of dimensions do not overflow.
-/
namespace Verif.Corners

/-- corners.rs l.117-167 `intensity_centroid` up to the final `atan2`: the pair
`(y_centroid, x_centroid)`.  State of the first loop nest: `(x_centroid, x_count)`, of the second:
`(y_centroid, y_count)`. -/
def centroidSums (im : Image Nat) (x y radius : Nat) : Option (Int × Int) :=
  let xMin := x - radius
  let yMin := y - radius
  let yMax := min (y + radius + 1) im.h
  let xMax := min (x + radius + 1) im.w
  (forRange yMin yMax ((0, -(radius : Int)) : Int × Int) fun y st =>
    (forRange xMin xMax st fun x st =>
      (im.get x y).bind fun pixel => some (st.1 + st.2 * (pixel : Int), st.2 + 1)).bind fun st =>
    some (st.1, -(radius : Int))).bind fun xs =>
  (forRange xMin xMax ((0, (radius : Int)) : Int × Int) fun x st =>
    (forRange yMin yMax st fun y st =>
      (im.get x y).bind fun pixel => some (st.1 + st.2 * (pixel : Int), st.2 - 1)).bind fun st =>
    some (st.1, (radius : Int))).bind fun ys =>
  some (ys.1, xs.1)

/-- The corner search of corners.rs l.212-220. -/
def cornersWithin (im : Image Nat) (t edge : Nat) : Option (List (Nat × Nat × Nat)) :=
  (csub im.w edge).bind fun maxX => (csub im.h edge).bind fun maxY =>
  forYX edge maxY edge maxX [] fun x y corners =>
    (isCorner9 im t x y).bind fun b =>
    if b then
      (score .nine im t x y).bind fun s => some (corners ++ [(x, y, s)])
    else some corners

/-- corners.rs l.206: the index into the sorted scores (`as usize` of a negative number is 0). -/
def fractionIdx (target w h : Nat) : Nat :=
  (⌊(1000 : ℚ) * (1 - (target : ℚ) / ((w * h : Nat) : ℚ))⌋).toNat

/-- corners.rs l.184-209: the threshold; `samples` are the `sample_size` random coordinates, `idx` is the index into
their sorted scores. -/
def localThreshold (idx : Nat) (im : Image Nat) (threshold : Option Nat)
    (samples : List (Nat × Nat)) : Option Nat :=
  match threshold with
  | some t => some t
  | none =>
    (samples.mapM fun c => score .nine im 0 c.1 c.2).bind fun scores =>
    (scores.mergeSort fun a b => decide (a ≤ b))[idx]?

/-- corners.rs l.173-241 `oriented_fast`; a corner is `(x, y, score, orientation)`.  `sort_by` is a
stable sort.  `Uniform::new` (l.195-196) panics on an empty range.  The index of l.206 is a parameter, see
`fractionIdx` and `Verif.Float.fractionIdx32`. -/
def orientedFastAt {A : Type _} (idx : Nat) (orient : Int → Int → A) (im : Image Nat) (threshold : Option Nat)
    (target edge : Nat) (samples : List (Nat × Nat)) : Option (List (Nat × Nat × Nat × A)) :=
  (csub im.w edge).bind fun maxX => (csub im.h edge).bind fun maxY =>
  if threshold.isNone ∧ ¬ (edge < maxX ∧ edge < maxY) then none else
  (localThreshold idx im threshold samples).bind fun t =>
  (cornersWithin im t edge).bind fun corners =>
  let corners := corners.mergeSort fun a b => decide (b.2.2 ≤ a.2.2)
  let top := if corners.length < target then corners else corners.take target
  top.mapM fun c => (centroidSums im c.1 c.2.1 15).map fun s => (c.1, c.2.1, c.2.2, orient s.1 s.2)

/-- corners.rs l.173-241 `oriented_fast` with exact arithmetic. -/
def orientedFast {A : Type _} (orient : Int → Int → A) (im : Image Nat) (threshold : Option Nat)
    (target edge : Nat) (samples : List (Nat × Nat)) : Option (List (Nat × Nat × Nat × A)) :=
  orientedFastAt (fractionIdx target im.w im.h) orient im threshold target edge samples

end Verif.Corners
