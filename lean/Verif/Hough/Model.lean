import Verif.Suppress.Model
import Mathlib.Algebra.Field.Defs
import Mathlib.Algebra.Order.Ring.Defs
/-
Model of src/hough.rs: Hough voting for lines, and clipping a polar line to an image.  `f32` values
are elements of a type `K` with the operations used; the sine and cosine tables are parameters, so
nothing depends on how they are computed.
-/
namespace Verif.Hough

section detect
variable {K : Type _} [Add K] [Mul K] [NatCast K]

/-- The diagonal of the image (src/hough.rs:43): `u32` arithmetic under the square root, which
panics on overflow; the `f64` square root of a `u32` truncated to an integer is the integer square
root. -/
def diagonal (w h : Nat) : Option Nat :=
  if w * w + h * h < 2 ^ 32 then some (Nat.sqrt (w * w + h * h)) else none

/-- The votes of one pixel (src/hough.rs:61-71).  `lut m` is the pair (sine, cosine) of `m` degrees
(l.51-54), `toI` is the cast `as i32`; reading or writing outside the accumulator is `none`. -/
def vote (toI : K → Int) (lut : Nat → K × K) (rmax x y : Nat) (acc : Image Nat) :
    Option (Image Nat) :=
  forRange 0 180 acc fun m acc =>
    let r := (x : K) * (lut m).2 + (y : K) * (lut m).1
    let d := toI r + rmax
    if d ≤ 2 * rmax ∧ d ≥ 0 then
      (acc.get d.toNat m).bind fun v => acc.put d.toNat m (v + 1)
    else some acc

/-- The accumulator (src/hough.rs:40-74). -/
def accumulate (toI : K → Int) (lut : Nat → K × K) (im : Image Nat) : Option (Image Nat) :=
  (diagonal im.w im.h).bind fun rmax =>
  forYX 0 im.h 0 im.w (Image.new (2 * rmax + 1) 180 0) fun x y acc =>
    (im.get x y).bind fun p =>
    if p > 0 then vote toI lut rmax x y acc else some acc

/-- `detect_lines` (src/hough.rs:39-94); a line is the pair `(r, angle_in_degrees)`. -/
def detectLines (toI : K → Int) (lut : Nat → K × K) (im : Image Nat) (voteThreshold radius : Nat) :
    Option (List (Int × Nat)) :=
  (diagonal im.w im.h).bind fun rmax =>
  (accumulate toI lut im).bind fun acc =>
  (Suppress.suppressNonMaximum acc 0 radius).bind fun sup =>
  forYX 0 sup.h 0 sup.w [] fun r m lines =>
    (sup.get r m).bind fun votes =>
    if votes ≥ voteThreshold then some (lines ++ [((r : Int) - rmax, m)]) else some lines
end detect

section clip
variable {K : Type _} [Field K] [LinearOrder K]

/-- `intersection_points` (src/hough.rs:130-197); `sin`, `cos` are the values at `m` degrees. -/
def intersectionPoints (sin cos r : K) (m : Nat) (w h : K) : Option ((K × K) × (K × K)) :=
  if m = 0 then
    if r ≥ 0 ∧ r ≤ w then some ((r, 0), (r, h)) else none
  else if m = 90 then
    if r ≥ 0 ∧ r ≤ h then some ((0, r), (w, r)) else none
  else
    let rightY := (cos * (-w) + r) / sin
    let leftY := r / sin
    let bottomX := (sin * (-h) + r) / cos
    let topX := r / cos
    let start : Option (K × K) := if rightY ≥ 0 ∧ rightY ≤ h then some (w, rightY) else none
    let left : Option (K × K) := if leftY ≥ 0 ∧ leftY ≤ h then some (0, leftY) else none
    match start, left with
    | some s, some l => some (s, l)
    | _, _ =>
      let start := if left.isSome then left else start
      let bottom : Option (K × K) := if bottomX ≥ 0 ∧ bottomX ≤ w then some (bottomX, h) else none
      match start, bottom with
      | some s, some b => some (s, b)
      | _, _ =>
        let start := if bottom.isSome then bottom else start
        let top : Option (K × K) := if topX ≥ 0 ∧ topX ≤ w then some (topX, 0) else none
        match start, top with
        | some s, some t => some (s, t)
        | _, _ => none
end clip

end Verif.Hough
