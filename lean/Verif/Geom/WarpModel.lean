import Verif.Geom.Model
import Verif.Definitions.Clamp
/-
Model of warping and interpolation (src/geometric_transformations.rs:536-658, 738-866) over exact
rationals.  A pixel is a function from channel index to a value `0..=mx` (`mx` is 255 or 65535).
`unsafe_get_pixel` is `get`: an out-of-range read is `none`.
-/
namespace Verif.Geom
open Definitions

/-- A multi-channel pixel. -/
abbrev Px := Nat → Nat

/-- `<P as Pixel>::Subpixel::clamp` from `f32`. -/
def clampSub (mx : Nat) (v : ℚ) : Nat := (clampQ 0 mx v).toNat

/-- `Interpolation` (src/geometric_transformations.rs:869-886). -/
inductive Interpolation
  | nearest | bilinear | bicubic
  deriving DecidableEq

/-- `interpolate_nearest` (src/geometric_transformations.rs:851-866).  The saturation of the
casts to `u32` is left out: widths are below 2^32, so a saturated coordinate is out of range. -/
def interpolateNearest (im : Image Px) (x y : ℚ) (dflt : Px) : Option Px :=
  if x < -1 / 2 ∨ y < -1 / 2 then some dflt
  else
    let rx := (truncQ (x + 1 / 2)).toNat
    let ry := (truncQ (y + 1 / 2)).toNat
    if rx ≥ im.w ∨ ry ≥ im.h then some dflt else im.get rx ry

/-- `blend_bilinear` (src/geometric_transformations.rs:795-818). -/
def blendBilinear (mx : Nat) (tl tr bl br : Px) (rw bw : ℚ) : Px :=
  let top : Px := fun c => clampSub mx ((1 - rw) * tl c + rw * tr c)
  let bottom : Px := fun c => clampSub mx ((1 - rw) * bl c + rw * br c)
  fun c => clampSub mx ((1 - bw) * top c + bw * bottom c)

/-- `interpolate_bilinear` (src/geometric_transformations.rs:820-848). -/
def interpolateBilinear (mx : Nat) (im : Image Px) (x y : ℚ) (dflt : Px) : Option Px :=
  let left : ℚ := ⌊x⌋
  let right := left + 1
  let top : ℚ := ⌊y⌋
  let bottom := top + 1
  let rw := x - left
  let bw := y - top
  if left < 0 ∨ right ≥ im.w ∨ top < 0 ∨ bottom ≥ im.h then some dflt
  else
    (im.get (truncQ left).toNat (truncQ top).toNat).bind fun tl =>
    (im.get (truncQ right).toNat (truncQ top).toNat).bind fun tr =>
    (im.get (truncQ left).toNat (truncQ bottom).toNat).bind fun bl =>
    (im.get (truncQ right).toNat (truncQ bottom).toNat).bind fun br =>
    some (blendBilinear mx tl tr bl br rw bw)

/-- The cubic of `blend_cubic` (src/geometric_transformations.rs:750-752). -/
def cubic (p0 p1 p2 p3 x : ℚ) : ℚ :=
  p1 + 1 / 2 * x * (p2 - p0 + x * (2 * p0 - 5 * p1 + 4 * p2 - p3 + x * (3 * (p1 - p2) + p3 - p0)))

/-- `blend_cubic` (src/geometric_transformations.rs:738-756). -/
def blendCubic (mx : Nat) (p0 p1 p2 p3 : Px) (x : ℚ) : Px :=
  fun c => clampSub mx (cubic (p0 c) (p1 c) (p2 c) (p3 c) x)

/-- `interpolate_bicubic` (src/geometric_transformations.rs:758-793). -/
def interpolateBicubic (mx : Nat) (im : Image Px) (x y : ℚ) (dflt : Px) : Option Px :=
  let left : ℚ := ⌊x⌋ - 1
  let right := left + 4
  let top : ℚ := ⌊y⌋ - 1
  let bottom := top + 4
  let xw := x - (left + 1)
  let yw := y - (top + 1)
  if left < 0 ∨ right ≥ im.w ∨ top < 0 ∨ bottom ≥ im.h then some dflt
  else
    let l := (truncQ left).toNat
    let t := (truncQ top).toNat
    -- `col` is indexed by `row - top`
    (forRange t (truncQ bottom).toNat (fun _ => dflt : Nat → Px) fun row col =>
      (im.get l row).bind fun p0 =>
      (im.get (l + 1) row).bind fun p1 =>
      (im.get (l + 2) row).bind fun p2 =>
      (im.get (l + 3) row).bind fun p3 =>
      (csub row t).bind fun k =>
      some (fun i => if i = k then blendCubic mx p0 p1 p2 p3 xw else col i)).bind fun col =>
    some (blendCubic mx (col 0) (col 1) (col 2) (col 3) yw)

/-- The interpolation closure chosen by `warp_into` and `warp_into_with`. -/
def interpolate (mx : Nat) (i : Interpolation) (im : Image Px) (dflt : Px) (x y : ℚ) : Option Px :=
  match i with
  | .nearest => interpolateNearest im x y dflt
  | .bilinear => interpolateBilinear mx im x y dflt
  | .bicubic => interpolateBicubic mx im x y dflt

/-- `warp_inner` (src/geometric_transformations.rs:635-658); `chunks_mut(0)` panics for an output
of width zero.  Rows are processed in order (with rayon: in any order, each row once). -/
def warpInner (out : Image Px) (mapping : ℚ → ℚ → ℚ × ℚ) (getPx : ℚ → ℚ → Option Px) :
    Option (Image Px) :=
  if out.w = 0 then none
  else forYX 0 out.h 0 out.w out fun x y out =>
    (getPx (mapping x y).1 (mapping x y).2).bind fun v => out.put x y v

/-- `warp_into` (src/geometric_transformations.rs:536-568). -/
def warpInto (mx : Nat) (im : Image Px) (p : Projection ℚ) (i : Interpolation) (dflt : Px)
    (out : Image Px) : Option (Image Px) :=
  warpInner out (fun x y => p.invert.apply x y) (interpolate mx i im dflt)

/-- `warp` (src/geometric_transformations.rs:517-531). -/
def warp (mx : Nat) (im : Image Px) (p : Projection ℚ) (i : Interpolation) (dflt : Px) :
    Option (Image Px) :=
  warpInto mx im p i dflt (Image.new im.w im.h fun _ => 0)

/-- `warp_with` (src/geometric_transformations.rs:588-603, 609-631). -/
def warpWith (mx : Nat) (im : Image Px) (mapping : ℚ → ℚ → ℚ × ℚ) (i : Interpolation) (dflt : Px) :
    Option (Image Px) :=
  warpInner (Image.new im.w im.h fun _ => 0) mapping (interpolate mx i im dflt)

/-- `rotate_about_center` and `rotate` (src/geometric_transformations.rs:283-318): the projection
used, given sine and cosine. -/
def rotateAbout (cx cy s c : ℚ) : Projection ℚ :=
  ((translateP cx cy).mul (rotateP s c)).mul (translateP (-cx) (-cy))

end Verif.Geom
