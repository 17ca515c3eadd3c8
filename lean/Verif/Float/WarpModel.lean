import Verif.Float.PixelOps
import Verif.Geom.WarpProps
/-
Model of warping and interpolation in `f32` (src/geometric_transformations.rs:588-658, 738-866),
including NaN and the infinities, which a user-supplied mapping may return.
Overflow of a finite result to an infinity is not modelled: the only finite results computed are
a coordinate plus or minus at most 4, which never overflows, and products of weights below one with
channel values.  Signed zeros are not distinguished, nothing below divides.
-/
namespace Verif.Float
open Verif.Definitions Verif.Geom

/-- A single precision number. -/
inductive XF
  | nan
  /-- an infinity, negative if the flag is set -/
  | inf (neg : Bool)
  | fin (q : ℚ)
  deriving DecidableEq

namespace XF

/-- Addition of `f32`. -/
def add : XF → XF → XF
  | fin a, fin b => fin (rnd32 (a + b))
  | inf s, fin _ => inf s
  | fin _, inf s => inf s
  | inf s, inf t => if s = t then inf s else nan
  | _, _ => nan

/-- Negation of `f32`. -/
def neg : XF → XF
  | nan => nan
  | inf s => inf !s
  | fin a => fin (-a)

/-- Subtraction of `f32`. -/
def sub (a b : XF) : XF := a.add b.neg

/-- Multiplication of `f32`. -/
def mul : XF → XF → XF
  | fin a, fin b => fin (rnd32 (a * b))
  | inf s, fin b => if b = 0 then nan else inf (s != decide (b < 0))
  | fin a, inf s => if a = 0 then nan else inf (s != decide (a < 0))
  | inf s, inf t => inf (s != t)
  | _, _ => nan

/-- `f32::floor` (exact). -/
def floor : XF → XF
  | fin a => fin ⌊a⌋
  | x => x

/-- `a < b` for `f32`: false if either is NaN. -/
def lt : XF → XF → Bool
  | fin a, fin b => decide (a < b)
  | inf true, fin _ => true
  | fin _, inf false => true
  | inf true, inf false => true
  | _, _ => false

/-- `a <= b` for `f32`: false if either is NaN. -/
def le : XF → XF → Bool
  | fin a, fin b => decide (a ≤ b)
  | inf true, fin _ => true
  | fin _, inf false => true
  | inf s, inf t => s || !t
  | _, _ => false

/-- `x as u32`: truncates, saturates, sends NaN to zero. -/
def toU32 : XF → Nat
  | nan => 0
  | inf true => 0
  | inf false => 4294967295
  | fin a => min (truncQ a).toNat 4294967295

/-- `n as f32` and `n.into()` for unsigned integers. -/
def ofNat (n : Nat) : XF := fin (rnd32 (n : ℚ))

/-- `Clamp<f32>` for `u8` and `u16` (src/definitions.rs:89-103, 122, 133-140). -/
def clamp (mx : Nat) (x : XF) : Nat :=
  if x.lt (ofNat mx) then
    if (fin 0).lt x then x.toU32 else 0
  else mx

end XF

open XF

/-- `unsafe_get_pixel` of the image crate: reads the flat buffer at `y * width + x` without any
check; `none` if that is outside the buffer (undefined behaviour). -/
def unsafeGet (im : Image Px) (x y : Nat) : Option Px :=
  if y * im.w + x < im.w * im.h then
    some (im.px ((y * im.w + x) % im.w) ((y * im.w + x) / im.w))
  else none

/-- `interpolate_nearest` (src/geometric_transformations.rs:851-866). -/
def nearest32 (im : Image Px) (x y : XF) (dflt : Px) : Option Px :=
  if x.lt (fin (-1 / 2)) || y.lt (fin (-1 / 2)) then some dflt
  else
    let rx := (x.add (fin (1 / 2))).toU32
    let ry := (y.add (fin (1 / 2))).toU32
    if rx ≥ im.w ∨ ry ≥ im.h then some dflt else unsafeGet im rx ry

/-- `(1 - w) * u + w * v` as written in `blend_bilinear`, clamped. -/
def mix32 (mx : Nat) (u v : Nat) (w : XF) : Nat :=
  clamp mx ((((fin 1).sub w).mul (ofNat u)).add (w.mul (ofNat v)))

/-- `blend_bilinear` (src/geometric_transformations.rs:795-818). -/
def blendBilinear32 (mx : Nat) (tl tr bl br : Px) (rw bw : XF) : Px :=
  let top : Px := fun c => mix32 mx (tl c) (tr c) rw
  let bottom : Px := fun c => mix32 mx (bl c) (br c) rw
  fun c => mix32 mx (top c) (bottom c) bw

/-- `interpolate_bilinear` (src/geometric_transformations.rs:820-848). -/
def bilinear32 (mx : Nat) (im : Image Px) (x y : XF) (dflt : Px) : Option Px :=
  let left := x.floor
  let right := left.add (fin 1)
  let top := y.floor
  let bottom := top.add (fin 1)
  let rw := x.sub left
  let bw := y.sub top
  if left.lt (fin 0) || (ofNat im.w).le right || top.lt (fin 0) || (ofNat im.h).le bottom then
    some dflt
  else
    (unsafeGet im left.toU32 top.toU32).bind fun tl =>
    (unsafeGet im right.toU32 top.toU32).bind fun tr =>
    (unsafeGet im left.toU32 bottom.toU32).bind fun bl =>
    (unsafeGet im right.toU32 bottom.toU32).bind fun br =>
    some (blendBilinear32 mx tl tr bl br rw bw)

/-- The cubic of `blend_cubic` (src/geometric_transformations.rs:750-752), in the order in which
the operations are carried out. -/
def cubic32 (p0 p1 p2 p3 x : XF) : XF :=
  let k := (((fin 3).mul (p1.sub p2)).add p3).sub p0
  let j := ((((fin 2).mul p0).sub ((fin 5).mul p1)).add ((fin 4).mul p2)).sub p3
  let i := (p2.sub p0).add (x.mul (j.add (x.mul k)))
  p1.add (((fin (1 / 2)).mul x).mul i)

/-- `blend_cubic` (src/geometric_transformations.rs:738-756). -/
def blendCubic32 (mx : Nat) (p0 p1 p2 p3 : Px) (x : XF) : Px :=
  fun c => clamp mx (cubic32 (ofNat (p0 c)) (ofNat (p1 c)) (ofNat (p2 c)) (ofNat (p3 c)) x)

/-- `interpolate_bicubic` (src/geometric_transformations.rs:758-793).  `col` has four entries;
writing any other is a panic.  `read` is the pixel lookup. -/
def bicubicWith (read : Nat → Nat → Option Px) (mx w h : Nat) (x y : XF) (dflt : Px) : Option Px :=
  let left := x.floor.sub (fin 1)
  let right := left.add (fin 4)
  let top := y.floor.sub (fin 1)
  let bottom := top.add (fin 4)
  let xw := x.sub (left.add (fin 1))
  let yw := y.sub (top.add (fin 1))
  if left.lt (fin 0) || (ofNat w).le right || top.lt (fin 0) || (ofNat h).le bottom then
    some dflt
  else
    (forRange top.toU32 bottom.toU32 (fun _ => dflt : Nat → Px) fun row col =>
      (read left.toU32 row).bind fun p0 =>
      (read (left.toU32 + 1) row).bind fun p1 =>
      (read (left.toU32 + 2) row).bind fun p2 =>
      (read (left.toU32 + 3) row).bind fun p3 =>
      (csub row top.toU32).bind fun k =>
      if k < 4 then
        some (fun i => if i = k then blendCubic32 mx p0 p1 p2 p3 xw else col i)
      else none).bind fun col =>
    some (blendCubic32 mx (col 0) (col 1) (col 2) (col 3) yw)

/-- `interpolate_bicubic` with its actual lookup `unsafe_get_pixel`
(src/geometric_transformations.rs:758-793). -/
def bicubic32 (mx : Nat) (im : Image Px) (x y : XF) (dflt : Px) : Option Px :=
  bicubicWith (unsafeGet im) mx im.w im.h x y dflt

/-- The interpolation closure chosen by `warp_into` and `warp_into_with`. -/
def interp32 (mx : Nat) (i : Interpolation) (im : Image Px) (dflt : Px) (x y : XF) : Option Px :=
  match i with
  | .nearest => nearest32 im x y dflt
  | .bilinear => bilinear32 mx im x y dflt
  | .bicubic => bicubic32 mx im x y dflt

/-- `warp_into_with` (src/geometric_transformations.rs:609-631) with `warp_inner`
(src/geometric_transformations.rs:635-658); `chunks_mut(0)` panics for an output of width zero. -/
def warpIntoWith32 (mx : Nat) (im : Image Px) (mapping : XF → XF → XF × XF) (i : Interpolation)
    (dflt : Px) (out : Image Px) : Option (Image Px) :=
  if out.w = 0 then none
  else forYX 0 out.h 0 out.w out fun x y out =>
    (interp32 mx i im dflt (mapping (ofNat x) (ofNat y)).1 (mapping (ofNat x) (ofNat y)).2).bind
      fun v => out.put x y v

/-- `warp_with` (src/geometric_transformations.rs:588-603). -/
def warpWith32 (mx : Nat) (im : Image Px) (mapping : XF → XF → XF × XF) (i : Interpolation)
    (dflt : Px) : Option (Image Px) :=
  warpIntoWith32 mx im mapping i dflt (Image.new im.w im.h fun _ => 0)

/-- `warp` (src/geometric_transformations.rs:517-531) with `Projection::translate(tx, ty)`
(src/geometric_transformations.rs:64-79): the stored inverse translates by `(-tx, -ty)` and is
applied by `map_translation` (src/geometric_transformations.rs:214-219). -/
def warpTranslate32 (mx : Nat) (im : Image Px) (tx ty : ℚ) (i : Interpolation) (dflt : Px) :
    Option (Image Px) :=
  warpWith32 mx im (fun x y => (x.add (fin (-tx)), y.add (fin (-ty)))) i dflt

end Verif.Float
