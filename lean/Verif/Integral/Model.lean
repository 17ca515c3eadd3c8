import Verif.Basic.Image
/-
Model of `/repo/src/integral_image.rs`.

Simplifications: the accumulator type is any type with `0` and `+` (a multi-channel pixel is
a tuple of channels added componentwise); `val` is the conversion of an input pixel, `c` or
`c*c` per channel.  Accumulator overflow in building the table is not modelled (unbounded
addition); in `sum_image_pixels` the type's maximum is the parameter `bound`.
-/
namespace Verif.Integral

/-- Inner loop body of `integral_image_impl`, integral_image.rs:128-147; the state is the
output image and the running row sum. -/
def integralStep {α M : Type _} [Add M] (im : Image α) (val : α → M) (y x : Nat)
    (st : Image M × M) : Option (Image M × M) :=
  (im.get x y).bind fun input =>
  let sum := st.2 + val input
  (st.1.get (x + 1) y).bind fun above =>
  (st.1.put (x + 1) (y + 1) (above + sum)).map fun out => (out, sum)

/-- `integral_image_impl`, integral_image.rs:98-152. -/
def integralImage {α M : Type _} [Add M] [Zero M] (im : Image α) (val : α → M) :
    Option (Image M) :=
  let out := Image.new (im.w + 1) (im.h + 1) (0 : M)
  if im.w = 0 ∨ im.h = 0 then some out
  else forRange 0 im.h out fun y out =>
    (forRange 0 im.w (out, (0 : M)) (integralStep im val y)).map Prod.fst

/-- Checked addition in a type whose values are `< bound`. -/
def cadd (bound a b : Nat) : Option Nat := if a + b < bound then some (a + b) else none

/-- `sum_image_pixels` (one channel), integral_image.rs:250-269: `((a + b) - c) - d` with
checked arithmetic in a type with values `< bound`. -/
def sumImagePixels (bound : Nat) (I : Image Nat) (left top right bottom : Nat) : Option Nat :=
  (I.get (right + 1) (bottom + 1)).bind fun a =>
  (I.get left top).bind fun b =>
  (I.get (right + 1) top).bind fun c =>
  (I.get left (bottom + 1)).bind fun d =>
  (cadd bound a b).bind fun s => (csub s c).bind fun s => csub s d

/-- The same with wrapping arithmetic (release build), modulo `bound`. -/
def sumImagePixelsWrap (bound : Nat) (I : Image Nat) (left top right bottom : Nat) : Option Nat :=
  (I.get (right + 1) (bottom + 1)).bind fun a =>
  (I.get left top).bind fun b =>
  (I.get (right + 1) top).bind fun c =>
  (I.get left (bottom + 1)).bind fun d =>
  let s := (a + b) % bound
  let s := (s + (bound - c % bound)) % bound
  some ((s + (bound - d % bound)) % bound)

/-- `variance`, integral_image.rs:303-316, over exact arithmetic (`Rat` for `f64`). -/
def variance (bound : Nat) (I I2 : Image Nat) (left top right bottom : Nat) : Option Rat :=
  (csub right left).bind fun dw => (csub bottom top).bind fun dh =>
  let n : Rat := ((dw + 1 : Nat) : Rat) * ((dh + 1 : Nat) : Rat)
  (sumImagePixels bound I2 left top right bottom).bind fun sumSq =>
  (sumImagePixels bound I left top right bottom).bind fun sum =>
  some (((sumSq : Rat) - (sum : Rat) ^ 2 / n) / n)

/-- A slice: length and contents. -/
structure Buf where
  len : Nat
  at' : Nat → Nat

/-- `buffer[i] = v`, panics out of range. -/
def Buf.set (b : Buf) (i v : Nat) : Option Buf :=
  if i < b.len then some { b with at' := fun k => if k = i then v else b.at' k } else none

/-- Common shape of the three loops of the running sums: write the running sum of `f i`. -/
def sumLoop (lo hi : Nat) (f : Nat → Option Nat) (st : Buf × Nat) : Option (Buf × Nat) :=
  forRange lo hi st fun i st =>
    (f i).bind fun v =>
    let sum := st.2 + v
    (st.1.set i sum).map fun b => (b, sum)

/-- `row_running_sum`, integral_image.rs:348-380.  The loop over
`buffer[padding..].zip(row_data)` runs over indices `padding..padding+width`, the last one to
the end of the buffer. -/
def rowRunningSum (im : Image Nat) (row : Nat) (buffer : Buf) (padding : Nat) : Option Buf :=
  if im.w + 2 * padding ≤ buffer.len ∧ row < im.h ∧ 0 < im.w then
    (im.get 0 row).bind fun first =>
    (im.get (im.w - 1) row).bind fun last =>
    (sumLoop 0 padding (fun _ => some first) (buffer, 0)).bind fun st =>
    (sumLoop padding (padding + im.w) (fun i => im.get (i - padding) row) st).bind fun st =>
    (sumLoop (padding + im.w) buffer.len (fun _ => some last) st).bind fun st =>
    some st.1
  else none

/-- `column_running_sum`, integral_image.rs:413-462. -/
def columnRunningSum (im : Image Nat) (column : Nat) (buffer : Buf) (padding : Nat) : Option Buf :=
  if im.h + 2 * padding ≤ buffer.len ∧ column < im.w ∧ 0 < im.h then
    (im.get column 0).bind fun first =>
    (im.get column (im.h - 1)).bind fun last =>
    (sumLoop 0 padding (fun _ => some first) (buffer, 0)).bind fun st =>
    (sumLoop padding (padding + im.h) (fun i => im.get column (i - padding)) st).bind fun st =>
    (sumLoop (padding + im.h) buffer.len (fun _ => some last) st).bind fun st =>
    some st.1
  else none

end Verif.Integral
