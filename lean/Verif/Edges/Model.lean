import Verif.Basic.Image
import Mathlib.Order.Defs.LinearOrder
/-
Model of `/repo/src/edges.rs`.  Gradient magnitudes are elements of an arbitrary linear order with
a zero (`f32` without NaN); the blur, the Sobel filters, `hypot` and the classification of the
gradient angle into the four sectors (lines 67-82, `atan2`) are parameters of the model.
-/
namespace Verif.Edges
variable {α : Type _} [LinearOrder α]

/-- The neighbours inspected from `(nx, ny)`, edges.rs:131-138; the unsigned subtractions panic on
underflow. -/
def neighbours (nx ny : Nat) : Option (List (Nat × Nat)) :=
  (csub nx 1).bind fun xm => (csub ny 1).bind fun ym =>
  some [(nx + 1, ny), (nx + 1, ny + 1), (nx, ny + 1), (xm, ym), (xm, ny), (xm, ny + 1)]

/-- The body of the neighbour loop, edges.rs:141-146: the output image and the stack. -/
def visit (inp : Image α) (lo : α) (p : Nat × Nat) (s : Image Nat × List (Nat × Nat)) :
    Option (Image Nat × List (Nat × Nat)) :=
  (inp.get p.1 p.2).bind fun i => (s.1.get p.1 p.2).bind fun o =>
  if lo ≤ i ∧ o = 0 then (s.1.put p.1 p.2 255).bind fun out => some (out, p :: s.2)
  else some s

/-- The `while let Some(..) = edges.pop()` loop, edges.rs:130-148, with fuel. -/
def track (inp : Image α) (lo : α) :
    Nat → Image Nat → List (Nat × Nat) → Option (Image Nat)
  | _, out, [] => some out
  | 0, _, _ :: _ => none
  | n + 1, out, p :: st =>
    (neighbours p.1 p.2).bind fun l =>
    (forList l (out, st) (visit inp lo)).bind fun r => track inp lo n r.1 r.2

/-- `hysteresis`, edges.rs:114-153.  At most one round per pixel is needed
(`track_spec`). -/
def hysteresis (inp : Image α) (lo hi : α) : Option (Image Nat) :=
  (csub inp.h 1).bind fun y1 =>
  forRange 1 y1 (Image.new inp.w inp.h 0) fun y out =>
  (csub inp.w 1).bind fun x1 =>
  forRange 1 x1 out fun x out =>
    (inp.get x y).bind fun i => (out.get x y).bind fun o =>
    if hi ≤ i ∧ o = 0 then
      (out.put x y 255).bind fun out => track inp lo (inp.w * inp.h + 1) out [(x, y)]
    else some out

/-- The sector of the gradient direction, edges.rs:72-82. -/
inductive Sector where
  | d0 | d45 | d90 | d135
  deriving DecidableEq, Repr

/-- The two neighbours compared with, edges.rs:85-99; the reads are `unsafe_get_pixel`, an
out-of-bounds read (undefined behaviour) is `none`. -/
def compared (g : Image α) (x y : Nat) : Sector → Option (α × α)
  | .d0 => (csub x 1).bind fun xm => (g.get xm y).bind fun a => (g.get (x + 1) y).bind fun b =>
    some (a, b)
  | .d45 => (g.get (x + 1) (y + 1)).bind fun a => (csub x 1).bind fun xm => (csub y 1).bind fun ym =>
    (g.get xm ym).bind fun b => some (a, b)
  | .d90 => (csub y 1).bind fun ym => (g.get x ym).bind fun a => (g.get x (y + 1)).bind fun b =>
    some (a, b)
  | .d135 => (csub x 1).bind fun xm => (g.get xm (y + 1)).bind fun a => (csub y 1).bind fun ym =>
    (g.get (x + 1) ym).bind fun b => some (a, b)

/-- `non_maximum_suppression`, edges.rs:56-110; `sector` classifies a gradient vector. -/
def nonMaxSuppression [Zero α] {β : Type _} (sector : β → β → Sector) (g : Image α)
    (gx gy : Image β) : Option (Image α) :=
  (csub g.h 1).bind fun y1 =>
  forRange 1 y1 (Image.new g.w g.h 0) fun y out =>
  (csub g.w 1).bind fun x1 =>
  forRange 1 x1 out fun x out =>
    (gx.get x y).bind fun dx => (gy.get x y).bind fun dy =>
    (compared g x y (sector dx dy)).bind fun c =>
    (g.get x y).bind fun p =>
    if p < c.1 ∨ p < c.2 then out.put x y 0 else out.put x y p

/-- `canny`, edges.rs:30-53, from the blurred image's gradients on; `mag` is `hypot`. -/
def canny [Zero α] {β : Type _} (sector : β → β → Sector) (mag : β → β → α) (gx gy : Image β)
    (lo hi : α) : Option (Image Nat) :=
  if lo ≤ hi then
    (nonMaxSuppression sector ⟨gx.w, gx.h, fun x y => mag (gx.px x y) (gy.px x y)⟩ gx gy).bind
      fun thinned => hysteresis thinned lo hi
  else none

end Verif.Edges
