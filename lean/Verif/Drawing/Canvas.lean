import Verif.Basic.Image
/-
Model of the canvas abstraction, `/repo/src/drawing/canvas.rs`.

A canvas is an image plus the pixel combination performed by `draw_pixel`: overwriting for
plain images (canvas.rs:90-92), blending for `Blend` (canvas.rs:112-116; the blend
function of the pixel type is the parameter `op old new`).  Out of bounds panics.
-/
namespace Verif.Drawing

/-- `Canvas::draw_pixel`, canvas.rs:90-92 with `op = fun _ new => new`,
canvas.rs:112-116 with `op = blend`. -/
def drawPixel {α : Type _} (op : α → α → α) (im : Image α) (x y : Nat) (c : α) :
    Option (Image α) :=
  (im.get x y).bind fun old => im.put x y (op old c)

/-- Overwriting canvas (`impl Canvas for I: GenericImage`, canvas.rs:76-93). -/
def overwrite {α : Type _} : α → α → α := fun _ new => new

/-- A Rust cast `i32 as u32` of a value that must be non-negative; a negative value would wrap
around to a huge coordinate and is treated as a panic. -/
def asU32 (v : Int) : Option Nat := if 0 ≤ v then some v.toNat else none

/-- `draw_if_in_bounds`, drawing/mod.rs:43-50. -/
def drawIfInBounds {α : Type _} (op : α → α → α) (im : Image α) (x y : Int) (c : α) :
    Option (Image α) :=
  if x ≥ 0 ∧ x < im.w ∧ y ≥ 0 ∧ y < im.h then drawPixel op im x.toNat y.toNat c else some im

theorem drawPixel_of_inB {α : Type _} {op : α → α → α} {im : Image α} {x y : Nat} {c : α}
    (hx : x < im.w) (hy : y < im.h) : drawPixel op im x y c =
      some { im with px := fun a b => if a = x ∧ b = y then op (im.px x y) c else im.px a b } := by
  rw [drawPixel, Image.get_of_inB hx hy, Option.bind_some, Image.put_of_inB _ hx hy]

end Verif.Drawing
