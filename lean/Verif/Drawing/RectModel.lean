import Verif.Drawing.Canvas
/-
Model of `/repo/src/rect.rs`, `/repo/src/drawing/rect.rs` (filled) and
`/repo/src/drawing/cross.rs`.  `i32`/`u32` are `Int`/`Nat`; overflow is not modelled.
-/
namespace Verif.Drawing

/-- `Rect`, rect.rs:25-30. -/
structure Rect where
  left : Int
  top : Int
  width : Nat
  height : Nat
  deriving DecidableEq, Repr

/-- `Rect::at(..).of_size(..)`, rect.rs:43-45, 154-163: panics on an empty size. -/
def Rect.ofSize (left top : Int) (width height : Nat) : Option Rect :=
  if 0 < width ∧ 0 < height then some ⟨left, top, width, height⟩ else none

/-- `Rect::bottom`, rect.rs:64-66. -/
def Rect.bottom (r : Rect) : Int := r.top + r.height - 1

/-- `Rect::right`, rect.rs:71-73. -/
def Rect.right (r : Rect) : Int := r.left + r.width - 1

/-- `Rect::intersect`, rect.rs:107-123. -/
def Rect.intersect (r s : Rect) : Option Rect :=
  let left := max r.left s.left
  let top := max r.top s.top
  let right := min r.right s.right
  let bottom := min r.bottom s.bottom
  if right < left ∨ bottom < top then none
  else some ⟨left, top, (right - left).toNat + 1, (bottom - top).toNat + 1⟩

/-- `Region<i32>::contains`, rect.rs:127-129. -/
def Rect.contains (r : Rect) (x y : Int) : Bool :=
  r.left ≤ x && x ≤ r.right && r.top ≤ y && y ≤ r.bottom

/-- `draw_filled_rect_mut`, drawing/rect.rs:51-65. -/
def drawFilledRect {α : Type _} (op : α → α → α) (im : Image α) (rect : Rect) (c : α) :
    Option (Image α) :=
  (Rect.ofSize 0 0 im.w im.h).bind fun bounds =>
  match bounds.intersect rect with
  | none => some im
  | some i =>
    forYX 0 i.height 0 i.width im fun dx dy im =>
      (asU32 i.left).bind fun l => (asU32 i.top).bind fun t => drawPixel op im (l + dx) (t + dy) c

/-- The stencil of `draw_cross_mut`, cross.rs:26-28. -/
def crossStencil : List Nat := [0, 1, 0, 1, 1, 1, 0, 1, 0]

/-- `draw_cross_mut`, cross.rs:20-47. -/
def drawCross {α : Type _} (op : α → α → α) (im : Image α) (c : α) (x y : Int) :
    Option (Image α) :=
  forList [-1, 0, 1] im fun (sy : Int) im =>
    let iy := y + sy
    if iy < 0 ∨ iy ≥ im.h then some im
    else forList [-1, 0, 1] im fun (sx : Int) im =>
      let ix := x + sx
      if ix < 0 ∨ ix ≥ im.w then some im
      else
        (crossStencil[(3 * (sy + 1) + sx + 1).toNat]?).bind fun v =>
        if v = 1 then drawPixel op im ix.toNat iy.toNat c else some im

end Verif.Drawing
