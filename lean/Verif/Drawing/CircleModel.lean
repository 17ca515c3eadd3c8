import Verif.Drawing.LineModel
/-
Model of the circle functions of `/repo/src/drawing/conics.rs`.  `i32` is `Int` (overflow is not
modelled); the `while` loop runs on fuel and running out of fuel is `none`
(`circleLoop_eq` shows that the fuel given suffices).
-/
namespace Verif.Drawing

/-- The loop shared by `draw_hollow_circle_mut` and `draw_filled_circle_mut`, conics.rs:198-215 and
247-280, with the drawing statements as a parameter. -/
def circleLoop {σ : Type _} (draw : Int → Int → σ → Option σ) :
    Nat → Int → Int → Int → σ → Option σ
  | 0, x, y, _, s => if x ≤ y then none else some s
  | n + 1, x, y, p, s =>
    if x ≤ y then
      (draw x y s).bind fun s =>
      if p < 0 then circleLoop draw n (x + 1) y (p + (2 * (x + 1) + 1)) s
      else circleLoop draw n (x + 1) (y - 1) (p + (2 * ((x + 1) - (y - 1)) + 1)) s
    else some s

/-- `draw_hollow_circle_mut`, conics.rs:188-216. -/
def drawHollowCircle {α : Type _} (op : α → α → α) (im : Image α) (center : Int × Int)
    (radius : Int) (c : α) : Option (Image α) :=
  let x0 := center.1
  let y0 := center.2
  circleLoop (fun x y im =>
    (drawIfInBounds op im (x0 + x) (y0 + y) c).bind fun im =>
    (drawIfInBounds op im (x0 + y) (y0 + x) c).bind fun im =>
    (drawIfInBounds op im (x0 - y) (y0 + x) c).bind fun im =>
    (drawIfInBounds op im (x0 - x) (y0 + y) c).bind fun im =>
    (drawIfInBounds op im (x0 - x) (y0 - y) c).bind fun im =>
    (drawIfInBounds op im (x0 - y) (y0 - x) c).bind fun im =>
    (drawIfInBounds op im (x0 + y) (y0 - x) c).bind fun im =>
    drawIfInBounds op im (x0 + x) (y0 - y) c) (radius + 1).toNat 0 radius (1 - radius) im

/-- A call of `draw_line_segment_mut` with integer coordinates cast to `f32`. -/
def drawLineInt {α : Type _} (op : α → α → α) (im : Image α) (sx sy ex ey : Int) (c : α) :
    Option (Image α) :=
  drawLine op im ((sx : ℚ), (sy : ℚ)) ((ex : ℚ), (ey : ℚ)) c

/-- `draw_filled_circle_mut`, conics.rs:237-281. -/
def drawFilledCircle {α : Type _} (op : α → α → α) (im : Image α) (center : Int × Int)
    (radius : Int) (c : α) : Option (Image α) :=
  let x0 := center.1
  let y0 := center.2
  circleLoop (fun x y im =>
    (drawLineInt op im (x0 - x) (y0 + y) (x0 + x) (y0 + y) c).bind fun im =>
    (drawLineInt op im (x0 - y) (y0 + x) (x0 + y) (y0 + x) c).bind fun im =>
    (drawLineInt op im (x0 - x) (y0 - y) (x0 + x) (y0 - y) c).bind fun im =>
    drawLineInt op im (x0 - y) (y0 - x) (x0 + y) (y0 - x) c)
    (radius + 1).toNat 0 radius (1 - radius) im

end Verif.Drawing
