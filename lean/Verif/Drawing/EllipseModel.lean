import Verif.Drawing.CircleModel
/-
Model of the ellipse functions of `/repo/src/drawing/conics.rs`.  `i32` is `Int` (overflow is not
modelled), `f32` is exact rational arithmetic (the values are multiples of 1/4; `f32` is exact below
2^24).  The `while` loops run on fuel and running out of fuel is `none`.
-/
namespace Verif.Drawing

/-- The loop over the top and bottom regions, conics.rs:138-150.  Returns `x`, `y`, `px`, `py`. -/
def ellipseTop {σ : Type _} (draw : Int → Int → σ → Option σ) (w2 h2 : ℚ) :
    Nat → Int → Int → ℚ → ℚ → ℚ → σ → Option (Int × Int × ℚ × ℚ × σ)
  | 0, x, y, px, py, _, s => if px < py then none else some (x, y, px, py, s)
  | n + 1, x, y, px, py, p, s =>
    if px < py then
      let x := x + 1
      let px := px + 2 * h2
      if p < 0 then
        (draw x y s).bind fun s => ellipseTop draw w2 h2 n x y px py (p + (h2 + px)) s
      else
        let y := y - 1
        let py := py + -2 * w2
        (draw x y s).bind fun s => ellipseTop draw w2 h2 n x y px py (p + (h2 + px - py)) s
    else some (x, y, px, py, s)

/-- The loop over the left and right regions, conics.rs:154-166. -/
def ellipseSide {σ : Type _} (draw : Int → Int → σ → Option σ) (w2 h2 : ℚ) :
    Nat → Int → Int → ℚ → ℚ → ℚ → σ → Option σ
  | 0, _, y, _, _, _, s => if y > 0 then none else some s
  | n + 1, x, y, px, py, p, s =>
    if y > 0 then
      let y := y - 1
      let py := py + -2 * w2
      if p > 0 then
        (draw x y s).bind fun s => ellipseSide draw w2 h2 n x y px py (p + (w2 - py)) s
      else
        let x := x + 1
        let px := px + 2 * h2
        (draw x y s).bind fun s => ellipseSide draw w2 h2 n x y px py (p + (w2 - py + px)) s
    else some s

/-- `draw_ellipse`, conics.rs:122-167, with the render function as a parameter. -/
def drawEllipse {σ : Type _} (draw : Int → Int → σ → Option σ) (a b : Int) (s : σ) : Option σ :=
  let w2 : ℚ := ((a * a : Int) : ℚ)
  let h2 : ℚ := ((b * b : Int) : ℚ)
  (draw 0 b s).bind fun s =>
  (ellipseTop draw w2 h2 (a.natAbs + 1) 0 b 0 (2 * w2 * (b : ℚ)) (h2 - w2 * (b : ℚ) + 1 / 4 * w2) s).bind
    fun (x, y, px, py, s) =>
  ellipseSide draw w2 h2 y.toNat x y px py
    (h2 * ((x : ℚ) + 1 / 2) ^ 2 + w2 * (((y - 1) ^ 2 : Int) : ℚ) - w2 * h2) s

/-- `draw_hollow_ellipse_mut`, conics.rs:34-59. -/
def drawHollowEllipse {α : Type _} (op : α → α → α) (im : Image α) (center : Int × Int)
    (a b : Int) (c : α) : Option (Image α) :=
  if a = b then drawHollowCircle op im center a c
  else
    let x0 := center.1
    let y0 := center.2
    drawEllipse (fun x y im =>
      (drawIfInBounds op im (x0 + x) (y0 + y) c).bind fun im =>
      (drawIfInBounds op im (x0 - x) (y0 + y) c).bind fun im =>
      (drawIfInBounds op im (x0 + x) (y0 - y) c).bind fun im =>
      drawIfInBounds op im (x0 - x) (y0 - y) c) a b im

/-- `draw_filled_ellipse_mut`, conics.rs:86-116. -/
def drawFilledEllipse {α : Type _} (op : α → α → α) (im : Image α) (center : Int × Int)
    (a b : Int) (c : α) : Option (Image α) :=
  if a = b then drawFilledCircle op im center a c
  else
    let x0 := center.1
    let y0 := center.2
    drawEllipse (fun x y im =>
      (drawLineInt op im (x0 - x) (y0 + y) (x0 + x) (y0 + y) c).bind fun im =>
      drawLineInt op im (x0 - x) (y0 - y) (x0 + x) (y0 - y) c) a b im

end Verif.Drawing
