import Verif.Drawing.RectModel
import Verif.Drawing.PolygonModel
/-
Model of `draw_hollow_rect_mut` (`/repo/src/drawing/rect.rs`) and of `/repo/src/drawing/bezier.rs`.
`f32` arithmetic is exact rational arithmetic with the square root as a parameter; `i32` overflow is
not modelled.
-/
namespace Verif.Drawing
open Verif.Definitions

/-- `draw_hollow_rect_mut`, drawing/rect.rs:22-35. -/
def drawHollowRect {α : Type _} (op : α → α → α) (im : Image α) (r : Rect) (c : α) :
    Option (Image α) :=
  (drawLineInt op im r.left r.top r.right r.top c).bind fun im =>
  (drawLineInt op im r.left r.bottom r.right r.bottom c).bind fun im =>
  (drawLineInt op im r.left r.top r.left r.bottom c).bind fun im =>
  drawLineInt op im r.right r.top r.right r.bottom c

/-- One coordinate of `cubic_bezier_curve` before rounding, bezier.rs:37-51. -/
def bezierCoord (s e a b t : ℚ) : ℚ :=
  let t2 := t * t
  let t3 := t2 * t
  let mt := 1 - t
  let mt2 := mt * mt
  let mt3 := mt2 * mt
  s * mt3 + 3 * a * mt2 * t + 3 * b * mt * t2 + e * t3

/-- `cubic_bezier_curve`, bezier.rs:37-53 (the rounded values are integers). -/
def bezierAt (s e a b : ℚ × ℚ) (t : ℚ) : Int × Int :=
  (roundQ (bezierCoord s.1 e.1 a.1 b.1 t), roundQ (bezierCoord s.2 e.2 a.2 b.2 t))

/-- `distance`, bezier.rs:55-57. -/
def bezierDist (sqrt : ℚ → ℚ) (p q : ℚ × ℚ) : ℚ := sqrt ((p.1 - q.1) ^ 2 + (p.2 - q.2) ^ 2)

/-- `num_segments`, bezier.rs:60-64 (`as i32` truncates). -/
def bezierSegments (sqrt : ℚ → ℚ) (s e a b : ℚ × ℚ) : Int :=
  let bound := bezierDist sqrt s a + bezierDist sqrt a b + bezierDist sqrt b e
  truncQ (sqrt (bound ^ 2 + 800) / 8)

/-- `draw_cubic_bezier_curve_mut`, bezier.rs:27-80. -/
def drawBezier {α : Type _} (sqrt : ℚ → ℚ) (op : α → α → α) (im : Image α) (s e a b : ℚ × ℚ)
    (c : α) : Option (Image α) :=
  let n := bezierSegments sqrt s e a b
  let tInterval : ℚ := 1 / (n : ℚ)
  (forRange 0 n.toNat ((im, 0) : Image α × ℚ) fun i st =>
    let t2 := ((i : ℚ) + 1) * tInterval
    let p := bezierAt s e a b st.2
    let q := bezierAt s e a b t2
    (drawLineInt op st.1 p.1 p.2 q.1 q.2 c).map fun im => (im, t2)).map Prod.fst

end Verif.Drawing
