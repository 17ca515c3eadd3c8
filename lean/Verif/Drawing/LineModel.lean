import Verif.Drawing.Canvas
import Verif.Definitions.Clamp
/-
Model of `/repo/src/drawing/line.rs`.  `f32` arithmetic is exact rational arithmetic and `as i32`
is truncation towards zero (saturation and `i32` overflow are not modelled).
-/
namespace Verif.Drawing
open Verif.Definitions

/-- `BresenhamLineIter`, line.rs:8-17. -/
structure Bres where
  dx : ℚ
  dy : ℚ
  x : Int
  y : Int
  error : ℚ
  endX : Int
  steep : Bool
  yStep : Int

/-- `BresenhamLineIter::new` after the two swaps, line.rs:37-48. -/
def Bres.mk' (steep : Bool) (x0 y0 x1 y1 : ℚ) : Bres :=
  { dx := x1 - x0, dy := |y1 - y0|, x := truncQ x0, y := truncQ y0, error := (x1 - x0) / 2,
    endX := truncQ x1, steep := steep, yStep := if y0 < y1 then 1 else -1 }

/-- The second swap, line.rs:32-35. -/
def Bres.ordered (steep : Bool) (x0 y0 x1 y1 : ℚ) : Bres :=
  if x0 > x1 then Bres.mk' steep x1 y1 x0 y0 else Bres.mk' steep x0 y0 x1 y1

/-- `BresenhamLineIter::new`, line.rs:22-49. -/
def Bres.new (s e : ℚ × ℚ) : Bres :=
  if |e.2 - s.2| > |e.1 - s.1| then Bres.ordered true s.2 s.1 e.2 e.1
  else Bres.ordered false s.1 s.2 e.1 e.2

/-- The state update of `next`, line.rs:65-70. -/
def Bres.step (b : Bres) : Bres :=
  let b := { b with x := b.x + 1, error := b.error - b.dy }
  if b.error < 0 then { b with y := b.y + b.yStep, error := b.error + b.dx } else b

/-- The point returned by `next`, line.rs:59-63. -/
def Bres.pt (b : Bres) : Int × Int := if b.steep then (b.y, b.x) else (b.x, b.y)

/-- `BresenhamLineIter::next`, line.rs:55-74. -/
def Bres.next (b : Bres) : Option ((Int × Int) × Bres) :=
  if b.x > b.endX then none else some (b.pt, b.step)

/-- The first `n` items of the iterator. -/
def Bres.collect : Nat → Bres → List (Int × Int)
  | 0, _ => []
  | n + 1, b => (b.next).elim [] fun r => r.1 :: Bres.collect n r.2

/-- All items of the iterator (`collect_complete`: more fuel yields nothing more). -/
def Bres.toList (b : Bres) : List (Int × Int) := b.collect (b.endX + 1 - b.x).toNat

/-- The points of the line from `s` to `e`. -/
def bresenham (s e : ℚ × ℚ) : List (Int × Int) := (Bres.new s e).toList

/-- `in_bounds`, line.rs:77-79 and 188. -/
def inBounds {α : Type _} (im : Image α) (p : Int × Int) : Bool :=
  0 ≤ p.1 && p.1 < im.w && 0 ≤ p.2 && p.2 < im.h

/-- `draw_line_segment_mut`, line.rs:183-200. -/
def drawLine {α : Type _} (op : α → α → α) (im : Image α) (s e : ℚ × ℚ) (c : α) :
    Option (Image α) :=
  forList (bresenham s e) im fun p out =>
    if inBounds im p then drawPixel op out p.1.toNat p.2.toNat c else some out

/-- `clamp_point`, line.rs:81-85. -/
def clampPoint {α : Type _} (im : Image α) (p : ℚ × ℚ) : ℚ × ℚ :=
  (max 0 (min p.1 ((im.w : ℚ) - 1)), max 0 (min p.2 ((im.h : ℚ) - 1)))

/-- The coordinates visited by `BresenhamLinePixelIter` and `BresenhamLinePixelIterMut`
(line.rs:97-119, 131-160): both clamp the end points and keep the points in bounds.  `none` is
the assertion on empty images. -/
def pixelIterCoords {α : Type _} (im : Image α) (s e : ℚ × ℚ) : Option (List (Int × Int)) :=
  if 1 ≤ im.w ∧ 1 ≤ im.h then
    some ((bresenham (clampPoint im s) (clampPoint im e)).filter (inBounds im))
  else none

/-- All items of `BresenhamLinePixelIter`, line.rs:97-119. -/
def pixelIter {α : Type _} (im : Image α) (s e : ℚ × ℚ) : Option (List α) :=
  (pixelIterCoords im s e).bind fun l => l.mapM fun p => im.get p.1.toNat p.2.toNat

/-- `f32::fract`: `x - x.trunc()`. -/
def fract (x : ℚ) : ℚ := x - (truncQ x : ℚ)

/-- `Plotter::plot`, line.rs:316-324.  `steep` selects the transform `(x, y) ↦ (y, x)`. -/
def plot {α : Type _} (blend : α → α → ℚ → α) (color : α) (steep : Bool) (im : Image α)
    (x y : Int) (weight : ℚ) : Option (Image α) :=
  let p := if steep then (y, x) else (x, y)
  if inBounds im p then
    (im.get p.1.toNat p.2.toNat).bind fun original =>
    im.put p.1.toNat p.2.toNat (blend color original weight)
  else some im

/-- `plot_wu_line`, line.rs:270-291; `x = x0 + k`. -/
def plotWu {α : Type _} (blend : α → α → ℚ → α) (color : α) (steep : Bool) (im : Image α)
    (s e : Int × Int) : Option (Image α) :=
  let gradient : ℚ := ((e.2 - s.2 : Int) : ℚ) / ((e.1 - s.1 : Int) : ℚ)
  (forRange 0 (e.1 + 1 - s.1).toNat ((im, (s.2 : ℚ)) : Image α × ℚ) fun k st =>
    (plot blend color steep st.1 (s.1 + k) (truncQ st.2) (1 - fract st.2)).bind fun im =>
    (plot blend color steep im (s.1 + k) (truncQ st.2 + 1) (fract st.2)).map fun im =>
    (im, st.2 + gradient)).map Prod.fst

/-- `draw_antialiased_line_segment_mut`, line.rs:229-268. -/
def drawAntialiased {α : Type _} (blend : α → α → ℚ → α) (im : Image α) (s e : Int × Int)
    (color : α) : Option (Image α) :=
  if |e.2 - s.2| > |e.1 - s.1| then
    if s.2 > e.2 then plotWu blend color true im (e.2, e.1) (s.2, s.1)
    else plotWu blend color true im (s.2, s.1) (e.2, e.1)
  else
    if s.1 > e.1 then plotWu blend color false im e s
    else plotWu blend color false im s e

end Verif.Drawing
