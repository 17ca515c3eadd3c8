import Verif.Drawing.CircleModel
import Mathlib.Data.List.Sort
/-
Model of `/repo/src/drawing/polygon.rs`.  `f32` arithmetic is exact rational arithmetic; `i32`
overflow is not modelled.
-/
namespace Verif.Drawing
open Verif.Definitions

/-- `f32::round`: half away from zero. -/
def roundQ (x : ℚ) : Int := if 0 ≤ x then ⌊x + 1 / 2⌋ else ⌈x - 1 / 2⌉

/-- The edge list of the closed path, polygon.rs:163-170: pairs of consecutive points. -/
def windows2 {α : Type _} (l : List α) : List (α × α) := l.zip l.tail

/-- `closed`, polygon.rs:163-168; `first` is `poly[0]`, `last` is `poly[poly.len() - 1]`. -/
def closePoly {α : Type _} [DecidableEq α] (poly : List α) (first last : α) : List α :=
  if first ≠ last then poly ++ [first] else poly

/-- The position of a crossing in the row `y`, polygon.rs:191-193. -/
def crossQ (y : Int) (p0 p1 : Int × Int) : Int :=
  let fraction : ℚ := ((y - p0.2 : Int) : ℚ) / ((p1.2 - p0.2 : Int) : ℚ)
  roundQ ((p0.1 : ℚ) + fraction * ((p1.1 - p0.1 : Int) : ℚ))

/-- The values pushed for one edge in row `y`, polygon.rs:178-195, with the position of a crossing
inside the edge as a parameter. -/
def edgeInterWith (cross : Int → Int × Int → Int × Int → Int) (y : Int)
    (e : (Int × Int) × (Int × Int)) : List Int :=
  let p0 := e.1
  let p1 := e.2
  if (p0.2 ≤ y ∧ p1.2 ≥ y) ∨ (p1.2 ≤ y ∧ p0.2 ≥ y) then
    if p0.2 = p1.2 then [p0.1, p1.1]
    else if p0.2 = y ∨ p1.2 = y then
      (if p1.2 > y then [p0.1] else []) ++ (if p0.2 > y then [p1.1] else [])
    else
      [cross y p0 p1]
  else []

/-- The values pushed for one edge in row `y`, polygon.rs:178-195. -/
def edgeInter : Int → (Int × Int) × (Int × Int) → List Int := edgeInterWith crossQ

/-- Filling one range, polygon.rs:200-210. -/
def fillRange {α : Type _} (op : α → α → α) (im : Image α) (y : Int) (r0 r1 : Int) (c : α) :
    Option (Image α) :=
  let from_ := min r0 (im.w : Int)
  let to_ := min r1 ((im.w : Int) - 1)
  if from_ < im.w ∧ to_ ≥ 0 then
    forRange (max 0 from_).toNat (max 0 to_ + 1).toNat im fun x im =>
      drawPixel op im x y.toNat c
  else some im

/-- `intersections.chunks(2).for_each(..)`, polygon.rs:199-211; a chunk of length one panics at
`range[1]`. -/
def fillChunks {α : Type _} (op : α → α → α) (y : Int) (c : α) :
    List Int → Image α → Option (Image α)
  | [], im => some im
  | [_], _ => none
  | a :: b :: rest, im => (fillRange op im y a b c).bind (fillChunks op y c rest)

/-- The scan line loop, polygon.rs:173-214; `y` runs over the non-negative range
`y_min..y_max + 1`.  The values pushed for an edge are a parameter. -/
def scanFill {α : Type _} (op : α → α → α) (inter : Int → (Int × Int) × (Int × Int) → List Int)
    (im : Image α) (yMin yMax : Int) (edges : List ((Int × Int) × (Int × Int))) (c : α) : Option (Image α) :=
  forRange yMin.toNat (yMax + 1).toNat im fun y im =>
    fillChunks op y c ((edges.flatMap (inter y)).insertionSort (· ≤ ·)) im

/-- `draw_polygon_with_mut`, polygon.rs:141-221, with the line plotter and the values pushed for an
edge as parameters. -/
def drawPolygonWith {α : Type _} (op : α → α → α)
    (inter : Int → (Int × Int) × (Int × Int) → List Int)
    (plotter : Image α → Int × Int → Int × Int → Option (Image α))
    (im : Image α) (poly : List (Int × Int)) (c : α) : Option (Image α) :=
  match poly with
  | [] => some im
  | first :: rest =>
    let yMin := (first :: rest).foldl (fun m p => min m p.2) first.2
    let yMax := (first :: rest).foldl (fun m p => max m p.2) first.2
    let yMin := max 0 (min yMin ((im.h : Int) - 1))
    let yMax := max 0 (min yMax ((im.h : Int) - 1))
    let edges := windows2 (closePoly (first :: rest) first ((first :: rest).getLast (by simp)))
    (scanFill op inter im yMin yMax edges c).bind fun im =>
    forList edges im fun e im => plotter im e.1 e.2

/-- `draw_polygon_mut`, polygon.rs:21-26. -/
def drawPolygon {α : Type _} (op : α → α → α) (im : Image α) (poly : List (Int × Int)) (c : α) :
    Option (Image α) :=
  drawPolygonWith op edgeInter (fun im s e => drawLineInt op im s.1 s.2 e.1 e.2 c) im poly c

/-- `draw_antialiased_polygon_mut`, polygon.rs:58-76. -/
def drawAntialiasedPolygon {α : Type _} (blend : α → α → ℚ → α) (im : Image α)
    (poly : List (Int × Int)) (c : α) : Option (Image α) :=
  drawPolygonWith overwrite edgeInter (fun im s e => drawAntialiased blend im s e c) im poly c

/-- `draw_hollow_polygon_mut`, polygon.rs:99-122. -/
def drawHollowPolygon {α : Type _} (op : α → α → α) (im : Image α) (poly : List (ℚ × ℚ)) (c : α) :
    Option (Image α) :=
  match poly with
  | [] => some im
  | [_] => none
  | p :: q :: rest =>
    (forList (windows2 (p :: q :: rest)) im fun e im => drawLine op im e.1 e.2 c).bind fun im =>
    let last := (q :: rest).getLast (by simp)
    if p ≠ last then drawLine op im p last c else some im

end Verif.Drawing
