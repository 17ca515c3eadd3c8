import Verif.Basic.Image
/-
Model of src/contours.rs: border following after Suzuki and Abe.

The flat vector `image_values` (index `x + width * y`) is an `Image Int`.  Coordinates are naturals
where the code uses `usize` and integers where it uses `i32`; the casts between them and to the
coordinate type `T` of the result are not modelled as overflowing, nor is the `i32` border counter
(`C51_count` bounds it by the number of pixels).
-/
namespace Verif.Contours

/-- `Contour` (src/contours.rs:21-29); `outer` is `border_type == BorderType::Outer`. -/
structure Contour where
  points : List (Nat × Nat)
  outer : Bool
  parent : Option Nat
  deriving DecidableEq

/-- The initial contents of `diffs` (src/contours.rs:87-96). -/
def dirs : List (Int × Int) :=
  [(-1, 0), (-1, -1), (0, -1), (1, -1), (1, 0), (1, 1), (0, 1), (-1, 1)]

/-- `get_position_if_non_zero_pixel` (src/contours.rs:68-77). -/
def nonZeroAt (v : Image Int) (c : Int × Int) : Option (Nat × Nat) :=
  if (c.1 > -1 ∧ c.1 < v.w ∧ c.2 > -1 ∧ c.2 < v.h) ∧ v.px c.1.toNat c.2.toNat ≠ 0 then
    some (c.1.toNat, c.2.toNat)
  else none

/-- `rotate_to_value` (src/contours.rs:201-204); a value that is not present panics. -/
def rotateToValue (l : List (Int × Int)) (d : Int × Int) : Option (List (Int × Int)) :=
  if d ∈ l then some (l.drop (l.idxOf d) ++ l.take (l.idxOf d)) else none

/-- Difference of two points after `to_i32`. -/
def diff (a b : Nat × Nat) : Int × Int := ((a.1 : Int) - b.1, (a.2 : Int) - b.2)

/-- Translate a point after `to_i32`. -/
def shift (a : Nat × Nat) (d : Int × Int) : Int × Int := ((a.1 : Int) + d.1, (a.2 : Int) + d.2)

/-- The loop computing `is_right_edge` (src/contours.rs:161-170) over the reversed directions. -/
def rightEdge (target : Int × Int) : List (Int × Int) → Bool
  | [] => false
  | d :: ds => if d = target then false else if d = (1, 0) then true else rightEdge target ds

/-- The tracing loop (src/contours.rs:149-184).  `none` is a panic, or running out of fuel; that
neither happens is part of `C51_total`. -/
def traceLoop (num : Nat) (curr pos1 : Nat × Nat) :
    Nat → Image Int → List (Int × Int) → List (Nat × Nat) → Nat × Nat → Nat × Nat →
      Option (Image Int × List (Int × Int) × List (Nat × Nat))
  | 0, _, _, _, _, _ => none
  | fuel + 1, v, diffs, points, pos2, pos3 =>
    let points := points ++ [pos3]
    (rotateToValue diffs (diff pos2 pos3)).bind fun diffs =>
    (diffs.reverse.findSome? fun d => nonZeroAt v (shift pos3 d)).bind fun pos4 =>
    let isRightEdge := rightEdge (diff pos4 pos3) diffs.reverse
    (if pos3.1 + 1 = v.w ∨ isRightEdge = true then v.put pos3.1 pos3.2 (-(num : Int))
      else (v.get pos3.1 pos3.2).bind fun old =>
        if old = 1 then v.put pos3.1 pos3.2 num else some v).bind fun v =>
    if pos4 = curr ∧ pos3 = pos1 then some (v, diffs, points)
    else traceLoop num curr pos1 fuel v diffs points pos3 pos4

/-- The state of the raster scan. -/
structure St where
  v : Image Int
  diffs : List (Int × Int)
  contours : List Contour
  num : Nat
  parent : Nat

/-- The parent of a new border (src/contours.rs:125-137). -/
def parentOf (contours : List Contour) (parentNum : Nat) (outer : Bool) : Option (Option Nat) :=
  if parentNum > 1 then
    (contours[parentNum - 2]?).map fun pc =>
      if xor outer pc.outer then some (parentNum - 2) else pc.parent
  else some none

/-- Following one border from its starting pixel (src/contours.rs:123-189); `num` is the counter
after the increment. -/
def follow (fuel : Nat) (s : St) (x y : Nat) (adj : Nat × Nat) (outer : Bool) : Option St :=
  let num := s.num + 1
  (parentOf s.contours s.parent outer).bind fun parent =>
  (rotateToValue s.diffs (diff adj (x, y))).bind fun diffs =>
  match diffs.findSome? fun d => nonZeroAt s.v (shift (x, y) d) with
  | some pos1 =>
    (traceLoop num (x, y) pos1 fuel s.v diffs [] pos1 (x, y)).map fun (v, diffs, points) =>
      { v := v, diffs := diffs, contours := s.contours ++ [⟨points, outer, parent⟩], num := num,
        parent := s.parent }
  | none =>
    (s.v.put x y (-(num : Int))).map fun v =>
      { v := v, diffs := diffs, contours := s.contours ++ [⟨[(x, y)], outer, parent⟩], num := num,
        parent := s.parent }

/-- One pixel of the raster scan (src/contours.rs:105-194).  `&&` short-circuits, so the neighbours
are only read when they exist. -/
def visit (fuel x y : Nat) (s : St) : Option St :=
  (s.v.get x y).bind fun c =>
  if c = 0 then some s
  else
    (if c = 1 ∧ x > 0 then (s.v.get (x - 1) y).map fun l => decide (l = 0)
      else some false).bind fun isOuter =>
    (if isOuter then follow fuel s x y (x - 1, y) true
      else
        (if c > 0 ∧ x + 1 < s.v.w then (s.v.get (x + 1) y).map fun r => decide (r = 0)
          else some false).bind fun isHole =>
        if isHole then
          follow fuel (if c > 1 then { s with parent := c.toNat } else s) x y (x + 1, y) false
        else some s).bind fun s =>
    (s.v.get x y).map fun c => if c ≠ 1 then { s with parent := c.natAbs } else s

/-- The binarised copy of the image (src/contours.rs:65, 79-85). -/
def binarise (im : Image Nat) (threshold : Nat) : Option (Image Int) :=
  forYX 0 im.h 0 im.w (Image.new im.w im.h 0) fun x y v =>
    (im.get x y).bind fun p => if p > threshold then v.put x y 1 else some v

/-- `find_contours_with_threshold` (src/contours.rs:59-199).  The fuel of the tracing loop is the
number of ordered pairs of pixels. -/
def findContours (im : Image Nat) (threshold : Nat) : Option (List Contour) :=
  (binarise im threshold).bind fun v =>
  (forRange 0 im.h (⟨v, dirs, [], 1, 1⟩ : St) fun y s =>
    forRange 0 im.w { s with parent := 1 } fun x s =>
      visit (im.w * im.h * 8) x y s).map fun s => s.contours

end Verif.Contours
