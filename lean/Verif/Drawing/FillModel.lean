import Verif.Basic.Image
/-
Model of `/repo/src/drawing/fill.rs`.  `i32` is `Int` (no overflow).  The `while` loops run on
fuel, running out of fuel is `none`.  The fuel given to the inner loops always suffices
(`fillLeft_spec` .. `rowLoop_spec`); the fuel of the outer loop is a parameter of `floodFill`.
-/
namespace Verif.Drawing
variable {α : Type _} [DecidableEq α]

/-- `inside`, fill.rs:60-71. -/
def inside (im : Image α) (x y : Int) (t : α) : Bool :=
  if x < 0 ∨ y < 0 then false
  else decide (x.toNat < im.w ∧ y.toNat < im.h ∧ im.px x.toNat y.toNat = t)

/-- A stack entry `(x1, x2, y, dy)`, fill.rs:24-27. -/
structure Span where
  x1 : Int
  x2 : Int
  y : Int
  dy : Int
  deriving DecidableEq, Repr

/-- `while inside(x - 1, y) { put(x - 1, y); x -= 1 }`, fill.rs:31-34. -/
def fillLeft (t f : α) : Nat → Image α → Int → Int → Option (Image α × Int)
  | 0, im, x, y => if inside im (x - 1) y t then none else some (im, x)
  | n + 1, im, x, y =>
    if inside im (x - 1) y t then
      (im.put (x - 1).toNat y.toNat f).bind fun im => fillLeft t f n im (x - 1) y
    else some (im, x)

/-- `while inside(x1, y) { put(x1, y); x1 += 1 }`, fill.rs:40-43. -/
def fillRight (t f : α) : Nat → Image α → Int → Int → Option (Image α × Int)
  | 0, im, x, y => if inside im x y t then none else some (im, x)
  | n + 1, im, x, y =>
    if inside im x y t then
      (im.put x.toNat y.toNat f).bind fun im => fillRight t f n im (x + 1) y
    else some (im, x)

/-- `while x1 < x2 && !inside(x1, y) { x1 += 1 }`, fill.rs:51-53. -/
def skipOut (t : α) (im : Image α) (x2 y : Int) : Nat → Int → Option Int
  | 0, x1 => if x1 < x2 ∧ inside im x1 y t = false then none else some x1
  | n + 1, x1 => if x1 < x2 ∧ inside im x1 y t = false then skipOut t im x2 y n (x1 + 1) else some x1

/-- The entries pushed in one round of the row loop, last pushed first, fill.rs:44-49. -/
def runPushes (x x1 x2 y dy : Int) : List Span :=
  (if x1 - 1 > x2 then [⟨x2 + 1, x1 - 1, y - dy, -dy⟩] else []) ++
  (if x1 > x then [⟨x, x1 - 1, y + dy, dy⟩] else [])

/-- The row loop `while x1 <= x2 { .. }`, fill.rs:39-55.  Entries are only pushed, so the loop
carries the list of pushed entries, top of the stack first. -/
def rowLoop (t f : α) (x2 y dy : Int) :
    Nat → Image α → Int → Int → List Span → Option (Image α × List Span)
  | 0, im, _, x1, st => if x1 ≤ x2 then none else some (im, st)
  | n + 1, im, x, x1, st =>
    if x1 ≤ x2 then
      (fillRight t f (im.w + 1) im x1 y).bind fun r =>
      (skipOut t r.1 x2 y ((x2 - r.2).toNat + 1) (r.2 + 1)).bind fun x1' =>
      rowLoop t f x2 y dy n r.1 x1' x1' (runPushes x r.2 x2 y dy ++ st)
    else some (im, st)

/-- The leftward scan with its push, fill.rs:30-38: the image, the new `x` and the pushed
entries. -/
def leftPart (t f : α) (im : Image α) (s : Span) : Option (Image α × Int × List Span) :=
  if inside im s.x1 s.y t then
    (fillLeft t f (im.w + 1) im s.x1 s.y).bind fun r =>
    some (r.1, r.2, if r.2 < s.x1 then [⟨r.2, s.x1 - 1, s.y - s.dy, -s.dy⟩] else [])
  else some (im, s.x1, [])

/-- The body of the outer loop, fill.rs:28-55: the image and the pushed entries. -/
def processSpan (t f : α) (im : Image α) (s : Span) : Option (Image α × List Span) :=
  (leftPart t f im s).bind fun r =>
  rowLoop t f s.x2 s.y s.dy ((s.x2 + 1 - s.x1).toNat + 1) r.1 r.2.1 s.x1 r.2.2

/-- The outer loop `while let Some(..) = stack.pop()`, fill.rs:27-56. -/
def floodLoop (t f : α) : Nat → Image α → List Span → Option (Image α)
  | 0, im, st => if st = [] then some im else none
  | n + 1, im, st =>
    match st with
    | [] => some im
    | s :: st => (processSpan t f im s).bind fun r => floodLoop t f n r.1 (r.2 ++ st)

/-- `flood_fill_mut`, fill.rs:16-57, with `n` rounds of fuel. -/
def floodFill (n : Nat) (im : Image α) (x y : Nat) (f : α) : Option (Image α) :=
  (im.get x y).bind fun t =>
  floodLoop t f n im [⟨x, x, (y : Int) - 1, -1⟩, ⟨x, x, y, 1⟩]

end Verif.Drawing
