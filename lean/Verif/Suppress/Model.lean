import Verif.Basic.Image
import Mathlib.Order.Lattice
import Mathlib.Order.Defs.LinearOrder
/-
Model of src/suppress.rs.  Coordinates are naturals (the `u32` additions `x + radius + 1` are not
modelled as overflowing).  `(a, b) < (c, d)` on tuples is the lexicographic order.
-/
namespace Verif.Suppress
variable {α : Type _} [LinearOrder α]

/-- Lexicographic `<` on pairs, as derived by Rust. -/
def lexLt (a b c d : Nat) : Bool := a < c || (a = c && b < d)

/-- The state of the block search: best position and value. -/
structure Best (α : Type _) where
  x : Nat
  y : Nat
  v : α

/-- The search of one block (src/suppress.rs:30-47). -/
def blockMax (im : Image α) (x y radius : Nat) : Option (Best α) :=
  (im.get x y).bind fun mi =>
  forYX y (min im.h (y + radius + 1)) x (min im.w (x + radius + 1)) ⟨x, y, mi⟩ fun cx cy b =>
    (im.get cx cy).bind fun ci =>
    if ci < b.v then some b
    else if ci > b.v || lexLt cx cy b.x b.y then some ⟨cx, cy, ci⟩
    else some b

/-- `contains_greater_value` (src/suppress.rs:81-107).  The early return is modelled by a flag
that is never reset; pixels after the first hit are read but ignored. -/
def containsGreaterValue (im : Image α) (x y : Nat) (v : α) (yl yu xl xu : Nat) : Option Bool :=
  forYX yl yu xl xu false fun cx cy found =>
    if found then some true
    else (im.get cx cy).bind fun ci =>
      if ci < v then some false
      else if ci > v || lexLt cx cy x y then some true
      else some false

/-- `suppress_non_maximum` (src/suppress.rs:10-75); `(0..n).step_by(r + 1)` visits the multiples
of `r + 1` below `n`. -/
def suppressNonMaximum (im : Image α) (zero : α) (radius : Nat) : Option (Image α) :=
  let out := Image.new im.w im.h zero
  if im.w = 0 ∨ im.h = 0 then some out
  else
    forYX 0 ((im.h + radius) / (radius + 1)) 0 ((im.w + radius) / (radius + 1)) out
      fun kx ky out =>
    let x := kx * (radius + 1)
    let y := ky * (radius + 1)
    (blockMax im x y radius).bind fun b =>
    let x0 := b.x - radius
    let x1 := x
    let x2 := min im.w (x + radius + 1)
    let x3 := min im.w (b.x + radius + 1)
    let y0 := b.y - radius
    let y1 := y
    let y2 := min im.h (y + radius + 1)
    let y3 := min im.h (b.y + radius + 1)
    (containsGreaterValue im b.x b.y b.v y0 y1 x0 x3).bind fun f1 =>
    (containsGreaterValue im b.x b.y b.v y1 y2 x0 x1).bind fun f2 =>
    (containsGreaterValue im b.x b.y b.v y1 y2 x2 x3).bind fun f3 =>
    (containsGreaterValue im b.x b.y b.v y2 y3 x0 x3).bind fun f4 =>
    if !(f1 || f2 || f3 || f4) then out.put b.x b.y b.v else some out

/-- A scored point (`Position + Score`, src/definitions.rs). -/
structure Pt (α : Type _) where
  x : Nat
  y : Nat
  score : α
  deriving DecidableEq

/-- The key order `(y, x)` of `sort_by_key` (src/suppress.rs:116). -/
def keyLe (a b : Pt α) : Bool := a.y < b.y || (a.y = b.y && a.x ≤ b.x)

/-- Scanning one row (src/suppress.rs:141-160): `some false` as result means the point is not a
maximum; `break` and `continue` are the recursion. -/
def scanRow (radius : Nat) (t : Pt α) : List (Pt α) → Bool
  | [] => true
  | c :: rest =>
    if c.x + radius < t.x then scanRow radius t rest
    else if c.x > t.x + radius then true
    else if c.score > t.score then false
    else if c.score < t.score then scanRow radius t rest
    else if lexLt c.y c.x t.y t.x then false
    else scanRow radius t rest

/-- Scanning the rows (src/suppress.rs:140-164), stopping at the first failure; an index outside
the row table panics. -/
def scanRows (radius : Nat) (t : Pt α) (rows : List (List (Pt α))) (lo hi : Nat) : Option Bool :=
  forRange lo hi true fun y isMax =>
    if !isMax then some false
    else (rows[y]?).map fun row => scanRow radius t row

/-- `height` (src/suppress.rs:117-120). -/
def heightOf (ordered : List (Pt α)) : Nat :=
  match ordered.getLast? with
  | some t => t.y
  | none => 0

/-- `local_maxima` (src/suppress.rs:111-172).  `sort_by_key` is a stable merge sort. -/
def localMaxima (ts : List (Pt α)) (radius : Nat) : Option (List (Pt α)) :=
  let ordered := ts.mergeSort keyLe
  let height := heightOf ordered
  (forList ordered (List.replicate (height + 1) []) fun t rows =>
    (rows[t.y]?).map fun row => rows.set t.y (row ++ [t])).bind fun rows =>
  forList ordered [] fun t acc =>
    let rowLower := t.y - radius
    let rowUpper := if t.y + radius + 1 > height then height else t.y + radius + 1
    (scanRows radius t rows rowLower rowUpper).map fun isMax =>
    if isMax then acc ++ [t] else acc

end Verif.Suppress
