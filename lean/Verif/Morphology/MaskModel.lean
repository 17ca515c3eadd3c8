import Verif.Utils.Diffs
import Batteries.Data.List.Lemmas
/-
Model of the structuring masks and grayscale operators of src/morphology.rs.  Mask offsets are
integers (`i16` in the source; all offsets produced here lie in -511..=511).
-/
namespace Verif.Morphology

/-- A mask offset `Point<i16>`, as `(x, y)`. -/
abbrev Off := Int × Int

/-- The order checked by the `debug_assert!` of `Mask::new` (src/morphology.rs:387-393). -/
def offLt (a b : Off) : Prop := if a.2 = b.2 then a.1 < b.1 else a.2 < b.2

instance (a b : Off) : Decidable (offLt a b) := by unfold offLt; infer_instance

/-- `Mask::new` (src/morphology.rs:385-395): panics if too long or not sorted. -/
def maskNew (elements : List Off) : Option (List Off) :=
  if elements.length ≤ 511 * 511 then
    if elements.IsChain offLt then some elements else none
  else none

/-- `a..=b` on signed integers. -/
def irange (a b : Int) : List Int := (List.range (b + 1 - a).toNat).map fun (i : Nat) => a + (i : Int)

/-- `Mask::square` (src/morphology.rs:416-425). -/
def square (r : Nat) : Option (List Off) :=
  maskNew ((irange (-(r : Int)) r).flatMap fun y => (irange (-(r : Int)) r).map fun x => (x, y))

/-- `Mask::diamond` (src/morphology.rs:456-466); the capacity is not modelled. -/
def diamond (r : Nat) : Option (List Off) :=
  maskNew ((irange (-(r : Int)) r).flatMap fun y =>
    (irange ((y.natAbs : Int) - r) ((r : Int) - y.natAbs)).map fun x => (x, y))

/-- `(x..).find(|x| (x + 1)² + h² > r²)` (src/morphology.rs:514-515); `none` is running out of
fuel. -/
def findUp (r h : Nat) : Nat → Nat → Option Nat
  | 0, _ => none
  | fuel + 1, x => if (x + 1) ^ 2 + h ^ 2 > r ^ 2 then some x else findUp r h fuel (x + 1)

/-- `(0..=x).rev().find(|x| x² + h² <= r²)` (src/morphology.rs:518-520). -/
def findDown (r h : Nat) : Nat → Option Nat
  | 0 => if 0 ^ 2 + h ^ 2 ≤ r ^ 2 then some 0 else none
  | x + 1 => if (x + 1) ^ 2 + h ^ 2 ≤ r ^ 2 then some (x + 1) else findDown r h x

/-- The closure passed to `successors` (src/morphology.rs:506-524): `none` is a panic (failed
`try_into().unwrap()`) or non-termination, `some none` is the end of the sequence. -/
def nextHalfWidth (r : Nat) (lastH : Int) (lastW : Nat) : Option (Option (Int × Nat)) :=
  if lastH = (r : Int) then some none
  else
    let nh := lastH + 1
    let habs := nh.natAbs
    if nh ≤ 0 then
      (findUp r habs (r + 1) lastW).bind fun w => if w < 256 then some (some (nh, w)) else none
    else
      match findDown r habs lastW with
      | none => some none
      | some w => if w < 256 then some (some (nh, w)) else none

/-- `successors(Some(s), ..)`, at most `fuel` further elements. -/
def halfWidths (r : Nat) : Nat → Int × Nat → Option (List (Int × Nat))
  | 0, _ => none
  | fuel + 1, s =>
    (nextHalfWidth r s.1 s.2).bind fun n =>
    match n with
    | none => some [s]
    | some s' => (halfWidths r fuel s').map fun l => s :: l

/-- `Mask::disk` (src/morphology.rs:502-535). -/
def disk (r : Nat) : Option (List Off) :=
  (halfWidths r (2 * r + 1) (-(r : Int), 0)).bind fun l =>
  maskNew (l.flatMap fun p => (irange (-(p.2 : Int)) p.2).map fun x => (x, p.1))

/-- `Mask::from_image` (src/morphology.rs:366-383). -/
def fromImage (im : Image Nat) (cx cy : Nat) : Option (List Off) :=
  if im.w < 512 then
    if im.h < 512 then
      maskNew (((Utils.coords im.w im.h).filter fun p => im.px p.1 p.2 ≠ 0).map fun p =>
        ((p.1 : Int) - cx, (p.2 : Int) - cy))
    else none
  else none

/-- Adding an offset at the front of the groups of `chunk_by(|p| p.y)`. -/
def consGroup (p : Off) : List (Int × List Int) → List (Int × List Int)
  | [] => [(p.2, [p.1])]
  | g :: gs => if p.2 = g.1 then (g.1, p.1 :: g.2) :: gs else (p.2, [p.1]) :: g :: gs

/-- `lines!` (src/morphology.rs:347-356): runs of offsets with equal `y`. -/
def chunkByY : List Off → List (Int × List Int)
  | [] => []
  | p :: rest => consGroup p (chunkByY rest)

/-- The innermost loop of `mask_reduce` (src/morphology.rs:557-561). -/
def reduceRow (im : Image Nat) (op : Nat → Nat → Nat) (iy oy i : Nat) (x : Int)
    (out : Image Nat) : Option (Image Nat) :=
  let ix := x.toNat
  let ox := (-x).toNat
  forRange 0 (min (im.w - ix) (im.w - ox)) out fun j out =>
    (im.get (j + ix) (i + iy)).bind fun input =>
    (out.get (j + ox) (i + oy)).bind fun cur =>
    out.put (j + ox) (i + oy) (op input cur)

/-- `mask_reduce` (src/morphology.rs:538-565): `skip(n).zip(skip(m))` pairs index `i + n` with
`i + m`; `chunks(0)` panics. -/
def maskReduce (im : Image Nat) (mask : List Off) (neutral : Nat) (op : Nat → Nat → Nat) :
    Option (Image Nat) :=
  forList (chunkByY mask) (Image.new im.w im.h neutral) fun g out =>
    if im.w = 0 then none
    else
      let iy := g.1.toNat
      let oy := (-g.1).toNat
      forRange 0 (min (im.h - iy) (im.h - oy)) out fun i out =>
        forList g.2 out fun x out => reduceRow im op iy oy i x out

/-- `grayscale_dilate` (src/morphology.rs:640-642). -/
def grayDilate (im : Image Nat) (mask : List Off) : Option (Image Nat) := maskReduce im mask 0 max

/-- `grayscale_erode` (src/morphology.rs:717-719). -/
def grayErode (im : Image Nat) (mask : List Off) : Option (Image Nat) := maskReduce im mask 255 min

/-- `grayscale_open` (src/morphology.rs:759-761). -/
def grayOpen (im : Image Nat) (mask : List Off) : Option (Image Nat) :=
  (grayErode im mask).bind fun e => grayDilate e mask

/-- `grayscale_close` (src/morphology.rs:801-803). -/
def grayClose (im : Image Nat) (mask : List Off) : Option (Image Nat) :=
  (grayDilate im mask).bind fun e => grayErode e mask

end Verif.Morphology
