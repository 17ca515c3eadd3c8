import Verif.Basic.Loop
import Verif.Basic.Image
/-
Model of the FAST part of /repo/src/corners.rs.

Simplifications.
* Pixels are natural numbers (the code: `u8`), thresholds natural numbers (the code: `u8`);
  `i16` differences are integers (sums of two `u8` never overflow `i16`).
* `unsafe_get_pixel` out of bounds is `none`.
* Scores are kept as integers; the code casts them to `f32` (exact below 2^24).
-/
namespace Verif.Corners

/-- corners.rs l.63-68 `Fast`. -/
inductive Fast
  | nine | twelve
deriving DecidableEq, Repr

/-- corners.rs l.471-485: the loop of `search_span`, on the results of the condition; `none` is the
panic of `unwrap`. -/
def searchLoop (length : Nat) : List Bool → Nat → Option Nat → Option Bool
  | [], ok, start => start.bind fun s => some (decide (ok + s ≥ length))
  | c :: cs, ok, start =>
    if c then
      if ok + 1 = length then some true else searchLoop length cs (ok + 1) start
    else
      let start := if start.isNone then some ok else start
      searchLoop length cs 0 start

/-- corners.rs l.460-486 `search_span`. -/
def searchSpan (circle : List Int) (length : Nat) (f : Int → Bool) : Option Bool :=
  if length > 16 then some false else searchLoop length (circle.map f) 0 none

/-- corners.rs l.448-450 `has_bright_span`. -/
def hasBrightSpan (circle : List Int) (length : Nat) (threshold : Int) : Option Bool :=
  searchSpan circle length fun c => decide (c > threshold)

/-- corners.rs l.454-456 `has_dark_span`. -/
def hasDarkSpan (circle : List Int) (length : Nat) (threshold : Int) : Option Bool :=
  searchSpan circle length fun c => decide (c < threshold)

/-- Read one pixel as `i16`. -/
def rd (im : Image Nat) (x y : Nat) : Option Int := (im.get x y).map fun v => (v : Int)

/-- corners.rs l.417-444 `get_circle`; subtractions are safe because `x, y ≥ 3`. -/
def getCircle (im : Image Nat) (x y : Nat) (p0 p4 p8 p12 : Int) : Option (List Int) :=
  (rd im (x + 1) (y - 3)).bind fun q1 => (rd im (x + 2) (y - 2)).bind fun q2 =>
  (rd im (x + 3) (y - 1)).bind fun q3 => (rd im (x + 3) (y + 1)).bind fun q5 =>
  (rd im (x + 2) (y + 2)).bind fun q6 => (rd im (x + 1) (y + 3)).bind fun q7 =>
  (rd im (x - 1) (y + 3)).bind fun q9 => (rd im (x - 2) (y + 2)).bind fun q10 =>
  (rd im (x - 3) (y + 1)).bind fun q11 => (rd im (x - 3) (y - 1)).bind fun q13 =>
  (rd im (x - 2) (y - 2)).bind fun q14 => (rd im (x - 1) (y - 3)).bind fun q15 =>
  some [p0, q1, q2, q3, p4, q5, q6, q7, p8, q9, q10, q11, p12, q13, q14, q15]

/-- The border test of corners.rs l.300 and l.349. -/
def nearBorder (im : Image Nat) (x y : Nat) : Bool :=
  x ≥ 4294967295 - 3 || y ≥ 4294967295 - 3 || x < 3 || y < 3 || im.w ≤ x + 3 || im.h ≤ y + 3

/-- corners.rs l.288-334 `is_corner_fast9`. -/
def isCorner9 (im : Image Nat) (threshold x y : Nat) : Option Bool :=
  if nearBorder im x y then some false
  else
    (rd im x y).bind fun c =>
    let low : Int := c - threshold
    let high : Int := c + threshold
    (rd im x (y - 3)).bind fun p0 => (rd im (x + 3) y).bind fun p4 =>
    (rd im x (y + 3)).bind fun p8 => (rd im (x - 3) y).bind fun p12 =>
    let above : Bool := (p12 > high || p4 > high) && (p8 > high || p0 > high)
    let below : Bool := (p12 < low || p4 < low) && (p8 < low || p0 < low)
    if !above && !below then some false
    else
      (getCircle im x y p0 p4 p8 p12).bind fun pixels =>
      if above then
        (hasBrightSpan pixels 9 high).bind fun b =>
        if b then some true
        else if below then hasDarkSpan pixels 9 low else some false
      else if below then hasDarkSpan pixels 9 low else some false

/-- corners.rs l.337-405 `is_corner_fast12`. -/
def isCorner12 (im : Image Nat) (threshold x y : Nat) : Option Bool :=
  if nearBorder im x y then some false
  else
    (rd im x y).bind fun c =>
    let low : Int := c - threshold
    let high : Int := c + threshold
    (rd im x (y - 3)).bind fun p0 => (rd im x (y + 3)).bind fun p8 =>
    let above : Bool := p0 > high && p8 > high
    let below : Bool := p0 < low && p8 < low
    if !above && !below then some false
    else
      (rd im (x + 3) y).bind fun p4 => (rd im (x - 3) y).bind fun p12 =>
      let above := above && (p4 > high || p12 > high)
      let below := below && (p4 < low || p12 < low)
      if !above && !below then some false
      else
        (getCircle im x y p0 p4 p8 p12).bind fun pixels =>
        if above then hasBrightSpan pixels 12 high else hasDarkSpan pixels 12 low

/-- corners.rs l.262-265. -/
def isCorner (v : Fast) (im : Image Nat) (threshold x y : Nat) : Option Bool :=
  match v with
  | .nine => isCorner9 im threshold x y
  | .twelve => isCorner12 im threshold x y

/-- corners.rs l.254-272: the loop of `fast_corner_score` with an iteration budget; running out of
budget is `none`, like a panic (`probe - 1` on 0). -/
def scoreLoop (test : Nat → Option Bool) : Nat → Nat → Nat → Option Nat
  | 0, _, _ => none
  | fuel + 1, max, min =>
    if max = min then some max
    else
      let mean := (max + min) / 2
      let probe := if max = min + 1 then max else mean
      (test probe).bind fun b =>
      if b then scoreLoop test fuel max probe
      else (csub probe 1).bind fun max => scoreLoop test fuel max min

/-- corners.rs l.250-273 `fast_corner_score`. -/
def score (v : Fast) (im : Image Nat) (threshold x y : Nat) : Option Nat :=
  scoreLoop (fun t => isCorner v im t x y) 256 255 threshold

/-- corners.rs l.70-102 `corners_fast12` and `corners_fast9`: positions and scores in order. -/
def corners (v : Fast) (im : Image Nat) (threshold : Nat) : Option (List (Nat × Nat × Nat)) :=
  forYX 0 im.h 0 im.w [] fun x y corners =>
    (isCorner v im threshold x y).bind fun b =>
    if b then
      (score v im threshold x y).bind fun s => some (corners ++ [(x, y, s)])
    else some corners

end Verif.Corners
