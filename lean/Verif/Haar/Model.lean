import Verif.Basic.Loop
import Verif.Basic.Image
/-
Model of /repo/src/haar.rs.

Simplifications.
* `u8`, `u32` and `i32` values are unbounded integers; every arithmetic operation of the code that
  could leave its type goes through a range check (`ck8`, `ck32`, `cki32`) whose failure (`none`) is
  the overflow panic of a debug build.
* `unsafe_get_pixel` out of bounds is `none`.
* The shape in blocks of a feature is a pair of numbers.
-/
namespace Verif.Haar

/-- Result of `u8` arithmetic (haar.rs, throughout), `none` on overflow. -/
def ck8 (n : Nat) : Option Nat := if n < 256 then some n else none
/-- Result of `u32` arithmetic (haar.rs, throughout), `none` on overflow. -/
def ck32 (n : Nat) : Option Nat := if n < 2 ^ 32 then some n else none
/-- Result of `i32` arithmetic (haar.rs, throughout), `none` on overflow. -/
def cki32 (n : Int) : Option Int := if -2 ^ 31 ≤ n ∧ n < 2 ^ 31 then some n else none

/-- Rust `as i32` from `u32`. -/
def asI32 (n : Nat) : Int := if n < 2 ^ 31 then n else (n : Int) - 2 ^ 32

/-- haar.rs l.37-82 `HaarFeatureType`. -/
inductive Kind
  | twoH | threeH | twoV | threeV | four
deriving DecidableEq, Repr

/-- haar.rs l.86-94 `shape`: width and height in blocks. -/
def Kind.shape : Kind → Nat × Nat
  | .twoH => (2, 1)
  | .threeH => (3, 1)
  | .twoV => (1, 2)
  | .threeV => (1, 3)
  | .four => (2, 2)

/-- haar.rs l.15-31 `HaarFeature`; `positive` is the sign of the top left block. -/
structure Feature where
  positive : Bool
  kind : Kind
  bw : Nat
  bh : Nat
  left : Nat
  top : Nat
deriving DecidableEq, Repr

/-- haar.rs l.253-259 `feature_size`. -/
def featureSize (k : Kind) (bw bh : Nat) : Option (Nat × Nat) :=
  (ck8 (k.shape.1 * bw)).bind fun w => (ck8 (k.shape.2 * bh)).bind fun h => some (w, h)

/-- haar.rs l.220-225 `block_boundary`. -/
def Feature.blockBoundary (f : Feature) (x y : Nat) : Option (Nat × Nat) :=
  (ck8 (x * f.bw)).bind fun dx => (ck8 (f.left + dx)).bind fun px =>
  (ck8 (y * f.bh)).bind fun dy => (ck8 (f.top + dy)).bind fun py => some (px, py)

/-- haar.rs l.127-209: the coefficients and block corners of each formula, in order. -/
def Kind.terms : Kind → List (Int × Nat × Nat)
  | .twoH => [(1, 0, 0), (-2, 1, 0), (1, 2, 0), (-1, 0, 1), (2, 1, 1), (-1, 2, 1)]
  | .threeH => [(1, 0, 0), (-2, 1, 0), (2, 2, 0), (-1, 3, 0), (-1, 0, 1), (2, 1, 1), (-2, 2, 1),
      (1, 3, 1)]
  | .twoV => [(1, 0, 0), (-1, 1, 0), (-2, 0, 1), (2, 1, 1), (1, 0, 2), (-1, 1, 2)]
  | .threeV => [(1, 0, 0), (-1, 1, 0), (-2, 0, 1), (2, 1, 1), (2, 0, 2), (-2, 1, 2), (-1, 0, 3),
      (1, 1, 3)]
  | .four => [(1, 0, 0), (-2, 1, 0), (1, 2, 0), (-2, 0, 1), (4, 1, 1), (-2, 2, 1), (1, 0, 2),
      (-2, 1, 2), (1, 2, 2)]

/-- haar.rs l.131-208: left to right evaluation of one formula; l.248-250 `read`. -/
def sumTerms (f : Feature) (integral : Image Nat) (ts : List (Int × Nat × Nat)) (acc : Int) :
    Option Int :=
  forList ts acc fun t acc =>
    (f.blockBoundary t.2.1 t.2.2).bind fun p =>
    (integral.get p.1 p.2).bind fun r =>
    (cki32 (t.1.natAbs * asI32 r)).bind fun _ =>
    cki32 (acc + t.1 * asI32 r)

/-- haar.rs l.99-218 `evaluate`. -/
def Feature.evaluate (f : Feature) (integral : Image Nat) : Option Int :=
  (featureSize f.kind f.bw f.bh).bind fun size =>
  if size.1 + f.left < integral.w ∧ size.2 + f.top < integral.h then
    (sumTerms f integral f.kind.terms 0).bind fun sum =>
    cki32 (sum * if f.positive then 1 else -1)
  else none

/-- haar.rs l.329-334 `block_sizes`. -/
def blockSizes (shape frame : Nat × Nat) : Option (List (Nat × Nat)) :=
  (ck8 (frame.1 / shape.1 + 1)).bind fun uw =>
  (ck8 (frame.2 / shape.2 + 1)).bind fun uh =>
  some ((List.range' 1 (uw - 1)).flatMap fun w => (List.range' 1 (uh - 1)).map fun h => (w, h))

/-- haar.rs l.338-341 `start_positions`: the exclusive upper end of the range from 0. -/
def startPositions (inner outer : Nat) : Option Nat :=
  if inner > outer then some 0 else ck8 (outer - inner + 1)

/-- haar.rs l.344-348 `feature_positions`. -/
def featurePositions (size frame : Nat × Nat) : Option (List (Nat × Nat)) :=
  (startPositions size.1 frame.1).bind fun ux =>
  (startPositions size.2 frame.2).bind fun uy =>
  some ((List.range ux).flatMap fun x => (List.range uy).map fun y => (x, y))

/-- haar.rs l.279-300 `haar_features_of_type`. -/
def featuresOfType (k : Kind) (frame : Nat × Nat) : Option (List Feature) :=
  (blockSizes k.shape frame).bind fun sizes =>
  forList sizes [] fun b features =>
    (featureSize k b.1 b.2).bind fun size =>
    (featurePositions size frame).bind fun ps =>
    forList ps features fun p features =>
      forList [true, false] features fun s features =>
        some (features ++ [⟨s, k, b.1, b.2, p.1, p.2⟩])

/-- haar.rs l.262-277 `enumerate_haar_features`. -/
def enumerate (w h : Nat) : Option (List Feature) :=
  forList [Kind.twoH, .threeH, .twoV, .threeV, .four] [] fun k features =>
    (featuresOfType k (w, h)).bind fun fs => some (features ++ fs)

/-- haar.rs l.377-380 `num_features`. -/
def numFeatures (side blocks : Nat) : Option Nat :=
  let m := side / blocks
  (ck32 (side + 1)).bind fun s1 => (ck32 (m * s1)).bind fun a =>
  (ck32 (m + 1)).bind fun m1 => (ck32 (m * m1)).bind fun mm =>
  (ck32 (blocks * (mm / 2))).bind fun b => csub a b

/-- haar.rs l.361-375 `number_of_haar_features`. -/
def numberOfFeatures (w h : Nat) : Option Nat :=
  let prod (i j : Nat) : Option Nat :=
    (numFeatures w i).bind fun a => (numFeatures h j).bind fun b => ck32 (a * b)
  (prod 2 1).bind fun p1 =>
  (prod 3 1).bind fun p2 => (ck32 (p1 + p2)).bind fun s =>
  (prod 1 2).bind fun p3 => (ck32 (s + p3)).bind fun s =>
  (prod 1 3).bind fun p4 => (ck32 (s + p4)).bind fun s =>
  (prod 2 2).bind fun p5 => (ck32 (s + p5)).bind fun s =>
  ck32 (s * 2)

variable {α : Type _}

/-- haar.rs l.395-419 `draw_haar_feature_mut`. -/
def draw (white black : α) (im : Image α) (f : Feature) : Option (Image α) :=
  let parityShift := if f.positive then 0 else 1
  forRange 0 f.kind.shape.1 im fun w im =>
  forRange 0 f.kind.shape.2 im fun h im =>
    let color := if (w + h + parityShift) % 2 = 0 then white else black
    forRange 0 f.bw im fun x im =>
    forRange 0 f.bh im fun y im =>
      (ck8 (w * f.bw)).bind fun dx => (ck8 (f.left + dx)).bind fun px => (ck8 (px + x)).bind fun px =>
      (ck8 (h * f.bh)).bind fun dy => (ck8 (f.top + dy)).bind fun py => (ck8 (py + y)).bind fun py =>
      im.put px py color

end Verif.Haar
