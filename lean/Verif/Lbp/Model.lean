import Verif.Basic.Image
/-
Model of `/repo/src/local_binary_patterns.rs`.  Bytes are `BitVec 8`; subpixels are naturals.
-/
namespace Verif.Lbp

/-- `local_binary_pattern`, local_binary_patterns.rs:38-90.  The outer option is panic or undefined
behaviour (unchecked reads), the inner one the function's own `Option`. -/
def localBinaryPattern (im : Image Nat) (x y : Nat) : Option (Option (BitVec 8)) :=
  if im.w = 0 ∨ im.h = 0 then some none
  else if x = 0 ∨ x ≥ im.w - 1 ∨ y = 0 ∨ y ≥ im.h - 1 then some none
  else
    (im.get x y).bind fun center =>
    (im.get x (y - 1)).bind fun n0 => (im.get (x + 1) (y - 1)).bind fun n1 =>
    (im.get (x + 1) y).bind fun n2 => (im.get (x + 1) (y + 1)).bind fun n3 =>
    (im.get x (y + 1)).bind fun n4 => (im.get (x - 1) (y + 1)).bind fun n5 =>
    (im.get (x - 1) y).bind fun n6 => (im.get (x - 1) (y - 1)).bind fun n7 =>
    (forRange 0 8 (0 : BitVec 8) fun i pattern =>
      ([n0, n1, n2, n3, n4, n5, n6, n7][i]?).bind fun n =>
      some (pattern ||| ((1 &&& (if n < center then 1 else 0 : BitVec 8)) <<< i))).map some

/-- `min_shift`, local_binary_patterns.rs:101-107. -/
def minShift (byte : BitVec 8) : BitVec 8 :=
  [1, 2, 3, 4, 5, 6, 7].foldl (fun m i => if byte.rotateRight i < m then byte.rotateRight i else m)
    byte

/-- `u8::count_ones`. -/
def countOnes (b : BitVec 8) : Nat := ((List.range 8).filter fun i => b.getLsbD i).length

/-- `count_transitions`, local_binary_patterns.rs:124-126. -/
def countTransitions (byte : BitVec 8) : Nat := countOnes (byte ^^^ byte.rotateRight 1)

/-- `UNIFORM_REPRESENTATIVE_2`, local_binary_patterns.rs:131-388. -/
def uniformRepresentative2 : Array Nat := #[
  0, 1, 1, 3, 1, 170, 3, 7, 1, 170, 170, 170, 3, 170, 7, 15, 1, 170, 170, 170, 170, 170, 170,
   170, 3, 170, 170, 170, 7, 170, 15, 31, 1, 170, 170, 170, 170, 170, 170, 170, 170, 170, 170,
   170, 170, 170, 170, 170, 3, 170, 170, 170, 170, 170, 170, 170, 7, 170, 170, 170, 15, 170, 31,
   63, 1, 170, 170, 170, 170, 170, 170, 170, 170, 170, 170, 170, 170, 170, 170, 170, 170, 170,
   170, 170, 170, 170, 170, 170, 170, 170, 170, 170, 170, 170, 170, 170, 3, 170, 170, 170, 170,
   170, 170, 170, 170, 170, 170, 170, 170, 170, 170, 170, 7, 170, 170, 170, 170, 170, 170, 170,
   15, 170, 170, 170, 31, 170, 63, 127, 1, 3, 170, 7, 170, 170, 170, 15, 170, 170, 170, 170, 170,
   170, 170, 31, 170, 170, 170, 170, 170, 170, 170, 170, 170, 170, 170, 170, 170, 170, 170, 63,
   170, 170, 170, 170, 170, 170, 170, 170, 170, 170, 170, 170, 170, 170, 170, 170, 170, 170, 170,
   170, 170, 170, 170, 170, 170, 170, 170, 170, 170, 170, 170, 127, 3, 7, 170, 15, 170, 170, 170,
   31, 170, 170, 170, 170, 170, 170, 170, 63, 170, 170, 170, 170, 170, 170, 170, 170, 170, 170,
   170, 170, 170, 170, 170, 127, 7, 15, 170, 31, 170, 170, 170, 63, 170, 170, 170, 170, 170, 170,
   170, 127, 15, 31, 170, 63, 170, 170, 170, 127, 31, 63, 170, 127, 63, 127, 127, 255]

/-- `MIN_SHIFT`, local_binary_patterns.rs:391-648. -/
def minShiftTable : Array Nat := #[
  0, 1, 1, 3, 1, 5, 3, 7, 1, 9, 5, 11, 3, 13, 7, 15, 1, 17, 9, 19, 5, 21, 11, 23, 3, 25, 13, 27,
   7, 29, 15, 31, 1, 9, 17, 25, 9, 37, 19, 39, 5, 37, 21, 43, 11, 45, 23, 47, 3, 19, 25, 51, 13,
   53, 27, 55, 7, 39, 29, 59, 15, 61, 31, 63, 1, 5, 9, 13, 17, 21, 25, 29, 9, 37, 37, 45, 19, 53,
   39, 61, 5, 21, 37, 53, 21, 85, 43, 87, 11, 43, 45, 91, 23, 87, 47, 95, 3, 11, 19, 27, 25, 43,
   51, 59, 13, 45, 53, 91, 27, 91, 55, 111, 7, 23, 39, 55, 29, 87, 59, 119, 15, 47, 61, 111, 31,
   95, 63, 127, 1, 3, 5, 7, 9, 11, 13, 15, 17, 19, 21, 23, 25, 27, 29, 31, 9, 25, 37, 39, 37, 43,
   45, 47, 19, 51, 53, 55, 39, 59, 61, 63, 5, 13, 21, 29, 37, 45, 53, 61, 21, 53, 85, 87, 43, 91,
   87, 95, 11, 27, 43, 59, 45, 91, 91, 111, 23, 55, 87, 119, 47, 111, 95, 127, 3, 7, 11, 15, 19,
   23, 27, 31, 25, 39, 43, 47, 51, 55, 59, 63, 13, 29, 45, 61, 53, 87, 91, 95, 27, 59, 91, 111,
   55, 119, 111, 127, 7, 15, 23, 31, 39, 47, 55, 63, 29, 61, 87, 95, 59, 111, 119, 127, 15, 31,
   47, 63, 61, 95, 111, 127, 31, 63, 95, 127, 63, 127, 127, 255]

end Verif.Lbp
