import Verif.Basic.Image
import Verif.Compose.Model
/-
Model of `/repo/src/image_hash/{bits,signals,phash}.rs`.  The one-dimensional cosine transform
(`rustdct`) and the resampling (`image::imageops::resize`) are external and are parameters;
numbers are elements of an arbitrary ordered field.
-/
namespace Verif.ImageHash

/-- `set_bit_at`, bits.rs:43-46. -/
def setBit (b : BitVec 64) (n : Nat) : Option (BitVec 64) :=
  if n < 64 then some (b ||| ((1 : BitVec 64) <<< n)) else none

/-- `unset_bit_at`, bits.rs:47-50. -/
def unsetBit (b : BitVec 64) (n : Nat) : Option (BitVec 64) :=
  if n < 64 then some (b &&& ~~~((1 : BitVec 64) <<< n)) else none

/-- `bit_at`, bits.rs:38-42. -/
def bitAt (b : BitVec 64) (n : Nat) : Option Bool :=
  if n < 64 then some (b &&& ((1 : BitVec 64) <<< n) != 0) else none

/-- `Bits64::new`, bits.rs:7-20. -/
def bitsNew (v : List Bool) : Option (BitVec 64) :=
  (forList v ((0 : BitVec 64), 0) fun bit s =>
    (if bit then setBit s.1 s.2 else unsetBit s.1 s.2).map fun b => (b, s.2 + 1)).bind fun s =>
  if s.2 = 64 then some s.1 else none

/-- `to_bitarray`, bits.rs:25-31. -/
def toBitArray (b : BitVec 64) : Option (List Bool) :=
  forRange 0 64 (List.replicate 64 false) fun n bits => (bitAt b n).map fun v => bits.set n v

/-- `u64::count_ones`. -/
def countOnes64 (b : BitVec 64) : Nat := ((List.range 64).filter fun i => b.getLsbD i).length

/-- `hamming_distance`, bits.rs:32-37 and phash.rs:31-33. -/
def hammingDistance (a b : BitVec 64) : Nat := countOnes64 (a ^^^ b)

variable {α : Type _}

/-- Row-major buffer of an image (`as_mut`). -/
def toBuf (im : Image α) : List α :=
  (List.range (im.w * im.h)).map fun i => im.px (i % im.w) (i / im.w)

/-- The image with a given row-major buffer. -/
def ofBuf [Inhabited α] (w h : Nat) (buf : List α) : Image α :=
  ⟨w, h, fun x y => buf.getD (x + w * y) default⟩

/-- The loops of `transpose_inplace`, signals.rs:78-93, on the buffer of an `n` by `n` image. -/
def transposeBuf (n : Nat) (buf : List α) : Option (List α) :=
  if buf.length = n * n then
    forRange 0 n buf fun row buf => forRange row n buf fun col buf =>
      (buf[row + n * col]?).bind fun a => (buf[col + n * row]?).bind fun b =>
      some ((buf.set (row + n * col) b).set (col + n * row) a)
  else none

/-- `transpose_inplace`, signals.rs:72-94. -/
def transposeInplace [Inhabited α] (im : Image α) : Option (Image α) :=
  if im.w = im.h then (transposeBuf im.w (toBuf im)).map (ofBuf im.w im.h) else none

/-- `transpose`, signals.rs:96-100. -/
def transpose [Inhabited α] (im : Image α) : Option (Image α) :=
  Image.fromFn im.h im.w fun x y => im.get y x

/-- The closure `T` of `dct2d`, signals.rs:10-18. -/
def transposeAny [Inhabited α] (im : Image α) : Option (Image α) :=
  if im.w = im.h then transposeInplace im else transpose im

/-- `dct1d`, signals.rs:39-70; `dct` transforms one row of length `len`. -/
def dct1d [Inhabited α] (len : Nat) (dct : List α → List α) (im : Image α) : Option (Image α) :=
  if im.w = len then
    some ⟨im.w, im.h, fun x y => (dct ((List.range im.w).map fun x => im.px x y)).getD x default⟩
  else none

/-- `dct2d`, signals.rs:8-32; `dct n` is the planned transform of length `n`. -/
def dct2d [Inhabited α] (dct : Nat → List α → List α) (im : Image α) : Option (Image α) :=
  (transposeAny im).bind fun t => (dct1d im.h (dct im.h) t).bind fun d =>
  (transposeAny d).bind fun t => dct1d im.w (dct im.w) t

/-- `phash`, phash.rs:54-77; `resize` is the resampling to 32 by 32 pixels. -/
def phash {K : Type _} [Inhabited K] [Add K] [Div K] [NatCast K] [LT K] [DecidableLT K]
    (resize : Image K → Image K) (dct : Nat → List K → List K) (im : Image K) :
    Option (BitVec 64) :=
  (dct2d dct (resize im)).bind fun d => (Compose.crop d 1 1 8 8).bind fun c =>
  match toBuf c with
  | [] => none
  | a :: l =>
    if (toBuf c).length = 64 then
      let mean := l.foldl (· + ·) a / (((toBuf c).length : Nat) : K)
      bitsNew ((toBuf c).map fun x => decide (mean < x))
    else none

end Verif.ImageHash
