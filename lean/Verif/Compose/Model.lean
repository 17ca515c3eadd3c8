import Verif.Basic.Image
/-
Model of src/compose.rs and of the quarter turns and `translate` of
src/geometric_transformations.rs.  Pixels are an arbitrary type.  `u32`/`i32` additions on
coordinates are unbounded (they overflow only for images beyond 2^31 pixels a side).
-/
namespace Verif.Compose
variable {α : Type _}

/-- `crop` (src/compose.rs:38-48) and `crop_parallel` (:51-62), which evaluates the same closure
at the same coordinates: `rect` is `(rx, ry, rw, rh)`. -/
def crop [Inhabited α] (im : Image α) (rx ry rw rh : Nat) : Option (Image α) :=
  if rx + rw ≤ im.w ∧ ry + rh ≤ im.h then
    Image.fromFn rw rh fun x y => im.get (rx + x) (ry + y)
  else none

/-- Loop body shared by the in-place swaps: read both pixels, then write both
(src/compose.rs:106-110, 157-161, src/geometric_transformations.rs:437-441, 451-455). -/
def swapPx (im : Image α) (x y x' y' : Nat) : Option (Image α) :=
  (im.get x y).bind fun p => (im.get x' y').bind fun q =>
  (im.put x y q).bind fun im => im.put x' y' p

/-- `flip_horizontal_mut` (src/compose.rs:98-113). -/
def flipHorizontal (im : Image α) : Option (Image α) :=
  forYX 0 im.h 0 (im.w / 2) im fun x y im =>
    (csub im.w x).bind fun t => (csub t 1).bind fun fx => swapPx im x y fx y

/-- `flip_vertical_mut` (src/compose.rs:149-164). -/
def flipVertical (im : Image α) : Option (Image α) :=
  forYX 0 (im.h / 2) 0 im.w im fun x y im =>
    (csub im.h y).bind fun t => (csub t 1).bind fun fy => swapPx im x y x fy

/-- `replace_mut` (src/compose.rs:211-226). -/
def replace (bottom top : Image α) (x y : Nat) : Option (Image α) :=
  if x < bottom.w ∧ y < bottom.h then
    (csub bottom.w 1).bind fun w1 => (csub bottom.h 1).bind fun h1 =>
    let xEnd := min w1 (x + top.w)
    let yEnd := min h1 (y + top.h)
    forYX y yEnd x xEnd bottom fun a b bottom =>
      (csub a x).bind fun ta => (csub b y).bind fun tb =>
      (top.get ta tb).bind fun v => bottom.put a b v
  else none

/-- `overlay_mut` (src/compose.rs:258-278); `blend below above` is `Pixel::blend`.  The "top"
pixel is read from `bottom` (line 271) exactly as in the code. -/
def overlay (blend : α → α → α) (bottom top : Image α) (x y : Nat) : Option (Image α) :=
  if x < bottom.w ∧ y < bottom.h then
    (csub bottom.w 1).bind fun w1 => (csub bottom.h 1).bind fun h1 =>
    let xEnd := min w1 (x + top.w)
    let yEnd := min h1 (y + top.h)
    forYX y yEnd x xEnd bottom fun a b bottom =>
      (bottom.get a b).bind fun bp =>
      (csub a x).bind fun ta => (csub b y).bind fun tb =>
      (bottom.get ta tb).bind fun tp => bottom.put a b (blend bp tp)
  else none

/-- `rotate90` (src/geometric_transformations.rs:341-356); `z` is the zero pixel of `Image::new`. -/
def rotate90 (z : α) (im : Image α) : Option (Image α) :=
  forYX 0 im.h 0 im.w (Image.new im.h im.w z) fun x y out =>
    (csub im.h y).bind fun t => (csub t 1).bind fun nx =>
    (im.get x y).bind fun v => out.put nx x v

/-- `rotate270` (src/geometric_transformations.rs:379-394). -/
def rotate270 (z : α) (im : Image α) : Option (Image α) :=
  forYX 0 im.h 0 im.w (Image.new im.h im.w z) fun x y out =>
    (csub im.w x).bind fun t => (csub t 1).bind fun ny =>
    (im.get x y).bind fun v => out.put y ny v

/-- `rotate180_mut` (src/geometric_transformations.rs:426-458). -/
def rotate180 (im : Image α) : Option (Image α) :=
  (forYX 0 (im.h / 2) 0 im.w im fun x y out =>
    (csub im.w x).bind fun t => (csub t 1).bind fun x180 =>
    (csub im.h y).bind fun t => (csub t 1).bind fun y180 => swapPx out x y x180 y180).bind fun out =>
  if im.h % 2 ≠ 0 then
    forRange 0 (im.w / 2) out fun x out =>
      (csub im.w x).bind fun t => (csub t 1).bind fun x180 =>
      swapPx out x (im.h / 2) x180 (im.h / 2)
  else some out

/-- `copy_from_slice` of `len` pixels of row `yin` of `src` from column `cin` to row `y` of `dst`
at column `c` (src/geometric_transformations.rs:485-488, 497-501).  In the code the offsets are
into the flat buffer; slices leaving the row are a panic here (they stay in the row, as proved). -/
def copyRow (src dst : Image α) (yin cin y c len : Nat) : Option (Image α) :=
  if yin < src.h ∧ cin + len ≤ src.w ∧ y < dst.h ∧ c + len ≤ dst.w then
    some { dst with px := fun a b =>
      if b = y ∧ c ≤ a ∧ a < c + len then src.px (cin + (a - c)) yin else dst.px a b }
  else none

/-- `translate` (src/geometric_transformations.rs:465-507). -/
def translate (z : α) (im : Image α) (tx ty : Int) : Option (Image α) :=
  let w : Int := im.w
  let h : Int := im.h
  forRange 0 im.h (Image.new im.w im.h z) fun y out =>
    let yin := (max 0 (min ((y : Int) - ty) (h - 1))).toNat
    if tx > 0 then
      (im.get 0 yin).bind fun pmin =>
      (forRange 0 (min tx w).toNat out fun x out => out.put x y pmin).bind fun out =>
      if tx < w then copyRow im out yin 0 y tx.toNat (w - tx).toNat else some out
    else
      (csub im.w 1).bind fun w1 =>
      (im.get w1 yin).bind fun pmax =>
      (forRange (max (w + tx) 0).toNat im.w out fun x out => out.put x y pmax).bind fun out =>
      if w + tx > 0 then copyRow im out yin tx.natAbs y 0 (w + tx).toNat else some out

end Verif.Compose
