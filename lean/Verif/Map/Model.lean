import Verif.Basic.Loop
/-
Model of src/map.rs on the flat sub-pixel storage of `image::ImageBuffer`.
A buffer with `n` channels per pixel stores pixel `(x, y)` in the `n` entries starting at
`(y * w + x) * n`.  `image::ImageBuffer::from_vec` accepts any buffer that is long enough.
Rayon's parallel iterators are modelled by running the per-slot work in an arbitrary order.
-/
namespace Verif.Map

/-- `ImageBuffer` with its flat storage. -/
structure Buf (α : Type _) where
  w : Nat
  h : Nat
  data : List α

variable {α β γ : Type _}

/-- `ImageBuffer::from_vec(..).expect(..)`: `none` (panic) if the vector is too short. -/
def fromVec (n w h : Nat) (data : List α) : Option (Buf α) :=
  if w * h * n ≤ data.length then some ⟨w, h, data⟩ else none

/-- The `k`-th chunk of `n` sub-pixels. -/
def slot (n : Nat) (data : List α) (k : Nat) : List α := (data.drop (k * n)).take n

/-- `ImageBuffer::get_pixel`'s slice for in-bounds coordinates. -/
def Buf.pixel (n : Nat) (im : Buf α) (x y : Nat) : List α := slot n im.data (y * im.w + x)

/-- `ImageBuffer::pixels()`: `chunks_exact` over the first `w * h * n` sub-pixels. -/
def Buf.pixels (n : Nat) (im : Buf α) : List (List α) :=
  (List.range (im.w * im.h)).map fun k => slot n im.data k

/-- `ImageBuffer::enumerate_pixels()`. -/
def Buf.enumeratePixels (n : Nat) (im : Buf α) : List (Nat × Nat × List α) :=
  (List.range (im.w * im.h)).map fun k => (k % im.w, k / im.w, slot n im.data k)

/-- `map_subpixels` (src/map.rs:77-89) for `n` channels. -/
def mapSubpixels (n : Nat) (im : Buf α) (f : α → β) : Option (Buf β) :=
  fromVec n im.w im.h (im.data.map f)

/-- `map_pixels` (src/map.rs:159-175), `n` channels in, `m` channels out. -/
def mapPixels (n m : Nat) (im : Buf α) (f : List α → List β) : Option (Buf β) :=
  fromVec m im.w im.h ((im.pixels n).flatMap f)

/-- `map_enumerated_pixels` (src/map.rs:246-262). -/
def mapEnumeratedPixels (n m : Nat) (im : Buf α) (f : Nat → Nat → List α → List β) :
    Option (Buf β) :=
  fromVec m im.w im.h ((im.enumeratePixels n).flatMap fun p => f p.1 p.2.1 p.2.2)

/-- Writing the `k`-th chunk of `n` sub-pixels. -/
def writeSlot (n : Nat) (data : List α) (k : Nat) (v : List α) : List α :=
  data.take (k * n) ++ v ++ data.drop ((k + 1) * n)

/-- `map_pixels_mut`, `map_pixels_mut_parallel` and their enumerated versions
(src/map.rs:177-183, 209-218, 264-272, 298-309); the sub-pixel versions (lines 91-99, 121-133) are
the case of one channel and width `w * channels`: the per-pixel updates run in the order `sched`
(the sequential version is `sched = [0, 1, …]`). -/
def mapPixelsMut (n : Nat) (im : Buf α) (sched : List Nat) (f : Nat → Nat → List α → List α) :
    Buf α :=
  { im with
    data := sched.foldl
      (fun d k => writeSlot n d k (f (k % im.w) (k / im.w) (slot n d k))) im.data }

/-- `map_subpixels_parallel`, `map_pixels_parallel`, `map_enumerated_pixels_parallel`
(src/map.rs:102-118, 186-206, 275-295): each result chunk is computed in the order `sched` and
stored at its index; `collect` then reads the chunks by index. -/
def collectParallel (items : List α) (sched : List Nat) (f : α → β) : List (Option β) :=
  sched.foldl (fun acc k => acc.set k (items[k]?.map f)) (items.map fun _ => none)

/-- `map_pixels2` (src/map.rs:347-365). -/
def mapPixels2 (n1 n2 m : Nat) (im1 : Buf α) (im2 : Buf β) (f : List α → List β → List γ) :
    Option (Buf γ) :=
  fromVec m im1.w im2.h (((im1.pixels n1).zip (im2.pixels n2)).flatMap fun p => f p.1 p.2)

/-- `into_red_channel`, `into_green_channel`, `into_blue_channel`
(src/map.rs:390-396, 452-458, 514-520) for channel index `i` of an `Rgb` buffer. -/
def intoChannel (i : Nat) (im : Buf Nat) : Option (Buf Nat) :=
  mapPixels 3 1 im fun p => [p.getD i 0]

/-- `from_red_channel`, `from_green_channel`, `from_blue_channel`
(src/map.rs:421-427, 483-489, 545-551). -/
def fromChannel (i : Nat) (im : Buf Nat) : Option (Buf Nat) :=
  mapPixels 1 3 im fun p => (List.range 3).map fun j => if j = i then p.getD 0 0 else 0

end Verif.Map
