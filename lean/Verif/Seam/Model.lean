import Verif.Gradients.Model
/-
Model of `/repo/src/seam_carving.rs`.  A `VerticalSeam` is the list of its columns from the bottom
row to the top row.  Path energies are unbounded naturals (`u32` in the code; a sum of `height`
values below 2^16).
-/
namespace Verif.Seam
open Verif.Gradients

/-- `set_path_energy`, seam_carving.rs:119-134. -/
def setPathEnergy (x y : Nat) (e : Image Nat) : Option (Image Nat) :=
  (csub y 1).bind fun ym =>
  (e.get x ym).bind fun above =>
  (if 0 < x then (e.get (x - 1) ym).map fun l => min above l else some above).bind fun m =>
  (csub e.w 1).bind fun w1 =>
  (if x < w1 then (e.get (x + 1) ym).map fun r => min m r else some m).bind fun m =>
  (e.get x y).bind fun cur =>
  e.put x y (m + cur)

/-- The two loops of seam_carving.rs:70-74. -/
def pathEnergies (g : Image Nat) : Option (Image Nat) := forYX 1 g.h 0 g.w g setPathEnergy

/-- Column and energy of the first least entry of the bottom row, seam_carving.rs:77-86. -/
def bottomMin (e : Image Nat) : Option (Nat × Nat) :=
  (csub e.h 1).bind fun y => (e.get 0 y).bind fun e0 =>
  forRange 1 e.w (0, e0) fun x s =>
    (e.get x y).bind fun c => some (if c < s.2 then (x, c) else s)

/-- One round of the retrace loop, seam_carving.rs:94-113; the state is
`(min_x, min_energy, seam)`, and `last_x = min_x` at the start of each round. -/
def retraceStep (e : Image Nat) (y : Nat) (s : Nat × Nat × List Nat) :
    Option (Nat × Nat × List Nat) :=
  let lastX := s.1
  (csub y 1).bind fun ym =>
  (e.get lastX ym).bind fun above =>
  (if 0 < lastX then (e.get (lastX - 1) ym).map fun left =>
      if left < above then (lastX - 1, left) else (s.1, s.2.1)
    else some (s.1, s.2.1)).bind fun m =>
  (csub e.w 1).bind fun w1 =>
  (if lastX < w1 then (e.get (lastX + 1) ym).map fun right =>
      if right < m.2 then (lastX + 1, right) else m
    else some m).bind fun m =>
  some (m.1, m.2, s.2.2 ++ [m.1])

/-- `find_vertical_seam` from the gradient image on, seam_carving.rs:69-115.  The reversed loop
`(1..height).rev()` visits `height - i` for `i = 1, 2, …`. -/
def seamOfEnergies (g : Image Nat) : Option (List Nat) :=
  (pathEnergies g).bind fun e => (bottomMin e).bind fun b =>
  (forRange 1 e.h (b.1, b.2, [b.1]) fun i s => retraceStep e (e.h - i) s).map fun s => s.2.2

/-- The mean over the channels, seam_carving.rs:62-66. -/
def meanGradient {n : Nat} (p : Fin n → Nat) : Nat := ((List.finRange n).map p).sum / n

/-- `find_vertical_seam`, seam_carving.rs:47-116. -/
def findVerticalSeam {n : Nat} (im : Image (Fin n → Nat)) : Option (List Nat) :=
  if 2 ≤ im.w then
    (gradients 0 im sobelH sobelV meanGradient).bind seamOfEnergies
  else none

/-- `remove_vertical_seam`, seam_carving.rs:141-164; `z` is the zero pixel of `Image::new`. -/
def removeVerticalSeam {α : Type _} (z : α) (im : Image α) (seam : List Nat) : Option (Image α) :=
  if seam.length = im.h then
    (csub im.w 1).bind fun w1 =>
    forRange 0 im.h (Image.new w1 im.h z) fun y out =>
      (seam[im.h - y - 1]?).bind fun xs =>
      (forRange 0 xs out fun x out => (im.get x y).bind fun p => out.put x y p).bind fun out =>
      forRange (xs + 1) im.w out fun x out => (im.get x y).bind fun p => out.put (x - 1) y p
  else none

/-- `shrink_width`, seam_carving.rs:23-43. -/
def shrinkWidth {n : Nat} (im : Image (Fin n → Nat)) (target : Nat) :
    Option (Image (Fin n → Nat)) :=
  if target ≤ im.w then
    forRange 0 (im.w - target) im fun _ im =>
      (findVerticalSeam im).bind fun seam => removeVerticalSeam (fun _ => 0) im seam
  else none

/-- One seam of `draw_vertical_seams`, seam_carving.rs:175-184: for each row the original column is
computed from the columns recorded for that row. -/
def drawSeam {α : Type _} (red : α) (h : Nat) (seam : List Nat)
    (s : Image α × (Nat → List Nat)) : Option (Image α × (Nat → List Nat)) :=
  forRange 0 (min h seam.length) s fun i s =>
    let y := h - 1 - i
    (seam[i]?).bind fun x =>
    let xo := (s.2 y).foldl (fun a o => if o < x then a + 1 else a) x
    (s.1.put xo y red).bind fun out =>
    some (out, fun r => if r = y then s.2 y ++ [xo] else s.2 r)

/-- `draw_vertical_seams`, seam_carving.rs:168-188; `toRgb` is `Pixel::to_rgb`. -/
def drawVerticalSeams {α β : Type _} (toRgb : α → β) (red : β) (im : Image α)
    (seams : List (List Nat)) : Option (Image β) :=
  (forList seams ((⟨im.w, im.h, fun x y => toRgb (im.px x y)⟩ : Image β), fun _ => [])
    fun seam s => drawSeam red im.h seam s).map Prod.fst

end Verif.Seam
