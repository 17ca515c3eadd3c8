import Verif.Filter.Model
import Verif.Definitions.Clamp
/-
Model of `/repo/src/gradients.rs`, of the kernel constants of `/repo/src/kernel.rs` and of
`laplacian_filter` and `filter_clamped`, `/repo/src/filter/mod.rs`.  Subpixels are natural numbers
(at most 255 where a theorem needs it); a pixel is a function on the channel set `ι`.
`i32` sums are unbounded integers (the kernels have small coefficients).  `gradient_magnitude` is
the exact integer square root; `Verif/Float/Gradient.lean` models the `f32` rounding and compares.
-/
namespace Verif.Gradients
open Verif.Filter

/-- kernel.rs:64-65. -/
def sobelH : Kernel Int := ⟨[-1, 0, 1, -2, 0, 2, -1, 0, 1], 3, 3⟩
/-- kernel.rs:67-68. -/
def sobelV : Kernel Int := ⟨[-1, -2, -1, 0, 0, 0, 1, 2, 1], 3, 3⟩
/-- kernel.rs:71-72. -/
def scharrH : Kernel Int := ⟨[-3, 0, 3, -10, 0, 10, -3, 0, 3], 3, 3⟩
/-- kernel.rs:74-75. -/
def scharrV : Kernel Int := ⟨[-3, -10, -3, 0, 0, 0, 3, 10, 3], 3, 3⟩
/-- kernel.rs:78-79. -/
def prewittH : Kernel Int := ⟨[-1, 0, 1, -1, 0, 1, -1, 0, 1], 3, 3⟩
/-- kernel.rs:81-82. -/
def prewittV : Kernel Int := ⟨[-1, -1, -1, 0, 0, 0, 1, 1, 1], 3, 3⟩
/-- kernel.rs:85. -/
def robertsH : Kernel Int := ⟨[1, 0, 0, -1], 2, 2⟩
/-- kernel.rs:87. -/
def robertsV : Kernel Int := ⟨[0, 1, -1, -0], 2, 2⟩
/-- kernel.rs:90-91. -/
def laplace4 : Kernel Int := ⟨[0, 1, 0, 1, -4, 1, 0, 1, 0], 3, 3⟩
/-- kernel.rs:93-94. -/
def laplace8 : Kernel Int := ⟨[1, 1, 1, 1, -8, 1, 1, 1, 1], 3, 3⟩

variable {ι : Type _}

/-- `filter_clamped` from 8-bit input to `i16` output, filter/mod.rs:204-212. -/
def filterI16 (im : Image (ι → Nat)) (k : Kernel Int) : Option (Image (ι → Int)) :=
  filter (fun v : Nat => (v : Int)) 0 im k (Definitions.clampInt (-32768) 32767)

/-- gradients.rs:163-165. -/
def horizontalSobel (im : Image (ι → Nat)) := filterI16 im sobelH
/-- gradients.rs:169-171. -/
def verticalSobel (im : Image (ι → Nat)) := filterI16 im sobelV
/-- gradients.rs:175-177. -/
def horizontalScharr (im : Image (ι → Nat)) := filterI16 im scharrH
/-- gradients.rs:181-183. -/
def verticalScharr (im : Image (ι → Nat)) := filterI16 im scharrV
/-- gradients.rs:187-189. -/
def horizontalPrewitt (im : Image (ι → Nat)) := filterI16 im prewittH
/-- gradients.rs:193-195. -/
def verticalPrewitt (im : Image (ι → Nat)) := filterI16 im prewittV
/-- `laplacian_filter`, filter/mod.rs:442-444. -/
def laplacianFilter (im : Image (ι → Nat)) := filterI16 im laplace4

/-- `gradient_magnitude`, gradients.rs:157-159 (the value is below 2^16). -/
def gradientMagnitude (dx dy : Int) : Nat := Nat.sqrt (dx.natAbs ^ 2 + dy.natAbs ^ 2)

/-- `gradients`, gradients.rs:99-154; `z` is the zero pixel of `Image::new`.  The unchecked reads
and writes are `none` when out of bounds. -/
def gradients {β : Type _} (z : β) (im : Image (ι → Nat)) (hk vk : Kernel Int)
    (f : (ι → Nat) → β) : Option (Image β) :=
  (filterI16 im hk).bind fun hor => (filterI16 im vk).bind fun ver =>
  forYX 0 im.h 0 im.w (Image.new im.w im.h z) fun x y out =>
    (hor.get x y).bind fun h => (ver.get x y).bind fun v =>
    out.put x y (f fun c => gradientMagnitude (h c) (v c))

/-- `sobel_gradient_map`, gradients.rs:281-294. -/
def sobelGradientMap {β : Type _} (z : β) (im : Image (ι → Nat)) (f : (ι → Nat) → β) :
    Option (Image β) := gradients z im sobelH sobelV f

end Verif.Gradients
