import Verif.Distance.Model
import Mathlib.Analysis.Real.Sqrt
import Mathlib.Algebra.Order.Floor.Defs
/-
Model of the binary part of src/morphology.rs and of `distance_transform_impl`
(src/distance_transform.rs:107-125).  `f64` is exact: `sqrt` is the real square root.
-/
namespace Verif.Morphology
open Distance

/-- `Norm` (src/distance_transform.rs:10-24). -/
inductive Norm
  | L1
  | L2
  | LInf
  deriving DecidableEq

/-- `v.sqrt().clamp(0.0, 255.0).ceil() as u8` (src/distance_transform.rs:122); `none` is `+∞`. -/
noncomputable def sqrtCeil : Option ℚ → Nat
  | none => 255
  | some v => ⌈min (max (Real.sqrt (v : ℝ)) 0) 255⌉₊ % 256

/-- Replacing every pixel (`image.iter_mut()`). -/
def mapPx (f : Nat → Nat) (im : Image Nat) : Image Nat :=
  { im with px := fun x y => f (im.px x y) }

/-- `distance_transform_impl` (src/distance_transform.rs:107-125). -/
noncomputable def distImpl (norm : Norm) (d : From) (im : Image Nat) : Option (Image Nat) :=
  match norm with
  | .LInf => sweeps true d im
  | .L1 => sweeps false d im
  | .L2 =>
    let im := match d with
      | .foreground => im
      | .background => mapPx (fun p => if p = 0 then 1 else 0) im
    (euclideanSquared im).map fun f => { im with px := fun x y => sqrtCeil (f.px x y) }

/-- `dilate_mut` (src/morphology.rs:77-82). -/
noncomputable def dilate (norm : Norm) (k : Nat) (im : Image Nat) : Option (Image Nat) :=
  (distImpl norm .foreground im).map (mapPx fun p => if p ≤ k then 255 else 0)

/-- `erode_mut` (src/morphology.rs:168-173). -/
noncomputable def erode (norm : Norm) (k : Nat) (im : Image Nat) : Option (Image Nat) :=
  (distImpl norm .background im).map (mapPx fun p => if p ≤ k then 0 else 255)

/-- `open_mut` (src/morphology.rs:232-235). -/
noncomputable def openBin (norm : Norm) (k : Nat) (im : Image Nat) : Option (Image Nat) :=
  (erode norm k im).bind (dilate norm k)

/-- `close_mut` (src/morphology.rs:332-335). -/
noncomputable def closeBin (norm : Norm) (k : Nat) (im : Image Nat) : Option (Image Nat) :=
  (dilate norm k im).bind (erode norm k)

end Verif.Morphology
