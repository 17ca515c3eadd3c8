import Verif.Basic.Raster
/- Specification vocabulary for pixel statistics: counting pixels. -/
namespace Verif.Stats
open Finset

/-- Number of pixels of `im` satisfying `P`. -/
def countPx {α : Type _} (im : Image α) (P : α → Prop) [DecidablePred P] : Nat :=
  ((allPx im.w im.h).filter fun p => P (im.px p.1 p.2)).card

/-- All samples fit in 8 bits. -/
def Is8 (im : Image Nat) : Prop := ∀ x y, x < im.w → y < im.h → im.px x y < 256

/-- All samples of all `n` channels fit in 8 bits. -/
def Is8c (n : Nat) (im : Image (Nat → Nat)) : Prop :=
  ∀ x y i, x < im.w → y < im.h → i < n → im.px x y i < 256

end Verif.Stats
