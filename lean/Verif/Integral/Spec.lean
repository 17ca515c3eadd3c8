import Verif.Basic.Image
import Verif.Basic.Clamp
import Mathlib.Algebra.BigOperators.Intervals
import Mathlib.Algebra.Order.BigOperators.Group.Finset
/- Specification: plain double sums of pixel values. -/
namespace Verif.Integral
open Finset

/-- Sum of `val` over the pixels strictly left of `x` and strictly above `y`. -/
def prefixSum {α M : Type _} [AddCommMonoid M] (im : Image α) (val : α → M) (x y : Nat) : M :=
  ∑ j ∈ range y, ∑ i ∈ range x, val (im.px i j)

/-- Sum of `val` over the pixels of an inclusive rectangle. -/
def rectSum {α M : Type _} [AddCommMonoid M] (im : Image α) (val : α → M)
    (left top right bottom : Nat) : M :=
  ∑ j ∈ Icc top bottom, ∑ i ∈ Icc left right, val (im.px i j)

end Verif.Integral
