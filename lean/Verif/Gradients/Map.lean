import Verif.Gradients.Props
/-
`sobel_gradient_map` (src/gradients.rs).  Property theorem C76.
-/
namespace Verif.Gradients
variable {ι : Type _}

/-- **C76.** `sobel_gradient_map` applies its pixel map to the integer parts of the lengths of the
Sobel gradients, whose components are the horizontal and the vertical difference with rows and
columns weighted `1, 2, 1`. -/
theorem C76_sobel_map {β : Type _} (z : β) (im : Image (ι → Nat)) (f : (ι → Nat) → β) (h : IsU8 im) :
    ∃ out, sobelGradientMap z im f = some out ∧ out.w = im.w ∧ out.h = im.h ∧
      ∀ x y, x < im.w → y < im.h → ∃ m : ι → Nat, out.px x y = f m ∧
        ∀ c, (m c : Int) ^ 2 ≤ hDiff 1 2 im c x y ^ 2 + vDiff 1 2 im c x y ^ 2 ∧
          hDiff 1 2 im c x y ^ 2 + vDiff 1 2 im c x y ^ 2 < ((m c : Int) + 1) ^ 2 :=
  C76_gradients z im sobelH sobelV f (hDiff 1 2 im) (vDiff 1 2 im) (C76_values im h).1
    (C76_values im h).2.1

-- brighter downwards: the vertical component counts
example : (sobelGradientMap 0 (⟨3, 3, fun _ y _ => y⟩ : Image (Unit → Nat)) (fun p => p ())).map
    Image.rows = some [[4, 4, 4], [8, 8, 8], [4, 4, 4]] := by decide +kernel

end Verif.Gradients
