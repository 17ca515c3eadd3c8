import Verif.Basic.Loop
/-
Shared image type.  Models `image::ImageBuffer` at the level of `width`, `height`,
`get_pixel` and `put_pixel` (both panic out of bounds).  The flat `Vec` storage is
abstracted into a function of the coordinates; values outside the bounds are junk and
never observable through `get`.
-/
namespace Verif

/-- `image::ImageBuffer` as width, height and a pixel function. -/
structure Image (α : Type _) where
  w : Nat
  h : Nat
  px : Nat → Nat → α

namespace Image
variable {α β : Type _}

/-- Coordinates are inside the image (`GenericImageView::in_bounds`). -/
def InB (im : Image α) (x y : Nat) : Prop := x < im.w ∧ y < im.h

instance (im : Image α) (x y : Nat) : Decidable (im.InB x y) :=
  inferInstanceAs (Decidable (_ ∧ _))

/-- `ImageBuffer::get_pixel`: panics (`none`) out of bounds. -/
def get (im : Image α) (x y : Nat) : Option α := if im.InB x y then some (im.px x y) else none

/-- `ImageBuffer::put_pixel`: panics (`none`) out of bounds. -/
def put (im : Image α) (x y : Nat) (v : α) : Option (Image α) :=
  if im.InB x y then
    some { im with px := fun a b => if a = x ∧ b = y then v else im.px a b }
  else none

/-- `ImageBuffer::new`: all pixels zero. -/
def new (w h : Nat) (z : α) : Image α := ⟨w, h, fun _ _ => z⟩

/-- `ImageBuffer::from_fn`. -/
def ofFn (w h : Nat) (f : Nat → Nat → α) : Image α := ⟨w, h, f⟩

/-- Observable equality: same size and same pixels inside the bounds. -/
def Same (a b : Image α) : Prop :=
  a.w = b.w ∧ a.h = b.h ∧ ∀ x y, x < a.w → y < a.h → a.px x y = b.px x y

theorem Same.refl (a : Image α) : Same a a := ⟨rfl, rfl, fun _ _ _ _ => rfl⟩

theorem Same.symm {a b : Image α} (h : Same a b) : Same b a :=
  ⟨h.1.symm, h.2.1.symm, fun x y hx hy => (h.2.2 x y (h.1 ▸ hx) (h.2.1 ▸ hy)).symm⟩

theorem Same.trans {a b c : Image α} (h : Same a b) (k : Same b c) : Same a c :=
  ⟨h.1.trans k.1, h.2.1.trans k.2.1, fun x y hx hy =>
    (h.2.2 x y hx hy).trans (k.2.2 x y (h.1 ▸ hx) (h.2.1 ▸ hy))⟩

/-- The rows of the image (all that an observer can see), for examples. -/
def rows (im : Image α) : List (List α) :=
  (List.range im.h).map fun y => (List.range im.w).map fun x => im.px x y

/-- Image from a list of rows (`gray_image!` and friends), for examples. -/
def ofRows (d : α) (r : List (List α)) : Image α :=
  ⟨(r.headD []).length, r.length, fun x y => (r.getD y []).getD x d⟩

theorem get_eq_some {im : Image α} {x y : Nat} {v : α} :
    im.get x y = some v ↔ (x < im.w ∧ y < im.h) ∧ im.px x y = v := by
  by_cases hb : x < im.w ∧ y < im.h <;> simp [get, InB, hb]

theorem get_of_inB {im : Image α} {x y : Nat} (hx : x < im.w) (hy : y < im.h) :
    im.get x y = some (im.px x y) := get_eq_some.2 ⟨⟨hx, hy⟩, rfl⟩

theorem put_of_inB {im : Image α} {x y : Nat} (v : α) (hx : x < im.w) (hy : y < im.h) :
    im.put x y v =
      some { im with px := fun a b => if a = x ∧ b = y then v else im.px a b } := by
  simp [put, InB, hx, hy]

theorem put_eq_some {im r : Image α} {x y : Nat} {v : α} :
    im.put x y v = some r ↔ (x < im.w ∧ y < im.h) ∧
      r = { im with px := fun a b => if a = x ∧ b = y then v else im.px a b } := by
  by_cases hb : x < im.w ∧ y < im.h <;> simp [put, InB, hb, eq_comm]

/-- `ImageBuffer::from_fn` with a closure that may panic. -/
def fromFn [Inhabited α] (w h : Nat) (f : Nat → Nat → Option α) : Option (Image α) :=
  if ∀ y, y < h → ∀ x, x < w → (f x y).isSome = true then
    some ⟨w, h, fun x y => (f x y).getD default⟩
  else none

theorem fromFn_of_some [Inhabited α] {w h : Nat} {f : Nat → Nat → Option α} {g : Nat → Nat → α}
    (hf : ∀ x y, x < w → y < h → f x y = some (g x y)) :
    ∃ out, fromFn w h f = some out ∧ out.w = w ∧ out.h = h ∧
      ∀ x y, x < w → y < h → out.px x y = g x y := by
  refine ⟨⟨w, h, fun x y => (f x y).getD default⟩, ?_, rfl, rfl, ?_⟩
  · unfold fromFn
    rw [if_pos]
    intro y hy x hx
    rw [hf x y hx hy]; rfl
  · intro x y hx hy
    simp [hf x y hx hy]

end Image

/-- Rust `for y in y0..y1 { for x in x0..x1 { body } }`. -/
def forYX {σ : Type _} (y0 y1 x0 x1 : Nat) (s : σ) (f : Nat → Nat → σ → Option σ) : Option σ :=
  forRange y0 y1 s fun y s => forRange x0 x1 s fun x s => f x y s

/-- Raster-order rule: the invariant `I x y` holds just before visiting `(x, y)`. -/
theorem forYX_spec {σ : Type _} {f : Nat → Nat → σ → Option σ} (I : Nat → Nat → σ → Prop)
    {y0 y1 x0 x1 : Nat} {s : σ} (hy : y0 ≤ y1) (hx : x0 ≤ x1) (h0 : I x0 y0 s)
    (hs : ∀ x y s, x0 ≤ x → x < x1 → y0 ≤ y → y < y1 → I x y s →
      ∃ s', f x y s = some s' ∧ I (x + 1) y s')
    (hn : ∀ y s, y0 ≤ y → y < y1 → I x1 y s → I x0 (y + 1) s) :
    ∃ s', forYX y0 y1 x0 x1 s f = some s' ∧ I x0 y1 s' := by
  refine forRange_spec (fun y s => I x0 y s) hy h0 ?_
  intro y s h1 h2 h3
  obtain ⟨s', e, h⟩ := forRange_spec (f := fun x s => f x y s) (fun x s => I x y s) hx h3
    (fun x s a b c => hs x y s a b h1 h2 c)
  exact ⟨s', e, hn y s' h1 h2 h⟩

/-- Partial-correctness raster-order rule. -/
theorem forYX_inv {σ : Type _} {f : Nat → Nat → σ → Option σ} (I : Nat → Nat → σ → Prop)
    {y0 y1 x0 x1 : Nat} {s r : σ} (hy : y0 ≤ y1) (hx : x0 ≤ x1) (h0 : I x0 y0 s)
    (hs : ∀ x y s s', x0 ≤ x → x < x1 → y0 ≤ y → y < y1 → I x y s → f x y s = some s' →
      I (x + 1) y s')
    (hn : ∀ y s, y0 ≤ y → y < y1 → I x1 y s → I x0 (y + 1) s)
    (hr : forYX y0 y1 x0 x1 s f = some r) : I x0 y1 r := by
  refine forRange_inv (fun y s => I x0 y s) hy h0 ?_ hr
  intro y s s' h1 h2 h3 h4
  exact hn y s' h1 h2 (forRange_inv (f := fun x s => f x y s) (fun x s => I x y s) hx h3
    (fun x s s' a b c d => hs x y s s' a b h1 h2 c d) h4)

end Verif
