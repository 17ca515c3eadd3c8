import Verif.Template.Model
/-
Property theorem C68: extremes of an image.
-/
namespace Verif.Template
variable {T : Type _} [LinearOrder T]

/-- Raster order of pixel coordinates: rows from the top, each row from the left. -/
def rasterLE (p q : Nat × Nat) : Prop := p.2 < q.2 ∨ p.2 = q.2 ∧ p.1 ≤ q.1

/-- Lexicographic order of coordinate pairs. -/
def lexLE (p q : Nat × Nat) : Prop := p.1 < q.1 ∨ p.1 = q.1 ∧ p.2 ≤ q.2

/-- **C68** (with raster order in place of the documented lexicographic order): on every
non-empty image the reported values bound all pixels and are attained at the reported locations,
which are the first such pixels in raster order. -/
theorem C68_extremes_partial (im : Image T) (hw : 0 < im.w) (hh : 0 < im.h) :
    ∃ e, findExtremes im = some e ∧
      (im.InB e.maxLoc.1 e.maxLoc.2 ∧ im.px e.maxLoc.1 e.maxLoc.2 = e.maxValue) ∧
      (im.InB e.minLoc.1 e.minLoc.2 ∧ im.px e.minLoc.1 e.minLoc.2 = e.minValue) ∧
      (∀ x y, im.InB x y → e.minValue ≤ im.px x y ∧ im.px x y ≤ e.maxValue) ∧
      (∀ x y, im.InB x y → im.px x y = e.maxValue → rasterLE e.maxLoc (x, y)) ∧
      (∀ x y, im.InB x y → im.px x y = e.minValue → rasterLE e.minLoc (x, y)) := by
  unfold findExtremes
  rw [if_pos ⟨hw, hh⟩, Image.get_of_inB hw hh, Option.bind_some]
  obtain ⟨e, h1, h2, h3, h4⟩ := forYX_spec (y0 := 0) (y1 := im.h) (x0 := 0) (x1 := im.w)
    (s := (⟨im.px 0 0, im.px 0 0, (0, 0), (0, 0)⟩ : Extremes T))
    (f := fun x y (e : Extremes T) => (im.get x y).bind fun p =>
      let e := if p < e.minValue then { e with minValue := p, minLoc := (x, y) } else e
      let e := if e.maxValue < p then { e with maxValue := p, maxLoc := (x, y) } else e
      some e)
    (fun x y (e : Extremes T) => (im.InB e.maxLoc.1 e.maxLoc.2 ∧ im.px e.maxLoc.1 e.maxLoc.2 = e.maxValue) ∧
      (im.InB e.minLoc.1 e.minLoc.2 ∧ im.px e.minLoc.1 e.minLoc.2 = e.minValue) ∧
      (rasterLE e.maxLoc (x, y) ∧ rasterLE e.minLoc (x, y)) ∧
      ∀ a b, im.InB a b → (b < y ∨ b = y ∧ a < x) →
        (e.minValue ≤ im.px a b ∧ im.px a b ≤ e.maxValue) ∧
        (im.px a b = e.maxValue → rasterLE e.maxLoc (a, b)) ∧
        (im.px a b = e.minValue → rasterLE e.minLoc (a, b)))
    (Nat.zero_le _) (Nat.zero_le _)
    ⟨⟨⟨hw, hh⟩, rfl⟩, ⟨⟨hw, hh⟩, rfl⟩, ⟨Or.inr ⟨rfl, le_refl _⟩, Or.inr ⟨rfl, le_refl _⟩⟩,
      fun a b _ h => by omega⟩
    (by
      rintro x y e _ hx _ hy ⟨i1, i2, i3, i4⟩
      dsimp only
      rw [Image.get_of_inB hx hy, Option.bind_some]
      refine ⟨_, rfl, ?_⟩
      have hxy : im.InB x y := ⟨hx, hy⟩
      have r1 : ∀ p : Nat × Nat, rasterLE p (x, y) → rasterLE p (x + 1, y) := by
        intro p h; unfold rasterLE at *; dsimp only at *; omega
      have r2 : rasterLE (x, y) (x + 1, y) := by unfold rasterLE; dsimp only; omega
      have r3 : rasterLE (x, y) (x, y) := Or.inr ⟨rfl, le_refl _⟩
      have split : ∀ a b, (b < y ∨ b = y ∧ a < x + 1) → (b < y ∨ b = y ∧ a < x) ∨ a = x ∧ b = y := by
        omega
      by_cases c1 : im.px x y < e.minValue
      · rw [if_pos c1]
        dsimp only
        by_cases c2 : e.maxValue < im.px x y
        · rw [if_pos c2]
          dsimp only
          refine ⟨⟨hxy, rfl⟩, ⟨hxy, rfl⟩, ⟨r2, r2⟩, fun a b hab h => ?_⟩
          rcases split a b h with h | ⟨rfl, rfl⟩
          · obtain ⟨⟨k1, k2⟩, -, -⟩ := i4 a b hab h
            exact absurd (lt_of_lt_of_le (lt_of_lt_of_le c2 c1.le) (le_trans k1 k2)) (lt_irrefl _)
          · exact ⟨⟨le_refl _, le_refl _⟩, fun _ => r3, fun _ => r3⟩
        · rw [if_neg c2]
          dsimp only
          refine ⟨i1, ⟨hxy, rfl⟩, ⟨r1 _ i3.1, r2⟩, fun a b hab h => ?_⟩
          rcases split a b h with h | ⟨rfl, rfl⟩
          · obtain ⟨⟨k1, k2⟩, k3, k4⟩ := i4 a b hab h
            exact ⟨⟨le_trans c1.le k1, k2⟩, k3, fun he => absurd (lt_of_lt_of_le c1 k1)
              (by rw [he]; exact lt_irrefl _)⟩
          · exact ⟨⟨le_refl _, not_lt.1 c2⟩, fun _ => i3.1, fun _ => r3⟩
      · rw [if_neg c1]
        by_cases c2 : e.maxValue < im.px x y
        · rw [if_pos c2]
          dsimp only
          refine ⟨⟨hxy, rfl⟩, i2, ⟨r2, r1 _ i3.2⟩, fun a b hab h => ?_⟩
          rcases split a b h with h | ⟨rfl, rfl⟩
          · obtain ⟨⟨k1, k2⟩, k3, k4⟩ := i4 a b hab h
            exact ⟨⟨k1, le_trans k2 c2.le⟩, fun he => absurd (lt_of_le_of_lt k2 c2)
              (by rw [he]; exact lt_irrefl _), k4⟩
          · exact ⟨⟨not_lt.1 c1, le_refl _⟩, fun _ => r3, fun _ => i3.2⟩
        · rw [if_neg c2]
          refine ⟨i1, i2, ⟨r1 _ i3.1, r1 _ i3.2⟩, fun a b hab h => ?_⟩
          rcases split a b h with h | ⟨rfl, rfl⟩
          · exact i4 a b hab h
          · exact ⟨⟨not_lt.1 c1, not_lt.1 c2⟩, fun _ => i3.1, fun _ => i3.2⟩)
    (by
      rintro y e _ hy ⟨i1, i2, i3, i4⟩
      refine ⟨i1, i2, ?_, fun a b hab h => i4 a b hab (by have := hab.1; omega)⟩
      obtain ⟨⟨b1, -⟩, -⟩ := i1
      obtain ⟨⟨b2, -⟩, -⟩ := i2
      unfold rasterLE at *
      dsimp only at *
      omega)
  have all : ∀ x y, im.InB x y → y < im.h ∨ y = im.h ∧ x < 0 := fun x y h => Or.inl h.2
  exact ⟨e, h1, h2, h3, fun x y h => (h4.2 x y h (all x y h)).1,
    fun x y h => (h4.2 x y h (all x y h)).2.1, fun x y h => (h4.2 x y h (all x y h)).2.2⟩

/-- **C68.** Empty images are rejected. -/
theorem C68_reject (im : Image T) (h : im.w = 0 ∨ im.h = 0) : findExtremes im = none := by
  unfold findExtremes; rw [if_neg (by omega)]

/-- **C68**, negation: the reported location is not the lexicographically smallest one.  In the
image with rows `1 0 / 0 1` the reported minimum is at `(1, 0)` although `(0, 1)` is smaller. -/
theorem C68_negation :
    ∃ (im : Image Nat) (e : Extremes Nat), findExtremes im = some e ∧
      ∃ x y, im.InB x y ∧ im.px x y = e.minValue ∧ ¬ lexLE e.minLoc (x, y) := by
  refine ⟨Image.ofRows 0 [[1, 0], [0, 1]], ⟨1, 0, (0, 0), (1, 0)⟩, by decide +kernel, 0, 1, ?_⟩
  exact ⟨⟨by decide, by decide⟩, by decide, by unfold lexLE; decide⟩

/-- **C68.** In an image with a single row or a single column the reported locations are also the
lexicographically smallest. -/
theorem C68_single (im : Image T) (e : Extremes T) (he : findExtremes im = some e)
    (h : im.w ≤ 1 ∨ im.h ≤ 1) :
    (∀ x y, im.InB x y → im.px x y = e.maxValue → lexLE e.maxLoc (x, y)) ∧
    (∀ x y, im.InB x y → im.px x y = e.minValue → lexLE e.minLoc (x, y)) := by
  have hne : 0 < im.w ∧ 0 < im.h := by
    by_contra hc
    rw [C68_reject im (by omega)] at he; cases he
  obtain ⟨e', k0, ⟨k1, -⟩, ⟨k2, -⟩, -, k3, k4⟩ := C68_extremes_partial im hne.1 hne.2
  rw [he] at k0; cases k0
  constructor
  · intro x y hxy hv
    have := k3 x y hxy hv
    obtain ⟨a1, a2⟩ := k1
    obtain ⟨b1, b2⟩ := hxy
    unfold rasterLE at this; unfold lexLE; dsimp only at *; omega
  · intro x y hxy hv
    have := k4 x y hxy hv
    obtain ⟨a1, a2⟩ := k2
    obtain ⟨b1, b2⟩ := hxy
    unfold rasterLE at this; unfold lexLE; dsimp only at *; omega

example : findExtremes (Image.ofRows 0 [[3, 7, 2], [9, 2, 9]]) = some ⟨9, 2, (0, 1), (2, 0)⟩ := by
  decide +kernel

end Verif.Template
