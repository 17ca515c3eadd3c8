import Verif.Basic.Image
import Mathlib.Algebra.BigOperators.Intervals
import Mathlib.Data.Finset.Prod
import Mathlib.Algebra.Order.BigOperators.Group.Finset
/- The set of pixels already visited by a raster scan, and accumulation over a raster scan. -/
namespace Verif
open Finset

/-- All pixel coordinates of a `w` by `h` image. -/
def allPx (w h : Nat) : Finset (Nat × Nat) := range w ×ˢ range h

@[simp] theorem mem_allPx {w h : Nat} {p : Nat × Nat} : p ∈ allPx w h ↔ p.1 < w ∧ p.2 < h := by
  simp [allPx]

/-- Coordinates visited before `(x, y)` in a raster scan of width `w`. -/
def seen (w x y : Nat) : Finset (Nat × Nat) :=
  (range w ×ˢ range (y + 1)).filter fun p => p.2 < y ∨ p.2 = y ∧ p.1 < x

theorem mem_seen {w x y : Nat} {p : Nat × Nat} :
    p ∈ seen w x y ↔ p.1 < w ∧ (p.2 < y ∨ p.2 = y ∧ p.1 < x) := by
  simp [seen]; omega

theorem seen_zero (w : Nat) : seen w 0 0 = ∅ := by
  ext p; simp [mem_seen]

theorem not_mem_seen (w x y : Nat) : (x, y) ∉ seen w x y := by simp [mem_seen]

theorem seen_step {w x y : Nat} (h : x < w) : seen w (x + 1) y = insert (x, y) (seen w x y) := by
  ext ⟨a, b⟩; simp only [mem_seen, mem_insert, Prod.mk.injEq]; omega

theorem seen_row (w y : Nat) : seen w 0 (y + 1) = seen w w y := by
  ext ⟨a, b⟩; simp only [mem_seen]; omega

theorem seen_all (w h : Nat) : seen w 0 h = allPx w h := by
  ext ⟨a, b⟩; simp only [mem_seen, mem_allPx]; omega

/-- Raster scan rule with the set of visited coordinates. -/
theorem raster_spec {σ : Type _} {f : Nat → Nat → σ → Option σ} (I : Finset (Nat × Nat) → σ → Prop)
    {w h : Nat} {s : σ} (h0 : I ∅ s)
    (hs : ∀ x y S s, x < w → y < h → (x, y) ∉ S → I S s →
      ∃ s', f x y s = some s' ∧ I (insert (x, y) S) s') :
    ∃ s', forYX 0 h 0 w s f = some s' ∧ I (allPx w h) s' := by
  obtain ⟨s', e, hI⟩ := forYX_spec (f := f) (fun x y s => I (seen w x y) s) (Nat.zero_le h)
    (Nat.zero_le w) (by rw [seen_zero]; exact h0)
    (by
      intro x y s _ hx _ hy hI
      rw [seen_step hx]
      exact hs x y _ s hx hy (not_mem_seen w x y) hI)
    (by intro y s _ _ hI; rw [seen_row]; exact hI)
  exact ⟨s', e, by rwa [seen_all] at hI⟩

/-- Raster scan rule in consequence form. -/
theorem raster_post {σ : Type _} {f : Nat → Nat → σ → Option σ} {Q : σ → Prop}
    (I : Finset (Nat × Nat) → σ → Prop)
    {w h : Nat} {s : σ} (h0 : I ∅ s)
    (hs : ∀ x y S s, x < w → y < h → (x, y) ∉ S → I S s →
      ∃ s', f x y s = some s' ∧ I (insert (x, y) S) s')
    (hQ : ∀ s, I (allPx w h) s → Q s) :
    ∃ s', forYX 0 h 0 w s f = some s' ∧ Q s' := by
  obtain ⟨s', e, hI⟩ := raster_spec I h0 hs
  exact ⟨s', e, hQ s' hI⟩

/-- A raster scan that writes `g x y` to every pixel. -/
theorem raster_put {α : Type _} {f : Nat → Nat → Image α → Option (Image α)}
    {w h : Nat} {s : Image α} (g : Nat → Nat → α) (hw : s.w = w) (hh : s.h = h)
    (hs : ∀ x y out, x < w → y < h → out.w = w → out.h = h →
      (∀ a b, (b = y ∧ x ≤ a) ∨ y < b → out.px a b = s.px a b) →
      (∀ a b, a < w → b < h → b < y ∨ b = y ∧ a < x → out.px a b = g a b) →
      f x y out = out.put x y (g x y)) :
    ∃ out, forYX 0 h 0 w s f = some out ∧ out.w = w ∧ out.h = h ∧
      ∀ x y, x < w → y < h → out.px x y = g x y := by
  obtain ⟨out, e, h1, h2, h3, _⟩ := forYX_spec (f := f) (y0 := 0) (y1 := h) (x0 := 0) (x1 := w) (s := s)
    (fun x y out => out.w = w ∧ out.h = h ∧
      (∀ a b, a < w → b < h → b < y ∨ b = y ∧ a < x → out.px a b = g a b) ∧
      (∀ a b, (b = y ∧ x ≤ a) ∨ y < b → out.px a b = s.px a b))
    (Nat.zero_le _) (Nat.zero_le _) ⟨hw, hh, by omega, by intros; rfl⟩
    (by
      rintro x y out _ hx _ hy ⟨h1, h2, h3, h4⟩
      rw [hs x y out hx hy h1 h2 h4 h3, Image.put_of_inB _ (by omega) (by omega)]
      refine ⟨_, rfl, h1, h2, ?_, ?_⟩
      · intro a b ha hb hab
        dsimp only
        by_cases hxy : a = x ∧ b = y
        · rw [if_pos hxy, hxy.1, hxy.2]
        · rw [if_neg hxy]; exact h3 a b ha hb (by omega)
      · intro a b hab
        dsimp only
        rw [if_neg (by omega)]; exact h4 a b (by omega))
    (by
      rintro y out _ hy ⟨h1, h2, h3, h4⟩
      exact ⟨h1, h2, fun a b ha hb hab => h3 a b ha hb (by omega), fun a b hab => h4 a b (by omega)⟩)
  exact ⟨out, e, h1, h2, fun x y hx hy => h3 x y hx hy (by omega)⟩

/-- Accumulating sum over a raster scan. -/
theorem raster_sum {M : Type _} [AddCommMonoid M] {w h : Nat} {f : Nat → Nat → M → Option M}
    (g : Nat → Nat → M) (s : M)
    (hf : ∀ x y s, x < w → y < h → f x y s = some (s + g x y)) :
    forYX 0 h 0 w s f = some (s + ∑ p ∈ allPx w h, g p.1 p.2) := by
  obtain ⟨s', e, hI⟩ := raster_spec (f := f) (w := w) (h := h) (s := s)
    (fun S t => t = s + ∑ p ∈ S, g p.1 p.2) (by simp)
    (by
      intro x y S t hx hy hn hI
      refine ⟨_, hf x y t hx hy, ?_⟩
      rw [sum_insert hn, hI, add_assoc, add_comm (g x y)])
  rw [e, hI]

theorem sum_allPx {M : Type _} [AddCommMonoid M] (w h : Nat) (g : Nat → Nat → M) :
    ∑ p ∈ allPx w h, g p.1 p.2 = ∑ y ∈ range h, ∑ x ∈ range w, g x y := by
  rw [allPx, sum_product_right]

end Verif
