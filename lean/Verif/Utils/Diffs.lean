import Verif.Basic.Image
import Mathlib.Data.List.Basic
import Mathlib.Data.List.Nodup
import Mathlib.Tactic.Ring
import Mathlib.Tactic.Linarith
/-
Model and properties of `pixel_diffs` (src/utils.rs:447-478) (C79).
-/
namespace Verif.Utils
variable {α : Type _}

/-- `GenericImageView::pixels`: all pixels with coordinates in raster order. -/
def enumPixels (im : Image α) : List (Nat × Nat × α) :=
  (List.range im.h).flatMap fun y => (List.range im.w).map fun x => (x, y, im.px x y)

/-- `Diff` (src/utils.rs:481-490). -/
structure Diff (α : Type _) where
  x : Nat
  y : Nat
  actual : α
  expected : α
  deriving DecidableEq

/-- `pixel_diffs` (src/utils.rs:447-474); the assertion on coordinates is a panic (`none`). -/
def pixelDiffs (actual expected : Image α)
    (isDiff : Nat × Nat × α → Nat × Nat × α → Bool) : Option (List (Diff α)) :=
  if actual.w = 0 ∨ actual.h = 0 ∨ expected.w = 0 ∨ expected.h = 0 then some []
  else
    (((enumPixels actual).zip (enumPixels expected)).filter fun p => isDiff p.1 p.2).mapM fun p =>
      if p.1.1 = p.2.1 ∧ p.1.2.1 = p.2.2.1 then
        some ⟨p.1.1, p.1.2.1, p.1.2.2, p.2.2.2⟩
      else none

theorem mem_enumPixels {im : Image α} {x y : Nat} {v : α} :
    (x, y, v) ∈ enumPixels im ↔ (x < im.w ∧ y < im.h) ∧ v = im.px x y := by
  simp only [enumPixels, List.mem_flatMap, List.mem_range, List.mem_map, Prod.mk.injEq]
  constructor
  · rintro ⟨y', h1, x', h2, rfl, rfl, rfl⟩; exact ⟨⟨h2, h1⟩, rfl⟩
  · rintro ⟨⟨h1, h2⟩, rfl⟩; exact ⟨y, h2, x, h1, rfl, rfl, rfl⟩

/-- Coordinates of an image in raster order. -/
def coords (w h : Nat) : List (Nat × Nat) :=
  (List.range h).flatMap fun y => (List.range w).map fun x => (x, y)

theorem enumPixels_eq (im : Image α) :
    enumPixels im = (coords im.w im.h).map fun p => (p.1, p.2, im.px p.1 p.2) := by
  simp [enumPixels, coords, List.map_flatMap, List.map_map, Function.comp_def]

theorem mem_coords {w h : Nat} {p : Nat × Nat} : p ∈ coords w h ↔ p.1 < w ∧ p.2 < h := by
  obtain ⟨x, y⟩ := p
  simp [coords, and_comm]

theorem nodup_coords (w h : Nat) : (coords w h).Nodup := by
  unfold coords
  rw [List.nodup_flatMap]
  refine ⟨fun y _ => List.nodup_range.map fun a b h => (Prod.mk.inj h).1, ?_⟩
  refine (List.nodup_range (n := h)).pairwise_of_forall_ne ?_
  intro a _ b _ hab
  rw [Function.onFun, List.disjoint_left]
  intro p hp hq
  simp only [List.mem_map] at hp hq
  obtain ⟨_, _, rfl⟩ := hp
  obtain ⟨_, _, h⟩ := hq
  exact hab (Prod.mk.inj h).2.symm

theorem mapM_some {β γ : Type _} (l : List β) (f : β → Option γ) (g : β → γ)
    (h : ∀ b ∈ l, f b = some (g b)) : l.mapM f = some (l.map g) := by
  induction l with
  | nil => rfl
  | cons a l ih =>
    rw [List.mapM_cons, h a (by simp), ih fun b hb => h b (by simp [hb])]
    rfl

/-- C79: for images of equal size the listing never fails and contains exactly one entry, with
both values, for each position at which the predicate holds, in raster order. -/
theorem C79_pixel_diffs (actual expected : Image α) (hw : actual.w = expected.w)
    (hh : actual.h = expected.h) (isDiff : Nat × Nat × α → Nat × Nat × α → Bool) :
    ∃ l, pixelDiffs actual expected isDiff = some l ∧
      (∀ x y a e, (⟨x, y, a, e⟩ : Diff α) ∈ l ↔ (x < actual.w ∧ y < actual.h) ∧
        a = actual.px x y ∧ e = expected.px x y ∧ isDiff (x, y, a) (x, y, e) = true) ∧
      (l.map fun d => (d.x, d.y)).Nodup := by
  have hz : (enumPixels actual).zip (enumPixels expected) =
      (coords actual.w actual.h).map fun p =>
        ((p.1, p.2, actual.px p.1 p.2), (p.1, p.2, expected.px p.1 p.2)) := by
    rw [enumPixels_eq, enumPixels_eq, ← hw, ← hh, List.zip_map', ]
  have hl : pixelDiffs actual expected isDiff = some
      (((coords actual.w actual.h).filter fun p =>
        isDiff (p.1, p.2, actual.px p.1 p.2) (p.1, p.2, expected.px p.1 p.2)).map
        fun p => ⟨p.1, p.2, actual.px p.1 p.2, expected.px p.1 p.2⟩) := by
    unfold pixelDiffs
    split
    · rename_i h0
      have : coords actual.w actual.h = [] := by
        rw [List.eq_nil_iff_forall_not_mem]
        intro p hp
        rw [mem_coords] at hp
        omega
      rw [this]; rfl
    · rw [hz, List.filter_map, mapM_some _ _ (fun p => ⟨p.1.1, p.1.2.1, p.1.2.2, p.2.2.2⟩)]
      · rw [List.map_map]; rfl
      · intro b hb
        simp only [List.mem_map] at hb
        obtain ⟨p, -, rfl⟩ := hb
        simp
  refine ⟨_, hl, ?_, ?_⟩
  · intro x y a e
    simp only [List.mem_map, List.mem_filter, mem_coords, Diff.mk.injEq]
    constructor
    · rintro ⟨p, ⟨h1, h2⟩, rfl, rfl, rfl, rfl⟩
      exact ⟨h1, rfl, rfl, h2⟩
    · rintro ⟨h1, rfl, rfl, h2⟩
      exact ⟨(x, y), ⟨h1, h2⟩, rfl, rfl, rfl, rfl⟩
  · rw [List.map_map]
    exact List.Nodup.map (fun a b h => h) ((nodup_coords _ _).filter _)

/-- C79: with the inequality predicate the listing is empty exactly for equal images. -/
theorem C79_empty_iff [DecidableEq α] (actual expected : Image α) (hw : actual.w = expected.w)
    (hh : actual.h = expected.h) :
    pixelDiffs actual expected (fun p q => p ≠ q) = some [] ↔ actual.Same expected := by
  obtain ⟨l, h1, h2, -⟩ := C79_pixel_diffs actual expected hw hh (fun p q => p ≠ q)
  rw [h1, Option.some.injEq, List.eq_nil_iff_forall_not_mem]
  constructor
  · intro h
    refine ⟨hw, hh, ?_⟩
    intro x y hx hy
    by_contra hne
    refine h ⟨x, y, actual.px x y, expected.px x y⟩ ((h2 _ _ _ _).2 ⟨⟨hx, hy⟩, rfl, rfl, ?_⟩)
    simpa using hne
  · rintro ⟨-, -, h⟩ ⟨x, y, a, e⟩ hm
    obtain ⟨⟨hx, hy⟩, rfl, rfl, hd⟩ := (h2 _ _ _ _).1 hm
    simp [h x y hx hy] at hd

example : pixelDiffs (Image.ofRows 0 [[1, 2], [3, 4]]) (Image.ofRows 0 [[1, 5], [6, 4]])
    (fun p q => p ≠ q) = some [⟨1, 0, 2, 5⟩, ⟨0, 1, 3, 6⟩] := by decide

end Verif.Utils
