import Verif.Utils.Summary
/-
Model and properties of `describe_pixel_diffs` (src/utils.rs:492-560) (C142).  The description is modelled as
the information it shows; column widths, padding and the colour codes of the text are not modelled.
-/
namespace Verif.Utils
variable {α : Type _}

/-- What a description shows: both images on a small region, pixel by pixel with the positions of the
differences highlighted, or a list of differences. -/
inductive Description (α : Type _) where
  | region (left top : Nat) (actual expected : List (List (α × Bool)))
  | list (diffs : List (Diff α))

/-- `render_image_region`, utils.rs:569-639: one list per row; `none` if a pixel outside the image is read or
the region is empty (`max().unwrap()` at line 596). -/
def renderRegion (im : Image α) (left top right bottom : Nat) (mark : Nat → Nat → Bool) :
    Option (List (List (α × Bool))) :=
  if right < left ∨ bottom < top then none
  else (List.range' top (bottom + 1 - top)).mapM fun y =>
    (List.range' left (right + 1 - left)).mapM fun x =>
      if x < im.w ∧ y < im.h then some (im.px x y, mark x y) else none

/-- `describe_pixel_diffs`, utils.rs:492-560.  Coordinates are below 2^31 - 2, so that the casts to `i32` keep
them; `none` is a panic (the subtractions at line 513 underflow, or rendering fails). -/
def describePixelDiffs (actual expected : Image α) (diffs : List (Diff α)) : Option (Description α) :=
  let topLeft := diffs.foldl (fun acc d => (min acc.1 d.x, min acc.2 d.y)) ((4294967295, 4294967295) : Nat × Nat)
  let bottomRight := diffs.foldl (fun acc d => (max acc.1 d.x, max acc.2 d.y)) ((0, 0) : Nat × Nat)
  if bottomRight.1 < topLeft.1 ∨ bottomRight.2 < topLeft.2 then none
  else if max (bottomRight.1 - topLeft.1) (bottomRight.2 - topLeft.2) < 6 then
    let left := (max 0 ((topLeft.1 : Int) - 2)).toNat
    let top := (max 0 ((topLeft.2 : Int) - 2)).toNat
    let right := (min ((actual.w : Int) - 1) ((bottomRight.1 : Int) + 2)).toNat
    let bottom := (min ((actual.h : Int) - 1) ((bottomRight.2 : Int) + 2)).toNat
    let mark := fun x y => diffs.any fun d => d.x == x && d.y == y
    (renderRegion actual left top right bottom mark).bind fun a =>
    (renderRegion expected left top right bottom mark).bind fun e =>
    some (.region left top a e)
  else some (.list (diffs.take 5))

/-! ### The folds -/

theorem foldl_min (l : List (Diff α)) : ∀ A B : Nat,
    (l.foldl (fun acc d => (min acc.1 d.x, min acc.2 d.y)) ((A, B) : Nat × Nat)).1 ≤ A ∧
    (l.foldl (fun acc d => (min acc.1 d.x, min acc.2 d.y)) ((A, B) : Nat × Nat)).2 ≤ B ∧
    (∀ d ∈ l, (l.foldl (fun acc d => (min acc.1 d.x, min acc.2 d.y)) ((A, B) : Nat × Nat)).1 ≤ d.x ∧
      (l.foldl (fun acc d => (min acc.1 d.x, min acc.2 d.y)) ((A, B) : Nat × Nat)).2 ≤ d.y) ∧
    ((l.foldl (fun acc d => (min acc.1 d.x, min acc.2 d.y)) ((A, B) : Nat × Nat)).1 = A ∨
      ∃ d ∈ l, d.x = (l.foldl (fun acc d => (min acc.1 d.x, min acc.2 d.y)) ((A, B) : Nat × Nat)).1) ∧
    ((l.foldl (fun acc d => (min acc.1 d.x, min acc.2 d.y)) ((A, B) : Nat × Nat)).2 = B ∨
      ∃ d ∈ l, d.y = (l.foldl (fun acc d => (min acc.1 d.x, min acc.2 d.y)) ((A, B) : Nat × Nat)).2) := by
  induction l with
  | nil => intro A B; simp
  | cons d l ih =>
    intro A B
    obtain ⟨h1, h2, h3, h4, h5⟩ := ih (min A d.x) (min B d.y)
    rw [List.foldl_cons]
    generalize l.foldl (fun acc d => (min acc.1 d.x, min acc.2 d.y)) (min A d.x, min B d.y) = r at *
    refine ⟨by clear h4 h5; omega, by clear h4 h5; omega, ?_, ?_, ?_⟩
    · intro e he
      rcases List.mem_cons.1 he with rfl | he
      · clear h4 h5; omega
      · exact h3 e he
    · clear h5
      rcases h4 with h4 | ⟨e, he, h4⟩
      · by_cases hA : A ≤ d.x
        · exact Or.inl (by omega)
        · exact Or.inr ⟨d, List.mem_cons_self, by omega⟩
      · exact Or.inr ⟨e, List.mem_cons_of_mem _ he, h4⟩
    · clear h4
      rcases h5 with h5 | ⟨e, he, h5⟩
      · by_cases hA : B ≤ d.y
        · exact Or.inl (by omega)
        · exact Or.inr ⟨d, List.mem_cons_self, by omega⟩
      · exact Or.inr ⟨e, List.mem_cons_of_mem _ he, h5⟩

theorem foldl_max (l : List (Diff α)) : ∀ A B : Nat,
    (∀ d ∈ l, d.x ≤ (l.foldl (fun acc d => (max acc.1 d.x, max acc.2 d.y)) ((A, B) : Nat × Nat)).1 ∧
      d.y ≤ (l.foldl (fun acc d => (max acc.1 d.x, max acc.2 d.y)) ((A, B) : Nat × Nat)).2) ∧
    A ≤ (l.foldl (fun acc d => (max acc.1 d.x, max acc.2 d.y)) ((A, B) : Nat × Nat)).1 ∧
    B ≤ (l.foldl (fun acc d => (max acc.1 d.x, max acc.2 d.y)) ((A, B) : Nat × Nat)).2 ∧
    ((l.foldl (fun acc d => (max acc.1 d.x, max acc.2 d.y)) ((A, B) : Nat × Nat)).1 = A ∨
      ∃ d ∈ l, d.x = (l.foldl (fun acc d => (max acc.1 d.x, max acc.2 d.y)) ((A, B) : Nat × Nat)).1) ∧
    ((l.foldl (fun acc d => (max acc.1 d.x, max acc.2 d.y)) ((A, B) : Nat × Nat)).2 = B ∨
      ∃ d ∈ l, d.y = (l.foldl (fun acc d => (max acc.1 d.x, max acc.2 d.y)) ((A, B) : Nat × Nat)).2) := by
  induction l with
  | nil => intro A B; simp
  | cons d l ih =>
    intro A B
    obtain ⟨h3, h1, h2, h4, h5⟩ := ih (max A d.x) (max B d.y)
    rw [List.foldl_cons]
    generalize l.foldl (fun acc d => (max acc.1 d.x, max acc.2 d.y)) (max A d.x, max B d.y) = r at *
    refine ⟨?_, by clear h4 h5; omega, by clear h4 h5; omega, ?_, ?_⟩
    · intro e he
      rcases List.mem_cons.1 he with rfl | he
      · clear h4 h5; omega
      · exact h3 e he
    · clear h5
      rcases h4 with h4 | ⟨e, he, h4⟩
      · by_cases hA : d.x ≤ A
        · exact Or.inl (by omega)
        · exact Or.inr ⟨d, List.mem_cons_self, by omega⟩
      · exact Or.inr ⟨e, List.mem_cons_of_mem _ he, h4⟩
    · clear h4
      rcases h5 with h5 | ⟨e, he, h5⟩
      · by_cases hA : d.y ≤ B
        · exact Or.inl (by omega)
        · exact Or.inr ⟨d, List.mem_cons_self, by omega⟩
      · exact Or.inr ⟨e, List.mem_cons_of_mem _ he, h5⟩

theorem mapM_some' {β γ : Type _} {f : β → Option γ} {g : β → γ} (l : List β) (h : ∀ x ∈ l, f x = some (g x)) :
    l.mapM f = some (l.map g) := by
  induction l with
  | nil => rfl
  | cons x l ih =>
    rw [List.mapM_cons, h x List.mem_cons_self, ih fun y hy => h y (List.mem_cons_of_mem _ hy)]
    rfl

theorem renderRegion_some (im : Image α) {l t r b : Nat} (mark : Nat → Nat → Bool) (hlr : l ≤ r) (htb : t ≤ b)
    (hr : r < im.w) (hb : b < im.h) : renderRegion im l t r b mark =
    some ((List.range' t (b + 1 - t)).map fun y => (List.range' l (r + 1 - l)).map fun x =>
      (im.px x y, mark x y)) := by
  unfold renderRegion
  rw [if_neg (by omega)]
  refine mapM_some' _ fun y hy => mapM_some' _ fun x hx => ?_
  rw [List.mem_range'_1] at hx hy
  rw [if_pos (by omega)]

/-- A picture of the rectangle from `(l, t)` to `(r, b)`, both included, with exactly the positions of the
differences highlighted. -/
def Shows (im : Image α) (diffs : List (Diff α)) (l t r b : Nat) (rows : List (List (α × Bool))) : Prop :=
  rows.length = b + 1 - t ∧ ∀ j, t + j ≤ b → ∃ row, rows[j]? = some row ∧ row.length = r + 1 - l ∧
    ∀ i, l + i ≤ r → ∃ m, row[i]? = some (im.px (l + i) (t + j), m) ∧
      (m = true ↔ ∃ d ∈ diffs, d.x = l + i ∧ d.y = t + j)

theorem shows_render (im : Image α) (diffs : List (Diff α)) (l t r b : Nat) :
    Shows im diffs l t r b ((List.range' t (b + 1 - t)).map fun y => (List.range' l (r + 1 - l)).map fun x =>
      (im.px x y, diffs.any fun d => d.x == x && d.y == y)) := by
  refine ⟨by simp, fun j hj => ⟨(List.range' l (r + 1 - l)).map fun x =>
      (im.px x (t + j), diffs.any fun d => d.x == x && d.y == t + j), ?_, by simp, fun i hi =>
    ⟨diffs.any fun d => d.x == l + i && d.y == t + j, ?_, ?_⟩⟩⟩
  · rw [List.getElem?_map, List.getElem?_range' (by omega)]
    simp
  · rw [List.getElem?_map, List.getElem?_range' (by omega)]
    simp
  · simp [List.any_eq_true]

/-- **C142.** For two images of equal size (below 2^31 - 2 in both directions) and a non-empty list of
differences with positions in the images, the description is produced without a panic.  If the differences
spread over at most six rows and columns, it shows both images on one rectangle, which lies in the images, contains
all differences and up to two more pixels on each side (two unless the image ends), with exactly the positions of the
differences highlighted; otherwise it lists the first five differences in order. -/
theorem C142_describe (actual expected : Image α) (diffs : List (Diff α)) (hne : diffs ≠ [])
    (hw : actual.w = expected.w) (hh : actual.h = expected.h) (hw2 : actual.w < 2 ^ 31 - 2)
    (hh2 : actual.h < 2 ^ 31 - 2) (hin : ∀ d ∈ diffs, d.x < actual.w ∧ d.y < actual.h) :
    ∃ D, describePixelDiffs actual expected diffs = some D ∧
      ((∀ d ∈ diffs, ∀ e ∈ diffs, d.x ≤ e.x + 5 ∧ d.y ≤ e.y + 5) →
        ∃ l t r b a e, D = .region l t a e ∧ r < actual.w ∧ b < actual.h ∧
          Shows actual diffs l t r b a ∧ Shows expected diffs l t r b e ∧
          (∀ d ∈ diffs, l ≤ d.x ∧ d.x ≤ r ∧ t ≤ d.y ∧ d.y ≤ b) ∧
          (l = 0 ∨ ∃ d ∈ diffs, d.x = l + 2) ∧ (t = 0 ∨ ∃ d ∈ diffs, d.y = t + 2) ∧
          (∀ d ∈ diffs, l ≤ d.x - 2 ∧ t ≤ d.y - 2) ∧
          (r + 1 = actual.w ∨ ∃ d ∈ diffs, r = d.x + 2) ∧ (b + 1 = actual.h ∨ ∃ d ∈ diffs, b = d.y + 2) ∧
          ∀ d ∈ diffs, (d.x + 2 ≤ r ∨ r + 1 = actual.w) ∧ (d.y + 2 ≤ b ∨ b + 1 = actual.h)) ∧
      ((∃ d ∈ diffs, ∃ e ∈ diffs, e.x + 5 < d.x ∨ e.y + 5 < d.y) → D = .list (diffs.take 5)) := by
  obtain ⟨d0, hd0⟩ := List.exists_mem_of_ne_nil _ hne
  obtain ⟨m1, m2, m3, m4, m5⟩ := foldl_min diffs 4294967295 4294967295
  obtain ⟨n3, n1, n2, n4, n5⟩ := foldl_max diffs 0 0
  unfold describePixelDiffs
  generalize diffs.foldl (fun acc d => (min acc.1 d.x, min acc.2 d.y)) (4294967295, 4294967295) = tl at *
  generalize diffs.foldl (fun acc d => (max acc.1 d.x, max acc.2 d.y)) (0, 0) = br at *
  dsimp only
  have a1 := m3 d0 hd0
  have a2 := n3 d0 hd0
  have a3 := hin d0 hd0
  have x1 : ∃ d ∈ diffs, d.x = tl.1 := by
    clear m5 n4 n5
    rcases m4 with h | h
    · omega
    · exact h
  have y1 : ∃ d ∈ diffs, d.y = tl.2 := by
    clear m4 n4 n5 x1
    rcases m5 with h | h
    · omega
    · exact h
  have x2 : ∃ d ∈ diffs, d.x = br.1 := by
    clear m4 m5 n5 x1 y1
    rcases n4 with h | h
    · exact ⟨d0, hd0, by omega⟩
    · exact h
  have y2 : ∃ d ∈ diffs, d.y = br.2 := by
    clear m4 m5 n4 x1 y1 x2
    rcases n5 with h | h
    · exact ⟨d0, hd0, by omega⟩
    · exact h
  clear m4 m5 n4 n5
  obtain ⟨dx1, hx1, ex1⟩ := x1
  obtain ⟨dy1, hy1, ey1⟩ := y1
  obtain ⟨dx2, hx2, ex2⟩ := x2
  obtain ⟨dy2, hy2, ey2⟩ := y2
  have i1 := hin dx2 hx2
  have i2 := hin dy2 hy2
  rw [if_neg (by omega)]
  by_cases hs : max (br.1 - tl.1) (br.2 - tl.2) < 6
  · rw [if_pos hs]
    obtain ⟨l, hl⟩ : ∃ l, l = (max 0 ((tl.1 : Int) - 2)).toNat := ⟨_, rfl⟩
    obtain ⟨t, ht⟩ : ∃ t, t = (max 0 ((tl.2 : Int) - 2)).toNat := ⟨_, rfl⟩
    obtain ⟨r, hr⟩ : ∃ r, r = (min ((actual.w : Int) - 1) ((br.1 : Int) + 2)).toNat := ⟨_, rfl⟩
    obtain ⟨b, hb⟩ : ∃ b, b = (min ((actual.h : Int) - 1) ((br.2 : Int) + 2)).toNat := ⟨_, rfl⟩
    rw [← hl, ← ht, ← hr, ← hb, renderRegion_some actual _ (by omega) (by omega) (by omega) (by omega),
      renderRegion_some expected _ (by omega) (by omega) (by omega) (by omega)]
    refine ⟨_, rfl, fun _ => ⟨l, t, r, b, _, _, rfl, by omega, by omega, shows_render _ _ _ _ _ _,
      shows_render _ _ _ _ _ _, ?_, ?_, ?_, ?_, ?_, ?_, ?_⟩, ?_⟩
    · intro d hd
      have := m3 d hd; have := n3 d hd; have := hin d hd
      omega
    · by_cases h : tl.1 ≤ 2
      · exact Or.inl (by omega)
      · exact Or.inr ⟨dx1, hx1, by omega⟩
    · by_cases h : tl.2 ≤ 2
      · exact Or.inl (by omega)
      · exact Or.inr ⟨dy1, hy1, by omega⟩
    · intro d hd
      have := m3 d hd
      omega
    · by_cases h : br.1 + 2 < actual.w
      · exact Or.inr ⟨dx2, hx2, by omega⟩
      · exact Or.inl (by omega)
    · by_cases h : br.2 + 2 < actual.h
      · exact Or.inr ⟨dy2, hy2, by omega⟩
      · exact Or.inl (by omega)
    · intro d hd
      have := n3 d hd; have := hin d hd
      omega
    · rintro ⟨d, hd, e, he, h⟩
      have := m3 e he; have := n3 d hd
      omega
  · rw [if_neg hs]
    refine ⟨_, rfl, fun h => ?_, fun _ => rfl⟩
    have := h dx2 hx2 dx1 hx1
    have := h dy2 hy2 dy1 hy1
    omega

/-- **C142** with an empty list of differences: the description panics (`pixel_diff_summary` never asks for it). -/
theorem C142_empty (actual expected : Image α) : describePixelDiffs actual expected [] = none := rfl

/-- **C142** for the differences listed by `pixel_diffs`: whenever two images of equal size differ, the message is
produced. -/
theorem C142_summary (actual expected : Image α) (hw : actual.w = expected.w) (hh : actual.h = expected.h)
    (hw2 : actual.w < 2 ^ 31 - 2) (hh2 : actual.h < 2 ^ 31 - 2)
    (isDiff : Nat × Nat × α → Nat × Nat × α → Bool) :
    ∃ l, pixelDiffs actual expected isDiff = some l ∧
      (l ≠ [] → ∃ D, describePixelDiffs actual expected l = some D) := by
  obtain ⟨l, h1, h2, -⟩ := C79_pixel_diffs actual expected hw hh isDiff
  refine ⟨l, h1, fun hne => ?_⟩
  obtain ⟨D, hD, -⟩ := C142_describe actual expected l hne hw hh hw2 hh2 fun d hd =>
    ((h2 d.x d.y d.actual d.expected).1 hd).1
  exact ⟨D, hD⟩

-- one difference in the corner of a 4x3 image: columns 0..2 and rows 0..2 are shown, with one pixel highlighted
example : describePixelDiffs (⟨4, 3, fun x y => 10 * x + y⟩ : Image Nat) ⟨4, 3, fun x y => if x = 0 ∧ y = 0 then 7
      else 10 * x + y⟩ [⟨0, 0, 0, 7⟩] =
    some (.region 0 0 [[(0, true), (10, false), (20, false)], [(1, false), (11, false), (21, false)],
      [(2, false), (12, false), (22, false)]] [[(7, true), (10, false), (20, false)], [(1, false), (11, false),
      (21, false)], [(2, false), (12, false), (22, false)]]) := by
  rfl

end Verif.Utils
