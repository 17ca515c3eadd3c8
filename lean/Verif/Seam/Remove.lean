import Verif.Seam.Props
import Mathlib.Data.List.Nodup
/-
Property theorems C60 (removing seams) and C61 (drawing removed seams).
-/
namespace Verif.Seam
open Verif.Gradients

/-! ### Specification -/

/-- The pixels of row `y` from left to right. -/
def row {α : Type _} (im : Image α) (y : Nat) : List α := (List.range im.w).map fun x => im.px x y

/-- The columns removed from a row with columns `cols` when positions `xs` are deleted one after
the other. -/
def removedCols : List Nat → List Nat → List Nat
  | _, [] => []
  | cols, x :: xs => cols.getD x 0 :: removedCols (cols.eraseIdx x) xs

/-- No column of `gone` lies between the position `x` and the column at that position, and likewise
for the following positions. -/
def Apart : List Nat → List Nat → List Nat → Prop
  | _, _, [] => True
  | gone, cols, x :: xs => (∀ o ∈ gone, o < x ∨ cols.getD x 0 < o) ∧
      Apart (gone ++ [cols.getD x 0]) (cols.eraseIdx x) xs

/-! ### C60 -/

theorem copyRow {α : Type _} (im : Image α) (d lo hi y : Nat) (out : Image α) (hd : d ≤ lo)
    (hlo : lo ≤ hi) (hy : y < im.h) (hy' : y < out.h) (hhi : hi ≤ im.w) (hhi' : hi - d ≤ out.w) :
    ∃ out', (forRange lo hi out fun x out => (im.get x y).bind fun p => out.put (x - d) y p) =
        some out' ∧ out'.w = out.w ∧ out'.h = out.h ∧
      ∀ a b, out'.px a b = if b = y ∧ lo ≤ a + d ∧ a + d < hi then im.px (a + d) y else out.px a b := by
  obtain ⟨o, h1, h2, h3, h4⟩ := forRange_spec (lo := lo) (hi := hi) (s := out)
    (f := fun x out => (im.get x y).bind fun p => out.put (x - d) y p)
    (fun i o => o.w = out.w ∧ o.h = out.h ∧
      ∀ a b, o.px a b = if b = y ∧ lo ≤ a + d ∧ a + d < i then im.px (a + d) y else out.px a b)
    hlo ⟨rfl, rfl, fun a b => by rw [if_neg (by omega)]⟩
    (by
      rintro i o hi1 hi2 ⟨h1, h2, h3⟩
      rw [Image.get_of_inB (by omega) hy, Option.bind_some, Image.put_of_inB _ (by omega) (by omega)]
      refine ⟨_, rfl, h1, h2, fun a b => ?_⟩
      dsimp only
      by_cases hc : a = i - d ∧ b = y
      · rw [if_pos hc, if_pos (by omega), show a + d = i by omega]
      · rw [if_neg hc, h3 a b]
        exact if_congr (by omega) rfl rfl)
  exact ⟨o, h1, h2, h3, h4⟩

theorem remove_px {α : Type _} (z : α) (im : Image α) (seam : List Nat) (hl : seam.length = im.h)
    (hw : 0 < im.w) (hs : ∀ x ∈ seam, x < im.w) :
    ∃ out, removeVerticalSeam z im seam = some out ∧ out.w = im.w - 1 ∧ out.h = im.h ∧
      ∀ x y, x < im.w - 1 → y < im.h →
        out.px x y = im.px (if x < pathOf im.h seam y then x else x + 1) y := by
  unfold removeVerticalSeam
  rw [if_pos hl, csub_of_le hw, Option.bind_some]
  obtain ⟨out, h1, h2, h3, h4⟩ := forRange_spec (lo := 0) (hi := im.h)
    (s := Image.new (im.w - 1) im.h z)
    (f := fun y out => (seam[im.h - y - 1]?).bind fun xs =>
      (forRange 0 xs out fun x out => (im.get x y).bind fun p => out.put x y p).bind fun out =>
      forRange (xs + 1) im.w out fun x out => (im.get x y).bind fun p => out.put (x - 1) y p)
    (fun i out => out.w = im.w - 1 ∧ out.h = im.h ∧ ∀ x y, x < im.w - 1 → y < i →
      out.px x y = im.px (if x < pathOf im.h seam y then x else x + 1) y) (Nat.zero_le _)
    ⟨rfl, rfl, fun x y _ hy => by omega⟩
    (by
      rintro y out _ hy ⟨h1, h2, h3⟩
      have hlt : im.h - y - 1 < seam.length := by omega
      rw [List.getElem?_eq_getElem hlt, Option.bind_some]
      have hp : pathOf im.h seam y = seam[im.h - y - 1] := by
        unfold pathOf
        rw [List.getD_eq_getElem?_getD, show im.h - 1 - y = im.h - y - 1 by omega,
          List.getElem?_eq_getElem hlt, Option.getD_some]
      have hx := hs _ (List.getElem_mem hlt)
      rw [← hp] at hx ⊢
      obtain ⟨o1, a1, a2, a3, a4⟩ := copyRow im 0 0 (pathOf im.h seam y) y out (le_refl _) (by omega)
        hy (by omega) (by omega) (by omega)
      obtain ⟨o2, b1, b2, b3, b4⟩ := copyRow im 1 (pathOf im.h seam y + 1) im.w y o1 (by omega)
        (by omega) hy (by omega) (le_refl _) (by omega)
      simp only [Nat.sub_zero] at a1
      rw [a1, Option.bind_some, b1]
      refine ⟨o2, rfl, by omega, by omega, fun x b hxw hb => ?_⟩
      rw [b4, a4]
      by_cases hby : b = y
      · subst hby
        by_cases hc : x < pathOf im.h seam b
        · rw [if_neg (by omega), if_pos (by omega), if_pos hc, Nat.add_zero]
        · rw [if_pos (by omega), if_neg hc]
      · rw [if_neg (by omega), if_neg (by omega)]
        exact h3 x b hxw (by omega))
  exact ⟨out, h1, h2, h3, fun x y hx hy => h4 x y hx hy⟩

/-- **C60.** Removing a seam with one column per row returns an image one column narrower whose
rows are the input rows with the seam's pixel deleted. -/
theorem C60_remove {α : Type _} (z : α) (im : Image α) (seam : List Nat) (hl : seam.length = im.h)
    (hw : 0 < im.w) (hs : ∀ x ∈ seam, x < im.w) :
    ∃ out, removeVerticalSeam z im seam = some out ∧ out.w = im.w - 1 ∧ out.h = im.h ∧
      ∀ y, y < im.h → row out y = (row im y).eraseIdx (pathOf im.h seam y) := by
  obtain ⟨out, h1, h2, h3, h4⟩ := remove_px z im seam hl hw hs
  refine ⟨out, h1, h2, h3, fun y hy => ?_⟩
  have hp : pathOf im.h seam y < im.w := by
    unfold pathOf
    rw [List.getD_eq_getElem?_getD, List.getElem?_eq_getElem (by omega), Option.getD_some]
    exact hs _ (List.getElem_mem _)
  apply List.ext_getElem
  · rw [List.length_eraseIdx]; simp [row, h2, hp]
  · intro x hx1 hx2
    have hx : x < im.w - 1 := by simpa [row, h2] using hx1
    rw [List.getElem_eraseIdx]
    simp only [row, List.getElem_map, List.getElem_range]
    rw [h4 x y hx hy]
    split <;> simp_all

/-- **C60.** A seam of the wrong length, or an image without columns, is rejected. -/
theorem C60_reject {α : Type _} (z : α) (im : Image α) (seam : List Nat)
    (h : seam.length ≠ im.h ∨ im.w = 0) : removeVerticalSeam z im seam = none := by
  unfold removeVerticalSeam
  split
  · rename_i hl
    have hw : im.w = 0 := h.resolve_left (fun hc => hc hl)
    rw [hw]; rfl
  · rfl

theorem mem_of_path {w h : Nat} {seam : List Nat} (hl : seam.length = h)
    (hp : IsPath w h (pathOf h seam)) : ∀ x ∈ seam, x < w := by
  intro x hx
  obtain ⟨i, hi, rfl⟩ := List.getElem_of_mem hx
  have := hp.1 (h - 1 - i) (by omega)
  unfold pathOf at this
  rwa [List.getD_eq_getElem?_getD, show h - 1 - (h - 1 - i) = i by omega,
    List.getElem?_eq_getElem hi, Option.getD_some] at this

/-- **C60.** Shrinking an 8-bit image with at least one row to any width from one up to its own
succeeds; the result has that width and the same height, and every row of it is obtained from the
input row by deleting pixels. -/
theorem C60_shrink {n : Nat} (im : Image (Fin n → Nat)) (hu : IsU8 im) (hh : 0 < im.h) (t : Nat)
    (ht1 : 1 ≤ t) (ht : t ≤ im.w) :
    ∃ out, shrinkWidth im t = some out ∧ out.w = t ∧ out.h = im.h ∧
      ∀ y, y < im.h → (row out y).Sublist (row im y) := by
  unfold shrinkWidth
  rw [if_pos ht]
  obtain ⟨out, h1, h2, h3, h4, h5⟩ := forRange_spec (lo := 0) (hi := im.w - t) (s := im)
    (f := fun _ im => (findVerticalSeam im).bind fun seam => removeVerticalSeam (fun _ => 0) im seam)
    (fun i o => o.w = im.w - i ∧ o.h = im.h ∧ IsU8 o ∧
      ∀ y, y < im.h → (row o y).Sublist (row im y)) (Nat.zero_le _)
    ⟨rfl, rfl, hu, fun _ _ => List.Sublist.refl _⟩
    (by
      rintro i o _ hi ⟨h1, h2, h3, h4⟩
      obtain ⟨g, seam, -, -, -, s1, -, s2, s3⟩ := C59_find o h3 (by omega) (by omega)
      have hm := mem_of_path s2 s3
      obtain ⟨o', r1, r2, r3, r4⟩ := remove_px (fun _ => 0) o seam s2 (by omega) hm
      obtain ⟨o'', q1, -, -, q4⟩ := C60_remove (fun _ => 0) o seam s2 (by omega) hm
      rw [r1, Option.some.injEq] at q1
      subst q1
      rw [s1, Option.bind_some, r1]
      refine ⟨o', rfl, by omega, by omega, ⟨?_, ?_, ?_⟩, fun y hy => ?_⟩
      · have := h3.1; omega
      · have := h3.2.1; omega
      · intro x y c hx hy
        rw [r4 x y (by omega) (by omega)]
        refine h3.2.2 _ _ _ ?_ (by omega)
        split <;> omega
      · rw [q4 y (by omega)]
        exact (List.eraseIdx_sublist _ _).trans (h4 y hy))
  exact ⟨out, h1, by omega, h3, h5⟩

/-- **C60.** Shrinking by one column removes the seam found in the image, and shrinking further
continues from the result. -/
theorem C60_shrink_step {n : Nat} (im : Image (Fin n → Nat)) (hu : IsU8 im) (hh : 0 < im.h) (t : Nat)
    (ht1 : 1 ≤ t) (ht : t ≤ im.w) : shrinkWidth im im.w = some im ∧
    (t < im.w → ∃ seam next out, findVerticalSeam im = some seam ∧ seam.length = im.h ∧
      IsPath im.w im.h (pathOf im.h seam) ∧ next.w = im.w - 1 ∧ next.h = im.h ∧
      (∀ y, y < im.h → row next y = (row im y).eraseIdx (pathOf im.h seam y)) ∧
      shrinkWidth im t = some out ∧ shrinkWidth next t = some out) := by
  constructor
  · unfold shrinkWidth
    rw [if_pos (le_refl _), forRange_empty (by omega)]
  · intro hlt
    obtain ⟨g, seam, -, -, -, s1, -, s2, s3⟩ := C59_find im hu (by omega) hh
    obtain ⟨next, r1, r2, r3, r4⟩ := C60_remove (fun _ => 0) im seam s2 (by omega) (mem_of_path s2 s3)
    obtain ⟨out, o1, -⟩ := C60_shrink im hu hh t ht1 ht
    refine ⟨seam, next, out, s1, s2, s3, r2, r3, r4, o1, ?_⟩
    unfold shrinkWidth at o1 ⊢
    rw [if_pos ht] at o1
    rw [if_pos (by omega), r2]
    have key : ∀ (f : Image (Fin n → Nat) → Option (Image (Fin n → Nat))) (k i j : Nat) (s : _),
        forCount (fun _ => f) k i s = forCount (fun _ => f) k j s := by
      intro f k
      induction k with
      | zero => intros; rfl
      | succ k ih =>
        intro i j s
        unfold forCount
        exact congrArg _ (funext fun s' => ih _ _ s')
    unfold forRange at o1 ⊢
    rw [show im.w - t - 0 = (im.w - 1 - t - 0) + 1 by omega] at o1
    unfold forCount at o1
    rw [s1, Option.bind_some, r1, Option.bind_some] at o1
    rw [← o1]
    exact key _ _ _ _ _

/-- **C60.** A target width above the image's, or zero for a non-empty image, is rejected. -/
theorem C60_shrink_reject {n : Nat} (im : Image (Fin n → Nat)) (hu : IsU8 im) (t : Nat)
    (h : im.w < t ∨ t = 0 ∧ 0 < im.w ∧ 0 < im.h) : shrinkWidth im t = none := by
  unfold shrinkWidth
  rcases h with h | ⟨rfl, hw, hh⟩
  · rw [if_neg (by omega)]
  · rw [if_pos (Nat.zero_le _)]
    obtain ⟨out, h1, h2, -⟩ := C60_shrink im hu hh 1 (le_refl _) hw
    unfold shrinkWidth at h1
    rw [if_pos (show 1 ≤ im.w from hw)] at h1
    rw [show im.w - 0 = im.w - 1 + 1 by omega, forRange_succ_last (Nat.zero_le _), h1,
      Option.bind_some, C59_narrow out (by omega)]
    rfl

example : (removeVerticalSeam 0 ⟨3, 2, fun x y => 10 * y + x⟩ [2, 1]).map Image.rows =
    some [[0, 2], [10, 11]] := by decide

example : (shrinkWidth (⟨3, 2, fun x y _ => [[5, 5, 200], [5, 5, 200]].getD y [] |>.getD x 0⟩ :
    Image (Fin 1 → Nat)) 2).map (fun o => (Image.mk o.w o.h fun x y => o.px x y 0).rows) =
    some [[5, 200], [5, 200]] := by decide +kernel

/-! ### C61 -/

/-- The column painted for position `x` when the columns `offs` are recorded for the row. -/
def paintCol (offs : List Nat) (x : Nat) : Nat := x + (offs.filter (· < x)).length

/-- The columns painted in one row for the successive positions `xs`, given recorded columns. -/
def paintCols : List Nat → List Nat → List Nat
  | _, [] => []
  | offs, x :: xs => paintCol offs x :: paintCols (offs ++ [paintCol offs x]) xs

theorem fold_paint (x : Nat) : ∀ (offs : List Nat) (a : Nat),
    offs.foldl (fun a o => if o < x then a + 1 else a) a = a + (offs.filter (· < x)).length
  | [], a => rfl
  | o :: offs, a => by
    rw [List.foldl_cons, fold_paint x offs, List.filter_cons]
    by_cases h : o < x
    · simp [h]; omega
    · simp [h]

theorem paintCols_concat (x : Nat) : ∀ (xs offs : List Nat), paintCols offs (xs ++ [x]) =
    paintCols offs xs ++ [paintCol (offs ++ paintCols offs xs) x]
  | [], offs => by simp [paintCols]
  | a :: xs, offs => by
    rw [List.cons_append, paintCols, paintCols_concat x xs, paintCols]
    simp

theorem paintCols_length : ∀ (xs offs : List Nat), (paintCols offs xs).length = xs.length
  | [], offs => rfl
  | a :: xs, offs => by rw [paintCols, List.length_cons, paintCols_length xs, List.length_cons]

theorem drawSeam_spec {β : Type _} (red : β) (h : Nat) (seam : List Nat) (hl : seam.length = h)
    (s : Image β × (Nat → List Nat)) (hh : s.1.h = h)
    (hb : ∀ y, y < h → pathOf h seam y + (s.2 y).length < s.1.w) :
    ∃ s', drawSeam red h seam s = some s' ∧ s'.1.w = s.1.w ∧ s'.1.h = h ∧
      (∀ y, y < h → s'.2 y = s.2 y ++ [paintCol (s.2 y) (pathOf h seam y)]) ∧
      ∀ x y, y < h → s'.1.px x y =
        if x = paintCol (s.2 y) (pathOf h seam y) then red else s.1.px x y := by
  unfold drawSeam
  rw [hl, Nat.min_self]
  have key := forRange_spec (lo := 0) (hi := h) (s := s)
    (f := fun i s => (seam[i]?).bind fun x =>
      (s.1.put ((s.2 (h - 1 - i)).foldl (fun a o => if o < x then a + 1 else a) x) (h - 1 - i) red).bind
      fun out => some (out, fun r => if r = h - 1 - i then s.2 (h - 1 - i) ++
        [(s.2 (h - 1 - i)).foldl (fun a o => if o < x then a + 1 else a) x] else s.2 r))
    (fun i t => t.1.w = s.1.w ∧ t.1.h = h ∧
      (∀ y, y < h → t.2 y = if h - 1 - y < i then s.2 y ++ [paintCol (s.2 y) (pathOf h seam y)]
        else s.2 y) ∧
      ∀ x y, y < h → t.1.px x y =
        if h - 1 - y < i ∧ x = paintCol (s.2 y) (pathOf h seam y) then red else s.1.px x y)
    (Nat.zero_le _)
    ⟨rfl, hh, fun y _ => by rw [if_neg (by omega)], fun x y _ => by rw [if_neg (by omega)]⟩
    (by
      rintro i t _ hi ⟨h1, h2, h3, h4⟩
      rw [List.getElem?_eq_getElem (by omega), Option.bind_some]
      have hp : seam[i] = pathOf h seam (h - 1 - i) := by
        unfold pathOf
        rw [List.getD_eq_getElem?_getD, show h - 1 - (h - 1 - i) = i by omega,
          List.getElem?_eq_getElem (by omega), Option.getD_some]
      rw [hp, fold_paint, h3 (h - 1 - i) (by omega), if_neg (by omega)]
      have hx : paintCol (s.2 (h - 1 - i)) (pathOf h seam (h - 1 - i)) < t.1.w := by
        have := hb (h - 1 - i) (by omega)
        have := List.length_filter_le (fun o => decide (o < pathOf h seam (h - 1 - i)))
          (s.2 (h - 1 - i))
        unfold paintCol
        omega
      change ∃ s', (t.1.put (paintCol (s.2 (h - 1 - i)) (pathOf h seam (h - 1 - i))) _ _).bind _ =
        some s' ∧ _
      rw [Image.put_of_inB _ hx (by omega), Option.bind_some]
      refine ⟨_, rfl, h1, h2, fun y hy => ?_, fun x y hy => ?_⟩
      · dsimp only
        by_cases hc : y = h - 1 - i
        · rw [if_pos hc, if_pos (by omega), hc]; rfl
        · rw [if_neg hc, h3 y hy]
          exact if_congr (by omega) rfl rfl
      · dsimp only
        by_cases hc : y = h - 1 - i
        · subst hc
          rw [h4 x _ hy]
          by_cases hx' : x = paintCol (s.2 (h - 1 - i)) (pathOf h seam (h - 1 - i))
          · rw [if_pos ⟨hx', rfl⟩, if_pos ⟨by omega, hx'⟩]
          · rw [if_neg (fun hh => hx' hh.1), if_neg (fun hh => hx' hh.2), if_neg (fun hh => hx' hh.2)]
        · rw [if_neg (fun hh => hc hh.2), h4 x y hy]
          exact if_congr (and_congr_left fun _ => by omega) rfl rfl)
  obtain ⟨s', k1, k2, k3, k4, k5⟩ := key
  refine ⟨s', k1, k2, k3, fun y hy => ?_, fun x y hy => ?_⟩
  · rw [k4 y hy, if_pos (by omega)]
  · rw [k5 x y hy]
    exact if_congr (and_iff_right (by omega)) rfl rfl

/-- What the drawing function paints. -/
theorem draw_spec {α β : Type _} (toRgb : α → β) (red : β) (im : Image α) (seams : List (List Nat))
    (hl : ∀ s ∈ seams, s.length = im.h)
    (hb : ∀ k s, seams[k]? = some s → ∀ y, y < im.h → pathOf im.h s y + k < im.w) :
    ∃ out, drawVerticalSeams toRgb red im seams = some out ∧ out.w = im.w ∧ out.h = im.h ∧
      ∀ x y, x < im.w → y < im.h → out.px x y =
        if x ∈ paintCols [] (seams.map fun s => pathOf im.h s y) then red else toRgb (im.px x y) := by
  unfold drawVerticalSeams
  have key := forList_spec (f := fun seam s => drawSeam red im.h seam s)
    (fun pre (s : Image β × (Nat → List Nat)) => s.1.w = im.w ∧ s.1.h = im.h ∧
      (∀ y, y < im.h → s.2 y = paintCols [] (pre.map fun s => pathOf im.h s y)) ∧
      ∀ x y, y < im.h → s.1.px x y =
        if x ∈ paintCols [] (pre.map fun s => pathOf im.h s y) then red else toRgb (im.px x y))
    seams [] ((⟨im.w, im.h, fun x y => toRgb (im.px x y)⟩ : Image β), fun _ => [])
    ⟨rfl, rfl, fun _ _ => rfl, fun x y _ => by simp [paintCols]⟩
    (by
      rintro pre seam rest s e ⟨h1, h2, h3, h4⟩
      rw [List.nil_append] at e
      have hk : seams[pre.length]? = some seam := by rw [e]; simp
      obtain ⟨s', k1, k2, k3, k4, k5⟩ := drawSeam_spec red im.h seam
        (hl seam (by rw [e]; simp)) s h2
        (fun y hy => by
          rw [h3 y hy, paintCols_length, List.length_map, h1]
          exact hb _ _ hk y hy)
      refine ⟨s', k1, by omega, k3, fun y hy => ?_, fun x y hy => ?_⟩
      · rw [k4 y hy, h3 y hy, List.map_append, List.map_singleton, paintCols_concat, List.nil_append]
      · rw [k5 x y hy, h3 y hy, h4 x y hy, List.map_append, List.map_singleton, paintCols_concat,
          List.nil_append]
        by_cases hx : x = paintCol (paintCols [] (pre.map fun s => pathOf im.h s y)) (pathOf im.h seam y)
        · rw [if_pos hx, if_pos (by rw [hx]; simp)]
        · rw [if_neg hx]
          exact if_congr (by simp [hx]) rfl rfl)
  obtain ⟨s', k1, k2, k3, k4, k5⟩ := key
  rw [k1]
  exact ⟨s'.1, rfl, k2, k3, fun x y _ hy => by rw [k5 x y hy, List.nil_append]⟩

/-- Each column still present is its position plus the number of removed columns before it. -/
def Offset (gone cols : List Nat) : Prop :=
  (∀ i j, i < j → j < cols.length → cols.getD i 0 < cols.getD j 0) ∧
  (∀ i, i < cols.length → cols.getD i 0 = i + (gone.filter (· < cols.getD i 0)).length) ∧
  ∀ i, i < cols.length → cols.getD i 0 ∉ gone

theorem getD_eraseIdx (cols : List Nat) (x i : Nat) :
    (cols.eraseIdx x).getD i 0 = if i < x then cols.getD i 0 else cols.getD (i + 1) 0 := by
  rw [List.getD_eq_getElem?_getD, List.getElem?_eraseIdx]
  split <;> rw [List.getD_eq_getElem?_getD]

theorem Offset.step {gone cols : List Nat} (h : Offset gone cols) {x : Nat} (hx : x < cols.length) :
    Offset (gone ++ [cols.getD x 0]) (cols.eraseIdx x) := by
  obtain ⟨h1, h2, h3⟩ := h
  have hlen : (cols.eraseIdx x).length = cols.length - 1 := by
    rw [List.length_eraseIdx, if_pos hx]
  refine ⟨fun i j hij hj => ?_, fun i hi => ?_, fun i hi => ?_⟩
  · rw [getD_eraseIdx, getD_eraseIdx]
    split
    · split
      · exact h1 i j hij (by omega)
      · exact h1 i (j + 1) (by omega) (by omega)
    · rw [if_neg (by omega)]; exact h1 (i + 1) (j + 1) (by omega) (by omega)
  · rw [getD_eraseIdx, List.filter_append, List.length_append]
    split
    · rename_i hc
      have := h1 i x hc hx
      have h4 := h2 i (by omega)
      rw [List.filter_cons, if_neg (by rw [decide_eq_true_eq]; omega), List.filter_nil,
        List.length_nil, Nat.add_zero]
      exact h4
    · have := h1 x (i + 1) (by omega) (by omega)
      have h4 := h2 (i + 1) (by omega)
      rw [List.filter_cons, if_pos (by rw [decide_eq_true_eq]; exact this), List.filter_nil,
        List.length_singleton]
      omega
  · rw [getD_eraseIdx, List.mem_append, List.mem_singleton]
    split
    · rename_i hc
      have := h1 i x hc hx
      have h4 := h3 i (by omega)
      rintro (h | h)
      · exact h4 h
      · omega
    · have := h1 x (i + 1) (by omega) (by omega)
      have h4 := h3 (i + 1) (by omega)
      rintro (h | h)
      · exact h4 h
      · omega

theorem filter_le_iff (gone : List Nat) {x c : Nat} (hxc : x ≤ c) (hc : c ∉ gone) :
    (gone.filter (· < x)).length = (gone.filter (· < c)).length ↔ ∀ o ∈ gone, o < x ∨ c < o := by
  induction gone with
  | nil => simp
  | cons o gone ih =>
    have hc' : c ∉ gone := fun h => hc (List.mem_cons_of_mem _ h)
    have hco : c ≠ o := fun h => hc (h ▸ List.mem_cons_self)
    have hle : (gone.filter (· < x)).length ≤ (gone.filter (· < c)).length := by
      rw [← List.countP_eq_length_filter, ← List.countP_eq_length_filter]
      exact List.countP_mono_left fun a _ h => by
        have : a < x := by simpa using h
        simp; omega
    rw [List.forall_mem_cons, ← ih hc', List.filter_cons, List.filter_cons]
    by_cases h1 : o < x
    · rw [if_pos (by simpa using h1), if_pos (by simp; omega)]
      simp [h1]
    · by_cases h2 : o < c
      · rw [if_neg (by simpa using h1), if_pos (by simpa using h2), List.length_cons]
        constructor
        · intro h; omega
        · rintro ⟨h | h, -⟩ <;> omega
      · rw [if_neg (by simpa using h1), if_neg (by simpa using h2)]
        exact ⟨fun h => ⟨Or.inr (by omega), h⟩, fun h => h.2⟩

theorem paint_eq_iff : ∀ (xs gone cols : List Nat), Offset gone cols →
    (∀ k x, xs[k]? = some x → x + k < cols.length) →
    (paintCols gone xs = removedCols cols xs ↔ Apart gone cols xs)
  | [], gone, cols, _, _ => by simp [paintCols, removedCols, Apart]
  | x :: xs, gone, cols, ho, hb => by
    have hx : x < cols.length := by simpa using hb 0 x rfl
    have e := ho.2.1 x hx
    rw [paintCols, removedCols, Apart, List.cons.injEq]
    have h1 : paintCol gone x = cols.getD x 0 ↔ ∀ o ∈ gone, o < x ∨ cols.getD x 0 < o := by
      rw [← filter_le_iff gone (by omega) (ho.2.2 x hx)]
      unfold paintCol
      omega
    rw [← h1]
    refine and_congr_right fun h => ?_
    rw [h]
    refine paint_eq_iff xs _ _ (ho.step hx) fun k a hk => ?_
    have := hb (k + 1) a (by simpa using hk)
    rw [List.length_eraseIdx, if_pos hx]
    omega

theorem offset_range (w : Nat) : Offset [] (List.range w) := by
  have e : ∀ i, i < w → (List.range w).getD i 0 = i := fun i hi => by
    rw [List.getD_eq_getElem?_getD, List.getElem?_range hi, Option.getD_some]
  refine ⟨fun i j hij hj => ?_, fun i hi => ?_, fun i hi => by simp⟩
  · rw [List.length_range] at hj
    rw [e i (by omega), e j hj]; exact hij
  · rw [List.length_range] at hi
    rw [e i hi]; simp

/-- **C61**, the provable part: if in every row no previously removed column lies between the
position of a seam in the reduced image and its original column, then exactly the original columns
of the removed pixels are painted and all other pixels keep their value.  Missing: seams violating
the condition, for which the function paints a wrong column (`C61_exact`, `C61_negation`). -/
theorem C61_draw_partial {α β : Type _} (toRgb : α → β) (red : β) (im : Image α)
    (seams : List (List Nat)) (hl : ∀ s ∈ seams, s.length = im.h)
    (hb : ∀ k s, seams[k]? = some s → ∀ y, y < im.h → pathOf im.h s y + k < im.w)
    (ha : ∀ y, y < im.h → Apart [] (List.range im.w) (seams.map fun s => pathOf im.h s y)) :
    ∃ out, drawVerticalSeams toRgb red im seams = some out ∧ out.w = im.w ∧ out.h = im.h ∧
      ∀ x y, x < im.w → y < im.h → out.px x y =
        if x ∈ removedCols (List.range im.w) (seams.map fun s => pathOf im.h s y) then red
        else toRgb (im.px x y) := by
  obtain ⟨out, h1, h2, h3, h4⟩ := draw_spec toRgb red im seams hl hb
  refine ⟨out, h1, h2, h3, fun x y hx hy => ?_⟩
  rw [h4 x y hx hy, (paint_eq_iff _ _ _ (offset_range im.w) ?_).2 (ha y hy)]
  intro k a hk
  rw [List.getElem?_map, Option.map_eq_some_iff] at hk
  obtain ⟨s, hs, rfl⟩ := hk
  rw [List.length_range]
  exact hb k s hs y hy

/-- **C61**, exact: the painted columns are the original columns, seam by seam, exactly when the
condition of `C61_draw_partial` holds. -/
theorem C61_exact (w : Nat) (xs : List Nat) (hb : ∀ k x, xs[k]? = some x → x + k < w) :
    paintCols [] xs = removedCols (List.range w) xs ↔ Apart [] (List.range w) xs :=
  paint_eq_iff _ _ _ (offset_range w) (by rw [List.length_range]; exact hb)

/-- **C61** for a single seam holds without conditions. -/
theorem C61_single {α β : Type _} (toRgb : α → β) (red : β) (im : Image α) (seam : List Nat)
    (hl : seam.length = im.h) (hb : ∀ y, y < im.h → pathOf im.h seam y < im.w) :
    ∃ out, drawVerticalSeams toRgb red im [seam] = some out ∧ out.w = im.w ∧ out.h = im.h ∧
      ∀ x y, x < im.w → y < im.h → out.px x y =
        if x = pathOf im.h seam y then red else toRgb (im.px x y) := by
  obtain ⟨out, h1, h2, h3, h4⟩ := draw_spec toRgb red im [seam] (by simpa using hl)
    (fun k s hk y hy => by
      cases k with
      | zero => simp at hk; subst hk; exact hb y hy
      | succ k => simp at hk)
  exact ⟨out, h1, h2, h3, fun x y hx hy => by rw [h4 x y hx hy]; simp [paintCols, paintCol]⟩

/-- **C61 is false.** Removing column 1 twice from a row of three pixels removes the original
columns 1 and 2, but only column 1 is painted. -/
theorem C61_negation :
    (drawVerticalSeams id 255 ⟨3, 1, fun x _ => x⟩ [[1], [1]]).map Image.rows = some [[0, 255, 2]] ∧
    removedCols (List.range 3) [1, 1] = [1, 2] := by decide

/-- A case in which the condition holds: positions 2 and then 0 in a row of four. -/
example : Apart [] (List.range 4) [2, 0] ∧ removedCols (List.range 4) [2, 0] = [2, 0] := by
  refine ⟨⟨by simp, ?_, trivial⟩, by decide⟩
  decide

end Verif.Seam
