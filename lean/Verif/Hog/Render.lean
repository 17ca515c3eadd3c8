import Verif.Hog.Model
import Verif.Drawing.LineReal
import Verif.Basic.Raster
/-
Model and properties of `render_hist_grid` (src/hog.rs:367-433) (C114).  Sine and cosine are a parameter
(`trig t` is `(sin, cos)` of `t` full turns); `f32` values are rational numbers.
`SubImage::inner_mut` (crate `image`) returns the underlying image, not the window.
-/
namespace Verif.Hog
open Verif.Drawing Verif.Definitions

/-- The end points of a ray, hog.rs:400-407. -/
def rayEnds (w h : Nat) (sc : ℚ × ℚ) : (ℚ × ℚ) × (ℚ × ℚ) :=
  let scale : ℚ := (max w h : Nat) / 2
  let startX : ℚ := (w / 2 : Nat)
  let startY : ℚ := (h / 2 : Nat)
  ((startX, startY), (startX + -scale * sc.1, startY + scale * sc.2))

/-- `draw_ray_mut`, hog.rs:390-410. -/
def drawRay (im : Image Nat) (sc : ℚ × ℚ) (color : Nat) : Option (Image Nat) :=
  drawLine overwrite im (rayEnds im.w im.h sc).1 (rayEnds im.w im.h sc).2 color

/-- `Clamp::clamp` from `f32` to `u8`, hog.rs:424, 428. -/
def intensity (v : ℚ) : Nat := (clampQ 0 255 v).toNat

/-- `draw_star_mut`, hog.rs:415-433. -/
def drawStar (trig : ℚ → ℚ × ℚ) (im : Image Nat) (hist : List ℚ) (signed : Bool) : Option (Image Nat) :=
  forRange 0 hist.length im fun bucket im =>
    (hist[bucket]?).bind fun v =>
    if signed then
      drawRay im (trig ((bucket : ℚ) / hist.length)) (intensity v)
    else
      (drawRay im (trig ((bucket : ℚ) / (2 * hist.length))) (intensity v)).bind fun im =>
      drawRay im (trig ((bucket : ℚ) / (2 * hist.length) + 1 / 2)) (intensity v)

/-- `render_hist_grid`, hog.rs:367-385; the bounds assertion of `sub_image` always holds.  `data` and
`lengths` are the fields of the `View3d`. -/
def renderHistGrid (trig : ℚ → ℚ × ℚ) (starSide : Nat) (data : List ℚ) (lengths : Nat × Nat × Nat)
    (signed : Bool) : Option (Image Nat) :=
  forYX 0 lengths.2.2 0 lengths.2.1 (Image.ofFn (lengths.2.1 * starSide) (lengths.2.2 * starSide) fun _ _ => 0)
    fun x y out =>
      (innerSlice data lengths x y).bind fun hist => drawStar trig out hist signed

/-! ### Specification -/

/-- The directions of the rays of a bucket. -/
def rayDirs (signed : Bool) (n bucket : Nat) : List ℚ :=
  if signed then [(bucket : ℚ) / n] else [(bucket : ℚ) / (2 * n), (bucket : ℚ) / (2 * n) + 1 / 2]

/-- The pixel lies on a ray of the bucket, in a star of `n` buckets filling an image of the given size: a line
from the centre, half as long as the longer side, that points down for angle zero and turns clockwise. -/
def OnRay (trig : ℚ → ℚ × ℚ) (signed : Bool) (w h n bucket : Nat) (p : Int × Int) : Prop :=
  ∃ t ∈ rayDirs signed n bucket, p ∈ bresenham (((w / 2 : Nat) : ℚ), ((h / 2 : Nat) : ℚ))
    (((w / 2 : Nat) : ℚ) - ((max w h : Nat) : ℚ) / 2 * (trig t).1,
      ((h / 2 : Nat) : ℚ) + ((max w h : Nat) : ℚ) / 2 * (trig t).2)

theorem onRay_iff (trig : ℚ → ℚ × ℚ) (signed : Bool) (w h n bucket : Nat) (p : Int × Int) :
    OnRay trig signed w h n bucket p ↔
      ∃ t ∈ rayDirs signed n bucket, p ∈ bresenham (rayEnds w h (trig t)).1 (rayEnds w h (trig t)).2 := by
  unfold OnRay rayEnds
  dsimp only
  simp only [neg_mul, ← sub_eq_add_neg]

theorem intensity_eq (v : ℚ) : intensity v = ⌊max 0 (min 255 v)⌋.toNat := by
  unfold intensity clampQ truncQ
  push_cast
  split_ifs with h1 h2 h3
  · rw [min_eq_right h1.le, max_eq_right h2.le]
  · exfalso; linarith
  · rw [max_eq_left (by rw [min_eq_right h1.le]; linarith)]
    simp
  · rw [min_eq_left (by linarith), max_eq_right (by norm_num)]
    rfl

open Classical in
/-- The value of a pixel of a star over the background value `bg`: that of the last bucket with a ray through it,
limited to 0 and 255 and rounded down. -/
noncomputable def starValue (trig : ℚ → ℚ × ℚ) (signed : Bool) (w h : Nat) (hist : List ℚ) (bg : Nat)
    (p : Int × Int) : Nat :=
  (((List.range hist.length).filter fun k => decide (OnRay trig signed w h hist.length k p)).getLast?).elim bg
    fun k => ⌊max 0 (min 255 (hist.getD k 0))⌋.toNat

open Classical in
theorem drawStar_spec (trig : ℚ → ℚ × ℚ) (im : Image Nat) (hist : List ℚ) (signed : Bool) :
    ∃ out, drawStar trig im hist signed = some out ∧ out.w = im.w ∧ out.h = im.h ∧
      ∀ a b, a < im.w → b < im.h → out.px a b =
        starValue trig signed im.w im.h hist (im.px a b) ((a : Int), (b : Int)) := by
  unfold drawStar starValue
  simp only [← intensity_eq]
  refine forRange_spec (fun n (o : Image Nat) => o.w = im.w ∧ o.h = im.h ∧ ∀ a b, a < im.w → b < im.h →
    o.px a b = (((List.range n).filter fun k =>
        decide (OnRay trig signed im.w im.h hist.length k ((a : Int), (b : Int)))).getLast?).elim (im.px a b)
      fun k => intensity (hist.getD k 0)) (Nat.zero_le _) ⟨rfl, rfl, fun a b _ _ => rfl⟩ ?_
  rintro n o - hn ⟨hw, hh, hpx⟩
  rw [List.getElem?_eq_getElem hn, Option.bind_some]
  have hv : hist.getD n 0 = hist[n] := by simp [List.getD, hn]
  -- what the new rays do
  have step : ∃ o', (if signed then drawRay o (trig ((n : ℚ) / hist.length)) (intensity hist[n])
      else (drawRay o (trig ((n : ℚ) / (2 * hist.length))) (intensity hist[n])).bind fun im =>
        drawRay im (trig ((n : ℚ) / (2 * hist.length) + 1 / 2)) (intensity hist[n])) = some o' ∧
      o'.w = o.w ∧ o'.h = o.h ∧ ∀ a b, a < im.w → b < im.h → o'.px a b =
        if OnRay trig signed im.w im.h hist.length n ((a : Int), (b : Int)) then intensity hist[n] else o.px a b := by
    simp only [onRay_iff]
    unfold drawRay rayDirs
    cases signed
    · simp only [Bool.false_eq_true, if_false, List.mem_cons, List.not_mem_nil, or_false]
      obtain ⟨o1, e1, w1, h1, p1⟩ := C43_draw overwrite o
        (rayEnds o.w o.h (trig ((n : ℚ) / (2 * hist.length)))).1
        (rayEnds o.w o.h (trig ((n : ℚ) / (2 * hist.length)))).2 (intensity hist[n])
      rw [e1, Option.bind_some]
      obtain ⟨o2, e2, w2, h2, p2⟩ := C43_draw overwrite o1
        (rayEnds o1.w o1.h (trig ((n : ℚ) / (2 * hist.length) + 1 / 2))).1
        (rayEnds o1.w o1.h (trig ((n : ℚ) / (2 * hist.length) + 1 / 2))).2 (intensity hist[n])
      refine ⟨o2, e2, by rw [w2, w1], by rw [h2, h1], fun a b ha hb => ?_⟩
      rw [p2, p1, w1, h1, hw, hh]
      have i1 : o.InB a b := ⟨by omega, by omega⟩
      have i2 : o1.InB a b := ⟨by omega, by omega⟩
      simp only [i1, i2, true_and, exists_eq_or_imp, exists_eq_left, overwrite]
      split_ifs <;> simp_all
    · simp only [if_true, List.mem_singleton, exists_eq_left]
      obtain ⟨o1, e1, w1, h1, p1⟩ := C43_draw overwrite o
        (rayEnds o.w o.h (trig ((n : ℚ) / hist.length))).1
        (rayEnds o.w o.h (trig ((n : ℚ) / hist.length))).2 (intensity hist[n])
      refine ⟨o1, e1, w1, h1, fun a b ha hb => ?_⟩
      rw [p1, hw, hh]
      have i1 : o.InB a b := ⟨by omega, by omega⟩
      simp only [i1, true_and, overwrite]
  obtain ⟨o', e, w', h', p'⟩ := step
  refine ⟨o', e, by rw [w', hw], by rw [h', hh], fun a b ha hb => ?_⟩
  rw [p' a b ha hb, List.range_succ, List.filter_append]
  by_cases hr : OnRay trig signed im.w im.h hist.length n ((a : Int), (b : Int))
  · rw [if_pos hr]
    simp only [List.filter_cons, List.filter_nil, hr, decide_true, if_true, List.getLast?_append,
      List.getLast?_singleton, Option.some_or, Option.elim_some, hv]
  · rw [if_neg hr, hpx a b ha hb]
    simp only [List.filter_cons, List.filter_nil, hr, decide_false, Bool.false_eq_true, if_false, List.append_nil]

theorem innerSlice_ok (data : List ℚ) (l : Nat × Nat × Nat) (hd : data.length = dataLength l) (x y : Nat)
    (hx : x < l.2.1) (hy : y < l.2.2) :
    innerSlice data l x y = some ((data.drop (offset l 0 x y)).take l.1) ∧
    ((data.drop (offset l 0 x y)).take l.1).length = l.1 := by
  have : offset l 0 x y + l.1 ≤ data.length := by
    rw [hd]
    unfold offset dataLength
    obtain ⟨n, wd, ht⟩ := l
    dsimp only at *
    have h1 : (x + 1) * n ≤ wd * n := Nat.mul_le_mul_right n hx
    have h2 : (y + 1) * (wd * n) ≤ ht * (wd * n) := Nat.mul_le_mul_right _ hy
    calc y * wd * n + x * n + 0 + n = y * (wd * n) + (x + 1) * n := by ring
      _ ≤ y * (wd * n) + wd * n := by omega
      _ = (y + 1) * (wd * n) := by ring
      _ ≤ ht * (wd * n) := h2
      _ = n * wd * ht := by ring
  unfold innerSlice slice
  rw [if_pos this]
  refine ⟨rfl, ?_⟩
  rw [List.length_take, List.length_drop]
  omega

open Classical in
theorem starValue_cover (trig : ℚ → ℚ × ℚ) (signed : Bool) (w h : Nat) (hist hist' : List ℚ) (bg : Nat)
    (p : Int × Int) (hl : hist.length = hist'.length) :
    starValue trig signed w h hist (starValue trig signed w h hist' bg p) p =
      starValue trig signed w h hist bg p := by
  unfold starValue
  rw [← hl]
  generalize ((List.range hist.length).filter fun k =>
    decide (OnRay trig signed w h hist.length k p)).getLast? = o
  cases o <;> rfl

/-- **C114** (what the code does): for a grid with at least one cell, rendering never panics; the image has the documented size, but shows only the
star of the last cell, as large as the whole image. -/
theorem C114_exact (trig : ℚ → ℚ × ℚ) (side : Nat) (data : List ℚ) (n wd ht : Nat) (signed : Bool)
    (hd : data.length = n * wd * ht) (hw : 0 < wd) (hh : 0 < ht) :
    ∃ out, renderHistGrid trig side data (n, wd, ht) signed = some out ∧ out.w = wd * side ∧ out.h = ht * side ∧
      ∀ a b, a < wd * side → b < ht * side → out.px a b =
        starValue trig signed (wd * side) (ht * side) (data.drop (n * wd * ht - n)) 0 ((a : Int), (b : Int)) := by
  unfold renderHistGrid
  dsimp only
  have hc : ∀ x y, x < wd → y < ht →
      innerSlice data (n, wd, ht) x y = some ((data.drop ((y * wd + x) * n)).take n) ∧
      ((data.drop ((y * wd + x) * n)).take n).length = n := by
    intro x y hx hy
    have := innerSlice_ok data (n, wd, ht) hd x y hx hy
    have e : offset (n, wd, ht) 0 x y = (y * wd + x) * n := by unfold offset; ring
    rwa [e] at this
  obtain ⟨out, h1, h2, h3, h4⟩ := forYX_spec (f := fun x y (out : Image Nat) =>
      (innerSlice data (n, wd, ht) x y).bind fun hist => drawStar trig out hist signed)
    (fun x y (o : Image Nat) => o.w = wd * side ∧ o.h = ht * side ∧
      ((y * wd + x = 0 ∧ ∀ a b, a < wd * side → b < ht * side → o.px a b = 0) ∨
       (0 < y * wd + x ∧ ((data.drop ((y * wd + x - 1) * n)).take n).length = n ∧
        ∀ a b, a < wd * side → b < ht * side → o.px a b = starValue trig signed (wd * side) (ht * side)
          ((data.drop ((y * wd + x - 1) * n)).take n) 0 ((a : Int), (b : Int)))))
    (y0 := 0) (y1 := ht) (x0 := 0) (x1 := wd) (s := Image.ofFn (wd * side) (ht * side) fun _ _ => 0)
    (Nat.zero_le _) (Nat.zero_le _) ⟨rfl, rfl, Or.inl ⟨by simp, fun a b _ _ => rfl⟩⟩
    (by
      rintro x y o - hx - hy ⟨g1, g2, g3⟩
      obtain ⟨e1, e2⟩ := hc x y hx hy
      rw [e1, Option.bind_some]
      obtain ⟨o', k1, k2, k3, k4⟩ := drawStar_spec trig o ((data.drop ((y * wd + x) * n)).take n) signed
      refine ⟨o', k1, by rw [k2, g1], by rw [k3, g2], Or.inr ⟨by omega, ?_, fun a b ha hb => ?_⟩⟩
      · rw [show y * wd + (x + 1) - 1 = y * wd + x by omega]
        exact e2
      · rw [show y * wd + (x + 1) - 1 = y * wd + x by omega, k4 a b (by rw [g1]; exact ha) (by rw [g2]; exact hb),
          g1, g2]
        rcases g3 with ⟨-, g4⟩ | ⟨-, g5, g4⟩
        · rw [g4 a b ha hb]
        · rw [g4 a b ha hb]
          exact starValue_cover _ _ _ _ _ _ _ _ (by rw [e2, g5]))
    (by
      rintro y o - hy ⟨g1, g2, g3⟩
      have e : (y + 1) * wd + 0 = y * wd + wd := by ring
      rw [e]
      exact ⟨g1, g2, g3⟩)
  refine ⟨out, h1, h2, h3, fun a b ha hb => ?_⟩
  have hpos : 0 < ht * wd := Nat.mul_pos hh hw
  rcases h4 with ⟨h5, -⟩ | ⟨-, h6, h5⟩
  · omega
  · rw [h5 a b ha hb]
    have e : (ht * wd + 0 - 1) * n = n * wd * ht - n := by
      rw [Nat.add_zero, Nat.sub_mul, Nat.one_mul]
      congr 1
      ring
    rw [e, List.take_of_length_le]
    rw [List.length_drop, hd]
    omega

/-- **C114**, documented size: the part of the claim that holds. -/
theorem C114_size_partial (trig : ℚ → ℚ × ℚ) (side : Nat) (data : List ℚ) (n wd ht : Nat) (signed : Bool)
    (hd : data.length = n * wd * ht) (hw : 0 < wd) (hh : 0 < ht) :
    ∃ out, renderHistGrid trig side data (n, wd, ht) signed = some out ∧ out.w = wd * side ∧ out.h = ht * side := by
  obtain ⟨out, h1, h2, h3, -⟩ := C114_exact trig side data n wd ht signed hd hw hh
  exact ⟨out, h1, h2, h3⟩

/-- **C114** fails: the rendering does not depend on any cell but the last. -/
theorem C114_last_cell_only (trig : ℚ → ℚ × ℚ) (side : Nat) (data data' : List ℚ) (n wd ht : Nat) (signed : Bool)
    (hd : data.length = n * wd * ht) (hd' : data'.length = n * wd * ht) (hw : 0 < wd) (hh : 0 < ht)
    (hlast : data.drop (n * wd * ht - n) = data'.drop (n * wd * ht - n)) :
    ∃ out out', renderHistGrid trig side data (n, wd, ht) signed = some out ∧
      renderHistGrid trig side data' (n, wd, ht) signed = some out' ∧ out.Same out' := by
  obtain ⟨out, h1, h2, h3, h4⟩ := C114_exact trig side data n wd ht signed hd hw hh
  obtain ⟨out', h1', h2', h3', h4'⟩ := C114_exact trig side data' n wd ht signed hd' hw hh
  refine ⟨out, out', h1, h1', by rw [h2, h2'], by rw [h3, h3'], fun a b ha hb => ?_⟩
  rw [h4 a b (by omega) (by omega), h4' a b (by omega) (by omega), hlast]

/-- Four directions suffice for the examples: quarter turns. -/
def quarterTrig (t : ℚ) : ℚ × ℚ :=
  if t = 0 then (0, 1) else if t = 1 / 4 then (1, 0) else if t = 1 / 2 then (0, -1) else (-1, 0)

-- Two cells: the first one bright, the last one dark gives a black image …
example : (renderHistGrid quarterTrig 3 [200, 200, 0, 0] (2, 2, 1) false).map Image.rows =
    some [[0, 0, 0, 0, 0, 0], [0, 0, 0, 0, 0, 0], [0, 0, 0, 0, 0, 0]] := by decide +kernel
-- … and the other way round the star of the last cell spreads over both windows.
example : (renderHistGrid quarterTrig 3 [0, 0, 200, 100] (2, 2, 1) false).map Image.rows =
    some [[0, 0, 0, 200, 0, 0], [100, 100, 100, 100, 100, 100], [0, 0, 0, 200, 0, 0]] := by decide +kernel

end Verif.Hog
