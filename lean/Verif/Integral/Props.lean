import Verif.Integral.Lemmas
import Mathlib.Tactic.FieldSimp
import Mathlib.Algebra.BigOperators.Ring.Finset
import Mathlib.Data.Rat.Cast.Order
/- Property theorems C09-C11 (integral images and running sums). -/
namespace Verif.Integral
open Finset

/-- C09: the integral image is one larger in each dimension and its entry `(x, y)` is the sum
over the pixels strictly left of `x` and strictly above `y`; any accumulator (any number of
channels), any pixel conversion (identity or square). -/
theorem C09_integral_image {α M : Type _} [AddCommMonoid M] (im : Image α) (val : α → M) :
    ∃ out, integralImage im val = some out ∧ out.w = im.w + 1 ∧ out.h = im.h + 1 ∧
      ∀ x y, x ≤ im.w → y ≤ im.h →
        out.px x y = ∑ j ∈ range y, ∑ i ∈ range x, val (im.px i j) :=
  integralImage_spec im val

example : (integralImage (Image.ofRows 0 [[1, 2], [3, 4], [5, 6]]) (fun v : Nat => v)).map
    Image.rows = some [[0, 0, 0], [0, 1, 3], [0, 4, 10], [0, 9, 21]] := by decide
example : (integralImage (Image.ofRows 0 [[1, 2], [3, 4]]) (fun v : Nat => v * v)).map
    Image.rows = some [[0, 0, 0], [0, 1, 5], [0, 10, 30]] := by decide

/-- C10: the four-corner lookup returns the rectangle sum, without unsigned underflow, provided
twice the image total fits the accumulator type. -/
theorem C10_sum_image_pixels {α : Type _} (im : Image α) (val : α → Nat) (bound : Nat)
    (hfit : 2 * (∑ j ∈ range im.h, ∑ i ∈ range im.w, val (im.px i j)) < bound)
    (l t r b : Nat) (hl : l ≤ r) (hr : r < im.w) (ht : t ≤ b) (hb : b < im.h) :
    ∃ I, integralImage im val = some I ∧
      sumImagePixels bound I l t r b =
        some (∑ j ∈ Icc t b, ∑ i ∈ Icc l r, val (im.px i j)) := by
  obtain ⟨I, e, h⟩ := integralImage_spec im val
  refine ⟨I, e, sumImagePixels_spec im val I h hl hr ht hb ?_⟩
  have h1 := prefixSum_mono im val (x := r + 1) (y := b + 1) (x' := im.w) (y' := im.h)
    (by omega) (by omega)
  have h2 := prefixSum_mono im val (x := l) (y := t) (x' := im.w) (y' := im.h)
    (by omega) (by omega)
  have h3 : prefixSum im val im.w im.h = ∑ j ∈ range im.h, ∑ i ∈ range im.w, val (im.px i j) := rfl
  omega

/-- C10: in wrapping arithmetic the result is exact as soon as the rectangle sum itself fits. -/
theorem C10_sum_image_pixels_wrapping {α : Type _} (im : Image α) (val : α → Nat) (bound : Nat)
    (l t r b : Nat) (hl : l ≤ r) (hr : r < im.w) (ht : t ≤ b) (hb : b < im.h)
    (hfit : ∑ j ∈ Icc t b, ∑ i ∈ Icc l r, val (im.px i j) < bound) :
    ∃ I, integralImage im val = some I ∧
      sumImagePixelsWrap bound I l t r b =
        some (∑ j ∈ Icc t b, ∑ i ∈ Icc l r, val (im.px i j)) := by
  obtain ⟨I, e, iw, ih, ip⟩ := integralImage_spec im val
  refine ⟨I, e, ?_⟩
  have key := prefix_inclusion im val (l := l) (t := t) (r := r) (b := b) (by omega) (by omega)
  unfold sumImagePixelsWrap
  rw [Image.get_of_inB (by omega) (by omega), Image.get_of_inB (by omega) (by omega),
    Image.get_of_inB (by omega) (by omega), Image.get_of_inB (by omega) (by omega),
    ip _ _ (by omega) (by omega), ip _ _ (by omega) (by omega), ip _ _ (by omega) (by omega),
    ip _ _ (by omega) (by omega)]
  simp only [Option.bind_some, Option.some.injEq]
  rw [key]
  change rectSum im val l t r b < bound at hfit
  change _ = rectSum im val l t r b
  generalize rectSum im val l t r b = S at *
  generalize prefixSum im val (r + 1) t = c at *
  generalize prefixSum im val l (b + 1) = d at *
  have hc := Nat.mod_lt c (show 0 < bound by omega)
  have hd := Nat.mod_lt d (show 0 < bound by omega)
  have e1 : ∀ x y : Nat, (x + y + (bound - y % bound)) % bound = x % bound := by
    intro x y
    have hy := Nat.mod_lt y (show 0 < bound by omega)
    have : x + y + (bound - y % bound) = x + bound * (y / bound) + bound := by
      have := Nat.div_add_mod y bound
      omega
    rw [this, Nat.add_mod_right, Nat.add_mul_mod_self_left]
  have e2 : ((S + c + d) % bound + (bound - c % bound)) % bound = (S + d) % bound := by
    rw [Nat.mod_add_mod, show S + c + d = S + d + c by ring, e1]
  rw [e2, Nat.mod_add_mod, e1, Nat.mod_eq_of_lt hfit]

/-- C10: the "twice the total" condition of `C10_sum_image_pixels` cannot be dropped: with
checked 32-bit arithmetic there is an image whose integral image fits in 32 bits and a
rectangle on which the addition `a + b` overflows (a panic in debug builds). -/
theorem C10_checked_add_can_overflow :
    ∃ (im I : Image Nat) (l t r b : Nat), l ≤ r ∧ r < im.w ∧ t ≤ b ∧ b < im.h ∧
      (∀ x y, im.px x y < 256) ∧ integralImage im (fun v => v) = some I ∧
      (∀ x y, x ≤ im.w → y ≤ im.h → I.px x y < 2 ^ 32) ∧
      sumImagePixels (2 ^ 32) I l t r b = none := by
  obtain ⟨im, hw, hh, hpx⟩ : ∃ im : Image Nat, im.w = 3000 ∧ im.h = 3000 ∧
    ∀ x y, im.px x y = 255 := ⟨Image.new 3000 3000 255, rfl, rfl, fun _ _ => rfl⟩
  obtain ⟨I, e, iw, ih, ip⟩ := integralImage_spec im (fun v : Nat => v)
  have val : ∀ x y, prefixSum im (fun v : Nat => v) x y = y * (x * 255) := by
    intro x y; simp [prefixSum, hpx]
  rw [hw] at iw ip
  rw [hh] at ih ip
  simp only [val] at ip
  refine ⟨im, I, 2999, 2999, 2999, 2999, by omega, by omega, by omega, by omega,
    by simp [hpx], e, ?_, ?_⟩
  · intro x y hx hy
    rw [hw] at hx
    rw [hh] at hy
    rw [ip x y hx hy]
    calc y * (x * 255) ≤ 3000 * (3000 * 255) :=
          Nat.mul_le_mul hy (Nat.mul_le_mul_right _ hx)
      _ < 2 ^ 32 := by norm_num
  · have h1 : ∀ x y, x ≤ 3000 → y ≤ 3000 → I.get x y = some (y * (x * 255)) := by
      intro x y hx hy
      rw [Image.get_of_inB (by omega) (by omega), ip x y hx hy]
    unfold sumImagePixels
    rw [h1 (2999 + 1) (2999 + 1) (by omega) (by omega), h1 2999 2999 (by omega) (by omega),
      h1 (2999 + 1) 2999 (by omega) (by omega), h1 2999 (2999 + 1) (by omega) (by omega)]
    have big : ¬ (((2999 + 1) * ((2999 + 1) * 255) + 2999 * (2999 * 255)) < 2 ^ 32) := by norm_num
    rw [Option.bind_some, Option.bind_some, Option.bind_some, Option.bind_some]
    unfold cadd
    rw [if_neg big, Option.bind_none]

example : ((integralImage (Image.ofRows 0 [[1, 2, 3], [4, 5, 6]]) (fun v : Nat => v)).bind
    fun I => sumImagePixels (2 ^ 32) I 1 0 2 1) = some 16 := by decide +kernel

/-- C10: `variance` is the population variance: the mean of the squared deviations from the
mean over the rectangle (exact arithmetic). -/
theorem C10_variance (im : Image Nat) (bound : Nat)
    (hfit : 2 * (∑ j ∈ range im.h, ∑ i ∈ range im.w, im.px i j * im.px i j) < bound)
    (hfit1 : 2 * (∑ j ∈ range im.h, ∑ i ∈ range im.w, im.px i j) < bound)
    (l t r b : Nat) (hl : l ≤ r) (hr : r < im.w) (ht : t ≤ b) (hb : b < im.h) :
    ∃ I I2 v, integralImage im (fun v => v) = some I ∧
      integralImage im (fun v => v * v) = some I2 ∧ variance bound I I2 l t r b = some v ∧
      (let n : ℚ := ((r - l + 1 : Nat) : ℚ) * ((b - t + 1 : Nat) : ℚ)
       let mean : ℚ := (∑ j ∈ Icc t b, ∑ i ∈ Icc l r, (im.px i j : ℚ)) / n
       v = (∑ j ∈ Icc t b, ∑ i ∈ Icc l r, ((im.px i j : ℚ) - mean) ^ 2) / n) := by
  obtain ⟨I, e, hs⟩ := C10_sum_image_pixels im (fun v => v) bound hfit1 l t r b hl hr ht hb
  obtain ⟨I2, e2, hs2⟩ := C10_sum_image_pixels im (fun v => v * v) bound hfit l t r b hl hr ht hb
  have hv : variance bound I I2 l t r b = some
      ((((∑ j ∈ Icc t b, ∑ i ∈ Icc l r, im.px i j * im.px i j : Nat) : ℚ) -
        ((∑ j ∈ Icc t b, ∑ i ∈ Icc l r, im.px i j : Nat) : ℚ) ^ 2 /
          (((r - l + 1 : Nat) : ℚ) * ((b - t + 1 : Nat) : ℚ))) /
          (((r - l + 1 : Nat) : ℚ) * ((b - t + 1 : Nat) : ℚ))) := by
    unfold variance
    rw [csub_of_le hl, csub_of_le ht, hs, hs2]
    rfl
  refine ⟨I, I2, _, e, e2, hv, ?_⟩
  · dsimp only
    have hn : (((r - l + 1 : Nat) : ℚ) * ((b - t + 1 : Nat) : ℚ)) ≠ 0 := by positivity
    have hcard : (∑ _j ∈ Icc t b, ∑ _i ∈ Icc l r, (1 : ℚ)) =
        ((r - l + 1 : Nat) : ℚ) * ((b - t + 1 : Nat) : ℚ) := by
      simp only [sum_const, Nat.card_Icc, nsmul_eq_mul, mul_one]
      rw [show r + 1 - l = r - l + 1 by omega, show b + 1 - t = b - t + 1 by omega]; ring
    generalize (((r - l + 1 : Nat) : ℚ) * ((b - t + 1 : Nat) : ℚ)) = n at *
    simp only [Nat.cast_sum, Nat.cast_mul]
    have : ∀ m : ℚ, ∑ j ∈ Icc t b, ∑ i ∈ Icc l r, ((im.px i j : ℚ) - m) ^ 2 =
        ∑ j ∈ Icc t b, ∑ i ∈ Icc l r, ((im.px i j : ℚ) * im.px i j) -
          2 * m * ∑ j ∈ Icc t b, ∑ i ∈ Icc l r, (im.px i j : ℚ) + m ^ 2 * n := by
      intro m
      rw [← hcard]
      simp only [mul_sum, ← sum_sub_distrib, ← sum_add_distrib]
      exact sum_congr rfl fun j _ => sum_congr rfl fun i _ => by ring
    rw [this]
    field_simp
    ring

/-- C11: the row running sum: every slot `k` of the buffer holds the sum of the samples
`0..k` of the row extended by its end pixels `padding` times on the left (and to the end of the
buffer on the right). -/
theorem C11_row_running_sum (im : Image Nat) (row padding : Nat) (buffer : Buf)
    (hrow : row < im.h) (hw : 0 < im.w) (hlen : im.w + 2 * padding ≤ buffer.len) :
    ∃ out, rowRunningSum im row buffer padding = some out ∧ out.len = buffer.len ∧
      ∀ k, k < buffer.len → out.at' k =
        ∑ j ∈ range (k + 1), im.px (clampTo im.w ((j : Int) - padding)) row := by
  unfold rowRunningSum
  rw [if_pos ⟨hlen, hrow, hw⟩, Image.get_of_inB hw hrow, Image.get_of_inB (by omega) hrow]
  simp only [Option.bind_some]
  obtain ⟨s1, e1, l1, t1, b1⟩ := sumLoop_spec 0 padding buffer.len (fun _ => some (im.px 0 row))
    (fun j => im.px (clampTo im.w ((j : Int) - padding)) row) (buffer, 0) (by omega) rfl (by omega)
    (by
      intro i _ hi
      rw [show clampTo im.w ((i : Int) - padding) = 0 by unfold clampTo; omega]) (by simp) (by intro k hk; omega)
  obtain ⟨s2, e2, l2, t2, b2⟩ := sumLoop_spec padding (padding + im.w) buffer.len
    (fun i => im.get (i - padding) row)
    (fun j => im.px (clampTo im.w ((j : Int) - padding)) row) s1 (by omega) l1 (by omega)
    (by
      intro i h1 h2
      rw [Image.get_of_inB (by omega) hrow,
        show clampTo im.w ((i : Int) - padding) = i - padding by unfold clampTo; omega])
    t1 b1
  obtain ⟨s3, e3, l3, t3, b3⟩ := sumLoop_spec (padding + im.w) buffer.len buffer.len
    (fun _ => some (im.px (im.w - 1) row))
    (fun j => im.px (clampTo im.w ((j : Int) - padding)) row) s2 (by omega) l2 (by omega)
    (by
      intro i h1 h2
      rw [show clampTo im.w ((i : Int) - padding) = im.w - 1 by unfold clampTo; omega]) t2 b2
  exact ⟨s3.1, by rw [e1, Option.bind_some, e2, Option.bind_some, e3, Option.bind_some], l3, b3⟩

/-- C11: the column running sum. -/
theorem C11_column_running_sum (im : Image Nat) (column padding : Nat) (buffer : Buf)
    (hcol : column < im.w) (hh : 0 < im.h) (hlen : im.h + 2 * padding ≤ buffer.len) :
    ∃ out, columnRunningSum im column buffer padding = some out ∧ out.len = buffer.len ∧
      ∀ k, k < buffer.len → out.at' k =
        ∑ j ∈ range (k + 1), im.px column (clampTo im.h ((j : Int) - padding)) := by
  unfold columnRunningSum
  rw [if_pos ⟨hlen, hcol, hh⟩, Image.get_of_inB hcol hh, Image.get_of_inB hcol (by omega)]
  simp only [Option.bind_some]
  obtain ⟨s1, e1, l1, t1, b1⟩ := sumLoop_spec 0 padding buffer.len
    (fun _ => some (im.px column 0))
    (fun j => im.px column (clampTo im.h ((j : Int) - padding))) (buffer, 0) (by omega) rfl
    (by omega) (by
      intro i _ hi
      rw [show clampTo im.h ((i : Int) - padding) = 0 by unfold clampTo; omega]) (by simp)
    (by intro k hk; omega)
  obtain ⟨s2, e2, l2, t2, b2⟩ := sumLoop_spec padding (padding + im.h) buffer.len
    (fun i => im.get column (i - padding))
    (fun j => im.px column (clampTo im.h ((j : Int) - padding))) s1 (by omega) l1 (by omega)
    (by
      intro i h1 h2
      rw [Image.get_of_inB hcol (by omega),
        show clampTo im.h ((i : Int) - padding) = i - padding by unfold clampTo; omega])
    t1 b1
  obtain ⟨s3, e3, l3, t3, b3⟩ := sumLoop_spec (padding + im.h) buffer.len buffer.len
    (fun _ => some (im.px column (im.h - 1)))
    (fun j => im.px column (clampTo im.h ((j : Int) - padding))) s2 (by omega) l2 (by omega)
    (by
      intro i h1 h2
      rw [show clampTo im.h ((i : Int) - padding) = im.h - 1 by unfold clampTo; omega]) t2 b2
  exact ⟨s3.1, by rw [e1, Option.bind_some, e2, Option.bind_some, e3, Option.bind_some], l3, b3⟩

/-- C11, error branches: a short buffer, a bad index and an empty image are rejected. -/
theorem C11_rejects (im : Image Nat) (i padding : Nat) (buffer : Buf) :
    (¬ (im.w + 2 * padding ≤ buffer.len ∧ i < im.h ∧ 0 < im.w) →
      rowRunningSum im i buffer padding = none) ∧
    (¬ (im.h + 2 * padding ≤ buffer.len ∧ i < im.w ∧ 0 < im.h) →
      columnRunningSum im i buffer padding = none) :=
  ⟨fun h => by rw [rowRunningSum, if_neg h], fun h => by rw [columnRunningSum, if_neg h]⟩

example : ((rowRunningSum (Image.ofRows 0 [[1, 2, 3]]) 0 ⟨8, fun _ => 0⟩ 2).map
    fun b => (List.range 8).map b.at') = some [1, 2, 3, 5, 8, 11, 14, 17] := by decide

end Verif.Integral
