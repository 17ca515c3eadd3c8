import Verif.Contrast.Model
import Verif.Stats.Props
import Verif.Integral.Props
/- Property theorems C14 (adaptive threshold), C16 (threshold modes), C17 (contrast stretch). -/
namespace Verif.Contrast
open Finset Verif.Stats

/-- The pixels of the image within Chebyshev distance `r` of `(x, y)`. -/
def block {α : Type _} (im : Image α) (x y r : Nat) : Finset (Nat × Nat) :=
  (allPx im.w im.h).filter fun p =>
    ((p.1 : Int) - x).natAbs ≤ r ∧ ((p.2 : Int) - y).natAbs ≤ r

theorem block_eq {α : Type _} (im : Image α) (x y r : Nat) (hx : x < im.w) (hy : y < im.h) :
    block im x y r =
      Icc (max 0 ((x : Int) - r)).toNat (min (im.w - 1) (x + r)) ×ˢ
      Icc (max 0 ((y : Int) - r)).toNat (min (im.h - 1) (y + r)) := by
  ext ⟨a, b⟩
  simp only [block, mem_filter, mem_allPx, mem_product, mem_Icc]
  omega

/-- C14: with a positive radius the output pixel is 255 exactly when the input pixel plus
`delta` is at least the floor of the mean over the clipped block around it, and 0 otherwise. -/
theorem C14_adaptive_threshold (im : Image Nat) (r : Nat) (delta : Int) (hr : 0 < r)
    (hfit : 2 * (∑ j ∈ range im.h, ∑ i ∈ range im.w, im.px i j) < 2 ^ 32) :
    ∃ out, adaptiveThreshold im r delta = some out ∧ out.w = im.w ∧ out.h = im.h ∧
      ∀ x y, x < im.w → y < im.h → out.px x y =
        if (((∑ p ∈ block im x y r, im.px p.1 p.2) / (block im x y r).card : Nat) : Int)
          ≤ (im.px x y : Int) + delta then 255 else 0 := by
  obtain ⟨I, eI, _⟩ := Integral.C09_integral_image im (fun v => v)
  unfold adaptiveThreshold
  rw [if_pos hr, eI, Option.bind_some]
  refine raster_post
    (fun S out => out.w = im.w ∧ out.h = im.h ∧ ∀ x y, out.px x y = if (x, y) ∈ S ∧
        (((∑ p ∈ block im x y r, im.px p.1 p.2) / (block im x y r).card : Nat) : Int)
          ≤ (im.px x y : Int) + delta then 255 else 0) ?_ ?_ ?_
  · simp [Image.new]
  · rintro x y S out hx hy hn ⟨hw, hh, hp⟩
    have hsum : Integral.sumImagePixels (2 ^ 32) I (max 0 ((x : Int) - r)).toNat
        (max 0 ((y : Int) - r)).toNat (min (im.w - 1) (x + r)) (min (im.h - 1) (y + r)) =
        some (∑ p ∈ block im x y r, im.px p.1 p.2) := by
      obtain ⟨I', eI', h⟩ := Integral.C10_sum_image_pixels im (fun v => v) (2 ^ 32) hfit
        (max 0 ((x : Int) - r)).toNat
        (max 0 ((y : Int) - r)).toNat (min (im.w - 1) (x + r)) (min (im.h - 1) (y + r))
        (by omega) (by omega) (by omega) (by omega)
      rw [eI] at eI'
      cases eI'
      rw [h, block_eq im x y r hx hy, sum_product_right]
    have hcard : (block im x y r).card =
        (min (im.h - 1) (y + r) - (max 0 ((y : Int) - r)).toNat + 1) *
        (min (im.w - 1) (x + r) - (max 0 ((x : Int) - r)).toNat + 1) := by
      rw [block_eq im x y r hx hy, card_product, Nat.card_Icc, Nat.card_Icc, Nat.mul_comm]
      congr 1 <;> omega
    rw [Image.get_of_inB hx hy]
    simp only [Option.bind_some, csub_of_le (show 1 ≤ im.h by omega),
      csub_of_le (show 1 ≤ im.w by omega)]
    rw [csub_of_le (by omega), Option.bind_some, csub_of_le (by omega), Option.bind_some, hsum,
      Option.bind_some, ← hcard]
    by_cases hc : (im.px x y : Int) ≥
        (((∑ p ∈ block im x y r, im.px p.1 p.2) / (block im x y r).card : Nat) : Int) - delta
    · rw [if_pos hc, Image.put_of_inB _ (by omega) (by omega)]
      refine ⟨_, rfl, hw, hh, ?_⟩
      intro a b
      dsimp only
      by_cases hab : a = x ∧ b = y
      · obtain ⟨rfl, rfl⟩ := hab
        rw [if_pos ⟨rfl, rfl⟩, if_pos ⟨mem_insert_self _ _, by omega⟩]
      · rw [if_neg hab, hp]
        simp only [mem_insert, Prod.mk.injEq, hab, false_or]
    · rw [if_neg hc]
      refine ⟨_, rfl, hw, hh, ?_⟩
      intro a b
      by_cases hab : a = x ∧ b = y
      · obtain ⟨rfl, rfl⟩ := hab
        rw [hp, if_neg (fun h => hn h.1), if_neg (fun h => hc (by have := h.2; omega))]
      · rw [hp]
        simp only [mem_insert, Prod.mk.injEq, hab, false_or]
  · rintro out ⟨hw, hh, hp⟩
    refine ⟨hw, hh, ?_⟩
    intro x y hx hy
    simp [hp, hx, hy]

/-- C14: radius 0 is rejected. -/
theorem C14_rejects (im : Image Nat) (delta : Int) : adaptiveThreshold im 0 delta = none := rfl

example : (adaptiveThreshold (Image.ofRows 0 [[1, 9, 2], [8, 5, 7], [0, 3, 4]]) 1 0).map
    Image.rows = some [[0, 255, 0], [255, 255, 255], [0, 0, 255]] := by decide +kernel

/-- The documented table of src/contrast.rs:174-185. -/
def documented : ThresholdType → Nat → Nat → Nat
  | .binary, t, s => if s > t then 255 else 0
  | .binaryInverted, t, s => if s > t then 0 else 255
  | .truncate, t, s => if s > t then t else s
  | .toZero, t, s => if s > t then s else 0
  | .toZeroInverted, t, s => if s > t then 0 else s

/-- C16 (partial: holds for the first three modes only, see `C16_negation`): every pixel is the
documented function of the input and the threshold. -/
theorem C16_documented_partial (im : Image Nat) (t x y : Nat) (m : ThresholdType)
    (hm : m = .binary ∨ m = .binaryInverted ∨ m = .truncate) :
    (threshold im t m).w = im.w ∧ (threshold im t m).h = im.h ∧
      (threshold im t m).px x y = documented m t (im.px x y) := by
  rcases hm with rfl | rfl | rfl <;> exact ⟨rfl, rfl, rfl⟩

/-- C16 is false of the code for the two to-zero modes: a 1x1 image above the threshold. -/
theorem C16_negation :
    ¬ ∀ (im : Image Nat) (t x y : Nat) (m : ThresholdType), x < im.w → y < im.h →
      (threshold im t m).px x y = documented m t (im.px x y) := by
  intro h
  have := h (Image.ofRows 0 [[90]]) 50 0 0 .toZero (by decide) (by decide)
  revert this
  decide

/-- C16: what the two remaining modes do instead: each computes the table entry documented for
the other (which is what the examples in the documentation of `threshold` show). -/
theorem C16_swapped (im : Image Nat) (t x y : Nat) :
    (threshold im t .toZero).px x y = documented .toZeroInverted t (im.px x y) ∧
    (threshold im t .toZeroInverted).px x y = documented .toZero t (im.px x y) := ⟨rfl, rfl⟩

/-- C17: one sample: never overflows, saturates outside the input interval, is the floor of the
exact linear interpolation inside it and stays within the output bounds. -/
theorem C17_sample (imin imax omin omax c : Nat) (hi : imin < imax) (ho : omin ≤ omax)
    (himax : imax < 256) (homax : omax < 256) :
    ∃ v, stretchSample imin imax omin omax c = some v ∧ omin ≤ v ∧ v ≤ omax ∧
      (c ≤ imin → v = omin) ∧ (imax ≤ c → v = omax) ∧
      (imin ≤ c → c ≤ imax → (v : ℤ) =
        ⌊(omin : ℚ) + ((c : ℚ) - imin) * ((omax : ℚ) - omin) / ((imax : ℚ) - imin)⌋) := by
  have hne : ((imax : ℚ) - imin) ≠ 0 := by
    have : (imin : ℚ) < imax := by exact_mod_cast hi
    linarith
  unfold stretchSample
  by_cases h1 : c ≤ imin
  · refine ⟨omin, by rw [if_pos h1, Nat.mod_eq_of_lt (by omega)], le_refl _, ho, fun _ => rfl,
      fun _ => by omega, fun h2 _ => ?_⟩
    rw [show c = imin by omega]
    simp
  · by_cases h2 : c ≥ imax
    · refine ⟨omax, by rw [if_neg h1, if_pos h2, Nat.mod_eq_of_lt (by omega)], ho, le_refl _,
        fun _ => by omega, fun _ => rfl, fun _ h3 => ?_⟩
      rw [show c = imax by omega, mul_div_right_comm, div_self hne, one_mul]
      rw [show (omin : ℚ) + (omax - omin) = ((omax : ℤ) : ℚ) by push_cast; ring, Int.floor_intCast]
    · have hlt : (c - imin) * (omax - omin) < 2 ^ 16 := by
        have : (c - imin) * (omax - omin) ≤ 255 * 255 := Nat.mul_le_mul (by omega) (by omega)
        omega
      have hq : (c - imin) * (omax - omin) / (imax - imin) ≤ omax - omin := by
        refine Nat.div_le_of_le_mul (Nat.mul_le_mul_right _ (by omega))
      refine ⟨(c - imin) * (omax - omin) / (imax - imin) + omin, ?_, Nat.le_add_left _ _, by omega,
        fun _ => by omega, fun _ => by omega, fun _ _ => ?_⟩
      · rw [if_neg h1, if_neg h2, csub_of_le (by omega), csub_of_le ho, csub_of_le (by omega)]
        simp only [Option.bind_some]
        rw [cmul16, if_pos hlt, Option.bind_some, if_neg (by omega), Nat.mod_eq_of_lt (by omega)]
      · symm
        have e1 : (c : ℚ) - imin = ((c - imin : Nat) : ℚ) := by
          rw [Nat.cast_sub (by omega)]
        have e2 : (omax : ℚ) - omin = ((omax - omin : Nat) : ℚ) := by
          rw [Nat.cast_sub (by omega)]
        have e3 : (imax : ℚ) - imin = ((imax - imin : Nat) : ℚ) := by
          rw [Nat.cast_sub (by omega)]
        rw [e1, e2, e3, ← Nat.cast_mul, show (omin : ℚ) = ((omin : ℤ) : ℚ) by push_cast; rfl,
          Int.floor_intCast_add, Rat.floor_natCast_div_natCast]
        push_cast
        ring

/-- C17: the sample map is monotone. -/
theorem C17_monotone (imin imax omin omax c d v w : Nat) (hi : imin < imax) (ho : omin ≤ omax)
    (himax : imax < 256) (homax : omax < 256) (hcd : c ≤ d)
    (hv : stretchSample imin imax omin omax c = some v)
    (hw : stretchSample imin imax omin omax d = some w) : v ≤ w := by
  obtain ⟨v', e1, a1, b1, c1, d1, f1⟩ := C17_sample imin imax omin omax c hi ho himax homax
  obtain ⟨w', e2, a2, b2, c2, d2, f2⟩ := C17_sample imin imax omin omax d hi ho himax homax
  rw [hv] at e1; rw [hw] at e2; cases e1; cases e2
  by_cases h1 : c ≤ imin
  · have := c1 h1; omega
  · by_cases h2 : imax ≤ d
    · have := d2 h2; omega
    · have k1 := f1 (by omega) (by omega)
      have k2 := f2 (by omega) (by omega)
      have : (v : ℤ) ≤ w := by
        rw [k1, k2]
        apply Int.floor_le_floor
        have p1 : (0 : ℚ) < (imax : ℚ) - imin := by
          have : (imin : ℚ) < imax := by exact_mod_cast hi
          linarith
        have p2 : (0 : ℚ) ≤ (omax : ℚ) - omin := by
          have : (omin : ℚ) ≤ omax := by exact_mod_cast ho
          linarith
        have p3 : (c : ℚ) ≤ d := by exact_mod_cast hcd
        have : ((c : ℚ) - imin) * ((omax : ℚ) - omin) / ((imax : ℚ) - imin) ≤
            ((d : ℚ) - imin) * ((omax : ℚ) - omin) / ((imax : ℚ) - imin) := by
          apply div_le_div_of_nonneg_right _ p1.le
          exact mul_le_mul_of_nonneg_right (by linarith) p2
        linarith
      exact_mod_cast this

/-- C17: the image map applies the sample map to every pixel exactly once. -/
theorem C17_stretch_contrast (im : Image Nat) (imin imax omin omax : Nat) (hi : imin < imax)
    (ho : omin ≤ omax) (himax : imax < 256) (homax : omax < 256) :
    ∃ out, stretchContrast im imin imax omin omax = some out ∧ out.w = im.w ∧ out.h = im.h ∧
      ∀ x y, x < im.w → y < im.h →
        some (out.px x y) = stretchSample imin imax omin omax (im.px x y) := by
  unfold stretchContrast
  rw [if_pos ⟨hi, ho⟩]
  obtain ⟨out, e, hw, hh, hp⟩ := raster_put (w := im.w) (h := im.h) (s := im)
    (f := fun x y out => (out.get x y).bind fun c =>
      (stretchSample imin imax omin omax c).bind fun v => out.put x y v)
    (fun x y => (stretchSample imin imax omin omax (im.px x y)).getD 0) rfl rfl
    (by
      intro x y out hx hy hw hh hold _
      obtain ⟨v, ev, _⟩ := C17_sample imin imax omin omax (im.px x y) hi ho himax homax
      rw [Image.get_of_inB (by omega) (by omega), Option.bind_some, hold x y (by omega), ev]
      rfl)
  refine ⟨out, e, hw, hh, ?_⟩
  intro x y hx hy
  obtain ⟨v, ev, _⟩ := C17_sample imin imax omin omax (im.px x y) hi ho himax homax
  rw [hp x y hx hy, ev]
  rfl

/-- C17: invalid bounds are rejected. -/
theorem C17_rejects (im : Image Nat) (imin imax omin omax : Nat)
    (h : imax ≤ imin ∨ omax < omin) : stretchContrast im imin imax omin omax = none := by
  unfold stretchContrast; rw [if_neg (by omega)]

example : (stretchContrast (Image.ofRows 0 [[0, 20, 50], [80, 100, 255]]) 20 100 0 255).map
    Image.rows = some [[0, 0, 95], [191, 255, 255]] := by decide

end Verif.Contrast
