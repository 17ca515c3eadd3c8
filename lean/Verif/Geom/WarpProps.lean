import Verif.Geom.WarpModel
import Verif.Geom.Props
import Verif.Basic.Raster
/- Property theorems C27, C28 and C83 (warping, interpolation, rotation). -/
namespace Verif.Geom
open Definitions

/-- C27: every output pixel is the interpolated input at the pre-image; warping an image of
positive width by any mapping never fails if the interpolation never does. -/
theorem warpInner_spec (out : Image Px) (mapping : ℚ → ℚ → ℚ × ℚ) (getPx : ℚ → ℚ → Option Px)
    (val : ℚ → ℚ → Px) (hw : 0 < out.w) (hg : ∀ x y, getPx x y = some (val x y)) :
    ∃ r, warpInner out mapping getPx = some r ∧ r.w = out.w ∧ r.h = out.h ∧
      ∀ x y : Nat, x < out.w → y < out.h → r.px x y = val (mapping x y).1 (mapping x y).2 := by
  unfold warpInner
  rw [if_neg (by omega)]
  refine raster_put (fun x y => val (mapping x y).1 (mapping x y).2) rfl rfl ?_
  intro x y o hx hy ho1 ho2 _ _
  rw [hg, Option.bind_some]

theorem truncQ_floor (x : ℚ) : truncQ (⌊x⌋ : ℚ) = ⌊x⌋ := truncQ_int _

theorem truncQ_floor_add (x : ℚ) (n : Int) : truncQ ((⌊x⌋ : ℚ) + n) = ⌊x⌋ + n := by
  rw [← Int.cast_add, truncQ_int]

/-- Position rounded to the nearest pixel centre (halves up). -/
def roundHalfUp (x : ℚ) : Nat := ⌊x + 1 / 2⌋.toNat

/-- Specification of nearest-neighbour lookup. -/
def nearestSpec (im : Image Px) (dflt : Px) (x y : ℚ) : Px :=
  if -1 / 2 ≤ x ∧ x < im.w - 1 / 2 ∧ -1 / 2 ≤ y ∧ y < im.h - 1 / 2 then
    im.px (roundHalfUp x) (roundHalfUp y)
  else dflt

theorem half_lt_iff {x : ℚ} (hx : -1 / 2 ≤ x) (n : Nat) :
    (truncQ (x + 1 / 2)).toNat < n ↔ x < n - 1 / 2 := by
  unfold truncQ
  rw [if_pos (by linarith)]
  have h0 : 0 ≤ ⌊x + 1 / 2⌋ := Int.floor_nonneg.2 (by linarith)
  have : ⌊x + 1 / 2⌋.toNat < n ↔ ⌊x + 1 / 2⌋ < (n : Int) := by omega
  rw [this, Int.floor_lt]
  push_cast
  constructor <;> intro h <;> linarith

theorem nearest_eq (im : Image Px) (dflt : Px) (x y : ℚ) :
    interpolateNearest im x y dflt = some (nearestSpec im dflt x y) := by
  unfold interpolateNearest nearestSpec
  by_cases h1 : x < -1 / 2 ∨ y < -1 / 2
  · rw [if_pos h1, if_neg (by rintro ⟨a, _, b, _⟩; rcases h1 with h | h <;> linarith)]
  · rw [if_neg h1]
    simp only [not_or, not_lt] at h1
    dsimp only
    have hx := half_lt_iff h1.1 im.w
    have hy := half_lt_iff h1.2 im.h
    by_cases h2 : x < im.w - 1 / 2 ∧ y < im.h - 1 / 2
    · rw [if_neg (by rw [← hx, ← hy] at h2; omega), if_pos ⟨h1.1, h2.1, h1.2, h2.2⟩,
        Image.get_of_inB (hx.2 h2.1) (hy.2 h2.2)]
      unfold roundHalfUp truncQ
      rw [if_pos (by linarith), if_pos (by linarith)]
    · rw [if_pos (by rw [← hx, ← hy] at h2; omega), if_neg (by rintro ⟨_, a, _, b⟩; exact h2 ⟨a, b⟩)]

/-- C27: nearest-neighbour warping by any mapping: total, same size, and the default colour is
used exactly for pre-images at least half a pixel outside the pixel centres. -/
theorem C27_nearest (mx : Nat) (im : Image Px) (mapping : ℚ → ℚ → ℚ × ℚ) (dflt : Px)
    (hw : 0 < im.w) :
    ∃ out, warpWith mx im mapping .nearest dflt = some out ∧ out.w = im.w ∧ out.h = im.h ∧
      ∀ x y : Nat, x < im.w → y < im.h → out.px x y =
        (let p := mapping x y
         if -1 / 2 ≤ p.1 ∧ p.1 < im.w - 1 / 2 ∧ -1 / 2 ≤ p.2 ∧ p.2 < im.h - 1 / 2 then
           im.px ⌊p.1 + 1 / 2⌋.toNat ⌊p.2 + 1 / 2⌋.toNat
         else dflt) := by
  obtain ⟨r, h1, h2, h3, h4⟩ := warpInner_spec (Image.new im.w im.h fun _ => 0) mapping
    (interpolate mx .nearest im dflt) (nearestSpec im dflt) hw (nearest_eq im dflt)
  exact ⟨r, h1, h2, h3, h4⟩

/-- C27: in particular nearest-neighbour warping uses the input image for every pre-image in the
closed rectangle spanned by the pixel centres. -/
theorem C27_nearest_inside (im : Image Px) (dflt : Px) (x y : ℚ)
    (hx : 0 ≤ x) (hx' : x ≤ im.w - 1) (hy : 0 ≤ y) (hy' : y ≤ im.h - 1) :
    interpolateNearest im x y dflt = some (im.px ⌊x + 1 / 2⌋.toNat ⌊y + 1 / 2⌋.toNat) ∧
    ⌊x + 1 / 2⌋.toNat < im.w ∧ ⌊y + 1 / 2⌋.toNat < im.h := by
  have e : ∀ z : ℚ, 0 ≤ z → truncQ (z + 1 / 2) = ⌊z + 1 / 2⌋ := fun z hz => by
    unfold truncQ; rw [if_pos (by linarith)]
  refine ⟨?_, ?_, ?_⟩
  · rw [nearest_eq, nearestSpec, if_pos ⟨by linarith, by linarith, by linarith, by linarith⟩]
    rfl
  · rw [← e x hx, half_lt_iff (by linarith)]; linarith
  · rw [← e y hy, half_lt_iff (by linarith)]; linarith

/-- C27: nearest-neighbour warping by a translation by whole pixels is an exact shift with the
default colour outside; translation by zero returns the input. -/
theorem C27_nearest_translate (mx : Nat) (im : Image Px) (dflt : Px) (tx ty : Int) (hw : 0 < im.w) :
    ∃ out, warp mx im (translateP tx ty) .nearest dflt = some out ∧ out.w = im.w ∧ out.h = im.h ∧
      ∀ x y : Nat, x < im.w → y < im.h → out.px x y =
        if 0 ≤ (x : Int) - tx ∧ (x : Int) - tx < im.w ∧ 0 ≤ (y : Int) - ty ∧ (y : Int) - ty < im.h
        then im.px ((x : Int) - tx).toNat ((y : Int) - ty).toNat else dflt := by
  obtain ⟨r, h1, h2, h3, h4⟩ := warpInner_spec (Image.new im.w im.h fun _ => 0)
    (fun x y => (translateP (tx : ℚ) ty).invert.apply x y)
    (interpolate mx .nearest im dflt) (nearestSpec im dflt) hw (nearest_eq im dflt)
  refine ⟨r, h1, h2, h3, ?_⟩
  intro x y hx hy
  rw [h4 x y hx hy]
  have ex : ((translateP (tx : ℚ) ty).invert.apply x y).1 = (((x : Int) - tx : Int) : ℚ) := by
    simp [translateP, Projection.invert, Projection.apply]; ring
  have ey : ((translateP (tx : ℚ) ty).invert.apply x y).2 = (((y : Int) - ty : Int) : ℚ) := by
    simp [translateP, Projection.invert, Projection.apply]; ring
  rw [ex, ey]
  generalize (x : Int) - tx = u
  generalize (y : Int) - ty = v
  have hfl : ∀ n : Int, roundHalfUp n = n.toNat := by
    intro n
    unfold roundHalfUp
    rw [Int.floor_intCast_add]
    norm_num
  have hlo : ∀ n : Int, -1 / 2 ≤ (n : ℚ) ↔ 0 ≤ n := by
    intro n
    constructor
    · intro h
      by_contra hn
      have : (n : ℚ) ≤ ((-1 : Int) : ℚ) := by exact_mod_cast (by omega : n ≤ -1)
      push_cast at this
      linarith
    · intro h
      have : (0 : ℚ) ≤ n := by exact_mod_cast h
      linarith
  have hhi : ∀ (n : Int) (k : Nat), (n : ℚ) < k - 1 / 2 ↔ n < k := by
    intro n k
    constructor
    · intro h
      have : (n : ℚ) < ((k : Int) : ℚ) := by push_cast; linarith
      exact_mod_cast this
    · intro h
      have : (n : ℚ) ≤ (((k : Int) - 1 : Int) : ℚ) := by exact_mod_cast (by omega : n ≤ (k : Int) - 1)
      push_cast at this
      linarith
  simp only [nearestSpec, hlo, hhi, hfl]

/-! ### Bilinear -/

theorem clampSub_nat (mx n : Nat) (h : n ≤ mx) : clampSub mx (n : ℚ) = n := by
  unfold clampSub
  have := (C75_float 0 mx (n : ℚ) (by omega)).1 n (by push_cast; rfl) (by omega) (by omega)
  rw [this]; rfl

theorem clampSub_mono {mx : Nat} {u v : ℚ} (h : u ≤ v) : clampSub mx u ≤ clampSub mx v := by
  unfold clampSub
  have := (C75_float_mono 0 mx u v (by omega)).1 h
  omega

/-- Bilinear mixing of two values with a weight in `[0, 1]` stays between them. -/
theorem mix_bounds {mx u v lo hi : Nat} {w : ℚ} (h0 : 0 ≤ w) (h1 : w ≤ 1) (hlu : lo ≤ u)
    (hlv : lo ≤ v) (huh : u ≤ hi) (hvh : v ≤ hi) (hm : hi ≤ mx) :
    lo ≤ clampSub mx ((1 - w) * u + w * v) ∧ clampSub mx ((1 - w) * u + w * v) ≤ hi := by
  have a1 : (lo : ℚ) ≤ u := by exact_mod_cast hlu
  have a2 : (lo : ℚ) ≤ v := by exact_mod_cast hlv
  have a3 : (u : ℚ) ≤ hi := by exact_mod_cast huh
  have a4 : (v : ℚ) ≤ hi := by exact_mod_cast hvh
  constructor
  · rw [← clampSub_nat mx lo (by omega)]
    apply clampSub_mono
    nlinarith
  · conv_rhs => rw [← clampSub_nat mx hi hm]
    apply clampSub_mono
    nlinarith

/-- C28: with weights in `[0, 1]` the blend lies between the least and greatest of the four
values, in every channel. -/
theorem C28_blend_range (mx : Nat) (tl tr bl br : Px) (rw bw : ℚ) (hr0 : 0 ≤ rw) (hr1 : rw ≤ 1)
    (hb0 : 0 ≤ bw) (hb1 : bw ≤ 1) (c : Nat)
    (hmx : tl c ≤ mx ∧ tr c ≤ mx ∧ bl c ≤ mx ∧ br c ≤ mx) :
    min (min (tl c) (tr c)) (min (bl c) (br c)) ≤ blendBilinear mx tl tr bl br rw bw c ∧
    blendBilinear mx tl tr bl br rw bw c ≤ max (max (tl c) (tr c)) (max (bl c) (br c)) := by
  unfold blendBilinear
  dsimp only
  generalize hlo : min (min (tl c) (tr c)) (min (bl c) (br c)) = lo
  generalize hhi : max (max (tl c) (tr c)) (max (bl c) (br c)) = hi
  have t := mix_bounds (mx := mx) (lo := lo) (hi := hi) hr0 hr1 (u := tl c) (v := tr c)
    (by omega) (by omega) (by omega) (by omega) (by omega)
  have b := mix_bounds (mx := mx) (lo := lo) (hi := hi) hr0 hr1 (u := bl c) (v := br c)
    (by omega) (by omega) (by omega) (by omega) (by omega)
  exact mix_bounds hb0 hb1 t.1 b.1 t.2 b.2 (by omega)

/-- C28: with zero weights the blend is the top left value; with weight one on an axis it is the
value at the far end. -/
theorem C28_blend_corners (mx : Nat) (tl tr bl br : Px) (c : Nat)
    (hmx : tl c ≤ mx ∧ tr c ≤ mx ∧ bl c ≤ mx ∧ br c ≤ mx) :
    blendBilinear mx tl tr bl br 0 0 c = tl c ∧ blendBilinear mx tl tr bl br 1 0 c = tr c ∧
    blendBilinear mx tl tr bl br 0 1 c = bl c ∧ blendBilinear mx tl tr bl br 1 1 c = br c := by
  unfold blendBilinear
  refine ⟨?_, ?_, ?_, ?_⟩ <;>
    simp [clampSub_nat mx _ hmx.1, clampSub_nat mx _ hmx.2.1, clampSub_nat mx _ hmx.2.2.1,
      clampSub_nat mx _ hmx.2.2.2]

theorem floor_bounds (x : ℚ) (n : Nat) (k : Nat) :
    ((⌊x⌋ : ℚ) + k < n ↔ x < (n : ℚ) - k) := by
  have : ((⌊x⌋ : ℚ) + k < n) ↔ ⌊x⌋ < (n : Int) - k := by
    constructor
    · intro h
      have : ((⌊x⌋ + k : Int) : ℚ) < ((n : Int) : ℚ) := by push_cast; exact h
      have := Int.cast_lt.1 this
      omega
    · intro h
      have : ((⌊x⌋ + k : Int) : ℚ) < ((n : Int) : ℚ) := Int.cast_lt.2 (by omega)
      push_cast at this; exact this
  rw [this, Int.floor_lt]; push_cast; rfl

theorem floor_nonneg_cast (x : ℚ) (k : Nat) : (0 ≤ (⌊x⌋ : ℚ) - k) ↔ (k : ℚ) ≤ x := by
  constructor
  · intro h
    have := Int.floor_le x
    linarith
  · intro h
    have h2 : (k : Int) ≤ ⌊x⌋ := Int.le_floor.2 (by push_cast; exact h)
    have : ((k : Int) : ℚ) ≤ ⌊x⌋ := Int.cast_le.2 h2
    push_cast at this; linarith

theorem not_and_or4 {a b w c d h : ℚ} :
    ¬ (0 ≤ a ∧ b < w ∧ 0 ≤ c ∧ d < h) ↔ (a < 0 ∨ b ≥ w ∨ c < 0 ∨ d ≥ h) := by
  simp only [not_and_or, not_le, not_lt, ge_iff_le]

/-- The position is in the half-open rectangle where bilinear interpolation reads the image. -/
def BilinearInside (im : Image Px) (x y : ℚ) : Prop :=
  0 ≤ x ∧ x < im.w - 1 ∧ 0 ≤ y ∧ y < im.h - 1

instance (im : Image Px) (x y : ℚ) : Decidable (BilinearInside im x y) := by
  unfold BilinearInside; infer_instance

/-- Bilinear value at a position. -/
def bilinearVal (mx : Nat) (im : Image Px) (x y : ℚ) : Px :=
  let l := ⌊x⌋.toNat
  let t := ⌊y⌋.toNat
  blendBilinear mx (im.px l t) (im.px (l + 1) t) (im.px l (t + 1)) (im.px (l + 1) (t + 1))
    (x - ⌊x⌋) (y - ⌊y⌋)

theorem inside_nat {x : ℚ} {n : Nat} (h0 : 0 ≤ x) (h1 : x < n - 1) : ⌊x⌋.toNat + 1 < n := by
  have a : 0 ≤ ⌊x⌋ := Int.floor_nonneg.2 h0
  have b : ⌊x⌋ < (n : Int) - 1 := Int.floor_lt.2 (by push_cast; exact h1)
  omega

theorem bilinear_eq (mx : Nat) (im : Image Px) (dflt : Px) (x y : ℚ) :
    interpolateBilinear mx im x y dflt =
      some (if BilinearInside im x y then bilinearVal mx im x y else dflt) := by
  unfold interpolateBilinear
  dsimp only
  have fx := floor_bounds x im.w 1
  have fy := floor_bounds y im.h 1
  have gx := floor_nonneg_cast x 0
  have gy := floor_nonneg_cast y 0
  simp only [Nat.cast_one, Nat.cast_zero, sub_zero] at fx fy gx gy
  by_cases hin : BilinearInside im x y
  · obtain ⟨h1, h2, h3, h4⟩ := hin
    rw [if_neg (by
        rw [← not_and_or4, gx, fx, gy, fy]
        exact fun h => h ⟨h1, h2, h3, h4⟩), if_pos (show BilinearInside im x y from ⟨h1, h2, h3, h4⟩)]
    have ex := inside_nat h1 h2
    have ey := inside_nat h3 h4
    have px0 : 0 ≤ ⌊x⌋ := Int.floor_nonneg.2 h1
    have py0 : 0 ≤ ⌊y⌋ := Int.floor_nonneg.2 h3
    have tx : truncQ ((⌊x⌋ : ℚ) + 1) = ⌊x⌋ + 1 := by
      simpa using truncQ_floor_add x 1
    have ty : truncQ ((⌊y⌋ : ℚ) + 1) = ⌊y⌋ + 1 := by
      simpa using truncQ_floor_add y 1
    rw [truncQ_floor, truncQ_floor, tx, ty, show (⌊x⌋ + 1).toNat = ⌊x⌋.toNat + 1 by omega,
      show (⌊y⌋ + 1).toNat = ⌊y⌋.toNat + 1 by omega,
      Image.get_of_inB (by omega) (by omega), Option.bind_some,
      Image.get_of_inB (by omega) (by omega), Option.bind_some,
      Image.get_of_inB (by omega) (by omega), Option.bind_some,
      Image.get_of_inB (by omega) (by omega), Option.bind_some]
    rfl
  · rw [if_neg hin, if_pos]
    rw [← not_and_or4, gx, fx, gy, fy]
    exact hin

/-- C28: the bilinearly interpolated value at any position at which the image is read lies
between the least and greatest of the four surrounding pixels. -/
theorem C28_bilinear_range (mx : Nat) (im : Image Px) (dflt : Px) (x y : ℚ)
    (hin : BilinearInside im x y) (hmx : ∀ a b c, a < im.w → b < im.h → im.px a b c ≤ mx) (c : Nat) :
    ∃ v, interpolateBilinear mx im x y dflt = some v ∧
      let l := ⌊x⌋.toNat
      let t := ⌊y⌋.toNat
      min (min (im.px l t c) (im.px (l + 1) t c)) (min (im.px l (t + 1) c) (im.px (l + 1) (t + 1) c))
        ≤ v c ∧
      v c ≤ max (max (im.px l t c) (im.px (l + 1) t c))
        (max (im.px l (t + 1) c) (im.px (l + 1) (t + 1) c)) := by
  rw [bilinear_eq, if_pos hin]
  refine ⟨_, rfl, ?_⟩
  have ex := inside_nat hin.1 hin.2.1
  have ey := inside_nat hin.2.2.1 hin.2.2.2
  have hf : ∀ z : ℚ, 0 ≤ z - ⌊z⌋ ∧ z - ⌊z⌋ ≤ 1 := fun z =>
    ⟨by have := Int.floor_le z; linarith, by have := Int.lt_floor_add_one z; linarith⟩
  exact C28_blend_range mx _ _ _ _ _ _ (hf x).1 (hf x).2 (hf y).1 (hf y).2 c
    ⟨hmx _ _ _ (by omega) (by omega), hmx _ _ _ (by omega) (by omega),
      hmx _ _ _ (by omega) (by omega), hmx _ _ _ (by omega) (by omega)⟩

/-- C28: at integer positions other than the last column and row the value is the pixel. -/
theorem C28_bilinear_integer (mx : Nat) (im : Image Px) (dflt : Px) (x y : Nat)
    (hx : x + 1 < im.w) (hy : y + 1 < im.h)
    (hmx : ∀ a b c, a < im.w → b < im.h → im.px a b c ≤ mx) :
    interpolateBilinear mx im x y dflt = some (im.px x y) := by
  have hin : BilinearInside im x y := by
    have a : ((x + 1 : Nat) : ℚ) < im.w := by exact_mod_cast hx
    have b : ((y + 1 : Nat) : ℚ) < im.h := by exact_mod_cast hy
    push_cast at a b
    exact ⟨by positivity, by linarith, by positivity, by linarith⟩
  rw [bilinear_eq, if_pos hin]
  congr 1
  funext c
  unfold bilinearVal
  simp only [Int.floor_natCast, Int.toNat_natCast, Int.cast_natCast, sub_self]
  exact (C28_blend_corners mx _ _ _ _ c ⟨hmx _ _ _ (by omega) (by omega),
    hmx _ _ _ (by omega) (by omega), hmx _ _ _ (by omega) (by omega),
    hmx _ _ _ (by omega) (by omega)⟩).1

/-- C27: exact behaviour of bilinear warping: the default colour is used unless the pre-image is
in the half-open rectangle `[0, w-1) x [0, h-1)`. -/
theorem C27_bilinear (mx : Nat) (im : Image Px) (mapping : ℚ → ℚ → ℚ × ℚ) (dflt : Px)
    (hw : 0 < im.w) :
    ∃ out, warpWith mx im mapping .bilinear dflt = some out ∧ out.w = im.w ∧ out.h = im.h ∧
      ∀ x y : Nat, x < im.w → y < im.h → out.px x y =
        if BilinearInside im (mapping x y).1 (mapping x y).2 then
          bilinearVal mx im (mapping x y).1 (mapping x y).2 else dflt := by
  obtain ⟨r, h1, h2, h3, h4⟩ := warpInner_spec (Image.new im.w im.h fun _ => 0) mapping
    (interpolate mx .bilinear im dflt) _ hw (bilinear_eq mx im dflt)
  exact ⟨r, h1, h2, h3, h4⟩

/-! ### Bicubic -/

/-- The position is in the half-open rectangle where bicubic interpolation reads the image. -/
def BicubicInside (im : Image Px) (x y : ℚ) : Prop :=
  1 ≤ x ∧ x < im.w - 3 ∧ 1 ≤ y ∧ y < im.h - 3

instance (im : Image Px) (x y : ℚ) : Decidable (BicubicInside im x y) := by
  unfold BicubicInside; infer_instance

/-- One interpolated row of the bicubic scheme. -/
def bicubicRow (mx : Nat) (im : Image Px) (x : ℚ) (row : Nat) : Px :=
  let l := ⌊x⌋.toNat - 1
  blendCubic mx (im.px l row) (im.px (l + 1) row) (im.px (l + 2) row) (im.px (l + 3) row) (x - ⌊x⌋)

/-- Bicubic value at a position. -/
def bicubicVal (mx : Nat) (im : Image Px) (x y : ℚ) : Px :=
  let t := ⌊y⌋.toNat - 1
  blendCubic mx (bicubicRow mx im x t) (bicubicRow mx im x (t + 1)) (bicubicRow mx im x (t + 2))
    (bicubicRow mx im x (t + 3)) (y - ⌊y⌋)

theorem inside3_nat {x : ℚ} {n : Nat} (h0 : 1 ≤ x) (h1 : x < n - 3) :
    1 ≤ ⌊x⌋ ∧ ⌊x⌋.toNat + 3 < n := by
  have a : 1 ≤ ⌊x⌋ := Int.le_floor.2 (by simpa using h0)
  have b : ⌊x⌋ < (n : Int) - 3 := Int.floor_lt.2 (by push_cast; exact h1)
  omega

theorem bicubic_eq (mx : Nat) (im : Image Px) (dflt : Px) (x y : ℚ) :
    interpolateBicubic mx im x y dflt =
      some (if BicubicInside im x y then bicubicVal mx im x y else dflt) := by
  unfold interpolateBicubic
  dsimp only
  have e4 : ∀ z : ℚ, (⌊z⌋ : ℚ) - 1 + 4 = ⌊z⌋ + 3 := fun z => by ring
  rw [e4, e4]
  have fx := floor_bounds x im.w 3
  have fy := floor_bounds y im.h 3
  have gx := floor_nonneg_cast x 1
  have gy := floor_nonneg_cast y 1
  simp only [Nat.cast_one, Nat.cast_ofNat] at fx fy gx gy
  by_cases hin : BicubicInside im x y
  · obtain ⟨h1, h2, h3, h4⟩ := hin
    rw [if_neg (by
        rw [← not_and_or4, gx, fx, gy, fy]
        exact fun h => h ⟨h1, h2, h3, h4⟩), if_pos (show BicubicInside im x y from ⟨h1, h2, h3, h4⟩)]
    obtain ⟨x1, ex⟩ := inside3_nat h1 h2
    obtain ⟨y1, ey⟩ := inside3_nat h3 h4
    have tx : (truncQ ((⌊x⌋ : ℚ) - 1)).toNat = ⌊x⌋.toNat - 1 := by
      have := truncQ_floor_add x (-1)
      push_cast at this
      rw [sub_eq_add_neg, this]; omega
    have ty : (truncQ ((⌊y⌋ : ℚ) - 1)).toNat = ⌊y⌋.toNat - 1 := by
      have := truncQ_floor_add y (-1)
      push_cast at this
      rw [sub_eq_add_neg, this]; omega
    have tb : (truncQ ((⌊y⌋ : ℚ) + 3)).toNat = ⌊y⌋.toNat - 1 + 4 := by
      have := truncQ_floor_add y 3
      push_cast at this
      rw [this]; omega
    rw [tx, ty, tb, show x - ((⌊x⌋ : ℚ) - 1 + 1) = x - ⌊x⌋ by ring,
      show y - ((⌊y⌋ : ℚ) - 1 + 1) = y - ⌊y⌋ by ring]
    generalize ht : ⌊y⌋.toNat - 1 = t
    obtain ⟨col, hcol, hI⟩ := forRange_spec
      (f := fun row (col : Nat → Px) =>
        (im.get (⌊x⌋.toNat - 1) row).bind fun p0 =>
        (im.get (⌊x⌋.toNat - 1 + 1) row).bind fun p1 =>
        (im.get (⌊x⌋.toNat - 1 + 2) row).bind fun p2 =>
        (im.get (⌊x⌋.toNat - 1 + 3) row).bind fun p3 =>
        (csub row t).bind fun k =>
        some (fun i => if i = k then blendCubic mx p0 p1 p2 p3 (x - ⌊x⌋) else col i))
      (fun row (col : Nat → Px) => ∀ i, t + i < row → col i = bicubicRow mx im x (t + i))
      (lo := t) (hi := t + 4) (s := fun _ => dflt) (by omega) (by intro i hi; omega)
      (by
        intro row col hr1 hr2 hI
        rw [Image.get_of_inB (by omega) (by omega), Option.bind_some,
          Image.get_of_inB (by omega) (by omega), Option.bind_some,
          Image.get_of_inB (by omega) (by omega), Option.bind_some,
          Image.get_of_inB (by omega) (by omega), Option.bind_some,
          csub_of_le hr1, Option.bind_some]
        refine ⟨_, rfl, ?_⟩
        intro i hi
        by_cases hk : i = row - t
        · rw [if_pos hk, show t + i = row by omega]
          rfl
        · rw [if_neg hk]
          exact hI i (by omega))
    rw [hcol, Option.bind_some, hI 0 (by omega), hI 1 (by omega), hI 2 (by omega), hI 3 (by omega)]
    unfold bicubicVal
    rw [ht]
    rfl
  · rw [if_neg hin, if_pos]
    rw [← not_and_or4, gx, fx, gy, fy]
    exact hin

/-- C27: exact behaviour of bicubic warping: the default colour is used unless the pre-image is
in the half-open rectangle `[1, w-3) x [1, h-3)`. -/
theorem C27_bicubic (mx : Nat) (im : Image Px) (mapping : ℚ → ℚ → ℚ × ℚ) (dflt : Px)
    (hw : 0 < im.w) :
    ∃ out, warpWith mx im mapping .bicubic dflt = some out ∧ out.w = im.w ∧ out.h = im.h ∧
      ∀ x y : Nat, x < im.w → y < im.h → out.px x y =
        if BicubicInside im (mapping x y).1 (mapping x y).2 then
          bicubicVal mx im (mapping x y).1 (mapping x y).2 else dflt := by
  obtain ⟨r, h1, h2, h3, h4⟩ := warpInner_spec (Image.new im.w im.h fun _ => 0) mapping
    (interpolate mx .bicubic im dflt) _ hw (bicubic_eq mx im dflt)
  exact ⟨r, h1, h2, h3, h4⟩

theorem blendCubic_zero (mx : Nat) (p0 p1 p2 p3 : Px) (c : Nat) (h : p1 c ≤ mx) :
    blendCubic mx p0 p1 p2 p3 0 c = p1 c := by
  unfold blendCubic cubic
  rw [mul_zero, zero_mul, add_zero, clampSub_nat mx _ h]

/-- C28: bicubic interpolation at integer positions where it reads the image is the pixel. -/
theorem C28_bicubic_integer (mx : Nat) (im : Image Px) (dflt : Px) (x y : Nat)
    (hx : 1 ≤ x) (hx' : x + 3 < im.w) (hy : 1 ≤ y) (hy' : y + 3 < im.h)
    (hmx : ∀ a b c, a < im.w → b < im.h → im.px a b c ≤ mx) :
    interpolateBicubic mx im x y dflt = some (im.px x y) := by
  have hin : BicubicInside im x y := by
    have a : ((x + 3 : Nat) : ℚ) < im.w := by exact_mod_cast hx'
    have b : ((y + 3 : Nat) : ℚ) < im.h := by exact_mod_cast hy'
    push_cast at a b
    exact ⟨by exact_mod_cast hx, by linarith, by exact_mod_cast hy, by linarith⟩
  rw [bicubic_eq, if_pos hin]
  congr 1
  funext c
  unfold bicubicVal bicubicRow
  simp only [Int.floor_natCast, Int.toNat_natCast, Int.cast_natCast, sub_self]
  have hb : im.px x y c ≤ mx := hmx _ _ _ (by omega) (by omega)
  have e : blendCubic mx (im.px (x - 1) (y - 1 + 1)) (im.px (x - 1 + 1) (y - 1 + 1))
      (im.px (x - 1 + 2) (y - 1 + 1)) (im.px (x - 1 + 3) (y - 1 + 1)) 0 c = im.px x y c := by
    rw [show y - 1 + 1 = y by omega, show x - 1 + 1 = x by omega, blendCubic_zero mx _ _ _ _ c hb]
  rw [blendCubic_zero mx _ _ _ _ c (by rw [e]; exact hb), e]

/-! ### What is wrong at the border -/

/-- A 3 by 2 image with grey levels 1..6. -/
def im32 : Image Px := ⟨3, 2, fun x y _ => 1 + x + 3 * y⟩

/-- C27 is false of the code: bilinear warping by the identity replaces the last column and the
last row by the default colour although their pre-images are pixel centres. -/
theorem C27_negation_bilinear : ∃ out,
    warp 255 im32 (translateP 0 0) .bilinear (fun _ => 9) = some out ∧
    out.px 2 0 0 = 9 ∧ out.px 0 1 0 = 9 ∧ im32.px 2 0 0 = 3 ∧ im32.px 0 1 0 = 4 := by
  obtain ⟨r, h1, h2, h3, h4⟩ := warpInner_spec (Image.new im32.w im32.h fun _ => 0)
    (fun x y => (translateP (0 : ℚ) 0).invert.apply x y)
    (interpolate 255 .bilinear im32 fun _ => 9) _ (by decide) (bilinear_eq 255 im32 fun _ => 9)
  refine ⟨r, h1, ?_, ?_, rfl, rfl⟩
  · rw [h4 2 0 (by decide) (by decide), if_neg]
    norm_num [BilinearInside, im32, translateP, Projection.invert, Projection.apply]
  · rw [h4 0 1 (by decide) (by decide), if_neg]
    norm_num [BilinearInside, im32, translateP, Projection.invert, Projection.apply]

/-- C27 (partial for bilinear: all but the last column and row): warping by the identity returns
the input there, and the default colour in the last column and row. -/
theorem C27_bilinear_identity_partial (mx : Nat) (im : Image Px) (dflt : Px) (hw : 0 < im.w)
    (hmx : ∀ a b c, a < im.w → b < im.h → im.px a b c ≤ mx) :
    ∃ out, warp mx im (translateP 0 0) .bilinear dflt = some out ∧ out.w = im.w ∧ out.h = im.h ∧
      ∀ x y : Nat, x < im.w → y < im.h → out.px x y =
        if x + 1 < im.w ∧ y + 1 < im.h then im.px x y else dflt := by
  obtain ⟨r, h1, h2, h3, h4⟩ := warpInner_spec (Image.new im.w im.h fun _ => 0)
    (fun x y => (translateP (0 : ℚ) 0).invert.apply x y)
    (interpolate mx .bilinear im dflt) _ hw (bilinear_eq mx im dflt)
  refine ⟨r, h1, h2, h3, ?_⟩
  intro x y hx hy
  rw [h4 x y hx hy]
  have e : (translateP (0 : ℚ) 0).invert.apply x y = ((x : ℚ), (y : ℚ)) := by
    simp [translateP, Projection.invert, Projection.apply]
  rw [e]
  by_cases hin : x + 1 < im.w ∧ y + 1 < im.h
  · have := C28_bilinear_integer mx im dflt x y hin.1 hin.2 hmx
    rw [bilinear_eq] at this
    rw [if_pos hin]
    exact Option.some.inj this
  · rw [if_neg hin, if_neg]
    rintro ⟨_, a, _, b⟩
    apply hin
    constructor
    · have : ((x + 1 : Nat) : ℚ) < im.w := by push_cast; dsimp only at a; linarith
      exact_mod_cast this
    · have : ((y + 1 : Nat) : ℚ) < im.h := by push_cast; dsimp only at b; linarith
      exact_mod_cast this

/-- C27 is false of the code for bicubic interpolation: identity warping of a 6 by 6 image gives
the default colour even at (3, 3), whose 4 by 4 neighbourhood (2..5) lies inside the image. -/
theorem C27_negation_bicubic (im : Image Px) (dflt : Px) (hw : im.w = 6) (hh : im.h = 6) :
    interpolateBicubic 255 im 3 3 dflt = some dflt := by
  rw [bicubic_eq, if_neg]
  norm_num [BicubicInside, hw, hh]

/-- C27: an image of width zero makes every warp panic. -/
theorem C27_zero_width_panics (mx : Nat) (im : Image Px) (p : Projection ℚ) (i : Interpolation)
    (dflt : Px) (hw : im.w = 0) : warp mx im p i dflt = none := by
  unfold warp warpInto warpInner
  rw [if_pos (by simpa [Image.new] using hw)]

/-- C27: `warp` by a well-formed projection reads, for the output pixel `q`, the point that the
projection maps to `q`. -/
theorem C27_warp_preimage (mx : Nat) (im : Image Px) (p : Projection ℚ) (hp : Good p)
    (dflt : Px) (hw : 0 < im.w) :
    ∃ out, warp mx im p .nearest dflt = some out ∧ out.w = im.w ∧ out.h = im.h ∧
      ∀ x y : Nat, x < im.w → y < im.h → ∀ u v : ℚ, denom p u v ≠ 0 → p.apply u v = (↑x, ↑y) →
        out.px x y =
          if -1 / 2 ≤ u ∧ u < im.w - 1 / 2 ∧ -1 / 2 ≤ v ∧ v < im.h - 1 / 2 then
            im.px ⌊u + 1 / 2⌋.toNat ⌊v + 1 / 2⌋.toNat
          else dflt := by
  obtain ⟨r, h1, h2, h3, h4⟩ := warpInner_spec (Image.new im.w im.h fun _ => 0)
    (fun x y => p.invert.apply x y)
    (interpolate mx .nearest im dflt) (nearestSpec im dflt) hw (nearest_eq im dflt)
  refine ⟨r, h1, h2, h3, ?_⟩
  intro x y hx hy u v hd he
  rw [h4 x y hx hy]
  have := C25_invert_partial p hp u v hd
  rw [he] at this
  rw [this]
  rfl

/-! ### Rotation about a point -/

/-- C83: rotation about a point is a rigid motion fixing that point: it fixes the centre,
preserves squared distances, and turns the x direction into (cos, sin). -/
theorem C83_rotate_about (cx cy s c : ℚ) (h : s ^ 2 + c ^ 2 = 1) :
    Good (rotateAbout cx cy s c) ∧
    (rotateAbout cx cy s c).apply cx cy = (cx, cy) ∧
    (∀ x y x' y' : ℚ,
      let p := (rotateAbout cx cy s c).apply x y
      let q := (rotateAbout cx cy s c).apply x' y'
      (p.1 - q.1) ^ 2 + (p.2 - q.2) ^ 2 = (x - x') ^ 2 + (y - y') ^ 2) ∧
    (∀ d : ℚ, (rotateAbout cx cy s c).apply (cx + d) cy = (cx + d * c, cy + d * s)) := by
  have happ : ∀ x y : ℚ, (rotateAbout cx cy s c).apply x y =
      (c * (x - cx) - s * (y - cy) + cx, s * (x - cx) + c * (y - cy) + cy) := by
    intro x y
    simp only [rotateAbout, translateP, rotateP, Projection.mul, mul3x3, mulClass, Projection.apply,
      Prod.mk.injEq]
    constructor <;> ring
  obtain ⟨g1, g2, -⟩ := C25_good_constructors cx cy s c 1 1 h one_ne_zero one_ne_zero
  obtain ⟨g3, -, -⟩ := C25_good_constructors (-cx) (-cy) s c 1 1 h one_ne_zero one_ne_zero
  refine ⟨C25_good_mul _ _ (C25_good_mul _ _ g1 g2) g3, ?_, ?_, ?_⟩
  · rw [happ, Prod.mk.injEq]; constructor <;> ring
  · intro x y x' y'
    simp only [happ]
    linear_combination ((x - x') ^ 2 + (y - y') ^ 2) * h
  · intro d
    rw [happ, Prod.mk.injEq]; constructor <;> ring

-- a rotation by the angle with sine 3/5 and cosine 4/5 about (1, 2)
example : (rotateAbout 1 2 (3 / 5) (4 / 5)).apply 6 2 = (5, 5) := by
  norm_num [rotateAbout, translateP, rotateP, Projection.mul, mul3x3, mulClass, Projection.apply]

-- bilinear value halfway between 1 and 2 and between 4 and 5: truncation at both stages
example : blendBilinear 255 (fun _ => 1) (fun _ => 2) (fun _ => 4) (fun _ => 5) (1 / 2) (1 / 2) 0 = 2 := by
  decide +kernel

-- nearest neighbour at half positions rounds up
example : (interpolateNearest im32 (1 / 2) 0 fun _ => 9).map (· 0) = some 2 := by decide +kernel
example : (interpolateNearest im32 (5 / 2) 0 fun _ => 9).map (· 0) = some 9 := by decide +kernel

end Verif.Geom
