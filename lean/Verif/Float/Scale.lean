import Verif.Float.Rotate
/-
Property C147: scaling an image in `f32`: `Projection::scale`
(src/geometric_transformations.rs:99-119) followed by `warp`.
Overflow is not modelled: the theorems assume scale factors between 2^-21 and 2^21.
-/
namespace Verif.Float
open Verif.Definitions Verif.Geom XF

/-- `Projection::scale` (src/geometric_transformations.rs:99-119) in `f32`. -/
def scaleP32 (sx sy : ℚ) : Projection ℚ :=
  ⟨⟨sx, 0, 0, 0, sy, 0, 0, 0, 1⟩, ⟨rnd32 (1 / sx), 0, 0, 0, rnd32 (1 / sy), 0, 0, 0, 1⟩, .affine⟩

/-- `warp(image, &Projection::scale(sx, sy), interpolation, default)`. -/
def warpScale32 (mx : Nat) (im : Image Px) (sx sy : ℚ) (i : Interpolation) (dflt : Px) :
    Option (Image Px) :=
  warp32 mx im (scaleP32 sx sy) i dflt

/-- The coordinate computed along one axis. -/
def scaleCoord (s : ℚ) (x : Nat) : ℚ := rnd32 (rnd32 (1 / s) * (x : ℚ))

theorem map_scale {sx sy : ℚ} {x y : Nat} (hx : x ≤ 2 ^ 24) (hy : y ≤ 2 ^ 24) :
    mapAffine32 (scaleP32 sx sy).invert.transform (ofNat x) (ofNat y) =
      (fin (scaleCoord sx x), fin (scaleCoord sy y)) := by
  rw [ofNat_int hx, ofNat_int hy]
  simp only [mapAffine32, scaleP32, Projection.invert, XF.mul, XF.add, zero_mul, rnd32_zeroQ, add_zero,
    zero_add, rnd_idem, scaleCoord]

theorem rel32 {x : ℚ} (h : 1 / 2 ^ 126 ≤ x) :
    x * (1 - 1 / 2 ^ 24) ≤ rnd32 x ∧ rnd32 x ≤ x * (1 + 1 / 2 ^ 24) := by
  have hp : 0 < x := lt_of_lt_of_le (by norm_num) h
  have := rnd_error_rel (p := 24) (emin := -149) (x := x) (by rw [abs_of_pos hp]; norm_num at *; linarith)
  rw [abs_of_pos hp, abs_le] at this
  norm_num at this ⊢
  constructor <;> linarith [this.1, this.2]

/-- The computed coordinate is within a relative error of `2^-22` of the quotient. -/
theorem scaleCoord_rel {s : ℚ} {x : Nat} (h1 : 1 / 2 ^ 22 ≤ s) (h2 : s ≤ 2 ^ 22) :
    (x : ℚ) / s * (1 - 1 / 2 ^ 24) ^ 2 ≤ scaleCoord s x ∧
      scaleCoord s x ≤ (x : ℚ) / s * (1 + 1 / 2 ^ 24) ^ 2 := by
  have sp : 0 < s := lt_of_lt_of_le (by norm_num) h1
  have l1 : 1 / 2 ^ 22 ≤ 1 / s := one_div_le_one_div_of_le sp h2
  obtain ⟨a, b⟩ := rel32 (x := 1 / s) (le_trans (by norm_num) l1)
  unfold scaleCoord
  rcases Nat.eq_zero_or_pos x with rfl | hx
  · norm_num [rnd32_zeroQ]
  have x1 : (1 : ℚ) ≤ x := by exact_mod_cast hx
  have ip : 1 / 2 ^ 23 ≤ rnd32 (1 / s) := by
    refine le_trans ?_ a
    refine le_trans ?_ (mul_le_mul_of_nonneg_right l1 (by norm_num))
    norm_num
  have pr : 1 / 2 ^ 23 ≤ rnd32 (1 / s) * (x : ℚ) := by nlinarith
  obtain ⟨c, d⟩ := rel32 (x := rnd32 (1 / s) * (x : ℚ)) (le_trans (by norm_num) pr)
  have e : (x : ℚ) / s = 1 / s * x := by ring
  rw [e]
  constructor
  · refine le_trans (le_of_eq ?_) (le_trans
      (mul_le_mul_of_nonneg_right (mul_le_mul_of_nonneg_right a (by linarith : (0 : ℚ) ≤ x)) (by norm_num)) c)
    ring
  · refine le_trans d (le_trans
      (mul_le_mul_of_nonneg_right (mul_le_mul_of_nonneg_right b (by linarith : (0 : ℚ) ≤ x)) (by norm_num))
      (le_of_eq ?_))
    ring

/-- Magnification along one axis: the pixel read is a nearest one. -/
theorem axis_magnify {k x : Nat} (hk : 0 < k) (hk' : k ≤ 2 ^ 21) (hx : x ≤ 2 ^ 21) :
    (fin (scaleCoord k x)).lt (fin (-1 / 2)) = false ∧
    ∃ a : Nat, ((fin (scaleCoord k x)).add (fin (1 / 2))).toU32 = a ∧
      2 * a * k ≤ 2 * x + k ∧ 2 * x ≤ 2 * a * k + k ∧ a ≤ x := by
  have k1 : (1 : ℚ) ≤ k := by exact_mod_cast hk
  have k2 : (k : ℚ) ≤ 2 ^ 21 := by exact_mod_cast hk'
  have x2 : (x : ℚ) ≤ 2 ^ 21 := by exact_mod_cast hx
  have x0 : (0 : ℚ) ≤ x := by positivity
  have kp : (0 : ℚ) < k := by linarith
  obtain ⟨a, b⟩ := scaleCoord_rel (s := k) (x := x) (le_trans (by norm_num) k1) (le_trans k2 (by norm_num))
  have q0 : 0 ≤ scaleCoord k x := le_trans (by positivity) a
  simp only [XF.lt, XF.add, decide_eq_false_iff_not, not_lt]
  refine ⟨by linarith, ?_⟩
  obtain ⟨c, d⟩ := rel32 (x := scaleCoord k x + 1 / 2) (le_trans (by norm_num) (by linarith : (1:ℚ)/2 ≤ _))
  generalize scaleCoord k x = q at *
  generalize rnd32 (q + 1 / 2) = z at *
  have z0 : 0 ≤ z := le_trans (mul_nonneg (by linarith) (by norm_num)) c
  -- everything multiplied by `2 k`
  have A : 2 * x * (1 - 1 / 2 ^ 24) ^ 2 ≤ 2 * k * q := by
    have := mul_le_mul_of_nonneg_left a (by linarith : (0 : ℚ) ≤ 2 * k)
    rw [show 2 * (k : ℚ) * ((x : ℚ) / k * (1 - 1 / 2 ^ 24) ^ 2) = 2 * x * (1 - 1 / 2 ^ 24) ^ 2 by
      field_simp] at this
    exact this
  have B : 2 * k * q ≤ 2 * x * (1 + 1 / 2 ^ 24) ^ 2 := by
    have := mul_le_mul_of_nonneg_left b (by linarith : (0 : ℚ) ≤ 2 * k)
    rw [show 2 * (k : ℚ) * ((x : ℚ) / k * (1 + 1 / 2 ^ 24) ^ 2) = 2 * x * (1 + 1 / 2 ^ 24) ^ 2 by
      field_simp] at this
    exact this
  have C := mul_le_mul_of_nonneg_left c (by linarith : (0 : ℚ) ≤ 2 * k)
  have D := mul_le_mul_of_nonneg_left d (by linarith : (0 : ℚ) ≤ 2 * k)
  have U : 2 * k * z < 2 * x + k + 1 := by
    norm_num at A B C D ⊢
    linarith
  have L : 2 * (x : ℚ) + k - 1 < 2 * k * z := by
    norm_num at A B C D ⊢
    linarith
  have f0 : 0 ≤ ⌊z⌋ := Int.floor_nonneg.2 z0
  obtain ⟨m, hm⟩ := Int.eq_ofNat_of_zero_le f0
  have m1 : (m : ℚ) ≤ z := by have := Int.floor_le z; rw [hm] at this; exact_mod_cast this
  have m2 : z < (m : ℚ) + 1 := by have := Int.lt_floor_add_one z; rw [hm] at this; exact_mod_cast this
  have P : 2 * m * k ≤ 2 * x + k := by
    have : (2 * m * k : ℚ) < 2 * x + k + 1 := by nlinarith
    have : 2 * m * k < 2 * x + k + 1 := by exact_mod_cast this
    omega
  have Q : 2 * x ≤ 2 * m * k + k := by
    have : (2 * x + k : ℚ) < 2 * k * (m + 1) + 1 := by nlinarith
    have : 2 * x + k < 2 * k * (m + 1) + 1 := by exact_mod_cast this
    have : 2 * k * (m + 1) = 2 * m * k + 2 * k := by ring
    omega
  have R : m ≤ x := by
    by_contra hc
    have h1 : (x + 1) * k ≤ m * k := Nat.mul_le_mul_right k (by omega)
    have h2 : (x + 1) * k = x * k + k := by ring
    have h3 : x * 1 ≤ x * k := Nat.mul_le_mul_left x hk
    have h4 : 2 * m * k = 2 * (m * k) := by ring
    omega
  refine ⟨m, ?_, P, Q, R⟩
  show min (truncQ z).toNat 4294967295 = m
  unfold truncQ
  rw [if_pos z0, hm, Int.toNat_natCast]
  omega

/-- C147 (magnification): enlarging an image by whole factors up to 2^21 with nearest-neighbour
interpolation fills every pixel of the result from a pixel of the input nearest to its exact
pre-image; the default pixel is never used.  For every image of at most 2^21 columns and rows. -/
theorem C147_magnify (mx : Nat) (im : Image Px) {k l : Nat} (dflt : Px) (hk : 0 < k) (hl : 0 < l)
    (hk' : k ≤ 2 ^ 21) (hl' : l ≤ 2 ^ 21) (hw : 0 < im.w) (hw' : im.w ≤ 2 ^ 21) (hh' : im.h ≤ 2 ^ 21) :
    ∃ r, warpScale32 mx im k l .nearest dflt = some r ∧ r.w = im.w ∧ r.h = im.h ∧
      ∀ x y : Nat, x < im.w → y < im.h → ∃ a b : Nat, a < im.w ∧ b < im.h ∧ r.px x y = im.px a b ∧
        |(a : ℚ) - (x : ℚ) / k| ≤ 1 / 2 ∧ |(b : ℚ) - (y : ℚ) / l| ≤ 1 / 2 := by
  have near : ∀ {a x k : Nat}, 0 < k → 2 * a * k ≤ 2 * x + k → 2 * x ≤ 2 * a * k + k →
      |(a : ℚ) - (x : ℚ) / k| ≤ 1 / 2 := by
    intro a x k hk h1 h2
    have kp : (0 : ℚ) < k := by exact_mod_cast hk
    have h1 : (2 * a * k : ℚ) ≤ 2 * x + k := by exact_mod_cast h1
    have h2 : (2 * x : ℚ) ≤ 2 * a * k + k := by exact_mod_cast h2
    rw [show (a : ℚ) - (x : ℚ) / k = (a * k - x) / k by field_simp, abs_div, abs_of_pos kp, div_le_iff₀ kp,
      abs_le]
    constructor <;> linarith
  have ax : ∀ {k : Nat}, 0 < k → k ≤ 2 ^ 21 → ∀ x : Nat, ∃ a : Nat, x ≤ 2 ^ 21 →
      (fin (scaleCoord k x)).lt (fin (-1 / 2)) = false ∧
      ((fin (scaleCoord k x)).add (fin (1 / 2))).toU32 = a ∧
      2 * a * k ≤ 2 * x + k ∧ 2 * x ≤ 2 * a * k + k ∧ a ≤ x := by
    intro k hk hk' x
    by_cases hx : x ≤ 2 ^ 21
    · obtain ⟨h1, a, h2⟩ := axis_magnify hk hk' hx
      exact ⟨a, fun _ => ⟨h1, h2⟩⟩
    · exact ⟨0, fun h => absurd h hx⟩
  choose fx hfx using ax hk hk'
  choose fy hfy using ax hl hl'
  obtain ⟨r, r1, r2, r3, r4⟩ := warpIntoWith32_spec mx im
    (mapAffine32 (scaleP32 (k : ℚ) l).invert.transform) .nearest dflt (Image.new im.w im.h fun _ => 0)
    (fun x y => im.px (fx x) (fy y)) hw (by
      intro x y hx hy
      have hx : x < im.w := hx
      have hy : y < im.h := hy
      obtain ⟨a1, a2, -, -, a5⟩ := hfx x (by omega)
      obtain ⟨b1, b2, -, -, b5⟩ := hfy y (by omega)
      rw [map_scale (by omega) (by omega)]
      show nearest32 im _ _ dflt = _
      unfold nearest32
      dsimp only
      rw [a1, b1, a2, b2, if_neg (by simp), if_neg (by omega), unsafeGet_inB (by omega) (by omega)])
  refine ⟨r, r1, r2, r3, fun x y hx hy => ⟨fx x, fy y, ?_⟩⟩
  obtain ⟨-, -, a3, a4, a5⟩ := hfx x (by omega)
  obtain ⟨-, -, b3, b4, b5⟩ := hfy y (by omega)
  exact ⟨by omega, by omega, r4 x y hx hy, near hk a3 a4, near hl b3 b4⟩

/-- C147 (grid points): the pixels at multiples of the factors are exactly the pixels of the
input. -/
theorem C147_grid (mx : Nat) (im : Image Px) {k l : Nat} (dflt : Px) (hk : 0 < k) (hl : 0 < l)
    (hk' : k ≤ 2 ^ 21) (hl' : l ≤ 2 ^ 21) (hw' : im.w ≤ 2 ^ 21) (hh' : im.h ≤ 2 ^ 21) {r : Image Px}
    (e : warpScale32 mx im k l .nearest dflt = some r) (m n : Nat) (hm : k * m < im.w)
    (hn : l * n < im.h) : r.px (k * m) (l * n) = im.px m n := by
  obtain ⟨q, q1, -, -, q4⟩ := C147_magnify mx im dflt hk hl hk' hl' (by omega) hw' hh'
  obtain rfl := Option.some.inj (e.symm.trans q1)
  obtain ⟨a, b, -, -, h, ha, hb⟩ := q4 (k * m) (l * n) hm hn
  have eq : ∀ {a k m : Nat}, 0 < k → |(a : ℚ) - ((k * m : Nat) : ℚ) / k| ≤ 1 / 2 → a = m := by
    intro a k m hk h
    have kp : (k : ℚ) ≠ 0 := by exact_mod_cast (by omega : k ≠ 0)
    rw [Nat.cast_mul, mul_div_cancel_left₀ _ kp, abs_le] at h
    have h1 : (a : ℚ) < m + 1 := by linarith [h.2]
    have h2 : (m : ℚ) < a + 1 := by linarith [h.1]
    have h1 : a < m + 1 := by exact_mod_cast h1
    have h2 : m < a + 1 := by exact_mod_cast h2
    omega
  rw [h, eq hk ha, eq hl hb]

/-- Reduction along one axis. -/
theorem axis_shrink {k x n : Nat} (hk : 0 < k) (hk' : k ≤ 65536) (hn : n ≤ 65536) :
    (fin (scaleCoord (rnd32 (1 / (k : ℚ))) x)).lt (fin (-1 / 2)) = false ∧
    (k * x < n → ((fin (scaleCoord (rnd32 (1 / (k : ℚ))) x)).add (fin (1 / 2))).toU32 = k * x) ∧
    (n ≤ k * x → n ≤ ((fin (scaleCoord (rnd32 (1 / (k : ℚ))) x)).add (fin (1 / 2))).toU32) := by
  have k1 : (1 : ℚ) ≤ k := by exact_mod_cast hk
  have k2 : (k : ℚ) ≤ 65536 := by exact_mod_cast hk'
  have kp : (0 : ℚ) < k := by linarith
  have x0 : (0 : ℚ) ≤ x := by positivity
  have o1 : 1 / (65536 : ℚ) ≤ 1 / k := one_div_le_one_div_of_le kp k2
  have o2 : 1 / (k : ℚ) ≤ 1 := by rw [div_le_one kp]; exact k1
  obtain ⟨a, b⟩ := rel32 (x := 1 / (k : ℚ)) (le_trans (by norm_num) o1)
  generalize rnd32 (1 / (k : ℚ)) = s at *
  have s1 : 1 / 2 ^ 22 ≤ s := by norm_num at *; linarith
  have s2 : s ≤ 2 ^ 22 := by norm_num at *; linarith
  have sp : 0 < s := lt_of_lt_of_le (by norm_num) s1
  obtain ⟨c, d⟩ := scaleCoord_rel (x := x) s1 s2
  generalize scaleCoord s x = q at *
  -- `k s` is within `2^-24` of one
  have ka : (1 - 1 / 2 ^ 24) ≤ k * s := by
    have := mul_le_mul_of_nonneg_left a kp.le
    rwa [show (k : ℚ) * (1 / k * (1 - 1 / 2 ^ 24)) = 1 - 1 / 2 ^ 24 by field_simp] at this
  have kb : k * s ≤ 1 + 1 / 2 ^ 24 := by
    have := mul_le_mul_of_nonneg_left b kp.le
    rwa [show (k : ℚ) * (1 / k * (1 + 1 / 2 ^ 24)) = 1 + 1 / 2 ^ 24 by field_simp] at this
  have kx0 : (0 : ℚ) ≤ k * x := by positivity
  have lo : (k * x : ℚ) * (1 - 1 / 2 ^ 24) ^ 3 ≤ q := by
    refine le_trans ?_ c
    rw [div_mul_eq_mul_div, le_div_iff₀ sp]
    have := mul_le_mul_of_nonneg_left kb (mul_nonneg x0 (by norm_num : (0:ℚ) ≤ (1 - 1 / 2 ^ 24) ^ 3))
    norm_num at this ⊢
    linarith
  have hi : q ≤ (k * x : ℚ) * (1 + 1 / 2 ^ 23) ^ 3 := by
    refine le_trans d ?_
    rw [div_mul_eq_mul_div, div_le_iff₀ sp]
    have := mul_le_mul_of_nonneg_left ka (mul_nonneg x0 (by norm_num : (0:ℚ) ≤ (1 + 1 / 2 ^ 23) ^ 3))
    norm_num at this ⊢
    linarith
  have q0 : 0 ≤ q := le_trans (mul_nonneg kx0 (by norm_num)) lo
  refine ⟨by simp only [XF.lt, decide_eq_false_iff_not, not_lt]; linarith, ?_, ?_⟩
  · intro h
    have hQ : (k * x : ℚ) ≤ 65536 := by exact_mod_cast (by omega : k * x ≤ 65536)
    have := (axis_near (q := q) (d := ((k * x : Nat) : Int)) hn (by
      push_cast
      rw [abs_le]
      norm_num at lo hi ⊢
      constructor <;> linarith)).2.1 (by omega) (by omega)
    rwa [Int.toNat_natCast] at this
  · intro h
    have hQ : (n : ℚ) ≤ k * x := by exact_mod_cast h
    have nQ : (n : ℚ) ≤ 65536 := by exact_mod_cast hn
    refine le_toU32 (le_rnd (by norm_num) (rep_natQ (by omega)) ?_) (by omega)
    have : (n : ℚ) * (1 - 1 / 2 ^ 24) ^ 3 ≤ q := le_trans (mul_le_mul_of_nonneg_right hQ (by norm_num)) lo
    norm_num at this ⊢
    linarith

/-- C147 (reduction): scaling by the single precision reciprocals of whole numbers `k` and `l` with
nearest-neighbour interpolation keeps every `k`-th column and every `l`-th row, and fills the rest
with the default, although neither the reciprocal nor its reciprocal is exact. -/
theorem C147_shrink (mx : Nat) (im : Image Px) {k l : Nat} (dflt : Px) (hk : 0 < k) (hl : 0 < l)
    (hk' : k ≤ 65536) (hl' : l ≤ 65536) (hw : 0 < im.w) (hw' : im.w ≤ 65536) (hh' : im.h ≤ 65536) :
    ∃ r, warpScale32 mx im (rnd32 (1 / (k : ℚ))) (rnd32 (1 / (l : ℚ))) .nearest dflt = some r ∧
      r.w = im.w ∧ r.h = im.h ∧
      ∀ x y : Nat, x < im.w → y < im.h → r.px x y =
        if k * x < im.w ∧ l * y < im.h then im.px (k * x) (l * y) else dflt := by
  refine warpIntoWith32_spec mx im (mapAffine32 (scaleP32 _ _).invert.transform) .nearest dflt
    (Image.new im.w im.h fun _ => 0)
    (fun x y => if k * x < im.w ∧ l * y < im.h then im.px (k * x) (l * y) else dflt) hw ?_
  intro x y hx hy
  have hx : x < im.w := hx
  have hy : y < im.h := hy
  rw [map_scale (by omega) (by omega)]
  show nearest32 im _ _ dflt = _
  obtain ⟨a1, a2, a3⟩ := axis_shrink (x := x) hk hk' hw'
  obtain ⟨b1, b2, b3⟩ := axis_shrink (x := y) hl hl' hh'
  unfold nearest32
  dsimp only
  rw [a1, b1, if_neg (by simp)]
  by_cases c : k * x < im.w ∧ l * y < im.h
  · rw [if_pos c, a2 c.1, b2 c.2, if_neg (by omega), unsafeGet_inB c.1 c.2]
  · rw [if_neg c, if_pos]
    by_cases c3 : k * x < im.w
    · exact .inr (b3 (by omega))
    · exact .inl (a3 (by omega))

theorem rep_div_two {n j : Nat} (h : n ≤ 2 ^ 24) (hj : j ≤ 149) : Rep 24 (-149) ((n : ℚ) / 2 ^ j) := by
  refine ⟨n, -(j : Int), by rw [abs_of_nonneg (by omega)]; exact_mod_cast h, by omega, ?_⟩
  rw [zpow_neg, zpow_natCast, Int.cast_natCast]
  rfl

theorem rnd32_div_two {n j : Nat} (h : n ≤ 2 ^ 24) (hj : j ≤ 149) :
    rnd32 ((n : ℚ) / 2 ^ j) = (n : ℚ) / 2 ^ j := rnd32_rep (rep_div_two h hj)

/-- Scaling by a power of two computes the exact pre-image. -/
theorem scaleCoord_pow {j x : Nat} (hj : j ≤ 149) (hx : x ≤ 2 ^ 24) :
    scaleCoord ((2 ^ j : Nat) : ℚ) x = (x : ℚ) / 2 ^ j := by
  unfold scaleCoord
  have h1 : rnd32 (1 / ((2 ^ j : Nat) : ℚ)) = 1 / 2 ^ j := by
    have := rnd32_div_two (n := 1) (by norm_num) hj
    push_cast at this ⊢
    exact this
  rw [h1, one_div, inv_mul_eq_div, rnd32_div_two hx hj]

theorem clamp_div {mx n j : Nat} (hm : mx ≤ 65535) (h : n ≤ mx * 2 ^ j) :
    clamp mx (fin ((n : ℚ) / 2 ^ j)) = n / 2 ^ j := by
  have kp : 0 < 2 ^ j := by positivity
  have kq : (0 : ℚ) < 2 ^ j := by positivity
  have fl : ⌊(n : ℚ) / 2 ^ j⌋ = ((n / 2 ^ j : Nat) : Int) := by
    rw [Int.floor_eq_iff]
    have h1 := Nat.div_mul_le_self n (2 ^ j)
    have h2 := Nat.lt_div_mul_add (a := n) kp
    have h1 : ((n / 2 ^ j : Nat) : ℚ) * 2 ^ j ≤ n := by exact_mod_cast h1
    have h2 : (n : ℚ) < ((n / 2 ^ j : Nat) : ℚ) * 2 ^ j + 2 ^ j := by exact_mod_cast h2
    rw [Int.cast_natCast, le_div_iff₀ kq, div_lt_iff₀ kq]
    constructor <;> linarith
  have le : n / 2 ^ j ≤ mx := Nat.div_le_of_le_mul (by rw [mul_comm]; exact h)
  unfold clamp
  rw [ofNat_int (by omega)]
  simp only [XF.lt, decide_eq_true_eq]
  by_cases h1 : (n : ℚ) / 2 ^ j < mx
  · rw [if_pos h1]
    by_cases h2 : 0 < (n : ℚ) / 2 ^ j
    · rw [if_pos h2]
      show min (truncQ _).toNat 4294967295 = _
      unfold truncQ
      rw [if_pos h2.le, fl, Int.toNat_natCast]
      omega
    · rw [if_neg h2]
      have : (n : ℚ) ≤ 0 := by
        by_contra hc
        exact h2 (div_pos (by linarith) kq)
      have : n ≤ 0 := by exact_mod_cast this
      rw [Nat.le_zero.1 this, Nat.zero_div]
  · rw [if_neg h1]
    rw [not_lt, le_div_iff₀ kq] at h1
    have h1 : mx * 2 ^ j ≤ n := by exact_mod_cast h1
    exact le_antisymm ((Nat.le_div_iff_mul_le kp).2 h1) le

/-- Blending two channel values with a weight that is a multiple of `2^-j` is exact. -/
theorem mix32_pow {mx u v f j : Nat} (hm : mx ≤ 65535) (hu : u ≤ mx) (hv : v ≤ mx) (hj : j ≤ 8)
    (hf : f ≤ 2 ^ j) :
    mix32 mx u v (fin ((f : ℚ) / 2 ^ j)) = ((2 ^ j - f) * u + f * v) / 2 ^ j ∧
      ((2 ^ j - f) * u + f * v) / 2 ^ j ≤ mx := by
  have hK : 2 ^ j ≤ 2 ^ 8 := Nat.pow_le_pow_right (by norm_num) hj
  have kq : (2 : ℚ) ^ j ≠ 0 := by positivity
  have kp : 0 < 2 ^ j := by positivity
  have b1 : (2 ^ j - f) * u ≤ (2 ^ j - f) * mx := Nat.mul_le_mul_left _ hu
  have b2 : f * v ≤ f * mx := Nat.mul_le_mul_left _ hv
  have b3 : (2 ^ j - f) * mx + f * mx = mx * 2 ^ j := by
    rw [← Nat.add_mul, Nat.sub_add_cancel hf, Nat.mul_comm]
  have b4 : mx * 2 ^ j ≤ 65535 * 2 ^ 8 := Nat.mul_le_mul hm hK
  have cs : ((2 ^ j - f : Nat) : ℚ) = 2 ^ j - f := by rw [Nat.cast_sub hf]; push_cast; rfl
  unfold mix32
  rw [ofNat_int (by omega), ofNat_int (by omega)]
  simp only [XF.sub, XF.neg, XF.add, XF.mul]
  rw [show (1 : ℚ) + -((f : ℚ) / 2 ^ j) = ((2 ^ j - f : Nat) : ℚ) / 2 ^ j by rw [cs]; field_simp; ring,
    rnd32_div_two (by omega) (by omega),
    show ((2 ^ j - f : Nat) : ℚ) / 2 ^ j * (u : ℚ) = (((2 ^ j - f) * u : Nat) : ℚ) / 2 ^ j by
      push_cast; ring,
    show (f : ℚ) / 2 ^ j * (v : ℚ) = ((f * v : Nat) : ℚ) / 2 ^ j by push_cast; ring,
    rnd32_div_two (by omega) (by omega), rnd32_div_two (by omega) (by omega), ← add_div, ← Nat.cast_add,
    rnd32_div_two (by omega) (by omega)]
  refine ⟨clamp_div hm (by omega), Nat.div_le_of_le_mul (by rw [Nat.mul_comm (2 ^ j) mx]; omega)⟩

/-- Columns or rows read by bilinear interpolation at a multiple of `2^-j`. -/
theorem axis_bilinear_pow {x j n : Nat} (hj : j ≤ 8) (hx : x ≤ 65536) (hn : n ≤ 65536) :
    (((fin ((x : ℚ) / 2 ^ j)).floor.lt (fin 0) = false ∧
      (ofNat n).le ((fin ((x : ℚ) / 2 ^ j)).floor.add (fin 1)) = false) ↔ x / 2 ^ j + 1 < n) ∧
    (fin ((x : ℚ) / 2 ^ j)).floor.toU32 = x / 2 ^ j ∧
    ((fin ((x : ℚ) / 2 ^ j)).floor.add (fin 1)).toU32 = x / 2 ^ j + 1 ∧
    (fin ((x : ℚ) / 2 ^ j)).sub (fin ((x : ℚ) / 2 ^ j)).floor = fin (((x % 2 ^ j : Nat) : ℚ) / 2 ^ j) := by
  have kp : 0 < 2 ^ j := by positivity
  have kq : (0 : ℚ) < 2 ^ j := by positivity
  have dm := Nat.div_add_mod x (2 ^ j)
  have ml := Nat.mod_lt x kp
  have dl : x / 2 ^ j ≤ x := Nat.div_le_self x _
  have mq : (2 : ℚ) ^ j * ((x / 2 ^ j : Nat) : ℚ) + ((x % 2 ^ j : Nat) : ℚ) = x := by exact_mod_cast dm
  have ml' : ((x % 2 ^ j : Nat) : ℚ) < 2 ^ j := by exact_mod_cast ml
  have m0 : (0 : ℚ) ≤ ((x % 2 ^ j : Nat) : ℚ) := by positivity
  have fl : ⌊(x : ℚ) / 2 ^ j⌋ = ((x / 2 ^ j : Nat) : Int) := by
    rw [Int.floor_eq_iff, Int.cast_natCast, le_div_iff₀ kq, div_lt_iff₀ kq]
    constructor <;> linarith
  have F : (fin ((x : ℚ) / 2 ^ j)).floor = fin ((x / 2 ^ j : Nat) : ℚ) := by
    simp only [XF.floor]; rw [fl, Int.cast_natCast]
  rw [F]
  generalize x / 2 ^ j = d at *
  generalize hfr : x % 2 ^ j = f at *
  have A : (fin (d : ℚ)).add (fin 1) = fin ((d + 1 : Nat) : ℚ) := by
    simp only [XF.add]
    rw [show (d : ℚ) + 1 = ((d + 1 : Nat) : ℚ) by push_cast; ring, rnd32_natQ (by omega)]
  rw [A, toU32_nat (by omega), toU32_nat (by omega), ofNat_int (by omega)]
  refine ⟨?_, rfl, rfl, ?_⟩
  · simp only [XF.lt, XF.le, decide_eq_false_iff_not, not_lt, not_le, Nat.cast_lt]
    exact ⟨fun h => h.2, fun h => ⟨by positivity, h⟩⟩
  · simp only [XF.sub, XF.neg, XF.add]
    rw [show (x : ℚ) / 2 ^ j + -(d : ℚ) = (f : ℚ) / 2 ^ j by rw [← mq]; field_simp; ring,
      rnd32_div_two (by omega) (by omega)]

/-- C147 (bilinear, powers of two): enlarging `2^i` times across and `2^j` times down, `i, j ≤ 8`, with
bilinear interpolation, is the exact two-step blend of the four neighbours with truncation
after each step; the default is used from the last column and the last row of the input on. -/
theorem C147_bilinear_partial (mx : Nat) (im : Image Px) {i j : Nat} (dflt : Px) (hi : i ≤ 8) (hj : j ≤ 8)
    (hw : 0 < im.w) (hw' : im.w ≤ 65536) (hh' : im.h ≤ 65536) (hm : mx ≤ 65535)
    (hpx : ∀ a b c, a < im.w → b < im.h → im.px a b c ≤ mx) :
    ∃ r, warpScale32 mx im ((2 ^ i : Nat) : ℚ) ((2 ^ j : Nat) : ℚ) .bilinear dflt = some r ∧
      r.w = im.w ∧ r.h = im.h ∧ ∀ x y : Nat, x < im.w → y < im.h →
        let a := x / 2 ^ i; let f := x % 2 ^ i; let b := y / 2 ^ j; let g := y % 2 ^ j
        r.px x y = if a + 1 < im.w ∧ b + 1 < im.h then
          fun c => ((2 ^ j - g) * (((2 ^ i - f) * im.px a b c + f * im.px (a + 1) b c) / 2 ^ i) +
            g * (((2 ^ i - f) * im.px a (b + 1) c + f * im.px (a + 1) (b + 1) c) / 2 ^ i)) / 2 ^ j
        else dflt := by
  refine warpIntoWith32_spec mx im (mapAffine32 (scaleP32 _ _).invert.transform) .bilinear dflt
    (Image.new im.w im.h fun _ => 0)
    (fun x y => if x / 2 ^ i + 1 < im.w ∧ y / 2 ^ j + 1 < im.h then
          fun c => ((2 ^ j - y % 2 ^ j) * (((2 ^ i - x % 2 ^ i) * im.px (x / 2 ^ i) (y / 2 ^ j) c +
            x % 2 ^ i * im.px (x / 2 ^ i + 1) (y / 2 ^ j) c) / 2 ^ i) +
            y % 2 ^ j * (((2 ^ i - x % 2 ^ i) * im.px (x / 2 ^ i) (y / 2 ^ j + 1) c +
            x % 2 ^ i * im.px (x / 2 ^ i + 1) (y / 2 ^ j + 1) c) / 2 ^ i)) / 2 ^ j
        else dflt) hw ?_
  intro x y hx hy
  have hx : x < im.w := hx
  have hy : y < im.h := hy
  rw [map_scale (by omega) (by omega), scaleCoord_pow (by omega) (by omega),
    scaleCoord_pow (by omega) (by omega)]
  show bilinear32 mx im _ _ dflt = _
  unfold bilinear32
  dsimp only
  obtain ⟨a1, a2, a3, a4⟩ := axis_bilinear_pow (x := x) hi (by omega) hw'
  obtain ⟨b1, b2, b3, b4⟩ := axis_bilinear_pow (x := y) hj (by omega) hh'
  have hc := or4_iff a1 b1
  have fl : x % 2 ^ i ≤ 2 ^ i := (Nat.mod_lt x (by positivity)).le
  have gl : y % 2 ^ j ≤ 2 ^ j := (Nat.mod_lt y (by positivity)).le
  rw [a2, a3, a4, b2, b3, b4]
  generalize x / 2 ^ i = a at *
  generalize x % 2 ^ i = f at *
  generalize y / 2 ^ j = b at *
  generalize y % 2 ^ j = g at *
  by_cases c : a + 1 < im.w ∧ b + 1 < im.h
  · rw [if_neg (fun h => hc.1 h c), if_pos c, unsafeGet_inB (by omega) (by omega), Option.bind_some,
      unsafeGet_inB (by omega) (by omega), Option.bind_some, unsafeGet_inB (by omega) (by omega),
      Option.bind_some, unsafeGet_inB (by omega) (by omega), Option.bind_some]
    congr 1
    funext ch
    unfold blendBilinear32
    dsimp only
    obtain ⟨t1, t2⟩ := mix32_pow hm (hpx a b ch (by omega) (by omega))
      (hpx (a + 1) b ch (by omega) (by omega)) hi fl
    obtain ⟨u1, u2⟩ := mix32_pow hm (hpx a (b + 1) ch (by omega) (by omega))
      (hpx (a + 1) (b + 1) ch (by omega) (by omega)) hi fl
    rw [t1, u1, (mix32_pow hm t2 u2 hj gl).1]
  · rw [if_pos (hc.2 c), if_neg c]

theorem clamp_le (mx : Nat) (hm : mx ≤ 65535) (x : XF) : clamp mx x ≤ mx := by
  unfold clamp
  rw [ofNat_int (by omega)]
  rcases x with _ | s | q
  · simp [XF.lt]
  · cases s <;> simp [XF.lt]
  · simp only [XF.lt, decide_eq_true_eq]
    by_cases h1 : q < mx
    · rw [if_pos h1]
      by_cases h2 : 0 < q
      · rw [if_pos h2]
        have := toU32_lt h2.le h1
        omega
      · rw [if_neg h2]; omega
    · rw [if_neg h1]

/-- C147 (negation): with bilinear interpolation the pixels at multiples of the factor are not
always the pixels of the input: enlarged 41 times across, a white pixel to the right of a black one
comes out as 254, for every image wide enough that starts with this pair. -/
theorem C147_negation (im : Image Px) (dflt : Px) (hw : 42 ≤ im.w) (hw' : im.w ≤ 65536) (hh : 2 ≤ im.h)
    (hh' : im.h ≤ 65536) (p0 : ∀ c, im.px 0 0 c = 0) (p1 : ∀ c, im.px 1 0 c = 255) :
    ∃ r, warpScale32 255 im 41 1 .bilinear dflt = some r ∧
      ∀ c, r.px 41 0 c = 254 ∧ im.px 1 0 c = 255 := by
  have e1 : scaleCoord 41 41 = 16777215 / 16777216 := by decide +kernel
  have e2 : scaleCoord 1 0 = 0 := by decide +kernel
  have f1 : ⌊(16777215 / 16777216 : ℚ)⌋ = 0 := by decide +kernel
  have val := fun p : Nat × Nat => C128_bilinear_safe 255 im
    (mapAffine32 (scaleP32 41 1).invert.transform (ofNat p.1) (ofNat p.2)).1
    (mapAffine32 (scaleP32 41 1).invert.transform (ofNat p.1) (ofNat p.2)).2 dflt (by omega) (by omega)
  choose v hv using val
  obtain ⟨r, r1, -, -, r4⟩ := warpIntoWith32_spec 255 im (mapAffine32 (scaleP32 41 1).invert.transform)
    .bilinear dflt (Image.new im.w im.h fun _ => 0) (fun x y => v (x, y)) (by show 0 < im.w; omega)
    (fun x y _ _ => (hv (x, y)).1)
  refine ⟨r, r1, fun c => ⟨?_, p1 c⟩⟩
  rw [r4 41 0 (by show 41 < im.w; omega) (by show 0 < im.h; omega)]
  have h := (hv (41, 0)).1
  rw [map_scale (by norm_num) (by norm_num), e1, e2] at h
  unfold bilinear32 at h
  simp only [XF.floor, XF.sub, XF.add, XF.neg, f1, Int.floor_zero, Int.cast_zero, neg_zero, add_zero,
    zero_add, rnd32_zeroQ, rnd32_oneQ] at h
  rw [ofNat_int (by omega), ofNat_int (by omega),
    show rnd32 (16777215 / 16777216 : ℚ) = 16777215 / 16777216 by decide +kernel,
    show (fin (0 : ℚ)).toU32 = 0 by decide +kernel, show (fin (1 : ℚ)).toU32 = 1 by decide +kernel] at h
  have w1 : ¬ ((im.w : ℚ) ≤ 1) := by
    rw [not_le]; exact_mod_cast (by omega : 1 < im.w)
  have w2 : ¬ ((im.h : ℚ) ≤ 1) := by
    rw [not_le]; exact_mod_cast (by omega : 1 < im.h)
  rw [if_neg (by simp [XF.lt, XF.le, w1, w2]), unsafeGet_inB (by omega) (by omega), Option.bind_some,
      unsafeGet_inB (by omega) (by omega), Option.bind_some, unsafeGet_inB (by omega) (by omega),
      Option.bind_some, unsafeGet_inB (by omega) (by omega), Option.bind_some] at h
  rw [← Option.some.inj h]
  unfold blendBilinear32
  dsimp only
  rw [p0, p1, mix32_zero _ _ (by norm_num)]
  · decide +kernel
  · exact clamp_le 255 (by norm_num) _
  · exact clamp_le 255 (by norm_num) _

/-- Enlarging three times across. -/
example : (warpScale32 255 ⟨8, 1, fun x _ _ => 10 * x⟩ 3 1 .nearest (fun _ => 99)).map
    (fun r => (List.range 8).map fun x => r.px x 0 0) = some [0, 0, 10, 10, 10, 20, 20, 20] := by
  decide +kernel

/-- Every third column kept. -/
example : (warpScale32 255 ⟨8, 1, fun x _ _ => 10 * x⟩ (rnd32 (1 / 3)) 1 .nearest (fun _ => 99)).map
    (fun r => (List.range 8).map fun x => r.px x 0 0) = some [0, 30, 60, 99, 99, 99, 99, 99] := by
  decide +kernel

/-- Enlarging twice across and down with bilinear interpolation. -/
example : (warpScale32 255 ⟨4, 4, fun x y _ => 10 * x + 100 * y * y⟩ 2 2 .bilinear (fun _ => 99)).map
    (fun r => (List.range 4).map fun x => r.px x 1 0) = some [50, 55, 60, 65] := by
  decide +kernel

end Verif.Float
