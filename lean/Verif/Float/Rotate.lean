import Verif.Float.WarpShift
import Verif.Float.F32
import Verif.Compose.Props
import Mathlib.Analysis.SpecialFunctions.Trigonometric.Basic
/-
Property C137: rotating an image in `f32`: `rotate` and `rotate_about_center`
(src/geometric_transformations.rs:270-318).  `f32::sin_cos` is a parameter.  Overflow is not
modelled: all theorems assume that the centre is within 65536 of the origin.
-/
namespace Verif.Float
open Verif.Definitions Verif.Geom XF

/-- Entry of `mul3x3` in `f32`: `a * p + b * q + c * r` (src/geometric_transformations.rs:726-734). -/
def dot32 (a p b q c r : ℚ) : ℚ :=
  rnd32 (rnd32 (rnd32 (a * p) + rnd32 (b * q)) + rnd32 (c * r))

/-- `mul3x3` (src/geometric_transformations.rs:722-736) in `f32`. -/
def mul3x3F (a b : M33 ℚ) : M33 ℚ :=
  ⟨dot32 a.m00 b.m00 a.m01 b.m10 a.m02 b.m20, dot32 a.m00 b.m01 a.m01 b.m11 a.m02 b.m21,
   dot32 a.m00 b.m02 a.m01 b.m12 a.m02 b.m22,
   dot32 a.m10 b.m00 a.m11 b.m10 a.m12 b.m20, dot32 a.m10 b.m01 a.m11 b.m11 a.m12 b.m21,
   dot32 a.m10 b.m02 a.m11 b.m12 a.m12 b.m22,
   dot32 a.m20 b.m00 a.m21 b.m10 a.m22 b.m20, dot32 a.m20 b.m01 a.m21 b.m11 a.m22 b.m21,
   dot32 a.m20 b.m02 a.m21 b.m12 a.m22 b.m22⟩

/-- `impl Mul for Projection` (src/geometric_transformations.rs:222-244) in `f32`. -/
def projMul32 (p q : Projection ℚ) : Projection ℚ :=
  ⟨mul3x3F p.transform q.transform, mul3x3F q.inverse p.inverse, mulClass p.cls q.cls⟩

/-- `map_affine` (src/geometric_transformations.rs:208-211) in `f32`. -/
def mapAffine32 (t : M33 ℚ) (x y : XF) : XF × XF :=
  ((((fin t.m00).mul x).add ((fin t.m01).mul y)).add (fin t.m02),
   (((fin t.m10).mul x).add ((fin t.m11).mul y)).add (fin t.m12))

/-- `map_translation` (src/geometric_transformations.rs:213-219) in `f32`. -/
def mapTranslation32 (t : M33 ℚ) (x y : XF) : XF × XF := (x.add (fin t.m02), y.add (fin t.m12))

/-- `warp` with `warp_into` (src/geometric_transformations.rs:517-568) in `f32` for a projection of
class translation or affine; the projective class, whose mapping divides, is not modelled in
`f32` and gives `none`. -/
def warp32 (mx : Nat) (im : Image Px) (p : Projection ℚ) (i : Interpolation) (dflt : Px) :
    Option (Image Px) :=
  match p.invert.cls with
  | .translation => warpWith32 mx im (mapTranslation32 p.invert.transform) i dflt
  | .affine => warpWith32 mx im (mapAffine32 p.invert.transform) i dflt
  | .projection => none

/-- `rotate` (src/geometric_transformations.rs:299-316), given `(s, c) = theta.sin_cos()`. -/
def rotate32 (mx : Nat) (im : Image Px) (cx cy s c : ℚ) (i : Interpolation) (dflt : Px) :
    Option (Image Px) :=
  warp32 mx im (projMul32 (projMul32 (translateP cx cy) (rotateP s c)) (translateP (-cx) (-cy))) i dflt

/-- `rotate_about_center` (src/geometric_transformations.rs:278-297). -/
def rotateAboutCenter32 (mx : Nat) (im : Image Px) (s c : ℚ) (i : Interpolation) (dflt : Px) :
    Option (Image Px) :=
  rotate32 mx im (rnd32 (rnd32 (im.w : ℚ) / 2)) (rnd32 (rnd32 (im.h : ℚ) / 2)) s c i dflt

/-- The coordinate computed along one axis. -/
def rotCoord (a b cx cy o x y : ℚ) : ℚ :=
  rnd32 (rnd32 (rnd32 (a * x) + rnd32 (b * y)) +
    rnd32 (rnd32 (rnd32 (a * -cx) + rnd32 (b * -cy)) + o))

theorem rnd_idem (x : ℚ) : rnd32 (rnd32 x) = rnd32 x := rnd_of_rep (by norm_num) (rep_rnd x)

theorem rep_neg {x : ℚ} (h : Rep 24 (-149) x) : Rep 24 (-149) (-x) := h.neg

theorem rnd32_rep {x : ℚ} (h : Rep 24 (-149) x) : rnd32 x = x := rnd_of_rep (by norm_num) h

/-- What `rotate` does, for any interpolation. -/
theorem rotate32_eq (mx : Nat) (im : Image Px) {cx cy s c : ℚ} (i : Interpolation) (dflt : Px)
    (hcx : Rep 24 (-149) cx) (hcy : Rep 24 (-149) cy) (hs : Rep 24 (-149) s) (hc : Rep 24 (-149) c) :
    ∃ t : M33 ℚ, rotate32 mx im cx cy s c i dflt = warpWith32 mx im (mapAffine32 t) i dflt ∧
      ∀ x y : ℚ, mapAffine32 t (fin x) (fin y) =
        (fin (rotCoord c s cx cy cx x y), fin (rotCoord (-s) c cx cy cy x y)) := by
  refine ⟨_, rfl, ?_⟩
  intro x y
  simp only [mapAffine32, Projection.invert, projMul32, translateP, rotateP, mul3x3F, dot32, XF.mul,
    XF.add, rotCoord, mul_zero, zero_mul, rnd32_zeroQ, rnd32_oneQ, mul_one, one_mul, add_zero, zero_add, neg_neg,
    rnd_idem, rnd32_rep hcx, rnd32_rep hcy, rnd32_rep hs, rnd32_rep hc, rnd32_rep (rep_neg hs)]

theorem rnd32_err {z B : ℚ} (h : |z| ≤ B) : |rnd32 z - z| ≤ B / 2 ^ 24 + 1 / 2 ^ 150 := by
  have := rnd_error_mixed (p := 24) (emin := -149) z
  refine this.trans ?_
  have h2 : |z| * 2 ^ (-((24 : Nat) : Int)) ≤ B / 2 ^ 24 := by
    rw [zpow_neg, div_eq_mul_inv]
    exact mul_le_mul_of_nonneg_right h (by positivity)
  have h3 : (2 : ℚ) ^ ((-149 : Int) - 1) = 1 / 2 ^ 150 := by norm_num
  rw [h3]
  linarith

theorem rotCoord_error {a b cx cy o x y N : ℚ} (hN : 1 ≤ N) (ha : |a| ≤ 1 + 1 / 2 ^ 22)
    (hb : |b| ≤ 1 + 1 / 2 ^ 22) (hcx : |cx| ≤ N) (hcy : |cy| ≤ N) (ho : |o| ≤ N) (hx : |x| ≤ N)
    (hy : |y| ≤ N) :
    |rotCoord a b cx cy o x y - (a * (x - cx) + b * (y - cy) + o)| ≤ 17 * N / 2 ^ 24 := by
  have mulb : ∀ p q : ℚ, |p| ≤ 1 + 1 / 2 ^ 22 → |q| ≤ N → |p * q| ≤ (1 + 1 / 2 ^ 22) * N := by
    intro p q hp hq
    rw [abs_mul]
    exact mul_le_mul hp hq (abs_nonneg _) (by norm_num)
  unfold rotCoord
  have a1 := mulb a x ha hx
  have a2 := mulb b y hb hy
  have a3 := mulb a (-cx) ha (by rwa [abs_neg])
  have a4 := mulb b (-cy) hb (by rwa [abs_neg])
  have e : a * (x - cx) + b * (y - cy) + o = a * x + b * y + (a * -cx + b * -cy + o) := by ring
  rw [e]
  generalize a * x = p1 at *
  generalize b * y = p2 at *
  generalize a * -cx = p3 at *
  generalize b * -cy = p4 at *
  have b1 := rnd32_err a1
  have b2 := rnd32_err a2
  have b3 := rnd32_err a3
  have b4 := rnd32_err a4
  generalize rnd32 p1 = r1 at *
  generalize rnd32 p2 = r2 at *
  generalize rnd32 p3 = r3 at *
  generalize rnd32 p4 = r4 at *
  rw [abs_le] at a1 a2 a3 a4 b1 b2 b3 b4 ho
  have c1 := rnd32_err (z := r1 + r2) (B := (2 + 1 / 2 ^ 20) * N) (by rw [abs_le]; constructor <;> linarith)
  have c2 := rnd32_err (z := r3 + r4) (B := (2 + 1 / 2 ^ 20) * N) (by rw [abs_le]; constructor <;> linarith)
  generalize rnd32 (r1 + r2) = s1 at *
  generalize rnd32 (r3 + r4) = s2 at *
  rw [abs_le] at c1 c2
  have d1 := rnd32_err (z := s2 + o) (B := (3 + 1 / 2 ^ 19) * N) (by rw [abs_le]; constructor <;> linarith)
  generalize rnd32 (s2 + o) = m at *
  rw [abs_le] at d1
  have f1 := rnd32_err (z := s1 + m) (B := (5 + 1 / 2 ^ 18) * N) (by rw [abs_le]; constructor <;> linarith)
  generalize rnd32 (s1 + m) = r at *
  rw [abs_le] at f1 ⊢
  constructor <;> linarith

/-- C137: for every angle and centre, the position that `rotate` reads for an output pixel is the
exact pre-image under the rotation up to `N / 2^18`, for coordinates up to `N`, provided that the
sine and cosine used are within `2^-22` of the exact ones. -/
theorem C137_position (mx : Nat) (im : Image Px) {cx cy s c N : ℚ} (i : Interpolation) (dflt : Px)
    (θ : ℝ) (hcx : Rep 24 (-149) cx) (hcy : Rep 24 (-149) cy) (hs : Rep 24 (-149) s)
    (hc : Rep 24 (-149) c) (hN : 1 ≤ N) (hx : |cx| ≤ N) (hy : |cy| ≤ N)
    (es : |(s : ℝ) - Real.sin θ| ≤ 1 / 2 ^ 22) (ec : |(c : ℝ) - Real.cos θ| ≤ 1 / 2 ^ 22) :
    ∃ u v : Nat → Nat → ℚ,
      (∀ x y : Nat, (x : ℚ) ≤ N → (y : ℚ) ≤ N →
        |(u x y : ℝ) - (Real.cos θ * (x - cx) + Real.sin θ * (y - cy) + cx)| ≤ N / 2 ^ 18 ∧
        |(v x y : ℝ) - (-Real.sin θ * (x - cx) + Real.cos θ * (y - cy) + cy)| ≤ N / 2 ^ 18) ∧
      (∀ (val : Nat → Nat → Px), 0 < im.w → im.w ≤ 2 ^ 24 → im.h ≤ 2 ^ 24 →
        (∀ x y, x < im.w → y < im.h → interp32 mx i im dflt (fin (u x y)) (fin (v x y)) = some (val x y)) →
        ∃ r, rotate32 mx im cx cy s c i dflt = some r ∧ r.w = im.w ∧ r.h = im.h ∧
          ∀ x y : Nat, x < im.w → y < im.h → r.px x y = val x y) := by
  refine ⟨fun x y => rotCoord c s cx cy cx x y, fun x y => rotCoord (-s) c cx cy cy x y, ?_, ?_⟩
  · intro x y hxN hyN
    dsimp only
    have s1 := Real.neg_one_le_sin θ
    have s2 := Real.sin_le_one θ
    have c1 := Real.neg_one_le_cos θ
    have c2 := Real.cos_le_one θ
    rw [abs_le] at es ec
    have hsQ : |s| ≤ 1 + 1 / 2 ^ 22 := by
      have : ((|s| : ℚ) : ℝ) ≤ ((1 + 1 / 2 ^ 22 : ℚ) : ℝ) := by
        push_cast; rw [abs_le]; constructor <;> linarith
      exact Rat.cast_le.1 this
    have hcQ : |c| ≤ 1 + 1 / 2 ^ 22 := by
      have : ((|c| : ℚ) : ℝ) ≤ ((1 + 1 / 2 ^ 22 : ℚ) : ℝ) := by
        push_cast; rw [abs_le]; constructor <;> linarith
      exact Rat.cast_le.1 this
    have hxa : |(x : ℚ)| ≤ N := by rwa [abs_of_nonneg (by positivity)]
    have hya : |(y : ℚ)| ≤ N := by rwa [abs_of_nonneg (by positivity)]
    have E1 := rotCoord_error hN hcQ hsQ hx hy hx hxa hya
    have E2 := rotCoord_error hN (by rwa [abs_neg] : |(-s)| ≤ _) hcQ hx hy hy hxa hya
    generalize rotCoord c s cx cy cx x y = q1 at *
    generalize rotCoord (-s) c cx cy cy x y = q2 at *
    have E1' : |(q1 : ℝ) - (c * (x - cx) + s * (y - cy) + cx)| ≤ 17 * N / 2 ^ 24 := by exact_mod_cast E1
    have E2' : |(q2 : ℝ) - (-s * (x - cx) + c * (y - cy) + cy)| ≤ 17 * N / 2 ^ 24 := by exact_mod_cast E2
    have hNr : (1 : ℝ) ≤ N := by exact_mod_cast hN
    have dx : |(x : ℝ) - cx| ≤ 2 * N - 0 := by
      have h1 : |(x : ℚ) - cx| ≤ 2 * N := by
        rw [abs_le] at *
        constructor <;> linarith
      rw [sub_zero]
      exact_mod_cast h1
    have dy : |(y : ℝ) - cy| ≤ 2 * N - 0 := by
      have h1 : |(y : ℚ) - cy| ≤ 2 * N := by
        rw [abs_le] at *
        constructor <;> linarith
      rw [sub_zero]
      exact_mod_cast h1
    rw [sub_zero] at dx dy
    have mulb : ∀ p q : ℝ, -(1 / 2 ^ 22) ≤ p ∧ p ≤ 1 / 2 ^ 22 → |q| ≤ 2 * N → |p * q| ≤ 1 / 2 ^ 22 * (2 * N) := by
      intro p q hp hq
      rw [abs_mul]
      exact mul_le_mul (abs_le.2 hp) hq (abs_nonneg _) (by norm_num)
    have p1 := mulb _ _ ec dx
    have p2 := mulb _ _ es dy
    have p3 := mulb _ _ es dx
    have p4 := mulb _ _ ec dy
    rw [abs_le] at p1 p2 p3 p4 E1' E2'
    constructor
    all_goals
      rw [abs_le]
      constructor <;> linarith
  · intro val hw hw' hh' hv
    obtain ⟨t, e, ht⟩ := rotate32_eq mx im i dflt hcx hcy hs hc
    rw [e]
    refine warpIntoWith32_spec mx im (mapAffine32 t) i dflt (Image.new im.w im.h fun _ => 0) val hw ?_
    intro x y hx hy
    have hx : x < im.w := hx
    have hy : y < im.h := hy
    rw [ofNat_int (by omega), ofNat_int (by omega), ht]
    exact hv x y hx hy

/-- Nearest-neighbour interpolation within 7/16 of a whole number, along one axis. -/
theorem axis_near {q : ℚ} {d : Int} {n : Nat} (hn : n ≤ 65536) (h : |q - d| ≤ 7 / 16) :
    (fin q).lt (fin (-1 / 2)) = decide (d < 0) ∧
    (0 ≤ d → d < n → ((fin q).add (fin (1 / 2))).toU32 = d.toNat) ∧
    (n ≤ d → n ≤ ((fin q).add (fin (1 / 2))).toU32) := by
  simp only [XF.lt, XF.add]
  rw [abs_le] at h
  refine ⟨?_, ?_, ?_⟩
  · congr 1
    rw [eq_iff_iff]
    constructor
    · intro hc
      have : (d : ℚ) < ((0 : Int) : ℚ) := by push_cast; linarith
      exact_mod_cast this
    · intro hc
      have : (d : ℚ) ≤ ((-1 : Int) : ℚ) := by exact_mod_cast (by omega : d ≤ -1)
      push_cast at this
      linarith
  · intro h0 h1
    obtain ⟨k, rfl⟩ := Int.eq_ofNat_of_zero_le h0
    rw [Int.toNat_natCast]
    rw [Int.cast_natCast] at h
    have l : (k : ℚ) + 1 / 16 ≤ rnd32 (q + 1 / 2) := by
      refine le_rnd (by norm_num) ⟨16 * k + 1, -4, ?_, by norm_num, ?_⟩ (by linarith)
      · rw [abs_of_nonneg (by omega)]; norm_num; omega
      · push_cast; ring
    have u : rnd32 (q + 1 / 2) ≤ (k : ℚ) + 15 / 16 := by
      refine rnd_le (by norm_num) ⟨16 * k + 15, -4, ?_, by norm_num, ?_⟩ (by linarith)
      · rw [abs_of_nonneg (by omega)]; norm_num; omega
      · push_cast; ring
    generalize rnd32 (q + 1 / 2) = z at *
    have kp : (0 : ℚ) ≤ k := by positivity
    have t : (truncQ z).toNat = k := by
      unfold truncQ
      rw [if_pos (by linarith)]
      have : ⌊z⌋ = k := by
        rw [Int.floor_eq_iff]
        constructor <;> push_cast <;> linarith
      rw [this, Int.toNat_natCast]
    show min _ _ = k
    rw [t]
    omega
  · intro hc
    have : (n : ℚ) ≤ (d : ℚ) := by exact_mod_cast hc
    exact le_toU32 (le_rnd (by norm_num) (rep_natQ (by omega)) (by linarith)) (by omega)

theorem nearest_near {im : Image Px} (hw : im.w ≤ 65536) (hh : im.h ≤ 65536) {p q : ℚ} {d e : Int}
    (hp : |p - d| ≤ 7 / 16) (hq : |q - e| ≤ 7 / 16) (dflt : Px) :
    nearest32 im (fin p) (fin q) dflt = some
      (if 0 ≤ d ∧ d < im.w ∧ 0 ≤ e ∧ e < im.h then im.px d.toNat e.toNat else dflt) := by
  unfold nearest32
  obtain ⟨a1, a2, a3⟩ := axis_near hw hp
  obtain ⟨b1, b2, b3⟩ := axis_near hh hq
  rw [a1, b1]
  dsimp only
  simp only [Bool.or_eq_true, decide_eq_true_eq]
  by_cases c1 : d < 0 ∨ e < 0
  · rw [if_pos c1, if_neg (by omega)]
  · rw [if_neg c1]
    by_cases c2 : d < im.w ∧ e < im.h
    · rw [if_pos (by omega : 0 ≤ d ∧ d < im.w ∧ 0 ≤ e ∧ e < im.h), a2 (by omega) (by omega), b2 (by omega) (by omega), if_neg (by omega),
        unsafeGet_inB (by omega) (by omega)]
    · rw [if_neg (by omega : ¬ (0 ≤ d ∧ d < im.w ∧ 0 ≤ e ∧ e < im.h)), if_pos]
      by_cases c3 : d < im.w
      · exact .inr (b3 (by omega))
      · exact .inl (a3 (by omega))

/-- C137: with nearest-neighbour interpolation, every output pixel whose exact pre-image is
further than `1/16 + N / 2^18` from the border between two pixels is exactly the pixel of the
input that the pre-image falls into, or the default if there is none; for every angle, every
centre, and every image of at most 65536 columns and rows. -/
theorem C137_nearest (mx : Nat) (im : Image Px) {cx cy s c N : ℚ} (dflt : Px)
    (θ : ℝ) (hcx : Rep 24 (-149) cx) (hcy : Rep 24 (-149) cy) (hs : Rep 24 (-149) s)
    (hc : Rep 24 (-149) c) (hN : 1 ≤ N) (hx : |cx| ≤ N) (hy : |cy| ≤ N)
    (es : |(s : ℝ) - Real.sin θ| ≤ 1 / 2 ^ 22) (ec : |(c : ℝ) - Real.cos θ| ≤ 1 / 2 ^ 22)
    (hw : 0 < im.w) (hwN : (im.w : ℚ) ≤ N) (hhN : (im.h : ℚ) ≤ N) (hw' : im.w ≤ 65536)
    (hh' : im.h ≤ 65536) :
    ∃ r, rotate32 mx im cx cy s c .nearest dflt = some r ∧ r.w = im.w ∧ r.h = im.h ∧
      ∀ x y : Nat, x < im.w → y < im.h → ∀ d e : Int,
        |Real.cos θ * (x - cx) + Real.sin θ * (y - cy) + cx - d| ≤ 7 / 16 - N / 2 ^ 18 →
        |-Real.sin θ * (x - cx) + Real.cos θ * (y - cy) + cy - e| ≤ 7 / 16 - N / 2 ^ 18 →
        r.px x y = if 0 ≤ d ∧ d < im.w ∧ 0 ≤ e ∧ e < im.h then im.px d.toNat e.toNat else dflt := by
  obtain ⟨u, v, huv, hval⟩ := C137_position mx im .nearest dflt θ hcx hcy hs hc hN hx hy es ec
  obtain ⟨r, h1, h2, h3, h4⟩ := hval (fun x y => (nearest32 im (fin (u x y)) (fin (v x y)) dflt).getD dflt)
    hw (by omega) (by omega) (by
      intro x y _ _
      obtain ⟨z, hz, _⟩ := C128_nearest_safe im (fin (u x y)) (fin (v x y)) dflt
      show nearest32 im _ _ dflt = _
      rw [hz]; rfl)
  refine ⟨r, h1, h2, h3, ?_⟩
  intro x y hx hy d e hd he
  have hxN : (x : ℚ) ≤ N := le_trans (by exact_mod_cast hx.le) hwN
  have hyN : (y : ℚ) ≤ N := le_trans (by exact_mod_cast hy.le) hhN
  obtain ⟨E1, E2⟩ := huv x y hxN hyN
  rw [h4 x y hx hy]
  have P : |u x y - d| ≤ 7 / 16 := by
    have : ((|u x y - d| : ℚ) : ℝ) ≤ ((7 / 16 : ℚ) : ℝ) := by
      push_cast
      rw [abs_le] at *
      constructor <;> linarith
    exact Rat.cast_le.1 this
  have Q : |v x y - e| ≤ 7 / 16 := by
    have : ((|v x y - e| : ℚ) : ℝ) ≤ ((7 / 16 : ℚ) : ℝ) := by
      push_cast
      rw [abs_le] at *
      constructor <;> linarith
    exact Rat.cast_le.1 this
  rw [nearest_near hw' hh' P Q dflt]
  rfl

/-- Half the number of columns or rows. -/
theorem half_exact {n : Nat} (h : n ≤ 65536) :
    rnd32 (rnd32 (n : ℚ) / 2) = (n : ℚ) / 2 ∧ Rep 24 (-149) ((n : ℚ) / 2) ∧ |(n : ℚ) / 2| ≤ 65536 := by
  have r : Rep 24 (-149) ((n : ℚ) / 2) := ⟨n, -1, by
    rw [abs_of_nonneg (by omega)]; norm_num; omega, by norm_num, by push_cast; ring⟩
  refine ⟨by rw [rnd32_natQ (by omega), rnd32_rep r], r, ?_⟩
  rw [abs_of_nonneg (by positivity)]
  have : (n : ℚ) ≤ 65536 := by exact_mod_cast h
  linarith

/-- Rotations about the centre whose exact pre-images are whole numbers. -/
theorem turn_exact (mx : Nat) (im : Image Px) {s c : ℚ} (dflt : Px)
    (θ : ℝ) (hs : Rep 24 (-149) s) (hc : Rep 24 (-149) c)
    (es : |(s : ℝ) - Real.sin θ| ≤ 1 / 2 ^ 22) (ec : |(c : ℝ) - Real.cos θ| ≤ 1 / 2 ^ 22)
    (hw : 0 < im.w) (hw' : im.w ≤ 65536) (hh' : im.h ≤ 65536) (d e : Nat → Nat → Int)
    (hd : ∀ x y : Nat, Real.cos θ * (x - im.w / 2) + Real.sin θ * (y - im.h / 2) + im.w / 2 = d x y)
    (he : ∀ x y : Nat, -Real.sin θ * (x - im.w / 2) + Real.cos θ * (y - im.h / 2) + im.h / 2 = e x y) :
    ∃ r, rotateAboutCenter32 mx im s c .nearest dflt = some r ∧ r.w = im.w ∧ r.h = im.h ∧
      ∀ x y : Nat, x < im.w → y < im.h →
        r.px x y = if 0 ≤ d x y ∧ d x y < im.w ∧ 0 ≤ e x y ∧ e x y < im.h then
          im.px (d x y).toNat (e x y).toNat else dflt := by
  obtain ⟨w1, w2, w3⟩ := half_exact hw'
  obtain ⟨h1, h2, h3⟩ := half_exact hh'
  unfold rotateAboutCenter32
  rw [w1, h1]
  obtain ⟨r, r1, r2, r3, r4⟩ := C137_nearest mx im dflt θ w2 h2 hs hc (N := 65536) (by norm_num) w3 h3 es ec hw
    (by exact_mod_cast hw') (by exact_mod_cast hh') hw' hh'
  refine ⟨r, r1, r2, r3, ?_⟩
  intro x y hx hy
  refine r4 x y hx hy _ _ ?_ ?_
  · push_cast
    rw [hd x y, sub_self]; norm_num
  · push_cast
    rw [he x y, sub_self]; norm_num

/-- C137: rotating about the centre by half a turn with nearest-neighbour interpolation moves every
pixel to the opposite position *and one further right and down*: the first row and column are
the default, and the first row and column of the input are lost.  `θ` is half a turn up to the
rounding of the angle and of its sine and cosine. -/
theorem C137_half_turn_partial (mx : Nat) (im : Image Px) {s c : ℚ} (dflt : Px)
    (hs : Rep 24 (-149) s) (hc : Rep 24 (-149) c) (es : |s| ≤ 1 / 2 ^ 22) (ec : |c + 1| ≤ 1 / 2 ^ 22)
    (hw : 0 < im.w) (hw' : im.w ≤ 65536) (hh' : im.h ≤ 65536) :
    ∃ r, rotateAboutCenter32 mx im s c .nearest dflt = some r ∧ r.w = im.w ∧ r.h = im.h ∧
      ∀ x y : Nat, x < im.w → y < im.h →
        r.px x y = if 1 ≤ x ∧ 1 ≤ y then im.px (im.w - x) (im.h - y) else dflt := by
  obtain ⟨r, r1, r2, r3, r4⟩ := turn_exact mx im dflt Real.pi hs hc
    (by rw [Real.sin_pi, sub_zero]
        have : ((|s| : ℚ) : ℝ) ≤ ((1 / 2 ^ 22 : ℚ) : ℝ) := Rat.cast_le.2 es
        push_cast at this; exact this)
    (by rw [Real.cos_pi, sub_neg_eq_add]
        have : ((|c + 1| : ℚ) : ℝ) ≤ ((1 / 2 ^ 22 : ℚ) : ℝ) := Rat.cast_le.2 ec
        push_cast at this; exact this)
    hw hw' hh' (fun x _ => (im.w : Int) - x) (fun _ y => (im.h : Int) - y)
    (by intro x y; rw [Real.cos_pi, Real.sin_pi]; push_cast; ring)
    (by intro x y; rw [Real.cos_pi, Real.sin_pi]; push_cast; ring)
  refine ⟨r, r1, r2, r3, ?_⟩
  intro x y hx hy
  rw [r4 x y hx hy]
  by_cases hp : 1 ≤ x ∧ 1 ≤ y
  · rw [if_pos hp, if_pos (by omega)]
    congr 1 <;> omega
  · rw [if_neg hp, if_neg (by omega)]

/-- C137: rotating a square image about its centre by a quarter turn clockwise moves every pixel one
further to the right than `rotate90` does: the first column is the default and the last row of
the input is lost. -/
theorem C137_quarter_turn_partial (mx : Nat) (im : Image Px) {s c : ℚ} (dflt : Px)
    (hs : Rep 24 (-149) s) (hc : Rep 24 (-149) c) (es : |s - 1| ≤ 1 / 2 ^ 22) (ec : |c| ≤ 1 / 2 ^ 22)
    (hw : 0 < im.w) (hw' : im.w ≤ 65536) (hsq : im.h = im.w) :
    ∃ r, rotateAboutCenter32 mx im s c .nearest dflt = some r ∧ r.w = im.w ∧ r.h = im.h ∧
      ∀ x y : Nat, x < im.w → y < im.h →
        r.px x y = if 1 ≤ x then im.px y (im.h - x) else dflt := by
  obtain ⟨r, r1, r2, r3, r4⟩ := turn_exact mx im dflt (Real.pi / 2) hs hc
    (by rw [Real.sin_pi_div_two]
        have : ((|s - 1| : ℚ) : ℝ) ≤ ((1 / 2 ^ 22 : ℚ) : ℝ) := Rat.cast_le.2 es
        push_cast at this; exact this)
    (by rw [Real.cos_pi_div_two, sub_zero]
        have : ((|c| : ℚ) : ℝ) ≤ ((1 / 2 ^ 22 : ℚ) : ℝ) := Rat.cast_le.2 ec
        push_cast at this; exact this)
    hw hw' (by omega) (fun _ y => (y : Int)) (fun x _ => (im.h : Int) - x)
    (by intro x y; rw [Real.cos_pi_div_two, Real.sin_pi_div_two, hsq]; push_cast; ring)
    (by intro x y; rw [Real.cos_pi_div_two, Real.sin_pi_div_two, hsq]; push_cast; ring)
  refine ⟨r, r1, r2, r3, ?_⟩
  intro x y hx hy
  rw [r4 x y hx hy]
  by_cases hp : 1 ≤ x
  · rw [if_pos hp, if_pos (by omega)]
    congr 1; omega
  · rw [if_neg hp, if_neg (by omega)]

/-- C137: rotating a square image about its centre by a quarter turn anticlockwise: the first row is
the default and the last column of the input is lost. -/
theorem C137_quarter_turn_back_partial (mx : Nat) (im : Image Px) {s c : ℚ} (dflt : Px)
    (hs : Rep 24 (-149) s) (hc : Rep 24 (-149) c) (es : |s + 1| ≤ 1 / 2 ^ 22) (ec : |c| ≤ 1 / 2 ^ 22)
    (hw : 0 < im.w) (hw' : im.w ≤ 65536) (hsq : im.h = im.w) :
    ∃ r, rotateAboutCenter32 mx im s c .nearest dflt = some r ∧ r.w = im.w ∧ r.h = im.h ∧
      ∀ x y : Nat, x < im.w → y < im.h →
        r.px x y = if 1 ≤ y then im.px (im.w - y) x else dflt := by
  have sn : Real.sin (-(Real.pi / 2)) = -1 := by rw [Real.sin_neg, Real.sin_pi_div_two]
  have cs : Real.cos (-(Real.pi / 2)) = 0 := by rw [Real.cos_neg, Real.cos_pi_div_two]
  obtain ⟨r, r1, r2, r3, r4⟩ := turn_exact mx im dflt (-(Real.pi / 2)) hs hc
    (by rw [sn, sub_neg_eq_add]
        have : ((|s + 1| : ℚ) : ℝ) ≤ ((1 / 2 ^ 22 : ℚ) : ℝ) := Rat.cast_le.2 es
        push_cast at this; exact this)
    (by rw [cs, sub_zero]
        have : ((|c| : ℚ) : ℝ) ≤ ((1 / 2 ^ 22 : ℚ) : ℝ) := Rat.cast_le.2 ec
        push_cast at this; exact this)
    hw hw' (by omega) (fun _ y => (im.w : Int) - y) (fun x _ => (x : Int))
    (by intro x y; rw [sn, cs, hsq]; push_cast; ring)
    (by intro x y; rw [sn, cs, hsq]; push_cast; ring)
  refine ⟨r, r1, r2, r3, ?_⟩
  intro x y hx hy
  rw [r4 x y hx hy]
  by_cases hp : 1 ≤ y
  · rw [if_pos hp, if_pos (by omega)]
    congr 1; omega
  · rw [if_neg hp, if_neg (by omega)]

/-- C137: rotating about the centre by nothing or by full turns gives the image back. -/
theorem C137_full_turn (mx : Nat) (im : Image Px) {s c : ℚ} (dflt : Px)
    (hs : Rep 24 (-149) s) (hc : Rep 24 (-149) c) (es : |s| ≤ 1 / 2 ^ 22) (ec : |c - 1| ≤ 1 / 2 ^ 22)
    (hw : 0 < im.w) (hw' : im.w ≤ 65536) (hh' : im.h ≤ 65536) :
    ∃ r, rotateAboutCenter32 mx im s c .nearest dflt = some r ∧ r.w = im.w ∧ r.h = im.h ∧
      ∀ x y : Nat, x < im.w → y < im.h → r.px x y = im.px x y := by
  obtain ⟨r, r1, r2, r3, r4⟩ := turn_exact mx im dflt 0 hs hc
    (by rw [Real.sin_zero, sub_zero]
        have : ((|s| : ℚ) : ℝ) ≤ ((1 / 2 ^ 22 : ℚ) : ℝ) := Rat.cast_le.2 es
        push_cast at this; exact this)
    (by rw [Real.cos_zero]
        have : ((|c - 1| : ℚ) : ℝ) ≤ ((1 / 2 ^ 22 : ℚ) : ℝ) := Rat.cast_le.2 ec
        push_cast at this; exact this)
    hw hw' hh' (fun x _ => (x : Int)) (fun _ y => (y : Int))
    (by intro x y; rw [Real.cos_zero, Real.sin_zero]; push_cast; ring)
    (by intro x y; rw [Real.cos_zero, Real.sin_zero]; push_cast; ring)
  refine ⟨r, r1, r2, r3, ?_⟩
  intro x y hx hy
  rw [r4 x y hx hy, if_pos (by omega)]
  congr 1

/-- C137: rotating about the centre by half a turn is *not* `rotate180`: whatever the image (of at
most 65536 columns and rows) and however accurate the sine and cosine, if the two agree then
the last row and column of the image contain only the default pixel. -/
theorem C137_negation (mx : Nat) (im : Image Px) {s c : ℚ} (dflt : Px)
    (hs : Rep 24 (-149) s) (hc : Rep 24 (-149) c) (es : |s| ≤ 1 / 2 ^ 22) (ec : |c + 1| ≤ 1 / 2 ^ 22)
    (hw : 0 < im.w) (hw' : im.w ≤ 65536) (hh' : im.h ≤ 65536) {r r' : Image Px}
    (e : rotateAboutCenter32 mx im s c .nearest dflt = some r) (e' : Compose.rotate180 im = some r')
    (h : ∀ x y, x < im.w → y < im.h → r.px x y = r'.px x y) :
    (∀ x, x < im.w → 0 < im.h → im.px x (im.h - 1) = dflt) ∧
    (∀ y, y < im.h → im.px (im.w - 1) y = dflt) := by
  obtain ⟨q, q1, -, -, q4⟩ := C137_half_turn_partial mx im dflt hs hc es ec hw hw' hh'
  obtain ⟨q', q1', -, -, q4'⟩ := Compose.C21_rotate180 im
  obtain rfl := Option.some.inj (e.symm.trans q1)
  obtain rfl := Option.some.inj (e'.symm.trans q1')
  constructor
  · intro x hx hh
    have := h (im.w - 1 - x) 0 (by omega) hh
    rw [q4 _ _ (by omega) hh, q4' _ _ (by omega) hh, if_neg (by omega)] at this
    rw [this]
    congr 1; omega
  · intro y hy
    have := h 0 (im.h - 1 - y) hw (by omega)
    rw [q4 _ _ hw (by omega), q4' _ _ hw (by omega), if_neg (by omega)] at this
    rw [this]
    congr 1; omega

/-- The sine of `std::f32::consts::PI`, correctly rounded (used by the examples only). -/
def sinPi32 : ℚ := rnd32 (-87422776573 / 10 ^ 18)
/-- The cosine of half of `std::f32::consts::PI`, correctly rounded (used by the examples only). -/
def cosPi2 : ℚ := rnd32 (-43711388287 / 10 ^ 18)

/-- A half turn, and a quarter turn, of a 3x3 image with pixels 11 ... 33. -/
example : (rotateAboutCenter32 255 ⟨3, 3, fun x y _ => 10 * y + x + 11⟩ sinPi32 (-1) .nearest (fun _ => 0)).map
    (fun r => (List.range 3).map fun y => (List.range 3).map fun x => r.px x y 0) =
      some [[0, 0, 0], [0, 33, 32], [0, 23, 22]] := by decide +kernel

example : (rotateAboutCenter32 255 ⟨3, 3, fun x y _ => 10 * y + x + 11⟩ 1 cosPi2 .nearest (fun _ => 0)).map
    (fun r => (List.range 3).map fun y => (List.range 3).map fun x => r.px x y 0) =
      some [[0, 31, 21], [0, 32, 22], [0, 33, 23]] := by decide +kernel

example : Rep 24 (-149) sinPi32 ∧ |sinPi32| ≤ 1 / 2 ^ 22 ∧ Rep 24 (-149) cosPi2 ∧ |cosPi2| ≤ 1 / 2 ^ 22 :=
  ⟨rep_rnd _, by decide +kernel, rep_rnd _, by decide +kernel⟩

end Verif.Float
