import Verif.Float.Blur
import Verif.Float.HogImage
import Mathlib.Analysis.Real.Pi.Bounds
/-
`canny` (src/edges.rs:30-110) in single precision: the direction of the gradient, its length and the
comparisons made with them.  `f32::atan2` and `f32::hypot` are parameters (their results depend on the
platform's mathematics library).  Property theorem C136.
-/
namespace Verif.Float
open Verif.Filter hiding clampU8
open Verif.Edges Verif.Gradients Real

/-- `RADIANS_TO_DEGREES`, edges.rs:61: `180f32` divided by `f32::consts::PI`. -/
def radToDeg32 : ℚ := rnd32 (180 / (13176795 / 4194304))

/-- The angle in degrees, edges.rs:66-71. -/
noncomputable def degrees32 (atan2 : ℝ → ℝ → ℝ) (dx dy : Int) : ℝ :=
  let angle := rnd32 (atan2 (rnd32 (dy : ℝ)) (rnd32 (dx : ℝ)) * (radToDeg32 : ℝ))
  if angle < 0 then rnd32 (angle + 180) else angle

/-- The clamped angle, edges.rs:73-83. -/
noncomputable def sector32 (atan2 : ℝ → ℝ → ℝ) (dx dy : Int) : Sector :=
  let angle := degrees32 atan2 dx dy
  if ¬ (22.5 ≤ angle ∧ angle < 157.5) then .d0
  else if 22.5 ≤ angle ∧ angle < 67.5 then .d45
  else if 67.5 ≤ angle ∧ angle < 112.5 then .d90
  else .d135

/-- `atan2` is correctly rounded on the values that Sobel gradients of 8-bit images can have. -/
def ExactAtan2 (atan2 : ℝ → ℝ → ℝ) : Prop :=
  ∀ dx dy : Int, |dx| ≤ 1020 → |dy| ≤ 1020 → atan2 dy dx = rnd32 (Complex.arg ⟨dx, dy⟩)

/-! ### Gradients keep away from the boundaries between sectors -/

theorem sqrt_two_bounds : (1.41421356 : ℝ) ≤ √2 ∧ √2 ≤ 1.41421357 ∧ √2 * √2 = 2 := by
  refine ⟨?_, ?_, mul_self_sqrt (by norm_num)⟩
  · apply le_sqrt_of_sq_le; norm_num
  · rw [sqrt_le_left (by norm_num)]; norm_num

theorem sin_eighth : (0.38268 : ℝ) ≤ sin (π / 8) := by
  rw [sin_pi_div_eight]
  have h : (0.76536 : ℝ) ≤ √(2 - √2) := by
    apply le_sqrt_of_sq_le
    have := sqrt_two_bounds.2.1
    norm_num at this ⊢
    linarith
  linarith

theorem direction_gap {u v : Int} (hu : |u| ≤ 1020) (hv : |v| ≤ 1020) (hne : ¬ (u = 0 ∧ v = 0))
    {r : ℝ} (hr2 : r ^ 2 = (u : ℝ) ^ 2 + (v : ℝ) ^ 2) :
    29 / 10 ^ 8 * r ≤ sin (π / 8) * |(√2 + 1) * v - u| := by
  obtain ⟨q1, q2, q3⟩ := sqrt_two_bounds
  have hs := sin_eighth
  have n1 : (√2 + 1) * (v : ℝ) ≠ u := sqrt_two_mul_ne (by tauto)
  have n2 : (√2 + 1) * (u : ℝ) ≠ (-v : Int) := sqrt_two_mul_ne (by omega)
  set q := √2
  set s := sin (π / 8)
  have hu' : |(u : ℝ)| ≤ 1020 := by exact_mod_cast hu
  have hv' : |(v : ℝ)| ≤ 1020 := by exact_mod_cast hv
  obtain ⟨L, hL⟩ : ∃ L, L = (q + 1) * (v : ℝ) - u := ⟨_, rfl⟩
  obtain ⟨M, hM⟩ : ∃ M, M = (q - 1) * (v : ℝ) + u := ⟨_, rfl⟩
  have hN : L * M = ((v ^ 2 + 2 * u * v - u ^ 2 : Int) : ℝ) := by
    rw [hL, hM]; push_cast
    linear_combination ((v : ℝ) ^ 2) * q3
  have hL0 : L ≠ 0 := by rw [hL]; intro h; exact n1 (by linarith)
  have hM0 : M ≠ 0 := by
    rw [hM]; intro h
    apply n2
    push_cast
    linear_combination (q + 1) * h - (v : ℝ) * q3
  have h1 : 1 ≤ |L| * |M| := by
    rw [← abs_mul, hN]
    have hne0 : v ^ 2 + 2 * u * v - u ^ 2 ≠ 0 := by
      intro h
      rw [h, Int.cast_zero] at hN
      rcases mul_eq_zero.1 hN with h | h
      · exact hL0 h
      · exact hM0 h
    have := Int.one_le_abs hne0
    exact_mod_cast this
  rw [← hL]
  by_contra hc
  push Not at hc
  obtain ⟨u1, u2⟩ := abs_le.1 hu'
  obtain ⟨v1, v2⟩ := abs_le.1 hv'
  have hr3 : r ≤ 1443 := by
    apply abs_le_of_sq_le_sq' _ (by norm_num) |>.2
    rw [hr2]; nlinarith
  have hLs : |L| ≤ 11 / 10 ^ 4 := by
    have : (0.38268 : ℝ) * |L| ≤ s * |L| := mul_le_mul_of_nonneg_right hs (abs_nonneg _)
    norm_num at this hc ⊢
    linarith
  obtain ⟨l1, l2⟩ := abs_le.1 hLs
  have hvL : (v : ℝ) = (q - 1) * (u + L) := by
    rw [hL]; linear_combination (-(v : ℝ)) * q3
  have hMu : M = (4 - 2 * q) * u + (3 - 2 * q) * L := by
    rw [hM, hL]; linear_combination (2 * (v : ℝ)) * q3
  have hMb : |M| ≤ 1195.006 := by
    rw [hMu, abs_le]
    constructor <;> nlinarith
  have hrr : r ≤ 1104.05 := by
    apply abs_le_of_sq_le_sq' _ (by norm_num) |>.2
    have e : r ^ 2 = (u : ℝ) ^ 2 + (3 - 2 * q) * (u + L) ^ 2 := by
      rw [hr2, hvL]; linear_combination ((u : ℝ) + L) ^ 2 * q3
    have b1 : (u : ℝ) ^ 2 ≤ 1020 ^ 2 := by nlinarith
    have b2 : ((u : ℝ) + L) ^ 2 ≤ 1020.0011 ^ 2 := by
      norm_num at l1 l2 ⊢
      nlinarith
    have b3 : (3 - 2 * q) * ((u : ℝ) + L) ^ 2 ≤ 0.171573 * 1020.0011 ^ 2 :=
      mul_le_mul (by norm_num at q1 ⊢; linarith) b2 (sq_nonneg _) (by norm_num)
    rw [e]
    norm_num at b1 b3 ⊢
    linarith
  have f1 : s ≤ s * |L| * |M| := by
    rw [mul_assoc]
    nlinarith
  have f2 : s * |L| * |M| ≤ 29 / 10 ^ 8 * r * |M| := mul_le_mul_of_nonneg_right hc.le (abs_nonneg _)
  have f3 : r * |M| ≤ 1104.05 * 1195.006 := mul_le_mul hrr hMb (abs_nonneg _) (by norm_num)
  norm_num at f1 f2 f3 hs
  linarith

/-- The angle of a gradient, between 0 and π, is at least `2.9e-7` away from every boundary. -/
theorem angle_gap {dx dy : Int} (hx : |dx| ≤ 1020) (hy : |dy| ≤ 1020) {a r : ℝ} {X Y : Int}
    (hne : ¬ (dx = 0 ∧ dy = 0)) (hr : 0 < r)
    (hr2 : r ^ 2 = (dx : ℝ) ^ 2 + (dy : ℝ) ^ 2) (hc : r * cos a = X) (hs : r * sin a = Y)
    (hXY : (X = dx ∧ Y = dy) ∨ (X = -dx ∧ Y = -dy)) :
    29 / 10 ^ 8 ≤ |a - π / 8| ∧ 29 / 10 ^ 8 ≤ |a - (π / 2 - π / 8)| ∧
    29 / 10 ^ 8 ≤ |a - (π / 8 + π / 2)| ∧ 29 / 10 ^ 8 ≤ |a - (π - π / 8)| := by
  obtain ⟨e1, e2⟩ := eighth
  have bX : |X| ≤ 1020 := by
    rcases hXY with ⟨h, -⟩ | ⟨h, -⟩ <;> rw [h] <;> simpa using hx
  have bY : |Y| ≤ 1020 := by
    rcases hXY with ⟨-, h⟩ | ⟨-, h⟩ <;> rw [h] <;> simpa using hy
  have ne : ¬ (X = 0 ∧ Y = 0) := by
    rcases hXY with ⟨h, h'⟩ | ⟨h, h'⟩ <;> rw [h, h'] <;> omega
  have hr3 : r ^ 2 = (X : ℝ) ^ 2 + (Y : ℝ) ^ 2 := by
    rw [hr2]
    rcases hXY with ⟨h, h'⟩ | ⟨h, h'⟩
    · rw [h, h']
    · rw [h, h']; push_cast; ring
  have step : ∀ (u v : Int) (α : ℝ), |u| ≤ 1020 → |v| ≤ 1020 → ¬ (u = 0 ∧ v = 0) →
      r ^ 2 = (u : ℝ) ^ 2 + (v : ℝ) ^ 2 →
      |r * sin (a - α)| = |sin (π / 8) * ((√2 + 1) * v - u)| → 29 / 10 ^ 8 ≤ |a - α| := by
    intro u v α hu hv huv h2 h
    have g := direction_gap hu hv huv h2
    rw [abs_mul, abs_mul, abs_of_pos hr, abs_of_pos e2] at h
    rw [← h, mul_comm r] at g
    exact le_trans (le_of_mul_le_mul_right g hr) (abs_sin_le_abs)
  refine ⟨step X Y _ bX bY ne hr3 ?_, step Y X _ bY bX (by tauto) (by rw [hr3]; ring) ?_,
    step (-Y) X _ (by simpa using bY) bX (by omega) (by push_cast; rw [hr3]; ring) ?_,
    step (-X) Y _ (by simpa using bX) bY (by omega) (by push_cast; rw [hr3]; ring) ?_⟩
  · congr 1
    rw [sin_sub, e1, mul_sub]
    linear_combination ((√2 + 1) * sin (π / 8)) * hs - sin (π / 8) * hc
  · rw [← abs_neg]
    congr 1
    rw [sin_sub, sin_pi_div_two_sub, cos_pi_div_two_sub, e1]
    linear_combination (-sin (π / 8)) * hs + ((√2 + 1) * sin (π / 8)) * hc
  · rw [← abs_neg]
    congr 1
    rw [sin_sub, sin_add_pi_div_two, cos_add_pi_div_two, e1]
    push_cast
    linear_combination (sin (π / 8)) * hs + ((√2 + 1) * sin (π / 8)) * hc
  · rw [← abs_neg]
    congr 1
    rw [sin_sub, sin_pi_sub, cos_pi_sub, e1]
    push_cast
    linear_combination ((√2 + 1) * sin (π / 8)) * hs + (sin (π / 8)) * hc

/-! ### Angles in degrees are monotone -/

/-- Rounding an angle and converting it to degrees. -/
def deg32 {K : Type _} [Field K] [LinearOrder K] [IsStrictOrderedRing K] [FloorRing K] (a : K) : K :=
  rnd32 (rnd32 a * (radToDeg32 : K))

theorem deg32_cast (q : ℚ) : deg32 (q : ℝ) = ((deg32 q : ℚ) : ℝ) := by
  unfold deg32
  rw [show rnd32 (q : ℝ) = ((rnd32 q : ℚ) : ℝ) from rnd_cast q, ← Rat.cast_mul]
  rw [show rnd32 (((rnd32 q * radToDeg32 : ℚ)) : ℝ) = ((rnd32 (rnd32 q * radToDeg32) : ℚ) : ℝ) from rnd_cast _]
  simp

theorem radToDeg32_eq : radToDeg32 = 15019744 / 262144 := by decide +kernel

theorem deg32_mono {a b : ℝ} (h : a ≤ b) : deg32 a ≤ deg32 b := by
  unfold deg32
  refine rnd_mono (by norm_num) (mul_le_mul_of_nonneg_right (rnd_mono (by norm_num) h) ?_)
  rw [radToDeg32_eq]; norm_num

theorem deg32_cmp (t q1 q2 : ℚ) (h1 : deg32 q1 < t) (h2 : t ≤ deg32 q2) {a : ℝ} :
    (a ≤ q1 → deg32 a < t) ∧ ((q2 : ℝ) ≤ a → (t : ℝ) ≤ deg32 a) := by
  constructor
  · intro h
    refine lt_of_le_of_lt (deg32_mono h) ?_
    rw [deg32_cast]; exact_mod_cast h1
  · intro h
    refine le_trans ?_ (deg32_mono h)
    rw [deg32_cast]; exact_mod_cast h2

theorem deg32_cmp' (t q1 q2 : ℚ) (h1 : rnd32 (deg32 q1 + 180) < t) (h2 : t ≤ rnd32 (deg32 q2 + 180)) {a : ℝ} :
    (a ≤ q1 → rnd32 (deg32 a + 180) < t) ∧ ((q2 : ℝ) ≤ a → (t : ℝ) ≤ rnd32 (deg32 a + 180)) := by
  have c : ∀ q : ℚ, rnd 24 (-149) (deg32 (q : ℝ) + 180) = ((rnd32 (deg32 q + 180) : ℚ) : ℝ) := by
    intro q
    rw [deg32_cast, ← rnd_cast]; push_cast; rfl
  constructor
  · intro h
    refine lt_of_le_of_lt (rnd_mono (by norm_num) (add_le_add_left (deg32_mono h) _)) ?_
    rw [c]; exact_mod_cast h1
  · intro h
    refine le_trans ?_ (rnd_mono (by norm_num) (add_le_add_left (deg32_mono h) _))
    rw [c]; exact_mod_cast h2

/-- Every comparison of the rounded angle with a boundary has the exact result. -/
theorem degrees32_cmp {atan2 : ℝ → ℝ → ℝ} (ha : ExactAtan2 atan2) {dx dy : Int} (hx : |dx| ≤ 1020)
    (hy : |dy| ≤ 1020) (hne : ¬ (dx = 0 ∧ dy = 0)) :
    (22.5 ≤ degrees32 atan2 dx dy ↔ 22.5 ≤ degrees dx dy) ∧
    (67.5 ≤ degrees32 atan2 dx dy ↔ 67.5 ≤ degrees dx dy) ∧
    (112.5 ≤ degrees32 atan2 dx dy ↔ 112.5 ≤ degrees dx dy) ∧
    (157.5 ≤ degrees32 atan2 dx dy ↔ 157.5 ≤ degrees dx dy) := by
  obtain ⟨a, r, X, Y, hr, hr2, a0, ap, ad, hY, hc, hs, hXY⟩ := degrees_angle dx dy hne
  obtain ⟨g1, g2, g3, g4⟩ := angle_gap hx hy hne hr hr2 hc hs (by tauto)
  have p1 := pi_gt_d20
  have p2 := pi_lt_d20
  have hk : (0 : ℝ) < 180 / π := by positivity
  have conv : ∀ t : ℝ, t ≤ degrees dx dy ↔ t * π / 180 ≤ a := by
    intro t
    rw [ad, ← div_le_iff₀ hk, show t / (180 / π) = t * π / 180 by field_simp]
  have c1 := conv 22.5
  have c2 := conv 67.5
  have c3 := conv 112.5
  have c4 := conv 157.5
  -- from the two sides of a boundary to an equivalence
  have iff : ∀ {t α : ℝ} {d : ℝ}, (t ≤ degrees dx dy ↔ α ≤ a) → 29 / 10 ^ 8 ≤ |a - α| →
      (a ≤ α - 29 / 10 ^ 8 → d < t) → (α + 29 / 10 ^ 8 ≤ a → t ≤ d) → (t ≤ d ↔ t ≤ degrees dx dy) := by
    intro t α d h g h1 h2
    rw [h]
    rcases abs_cases (a - α) with ⟨e, h0⟩ | ⟨e, h0⟩
    · exact ⟨fun _ => by linarith, fun _ => h2 (by linarith)⟩
    · exact ⟨fun h' => absurd h' (not_le.2 (h1 (by linarith))), fun h' => absurd h' (by linarith)⟩
  rw [show (22.5 : ℝ) * π / 180 = π / 8 by ring] at c1
  rw [show (67.5 : ℝ) * π / 180 = π / 2 - π / 8 by ring] at c2
  rw [show (112.5 : ℝ) * π / 180 = π / 8 + π / 2 by ring] at c3
  rw [show (157.5 : ℝ) * π / 180 = π - π / 8 by ring] at c4
  have r0 : ∀ d : Int, |d| ≤ 1020 → rnd32 (d : ℝ) = d := fun d hd =>
    rnd_int (by norm_num) (by norm_num) (le_trans hd (by norm_num))
  have hdef : degrees32 atan2 dx dy = if deg32 (Complex.arg ⟨dx, dy⟩) < 0 then
      rnd32 (deg32 (Complex.arg ⟨dx, dy⟩) + 180) else deg32 (Complex.arg ⟨dx, dy⟩) := by
    unfold degrees32 deg32
    rw [r0 _ hx, r0 _ hy, ha dx dy hx hy]
  rcases hXY with ⟨rfl, rfl, hA⟩ | ⟨rfl, rfl, hneg, hA⟩
  · rw [hA, if_neg (by
      rw [not_lt]
      have := deg32_mono a0
      unfold deg32 at this ⊢
      rw [show rnd32 (0 : ℝ) = 0 from rnd_zero, zero_mul, show rnd32 (0 : ℝ) = 0 from rnd_zero] at this
      exact this)] at hdef
    rw [hdef]
    have k1 := deg32_cmp 22.5 0.392698792 0.392699371 (by decide +kernel) (by decide +kernel) (a := a)
    have k2 := deg32_cmp 67.5 1.178096956 1.178097535 (by decide +kernel) (by decide +kernel) (a := a)
    have k3 := deg32_cmp 112.5 1.963495119 1.963495698 (by decide +kernel) (by decide +kernel) (a := a)
    have k4 := deg32_cmp 157.5 2.748893282 2.748893861 (by decide +kernel) (by decide +kernel) (a := a)
    norm_num at k1 k2 k3 k4 c1 c2 c3 c4 p1 p2
    norm_num
    exact ⟨iff c1 g1 (fun h => k1.1 (by norm_num at h; linarith)) fun h => k1.2 (by norm_num at h; linarith),
      iff (c2.trans sub_le_iff_le_add.symm) g2 (fun h => k2.1 (by norm_num at h; linarith)) fun h => k2.2 (by norm_num at h; linarith),
      iff c3 g3 (fun h => k3.1 (by norm_num at h; linarith)) fun h => k3.2 (by norm_num at h; linarith),
      iff (c4.trans sub_le_iff_le_add.symm) g4 (fun h => k4.1 (by norm_num at h; linarith)) fun h => k4.2 (by norm_num at h; linarith)⟩
  · have hlow : a - π ≤ -(1 / 1443) := by
      have := (arg_bounds hx hy (by omega)).1
      rw [hA, abs_of_nonpos (by linarith)] at this
      linarith
    rw [hA, if_pos (by
      have := (deg32_cmp 0 (-(1 / 1443)) 0 (by decide +kernel) (by decide +kernel) (a := a - π)).1
        (by push_cast; linarith)
      simpa using this)] at hdef
    rw [hdef]
    have k1 := deg32_cmp' 22.5 (-2.74889386) (-2.748893282) (by decide +kernel) (by decide +kernel) (a := a - π)
    have k2 := deg32_cmp' 67.5 (-1.963495698) (-1.963495119) (by decide +kernel) (by decide +kernel) (a := a - π)
    have k3 := deg32_cmp' 112.5 (-1.178097535) (-1.178096956) (by decide +kernel) (by decide +kernel) (a := a - π)
    have k4 := deg32_cmp' 157.5 (-0.392699371) (-0.392698792) (by decide +kernel) (by decide +kernel) (a := a - π)
    norm_num at k1 k2 k3 k4 c1 c2 c3 c4 p1 p2
    norm_num
    exact ⟨iff c1 g1 (fun h => k1.1 (by norm_num at h; linarith)) fun h => k1.2 (by norm_num at h; linarith),
      iff (c2.trans sub_le_iff_le_add.symm) g2 (fun h => k2.1 (by norm_num at h; linarith)) fun h => k2.2 (by norm_num at h; linarith),
      iff c3 g3 (fun h => k3.1 (by norm_num at h; linarith)) fun h => k3.2 (by norm_num at h; linarith),
      iff (c4.trans sub_le_iff_le_add.symm) g4 (fun h => k4.1 (by norm_num at h; linarith)) fun h => k4.2 (by norm_num at h; linarith)⟩

/-- **C136.** In single precision, with a correctly rounded `atan2`, every gradient of an 8-bit image is
assigned the exact direction. -/
theorem C136_sector {atan2 : ℝ → ℝ → ℝ} (ha : ExactAtan2 atan2) {dx dy : Int} (hx : |dx| ≤ 1020)
    (hy : |dy| ≤ 1020) : sector32 atan2 dx dy = sectorOf dx dy := by
  by_cases hne : dx = 0 ∧ dy = 0
  · rw [(C115_direction dx dy).1 hne]
    obtain ⟨rfl, rfl⟩ := hne
    have h := ha 0 0 (by norm_num) (by norm_num)
    have z : rnd32 (0 : ℝ) = 0 := rnd_zero
    rw [show (⟨((0 : Int) : ℝ), ((0 : Int) : ℝ)⟩ : ℂ) = 0 by apply Complex.ext <;> simp,
      Complex.arg_zero, z, Int.cast_zero] at h
    unfold sector32 degrees32
    dsimp only
    rw [Int.cast_zero, z, h, zero_mul, z, if_neg (lt_irrefl _), if_pos (by norm_num)]
  · obtain ⟨h1, h2, h3, h4⟩ := degrees32_cmp ha hx hy hne
    unfold sector32 sectorOf
    simp only [h1, h2, h3, h4, ← not_le]

/-! ### Strength -/

/-- `hypot` is correctly rounded on the values that Sobel gradients of 8-bit images can have. -/
def ExactHypot (hypot : ℝ → ℝ → ℝ) : Prop :=
  ∀ h v : Int, |h| ≤ 1020 → |v| ≤ 1020 → hypot h v = rnd32 √((h : ℝ) ^ 2 + (v : ℝ) ^ 2)

/-- `canny`, edges.rs:30-53, in single precision; the grayscale image has the single channel `()`. -/
noncomputable def cannyImage32 (expf : ℝ → ℝ) (atan2 hypot : ℝ → ℝ → ℝ) (im : Image (Unit → Nat))
    (lo hi : ℝ) : Option (Image Nat) :=
  if hi ≥ lo then
    (gaussianBlur32 expf im (rnd32 1.4)).bind fun blurred =>
    (horizontalSobel blurred).bind fun gx =>
    (verticalSobel blurred).bind fun gy =>
    canny (sector32 atan2) (fun h v => hypot (rnd32 (h : ℝ)) (rnd32 (v : ℝ)))
      ⟨gx.w, gx.h, fun x y => gx.px x y ()⟩ ⟨gy.w, gy.h, fun x y => gy.px x y ()⟩ lo hi
  else none

theorem sqrt32_error {n : Nat} (hn : n ≤ 2080800) :
    |rnd32 √(n : ℝ) - √(n : ℝ)| ≤ 1 / 2 ^ 14 ∧ √(n : ℝ) ≤ 1443 := by
  have h : √(n : ℝ) ≤ 1443 := by
    rw [sqrt_le_left (by norm_num)]
    have : (n : ℝ) ≤ 2080800 := by exact_mod_cast hn
    linarith
  refine ⟨?_, h⟩
  have e := rnd_error_lt (K := ℝ) (p := 24) (emin := -149) (x := √(n : ℝ)) (k := 11) (by norm_num)
    (by rw [abs_of_nonneg (sqrt_nonneg _)]; norm_num; linarith)
  norm_num at e ⊢
  exact e

/-- Rounding keeps the strict order of strengths. -/
theorem strength32_le {n m : Nat} (hn : n ≤ 2080800) (hm : m ≤ 2080800) :
    rnd32 √(n : ℝ) ≤ rnd32 √(m : ℝ) ↔ √(n : ℝ) ≤ √(m : ℝ) := by
  refine ⟨fun h => ?_, fun h => rnd_mono (by norm_num) h⟩
  by_contra hc
  push Not at hc
  obtain ⟨e1, b1⟩ := sqrt32_error hn
  obtain ⟨e2, b2⟩ := sqrt32_error hm
  have s1 : √(n : ℝ) * √(n : ℝ) = n := mul_self_sqrt (by positivity)
  have s2 : √(m : ℝ) * √(m : ℝ) = m := mul_self_sqrt (by positivity)
  have hnm : m < n := by
    rw [sqrt_lt_sqrt_iff (by positivity)] at hc
    exact_mod_cast hc
  have h1 : (m : ℝ) + 1 ≤ n := by exact_mod_cast hnm
  have n0 := sqrt_nonneg (n : ℝ)
  have m0 := sqrt_nonneg (m : ℝ)
  have x1 := (abs_le.1 e1).1
  have x2 := (abs_le.1 e2).2
  norm_num at x1 x2
  generalize √(n : ℝ) = p at *
  generalize √(m : ℝ) = q at *
  have : 1 ≤ (p - q) * (p + q) := by nlinarith
  have : (p - q) * (p + q) ≤ (p - q) * 2886 := mul_le_mul_of_nonneg_left (by linarith) (by linarith)
  linarith

/-- A whole-numbered threshold is reached by the rounded strength exactly when it is reached by the
strength. -/
theorem threshold32 {n : Nat} (hn : n ≤ 2080800) (v : Nat) :
    (v : ℝ) ≤ rnd32 √(n : ℝ) ↔ (v : ℝ) ≤ √(n : ℝ) := by
  obtain ⟨e1, b1⟩ := sqrt32_error hn
  have x1 := (abs_le.1 e1).2
  norm_num at x1
  constructor
  · intro h
    by_contra hc
    push Not at hc
    have s1 : √(n : ℝ) * √(n : ℝ) = n := mul_self_sqrt (by positivity)
    have n0 := sqrt_nonneg (n : ℝ)
    have hnv : n < v * v := by
      have : (n : ℝ) < v * v := by rw [← s1]; nlinarith
      exact_mod_cast this
    have h1 : (n : ℝ) + 1 ≤ v * v := by exact_mod_cast hnv
    generalize √(n : ℝ) = p at *
    generalize (v : ℝ) = q at *
    have : 1 ≤ (q - p) * (q + p) := by nlinarith
    have : (q - p) * (q + p) ≤ (q - p) * 2888 := mul_le_mul_of_nonneg_left (by linarith) (by linarith)
    linarith
  · intro h
    refine le_rnd (by norm_num) ⟨v, 0, ?_, by norm_num, by simp⟩ h
    have : (v : ℝ) ≤ 1443 := by linarith
    have : v ≤ 1443 := by exact_mod_cast this
    rw [abs_of_nonneg (by positivity)]
    norm_num
    omega

theorem strength_nat {im : Image (Unit → Nat)} (hu : IsU8 im) {x y : Nat} (hx : x < im.w) (hy : y < im.h) :
    ∃ n : Nat, n ≤ 2080800 ∧ strength im x y = √(n : ℝ) := by
  obtain ⟨b1, b2⟩ := sobel_bounds hu () hx hy
  have := sq_sum_le b1 b2
  refine ⟨((hDiff 1 2 im () x y) ^ 2 + (vDiff 1 2 im () x y) ^ 2).toNat, by
    rw [Int.toNat_le]
    push_cast
    linarith [sq (hDiff 1 2 im () x y), sq (vDiff 1 2 im () x y)], ?_⟩
  unfold strength
  congr 1
  have : (((hDiff 1 2 im () x y) ^ 2 + (vDiff 1 2 im () x y) ^ 2).toNat : Int) =
    (hDiff 1 2 im () x y) ^ 2 + (vDiff 1 2 im () x y) ^ 2 := Int.toNat_of_nonneg (by positivity)
  have e : ((((hDiff 1 2 im () x y) ^ 2 + (vDiff 1 2 im () x y) ^ 2).toNat : Int) : ℝ) =
    (((hDiff 1 2 im () x y) ^ 2 + (vDiff 1 2 im () x y) ^ 2 : Int) : ℝ) := by rw [this]
  push_cast at e
  rw [e]

/-- **C136.** `canny` in single precision, for every non-empty 8-bit image and thresholds
`0 < low ≤ high`: in the blurred image the direction of each gradient and every comparison of
strengths is exact; only the comparison with the two thresholds uses the strength rounded to
single precision. -/
theorem C136_canny {expf : ℝ → ℝ} (he : GoodExp expf) {atan2 hypot : ℝ → ℝ → ℝ} (ha : ExactAtan2 atan2)
    (hh' : ExactHypot hypot) (im : Image (Unit → Nat)) (hu : IsU8 im) (hw : 0 < im.w) (hh : 0 < im.h)
    (lo hi : ℝ) (h0 : 0 < lo) (hlh : lo ≤ hi) :
    ∃ blurred out, gaussianBlur32 expf im (rnd32 1.4) = some blurred ∧ IsU8 blurred ∧
      blurred.w = im.w ∧ blurred.h = im.h ∧ cannyImage32 expf atan2 hypot im lo hi = some out ∧
      out.w = im.w ∧ out.h = im.h ∧
      ∀ a b, a < im.w → b < im.h → (out.px a b = 0 ∨ out.px a b = 255) ∧
        (out.px a b = 255 ↔ ∃ s, (Edge blurred 0 s ∧ hi ≤ rnd32 (strength blurred s.1 s.2)) ∧
          Relation.ReflTransGen (fun p q => Nbr6 p q ∧ Edge blurred 0 q ∧
            lo ≤ rnd32 (strength blurred q.1 q.2)) s (a, b)) := by
  have hsig : (1 : ℝ) ≤ rnd32 1.4 ∧ rnd32 (1.4 : ℝ) ≤ 2 := by
    constructor
    · exact le_rnd (by norm_num) ⟨1, 0, by norm_num, by norm_num, by norm_num⟩ (by norm_num)
    · exact rnd_le (by norm_num) ⟨2, 0, by norm_num, by norm_num, by norm_num⟩ (by norm_num)
  obtain ⟨bl, b1, b2, b3, b4, -⟩ := C119_range_partial he im hu (rnd32 1.4) (rep_rnd _)
    (le_trans (by norm_num) hsig.1) (le_trans hsig.2 (by norm_num))
  obtain ⟨⟨gx, x1, x2, x3, x4⟩, ⟨gy, y1, y2, y3, y4⟩, -⟩ := C76_values bl b4
  obtain ⟨out, o1, o2, o3, o4⟩ := C89_exact (sector32 atan2)
    (fun h v => hypot (rnd32 (h : ℝ)) (rnd32 (v : ℝ)))
    ⟨gx.w, gx.h, fun x y => gx.px x y ()⟩ ⟨gy.w, gy.h, fun x y => gy.px x y ()⟩ lo hi h0 hlh
    (by dsimp only; omega) (by dsimp only; omega) (by dsimp only; omega) (by dsimp only; omega)
  dsimp only at o2 o3 o4
  refine ⟨bl, out, b1, b4, b2, b3, ?_, by omega, by omega, fun a b ha' hb => ?_⟩
  · unfold cannyImage32
    rw [if_pos hlh, b1, Option.bind_some, x1, Option.bind_some, y1, Option.bind_some, o1]
  · obtain ⟨p1, p2⟩ := o4 a b (by omega) (by omega)
    refine ⟨p1, p2.trans ?_⟩
    have r0 : ∀ d : Int, |d| ≤ 1020 → rnd32 (d : ℝ) = d := fun d hd =>
      rnd_int (by norm_num) (by norm_num) (le_trans hd (by norm_num))
    have str : ∀ x y, x < bl.w → y < bl.h →
        hypot (rnd32 (gx.px x y () : ℝ)) (rnd32 (gy.px x y () : ℝ)) = rnd32 (strength bl x y) := by
      intro x y hx hy
      obtain ⟨c1, c2⟩ := sobel_bounds b4 () hx hy
      rw [x4 x y hx hy, y4 x y hx hy, r0 _ c1, r0 _ c2, hh' _ _ c1 c2]
      rfl
    have key : ∀ v p, (LocalMax (sector32 atan2) ⟨gx.w, gx.h, fun x y =>
          hypot (rnd32 (gx.px x y () : ℝ)) (rnd32 (gy.px x y () : ℝ))⟩
        ⟨gx.w, gx.h, fun x y => gx.px x y ()⟩ ⟨gy.w, gy.h, fun x y => gy.px x y ()⟩ p.1 p.2 ∧
        v ≤ hypot (rnd32 (gx.px p.1 p.2 () : ℝ)) (rnd32 (gy.px p.1 p.2 () : ℝ))) ↔
        (Edge bl 0 p ∧ v ≤ rnd32 (strength bl p.1 p.2)) := by
      rintro v ⟨x, y⟩
      unfold LocalMax Edge
      dsimp only
      rw [x2, x3]
      by_cases hin : 1 ≤ x ∧ x + 1 < bl.w ∧ 1 ≤ y ∧ y + 1 < bl.h
      · obtain ⟨i1, i2, i3, i4⟩ := hin
        obtain ⟨c1, c2⟩ := sobel_bounds b4 () (show x < bl.w by omega) (show y < bl.h by omega)
        rw [str x y (by omega) (by omega), x4 x y (by omega) (by omega), y4 x y (by omega) (by omega),
          C136_sector ha c1 c2]
        have hn : ∀ d, (along x y d).1.1 < bl.w ∧ (along x y d).1.2 < bl.h ∧
            (along x y d).2.1 < bl.w ∧ (along x y d).2.2 < bl.h := by
          intro d
          cases d <;> simp only [along] <;> omega
        obtain ⟨n1, n2, n3, n4⟩ := hn (sectorOf (hDiff 1 2 bl () x y) (vDiff 1 2 bl () x y))
        rw [str _ _ n1 n2, str _ _ n3 n4]
        obtain ⟨k, hk, ek⟩ := strength_nat b4 (show x < bl.w by omega) (show y < bl.h by omega)
        obtain ⟨k1, hk1, ek1⟩ := strength_nat b4 n1 n2
        obtain ⟨k2, hk2, ek2⟩ := strength_nat b4 n3 n4
        rw [ek, ek1, ek2, strength32_le hk1 hk, strength32_le hk2 hk]
        have := sqrt_nonneg (k : ℝ)
        tauto
      · tauto
    simp only [key]

/-- **C136.** With whole-numbered thresholds the rounding of the strength has no effect either: `canny`
in single precision finds exactly the edges of the blurred image that `C115_canny` describes. -/
theorem C136_whole {expf : ℝ → ℝ} (he : GoodExp expf) {atan2 hypot : ℝ → ℝ → ℝ} (ha : ExactAtan2 atan2)
    (hh' : ExactHypot hypot) (im : Image (Unit → Nat)) (hu : IsU8 im) (hw : 0 < im.w) (hh : 0 < im.h)
    (lo hi : Nat) (h0 : 0 < lo) (hlh : lo ≤ hi) :
    ∃ blurred out, gaussianBlur32 expf im (rnd32 1.4) = some blurred ∧ IsU8 blurred ∧
      blurred.w = im.w ∧ blurred.h = im.h ∧ cannyImage32 expf atan2 hypot im lo hi = some out ∧
      out.w = im.w ∧ out.h = im.h ∧
      ∀ a b, a < im.w → b < im.h → (out.px a b = 0 ∨ out.px a b = 255) ∧
        (out.px a b = 255 ↔ ∃ s, Edge blurred hi s ∧
          Relation.ReflTransGen (fun p q => Nbr6 p q ∧ Edge blurred lo q) s (a, b)) := by
  obtain ⟨bl, out, e1, e2, e3, e4, e5, e6, e7, e8⟩ := C136_canny he ha hh' im hu hw hh lo hi
    (by exact_mod_cast h0) (by exact_mod_cast hlh)
  refine ⟨bl, out, e1, e2, e3, e4, e5, e6, e7, fun a b ha hb => ?_⟩
  obtain ⟨p1, p2⟩ := e8 a b ha hb
  refine ⟨p1, p2.trans ?_⟩
  have key : ∀ (v : Nat) (p : Nat × Nat), (Edge bl 0 p ∧ (v : ℝ) ≤ rnd32 (strength bl p.1 p.2)) ↔ Edge bl v p := by
    rintro v ⟨x, y⟩
    unfold Edge
    dsimp only
    by_cases hin : x + 1 < bl.w ∧ y + 1 < bl.h
    · obtain ⟨k, hk, ek⟩ := strength_nat e2 (show x < bl.w by omega) (show y < bl.h by omega)
      rw [ek, threshold32 hk]
      have := sqrt_nonneg (k : ℝ)
      tauto
    · tauto
  simp only [key]

/-! ### Flat images -/

theorem corr_const {σ K ι : Type _} [Zero K] [Add K] [Mul K] (into : σ → K) (im : Image (ι → σ)) (kw kh : Nat)
    (wt : Nat → Nat → K) (c : ι) (v : σ) (hw : 0 < im.w) (hh : 0 < im.h)
    (hv : ∀ x y, x < im.w → y < im.h → im.px x y c = v) (x y : Nat) :
    corr into im kw kh wt x y c = (kpos kw kh).foldl (fun a p => a + into v * wt p.1 p.2) 0 := by
  unfold corr
  congr 1
  funext a p
  rw [hv _ _ (clampTo_lt hw _) (clampTo_lt hh _)]

/-- **C136.** An image of a single colour has no edges in single precision either, although the blur may
make it darker. -/
theorem C136_flat {expf : ℝ → ℝ} (he : GoodExp expf) {atan2 hypot : ℝ → ℝ → ℝ} (ha : ExactAtan2 atan2)
    (hh' : ExactHypot hypot) (im : Image (Unit → Nat)) (hu : IsU8 im) (hw : 0 < im.w) (hh : 0 < im.h)
    (lo hi : ℝ) (h0 : 0 < lo) (hlh : lo ≤ hi) (v : Nat)
    (hv : ∀ x y, x < im.w → y < im.h → im.px x y () = v) :
    ∃ out, cannyImage32 expf atan2 hypot im lo hi = some out ∧ out.w = im.w ∧ out.h = im.h ∧
      ∀ a b, a < im.w → b < im.h → out.px a b = 0 := by
  obtain ⟨bl, out, e1, e2, e3, e4, e5, e6, e7, e8⟩ := C136_canny he ha hh' im hu hw hh lo hi h0 hlh
  refine ⟨out, e5, e6, e7, fun a b ha hb => ?_⟩
  rcases (e8 a b ha hb).1 with h' | h'
  · exact h'
  exfalso
  obtain ⟨⟨x, y⟩, ⟨⟨s1, s2, s3, s4, -⟩, s5⟩, -⟩ := (e8 a b ha hb).2.1 h'
  dsimp only at s1 s2 s3 s4 s5
  have hc : ∃ u, ∀ x y, x < bl.w → y < bl.h → bl.px x y () = u := by
    unfold gaussianBlur32 at e1
    split_ifs at e1 with hs
    obtain ⟨ker, -, k2⟩ := Option.bind_eq_some_iff.1 e1
    obtain ⟨out', f1, f2, f3, f4⟩ := separable_spec (fun v : Nat => (⟨(v : ℝ)⟩ : F32 ℝ))
      (fun a => clampU8 a.val) 0 im ker ker rfl hu.1 hu.2.1
    rw [f1, Option.some.injEq] at k2
    subst k2
    set mid : Image (Unit → Nat) := ⟨im.w, im.h, fun x y c => clampU8 (corr (fun v : Nat =>
      (⟨(v : ℝ)⟩ : F32 ℝ)) im ker.length 1 (weights ker ker.length) x y c).val⟩ with hmid
    have hm := fun x y (_ : x < mid.w) (_ : y < mid.h) => congrArg (fun t : F32 ℝ => clampU8 t.val)
      (corr_const (fun v : Nat => (⟨(v : ℝ)⟩ : F32 ℝ)) im ker.length 1 (weights ker ker.length) () v hw hh hv x y)
    exact ⟨_, fun x y hx hy => (f4 x y (by omega) (by omega) ()).trans
      (congrArg (fun t : F32 ℝ => clampU8 t.val) (corr_const _ mid _ _ _ () _ hw hh hm x y))⟩
  obtain ⟨u, hc⟩ := hc
  have := (C76_constant bl () x y u (fun dx dy _ _ _ _ => by
    unfold at'
    rw [hc _ _ (clampTo_lt (by omega) _) (clampTo_lt (by omega) _)])).1 1 2
  unfold strength at s5
  rw [this.1, this.2] at s5
  norm_num at s5
  rw [show rnd32 (0 : ℝ) = 0 from rnd_zero] at s5
  linarith

/-! ### The accuracy of `atan2` matters -/

theorem exactAtan2_rnd : ExactAtan2 fun y x => rnd32 (Complex.arg ⟨x, y⟩) := fun _ _ _ _ => rfl

theorem exactHypot_rnd : ExactHypot fun h v => rnd32 √(h ^ 2 + v ^ 2) := fun _ _ _ _ => rfl

/-- The angle of the gradient `(-985, -408)`, just outside the diagonal sector. -/
theorem arg_close : -(2.7488938919 : ℝ) ≤ Complex.arg ⟨((-985 : Int) : ℝ), ((-408 : Int) : ℝ)⟩ ∧
    Complex.arg ⟨((-985 : Int) : ℝ), ((-408 : Int) : ℝ)⟩ ≤ -2.7488935718 ∧
    sectorOf (-985) (-408) = .d0 := by
  obtain ⟨q1, q2, q3⟩ := sqrt_two_bounds
  have hq : (√2 + 1) * 408 < 985 := by norm_num at q2; linarith
  have p1 := pi_gt_d20
  have p2 := pi_lt_d20
  norm_num at p1 p2
  have hsec : sectorOf (-985) (-408) = .d0 := by
    obtain ⟨X, Y, hY, hXY, h1, -, -, -⟩ := degrees_spec (-985) (-408) (by norm_num)
    have hX : X = 985 ∧ Y = 408 := by omega
    obtain ⟨rfl, rfl⟩ := hX
    have : ¬ (22.5 ≤ degrees (-985) (-408)) := by
      rw [h1]; push_cast; linarith
    unfold sectorOf
    dsimp only
    rw [if_pos (fun h => this h.1)]
  obtain ⟨a, r, X, Y, hr, hr2, a0, ap, -, hY, hc, hs, hXY⟩ := degrees_angle (-985) (-408) (by norm_num)
  rcases hXY with ⟨rfl, rfl, -⟩ | ⟨rfl, rfl, -, hA⟩
  · norm_num at hY
  rw [hA]
  push_cast at hc hs
  obtain ⟨e1, e2⟩ := eighth
  have e : r * sin (π / 8 - a) = sin (π / 8) * (985 - (√2 + 1) * 408) := by
    rw [sin_sub, e1]
    linear_combination sin (π / 8) * hc - ((√2 + 1) * sin (π / 8)) * hs
  have hlt : a ≤ π / 8 := by
    by_contra h
    push Not at h
    have : sin (π / 8 - a) ≤ 0 := sin_nonpos_of_nonpos_of_neg_pi_le (by linarith) (by linarith)
    have l1 : r * sin (π / 8 - a) ≤ 0 := mul_nonpos_of_nonneg_of_nonpos hr.le this
    have l2 : 0 < sin (π / 8) * (985 - (√2 + 1) * 408) := mul_pos e2 (by linarith)
    linarith
  have hr3 : 1066 ≤ r := by
    apply le_of_sq_le_sq _ hr.le
    rw [hr2]; norm_num
  have hup : π / 8 - a ≤ 3.2 / 10 ^ 7 := by
    by_contra h
    push Not at h
    have s1 : sin (3.2 / 10 ^ 7) ≤ sin (π / 8 - a) :=
      sin_le_sin_of_le_of_le_pi_div_two (by norm_num; linarith) (by linarith) h.le
    have s2 := sin_gt_sub_cube (x := 3.2 / 10 ^ 7) (by norm_num)
    have s3 : sin (π / 8) ≤ 0.3827 := by
      rw [sin_pi_div_eight]
      have : √(2 - √2) ≤ 0.7654 := by
        rw [sqrt_le_left (by norm_num)]
        norm_num at q1 ⊢; linarith
      linarith
    have l1 : 1066 * (3.19 / 10 ^ 7) ≤ r * sin (π / 8 - a) :=
      mul_le_mul hr3 (by norm_num at s1 s2 ⊢; linarith) (by norm_num) hr.le
    have l2 : sin (π / 8) * (985 - (√2 + 1) * 408) ≤ 0.3827 * 0.000868 :=
      mul_le_mul s3 (by norm_num at q1 ⊢; linarith) (by linarith) (by norm_num)
    rw [← e] at l2
    norm_num at l1 l2
    linarith
  norm_num at hup ⊢
  exact ⟨by linarith, by linarith, hsec⟩

/-- **C136.** An `atan2` that is only faithful (within one unit in the last place) is not enough: for
the gradient `(-985, -408)` it can return the next number, and then the pixel is compared with its
diagonal neighbours although the horizontal direction is closer. -/
theorem C136_sharp : ∃ atan2 : ℝ → ℝ → ℝ, (∀ dx dy : Int, |dx| ≤ 1020 → |dy| ≤ 1020 →
      Rep 24 (-149) (atan2 dy dx) ∧
      |atan2 dy dx - Complex.arg ⟨dx, dy⟩| ≤ 2 ^ ulpExp 24 (-149) (Complex.arg ⟨dx, dy⟩)) ∧
    sector32 atan2 (-985) (-408) = .d45 ∧ sectorOf (-985) (-408) = .d0 := by
  obtain ⟨c1, c2, c3⟩ := arg_close
  classical
  refine ⟨fun y x => if x = -985 ∧ y = -408 then -(11529696 / 4194304) else rnd32 (Complex.arg ⟨x, y⟩),
    fun dx dy _ _ => ?_, ?_, c3⟩
  · dsimp only
    by_cases h : (dx : ℝ) = -985 ∧ (dy : ℝ) = -408
    · rw [if_pos h]
      have e1 : dx = -985 := by exact_mod_cast h.1
      have e2 : dy = -408 := by exact_mod_cast h.2
      subst e1 e2
      have hl : (2 : ℝ) ^ (-22 : Int) ≤ 2 ^ ulpExp 24 (-149) (Complex.arg ⟨((-985 : Int) : ℝ), ((-408 : Int) : ℝ)⟩) := by
        apply zpow_le_zpow_right₀ (by norm_num)
        unfold ulpExp
        have : 1 ≤ Int.log 2 |Complex.arg ⟨((-985 : Int) : ℝ), ((-408 : Int) : ℝ)⟩| := by
          rw [← Int.zpow_le_iff_le_log (by norm_num) (by rw [abs_pos]; intro h0; rw [h0] at c2; norm_num at c2)]
          rw [abs_of_neg (lt_of_le_of_lt c2 (by norm_num))]
          norm_num at c2 ⊢
          linarith
        have h2 := le_max_left (Int.log 2 |Complex.arg ⟨((-985 : Int) : ℝ), ((-408 : Int) : ℝ)⟩| + 1 - ((24 : Nat) : Int)) (-149)
        generalize Int.log 2 |Complex.arg ⟨((-985 : Int) : ℝ), ((-408 : Int) : ℝ)⟩| = l at *
        have h24 : ((24 : Nat) : Int) = 24 := rfl
        omega
      refine ⟨⟨-11529696, -22, by norm_num, by norm_num, by norm_num⟩, le_trans ?_ hl⟩
      rw [abs_le]
      norm_num at c1 c2 ⊢
      constructor <;> linarith
    · rw [if_neg h]
      refine ⟨rep_rnd _, le_trans (rnd_error _) ?_⟩
      have := two_zpow_pos ℝ (ulpExp 24 (-149) (Complex.arg ⟨dx, dy⟩))
      linarith
  · have hd : degrees32 (fun y x => if x = -985 ∧ y = -408 then -(11529696 / 4194304) else
        rnd32 (Complex.arg ⟨x, y⟩)) (-985) (-408) = 22.5 := by
      have r1 : rnd32 (((-985 : Int)) : ℝ) = -985 := by
        have := rnd_int (K := ℝ) (p := 24) (emin := -149) (n := -985) (by norm_num) (by norm_num) (by norm_num)
        push_cast at this ⊢
        exact this
      have r2 : rnd32 (((-408 : Int)) : ℝ) = -408 := by
        have := rnd_int (K := ℝ) (p := 24) (emin := -149) (n := -408) (by norm_num) (by norm_num) (by norm_num)
        push_cast at this ⊢
        exact this
      unfold degrees32
      dsimp only
      rw [r1, r2, if_pos (⟨rfl, rfl⟩ : (-985 : ℝ) = -985 ∧ (-408 : ℝ) = -408)]
      have e1 : rnd32 (-(11529696 / 4194304) * (radToDeg32 : ℝ)) = -157.5 := by
        have : rnd32 (((-(11529696 / 4194304) * radToDeg32 : ℚ)) : ℝ) = ((-157.5 : ℚ) : ℝ) := by
          rw [show rnd32 (((-(11529696 / 4194304) * radToDeg32 : ℚ)) : ℝ) =
            ((rnd32 (-(11529696 / 4194304) * radToDeg32 : ℚ) : ℚ) : ℝ) from rnd_cast _]
          rw [show rnd32 (-(11529696 / 4194304) * radToDeg32 : ℚ) = -157.5 by decide +kernel]
        push_cast at this
        rw [this]
      rw [e1, if_pos (by norm_num)]
      exact rnd_of_rep (by norm_num) ⟨45, -1, by norm_num, by norm_num, by norm_num⟩ |>.trans (by norm_num)
    unfold sector32
    dsimp only
    rw [hd, if_neg (by norm_num), if_pos (by norm_num)]

/-- The correctly rounded function gives the right direction for the same gradient. -/
example : sector32 (fun y x => rnd32 (Complex.arg ⟨x, y⟩)) (-985) (-408) = .d0 := by
  rw [C136_sector exactAtan2_rnd (by norm_num) (by norm_num)]
  exact arg_close.2.2

end Verif.Float
