import Verif.Edges.Props
import Mathlib.Analysis.SpecialFunctions.Complex.Arg
import Mathlib.NumberTheory.Real.Irrational
import Mathlib.Tactic.LinearCombination
/-
The gradient direction of `non_maximum_suppression`, `/repo/src/edges.rs:66-82`, over the real
numbers: `f32` rounding of the angle is not modelled.  Property theorem C115.
-/
namespace Verif.Edges
open Real

/-- `(y_gradient).atan2(x_gradient) * RADIANS_TO_DEGREES`, plus 180 when negative, edges.rs:68-71. -/
noncomputable def degrees (dx dy : Int) : ℝ :=
  let angle := Complex.arg ⟨dx, dy⟩ * (180 / π)
  if angle < 0 then angle + 180 else angle

/-- The clamped angle, edges.rs:73-83. -/
noncomputable def sectorOf (dx dy : Int) : Sector :=
  let angle := degrees dx dy
  if ¬ (22.5 ≤ angle ∧ angle < 157.5) then .d0
  else if 22.5 ≤ angle ∧ angle < 67.5 then .d45
  else if 67.5 ≤ angle ∧ angle < 112.5 then .d90
  else .d135

/-- The unit vector from a pixel to the second of its two neighbours in a sector. -/
noncomputable def unit : Sector → ℝ × ℝ
  | .d0 => (1, 0)
  | .d45 => (√2 / 2, √2 / 2)
  | .d90 => (0, 1)
  | .d135 => (-(√2 / 2), √2 / 2)

/-- Length of the projection of a gradient on the direction of a sector. -/
noncomputable def projection (dx dy : Int) (d : Sector) : ℝ := |dx * (unit d).1 + dy * (unit d).2|

theorem angle_le {r a α : ℝ} (hr : 0 < r) (h0 : 0 ≤ a) (hp : a ≤ π) (hα0 : 0 < α) (hα : α < π) :
    α ≤ a ↔ r * cos a * sin α ≤ r * sin a * cos α := by
  have e : r * sin a * cos α - r * cos a * sin α = r * sin (a - α) := by rw [sin_sub]; ring
  constructor
  · intro h
    have : 0 ≤ sin (a - α) := sin_nonneg_of_nonneg_of_le_pi (by linarith) (by linarith)
    have := mul_nonneg hr.le this
    linarith
  · intro h
    by_contra hlt
    push Not at hlt
    have : sin (a - α) < 0 := sin_neg_of_neg_of_neg_pi_lt (by linarith) (by linarith)
    have := mul_neg_of_pos_of_neg hr this
    linarith

theorem eighth : cos (π / 8) = (√2 + 1) * sin (π / 8) ∧ 0 < sin (π / 8) := by
  have hs : 0 < sin (π / 8) := sin_pos_of_pos_of_lt_pi (by positivity) (by linarith [pi_pos])
  have hc : 0 < cos (π / 8) := cos_pos_of_mem_Ioo ⟨by linarith [pi_pos], by linarith [pi_pos]⟩
  refine ⟨?_, hs⟩
  have h1 : cos (π / 4) = 2 * cos (π / 8) ^ 2 - 1 := by
    rw [← cos_two_mul]; congr 1; ring
  have h2 : sin (π / 4) = 2 * sin (π / 8) * cos (π / 8) := by
    rw [← sin_two_mul]; congr 1; ring
  rw [cos_pi_div_four] at h1
  rw [sin_pi_div_four] at h2
  have h3 : √2 * √2 = 2 := mul_self_sqrt (by norm_num)
  have h4 := sin_sq_add_cos_sq (π / 8)
  have h5 : √2 * cos (π / 8) = (√2 + 2) * sin (π / 8) := by
    apply mul_left_cancel₀ hc.ne'
    have : 2 * cos (π / 8) ^ 2 = √2 / 2 + 1 := by linarith
    nlinarith [this, h2, h3]
  have h6 : 0 < √2 := by positivity
  apply mul_left_cancel₀ h6.ne'
  rw [h5]
  linear_combination (-sin (π / 8)) * h3

/-- The angle between 0 and π that the gradient, or its opposite, makes with the horizontal. -/
theorem degrees_angle (dx dy : Int) (hne : ¬ (dx = 0 ∧ dy = 0)) : ∃ (a r : ℝ) (X Y : Int),
    0 < r ∧ r ^ 2 = (dx : ℝ) ^ 2 + (dy : ℝ) ^ 2 ∧ 0 ≤ a ∧ a ≤ π ∧
    degrees dx dy = a * (180 / π) ∧ 0 ≤ Y ∧ r * cos a = X ∧ r * sin a = Y ∧
    ((X = dx ∧ Y = dy ∧ Complex.arg ⟨dx, dy⟩ = a) ∨
      (X = -dx ∧ Y = -dy ∧ dy < 0 ∧ Complex.arg ⟨dx, dy⟩ = a - π)) := by
  set z : ℂ := ⟨dx, dy⟩ with hz
  have hz0 : z ≠ 0 := by
    intro h
    have h1 := congrArg Complex.re h
    have h2 := congrArg Complex.im h
    simp only [hz, Complex.zero_re, Complex.zero_im, Int.cast_eq_zero] at h1 h2
    exact hne ⟨h1, h2⟩
  have hr : 0 < ‖z‖ := norm_pos_iff.2 hz0
  have hre : ‖z‖ * cos (Complex.arg z) = dx := Complex.norm_mul_cos_arg z
  have him : ‖z‖ * sin (Complex.arg z) = dy := Complex.norm_mul_sin_arg z
  have hr2 : ‖z‖ ^ 2 = (dx : ℝ) ^ 2 + (dy : ℝ) ^ 2 := by
    rw [← hre, ← him]
    linear_combination (-‖z‖ ^ 2) * sin_sq_add_cos_sq (Complex.arg z)
  obtain ⟨hlo, hhi⟩ := Complex.arg_mem_Ioc z
  have hk : (0 : ℝ) < 180 / π := by positivity
  unfold degrees
  by_cases hneg : Complex.arg z < 0
  · have hdy : dy < 0 := by
      have : (dy : ℝ) < 0 := Complex.arg_neg_iff.1 hneg
      exact_mod_cast this
    refine ⟨Complex.arg z + π, ‖z‖, -dx, -dy, hr, hr2, by linarith, by linarith, ?_, by omega, ?_, ?_,
      Or.inr ⟨rfl, rfl, hdy, by ring⟩⟩
    · dsimp only
      rw [← hz, if_pos (mul_neg_of_neg_of_pos hneg hk)]
      field_simp
    · rw [cos_add_pi, mul_neg, hre]; push_cast; rfl
    · rw [sin_add_pi, mul_neg, him]; push_cast; rfl
  · push Not at hneg
    refine ⟨Complex.arg z, ‖z‖, dx, dy, hr, hr2, hneg, hhi, ?_, ?_, hre, him, Or.inl ⟨rfl, rfl, rfl⟩⟩
    · dsimp only
      rw [← hz, if_neg (not_lt.2 (mul_nonneg hneg hk.le))]
    · have : (0 : ℝ) ≤ dy := Complex.arg_nonneg_iff.1 hneg
      exact_mod_cast this

/-- The upper half plane representative of the gradient and its angle. -/
theorem degrees_spec (dx dy : Int) (hne : ¬ (dx = 0 ∧ dy = 0)) : ∃ X Y : Int, 0 ≤ Y ∧
    ((X = dx ∧ Y = dy) ∨ (X = -dx ∧ Y = -dy)) ∧
    (22.5 ≤ degrees dx dy ↔ (X : ℝ) ≤ (√2 + 1) * Y) ∧
    (67.5 ≤ degrees dx dy ↔ (√2 + 1) * X ≤ Y) ∧
    (112.5 ≤ degrees dx dy ↔ (√2 + 1) * X ≤ -Y) ∧
    (157.5 ≤ degrees dx dy ↔ (X : ℝ) ≤ -((√2 + 1) * Y)) := by
  obtain ⟨a, r, X, Y, hr, -, a0, ap, ad, hY, hc, hs, hXY'⟩ := degrees_angle dx dy hne
  have hXY : (X = dx ∧ Y = dy) ∨ (X = -dx ∧ Y = -dy) := by
    rcases hXY' with ⟨h1, h2, -⟩ | ⟨h1, h2, -⟩
    · exact Or.inl ⟨h1, h2⟩
    · exact Or.inr ⟨h1, h2⟩
  have hk : (0 : ℝ) < 180 / π := by positivity
  obtain ⟨e1, e2⟩ := eighth
  have conv : ∀ t : ℝ, t ≤ degrees dx dy ↔ t * π / 180 ≤ a := by
    intro t
    rw [ad, ← div_le_iff₀ hk, show t / (180 / π) = t * π / 180 by field_simp]
  refine ⟨X, Y, hY, hXY, ?_, ?_, ?_, ?_⟩
  · rw [conv, show (22.5 : ℝ) * π / 180 = π / 8 by ring,
      angle_le hr a0 ap (by positivity) (by linarith [pi_pos]), hc, hs, e1]
    rw [show (Y : ℝ) * ((√2 + 1) * sin (π / 8)) = ((√2 + 1) * Y) * sin (π / 8) by ring]
    exact mul_le_mul_iff_left₀ e2
  · rw [conv, show (67.5 : ℝ) * π / 180 = π / 2 - π / 8 by ring,
      angle_le hr a0 ap (by linarith [pi_pos]) (by linarith [pi_pos]), hc, hs, sin_pi_div_two_sub,
      cos_pi_div_two_sub, e1,
      show (X : ℝ) * ((√2 + 1) * sin (π / 8)) = ((√2 + 1) * X) * sin (π / 8) by ring]
    exact mul_le_mul_iff_left₀ e2
  · rw [conv, show (112.5 : ℝ) * π / 180 = π / 8 + π / 2 by ring,
      angle_le hr a0 ap (by linarith [pi_pos]) (by linarith [pi_pos]), hc, hs, sin_add_pi_div_two,
      cos_add_pi_div_two, e1,
      show (X : ℝ) * ((√2 + 1) * sin (π / 8)) = ((√2 + 1) * X) * sin (π / 8) by ring,
      show (Y : ℝ) * -sin (π / 8) = (-Y) * sin (π / 8) by ring]
    exact mul_le_mul_iff_left₀ e2
  · rw [conv, show (157.5 : ℝ) * π / 180 = π - π / 8 by ring,
      angle_le hr a0 ap (by linarith [pi_pos]) (by linarith [pi_pos]), hc, hs, sin_pi_sub,
      cos_pi_sub, e1,
      show (Y : ℝ) * -((√2 + 1) * sin (π / 8)) = (-((√2 + 1) * Y)) * sin (π / 8) by ring]
    exact mul_le_mul_iff_left₀ e2

theorem sqrt_two_mul_ne {a b : Int} (h : ¬ (a = 0 ∧ b = 0)) : (√2 + 1) * a ≠ b := by
  intro e
  by_cases ha : a = 0
  · subst ha
    simp only [Int.cast_zero, mul_zero] at e
    exact h ⟨rfl, by exact_mod_cast e.symm⟩
  · have ha' : (a : ℝ) ≠ 0 := by exact_mod_cast ha
    have : √2 = ((b - a : Int) / a : ℚ) := by
      push_cast
      field_simp
      linarith
    exact irrational_sqrt_two ⟨_, this.symm⟩

/-- **C115.** The two neighbours an interior pixel is compared with lie in the direction, among the
horizontal, the vertical and the two diagonals, that is closest to its gradient: every other
direction has a strictly smaller projection of the gradient.  A zero gradient is compared
horizontally. -/
theorem C115_direction (dx dy : Int) :
    (dx = 0 ∧ dy = 0 → sectorOf dx dy = .d0) ∧
    (¬ (dx = 0 ∧ dy = 0) → ∀ d, d ≠ sectorOf dx dy →
      projection dx dy d < projection dx dy (sectorOf dx dy)) := by
  constructor
  · rintro ⟨rfl, rfl⟩
    have : (⟨((0 : Int) : ℝ), ((0 : Int) : ℝ)⟩ : ℂ) = 0 := by
      apply Complex.ext <;> simp
    unfold sectorOf degrees
    dsimp only
    rw [this, Complex.arg_zero, zero_mul, if_neg (lt_irrefl _), if_pos (by norm_num)]
  · intro hne
    obtain ⟨X, Y, hY, hXY, h1, h2, h3, h4⟩ := degrees_spec dx dy hne
    have hneXY : ¬ (X = 0 ∧ Y = 0) := by
      rcases hXY with ⟨rfl, rfl⟩ | ⟨rfl, rfl⟩
      · exact hne
      · omega
    have hproj : ∀ d, projection dx dy d = |X * (unit d).1 + Y * (unit d).2| := by
      intro d
      rcases hXY with ⟨rfl, rfl⟩ | ⟨rfl, rfl⟩
      · rfl
      · unfold projection
        push_cast
        rw [← abs_neg]
        congr 1
        ring
    have n1 : (√2 + 1) * (Y : ℝ) ≠ X := sqrt_two_mul_ne (by omega)
    have n2 : (√2 + 1) * (X : ℝ) ≠ Y := sqrt_two_mul_ne hneXY
    have n3 : (√2 + 1) * (X : ℝ) ≠ -Y := by
      have := sqrt_two_mul_ne (a := X) (b := -Y) (by omega)
      push_cast at this
      exact this
    have n4 : (X : ℝ) ≠ -((√2 + 1) * Y) := by
      have := sqrt_two_mul_ne (a := Y) (b := -X) (by omega)
      push_cast at this
      intro e
      exact this (by linarith)
    have hY' : (0 : ℝ) ≤ Y := by exact_mod_cast hY
    have hq : √2 * √2 = 2 := mul_self_sqrt (by norm_num)
    have hq1 : (1 : ℝ) < √2 := by
      rw [show (1 : ℝ) = √1 by simp]
      exact sqrt_lt_sqrt (by norm_num) (by norm_num)
    have hq0 : 0 < √2 := by linarith
    simp only [hproj]
    clear hproj hXY
    generalize (X : ℝ) = x at *
    generalize (Y : ℝ) = y at *
    have up : ∀ {a b : ℝ}, -b < a → a < b → |a| < |b| := fun h h' =>
      lt_of_lt_of_le (abs_lt.2 ⟨h, h'⟩) (le_abs_self _)
    have dn : ∀ {a b : ℝ}, b < a → a < -b → |a| < |b| := fun h h' =>
      lt_of_lt_of_le (abs_lt.2 ⟨by linarith, h'⟩) (neg_le_abs _)
    have mul : ∀ {a b : ℝ}, a < b → √2 * a < √2 * b := fun h => mul_lt_mul_of_pos_left h hq0
    have qx : √2 * (√2 * x) = 2 * x := by rw [← mul_assoc, hq]
    have qy : √2 * (√2 * y) = 2 * y := by rw [← mul_assoc, hq]
    have qy0 : 0 ≤ √2 * y := mul_nonneg hq0.le hY'
    have qy1 : y ≤ √2 * y := by nlinarith
    unfold sectorOf
    dsimp only
    have l23 : (67.5 : ℝ) ≤ degrees dx dy → 22.5 ≤ degrees dx dy := fun h => by linarith
    by_cases c1 : (22.5 : ℝ) ≤ degrees dx dy
    swap
    · rw [if_pos (fun h => c1 h.1)]
      rw [h1, not_le] at c1
      have m := mul c1
      have hx : 0 < x := by nlinarith
      have hxx := mul hx
      intro d hd
      cases d
      · exact absurd rfl hd
      all_goals
        simp only [unit]
        apply up <;> nlinarith
    by_cases c4 : (157.5 : ℝ) ≤ degrees dx dy
    · rw [if_pos (fun h => absurd h.2 (not_lt.2 c4))]
      rw [h4] at c4
      have c4 := lt_of_le_of_ne c4 n4
      have m := mul c4
      have hx : x < 0 := by nlinarith
      have hxx := mul hx
      intro d hd
      cases d
      · exact absurd rfl hd
      all_goals
        simp only [unit]
        apply dn <;> nlinarith
    rw [if_neg (not_not.2 ⟨c1, not_le.1 c4⟩)]
    by_cases c2 : (67.5 : ℝ) ≤ degrees dx dy
    swap
    · rw [if_pos ⟨c1, not_le.1 c2⟩]
      rw [h1] at c1
      rw [h2, not_le] at c2
      have c1 := lt_of_le_of_ne c1 (Ne.symm n1)
      have m1 := mul c1
      have m2 := mul c2
      have hx : 0 < x := by nlinarith
      have hxx := mul hx
      intro d hd
      cases d
      swap
      · exact absurd rfl hd
      all_goals
        simp only [unit]
        apply up <;> nlinarith
    rw [if_neg (fun h => absurd h.2 (not_lt.2 c2))]
    by_cases c3 : (112.5 : ℝ) ≤ degrees dx dy
    · rw [if_neg (fun h => absurd h.2 (not_lt.2 c3))]
      rw [h3] at c3
      rw [h4, not_le] at c4
      have c3 := lt_of_le_of_ne c3 n3
      have m3 := mul c3
      have m4 := mul c4
      have hx : x < 0 := by nlinarith
      have hxx := mul hx
      intro d hd
      cases d
      case d135 => exact absurd rfl hd
      all_goals
        simp only [unit]
        apply up <;> nlinarith
    · rw [if_pos ⟨c2, not_le.1 c3⟩]
      rw [h2] at c2
      rw [h3, not_le] at c3
      have c2 := lt_of_le_of_ne c2 n2
      have m2 := mul c2
      have m3 := mul c3
      intro d hd
      cases d
      case d90 => exact absurd rfl hd
      all_goals
        simp only [unit]
        apply up <;> nlinarith

/-- The gradient (4, 3) points along the diagonal, (5, 2) is compared horizontally. -/
example : sectorOf 4 3 = .d45 ∧ sectorOf 5 2 = .d0 ∧ sectorOf (-4) 3 = .d135 := by
  have hq : √2 * √2 = 2 := mul_self_sqrt (by norm_num)
  have hq1 : (0 : ℝ) < √2 := by positivity
  have pick : ∀ (dx dy : Int) (e : Sector), ¬ (dx = 0 ∧ dy = 0) →
      (∃ w : ℝ, (∀ d, d ≠ e → projection dx dy d < w) ∧ w ≤ projection dx dy e) →
      sectorOf dx dy = e := by
    rintro dx dy e hne ⟨w, h1, h2⟩
    by_contra h
    have a := (C115_direction dx dy).2 hne e (Ne.symm h)
    have b := h1 _ h
    linarith
  refine ⟨pick _ _ _ (by norm_num) ⟨√2 / 2 * 7, ?_, ?_⟩, pick _ _ _ (by norm_num) ⟨5, ?_, ?_⟩,
    pick _ _ _ (by norm_num) ⟨√2 / 2 * 7, ?_, ?_⟩⟩
  all_goals try (intro d hd; cases d <;> first | exact absurd rfl hd | skip)
  all_goals simp only [projection, unit, Int.cast_ofNat, Int.cast_neg]
  all_goals first
    | (refine le_trans ?_ (le_abs_self _); nlinarith)
    | (rw [abs_lt]; constructor <;> nlinarith)

end Verif.Edges
