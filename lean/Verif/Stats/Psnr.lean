import Verif.Stats.Props
import Verif.Math.Norms
import Mathlib.Analysis.SpecialFunctions.Log.Base
import Mathlib.Data.EReal.Basic
/-
Model of `root_mean_squared_error` and `peak_signal_to_noise_ratio` (`/repo/src/stats.rs`) over the
real numbers, and property theorem C106.
-/
namespace Verif.Stats
open Finset

/-- `root_mean_squared_error`, stats.rs:175-183. -/
noncomputable def rootMeanSquaredError (n : Nat) (a b : Image (Nat → ℚ)) : Option ℝ :=
  (meanSquaredError n a b).map fun v : ℚ => Real.sqrt (v : ℝ)

/-- `peak_signal_to_noise_ratio`, stats.rs:189-199; `mx` is the largest channel value.  The
logarithm of zero is `-∞`. -/
noncomputable def peakSignalToNoiseRatio (n : Nat) (mx : ℝ) (original noisy : Image (Nat → ℚ)) :
    Option EReal :=
  (meanSquaredError n original noisy).map fun mse : ℚ =>
    if mse = 0 then ⊤ else ((20 * Real.logb 10 mx - 10 * Real.logb 10 (mse : ℝ) : ℝ) : EReal)

theorem minkowski {S : Type} (s : Finset S) (f g : S → ℝ) :
    Real.sqrt (∑ i ∈ s, (f i + g i) ^ 2) ≤ Real.sqrt (∑ i ∈ s, f i ^ 2) + Real.sqrt (∑ i ∈ s, g i ^ 2) := by
  have key : ∀ h : S → ℝ, Real.sqrt (∑ i ∈ s, h i ^ 2) =
      ‖(WithLp.toLp 2 fun i : s => h i : EuclideanSpace ℝ s)‖ := by
    intro h
    rw [EuclideanSpace.norm_eq, ← Finset.sum_coe_sort]
    congr 1
    exact sum_congr rfl fun i _ => by rw [Real.norm_eq_abs, sq_abs]
  rw [key, key, key]
  exact norm_add_le (WithLp.toLp 2 fun i : s => f i : EuclideanSpace ℝ s) (WithLp.toLp 2 fun i : s => g i)

theorem rmse_eq (n : Nat) (a b : Image (Nat → ℚ)) (hw : a.w = b.w) (hh : a.h = b.h) :
    rootMeanSquaredError n a b = some (Real.sqrt (∑ i ∈ allPx a.w a.h ×ˢ range n,
      (((a.px i.1.1 i.1.2 i.2 : ℚ) : ℝ) - ((b.px i.1.1 i.1.2 i.2 : ℚ) : ℝ)) ^ 2) /
      Real.sqrt ((a.w * a.h * n : Nat) : ℝ)) := by
  unfold rootMeanSquaredError
  rw [mse_eq n a b hw hh, Option.map_some, Finset.sum_product]
  push_cast
  rw [Real.sqrt_div (sum_nonneg fun _ _ => sum_nonneg fun _ _ => sq_nonneg _)]

/-- **C106.** The root mean squared error is a metric on the images of one (non-empty) size: it is
nonnegative, zero exactly for equal images, symmetric, and satisfies the triangle inequality; images of
different sizes are rejected. -/
theorem C106_rmse_metric (n : Nat) (a b c : Image (Nat → ℚ)) (hn : 0 < n) (hw0 : 0 < a.w) (hh0 : 0 < a.h)
    (hb : b.w = a.w ∧ b.h = a.h) (hc : c.w = a.w ∧ c.h = a.h) :
    ∃ ab ba bc ac, rootMeanSquaredError n a b = some ab ∧ rootMeanSquaredError n b a = some ba ∧
      rootMeanSquaredError n b c = some bc ∧ rootMeanSquaredError n a c = some ac ∧
      0 ≤ ab ∧ (ab = 0 ↔ ∀ x y i, x < a.w → y < a.h → i < n → a.px x y i = b.px x y i) ∧
      ab = ba ∧ ac ≤ ab + bc := by
  refine ⟨_, _, _, _, rmse_eq n a b hb.1.symm hb.2.symm, rmse_eq n b a hb.1 hb.2,
    rmse_eq n b c (by omega) (by omega), rmse_eq n a c hc.1.symm hc.2.symm, by positivity, ?_, ?_, ?_⟩
  · obtain ⟨v, e1, e2, e3⟩ := C81_zero_iff_equal n a b hb.1.symm hb.2.symm hw0 hh0 hn
    rw [← e3]
    have h := rmse_eq n a b hb.1.symm hb.2.symm
    unfold rootMeanSquaredError at h
    rw [e1, Option.map_some] at h
    rw [← Option.some.inj h, Real.sqrt_eq_zero (by exact_mod_cast e2)]
    exact Rat.cast_eq_zero
  · rw [hb.1, hb.2]
    congr 2
    exact sum_congr rfl fun i _ => by ring
  · rw [hb.1, hb.2, ← add_div]
    refine div_le_div_of_nonneg_right ?_ (Real.sqrt_nonneg _)
    refine le_trans (le_of_eq ?_) (minkowski _ _ _)
    congr 1
    exact sum_congr rfl fun i _ => by ring

/-- **C106.** The root mean squared error is the nonnegative number whose square is the mean of the
squared differences of all samples. -/
theorem C106_value (n : Nat) (a b : Image (Nat → ℚ)) (hb : b.w = a.w ∧ b.h = a.h) :
    ∃ r, rootMeanSquaredError n a b = some r ∧ 0 ≤ r ∧
      r ^ 2 = (∑ y ∈ range a.h, ∑ x ∈ range a.w, ∑ i ∈ range n,
        ((a.px x y i - b.px x y i : ℚ) : ℝ) ^ 2) / (a.w * a.h * n) := by
  have e := mse_eq n a b hb.1.symm hb.2.symm
  refine ⟨_, by rw [rootMeanSquaredError, e]; rfl, Real.sqrt_nonneg _, ?_⟩
  rw [Real.sq_sqrt]
  · rw [allPx, sum_product]
    push_cast
    congr 1
    exact sum_comm
  · have : (0 : ℚ) ≤ (∑ p ∈ allPx a.w a.h, ∑ c ∈ range n,
        (a.px p.1 p.2 c - b.px p.1 p.2 c) ^ 2) / ((a.w * a.h * n : Nat) : ℚ) := by positivity
    exact_mod_cast this

/-- **C106.** Images of different sizes are rejected by both functions. -/
theorem C106_sizes (n : Nat) (mx : ℝ) (a b : Image (Nat → ℚ)) (h : ¬ (a.w = b.w ∧ a.h = b.h)) :
    rootMeanSquaredError n a b = none ∧ peakSignalToNoiseRatio n mx a b = none := by
  unfold rootMeanSquaredError peakSignalToNoiseRatio
  rw [C81_mean_squared_error, if_neg h]
  exact ⟨rfl, rfl⟩

/-- **C106.** The peak signal to noise ratio of different images is `20 * log10 (max / rmse)`; it is infinite for equal
images, symmetric, and the larger the smaller the root mean squared error. -/
theorem C106_psnr (n : Nat) (mx : ℝ) (hmx : 0 < mx) (a b : Image (Nat → ℚ)) (hn : 0 < n)
    (hw0 : 0 < a.w) (hh0 : 0 < a.h) (hb : b.w = a.w ∧ b.h = a.h) :
    ∃ r v, rootMeanSquaredError n a b = some r ∧ peakSignalToNoiseRatio n mx a b = some v ∧
      peakSignalToNoiseRatio n mx b a = some v ∧ (r = 0 → v = ⊤) ∧
      (0 < r → v = ((20 * Real.logb 10 (mx / r) : ℝ) : EReal)) := by
  obtain ⟨m, e1, e2, -⟩ := C81_zero_iff_equal n a b hb.1.symm hb.2.symm hw0 hh0 hn
  refine ⟨Real.sqrt (m : ℝ), _, by rw [rootMeanSquaredError, e1]; rfl,
    by rw [peakSignalToNoiseRatio, e1]; rfl, by rw [peakSignalToNoiseRatio, ← C81_symmetric, e1]; rfl,
    fun h => ?_, fun h => ?_⟩
  · rw [Real.sqrt_eq_zero (by exact_mod_cast e2), Rat.cast_eq_zero] at h
    dsimp only
    rw [if_pos h]
  · have hm : (0 : ℝ) < m := Real.sqrt_pos.1 h
    have hm' : m ≠ 0 := by rintro rfl; simp at hm
    dsimp only
    rw [if_neg hm']
    congr 1
    rw [Real.logb_div hmx.ne' h.ne']
    have : Real.logb 10 (m : ℝ) = 2 * Real.logb 10 (Real.sqrt (m : ℝ)) := by
      conv_lhs => rw [← Real.sq_sqrt hm.le]
      rw [Real.logb_pow]
      norm_num
    rw [this]
    ring

/-- **C106.** A smaller error gives a larger ratio. -/
theorem C106_psnr_antitone (n : Nat) (mx : ℝ) (hmx : 0 < mx) (a b a' b' : Image (Nat → ℚ)) (hn : 0 < n)
    (hw0 : 0 < a.w) (hh0 : 0 < a.h) (hb : b.w = a.w ∧ b.h = a.h) (hw0' : 0 < a'.w) (hh0' : 0 < a'.h)
    (hb' : b'.w = a'.w ∧ b'.h = a'.h) :
    ∃ r v r' v', rootMeanSquaredError n a b = some r ∧ peakSignalToNoiseRatio n mx a b = some v ∧
      rootMeanSquaredError n a' b' = some r' ∧ peakSignalToNoiseRatio n mx a' b' = some v' ∧
      (r < r' ↔ v' < v) := by
  obtain ⟨r, v, h1, h2, -, h3, h4⟩ := C106_psnr n mx hmx a b hn hw0 hh0 hb
  obtain ⟨r', v', h1', h2', -, h3', h4'⟩ := C106_psnr n mx hmx a' b' hn hw0' hh0' hb'
  have n1 : 0 ≤ r := by
    rw [rmse_eq n a b hb.1.symm hb.2.symm] at h1
    rw [← Option.some.inj h1]; positivity
  have n2 : 0 ≤ r' := by
    rw [rmse_eq n a' b' hb'.1.symm hb'.2.symm] at h1'
    rw [← Option.some.inj h1']; positivity
  refine ⟨r, v, r', v', h1, h2, h1', h2', ?_⟩
  rcases n1.eq_or_lt with e | p
  · rw [h3 e.symm, ← e]
    rcases n2.eq_or_lt with e' | p'
    · rw [h3' e'.symm, ← e']; simp
    · rw [h4' p']; exact ⟨fun _ => EReal.coe_lt_top _, fun _ => p'⟩
  · rw [h4 p]
    rcases n2.eq_or_lt with e' | p'
    · rw [h3' e'.symm, ← e']
      constructor
      · intro h; linarith
      · intro h; exact absurd h (not_lt.2 le_top)
    · rw [h4' p', EReal.coe_lt_coe_iff]
      have : Real.logb 10 (mx / r') < Real.logb 10 (mx / r) ↔ mx / r' < mx / r :=
        Real.logb_lt_logb_iff (by norm_num) (by positivity) (by positivity)
      rw [mul_lt_mul_iff_right₀ (by norm_num : (0 : ℝ) < 20), this,
        div_lt_div_iff_of_pos_left hmx p' p]

-- Two one-pixel images that differ by 51: the ratio is 20 log10 5.
example : peakSignalToNoiseRatio 1 255 ⟨1, 1, fun _ _ _ => 100⟩ ⟨1, 1, fun _ _ _ => 151⟩ =
    some ((20 * Real.logb 10 5 : ℝ) : EReal) := by
  obtain ⟨r, v, h1, h2, -, -, h4⟩ := C106_psnr 1 255 (by norm_num) ⟨1, 1, fun _ _ _ => 100⟩
    ⟨1, 1, fun _ _ _ => 151⟩ (by decide) (by decide) (by decide) ⟨rfl, rfl⟩
  have hr : r = 51 := by
    rw [rootMeanSquaredError, C81_mean_squared_error] at h1
    simp at h1
    rw [← h1, show ((100 : ℝ) - 151) ^ 2 = 51 ^ 2 by norm_num]
    exact Real.sqrt_sq (by norm_num)
  rw [h2, h4 (by rw [hr]; norm_num), hr]
  norm_num

end Verif.Stats
