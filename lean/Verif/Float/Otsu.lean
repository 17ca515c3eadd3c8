import Verif.Float.Stats
import Verif.Contrast.Otsu
/-
Property C133: the Otsu level (src/contrast.rs) in double precision.
-/
namespace Verif.Float
open Finset Verif.Stats Verif.Contrast

/-- The variance in binary64, src/contrast.rs:89-94 (`powi(2)` is one multiplication). -/
def otsuVal64 (bw fw : Nat) (bsum fsum : ℚ) : ℚ :=
  let bmean := rnd64 (bsum / rnd64 (bw : ℚ))
  let fmean := rnd64 (fsum / rnd64 (fw : ℚ))
  let d := rnd64 (bmean - fmean)
  rnd64 (rnd64 (rnd64 (bw : ℚ) * rnd64 (fw : ℚ)) * rnd64 (d * d))

/-- `otsu_level` in binary64, src/contrast.rs:52-103. -/
def otsuLevel64 (im : Image Nat) : Option Nat := otsuLevelWith rnd64 otsuVal64 im

/-- The variance computed for the split at `t`. -/
def split64 (im : Image Nat) (t : Nat) : ℚ :=
  if countPx im (· ≤ t) = 0 ∨ countPx im (t < ·) = 0 then 0
  else otsuVal64 (countPx im (· ≤ t)) (countPx im (t < ·)) (sumPx im (· ≤ t)) (sumPx im (t < ·))

theorem otsuVal64_nonneg (bw fw : Nat) (bsum fsum : ℚ) : 0 ≤ otsuVal64 bw fw bsum fsum := by
  unfold otsuVal64
  dsimp only
  refine rnd_nonneg (mul_nonneg (rnd_nonneg (mul_nonneg (rnd_nonneg ?_) (rnd_nonneg ?_)))
    (rnd_nonneg (mul_self_nonneg _)))
  · exact_mod_cast Nat.zero_le _
  · exact_mod_cast Nat.zero_le _

/-- The relative error of the variance for class means at least 1 apart. -/
theorem otsuVal64_error {bw fw bs fs : Nat} (hb : 0 < bw) (hf : 0 < fw) (hbw : bw ≤ 2 ^ 25)
    (hfw : fw ≤ 2 ^ 25) (hfs : fs ≤ 255 * fw)
    (hsep : (bs : ℚ) / bw + 1 ≤ (fs : ℚ) / fw) :
    |otsuVal64 bw fw bs fs - otsuVal bw fw bs fs| ≤ otsuVal bw fw bs fs * (1 / 2 ^ 43) := by
  have hbq : (0 : ℚ) < bw := by exact_mod_cast hb
  have hfq : (0 : ℚ) < fw := by exact_mod_cast hf
  unfold otsuVal64 otsuVal
  dsimp only
  rw [rnd64_nat (hbw.trans (by norm_num)), rnd64_nat (hfw.trans (by norm_num)),
    show (bw : ℚ) * fw = ((bw * fw : Nat) : ℚ) by push_cast; rfl,
    rnd64_nat (le_trans (Nat.mul_le_mul hbw hfw) (by norm_num))]
  have hp1 : (1 : ℚ) ≤ ((bw * fw : Nat) : ℚ) := by exact_mod_cast Nat.mul_pos hb hf
  generalize ((bw * fw : Nat) : ℚ) = p at *
  have a0 : 0 ≤ (bs : ℚ) / bw := by positivity
  have b1 : (fs : ℚ) / fw ≤ 255 := by
    rw [div_le_iff₀ hfq]; exact_mod_cast hfs
  generalize (bs : ℚ) / bw = a at *
  generalize (fs : ℚ) / fw = b at *
  have half : ∀ x : ℚ, |x| < 2 ^ 8 → |rnd64 x - x| ≤ 1 / 2 ^ 46 := by
    intro x hx
    have := rnd_error_lt (K := ℚ) (p := 53) (emin := -1074) (k := 8) (x := x) (by norm_num)
      (by exact_mod_cast hx)
    refine le_trans this (le_of_eq ?_)
    norm_num
  have rel : ∀ x : ℚ, 1 / 2 ≤ x → |rnd64 x - x| ≤ x * (1 / 2 ^ 53) := by
    intro x hx
    have := rnd_error_rel (K := ℚ) (p := 53) (emin := -1074) (x := x) (by
      rw [abs_of_nonneg (by linarith)]
      refine le_trans ?_ hx
      rw [show (1 / 2 : ℚ) = 2 ^ (-1 : Int) by norm_num]
      exact zpow_le_zpow_right₀ (by norm_num) (by norm_num))
    rw [abs_of_nonneg (show (0 : ℚ) ≤ x by linarith)] at this
    refine le_trans this (le_of_eq ?_)
    norm_num
  have r255 : Rep (K := ℚ) 53 (-1074) 255 := ⟨255, 0, by norm_num, by norm_num, by norm_num⟩
  have ea := half a (by rw [abs_of_nonneg a0]; linarith)
  have eb := half b (by rw [abs_of_nonneg (by linarith)]; linarith)
  have a0' : 0 ≤ rnd64 a := rnd_nonneg a0
  have b0' : 0 ≤ rnd64 b := rnd_nonneg (by linarith)
  have a1' : rnd64 a ≤ 255 := rnd_le (by norm_num) r255 (by linarith)
  have b1' : rnd64 b ≤ 255 := rnd_le (by norm_num) r255 b1
  generalize rnd64 a = a' at *
  generalize rnd64 b = b' at *
  have ed := half (a' - b') (by rw [abs_lt]; constructor <;> linarith)
  generalize rnd64 (a' - b') = d at *
  rw [abs_le] at ea eb ed
  -- `x` is the exact difference of the means
  set x := b - a with hx
  have x1 : 1 ≤ x := by linarith
  have dlo : x * (1 - 3 / 2 ^ 46) ≤ -d := by linarith
  have dhi : -d ≤ x * (1 + 3 / 2 ^ 46) := by linarith
  have dd : d * d = -d * -d := by ring
  have sq : (a - b) ^ 2 = x * x := by rw [hx]; ring
  rw [dd, sq]
  generalize -d = y at *
  have y0 : 0 ≤ x * (1 - 3 / 2 ^ 46) := mul_nonneg (by linarith) (by norm_num)
  have lo : x * x * ((1 - 3 / 2 ^ 46) * (1 - 3 / 2 ^ 46)) ≤ y * y := by
    have := mul_le_mul dlo dlo y0 (y0.trans dlo)
    linarith
  have hi : y * y ≤ x * x * ((1 + 3 / 2 ^ 46) * (1 + 3 / 2 ^ 46)) := by
    have := mul_le_mul dhi dhi (y0.trans dlo) (mul_nonneg (by linarith) (by norm_num))
    linarith
  have xx1 : 1 ≤ x * x := by nlinarith
  generalize x * x = X at *
  generalize y * y = Y at *
  have Y1 : 1 / 2 ≤ Y := by
    refine le_trans ?_ lo
    norm_num
    linarith
  have es := abs_le.1 (rel Y Y1)
  generalize rnd64 Y = S at *
  have S1 : 1 / 2 ≤ S := by
    have : X * ((1 - 3 / 2 ^ 46) * (1 - 3 / 2 ^ 46)) * (1 - 1 / 2 ^ 53) ≤ S := by
      have := mul_le_mul_of_nonneg_right lo (show (0 : ℚ) ≤ 1 - 1 / 2 ^ 53 by norm_num)
      linarith
    refine le_trans ?_ this
    norm_num
    linarith
  have pS : 1 / 2 ≤ p * S := by nlinarith
  have ef := abs_le.1 (rel (p * S) pS)
  generalize rnd64 (p * S) = R at *
  have Slo : X * (1 - 7 / 2 ^ 46) ≤ S := by
    have h1 := mul_le_mul_of_nonneg_right lo (show (0 : ℚ) ≤ 1 - 1 / 2 ^ 53 by norm_num)
    have h2 : X * (1 - 7 / 2 ^ 46) ≤
        X * ((1 - 3 / 2 ^ 46) * (1 - 3 / 2 ^ 46)) * (1 - 1 / 2 ^ 53) := by
      rw [mul_assoc]
      exact mul_le_mul_of_nonneg_left (by norm_num) (by linarith)
    linarith
  have Shi : S ≤ X * (1 + 7 / 2 ^ 46) := by
    have h1 := mul_le_mul_of_nonneg_right hi (show (0 : ℚ) ≤ 1 + 1 / 2 ^ 53 by norm_num)
    have h2 : X * ((1 + 3 / 2 ^ 46) * (1 + 3 / 2 ^ 46)) * (1 + 1 / 2 ^ 53) ≤
        X * (1 + 7 / 2 ^ 46) := by
      rw [mul_assoc]
      exact mul_le_mul_of_nonneg_left (by norm_num) (by linarith)
    linarith
  have p0 : 0 ≤ p := by linarith
  have q1 := mul_le_mul_of_nonneg_left Slo p0
  have q2 := mul_le_mul_of_nonneg_left Shi p0
  have pX : 0 ≤ p * X := mul_nonneg p0 (by linarith)
  have t1 : p * (X * (1 - 7 / 2 ^ 46)) = p * X * (1 - 7 / 2 ^ 46) := by ring
  have t2 : p * (X * (1 + 7 / 2 ^ 46)) = p * X * (1 + 7 / 2 ^ 46) := by ring
  rw [t1] at q1
  rw [t2] at q2
  generalize p * X = Z at *
  generalize p * S = T at *
  have k1 := mul_le_mul_of_nonneg_right q1 (show (0 : ℚ) ≤ 1 - 1 / 2 ^ 53 by norm_num)
  have k2 := mul_le_mul_of_nonneg_right q2 (show (0 : ℚ) ≤ 1 + 1 / 2 ^ 53 by norm_num)
  have n1 : Z * (1 - 8 / 2 ^ 46) ≤ Z * (1 - 7 / 2 ^ 46) * (1 - 1 / 2 ^ 53) := by
    rw [mul_assoc]
    exact mul_le_mul_of_nonneg_left (by norm_num) pX
  have n2 : Z * (1 + 7 / 2 ^ 46) * (1 + 1 / 2 ^ 53) ≤ Z * (1 + 8 / 2 ^ 46) := by
    rw [mul_assoc]
    exact mul_le_mul_of_nonneg_left (by norm_num) pX
  rw [abs_le]
  constructor <;> linarith

theorem split64_nonneg (im : Image Nat) (t : Nat) : 0 ≤ split64 im t := by
  unfold split64
  split
  · exact le_refl _
  · exact otsuVal64_nonneg _ _ _ _

/-- The class sums of the split at `t`. -/
theorem class_sums (im : Image Nat) (h8 : Is8 im) (t : Nat) :
    sumPx im (· ≤ t) ≤ t * countPx im (· ≤ t) ∧
      (t + 1) * countPx im (t < ·) ≤ sumPx im (t < ·) ∧
      sumPx im (t < ·) ≤ 255 * countPx im (t < ·) := by
  unfold sumPx countPx
  refine ⟨?_, ?_, ?_⟩
  · rw [Nat.mul_comm, ← smul_eq_mul, ← sum_const]
    exact sum_le_sum fun p hp => (mem_filter.1 hp).2
  · rw [Nat.mul_comm, ← smul_eq_mul, ← sum_const]
    exact sum_le_sum fun p hp => (mem_filter.1 hp).2
  · rw [Nat.mul_comm, ← smul_eq_mul, ← sum_const]
    refine sum_le_sum fun p hp => ?_
    have := mem_allPx.1 (mem_filter.1 hp).1
    have := h8 _ _ this.1 this.2
    omega

/-- The class means of a split into two non-empty classes are at least 1 apart. -/
theorem class_means (im : Image Nat) (h8 : Is8 im) (t : Nat) (hb : 0 < countPx im (· ≤ t))
    (hf : 0 < countPx im (t < ·)) :
    (sumPx im (· ≤ t) : ℚ) / countPx im (· ≤ t) + 1 ≤
      (sumPx im (t < ·) : ℚ) / countPx im (t < ·) := by
  obtain ⟨h1, h2, -⟩ := class_sums im h8 t
  have hbq : (0 : ℚ) < countPx im (· ≤ t) := by exact_mod_cast hb
  have hfq : (0 : ℚ) < countPx im (t < ·) := by exact_mod_cast hf
  have k1 : (sumPx im (· ≤ t) : ℚ) / countPx im (· ≤ t) ≤ t := by
    rw [div_le_iff₀ hbq]; exact_mod_cast h1
  have k2 : (t : ℚ) + 1 ≤ (sumPx im (t < ·) : ℚ) / countPx im (t < ·) := by
    rw [le_div_iff₀ hfq]; exact_mod_cast h2
  linarith

/-- The computed variance is close to the exact one. -/
theorem split64_error (im : Image Nat) (h8 : Is8 im) (hfit : 255 * (im.w * im.h) < 2 ^ 32)
    (t : Nat) : |split64 im t - betweenClass im t| ≤ betweenClass im t * (1 / 2 ^ 43) := by
  by_cases h : countPx im (· ≤ t) = 0 ∨ countPx im (t < ·) = 0
  · rw [betweenClass_zero im t h, split64, if_pos h]
    simp
  · rw [split64, if_neg h]
    push Not at h
    have hs := count_split im t
    exact otsuVal64_error (by omega) (by omega) (by omega) (by omega) (class_sums im h8 t).2.2
      (class_means im h8 t (by omega) (by omega))

theorem betweenClass_pos (im : Image Nat) (h8 : Is8 im) (t : Nat) (hb : 0 < countPx im (· ≤ t))
    (hf : 0 < countPx im (t < ·)) : 0 < betweenClass im t := by
  have hbq : (0 : ℚ) < countPx im (· ≤ t) := by exact_mod_cast hb
  have hfq : (0 : ℚ) < countPx im (t < ·) := by exact_mod_cast hf
  have := class_means im h8 t hb hf
  unfold betweenClass
  refine mul_pos (mul_pos hbq hfq) (pow_pos_of_ne _ ?_)
  intro h
  linarith
where
  pow_pos_of_ne (x : ℚ) (h : x ≠ 0) : 0 < x ^ 2 := by positivity

/-- The level is the smallest maximiser of the computed variance. -/
theorem otsuLevel64_spec (im : Image Nat) (h8 : Is8 im) (hfit : 255 * (im.w * im.h) < 2 ^ 32) :
    ∃ r, otsuLevel64 im = some r ∧ r < 256 ∧ (∀ u, u < 256 → split64 im u ≤ split64 im r) ∧
      ∀ u, u < r → split64 im u < split64 im r := by
  refine otsuLevelWith_spec rnd64 (fun n hn => rnd64_nat (by omega)) otsuVal64 (split64 im) im h8
    (otsuFits_of_small hfit) ?_ ?_ (split64_nonneg im)
  · intro t h1 h2
    rw [split64, if_neg (by omega)]
  · intro t h
    rw [split64, if_pos h]

/-- Levels with the same split have the same variance, exactly and computed. -/
theorem same_split (im : Image Nat) {t u : Nat} (htu : t ≤ u)
    (h : countPx im (· ≤ t) = countPx im (· ≤ u)) :
    split64 im t = split64 im u ∧ betweenClass im t = betweenClass im u := by
  have sub : (allPx im.w im.h).filter (fun p => im.px p.1 p.2 ≤ t) ⊆
      (allPx im.w im.h).filter (fun p => im.px p.1 p.2 ≤ u) := by
    intro p
    simp only [mem_filter]
    exact fun hp => ⟨hp.1, by omega⟩
  have heq := eq_of_subset_of_card_le sub (le_of_eq h.symm)
  have s1 : sumPx im (· ≤ t) = sumPx im (· ≤ u) := by unfold sumPx; rw [heq]
  have c1 := count_split im t
  have c2 := count_split im u
  have s2 := sum_split im t
  have s3 := sum_split im u
  have c3 : countPx im (t < ·) = countPx im (u < ·) := by omega
  have s4 : sumPx im (t < ·) = sumPx im (u < ·) := by omega
  unfold split64 betweenClass
  rw [h, s1, c3, s4]
  exact ⟨rfl, rfl⟩

/-- **C133.** In `f64` the Otsu level exists for every 8-bit image below 2^32/255 pixels, and its between-class
variance is the maximum up to a factor of `1 + 2 ^ -41`. -/
theorem C133_near_optimal (im : Image Nat) (h8 : Is8 im) (hfit : 255 * (im.w * im.h) < 2 ^ 32) :
    ∃ r, otsuLevel64 im = some r ∧ r < 256 ∧
      ∀ u, u < 256 → betweenClass im u ≤ betweenClass im r * (1 + 1 / 2 ^ 41) := by
  obtain ⟨r, e, h1, h2, -⟩ := otsuLevel64_spec im h8 hfit
  refine ⟨r, e, h1, fun u hu => ?_⟩
  have k1 := abs_le.1 (split64_error im h8 hfit u)
  have k2 := abs_le.1 (split64_error im h8 hfit r)
  have k3 := h2 u hu
  have k4 := betweenClass_nonneg im r
  have k5 := betweenClass_nonneg im u
  have k6 : betweenClass im u * (1 - 1 / 2 ^ 43) ≤ betweenClass im r * (1 + 1 / 2 ^ 43) := by linarith
  have k7 : betweenClass im r * (1 + 1 / 2 ^ 43) ≤
      betweenClass im r * (1 + 1 / 2 ^ 41) * (1 - 1 / 2 ^ 43) := by
    rw [mul_assoc]
    exact mul_le_mul_of_nonneg_left (by norm_num) k4
  exact le_of_mul_le_mul_right (k6.trans k7) (by norm_num)

/-- **C133.** If the image has two different intensities, the level is the intensity of some pixel and some
pixel is brighter, so thresholding separates the image into two non-empty classes. -/
theorem C133_separates (im : Image Nat) (h8 : Is8 im) (hfit : 255 * (im.w * im.h) < 2 ^ 32)
    {x y x' y' : Nat} (hp : im.InB x y) (hq : im.InB x' y') (hne : im.px x y < im.px x' y') :
    ∃ r, otsuLevel64 im = some r ∧ (∃ a b, im.InB a b ∧ im.px a b = r) ∧
      ∃ a b, im.InB a b ∧ r < im.px a b := by
  obtain ⟨r, e, h1, h2, h3⟩ := otsuLevel64_spec im h8 hfit
  refine ⟨r, e, ?_⟩
  have pick : ∀ (P : Nat → Prop) [DecidablePred P], 0 < countPx im P ↔
      ∃ a b, im.InB a b ∧ P (im.px a b) := by
    intro P _
    unfold countPx
    rw [card_pos]
    constructor
    · rintro ⟨p, hp⟩
      have := mem_filter.1 hp
      have h4 := mem_allPx.1 this.1
      exact ⟨p.1, p.2, h4, this.2⟩
    · rintro ⟨a, b, hab, h⟩
      exact ⟨(a, b), mem_filter.2 ⟨mem_allPx.2 hab, h⟩⟩
  have hlt := h8 x y hp.1 hp.2
  have hpos : 0 < betweenClass im (im.px x y) := betweenClass_pos im h8 _
    ((pick _).2 ⟨x, y, hp, le_refl _⟩) ((pick _).2 ⟨x', y', hq, hne⟩)
  have hW : 0 < split64 im (im.px x y) := by
    have := abs_le.1 (split64_error im h8 hfit (im.px x y))
    have : betweenClass im (im.px x y) * (1 - 1 / 2 ^ 43) ≤ split64 im (im.px x y) := by linarith
    exact lt_of_lt_of_le (mul_pos hpos (by norm_num)) this
  have hr : 0 < split64 im r := lt_of_lt_of_le hW (h2 _ hlt)
  have nd : 0 < countPx im (· ≤ r) ∧ 0 < countPx im (r < ·) := by
    by_contra hc
    rw [split64, if_pos (by omega)] at hr
    exact lt_irrefl _ hr
  refine ⟨?_, (pick _).1 nd.2⟩
  rw [← pick (· = r)]
  by_contra h0
  have hz : countPx im (· = r) = 0 := by omega
  have hs := count_le_succ im r
  rcases Nat.eq_zero_or_pos r with rfl | hrp
  · have : countPx im (· < 0) = 0 := by simp [countPx]
    omega
  · obtain ⟨r', rfl⟩ : ∃ r', r = r' + 1 := ⟨r - 1, by omega⟩
    rw [lt_succ_count] at hs
    have := (same_split im (show r' ≤ r' + 1 by omega) (by omega)).1
    have := h3 r' (by omega)
    linarith

/-- **C133.** A constant image has level 0. -/
theorem C133_constant (im : Image Nat) (h8 : Is8 im) (hfit : 255 * (im.w * im.h) < 2 ^ 32) (c : Nat)
    (hc : ∀ x y, im.InB x y → im.px x y = c) : otsuLevel64 im = some 0 := by
  obtain ⟨r, e, h1, -, h3⟩ := otsuLevel64_spec im h8 hfit
  have z : ∀ u, split64 im u = 0 := by
    intro u
    rw [split64, if_pos]
    unfold countPx
    rcases le_or_gt c u with h | h
    · right
      rw [card_eq_zero, filter_eq_empty_iff]
      intro p hp
      rw [hc _ _ (mem_allPx.1 hp)]
      omega
    · left
      rw [card_eq_zero, filter_eq_empty_iff]
      intro p hp
      rw [hc _ _ (mem_allPx.1 hp)]
      omega
  rcases Nat.eq_zero_or_pos r with rfl | hr
  · exact e
  · have := h3 0 hr
    rw [z, z] at this
    exact absurd this (lt_irrefl _)

/-- **C133.** An image with exactly two intensities has the smaller one as its level. -/
theorem C133_two_levels (im : Image Nat) (h8 : Is8 im) (hfit : 255 * (im.w * im.h) < 2 ^ 32)
    (lo hi : Nat) (hlh : lo < hi) (hall : ∀ x y, im.InB x y → im.px x y = lo ∨ im.px x y = hi)
    (hlo : ∃ x y, im.InB x y ∧ im.px x y = lo) (hhi : ∃ x y, im.InB x y ∧ im.px x y = hi) :
    otsuLevel64 im = some lo := by
  obtain ⟨x, y, hp, e1⟩ := hlo
  obtain ⟨x', y', hq, e2⟩ := hhi
  obtain ⟨r, e, ⟨a, b, hab, h1⟩, ⟨a', b', hab', h2⟩⟩ :=
    C133_separates im h8 hfit hp hq (by omega)
  rw [e]
  have k1 := hall a b hab
  have k2 := hall a' b' hab'
  congr 1
  omega

/-- **C133, partial**: the level is that of exact arithmetic if the best split is better than all other splits
by a factor of more than `1 + 2 ^ -41`.  Missing: closer splits, in particular ties (`C133_negation`). -/
theorem C133_exact_partial (im : Image Nat) (h8 : Is8 im) (hfit : 255 * (im.w * im.h) < 2 ^ 32)
    (l : Nat) (hl : otsuLevel im = some l)
    (hgap : ∀ u, u < 256 → countPx im (· ≤ u) ≠ countPx im (· ≤ l) →
      betweenClass im u * (1 + 1 / 2 ^ 41) < betweenClass im l) :
    otsuLevel64 im = some l := by
  obtain ⟨l', el, l1, l2, l3⟩ := C15_otsu im h8 hfit
  obtain rfl : l' = l := by rw [hl] at el; exact (Option.some.inj el).symm
  obtain ⟨r, e, h1, h2, h3⟩ := otsuLevel64_spec im h8 hfit
  obtain ⟨r', e', -, h4⟩ := C133_near_optimal im h8 hfit
  obtain rfl : r' = r := by rw [e] at e'; exact (Option.some.inj e').symm
  rw [e]
  congr 1
  have hs : countPx im (· ≤ r') = countPx im (· ≤ l') := by
    by_contra hc
    have := hgap r' h1 hc
    have := h4 l' l1
    linarith
  rcases lt_trichotomy r' l' with h | h | h
  · have := (same_split im h.le hs).2
    have := l3 r' h
    linarith
  · exact h
  · have := (same_split im h.le hs.symm).1
    have := h3 l' h
    linarith

/-- **C133, negation** of "the smallest level of maximal variance": for the four pixels 0, 1, 1, 2 the splits at
0 and at 1 are equally good, but in `f64` the second one gets a larger variance and 1 is returned. -/
theorem C133_negation :
    otsuLevel (Image.ofRows 0 [[0, 1, 1, 2]]) = some 0 ∧
    otsuLevel64 (Image.ofRows 0 [[0, 1, 1, 2]]) = some 1 ∧
    betweenClass (Image.ofRows 0 [[0, 1, 1, 2]]) 0 = betweenClass (Image.ofRows 0 [[0, 1, 1, 2]]) 1 := by
  decide +kernel

example : otsuLevel64 (Image.ofRows 0 [[10, 12, 200], [11, 198, 10]]) = some 12 := by decide +kernel

end Verif.Float
