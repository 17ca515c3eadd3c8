import Verif.Float.Sum
import Verif.Corners.Oriented
/-
Property C135: the automatic threshold of `oriented_fast` (src/corners.rs) in single precision.
-/
namespace Verif.Float
open Verif.Corners

/-- src/corners.rs:204-206 in binary32: the fraction of corners, and the index into the sorted scores
(`as usize` sends negative numbers to 0 and drops the fractional part of the others). -/
def fractionIdx32 (target w h : Nat) : Nat :=
  let fraction := rnd32 (rnd32 (target : ℚ) / rnd32 ((w * h : Nat) : ℚ))
  (⌊rnd32 (1000 * rnd32 (1 - fraction))⌋).toNat

/-- src/corners.rs:173-241 `oriented_fast` with the index computed in binary32. -/
def orientedFast32 {A : Type _} (orient : Int → Int → A) (im : Image Nat) (threshold : Option Nat)
    (target edge : Nat) (samples : List (Nat × Nat)) : Option (List (Nat × Nat × Nat × A)) :=
  orientedFastAt (fractionIdx32 target im.w im.h) orient im threshold target edge samples

/-- Few corners in a large image: the fraction disappears when it is subtracted from one. -/
theorem fractionIdx32_lost {target w h : Nat} (hp : 0 < w * h) (hp' : w * h < 2 ^ 32)
    (ht : target * 2 ^ 25 ≤ w * h) : fractionIdx32 target w h = 1000 := by
  have ht' : target < 128 := by omega
  have e1 : rnd32 (target : ℚ) = target := by
    have := rnd_int (K := ℚ) (p := 24) (emin := -149) (by norm_num) (by norm_num) (n := (target : ℤ))
      (by rw [abs_of_nonneg (by omega)]; omega)
    exact_mod_cast this
  have hrep : Rep 24 (-149) ((target : ℚ) * 2 ^ 25) :=
    ⟨(target : ℤ), 25, by rw [abs_of_nonneg (by omega)]; norm_num; omega, by norm_num, by
      push_cast; rfl⟩
  have e2 : (target : ℚ) * 2 ^ 25 ≤ rnd32 ((w * h : Nat) : ℚ) :=
    le_rnd (by norm_num) hrep (by exact_mod_cast ht)
  have hpos : (0 : ℚ) < rnd32 ((w * h : Nat) : ℚ) := by
    have : (1 : ℚ) ≤ rnd32 ((w * h : Nat) : ℚ) :=
      le_rnd (by norm_num) ⟨1, 0, by norm_num, by norm_num, by norm_num⟩ (by exact_mod_cast hp)
    linarith
  have e3 : rnd32 (rnd32 (target : ℚ) / rnd32 ((w * h : Nat) : ℚ)) ≤ 1 / 2 ^ 25 := by
    refine rnd_le (by norm_num) ⟨1, -25, by norm_num, by norm_num, by norm_num⟩ ?_
    rw [e1, div_le_iff₀ hpos]
    linarith
  have e4 : 0 ≤ rnd32 (rnd32 (target : ℚ) / rnd32 ((w * h : Nat) : ℚ)) :=
    rnd_nonneg (div_nonneg (by rw [e1]; exact_mod_cast Nat.zero_le _) hpos.le)
  unfold fractionIdx32
  dsimp only
  generalize rnd32 (rnd32 (target : ℚ) / rnd32 ((w * h : Nat) : ℚ)) = f at e3 e4
  have e5 : rnd32 (1 - f) = 1 := by
    refine le_antisymm ?_ ?_
    · exact rnd_le (by norm_num) ⟨1, 0, by norm_num, by norm_num, by norm_num⟩ (by linarith)
    · have : rnd32 (1 - 1 / 2 ^ 25 : ℚ) ≤ rnd32 (1 - f) := rnd_mono (by norm_num) (by linarith)
      have h1 : rnd32 (1 - 1 / 2 ^ 25 : ℚ) = 1 := by decide +kernel
      linarith
  rw [e5]
  decide +kernel

/-- **C135** (negation).  Asking for few corners in a large image panics: if the image has `2 ^ 25` pixels for
every corner asked for, the fraction of corners is lost when it is subtracted from one, and the index is one
beyond the last sample. -/
theorem C135_negation {A : Type _} (orient : Int → Int → A) (im : Image Nat) (target edge : Nat)
    (samples : List (Nat × Nat)) (hn : samples.length = min 1000 (im.w * im.h)) (hw : im.w < 2 ^ 32)
    (hh : im.h < 2 ^ 32) (hp : 0 < im.w * im.h) (hp' : im.w * im.h < 2 ^ 32)
    (ht : target * 2 ^ 25 ≤ im.w * im.h) :
    orientedFast32 orient im none target edge samples = none := by
  refine (automatic_at _ orient im hw hh target edge samples).1 (Or.inr (Or.inr ?_))
  rw [fractionIdx32_lost hp hp' ht]
  omega

/-- Otherwise the index is below 1000. -/
theorem fractionIdx32_lt {target w h : Nat} (hp : 0 < w * h) (h0 : 0 < target)
    (ht : w * h ≤ target * (2 ^ 25 - 16)) : fractionIdx32 target w h < 1000 := by
  have h1 : ∀ n : Nat, 0 < n → |rnd32 (n : ℚ) - n| ≤ n * (1 / 2 ^ 24) := by
    intro n hn
    have hn' : (1 : ℚ) ≤ n := by exact_mod_cast hn
    have hz : (2 : ℚ) ^ ((-149 : Int) + (24 : Nat) - 1) ≤ |(n : ℚ)| := by
      rw [abs_of_pos (by linarith)]
      refine le_trans (zpow_le_one_of_nonpos₀ (by norm_num) (by norm_num)) hn'
    have := rnd_error_rel (p := 24) (emin := -149) hz
    rw [abs_of_pos (show (0 : ℚ) < n by linarith)] at this
    norm_num at this ⊢
    exact this
  have a1 := abs_le.1 (h1 target h0)
  have a2 := abs_le.1 (h1 (w * h) hp)
  have hP : (0 : ℚ) < ((w * h : Nat) : ℚ) := by exact_mod_cast hp
  have hT : (0 : ℚ) < (target : ℚ) := by exact_mod_cast h0
  have hPT : ((w * h : Nat) : ℚ) ≤ target * (2 ^ 25 - 16) := by
    have : ((w * h : Nat) : ℚ) ≤ ((target * (2 ^ 25 - 16) : Nat) : ℚ) := by exact_mod_cast ht
    rw [Nat.cast_mul] at this
    norm_num at this ⊢
    exact this
  have e3 : (1 / 2 ^ 25 * (1 + 1 / 2 ^ 23) : ℚ) ≤
      rnd32 (rnd32 (target : ℚ) / rnd32 ((w * h : Nat) : ℚ)) := by
    refine le_rnd (by norm_num) ⟨2 ^ 23 + 1, -48, by norm_num, by norm_num, by norm_num⟩ ?_
    have hpos : (0 : ℚ) < rnd32 ((w * h : Nat) : ℚ) := by nlinarith [a2.1]
    rw [le_div_iff₀ hpos]
    generalize rnd32 (target : ℚ) = T at *
    generalize rnd32 ((w * h : Nat) : ℚ) = P at *
    norm_num at *
    linarith
  unfold fractionIdx32
  dsimp only
  generalize rnd32 (rnd32 (target : ℚ) / rnd32 ((w * h : Nat) : ℚ)) = f at e3
  have e5 : rnd32 (1 - f) ≤ rnd32 (1 - 1 / 2 ^ 25 * (1 + 1 / 2 ^ 23) : ℚ) :=
    rnd_mono (by norm_num) (by linarith)
  have e6 : rnd32 (1000 * rnd32 (1 - f)) ≤
      rnd32 (1000 * rnd32 (1 - 1 / 2 ^ 25 * (1 + 1 / 2 ^ 23) : ℚ)) :=
    rnd_mono (by norm_num) (by linarith)
  have e7 : rnd32 (1000 * rnd32 (1 - 1 / 2 ^ 25 * (1 + 1 / 2 ^ 23) : ℚ)) < 1000 := by decide +kernel
  have : ⌊rnd32 (1000 * rnd32 (1 - f))⌋ < 1000 := by
    rw [Int.floor_lt]
    norm_num only [Int.cast_ofNat]
    linarith
  omega

/-- The number whose integer part is taken is close to the exact one. -/
theorem fractionIdx32_near {target w h : Nat} (hp : 0 < w * h) (h0 : 0 < target) (ht : target ≤ w * h)
    (hp' : w * h < 2 ^ 32) :
    (fractionIdx32 target w h : ℚ) - 1 / 2 ^ 12 ≤ 1000 * (1 - (target : ℚ) / ((w * h : Nat) : ℚ)) ∧
    1000 * (1 - (target : ℚ) / ((w * h : Nat) : ℚ)) < fractionIdx32 target w h + 1 + 1 / 2 ^ 12 := by
  have h1 : ∀ n : ℚ, 1 / 2 ^ 40 ≤ n → |rnd32 n - n| ≤ n * (1 / 2 ^ 24) := by
    intro n hn
    have hn0 : 0 < n := lt_of_lt_of_le (by norm_num) hn
    have hz : (2 : ℚ) ^ ((-149 : Int) + (24 : Nat) - 1) ≤ |n| := by
      rw [abs_of_pos hn0]
      refine le_trans ?_ hn
      rw [show (1 / 2 ^ 40 : ℚ) = 2 ^ (-40 : ℤ) by norm_num]
      exact zpow_le_zpow_right₀ (by norm_num) (by norm_num)
    have := rnd_error_rel (p := 24) (emin := -149) hz
    rw [abs_of_pos hn0] at this
    norm_num at this ⊢
    exact this
  have hT1 : (1 : ℚ) ≤ target := by exact_mod_cast h0
  have hP1 : (1 : ℚ) ≤ ((w * h : Nat) : ℚ) := by exact_mod_cast hp
  have hTP : (target : ℚ) ≤ ((w * h : Nat) : ℚ) := by exact_mod_cast ht
  have hP2 : ((w * h : Nat) : ℚ) ≤ 2 ^ 32 := by exact_mod_cast hp'.le
  have a1 := abs_le.1 (h1 target (le_trans (by norm_num) hT1))
  have a2 := abs_le.1 (h1 ((w * h : Nat) : ℚ) (le_trans (by norm_num) hP1))
  have hm : rnd32 (target : ℚ) ≤ rnd32 ((w * h : Nat) : ℚ) := rnd_mono (by norm_num) hTP
  unfold fractionIdx32
  dsimp only
  generalize ((w * h : Nat) : ℚ) = P at *
  generalize (target : ℚ) = T at *
  have hP0 : 0 < rnd32 P := by nlinarith [a2.1]
  have hT0 : 0 < rnd32 T := by nlinarith [a1.1]
  have hq0 : 0 < T / P := by positivity
  have hq1 : T / P ≤ 1 := by rw [div_le_one (by linarith)]; exact hTP
  -- the quotient before rounding
  have b1 : rnd32 T / rnd32 P ≤ T / P * (1 + 1 / 2 ^ 23 + 1 / 2 ^ 40) := by
    rw [div_le_iff₀ hP0]
    have : T / P * (P * (1 - 1 / 2 ^ 24)) * (1 + 1 / 2 ^ 23 + 1 / 2 ^ 40) =
        T * (1 - 1 / 2 ^ 24) * (1 + 1 / 2 ^ 23 + 1 / 2 ^ 40) := by
      field_simp
    have h2 : T / P * (P * (1 - 1 / 2 ^ 24)) ≤ T / P * rnd32 P :=
      mul_le_mul_of_nonneg_left (by linarith [a2.1]) hq0.le
    have h3 := mul_le_mul_of_nonneg_right h2 (show (0 : ℚ) ≤ 1 + 1 / 2 ^ 23 + 1 / 2 ^ 40 by norm_num)
    have h4 := a1.2
    norm_num at *
    nlinarith
  have b2 : T / P * (1 - 1 / 2 ^ 23) ≤ rnd32 T / rnd32 P := by
    rw [le_div_iff₀ hP0]
    have : T / P * (P * (1 + 1 / 2 ^ 24)) * (1 - 1 / 2 ^ 23) =
        T * (1 + 1 / 2 ^ 24) * (1 - 1 / 2 ^ 23) := by
      field_simp
    have h2 : T / P * rnd32 P ≤ T / P * (P * (1 + 1 / 2 ^ 24)) :=
      mul_le_mul_of_nonneg_left (by linarith [a2.2]) hq0.le
    have h3 := mul_le_mul_of_nonneg_right h2 (show (0 : ℚ) ≤ 1 - 1 / 2 ^ 23 by norm_num)
    have h4 := a1.1
    norm_num at *
    nlinarith
  have b3 : (1 / 2 ^ 40 : ℚ) ≤ rnd32 T / rnd32 P := by
    refine le_trans ?_ b2
    have : (1 / 2 ^ 32 : ℚ) ≤ T / P := by
      rw [le_div_iff₀ (by linarith)]
      norm_num at *
      linarith
    norm_num at *
    linarith
  have b4 := abs_le.1 (h1 _ b3)
  have b5 : rnd32 (rnd32 T / rnd32 P) ≤ 1 :=
    rnd_le (by norm_num) ⟨1, 0, by norm_num, by norm_num, by norm_num⟩ (by rw [div_le_one hP0]; exact hm)
  have b6 : 0 ≤ rnd32 (rnd32 T / rnd32 P) := rnd_nonneg (div_nonneg hT0.le hP0.le)
  generalize rnd32 (rnd32 T / rnd32 P) = f at *
  generalize rnd32 T / rnd32 P = q at *
  generalize T / P = Q at *
  have c1 : |rnd32 (1 - f) - (1 - f)| ≤ 1 / 2 ^ 25 := by
    rcases eq_or_lt_of_le b6 with h | h
    · have : rnd32 (1 : ℚ) = 1 := by decide +kernel
      rw [← h, sub_zero, this]; norm_num
    · have := rnd_error_lt (p := 24) (emin := -149) (x := 1 - f) (k := 0) (by norm_num) (by
        rw [abs_of_nonneg (by linarith), zpow_zero]; linarith)
      norm_num at this ⊢
      exact this
  have c2 : 0 ≤ rnd32 (1 - f) := rnd_nonneg (by linarith)
  have c3 : rnd32 (1 - f) ≤ 1 :=
    rnd_le (by norm_num) ⟨1, 0, by norm_num, by norm_num, by norm_num⟩ (by linarith)
  have c1' := abs_le.1 c1
  generalize rnd32 (1 - f) = g at *
  have d1 := rnd_error_lt (p := 24) (emin := -149) (x := 1000 * g) (k := 10) (by norm_num) (by
    rw [abs_of_nonneg (by linarith)]; norm_num; linarith)
  have d1' := abs_le.1 d1
  have d2 : 0 ≤ rnd32 (1000 * g) := rnd_nonneg (by linarith)
  have hc : (((⌊rnd32 (1000 * g)⌋).toNat : Nat) : ℚ) = ((⌊rnd32 (1000 * g)⌋ : ℤ) : ℚ) := by
    exact_mod_cast Int.toNat_of_nonneg (by rw [Int.le_floor, Int.cast_zero]; exact d2)
  rw [hc]
  have f1 := Int.floor_le (rnd32 (1000 * g))
  have f2 := Int.lt_floor_add_one (rnd32 (1000 * g))
  change _ ≤ rnd32 (1000 * g) - 1000 * g ∧ rnd32 (1000 * g) - 1000 * g ≤ _ at d1'
  generalize rnd32 (1000 * g) = r at *
  generalize ((⌊r⌋ : ℤ) : ℚ) = fl at *
  norm_num at *
  constructor <;> linarith

/-- **C135** (partial: at least 1000 pixels, and at least one corner asked for per `2 ^ 25 - 16` pixels).  With
the 1000 samples that the function draws it does not panic and behaves like the call with the threshold that is the
`k`-th smallest FAST score of the samples, where `k` is `1000 (1 - target / (w h))` rounded down, up to an error of
`2 ^ -12` before rounding. -/
theorem C135_automatic_partial {A : Type _} (orient : Int → Int → A) (im : Image Nat)
    (hw : im.w < 2 ^ 32) (hh : im.h < 2 ^ 32) (hp : im.w * im.h < 2 ^ 32) (target edge : Nat)
    (samples : List (Nat × Nat)) (h1 : 2 * edge < im.w) (h2 : 2 * edge < im.h)
    (hn : samples.length = min 1000 (im.w * im.h)) (h0 : 0 < target) (hpx : 1000 ≤ im.w * im.h)
    (ht : im.w * im.h ≤ target * (2 ^ 25 - 16)) :
    ∃ (k : Nat) (sc : Nat × Nat → Nat) (t : Nat),
      (target ≤ im.w * im.h →
        (k : ℚ) - 1 / 2 ^ 12 ≤ 1000 * (1 - (target : ℚ) / ((im.w * im.h : Nat) : ℚ)) ∧
        1000 * (1 - (target : ℚ) / ((im.w * im.h : Nat) : ℚ)) < k + 1 + 1 / 2 ^ 12) ∧
      (∀ c ∈ samples, score .nine im 0 c.1 c.2 = some (sc c)) ∧
      (samples.filter fun c => decide (sc c < t)).length ≤ k ∧
      k < (samples.filter fun c => decide (sc c ≤ t)).length ∧
      (∃ L, orientedFast32 orient im none target edge samples = some L ∧
        orientedFast32 orient im (some t) target edge samples = some L) := by
  have hk : fractionIdx32 target im.w im.h < samples.length := by
    rw [hn, min_eq_left hpx]
    exact fractionIdx32_lt (by omega) h0 ht
  obtain ⟨sc, t, h3, ht', -, h4, h5, h6⟩ :=
    (automatic_at (fractionIdx32 target im.w im.h) orient im hw hh target edge samples).2 h1 h2 hk
  refine ⟨fractionIdx32 target im.w im.h, sc, t,
    fun hle => fractionIdx32_near (by omega) h0 hle hp, h3, h4, h5, ?_⟩
  have e : orientedFast32 orient im (some t) target edge samples =
      orientedFast orient im (some t) target edge samples := rfl
  cases e' : orientedFast orient im (some t) target edge samples with
  | none =>
    rw [(C107_ranked orient im hw hh ht' target edge samples).1] at e'
    omega
  | some L => exact ⟨L, h6.trans e', by rw [e, e']⟩

/-- An 8192 by 4096 image asked for one corner panics, one asked for two does not. -/
example : fractionIdx32 1 8192 4096 = 1000 ∧ fractionIdx32 2 8192 4096 = 999 ∧
    fractionIdx 1 8192 4096 = 999 ∧ fractionIdx32 500 640 480 = 998 := by decide +kernel

/-- With a threshold, nothing depends on the index. -/
theorem C135_given {A : Type _} (orient : Int → Int → A) (im : Image Nat) (t target edge : Nat)
    (samples : List (Nat × Nat)) :
    orientedFast32 orient im (some t) target edge samples =
      orientedFast orient im (some t) target edge samples := rfl

end Verif.Float
