import Verif.Noise.Props
import Verif.Float.Basic
import Mathlib.Tactic.Ring
/-
Property theorem C201: Gaussian noise (src/noise.rs) on images with any number of channels, with the
`f64` addition and the `f64` samples of the code, including infinite samples and NaN.
-/
namespace Verif.Noise
open Definitions Verif.Float

/-- A value of type `f64`; the sign of zero is not represented. -/
inductive F64
  | fin (q : ℚ)
  | pinf
  | ninf
  | nan

/-- `(*c).into() + noise` (src/noise.rs:31): a subpixel converted to `f64`, plus a sample.  The sum
of a number below 2^16 and a finite `f64` does not overflow. -/
def addSample (c : Nat) : F64 → F64
  | .fin q => .fin (rnd64 ((c : ℚ) + q))
  | .pinf => .pinf
  | .ninf => .ninf
  | .nan => .nan

/-- `implement_clamp!` from `f64` (src/definitions.rs:89-103): the comparison `x < max` is false for
infinity and for NaN. -/
def clampF64 (mx : Nat) : F64 → Nat
  | .fin q => (clampQ 0 mx q).toNat
  | .pinf => mx
  | .ninf => 0
  | .nan => mx

/-- `gaussian_noise_mut` (src/noise.rs:20-34) on images with `n` channels with values `0..=mx`;
`normal.sample` is an arbitrary stream, whose position is part of the state. -/
def gaussianNoise64 (mx n : Nat) (im : Image (Nat → Nat)) (rng : Nat → F64) :
    Option (Image (Nat → Nat) × Nat) :=
  forYX 0 im.h 0 im.w (im, 0) fun x y s =>
    (s.1.get x y).bind fun p =>
    (forRange 0 n (p, s.2) fun c q =>
      some ((fun i => if i = c then clampF64 mx (addSample (q.1 c) (rng q.2)) else q.1 i), q.2 + 1)).bind
      fun q => (s.1.put x y q.1).map fun o => (o, q.2)

theorem channels_spec (mx n : Nat) (p : Nat → Nat) (k : Nat) (rng : Nat → F64) :
    ∃ q, forRange 0 n (p, k) (fun c (q : (Nat → Nat) × Nat) =>
      some ((fun i => if i = c then clampF64 mx (addSample (q.1 c) (rng q.2)) else q.1 i), q.2 + 1)) =
        some q ∧ q.2 = k + n ∧
      ∀ i, q.1 i = if i < n then clampF64 mx (addSample (p i) (rng (k + i))) else p i := by
  obtain ⟨q, e, h1, h2⟩ := forRange_spec
    (f := fun c (q : (Nat → Nat) × Nat) =>
      some ((fun i => if i = c then clampF64 mx (addSample (q.1 c) (rng q.2)) else q.1 i), q.2 + 1))
    (fun m (q : (Nat → Nat) × Nat) => q.2 = k + m ∧
      ∀ i, q.1 i = if i < m then clampF64 mx (addSample (p i) (rng (k + i))) else p i)
    (Nat.zero_le n) (s := (p, k)) ⟨by simp, fun i => by simp⟩
    (by
      rintro m ⟨a, b⟩ _ _ ⟨h1, h2⟩
      refine ⟨_, rfl, by dsimp only at *; omega, ?_⟩
      intro i
      dsimp only at *
      by_cases hi : i = m
      · rw [if_pos hi, if_pos (by omega), h2 m, if_neg (by omega), h1, hi]
      · rw [if_neg hi, h2 i]
        by_cases hl : i < m
        · rw [if_pos hl, if_pos (by omega)]
        · rw [if_neg hl, if_neg (by omega)])
  exact ⟨q, e, h1, h2⟩

/-- C201: for every stream of samples the noise is added, keeps the size and draws one sample for
each channel of each pixel, in raster order; every subpixel is the clamped sum. -/
theorem C201_noise (mx n : Nat) (im : Image (Nat → Nat)) (rng : Nat → F64) :
    ∃ out, gaussianNoise64 mx n im rng = some (out, im.w * im.h * n) ∧ out.w = im.w ∧ out.h = im.h ∧
      ∀ x y c, x < im.w → y < im.h → c < n →
        out.px x y c = clampF64 mx (addSample (im.px x y c) (rng ((y * im.w + x) * n + c))) := by
  obtain ⟨⟨out, k⟩, e, h1, h2, h3, h4, _⟩ := forYX_spec
    (y0 := 0) (y1 := im.h) (x0 := 0) (x1 := im.w) (s := (im, 0))
    (f := fun x y (s : Image (Nat → Nat) × Nat) =>
      (s.1.get x y).bind fun p =>
      (forRange 0 n (p, s.2) fun c q =>
        some ((fun i => if i = c then clampF64 mx (addSample (q.1 c) (rng q.2)) else q.1 i), q.2 + 1)).bind
        fun q => (s.1.put x y q.1).map fun o => (o, q.2))
    (fun x y (s : Image (Nat → Nat) × Nat) => s.1.w = im.w ∧ s.1.h = im.h ∧
      s.2 = (y * im.w + x) * n ∧
      (∀ a b c, a < im.w → c < n → b < y ∨ b = y ∧ a < x →
        s.1.px a b c = clampF64 mx (addSample (im.px a b c) (rng ((b * im.w + a) * n + c)))) ∧
      (∀ a b, y < b ∨ b = y ∧ x ≤ a → s.1.px a b = im.px a b))
    (Nat.zero_le _) (Nat.zero_le _)
    ⟨rfl, rfl, by simp, by omega, fun _ _ _ => rfl⟩
    (by
      rintro x y ⟨o, k⟩ _ hx _ hy ⟨h1, h2, h3, h4, h5⟩
      dsimp only at *
      rw [Image.get_of_inB (by omega) (by omega), Option.bind_some]
      obtain ⟨q, eq, hq1, hq2⟩ := channels_spec mx n (o.px x y) k rng
      rw [eq, Option.bind_some, Image.put_of_inB _ (by omega) (by omega)]
      refine ⟨_, rfl, h1, h2, by dsimp only; rw [hq1, h3]; ring, ?_, ?_⟩
      · intro a b c ha hc hab
        dsimp only
        by_cases hxy : a = x ∧ b = y
        · rw [if_pos hxy, hq2 c, if_pos hc, hxy.1, hxy.2, h3, h5 x y (by omega)]
        · rw [if_neg hxy]; exact h4 a b c ha hc (by omega)
      · intro a b hab
        dsimp only
        rw [if_neg (by omega)]
        exact h5 a b (by omega))
    (by
      rintro y ⟨o, k⟩ _ hy ⟨h1, h2, h3, h4, h5⟩
      dsimp only at *
      exact ⟨h1, h2, by rw [h3]; ring, fun a b c ha hc hab => h4 a b c ha hc (by omega),
        fun a b hab => h5 a b (by omega)⟩)
  dsimp only at *
  refine ⟨out, ?_, h1, h2, fun x y c hx hy hc => h4 x y c hx hc (Or.inl hy)⟩
  rw [show im.w * im.h * n = k by rw [h3, Nat.mul_comm im.w]; simp]
  exact e

theorem clampQ_floor (mx : Nat) (x : ℚ) (h0 : 0 ≤ x) (h1 : x < mx) : clampQ 0 mx x = ⌊x⌋ := by
  unfold clampQ
  rw [if_pos (by exact_mod_cast h1)]
  split
  · unfold truncQ
    rw [if_pos h0]
  · have : x = 0 := le_antisymm (by simpa using ‹¬ x > ((0 : Int) : ℚ)›) h0
    rw [this]
    simp

theorem clampQ_low (mx : Nat) (x : ℚ) (h : x ≤ 0) : clampQ 0 mx x = 0 := by
  unfold clampQ
  by_cases hx : x < ((mx : Int) : ℚ)
  · rw [if_pos hx, if_neg (by push_cast; linarith)]
  · rw [if_neg hx]
    have : ((mx : Int) : ℚ) ≤ 0 := by linarith
    have : (mx : Int) ≤ 0 := by exact_mod_cast this
    omega

theorem clampQ_high (mx : Nat) (x : ℚ) (h : (mx : ℚ) ≤ x) : clampQ 0 mx x = mx := by
  unfold clampQ
  rw [if_neg (by push_cast; linarith)]

theorem rep_nat {mx : Nat} (hmx : mx < 2 ^ 53) (n : Int) (h0 : 0 ≤ n) (h1 : n ≤ mx) :
    Rep 53 (-1074) (n : ℚ) :=
  ⟨n, 0, by rw [abs_of_nonneg h0]; norm_num at *; omega, by norm_num, by simp⟩

/-- C201: rounding hardly matters: the result with a finite sample is the exact clamped sum, or one
more; it is one more only if the exact sum is in the range and less than `2^(k - 54)` below the
integer that is returned (for 8-bit images `k = 8`, for 16-bit images `k = 16`). -/
theorem C201_near {mx k : Nat} (hk : mx < 2 ^ k) (hk' : k ≤ 53) (c : Nat) (q : ℚ) :
    clampF64 mx (addSample c (.fin q)) = (clampQ 0 mx (c + q)).toNat ∨
    (0 ≤ (c : ℚ) + q ∧ (c : ℚ) + q < mx ∧
      clampF64 mx (addSample c (.fin q)) = (clampQ 0 mx (c + q)).toNat + 1 ∧
      (clampF64 mx (addSample c (.fin q)) : ℚ) - (c + q) ≤ 2 ^ ((k : Int) - 54)) := by
  have hmx53 : mx < 2 ^ 53 := lt_of_lt_of_le hk (Nat.pow_le_pow_right (by norm_num) hk')
  unfold addSample clampF64
  dsimp only
  generalize (c : ℚ) + q = x
  rcases le_or_gt x 0 with h0 | h0
  · left
    rw [clampQ_low mx x h0, clampQ_low mx _ (rnd_le (by norm_num) rep_zero h0)]
  rcases le_or_gt (mx : ℚ) x with h1 | h1
  · left
    have hr : Rep 53 (-1074) (mx : ℚ) := by
      have := rep_nat hmx53 mx (by omega) (le_refl _)
      exact_mod_cast this
    rw [clampQ_high mx x h1, clampQ_high mx _ (le_rnd (by norm_num) hr h1)]
  have hfl0 : 0 ≤ ⌊x⌋ := Int.floor_nonneg.mpr h0.le
  have hflm : ⌊x⌋ < mx := by
    have : (⌊x⌋ : ℚ) < mx := lt_of_le_of_lt (Int.floor_le x) h1
    exact_mod_cast this
  have hlo : (⌊x⌋ : ℚ) ≤ rnd64 x :=
    le_rnd (by norm_num) (rep_nat hmx53 _ hfl0 (by omega)) (Int.floor_le x)
  have hhi : rnd64 x ≤ ((⌊x⌋ + 1 : Int) : ℚ) :=
    rnd_le (by norm_num) (rep_nat hmx53 _ (by omega) (by omega))
      (by push_cast; exact (Int.lt_floor_add_one x).le)
  have hr0 : 0 ≤ rnd64 x := rnd_nonneg h0.le
  rw [clampQ_floor mx x h0.le h1]
  rcases lt_or_eq_of_le hhi with hlt | heq
  · left
    have hfl : ⌊rnd64 x⌋ = ⌊x⌋ := by
      rw [Int.floor_eq_iff]
      exact ⟨hlo, by push_cast at hlt; exact hlt⟩
    have : rnd64 x < mx := lt_of_lt_of_le hlt (by exact_mod_cast (show ⌊x⌋ + 1 ≤ (mx : Int) by omega))
    rw [clampQ_floor mx _ hr0 this, hfl]
  · right
    have hv : clampQ 0 mx (rnd64 x) = ⌊x⌋ + 1 := by
      rw [heq]
      rcases lt_or_eq_of_le (show ⌊x⌋ + 1 ≤ (mx : Int) by omega) with h | h
      · rw [clampQ_floor mx _ (by exact_mod_cast (show (0 : Int) ≤ ⌊x⌋ + 1 by omega))
          (by exact_mod_cast h), Int.floor_intCast]
      · rw [clampQ_high mx _ (by exact_mod_cast h.ge), h]
    rw [hv]
    refine ⟨h0.le, h1, by omega, ?_⟩
    have hc : (((⌊x⌋ + 1).toNat : Nat) : ℚ) = rnd64 x := by
      rw [heq]
      have : (((⌊x⌋ + 1).toNat : Nat) : Int) = ⌊x⌋ + 1 := Int.toNat_of_nonneg (by omega)
      exact_mod_cast this
    rw [hc]
    have hx : |x| < (2 : ℚ) ^ (k : Int) := by
      rw [abs_of_pos h0, zpow_natCast]
      exact lt_trans h1 (by exact_mod_cast hk)
    have := rnd_error_lt (p := 53) (emin := -1074) (by omega) hx
    have e : (2 : ℚ) ^ ((k : Int) - 53) / 2 = 2 ^ ((k : Int) - 54) := by
      rw [show ((k : Int) - 53) = ((k : Int) - 54) + 1 by ring, zpow_add_one₀ (by norm_num)]
      ring
    rw [← e]
    exact (le_abs_self _).trans this

/-- C201: samples that are multiples of `2^-37` (all `f64` numbers of absolute value at least
`2^15`, and every fixed point noise) are added exactly. -/
theorem C201_exact_partial {mx : Nat} (hmx : mx < 2 ^ 16) (c : Nat) (m : Int) :
    clampF64 mx (addSample c (.fin (m * 2 ^ (-37 : Int)))) =
      (clampQ 0 mx (c + m * 2 ^ (-37 : Int))).toNat := by
  rcases C201_near hmx (by norm_num) c (m * 2 ^ (-37 : Int)) with h | ⟨h0, h1, h2, h3⟩
  · exact h
  · exfalso
    have hcl := clampQ_floor mx _ h0 h1
    rw [hcl] at h2
    have hfl := Int.floor_nonneg.mpr h0
    have hlt := Int.lt_floor_add_one ((c : ℚ) + m * 2 ^ (-37 : Int))
    set N := clampF64 mx (addSample c (.fin (m * 2 ^ (-37 : Int)))) with hN
    have hNf : (N : ℚ) = ⌊(c : ℚ) + m * 2 ^ (-37 : Int)⌋ + 1 := by
      have : (N : Int) = ⌊(c : ℚ) + m * 2 ^ (-37 : Int)⌋ + 1 := by omega
      exact_mod_cast this
    rw [← hNf] at hlt
    norm_num at h3 hlt
    have h4 : (c : ℚ) * 137438953472 + m < N * 137438953472 := by linarith
    have h5 : (c : Int) * 137438953472 + m < N * 137438953472 := by exact_mod_cast h4
    have h6 : (c : Int) * 137438953472 + m + 1 ≤ N * 137438953472 := by omega
    have h7 : (c : ℚ) * 137438953472 + m + 1 ≤ N * 137438953472 := by exact_mod_cast h6
    linarith

/-- C201: a sample of zero changes nothing; infinite samples and NaN give the ends of the range:
NaN gives the largest value. -/
theorem C201_special {mx : Nat} (hmx : mx < 2 ^ 16) {c : Nat} (hc : c ≤ mx) :
    clampF64 mx (addSample c (.fin 0)) = c ∧ clampF64 mx (addSample c .pinf) = mx ∧
      clampF64 mx (addSample c .ninf) = 0 ∧ clampF64 mx (addSample c .nan) = mx := by
  refine ⟨?_, rfl, rfl, rfl⟩
  have := C201_exact_partial hmx c 0
  simp only [Int.cast_zero, zero_mul, add_zero] at this
  rw [this]
  have h := (C75_float 0 mx (c : ℚ) (by omega)).1 c (by simp) (by omega) (by omega)
  rw [h]
  rfl

/-- C201: exact truncation is not what the code computes: a sample of `-2^-60` leaves a pixel of
value 1 unchanged, although the sum is below 1. -/
theorem C201_negation : clampF64 255 (addSample 1 (.fin (-(1 / 2 ^ 60)))) = 1 ∧
    (clampQ 0 (255 : Nat) (((1 : Nat) : ℚ) + -(1 / 2 ^ 60))).toNat = 0 := by
  decide +kernel

/-- Two pixels with two channels each, and samples of all kinds. -/
example : (gaussianNoise64 255 2 ⟨2, 1, fun x _ c => 100 * x + c⟩
    (fun k => [F64.fin (5 / 2), .nan, .ninf, .fin (-1 / 2)].getD k .pinf)).map
      (fun r => (r.1.px 0 0 0, r.1.px 0 0 1, r.1.px 1 0 0, r.1.px 1 0 1, r.2)) =
    some (2, 255, 0, 100, 4) := by decide +kernel

end Verif.Noise
