import Verif.Float.Distance
import Verif.Stats.Psnr
import Verif.Integral.Props
/-
`root_mean_squared_error` (src/stats.rs) and `variance` (src/integral_image.rs) in double precision.
-/
namespace Verif.Float
open Finset Verif.Integral

/-! ### C125: mean squared error -/

/-- `u32` multiplication (src/stats.rs:219); panics on overflow as in a debug build. -/
def mulU32 (a b : Nat) : Option Nat := if a * b < 2 ^ 32 then some (a * b) else none

theorem mulU32_of_lt {a b : Nat} (h : a * b < 2 ^ 32) : mulU32 a b = some (a * b) := if_pos h

/-- `mean_squared_error` in binary64, src/stats.rs:201-221, for samples that are natural numbers.  The
number of samples is computed in `u32`; the product panics on overflow (debug build).  For an empty
image the code returns NaN and the model `0`, so the theorems assume non-empty images. -/
noncomputable def mse64 (n : Nat) (a b : Image (Nat → Nat)) : Option ℝ :=
  if a.w = b.w ∧ a.h = b.h then
    (forYX 0 a.h 0 a.w (0 : ℝ) fun x y s =>
      (a.get x y).bind fun p => (b.get x y).bind fun q =>
        forRange 0 n s fun i s =>
          let d := rnd64 ((p i : ℝ) - (q i : ℝ))
          some (rnd64 (s + rnd64 (d * d)))).bind fun s =>
      (mulU32 a.w a.h).bind fun k => (mulU32 k n).bind fun k =>
        some (rnd64 (s / rnd64 (k : ℝ)))
  else none

/-- `root_mean_squared_error` in binary64, src/stats.rs:175-183. -/
noncomputable def rmse64 (n : Nat) (a b : Image (Nat → Nat)) : Option ℝ :=
  (mse64 n a b).map fun v => rnd64 √v

/-- Squared difference of two samples. -/
def dist2 (p q : Nat) : Nat := ((p : Int) - q).natAbs ^ 2

/-- Sum of all squared differences. -/
def sumDiff2 (n : Nat) (a b : Image (Nat → Nat)) : Nat :=
  ∑ y ∈ range a.h, ∑ x ∈ range a.w, ∑ i ∈ range n, dist2 (a.px x y i) (b.px x y i)

theorem dist2_le {p q : Nat} (hp : p ≤ 255) (hq : q ≤ 255) : dist2 p q ≤ 65025 := by
  unfold dist2
  have : ((p : Int) - q).natAbs ≤ 255 := by omega
  exact le_trans (Nat.pow_le_pow_left this 2) (by norm_num)

theorem dist2_eq_zero {p q : Nat} : dist2 p q = 0 ↔ p = q := by
  unfold dist2
  rw [pow_eq_zero_iff (by norm_num)]
  omega

theorem dist2_comm (p q : Nat) : dist2 p q = dist2 q p := by
  unfold dist2
  congr 1
  omega

theorem diff_sq {p q : Nat} (hp : p ≤ 255) (hq : q ≤ 255) :
    rnd64 (rnd64 ((p : ℝ) - (q : ℝ)) * rnd64 ((p : ℝ) - (q : ℝ))) = (dist2 p q : ℝ) := by
  have e1 : rnd64 ((p : ℝ) - (q : ℝ)) = (((p : Int) - q : Int) : ℝ) := by
    have : rnd64 ((((p : Int) - q : Int) : ℝ)) = (((p : Int) - q : Int) : ℝ) := rnd64_int (by
      rw [abs_le]; constructor <;> norm_num <;> omega)
    rw [← this]; push_cast; rfl
  have e2 : ((((p : Int) - q : Int) : ℝ)) * (((p : Int) - q : Int) : ℝ) = (dist2 p q : ℝ) := by
    rw [← Int.cast_mul, ← Int.natAbs_mul_self' ((p : Int) - q), ← pow_two, dist2]
    norm_cast
  rw [e1, e2]
  exact rnd64_nat (le_trans (dist2_le hp hq) (by norm_num))

/-- 8-bit samples. -/
def ByteSamples (n : Nat) (a : Image (Nat → Nat)) : Prop :=
  ∀ x y i, x < a.w → y < a.h → i < n → a.px x y i ≤ 255

theorem sumDiff2_le {n : Nat} {a b : Image (Nat → Nat)} (hw : b.w = a.w) (hh : b.h = a.h)
    (ha : ByteSamples n a) (hb : ByteSamples n b) : sumDiff2 n a b ≤ a.w * a.h * n * 65025 := by
  unfold sumDiff2
  calc _ ≤ ∑ _y ∈ range a.h, ∑ _x ∈ range a.w, ∑ _i ∈ range n, 65025 := by
        refine sum_le_sum fun y hy => sum_le_sum fun x hx => sum_le_sum fun i hi => ?_
        rw [mem_range] at hx hy hi
        exact dist2_le (ha x y i hx hy hi) (hb x y i (by omega) (by omega) hi)
    _ = _ := by
        simp only [sum_const, card_range, smul_eq_mul]
        ring

/-- The sum is exact. -/
theorem sum_exact {n : Nat} {a b : Image (Nat → Nat)} (hw : b.w = a.w) (hh : b.h = a.h)
    (ha : ByteSamples n a) (hb : ByteSamples n b) (hN : a.w * a.h * n < 2 ^ 32) :
    (forYX 0 a.h 0 a.w (0 : ℝ) fun x y s =>
      (a.get x y).bind fun p => (b.get x y).bind fun q =>
        forRange 0 n s fun i s =>
          let d := rnd64 ((p i : ℝ) - (q i : ℝ))
          some (rnd64 (s + rnd64 (d * d)))) = some ((sumDiff2 n a b : Nat) : ℝ) := by
  have htot := sumDiff2_le hw hh ha hb
  have hsum : sumDiff2 n a b = ∑ p ∈ allPx a.w a.h,
      ∑ i ∈ range n, dist2 (a.px p.1 p.2 i) (b.px p.1 p.2 i) :=
    (sum_allPx a.w a.h fun x y => ∑ i ∈ range n, dist2 (a.px x y i) (b.px x y i)).symm
  set g : Nat × Nat → Nat := fun p => ∑ i ∈ range n, dist2 (a.px p.1 p.2 i) (b.px p.1 p.2 i) with hg
  obtain ⟨s, e, hI⟩ := raster_spec (w := a.w) (h := a.h) (s := (0 : ℝ))
    (f := fun x y s => (a.get x y).bind fun p => (b.get x y).bind fun q =>
        forRange 0 n s fun i s =>
          let d := rnd64 ((p i : ℝ) - (q i : ℝ))
          some (rnd64 (s + rnd64 (d * d))))
    (fun S t => S ⊆ allPx a.w a.h ∧ t = ((∑ p ∈ S, g p : Nat) : ℝ)) (by simp)
    (by
      intro x y S t hx hy hn hI
      rw [Image.get_of_inB hx hy, Image.get_of_inB (by omega) (by omega), Option.bind_some, Option.bind_some]
      have hsub : insert (x, y) S ⊆ allPx a.w a.h :=
        insert_subset (mem_allPx.2 ⟨hx, hy⟩) hI.1
      have hbound : ∑ p ∈ insert (x, y) S, g p ≤ 2 ^ 53 := by
        have := sum_le_sum_of_subset (f := g) hsub
        rw [← hsum] at this
        omega
      rw [sum_insert hn] at hbound
      obtain ⟨t', e', h'⟩ := forRange_spec (lo := 0) (hi := n) (s := t)
        (f := fun i s =>
          let d := rnd64 ((a.px x y i : ℝ) - (b.px x y i : ℝ))
          some (rnd64 (s + rnd64 (d * d))))
        (fun k t => t = ((∑ p ∈ S, g p + ∑ i ∈ range k, dist2 (a.px x y i) (b.px x y i) : Nat) : ℝ))
        (by omega) (by rw [hI.2]; simp)
        (by
          intro i s _ hi hs
          refine ⟨_, rfl, ?_⟩
          rw [diff_sq (ha x y i hx hy hi) (hb x y i (by omega) (by omega) hi), hs, ← Nat.cast_add,
            sum_range_succ, ← Nat.add_assoc]
          refine rnd64_nat ?_
          have : ∑ i ∈ range (i + 1), dist2 (a.px x y i) (b.px x y i) ≤ g (x, y) :=
            sum_le_sum_of_subset (range_subset_range.2 (by omega))
          rw [sum_range_succ] at this
          omega)
      refine ⟨t', e', hsub, ?_⟩
      rw [h', sum_insert hn, Nat.add_comm])
  rw [e, hI.2, hsum]

theorem mse64_eq {n : Nat} {a b : Image (Nat → Nat)} (hw : b.w = a.w) (hh : b.h = a.h)
    (ha : ByteSamples n a) (hb : ByteSamples n b) (hn : 0 < n) (hN : a.w * a.h * n < 2 ^ 32) :
    mse64 n a b = some (rnd64 ((sumDiff2 n a b : ℝ) / ((a.w * a.h * n : Nat) : ℝ))) := by
  unfold mse64
  rw [if_pos ⟨hw.symm, hh.symm⟩, sum_exact hw hh ha hb hN, Option.bind_some]
  have h1 : a.w * a.h < 2 ^ 32 := lt_of_le_of_lt (Nat.le_mul_of_pos_right _ hn) hN
  rw [mulU32_of_lt h1, Option.bind_some, mulU32_of_lt hN, Option.bind_some,
    rnd64_nat (le_trans hN.le (by norm_num))]

theorem sumDiff2_comm {n : Nat} {a b : Image (Nat → Nat)} (hw : b.w = a.w) (hh : b.h = a.h) :
    sumDiff2 n b a = sumDiff2 n a b := by
  unfold sumDiff2
  rw [hw, hh]
  exact sum_congr rfl fun y _ => sum_congr rfl fun x _ => sum_congr rfl fun i _ => dist2_comm _ _

theorem sumDiff2_eq_zero {n : Nat} {a b : Image (Nat → Nat)} :
    sumDiff2 n a b = 0 ↔ ∀ x y i, x < a.w → y < a.h → i < n → a.px x y i = b.px x y i := by
  unfold sumDiff2
  simp only [sum_eq_zero_iff, mem_range, dist2_eq_zero]
  exact ⟨fun h x y i hx hy hi => h y hy x hx i hi, fun h y hy x hx i hi => h x y i hx hy hi⟩

/-- Relative error of one operation in binary64, with the absolute error of the subnormal range. -/
theorem rnd64_error (x : ℝ) : |rnd64 x - x| ≤ |x| * 2 ^ (-53 : Int) + 2 ^ (-1075 : Int) := by
  have hp := two_zpow_pos ℝ (-1075)
  have hq := two_zpow_pos ℝ (-53)
  rcases le_or_gt ((2 : ℝ) ^ (-1022 : Int)) |x| with h | h
  · have : |rnd64 x - x| ≤ |x| * 2 ^ (-53 : Int) := rnd_error_rel (by norm_num at h ⊢; exact h)
    linarith
  · have h2 : |x| < (2 : ℝ) ^ (-1021 : Int) :=
      lt_trans h (zpow_lt_zpow_right₀ (by norm_num) (by norm_num))
    have : |rnd64 x - x| ≤ 2 ^ ((-1021 : Int) - (53 : Nat)) / 2 := rnd_error_lt (by norm_num) h2
    rw [show ((-1021 : Int) - (53 : Nat)) = -1075 + 1 by norm_num, zpow_add_one₀ (by norm_num)] at this
    have h3 : 0 ≤ |x| * (2 : ℝ) ^ (-53 : Int) := by positivity
    linarith

/-- The square root of a positive number that is not tiny keeps the relative error. -/
theorem sqrt_rel {m e d : ℝ} (he : 0 < e) (hm : 0 ≤ m) (h : |m - e| ≤ e * d) : |√m - √e| ≤ √e * d := by
  have hs : 0 < √e := Real.sqrt_pos.2 he
  have h1 : (√m - √e) * (√m + √e) = m - e := by
    have a := Real.mul_self_sqrt hm
    have b := Real.mul_self_sqrt he.le
    linear_combination a - b
  have h2 : |√m - √e| * (√m + √e) = |m - e| := by
    rw [← h1, abs_mul, abs_of_nonneg (show 0 ≤ √m + √e by positivity)]
  have h3 : |√m - √e| * √e ≤ |√m - √e| * (√m + √e) :=
    mul_le_mul_of_nonneg_left (by have := Real.sqrt_nonneg m; linarith) (abs_nonneg _)
  have h4 : |√m - √e| * √e ≤ √e * d * √e := by
    calc _ ≤ _ := h3
      _ ≤ e * d := by rw [h2]; exact h
      _ = _ := by rw [mul_right_comm, Real.mul_self_sqrt he.le]
  exact le_of_mul_le_mul_right h4 hs

/-- **C125.** The mean squared error of two 8-bit images is the correctly rounded exact value: the
sum of the squared differences never loses a bit. -/
theorem C125_mse {n : Nat} {a b : Image (Nat → Nat)} (hw : b.w = a.w) (hh : b.h = a.h)
    (ha : ByteSamples n a) (hb : ByteSamples n b) (hn : 0 < n) (hN : a.w * a.h * n < 2 ^ 32) :
    mse64 n a b = some (rnd64 ((∑ y ∈ range a.h, ∑ x ∈ range a.w, ∑ i ∈ range n,
      ((a.px x y i : ℝ) - b.px x y i) ^ 2) / (a.w * a.h * n))) := by
  rw [mse64_eq hw hh ha hb hn hN]
  congr 3
  · unfold sumDiff2
    push_cast
    refine sum_congr rfl fun y _ => sum_congr rfl fun x _ => sum_congr rfl fun i _ => ?_
    unfold dist2
    rw [Nat.cast_pow, Nat.cast_natAbs]
    push_cast
    rw [sq_abs]
  · push_cast; rfl

/-- **C125.** The root mean squared error in double precision is defined and symmetric, lies between
0 and 255, is zero exactly for equal images, and differs from the exact value by at most
`2 ^ -51` of it. -/
theorem C125_rmse {n : Nat} {a b : Image (Nat → Nat)} (hw : b.w = a.w) (hh : b.h = a.h)
    (ha : ByteSamples n a) (hb : ByteSamples n b) (hn : 0 < n) (hw0 : 0 < a.w) (hh0 : 0 < a.h)
    (hN : a.w * a.h * n < 2 ^ 32) :
    ∃ r, rmse64 n a b = some r ∧ rmse64 n b a = some r ∧ 0 ≤ r ∧ r ≤ 255 ∧
      (r = 0 ↔ ∀ x y i, x < a.w → y < a.h → i < n → a.px x y i = b.px x y i) ∧
      (let exact := √((∑ y ∈ range a.h, ∑ x ∈ range a.w, ∑ i ∈ range n,
        ((a.px x y i : ℝ) - b.px x y i) ^ 2) / (a.w * a.h * n))
       |r - exact| ≤ exact * 2 ^ (-51 : Int)) := by
  have e1 := mse64_eq hw hh ha hb hn hN
  have e2 := C125_mse hw hh ha hb hn hN
  have e3 := mse64_eq (a := b) (b := a) hw.symm hh.symm hb ha hn (by rw [hw, hh]; exact hN)
  rw [sumDiff2_comm hw hh, hw, hh] at e3
  have hle := sumDiff2_le hw hh ha hb
  have hz := sumDiff2_eq_zero (n := n) (a := a) (b := b)
  have hexact : (sumDiff2 n a b : ℝ) / ((a.w * a.h * n : Nat) : ℝ) = (∑ y ∈ range a.h, ∑ x ∈ range a.w,
      ∑ i ∈ range n, ((a.px x y i : ℝ) - b.px x y i) ^ 2) / (a.w * a.h * n) := by
    unfold sumDiff2
    push_cast
    congr 1
    refine sum_congr rfl fun y _ => sum_congr rfl fun x _ => sum_congr rfl fun i _ => ?_
    unfold dist2
    rw [Nat.cast_pow, Nat.cast_natAbs]
    push_cast
    rw [sq_abs]
  rw [← hexact, ← hz]
  have hNpos : 0 < a.w * a.h * n := by positivity
  generalize sumDiff2 n a b = S at *
  generalize a.w * a.h * n = N at *
  have hNr : (0 : ℝ) < N := by exact_mod_cast hNpos
  have hN32 : (N : ℝ) < 2 ^ 32 := by exact_mod_cast hN
  set m : ℝ := (S : ℝ) / N with hm
  refine ⟨rnd64 √(rnd64 m), by rw [rmse64, e1]; rfl, by rw [rmse64, e3]; rfl,
    rnd_nonneg (Real.sqrt_nonneg _), ?_, ?_, ?_⟩
  · have h255 : m ≤ 65025 := by
      rw [hm, div_le_iff₀ hNr]
      have : (S : ℝ) ≤ N * 65025 := by exact_mod_cast hle
      linarith
    refine rnd_le (by norm_num) ⟨255, 0, by norm_num, by norm_num, by norm_num⟩ ?_
    rw [Real.sqrt_le_left (by norm_num)]
    refine le_trans (rnd_le (by norm_num) ⟨65025, 0, by norm_num, by norm_num, by norm_num⟩ h255) ?_
    norm_num
  all_goals
    rcases Nat.eq_zero_or_pos S with h0 | h0
  · have : m = 0 := by rw [hm, h0]; simp
    have z : rnd64 (0 : ℝ) = 0 := rnd_zero
    rw [this, z, Real.sqrt_zero, z]
    simp [h0]
  · have hm1 : (2 : ℝ) ^ (-32 : Int) ≤ m := by
      rw [hm, le_div_iff₀ hNr]
      have : (1 : ℝ) ≤ S := by exact_mod_cast h0
      rw [show (2 : ℝ) ^ (-32 : Int) = 1 / 4294967296 by norm_num]
      have h32 : (N : ℝ) < 4294967296 := lt_of_lt_of_eq hN32 (by norm_num)
      linarith
    have h1 : (2 : ℝ) ^ (-32 : Int) ≤ rnd64 m :=
      le_rnd (by norm_num) ⟨1, -32, by norm_num, by norm_num, by norm_num⟩ hm1
    have h2 : (2 : ℝ) ^ (-16 : Int) ≤ √(rnd64 m) := by
      rw [Real.le_sqrt (by positivity) (le_trans (by positivity) h1)]
      refine le_trans (le_of_eq ?_) h1
      norm_num
    have h3 : (2 : ℝ) ^ (-16 : Int) ≤ rnd64 √(rnd64 m) :=
      le_rnd (by norm_num) ⟨1, -16, by norm_num, by norm_num, by norm_num⟩ h2
    have : (0 : ℝ) < 2 ^ (-16 : Int) := by positivity
    constructor
    · intro h; rw [h] at h3; linarith
    · intro h; omega
  · have : m = 0 := by rw [hm, h0]; simp
    have z : rnd64 (0 : ℝ) = 0 := rnd_zero
    rw [this, z, Real.sqrt_zero, z]
    simp
  · have hm1 : (2 : ℝ) ^ (-32 : Int) ≤ m := by
      rw [hm, le_div_iff₀ hNr]
      have : (1 : ℝ) ≤ S := by exact_mod_cast h0
      rw [show (2 : ℝ) ^ (-32 : Int) = 1 / 4294967296 by norm_num]
      have h32 : (N : ℝ) < 4294967296 := lt_of_lt_of_eq hN32 (by norm_num)
      linarith
    have hmpos : 0 < m := lt_of_lt_of_le (by positivity) hm1
    have h1 : (2 : ℝ) ^ (-32 : Int) ≤ rnd64 m :=
      le_rnd (by norm_num) ⟨1, -32, by norm_num, by norm_num, by norm_num⟩ hm1
    have h2 : (2 : ℝ) ^ (-16 : Int) ≤ √(rnd64 m) := by
      rw [Real.le_sqrt (by positivity) (le_trans (by positivity) h1)]
      refine le_trans (le_of_eq ?_) h1
      norm_num
    have tiny : (2 : ℝ) ^ (-1022 : Int) ≤ 2 ^ (-32 : Int) := zpow_le_zpow_right₀ (by norm_num) (by norm_num)
    have tiny' : (2 : ℝ) ^ (-1022 : Int) ≤ 2 ^ (-16 : Int) := zpow_le_zpow_right₀ (by norm_num) (by norm_num)
    have r1 : |rnd64 m - m| ≤ |m| * 2 ^ (-53 : Int) :=
      rnd_error_rel (by rw [abs_of_pos hmpos]; exact le_trans tiny hm1)
    rw [abs_of_pos hmpos] at r1
    have r2 := sqrt_rel hmpos (le_trans (by positivity) h1) r1
    have r3 : |rnd64 √(rnd64 m) - √(rnd64 m)| ≤ |√(rnd64 m)| * 2 ^ (-53 : Int) :=
      rnd_error_rel (by rw [abs_of_nonneg (Real.sqrt_nonneg _)]; exact le_trans tiny' h2)
    rw [abs_of_nonneg (Real.sqrt_nonneg _)] at r3
    dsimp only
    have hs : 0 < √m := Real.sqrt_pos.2 hmpos
    generalize √(rnd64 m) = q at *
    generalize rnd64 q = v at *
    generalize √m = e at *
    norm_num at r2 r3 ⊢
    obtain ⟨a1, a2⟩ := abs_le.1 r2
    obtain ⟨b1, b2⟩ := abs_le.1 r3
    rw [abs_le]
    constructor <;> linarith

/-- **C125.** Images that differ by the same amount `d` in every sample have root mean squared error
exactly `d`. -/
theorem C125_uniform_difference {n d : Nat} {a b : Image (Nat → Nat)} (hw : b.w = a.w) (hh : b.h = a.h)
    (ha : ByteSamples n a) (hb : ByteSamples n b) (hn : 0 < n) (hw0 : 0 < a.w) (hh0 : 0 < a.h)
    (hN : a.w * a.h * n < 2 ^ 32)
    (hd : ∀ x y i, x < a.w → y < a.h → i < n → ((a.px x y i : Int) - b.px x y i).natAbs = d) :
    rmse64 n a b = some (d : ℝ) := by
  have hS : sumDiff2 n a b = a.w * a.h * n * d ^ 2 := by
    unfold sumDiff2
    calc _ = ∑ _y ∈ range a.h, ∑ _x ∈ range a.w, ∑ _i ∈ range n, d ^ 2 := by
          refine sum_congr rfl fun y hy => sum_congr rfl fun x hx => sum_congr rfl fun i hi => ?_
          rw [mem_range] at hx hy hi
          unfold dist2
          rw [hd x y i hx hy hi]
      _ = _ := by
          simp only [sum_const, card_range, smul_eq_mul]
          ring
  have hd255 : d ≤ 255 := by
    have h1 := hd 0 0 0 hw0 hh0 hn
    have h2 := ha 0 0 0 hw0 hh0 hn
    have h3 := hb 0 0 0 (by omega) (by omega) hn
    omega
  have hNpos : 0 < a.w * a.h * n := by positivity
  rw [rmse64, mse64_eq hw hh ha hb hn hN, hS, Option.map_some]
  have e1 : (((a.w * a.h * n * d ^ 2 : Nat) : ℝ) / ((a.w * a.h * n : Nat) : ℝ)) = ((d ^ 2 : Nat) : ℝ) := by
    generalize a.w * a.h * n = N at *
    have : (N : ℝ) ≠ 0 := by exact_mod_cast hNpos.ne'
    push_cast
    field_simp
  have hd2 : d ^ 2 ≤ 255 ^ 2 := Nat.pow_le_pow_left hd255 2
  rw [e1, rnd64_nat (le_trans hd2 (by norm_num)), Nat.cast_pow, Real.sqrt_sq (by positivity),
    rnd64_nat (le_trans hd255 (by norm_num))]

/-- **C125.** Images of different sizes are rejected, and so are images with 2^32 or more samples
(the count overflows). -/
theorem C125_rejects (n : Nat) (a b : Image (Nat → Nat)) :
    (¬ (a.w = b.w ∧ a.h = b.h) → rmse64 n a b = none) ∧
      (0 < n → 2 ^ 32 ≤ a.w * a.h * n → rmse64 n a b = none) := by
  constructor
  · intro h
    rw [rmse64, mse64, if_neg h]
    rfl
  · intro _ h
    rw [rmse64, mse64]
    split_ifs with hs
    · have : ∀ s : ℝ, ((mulU32 a.w a.h).bind fun k => (mulU32 k n).bind fun k =>
          some (rnd64 (s / rnd64 (k : ℝ)))) = none := by
        intro s
        unfold mulU32
        split_ifs with h1
        · rw [Option.bind_some, if_neg (by omega), Option.bind_none]
        · rfl
      simp only [this]
      cases (forYX 0 a.h 0 a.w (0 : ℝ) fun x y s =>
        (a.get x y).bind fun p => (b.get x y).bind fun q =>
        forRange 0 n s fun i s =>
          let d := rnd64 ((p i : ℝ) - (q i : ℝ))
          some (rnd64 (s + rnd64 (d * d)))) <;> rfl
    · rfl

/-- A concrete pair of 2x1 RGB images. -/
example : rmse64 3 ⟨2, 1, fun x _ i => 10 * x + i⟩ ⟨2, 1, fun x _ i => 10 * x + i + 7⟩ = some 7 := by
  have := C125_uniform_difference (n := 3) (d := 7) (a := ⟨2, 1, fun x _ i => 10 * x + i⟩)
    (b := ⟨2, 1, fun x _ i => 10 * x + i + 7⟩) rfl rfl
    (fun x y i hx hy hi => by dsimp only at *; omega) (fun x y i hx hy hi => by dsimp only at *; omega)
    (by norm_num) (by norm_num) (by norm_num) (by norm_num) (fun x y i _ _ _ => by dsimp only; omega)
  exact_mod_cast this

/-! ### C126: variance -/

/-- `variance` in binary64, src/integral_image.rs:303-316. -/
def variance64 (bound : Nat) (I I2 : Image Nat) (left top right bottom : Nat) : Option ℚ :=
  (csub right left).bind fun dw => (csub bottom top).bind fun dh =>
  let n : ℚ := rnd64 (rnd64 ((dw + 1 : Nat) : ℚ) * rnd64 ((dh + 1 : Nat) : ℚ))
  (sumImagePixels bound I2 left top right bottom).bind fun sumSq =>
  (sumImagePixels bound I left top right bottom).bind fun sum =>
  some (rnd64 (rnd64 (rnd64 (sumSq : ℚ) -
    rnd64 (rnd64 (rnd64 (sum : ℚ) * rnd64 (sum : ℚ)) / n)) / n))

/-- The computation on exact sums. -/
def varCore (Q s n : Nat) : ℚ :=
  rnd64 (rnd64 ((Q : ℚ) - rnd64 (rnd64 ((s : ℚ) * s) / n)) / n)

theorem variance64_eq (im : Image Nat) (hfit : 2 * (∑ j ∈ range im.h, ∑ i ∈ range im.w, im.px i j * im.px i j) < 2 ^ 32)
    (hfit1 : 2 * (∑ j ∈ range im.h, ∑ i ∈ range im.w, im.px i j) < 2 ^ 32) (hsize : im.w * im.h ≤ 2 ^ 53)
    (l t r b : Nat) (hl : l ≤ r) (hr : r < im.w) (ht : t ≤ b) (hb : b < im.h) :
    ∃ I I2, integralImage im (fun v => v) = some I ∧ integralImage im (fun v => v * v) = some I2 ∧
      variance64 (2 ^ 32) I I2 l t r b = some (varCore (∑ p ∈ Icc t b ×ˢ Icc l r, im.px p.2 p.1 * im.px p.2 p.1)
        (∑ p ∈ Icc t b ×ˢ Icc l r, im.px p.2 p.1) ((r - l + 1) * (b - t + 1))) := by
  obtain ⟨I, e, hs⟩ := C10_sum_image_pixels im (fun v => v) (2 ^ 32) hfit1 l t r b hl hr ht hb
  obtain ⟨I2, e2, hs2⟩ := C10_sum_image_pixels im (fun v => v * v) (2 ^ 32) hfit l t r b hl hr ht hb
  refine ⟨I, I2, e, e2, ?_⟩
  have sub : ∀ f : Nat → Nat → Nat, ∑ j ∈ Icc t b, ∑ i ∈ Icc l r, f i j ≤
      ∑ j ∈ range im.h, ∑ i ∈ range im.w, f i j := by
    intro f
    have h1 : Icc t b ⊆ range im.h := fun j hj => mem_range.2 (by rw [mem_Icc] at hj; omega)
    have h2 : Icc l r ⊆ range im.w := fun j hj => mem_range.2 (by rw [mem_Icc] at hj; omega)
    refine le_trans (sum_le_sum fun j _ => sum_le_sum_of_subset h2) (sum_le_sum_of_subset h1)
  have s1 := sub fun i j => im.px i j
  have s2 := sub fun i j => im.px i j * im.px i j
  have hw1 : im.w ≤ im.w * im.h := Nat.le_mul_of_pos_right _ (by omega)
  have hh1 : im.h ≤ im.w * im.h := Nat.le_mul_of_pos_left _ (by omega)
  have hn : (r - l + 1) * (b - t + 1) ≤ im.w * im.h := Nat.mul_le_mul (by omega) (by omega)
  have e1 : rnd64 ((r - l + 1 : Nat) : ℚ) = ((r - l + 1 : Nat) : ℚ) := rnd64_nat (by omega)
  have e2 : rnd64 ((b - t + 1 : Nat) : ℚ) = ((b - t + 1 : Nat) : ℚ) := rnd64_nat (by omega)
  have e3 : rnd64 (((r - l + 1) * (b - t + 1) : Nat) : ℚ) = (((r - l + 1) * (b - t + 1) : Nat) : ℚ) :=
    rnd64_nat (by omega)
  have e4 : rnd64 ((∑ j ∈ Icc t b, ∑ i ∈ Icc l r, im.px i j : Nat) : ℚ) =
    ((∑ j ∈ Icc t b, ∑ i ∈ Icc l r, im.px i j : Nat) : ℚ) := rnd64_nat (by omega)
  have e5 : rnd64 ((∑ j ∈ Icc t b, ∑ i ∈ Icc l r, im.px i j * im.px i j : Nat) : ℚ) =
    ((∑ j ∈ Icc t b, ∑ i ∈ Icc l r, im.px i j * im.px i j : Nat) : ℚ) := rnd64_nat (by omega)
  unfold variance64 varCore
  rw [csub_of_le hl, csub_of_le ht, hs, hs2, Option.bind_some, Option.bind_some, Option.bind_some,
    Option.bind_some, sum_product, sum_product, e1, e2, ← Nat.cast_mul, e3, e4, e5]

/-- Rounding error of one operation over the rationals. -/
theorem rnd64_errorQ (x : ℚ) : |rnd64 x - x| ≤ |x| * 2 ^ (-53 : Int) + 2 ^ (-1075 : Int) := by
  have h := rnd64_error (x : ℝ)
  have c : rnd64 (x : ℝ) = ((rnd64 x : ℚ) : ℝ) := rnd_cast x
  rw [c] at h
  have h2 : ((|rnd64 x - x| : ℚ) : ℝ) ≤ ((|x| * 2 ^ (-53 : Int) + 2 ^ (-1075 : Int) : ℚ) : ℝ) := by
    push_cast
    exact h
  exact_mod_cast h2

/-- A region whose mean of squares exceeds the square of the mean by half a unit has positive
variance. -/
theorem varCore_pos {Q s n : Nat} (hn0 : 0 < n) (hn : n ≤ 2 ^ 53) (hQ : Q < 2 ^ 32)
    (hgap : (s : ℚ) * s / n ≤ Q - 1 / 2) : 0 < varCore Q s n := by
  have hnq : (0 : ℚ) < n := by exact_mod_cast hn0
  have hn1 : (1 : ℚ) ≤ n := by exact_mod_cast hn0
  have hn53 : (n : ℚ) ≤ 9007199254740992 := by exact_mod_cast hn
  have hQq : (Q : ℚ) < 4294967296 := by exact_mod_cast hQ
  have hA0 : (0 : ℚ) ≤ (s : ℚ) * s / n := by positivity
  have h1 := rnd64_errorQ ((s : ℚ) * s)
  rw [abs_of_nonneg (show (0 : ℚ) ≤ (s : ℚ) * s by positivity)] at h1
  have h2 : rnd64 ((s : ℚ) * s) / n ≤ (Q : ℚ) - 1 / 4 := by
    have hd : rnd64 ((s : ℚ) * s) / n ≤
        (s : ℚ) * s / n + (s : ℚ) * s / n * 2 ^ (-53 : Int) + 2 ^ (-1075 : Int) := by
      rw [div_le_iff₀ hnq]
      have e : ((s : ℚ) * s / n + (s : ℚ) * s / n * 2 ^ (-53 : Int) + 2 ^ (-1075 : Int)) * n =
          (s : ℚ) * s + (s : ℚ) * s * 2 ^ (-53 : Int) + 2 ^ (-1075 : Int) * n := by field_simp
      rw [e]
      have : (2 : ℚ) ^ (-1075 : Int) ≤ 2 ^ (-1075 : Int) * n := le_mul_of_one_le_right (by positivity) hn1
      linarith [(abs_le.1 h1).2]
    have ht : (2 : ℚ) ^ (-1075 : Int) ≤ 2 ^ (-10 : Int) := zpow_le_zpow_right₀ (by norm_num) (by norm_num)
    generalize (s : ℚ) * s / n = A at *
    generalize (2 : ℚ) ^ (-1075 : Int) = tiny at *
    norm_num at hd ht ⊢
    linarith
  have h3 : rnd64 (rnd64 ((s : ℚ) * s) / n) ≤ (Q : ℚ) - 1 / 4 := by
    refine rnd_le (by norm_num) ⟨4 * Q - 1, -2, ?_, by norm_num, ?_⟩ h2
    · rw [abs_le]; constructor <;> norm_num <;> omega
    · push_cast; norm_num; ring
  have h4 : (1 / 4 : ℚ) ≤ rnd64 ((Q : ℚ) - rnd64 (rnd64 ((s : ℚ) * s) / n)) :=
    le_rnd (by norm_num) ⟨1, -2, by norm_num, by norm_num, by norm_num⟩ (by linarith)
  have h5 : (2 : ℚ) ^ (-60 : Int) ≤ rnd64 ((Q : ℚ) - rnd64 (rnd64 ((s : ℚ) * s) / n)) / n := by
    rw [le_div_iff₀ hnq]
    refine le_trans ?_ h4
    norm_num
    linarith
  have h6 : (2 : ℚ) ^ (-60 : Int) ≤ varCore Q s n :=
    le_rnd (by norm_num) ⟨1, -60, by norm_num, by norm_num, by norm_num⟩ h5
  exact lt_of_lt_of_le (by positivity) h6

/-- A constant region with a small sum has variance zero. -/
theorem varCore_zero {c n : Nat} (hn0 : 0 < n) (hs : n * c ≤ 94906265) (hQ : n * (c * c) ≤ 2 ^ 53) :
    varCore (n * (c * c)) (n * c) n = 0 := by
  have hnq : (n : ℚ) ≠ 0 := by exact_mod_cast hn0.ne'
  unfold varCore
  have e1 : rnd64 (((n * c : Nat) : ℚ) * ((n * c : Nat) : ℚ)) = (((n * c) * (n * c) : Nat) : ℚ) := by
    rw [← Nat.cast_mul]
    refine rnd64_nat ?_
    exact le_trans (Nat.mul_le_mul hs hs) (by norm_num)
  have e2 : ((((n * c) * (n * c) : Nat) : ℚ) / n) = ((n * (c * c) : Nat) : ℚ) := by
    push_cast
    field_simp
  have z : rnd64 (0 : ℚ) = 0 := rnd_zero
  rw [e1, e2, rnd64_nat hQ, sub_self, z, zero_div, z]

/-- Accuracy. -/
theorem varCore_error {Q s n : Nat} (hn0 : 0 < n) (hn : n ≤ 2 ^ 53) (hcs : (s : ℚ) * s / n ≤ Q)
    (hz : Q = 0 → s = 0) :
    |varCore Q s n - ((Q : ℚ) - (s : ℚ) * s / n) / n| ≤ (Q : ℚ) / n * 2 ^ (-50 : Int) := by
  have hnq : (0 : ℚ) < n := by exact_mod_cast hn0
  have hn1 : (1 : ℚ) ≤ n := by exact_mod_cast hn0
  have hn53 : (n : ℚ) ≤ 9007199254740992 := by exact_mod_cast hn
  rcases Nat.eq_zero_or_pos Q with h0 | h0
  · have hs0 := hz h0
    subst h0 hs0
    have z : rnd64 (0 : ℚ) = 0 := rnd_zero
    unfold varCore
    simp [z]
  have hQ1 : (1 : ℚ) ≤ Q := by exact_mod_cast h0
  have hA0 : (0 : ℚ) ≤ (s : ℚ) * s / n := by positivity
  have h1 := rnd64_errorQ ((s : ℚ) * s)
  rw [abs_of_nonneg (show (0 : ℚ) ≤ (s : ℚ) * s by positivity)] at h1
  have h2 := rnd64_errorQ (rnd64 ((s : ℚ) * s) / n)
  have h3 := rnd64_errorQ ((Q : ℚ) - rnd64 (rnd64 ((s : ℚ) * s) / n))
  have h4 := rnd64_errorQ (rnd64 ((Q : ℚ) - rnd64 (rnd64 ((s : ℚ) * s) / n)) / n)
  unfold varCore
  set A := (s : ℚ) * s / n with hA
  set B := rnd64 ((s : ℚ) * s) / n with hB
  set q := rnd64 B with hq
  set r := rnd64 ((Q : ℚ) - q) with hr
  have ht : (2 : ℚ) ^ (-1075 : Int) ≤ 2 ^ (-153 : Int) := zpow_le_zpow_right₀ (by norm_num) (by norm_num)
  have t0 : (0 : ℚ) ≤ 2 ^ (-1075 : Int) := by positivity
  generalize (2 : ℚ) ^ (-1075 : Int) = tiny at *
  have b1 : |B - A| ≤ A * 2 ^ (-53 : Int) + tiny := by
    have e : B - A = (rnd64 ((s : ℚ) * s) - (s : ℚ) * s) / n := by rw [hB, hA]; ring
    rw [e, abs_div, abs_of_pos hnq, div_le_iff₀ hnq]
    have e2 : (A * 2 ^ (-53 : Int) + tiny) * n = (s : ℚ) * s * 2 ^ (-53 : Int) + tiny * n := by
      rw [hA]; field_simp
    rw [e2]
    have : tiny ≤ tiny * n := le_mul_of_one_le_right t0 hn1
    linarith
  have hu : (2 : ℚ) ^ (-53 : Int) = 1 / 9007199254740992 := by norm_num
  have hu50 : (2 : ℚ) ^ (-50 : Int) = 8 / 9007199254740992 := by norm_num
  rw [hu] at h1 h2 h3 h4 b1
  rw [hu50]
  have ht' : tiny ≤ 1 / 9007199254740992 / 9007199254740992 / 100 := le_trans ht (by norm_num)
  have hB0 : 0 ≤ B := div_nonneg (rnd_nonneg (by positivity)) hnq.le
  rw [abs_of_nonneg hB0] at h2
  obtain ⟨b1, b2⟩ := abs_le.1 b1
  obtain ⟨c1, c2⟩ := abs_le.1 h2
  have d1 : |(Q : ℚ) - q| ≤ 11 / 10 * Q := by
    rw [abs_le]; constructor <;> linarith
  obtain ⟨f1, f2⟩ := abs_le.1 h3
  have g : |r - ((Q : ℚ) - A)| ≤ Q * (4 / 9007199254740992) := by
    rw [abs_le]; constructor <;> linarith
  have g' : |r / n - ((Q : ℚ) - A) / n| ≤ Q / n * (4 / 9007199254740992) := by
    rw [← sub_div, abs_div, abs_of_pos hnq, div_le_iff₀ hnq]
    refine le_trans g (le_of_eq ?_)
    field_simp
  have hr' : |r / n| ≤ 11 / 10 * (Q / n) := by
    rw [abs_div, abs_of_pos hnq, div_le_iff₀ hnq]
    have e : 11 / 10 * ((Q : ℚ) / n) * n = 11 / 10 * Q := by field_simp
    rw [e]
    obtain ⟨g1, g2⟩ := abs_le.1 g
    rw [abs_le]; constructor <;> linarith
  have hQn : (1 : ℚ) / 9007199254740992 ≤ Q / n := by
    rw [le_div_iff₀ hnq]
    linarith
  obtain ⟨g1, g2⟩ := abs_le.1 g'
  obtain ⟨k1, k2⟩ := abs_le.1 h4
  generalize (Q : ℚ) / n = X at *
  generalize ((Q : ℚ) - A) / n = Y at *
  generalize r / n = Z at *
  generalize |Z| = Z' at *
  rw [abs_le]; constructor <;> linarith

/-- The samples of a rectangle. -/
theorem sum_const_rect (im : Image Nat) {l t r b c : Nat} (hl : l ≤ r) (ht : t ≤ b)
    (hc : ∀ x y, l ≤ x → x ≤ r → t ≤ y → y ≤ b → im.px x y = c) (f : Nat → Nat) :
    ∑ p ∈ Icc t b ×ˢ Icc l r, f (im.px p.2 p.1) = (r - l + 1) * (b - t + 1) * f c := by
  rw [sum_congr rfl (g := fun _ => f c) (by
    intro p hp
    rw [mem_product, mem_Icc, mem_Icc] at hp
    rw [hc p.2 p.1 hp.2.1 hp.2.2 hp.1.1 hp.1.2]), sum_const, card_product, Nat.card_Icc, Nat.card_Icc,
    smul_eq_mul, show r + 1 - l = r - l + 1 by omega, show b + 1 - t = b - t + 1 by omega]
  ring

/-- The deviations from the mean. -/
theorem deviations {β : Type _} (S : Finset β) (f : β → ℚ) (hS : 0 < S.card) :
    ∑ p ∈ S, f p * f p - (∑ p ∈ S, f p) * (∑ p ∈ S, f p) / S.card =
      ∑ p ∈ S, (f p - (∑ q ∈ S, f q) / S.card) ^ 2 := by
  have hn : (S.card : ℚ) ≠ 0 := by exact_mod_cast hS.ne'
  have : ∀ m : ℚ, ∑ p ∈ S, (f p - m) ^ 2 = ∑ p ∈ S, f p * f p - 2 * m * ∑ p ∈ S, f p + S.card * m ^ 2 := by
    intro m
    rw [mul_sum, ← nsmul_eq_mul, ← sum_const, ← sum_sub_distrib, ← sum_add_distrib]
    exact sum_congr rfl fun p _ => by ring
  rw [this]
  field_simp
  ring

/-- **C126.** The variance in double precision: it is positive for every rectangle that is not
constant, zero for every constant rectangle whose sum is at most 94906265, and always within
`2 ^ -50` of the mean of the squares from the population variance. -/
theorem C126_variance_partial (im : Image Nat)
    (hfit : 2 * (∑ j ∈ range im.h, ∑ i ∈ range im.w, im.px i j * im.px i j) < 2 ^ 32)
    (hfit1 : 2 * (∑ j ∈ range im.h, ∑ i ∈ range im.w, im.px i j) < 2 ^ 32) (hsize : im.w * im.h ≤ 2 ^ 53)
    (l t r b : Nat) (hl : l ≤ r) (hr : r < im.w) (ht : t ≤ b) (hb : b < im.h) :
    ∃ I I2 v, integralImage im (fun v => v) = some I ∧ integralImage im (fun v => v * v) = some I2 ∧
      variance64 (2 ^ 32) I I2 l t r b = some v ∧
      (∀ x y x' y', l ≤ x → x ≤ r → t ≤ y → y ≤ b → l ≤ x' → x' ≤ r → t ≤ y' → y' ≤ b →
        im.px x y ≠ im.px x' y' → 0 < v) ∧
      (∀ c, (∀ x y, l ≤ x → x ≤ r → t ≤ y → y ≤ b → im.px x y = c) →
        ∑ j ∈ Icc t b, ∑ i ∈ Icc l r, im.px i j ≤ 94906265 → v = 0) ∧
      (let n : ℚ := ((r - l + 1 : Nat) : ℚ) * ((b - t + 1 : Nat) : ℚ)
       let mean : ℚ := (∑ j ∈ Icc t b, ∑ i ∈ Icc l r, (im.px i j : ℚ)) / n
       |v - (∑ j ∈ Icc t b, ∑ i ∈ Icc l r, ((im.px i j : ℚ) - mean) ^ 2) / n| ≤
         (∑ j ∈ Icc t b, ∑ i ∈ Icc l r, (im.px i j : ℚ) ^ 2) / n * 2 ^ (-50 : Int)) := by
  obtain ⟨I, I2, e1, e2, e⟩ := variance64_eq im hfit hfit1 hsize l t r b hl hr ht hb
  refine ⟨I, I2, _, e1, e2, e, ?_⟩
  have sub : ∀ f : Nat → Nat → Nat, ∑ p ∈ Icc t b ×ˢ Icc l r, f p.2 p.1 ≤
      ∑ j ∈ range im.h, ∑ i ∈ range im.w, f i j := by
    intro f
    have h1 : Icc t b ⊆ range im.h := fun j hj => mem_range.2 (by rw [mem_Icc] at hj; omega)
    have h2 : Icc l r ⊆ range im.w := fun j hj => mem_range.2 (by rw [mem_Icc] at hj; omega)
    rw [sum_product]
    exact le_trans (sum_le_sum fun j _ => sum_le_sum_of_subset h2) (sum_le_sum_of_subset h1)
  have s2 := sub fun i j => im.px i j * im.px i j
  set S := Icc t b ×ˢ Icc l r with hS
  have hcard : S.card = (r - l + 1) * (b - t + 1) := by
    rw [hS, card_product, Nat.card_Icc, Nat.card_Icc, show r + 1 - l = r - l + 1 by omega,
      show b + 1 - t = b - t + 1 by omega, Nat.mul_comm]
  have hn : (r - l + 1) * (b - t + 1) ≤ im.w * im.h := Nat.mul_le_mul (by omega) (by omega)
  have hpos : 0 < S.card := by rw [hcard]; positivity
  have dev := deviations S (fun p => (im.px p.2 p.1 : ℚ)) hpos
  have cQ : ((∑ p ∈ S, im.px p.2 p.1 * im.px p.2 p.1 : Nat) : ℚ) =
      ∑ p ∈ S, (im.px p.2 p.1 : ℚ) * (im.px p.2 p.1 : ℚ) := by push_cast; rfl
  have cs : ((∑ p ∈ S, im.px p.2 p.1 : Nat) : ℚ) = ∑ p ∈ S, (im.px p.2 p.1 : ℚ) := by push_cast; rfl
  rw [← hcard]
  dsimp only at dev s2 ⊢
  refine ⟨?_, ?_, ?_⟩
  · intro x y x' y' h1 h2 h3 h4 h5 h6 h7 h8 hne
    refine varCore_pos hpos (by omega) (by omega) ?_
    rw [cQ, cs]
    set m := (∑ q ∈ S, (im.px q.2 q.1 : ℚ)) / S.card with hm
    have hsum : ((im.px x y : ℚ) - m) ^ 2 + ((im.px x' y' : ℚ) - m) ^ 2 ≤
        ∑ p ∈ S, ((im.px p.2 p.1 : ℚ) - m) ^ 2 := by
      have hne' : ((y, x) : Nat × Nat) ≠ (y', x') := by
        intro h; rw [Prod.mk.injEq] at h; apply hne; rw [h.1, h.2]
      rw [← sum_pair (f := fun p : Nat × Nat => ((im.px p.2 p.1 : ℚ) - m) ^ 2) hne']
      refine sum_le_sum_of_subset_of_nonneg ?_ fun p _ _ => sq_nonneg _
      intro p hp
      rw [mem_insert, mem_singleton] at hp
      rw [hS, mem_product, mem_Icc, mem_Icc]
      rcases hp with rfl | rfl
      · exact ⟨⟨h3, h4⟩, h1, h2⟩
      · exact ⟨⟨h7, h8⟩, h5, h6⟩
    have hone : (1 : ℚ) ≤ ((im.px x y : ℚ) - im.px x' y') ^ 2 := by
      have : (1 : Int) ≤ ((im.px x y : Int) - im.px x' y') ^ 2 := by
        have h0 : ((im.px x y : Int) - im.px x' y') ≠ 0 := by omega
        have := pow_pos (abs_pos.2 h0) 2
        rw [sq_abs] at this
        omega
      exact_mod_cast this
    have hhalf : ((im.px x y : ℚ) - im.px x' y') ^ 2 ≤
        2 * (((im.px x y : ℚ) - m) ^ 2 + ((im.px x' y' : ℚ) - m) ^ 2) := by
      nlinarith [sq_nonneg (((im.px x y : ℚ) - m) + ((im.px x' y' : ℚ) - m))]
    linarith
  · intro c hc hsum
    have q1 := sum_const_rect im hl ht hc fun v => v * v
    have q2 := sum_const_rect im hl ht hc fun v => v
    rw [← hS, ← hcard] at q1 q2
    rw [← sum_product', ← hS, q2] at hsum
    rw [q1, q2]
    rw [q1] at s2
    exact varCore_zero hpos hsum (by omega)
  · have hQ0 : (∑ p ∈ S, im.px p.2 p.1 * im.px p.2 p.1) = 0 → ∑ p ∈ S, im.px p.2 p.1 = 0 := by
      intro h
      rw [sum_eq_zero_iff] at h ⊢
      intro p hp
      have := h p hp
      rcases Nat.mul_eq_zero.1 this with h | h <;> exact h
    have err := varCore_error (Q := ∑ p ∈ S, im.px p.2 p.1 * im.px p.2 p.1) (s := ∑ p ∈ S, im.px p.2 p.1)
      hpos (by omega) (by
        rw [cQ, cs]
        have : (0 : ℚ) ≤ ∑ p ∈ S, ((im.px p.2 p.1 : ℚ) - (∑ q ∈ S, (im.px q.2 q.1 : ℚ)) / S.card) ^ 2 :=
          sum_nonneg fun _ _ => sq_nonneg _
        linarith) hQ0
    rw [cQ, cs, dev] at err
    have cn : ((r - l + 1 : Nat) : ℚ) * ((b - t + 1 : Nat) : ℚ) = S.card := by rw [hcard]; push_cast; rfl
    rw [cn, ← sum_product' (f := fun j i => (im.px i j : ℚ)), ← sum_product', ← sum_product', ← hS]
    simp only [pow_two] at err ⊢
    exact err

/-- Negative variance of a constant region. -/
theorem varCore_neg : varCore (7329 * 7329 * (5 * 5)) (7329 * 7329 * 5) (7329 * 7329) < 0 := by decide +kernel

/-- **C126, negation.** Not every variance is non-negative: the variance of a 7329x7329 image of
constant value 5 is negative. -/
theorem C126_negation : ∃ I I2 v,
    integralImage ⟨7329, 7329, fun _ _ => 5⟩ (fun v => v) = some I ∧
    integralImage ⟨7329, 7329, fun _ _ => 5⟩ (fun v => v * v) = some I2 ∧
    variance64 (2 ^ 32) I I2 0 0 7328 7328 = some v ∧ v < 0 := by
  have key : ∀ w h : Nat, 0 < w → 0 < h → 2 * (h * (w * 25)) < 2 ^ 32 → 2 * (h * (w * 5)) < 2 ^ 32 →
      ∃ I I2, integralImage ⟨w, h, fun _ _ => 5⟩ (fun v => v) = some I ∧
      integralImage ⟨w, h, fun _ _ => 5⟩ (fun v => v * v) = some I2 ∧
      variance64 (2 ^ 32) I I2 0 0 (w - 1) (h - 1) = some (varCore (w * h * (5 * 5)) (w * h * 5) (w * h)) := by
    intro w h hw hh h1 h2
    obtain ⟨I, I2, e1, e2, e3⟩ := variance64_eq ⟨w, h, fun _ _ => 5⟩ (by simpa using h1) (by simpa using h2)
      (by dsimp only; nlinarith) 0 0 (w - 1) (h - 1) (by omega) (by dsimp only; omega) (by omega)
      (by dsimp only; omega)
    refine ⟨I, I2, e1, e2, ?_⟩
    rw [e3]
    have q1 := sum_const_rect ⟨w, h, fun _ _ => 5⟩ (l := 0) (t := 0) (r := w - 1) (b := h - 1) (c := 5)
      (by omega) (by omega) (fun _ _ _ _ _ _ => rfl) fun v => v * v
    have q2 := sum_const_rect ⟨w, h, fun _ _ => 5⟩ (l := 0) (t := 0) (r := w - 1) (b := h - 1) (c := 5)
      (by omega) (by omega) (fun _ _ _ _ _ _ => rfl) fun v => v
    dsimp only at q1 q2 ⊢
    rw [q1, q2, Nat.sub_zero, Nat.sub_zero, Nat.sub_add_cancel hw, Nat.sub_add_cancel hh]
  obtain ⟨I, I2, e1, e2, e3⟩ := key 7329 7329 (by norm_num) (by norm_num) (by norm_num) (by norm_num)
  exact ⟨I, I2, _, e1, e2, e3, varCore_neg⟩

example : ((integralImage (Image.ofRows 0 [[1, 2, 3], [4, 5, 6]]) (fun v : Nat => v)).bind fun I =>
    (integralImage (Image.ofRows 0 [[1, 2, 3], [4, 5, 6]]) (fun v : Nat => v * v)).bind fun I2 =>
    variance64 (2 ^ 32) I I2 1 0 2 1) = some (5 / 2) := by decide +kernel

end Verif.Float
