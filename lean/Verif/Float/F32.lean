import Verif.Float.Basic
import Verif.Filter.Separable
import Mathlib.Algebra.Order.Ring.Pow
/-
Single-precision numbers as a number type for the filters, which are modelled for any type with `0`,
`+`, `*` and `/` (`Verif/Filter/Model.lean`): every operation is followed by rounding.  The bounds
compare a sum computed in single precision with the exact sum of the same numbers.
-/
set_option linter.unusedSectionVars false
namespace Verif.Float
open Verif.Filter

/-- The value of an `f32`; operations round to nearest.  Overflow, NaN and the sign of zero are not
represented. -/
structure F32 (K : Type _) where
  val : K
deriving DecidableEq

variable {K : Type _} [Field K] [LinearOrder K] [IsStrictOrderedRing K] [FloorRing K]

instance : Zero (F32 K) := ⟨⟨0⟩⟩
/-- `f32` addition. -/
instance : Add (F32 K) := ⟨fun a b => ⟨rnd32 (a.val + b.val)⟩⟩
/-- `f32` multiplication. -/
instance : Mul (F32 K) := ⟨fun a b => ⟨rnd32 (a.val * b.val)⟩⟩
/-- `f32` division. -/
instance : Div (F32 K) := ⟨fun a b => ⟨rnd32 (a.val / b.val)⟩⟩

/-- Conversion of an integer to `f32`. -/
instance : NatCast (F32 K) := ⟨fun n => ⟨rnd32 (n : K)⟩⟩

theorem F32.val_zero : (0 : F32 K).val = 0 := rfl
theorem F32.val_add (a b : F32 K) : (a + b).val = rnd32 (a.val + b.val) := rfl
theorem F32.val_mul (a b : F32 K) : (a * b).val = rnd32 (a.val * b.val) := rfl
theorem F32.val_div (a b : F32 K) : (a / b).val = rnd32 (a.val / b.val) := rfl

/-- Rounding error of any number: relative, plus the error of underflow. -/
theorem rnd_error_mixed {p : Nat} {emin : Int} (x : K) :
    |rnd p emin x - x| ≤ |x| * 2 ^ (-(p : Int)) + 2 ^ (emin - 1) := by
  have h1 := mul_nonneg (abs_nonneg x) (two_zpow_pos K (-(p : Int))).le
  have h2 := (two_zpow_pos K (emin - 1)).le
  rcases le_or_gt (2 ^ (emin + p - 1)) |x| with h | h
  · linarith [rnd_error_rel h]
  · by_cases h0 : x = 0
    · rw [h0, rnd_zero, sub_zero, abs_zero]
      rw [h0, abs_zero] at h1
      linarith
    have hl := lt_of_zpow_lt (lt_of_le_of_lt (log_lower h0) h)
    have he : ulpExp p emin x = emin := by unfold ulpExp; omega
    have := rnd_error (p := p) (emin := emin) x
    rw [he] at this
    have e : (2 : K) ^ (emin - 1) = 2 ^ emin / 2 := by rw [zpow_sub₀ (by norm_num), zpow_one]
    linarith

/-- The product of a floating-point number with an integer never suffers from underflow. -/
theorem rnd_int_mul_error {p : Nat} {emin : Int} (hp : 1 ≤ p) {x : K} (hx : Rep p emin x) (n : Int) :
    |rnd p emin (n * x) - n * x| ≤ |(n : K) * x| * 2 ^ (-(p : Int)) := by
  rcases le_or_gt (2 ^ (emin + p - 1)) |(n : K) * x| with h | h
  · exact rnd_error_rel h
  · obtain ⟨m, k, -, hk, rfl⟩ := hx
    obtain ⟨q, hq⟩ := zpow_int_of_le (K := K) hk
    have e : (n : K) * (m * 2 ^ k) = ((n * m * q : Int) : K) * 2 ^ emin := by
      rw [hq]; push_cast; ring
    rw [e] at h ⊢
    have hpos := two_zpow_pos K emin
    have hr : Rep p emin (((n * m * q : Int) : K) * 2 ^ emin) := by
      refine ⟨_, emin, ?_, le_refl _, rfl⟩
      rw [abs_mul, abs_of_pos hpos] at h
      have h2 : |((n * m * q : Int) : K)| < 2 ^ ((p : Int) - 1) := by
        rw [show emin + (p : Int) - 1 = ((p : Int) - 1) + emin by ring, zpow_add₀ (by norm_num)] at h
        exact lt_of_mul_lt_mul_right h hpos.le
      have h3 : |((n * m * q : Int) : K)| < 2 ^ p := by
        refine lt_of_lt_of_le h2 ?_
        rw [← zpow_natCast]
        exact zpow_le_zpow_right₀ (by norm_num) (by omega)
      have h4 : |n * m * q| < 2 ^ p := by exact_mod_cast h3
      exact h4.le
    rw [rnd_of_rep hp hr, sub_self, abs_zero]
    exact mul_nonneg (abs_nonneg _) (two_zpow_pos K _).le

/-- The rounding unit of `f32`. -/
abbrev u32 : K := 2 ^ (-(24 : Nat) : Int)

theorem u32_pos : 0 < (u32 : K) := two_zpow_pos K _
theorem u32_lt_one : (u32 : K) < 1 := by
  have : (2 : K) ^ (-(24 : Nat) : Int) < 2 ^ (0 : Int) := zpow_lt_zpow_right₀ (by norm_num) (by norm_num)
  simpa using this

theorem two_sided {x r e : K} (hx : 0 ≤ x) (h : |r - x| ≤ |x| * e) :
    (1 - e) * x ≤ r ∧ r ≤ (1 + e) * x := by
  rw [abs_of_nonneg hx] at h
  obtain ⟨a, b⟩ := abs_le.1 h
  constructor <;> nlinarith

/-- A running sum of non-negative products `n * w` in single precision, compared with exact
arithmetic. -/
theorem fold_mul_bounds {β : Type _} (v : β → Nat) (w : β → F32 K) :
    ∀ (l : List β), (∀ b ∈ l, 0 ≤ (w b).val ∧ Rep 24 (-149) (w b).val) →
    ∀ (a : F32 K) (e : K) (k : Nat), 1 ≤ k → Rep 24 (-149) a.val → 0 ≤ e →
      (1 - u32) ^ k * e ≤ a.val → a.val ≤ (1 + u32) ^ k * e →
      let r := l.foldl (fun a b => a + (⟨(v b : K)⟩ : F32 K) * w b) a
      let s := l.foldl (fun e b => e + (v b : K) * (w b).val) e
      Rep 24 (-149) r.val ∧ 0 ≤ s ∧ (1 - u32) ^ (k + l.length) * s ≤ r.val ∧
        r.val ≤ (1 + u32) ^ (k + l.length) * s := by
  intro l
  induction l with
  | nil => intro _ a e k _ h1 h2 h3 h4; exact ⟨h1, h2, h3, h4⟩
  | cons b l ih =>
    intro hl a e k hk h1 h2 h3 h4
    obtain ⟨hw, hr⟩ := hl b (by simp)
    have hu := u32_pos (K := K)
    have hu1 := u32_lt_one (K := K)
    have hvw : 0 ≤ (v b : K) * (w b).val := mul_nonneg (by positivity) hw
    have m := rnd_int_mul_error (p := 24) (emin := -149) (by norm_num) hr (v b : Int)
    rw [Int.cast_natCast] at m
    obtain ⟨m1, m2⟩ := two_sided hvw m
    set q : K := rnd32 ((v b : K) * (w b).val) with hq
    have m1' : (1 - u32) * ((v b : K) * (w b).val) ≤ q := m1
    have m2' : q ≤ (1 + u32) * ((v b : K) * (w b).val) := m2
    have hq0 : 0 ≤ q := rnd_nonneg hvw
    have a0 : 0 ≤ a.val := le_trans (mul_nonneg (pow_nonneg (by linarith) _) h2) h3
    have s1 := rnd_add_error (p := 24) (emin := -149) (by norm_num) h1
      (show Rep 24 (-149) q from rep_rnd _)
    obtain ⟨s2, s3⟩ := two_sided (by linarith) s1
    have hval : (a + (⟨(v b : K)⟩ : F32 K) * w b).val = rnd 24 (-149) (a.val + q) := rfl
    have p1 : (1 - u32 : K) ^ k ≤ 1 - u32 :=
      pow_le_of_le_one (by linarith) (by linarith) (by omega)
    have p2 : (1 + u32 : K) ≤ (1 + u32) ^ k := by
      calc (1 + u32 : K) = (1 + u32) ^ 1 := (pow_one _).symm
        _ ≤ _ := pow_le_pow_right₀ (by linarith) hk
    have := ih (fun b' hb' => hl b' (by simp [hb'])) (a + (⟨(v b : K)⟩ : F32 K) * w b)
      (e + (v b : K) * (w b).val) (k + 1) (by omega) (by rw [hval]; exact rep_rnd _) (by linarith)
      (by
        rw [hval]
        refine le_trans ?_ s2
        rw [pow_succ, mul_comm ((1 - u32 : K) ^ k), mul_assoc]
        refine mul_le_mul_of_nonneg_left ?_ (by linarith)
        rw [mul_add]
        have : (1 - u32 : K) ^ k * ((v b : K) * (w b).val) ≤ (1 - u32) * ((v b : K) * (w b).val) :=
          mul_le_mul_of_nonneg_right p1 hvw
        linarith)
      (by
        rw [hval]
        refine le_trans s3 ?_
        rw [pow_succ, mul_comm ((1 + u32 : K) ^ k), mul_assoc]
        refine mul_le_mul_of_nonneg_left ?_ (by linarith)
        rw [mul_add]
        have : (1 + u32 : K) * ((v b : K) * (w b).val) ≤ (1 + u32) ^ k * ((v b : K) * (w b).val) :=
          mul_le_mul_of_nonneg_right p2 hvw
        linarith)
    rw [show k + 1 + l.length = k + (b :: l).length by simp; ring] at this
    exact this

/-- The same for a plain sum. -/
theorem fold_add_bounds :
    ∀ (l : List (F32 K)), (∀ b ∈ l, 0 ≤ b.val ∧ Rep 24 (-149) b.val) →
    ∀ (a : F32 K) (e : K) (k : Nat), Rep 24 (-149) a.val → 0 ≤ e →
      (1 - u32) ^ k * e ≤ a.val → a.val ≤ (1 + u32) ^ k * e →
      let r := l.foldl (· + ·) a
      let s := l.foldl (fun e b => e + b.val) e
      Rep 24 (-149) r.val ∧ 0 ≤ s ∧ (1 - u32) ^ (k + l.length) * s ≤ r.val ∧
        r.val ≤ (1 + u32) ^ (k + l.length) * s := by
  intro l
  induction l with
  | nil => intro _ a e k h1 h2 h3 h4; exact ⟨h1, h2, h3, h4⟩
  | cons b l ih =>
    intro hl a e k h1 h2 h3 h4
    obtain ⟨hw, hr⟩ := hl b (by simp)
    have hu := u32_pos (K := K)
    have hu1 := u32_lt_one (K := K)
    have a0 : 0 ≤ a.val := le_trans (mul_nonneg (pow_nonneg (by linarith) _) h2) h3
    have s1 := rnd_add_error (p := 24) (emin := -149) (by norm_num) h1 hr
    obtain ⟨s2, s3⟩ := two_sided (by linarith) s1
    have hval : (a + b).val = rnd 24 (-149) (a.val + b.val) := rfl
    have p1 : (1 - u32 : K) ^ k ≤ 1 := pow_le_one₀ (by linarith) (by linarith)
    have p2 : (1 : K) ≤ (1 + u32) ^ k := one_le_pow₀ (by linarith)
    have := ih (fun b' hb' => hl b' (by simp [hb'])) (a + b)
      (e + b.val) (k + 1) (by rw [hval]; exact rep_rnd _) (by linarith)
      (by
        rw [hval]
        refine le_trans ?_ s2
        rw [pow_succ, mul_comm ((1 - u32 : K) ^ k), mul_assoc]
        refine mul_le_mul_of_nonneg_left ?_ (by linarith)
        rw [mul_add]
        have : (1 - u32 : K) ^ k * b.val ≤ 1 * b.val := mul_le_mul_of_nonneg_right p1 hw
        linarith)
      (by
        rw [hval]
        refine le_trans s3 ?_
        rw [pow_succ, mul_comm ((1 + u32 : K) ^ k), mul_assoc]
        refine mul_le_mul_of_nonneg_left ?_ (by linarith)
        rw [mul_add]
        have : 1 * b.val ≤ (1 + u32) ^ k * b.val := mul_le_mul_of_nonneg_right p2 hw
        linarith)
    rw [show k + 1 + l.length = k + (b :: l).length by simp; ring] at this
    exact this

/-- Many roundings: `k` of them change a number by at most a factor `1 ± k / (2^24 - k)`. -/
theorem pow_bounds (k : Nat) (hk : k ≤ 4096) :
    (1 - 1 / 4000 : K) ≤ (1 - u32) ^ k ∧ (1 + u32 : K) ^ k ≤ 1 + 1 / 4000 := by
  have hu := u32_pos (K := K)
  have hu1 := u32_lt_one (K := K)
  have hue : (u32 : K) = 1 / 16777216 := by norm_num [u32, zpow_neg]
  have hkk : (k : K) ≤ 4096 := by exact_mod_cast hk
  have b := one_add_mul_le_pow (show (-2 : K) ≤ -u32 by linarith) k
  rw [← sub_eq_add_neg] at b
  have b' : (1 - 1 / 4096 : K) ≤ (1 - u32) ^ k := by
    refine le_trans ?_ b
    rw [hue]
    linarith
  refine ⟨by linarith, ?_⟩
  have h1 : (1 + u32 : K) ^ k * (1 - u32) ^ k ≤ 1 := by
    rw [← mul_pow]
    exact pow_le_one₀ (mul_nonneg (by linarith) (by linarith)) (by nlinarith)
  by_contra hc
  push Not at hc
  have h2 : (1 + 1 / 4000 : K) * (1 - 1 / 4096) < (1 + u32) ^ k * (1 - u32) ^ k :=
    mul_lt_mul hc b' (by norm_num) (pow_nonneg (by linarith) _)
  have h3 : (1 : K) < (1 + 1 / 4000) * (1 - 1 / 4096) := by norm_num
  exact absurd (lt_trans h3 h2) (not_lt.2 h1)

end Verif.Float
