import Mathlib.Data.Int.Log
import Mathlib.Data.Rat.Floor
import Mathlib.Tactic.Linarith
import Mathlib.Tactic.Ring
import Mathlib.Tactic.Positivity
import Mathlib.Tactic.NormNum
import Mathlib.Algebra.Order.Round
/-
Binary floating point numbers as rational or real numbers: rounding to the nearest number with `p` significant
bits and smallest spacing `2 ^ emin`, ties to even.  `f32` is `p = 24`, `emin = -149`; `f64` is
`p = 53`, `emin = -1074`.  Overflow to infinity, NaN and the sign of zero are not represented:
theorems that use this file bound the numbers they round.
-/
namespace Verif.Float

variable {K : Type _} [Field K] [LinearOrder K] [IsStrictOrderedRing K] [FloorRing K]

/-- The nearest integer, ties to the even one. -/
def roundEven (q : K) : Int :=
  if q - ⌊q⌋ < 1 / 2 then ⌊q⌋
  else if 1 / 2 < q - ⌊q⌋ then ⌊q⌋ + 1
  else if ⌊q⌋ % 2 = 0 then ⌊q⌋ else ⌊q⌋ + 1

/-- Exponent of the spacing of the floating point numbers around `x`. -/
def ulpExp (p : Nat) (emin : Int) (x : K) : Int := max (Int.log 2 |x| + 1 - p) emin

/-- The floating point number nearest to `x`. -/
def rnd (p : Nat) (emin : Int) (x : K) : K :=
  if x = 0 then 0 else roundEven (x / 2 ^ ulpExp p emin x) * 2 ^ ulpExp p emin x

/-- `x` is a floating point number. -/
def Rep (p : Nat) (emin : Int) (x : K) : Prop :=
  ∃ (m k : Int), |m| ≤ 2 ^ p ∧ emin ≤ k ∧ x = m * 2 ^ k

/-- IEEE-754 binary32. -/
abbrev rnd32 : K → K := rnd 24 (-149)
/-- IEEE-754 binary64. -/
abbrev rnd64 : K → K := rnd 53 (-1074)

theorem roundEven_int (n : Int) : roundEven (n : K) = n := by
  unfold roundEven
  simp

theorem roundEven_bound (q : K) : |(roundEven q : K) - q| ≤ 1 / 2 := by
  have h1 := Int.floor_le q
  have h2 := Int.lt_floor_add_one q
  unfold roundEven
  split_ifs with a b c
  all_goals
    push_cast
    rw [abs_le]
    constructor <;> linarith

theorem roundEven_near {q : K} {n : Int} (h : |q - n| < 1 / 2) : roundEven q = n := by
  have hb := roundEven_bound q
  rw [abs_lt] at h
  rw [abs_le] at hb
  have h1 : ((roundEven q : Int) : K) < ((n + 1 : Int) : K) := by push_cast; linarith [hb.2, h.2]
  have h2 : ((n - 1 : Int) : K) < ((roundEven q : Int) : K) := by push_cast; linarith [hb.1, h.1]
  have h1' : roundEven q < n + 1 := by exact_mod_cast h1
  have h2' : n - 1 < roundEven q := by exact_mod_cast h2
  omega

theorem roundEven_mono {a b : K} (h : a ≤ b) : roundEven a ≤ roundEven b := by
  rcases h.eq_or_lt with rfl | h
  · exact le_refl _
  have hf : ⌊a⌋ ≤ ⌊b⌋ := Int.floor_le_floor h.le
  have h1 := Int.floor_le a
  have h2 := Int.lt_floor_add_one a
  have h3 := Int.floor_le b
  have h4 := Int.lt_floor_add_one b
  rcases hf.eq_or_lt with e | hlt
  · unfold roundEven
    rw [e] at h1 h2 ⊢
    split_ifs <;> first | omega | (exfalso; linarith)
  · have ua : roundEven a ≤ ⌊a⌋ + 1 := by unfold roundEven; split_ifs <;> omega
    have lb : ⌊b⌋ ≤ roundEven b := by unfold roundEven; split_ifs <;> omega
    omega

theorem floor_neg_frac {q : K} (h : q ≠ ⌊q⌋) : ⌊-q⌋ = -⌊q⌋ - 1 := by
  have h1 := Int.floor_le q
  have h2 := Int.lt_floor_add_one q
  rw [Int.floor_eq_iff]
  push_cast
  constructor
  · linarith
  · have : (⌊q⌋ : K) < q := lt_of_le_of_ne h1 (Ne.symm h)
    linarith

theorem roundEven_neg (q : K) : roundEven (-q) = -roundEven q := by
  by_cases h : q = ⌊q⌋
  · rw [h]
    have := roundEven_int (K := K) (-⌊q⌋)
    push_cast at this
    rw [this, roundEven_int]
  · have e := floor_neg_frac h
    have h1 := Int.floor_le q
    have h2 := Int.lt_floor_add_one q
    unfold roundEven
    rw [e]
    push_cast
    split_ifs <;> first | omega | (exfalso; linarith)

theorem two_zpow_pos (K : Type _) [Field K] [LinearOrder K] [IsStrictOrderedRing K] (e : Int) : (0 : K) < 2 ^ e := zpow_pos (by norm_num) e

variable {p : Nat} {emin : Int}

omit [IsStrictOrderedRing K] in
theorem rnd_zero : rnd p emin (0 : K) = 0 := by unfold rnd; simp

theorem rnd_neg (x : K) : rnd p emin (-x) = -rnd p emin x := by
  unfold rnd
  by_cases h : x = 0
  · simp [h]
  · rw [if_neg (neg_ne_zero.2 h), if_neg h]
    have : ulpExp p emin (-x) = ulpExp p emin x := by unfold ulpExp; rw [abs_neg]
    rw [this, neg_div, roundEven_neg]
    push_cast
    ring

theorem log_lower {x : K} (h : x ≠ 0) : (2 : K) ^ Int.log 2 |x| ≤ |x| := by
  have := Int.zpow_log_le_self (b := 2) (by norm_num) (abs_pos.2 h)
  exact_mod_cast this

theorem log_upper (x : K) : |x| < (2 : K) ^ (Int.log 2 |x| + 1) := by
  have := Int.lt_zpow_succ_log_self (b := 2) (by norm_num) |x|
  exact_mod_cast this

theorem lt_of_zpow_lt {a b : Int} (h : (2 : K) ^ a < 2 ^ b) : a < b :=
  (zpow_lt_zpow_iff_right₀ (by norm_num)).1 h

theorem le_of_zpow_le {a b : Int} (h : (2 : K) ^ a ≤ 2 ^ b) : a ≤ b :=
  (zpow_le_zpow_iff_right₀ (by norm_num)).1 h

omit [IsStrictOrderedRing K] in
theorem zpow_int_of_le {a b : Int} (h : a ≤ b) : ∃ n : Int, (2 : K) ^ b = n * 2 ^ a := by
  refine ⟨2 ^ (b - a).toNat, ?_⟩
  push_cast
  rw [← zpow_natCast, ← zpow_add₀ (by norm_num)]
  congr 1
  omega

/-- A number that is a multiple of the spacing is kept. -/
theorem rnd_of_multiple {x : K} {n : Int} (h : x = n * 2 ^ ulpExp p emin x) : rnd p emin x = x := by
  unfold rnd
  split_ifs with h0
  · exact h0.symm
  · have : x / 2 ^ ulpExp p emin x = n := by
      rw [div_eq_iff (two_zpow_pos K _).ne']
      exact h
    rw [this, roundEven_int]
    exact h.symm

/-- Floating point numbers are kept by rounding. -/
theorem rnd_of_rep (hp : 1 ≤ p) {x : K} (h : Rep p emin x) : rnd p emin x = x := by
  obtain ⟨m, k, hm, hk, rfl⟩ := h
  by_cases h0 : (m : K) * 2 ^ k = 0
  · rw [h0, rnd_zero]
  have hm0 : m ≠ 0 := by rintro rfl; simp at h0
  set x : K := m * 2 ^ k with hx
  have hlog := log_lower h0
  have habs : |x| = |(m : K)| * 2 ^ k := by rw [hx, abs_mul, abs_of_pos (two_zpow_pos K k)]
  have hmq : |(m : K)| ≤ 2 ^ p := by exact_mod_cast hm
  have hle : (2 : K) ^ Int.log 2 |x| ≤ 2 ^ ((p : Int) + k) := by
    refine le_trans hlog ?_
    rw [habs, zpow_add₀ (by norm_num), zpow_natCast]
    exact mul_le_mul_of_nonneg_right hmq (two_zpow_pos K k).le
  have hL := le_of_zpow_le hle
  by_cases he : ulpExp p emin x ≤ k
  · obtain ⟨n, hn⟩ := zpow_int_of_le (K := K) he
    exact rnd_of_multiple (n := m * n) (by rw [hx]; push_cast; rw [mul_assoc, ← hn])
  · have he' : ulpExp p emin x = k + 1 ∧ Int.log 2 |x| = p + k := by
      unfold ulpExp at he ⊢
      omega
    have hm2 : |(m : K)| = 2 ^ p := by
      refine le_antisymm hmq ?_
      rw [he'.2, habs, zpow_add₀ (by norm_num), zpow_natCast] at hlog
      exact le_of_mul_le_mul_right hlog (two_zpow_pos K k)
    have hm2' : |m| = 2 ^ p := by exact_mod_cast hm2
    obtain ⟨q, rfl⟩ : ∃ q, p = q + 1 := ⟨p - 1, by omega⟩
    have hev : ∃ n, m = n * 2 := by
      rcases abs_eq (by positivity : (0 : Int) ≤ 2 ^ (q + 1)) |>.1 hm2' with h | h
      · exact ⟨2 ^ q, by rw [h]; ring⟩
      · exact ⟨-2 ^ q, by rw [h]; ring⟩
    obtain ⟨n, hn⟩ := hev
    refine rnd_of_multiple (n := n) ?_
    rw [he'.1, hx, hn, zpow_add₀ (by norm_num)]
    push_cast
    ring

/-- Integers up to `2 ^ p` are kept. -/
theorem rnd_int (hp : 1 ≤ p) (he : emin ≤ 0) {n : Int} (h : |n| ≤ 2 ^ p) : rnd p emin (n : K) = n :=
  rnd_of_rep hp ⟨n, 0, h, he, by simp⟩

/-- Below a multiple of the spacing. -/
theorem rnd_le_multiple {x : K} {n : Int} (h : x ≤ n * 2 ^ ulpExp p emin x) :
    rnd p emin x ≤ n * 2 ^ ulpExp p emin x := by
  unfold rnd
  split_ifs with h0
  · rw [← h0]; exact h
  · have hpos := two_zpow_pos K (ulpExp p emin x)
    have := roundEven_mono ((div_le_iff₀ hpos).2 h)
    rw [roundEven_int] at this
    exact mul_le_mul_of_nonneg_right (by exact_mod_cast this) hpos.le

theorem multiple_le_rnd {x : K} {n : Int} (h : n * 2 ^ ulpExp p emin x ≤ x) :
    n * 2 ^ ulpExp p emin x ≤ rnd p emin x := by
  unfold rnd
  split_ifs with h0
  · rw [← h0]; exact h
  · have hpos := two_zpow_pos K (ulpExp p emin x)
    have := roundEven_mono ((le_div_iff₀ hpos).2 h)
    rw [roundEven_int] at this
    exact mul_le_mul_of_nonneg_right (by exact_mod_cast this) hpos.le

theorem rnd_nonneg {x : K} (h : 0 ≤ x) : 0 ≤ rnd p emin x := by
  have := multiple_le_rnd (p := p) (emin := emin) (x := x) (n := 0) (by simpa using h)
  simpa using this

theorem rnd_mono_pos (hp : 1 ≤ p) {x y : K} (hx : 0 < x) (h : x ≤ y) : rnd p emin x ≤ rnd p emin y := by
  have hy : 0 < y := lt_of_lt_of_le hx h
  have lx := log_lower hx.ne'
  have ly := log_lower hy.ne'
  have ux := log_upper x
  have uy := log_upper y
  rw [abs_of_pos hx] at lx ux
  rw [abs_of_pos hy] at ly uy
  have hlog : Int.log 2 x ≤ Int.log 2 y := by
    have : Int.log 2 x < Int.log 2 y + 1 := lt_of_zpow_lt (lt_of_le_of_lt (le_trans lx h) uy)
    omega
  have ex : ulpExp p emin x = max (Int.log 2 x + 1 - p) emin := by unfold ulpExp; rw [abs_of_pos hx]
  have ey : ulpExp p emin y = max (Int.log 2 y + 1 - p) emin := by unfold ulpExp; rw [abs_of_pos hy]
  rcases lt_or_ge (ulpExp p emin x) (ulpExp p emin y) with hlt | hge
  · have hl : Int.log 2 x + 1 ≤ Int.log 2 y := by omega
    have hB1 : ulpExp p emin x ≤ Int.log 2 y := by omega
    have hB2 : ulpExp p emin y ≤ Int.log 2 y := by omega
    obtain ⟨n1, e1⟩ := zpow_int_of_le (K := K) hB1
    obtain ⟨n2, e2⟩ := zpow_int_of_le (K := K) hB2
    have s1 : x ≤ 2 ^ Int.log 2 y := by
      refine le_trans ux.le ?_
      exact zpow_le_zpow_right₀ (by norm_num) hl
    refine le_trans ?_ (le_trans (e1.symm.trans e2).le ?_)
    · exact rnd_le_multiple (by rw [← e1]; exact s1)
    · exact multiple_le_rnd (by rw [← e2]; exact ly)
  · have he : ulpExp p emin x = ulpExp p emin y := by omega
    unfold rnd
    rw [if_neg hx.ne', if_neg hy.ne', he]
    have hpos := two_zpow_pos K (ulpExp p emin y)
    have := roundEven_mono (div_le_div_of_nonneg_right h hpos.le)
    exact mul_le_mul_of_nonneg_right (by exact_mod_cast this) hpos.le

/-- Rounding is monotone. -/
theorem rnd_mono (hp : 1 ≤ p) {x y : K} (h : x ≤ y) : rnd p emin x ≤ rnd p emin y := by
  rcases lt_trichotomy x 0 with hx | rfl | hx
  · rcases lt_or_ge y 0 with hy | hy
    · have := rnd_mono_pos (p := p) (emin := emin) hp (neg_pos.2 hy) (neg_le_neg h)
      rw [rnd_neg, rnd_neg] at this
      linarith
    · have a := rnd_nonneg (p := p) (emin := emin) (neg_nonneg.2 hx.le)
      rw [rnd_neg] at a
      have b := rnd_nonneg (p := p) (emin := emin) hy
      linarith
  · rw [rnd_zero]
    exact rnd_nonneg h
  · exact rnd_mono_pos hp hx h

/-- Rounding does not cross a floating point number. -/
theorem rnd_le (hp : 1 ≤ p) {x b : K} (hb : Rep p emin b) (h : x ≤ b) : rnd p emin x ≤ b := by
  have := rnd_mono (p := p) (emin := emin) hp h
  rwa [rnd_of_rep hp hb] at this

theorem le_rnd (hp : 1 ≤ p) {x b : K} (hb : Rep p emin b) (h : b ≤ x) : b ≤ rnd p emin x := by
  have := rnd_mono (p := p) (emin := emin) hp h
  rwa [rnd_of_rep hp hb] at this

/-- The result is a floating point number. -/
theorem rep_rnd (x : K) : Rep p emin (rnd p emin x) := by
  unfold rnd
  split_ifs with h0
  · exact ⟨0, emin, by simp, le_refl _, by simp⟩
  · refine ⟨_, ulpExp p emin x, ?_, le_max_right _ _, rfl⟩
    have hu := log_upper x
    have hle : |x| ≤ 2 ^ p * 2 ^ ulpExp p emin x := by
      refine le_trans hu.le ?_
      rw [← zpow_natCast, ← zpow_add₀ (by norm_num)]
      refine zpow_le_zpow_right₀ (by norm_num) ?_
      unfold ulpExp
      omega
    have hq : |x / 2 ^ ulpExp p emin x| ≤ 2 ^ p := by
      rw [abs_div, abs_of_pos (two_zpow_pos K _), div_le_iff₀ (two_zpow_pos K _)]
      exact hle
    rw [abs_le] at hq ⊢
    have a := roundEven_mono (a := ((-2 ^ p : Int) : K)) (b := x / 2 ^ ulpExp p emin x) (by push_cast; exact hq.1)
    have b := roundEven_mono (a := x / 2 ^ ulpExp p emin x) (b := ((2 ^ p : Int) : K)) (by push_cast; exact hq.2)
    rw [roundEven_int] at a b
    exact ⟨a, b⟩

theorem rnd_rnd (hp : 1 ≤ p) (x : K) : rnd p emin (rnd p emin x) = rnd p emin x :=
  rnd_of_rep hp (rep_rnd x)

/-- The error is at most half the spacing. -/
theorem rnd_error (x : K) : |rnd p emin x - x| ≤ 2 ^ ulpExp p emin x / 2 := by
  unfold rnd
  split_ifs with h0
  · rw [h0]; simp only [sub_zero, abs_zero]; exact div_nonneg (two_zpow_pos K _).le (by norm_num)
  · have hpos := two_zpow_pos K (ulpExp p emin x)
    have := roundEven_bound (x / 2 ^ ulpExp p emin x)
    have e : (roundEven (x / 2 ^ ulpExp p emin x) : K) * 2 ^ ulpExp p emin x - x =
        (roundEven (x / 2 ^ ulpExp p emin x) - x / 2 ^ ulpExp p emin x) * 2 ^ ulpExp p emin x := by
      field_simp
    rw [e, abs_mul, abs_of_pos hpos]
    calc _ ≤ 1 / 2 * 2 ^ ulpExp p emin x := mul_le_mul_of_nonneg_right this hpos.le
      _ = _ := by ring

/-- Absolute error of numbers below a power of two. -/
theorem rnd_error_lt {x : K} {k : Int} (hk : emin + p ≤ k) (h : |x| < 2 ^ k) :
    |rnd p emin x - x| ≤ 2 ^ (k - p) / 2 := by
  by_cases h0 : x = 0
  · rw [h0, rnd_zero]; simp only [sub_zero, abs_zero]; exact div_nonneg (two_zpow_pos K _).le (by norm_num)
  refine le_trans (rnd_error x) ?_
  have : ulpExp p emin x ≤ k - p := by
    have := lt_of_zpow_lt (lt_of_le_of_lt (log_lower h0) h)
    unfold ulpExp
    omega
  have := zpow_le_zpow_right₀ (show (1 : K) ≤ 2 by norm_num) this
  linarith

/-- Relative error. -/
theorem rnd_error_rel {x : K} (h : 2 ^ (emin + p - 1) ≤ |x|) :
    |rnd p emin x - x| ≤ |x| * 2 ^ (-(p : Int)) := by
  by_cases h0 : x = 0
  · rw [h0, rnd_zero]; simp
  refine le_trans (rnd_error x) ?_
  have hlt := lt_of_zpow_lt (lt_of_le_of_lt h (log_upper x))
  have e : ulpExp p emin x = Int.log 2 |x| + 1 - p := by unfold ulpExp; omega
  rw [e, show Int.log 2 |x| + 1 - (p : Int) = Int.log 2 |x| + 1 + -(p : Int) by ring,
    zpow_add₀ (by norm_num), zpow_add₀ (by norm_num)]
  have := log_lower h0
  have hp := two_zpow_pos K (-(p : Int))
  rw [zpow_one]
  calc (2 : K) ^ Int.log 2 |x| * 2 * 2 ^ (-(p : Int)) / 2 = 2 ^ Int.log 2 |x| * 2 ^ (-(p : Int)) := by ring
    _ ≤ _ := mul_le_mul_of_nonneg_right this hp.le

/-- The relative error of a sum or difference of floating point numbers, without a lower bound. -/
theorem rnd_add_error (hp : 1 ≤ p) {x y : K} (hx : Rep p emin x) (hy : Rep p emin y) :
    |rnd p emin (x + y) - (x + y)| ≤ |x + y| * 2 ^ (-(p : Int)) := by
  rcases le_or_gt (2 ^ (emin + p - 1)) |x + y| with h | h
  · exact rnd_error_rel h
  · obtain ⟨m, k, -, hk, rfl⟩ := hx
    obtain ⟨m', k', -, hk', rfl⟩ := hy
    obtain ⟨n, hn⟩ := zpow_int_of_le (K := K) hk
    obtain ⟨n', hn'⟩ := zpow_int_of_le (K := K) hk'
    have e : (m : K) * 2 ^ k + m' * 2 ^ k' = ((m * n + m' * n' : Int) : K) * 2 ^ emin := by
      rw [hn, hn']; push_cast; ring
    rw [e] at h ⊢
    have hpos := two_zpow_pos K emin
    have hr : Rep p emin (((m * n + m' * n' : Int) : K) * 2 ^ emin) := by
      refine ⟨_, emin, ?_, le_refl _, rfl⟩
      rw [abs_mul, abs_of_pos hpos] at h
      have h2 : |((m * n + m' * n' : Int) : K)| < 2 ^ ((p : Int) - 1) := by
        rw [show emin + (p : Int) - 1 = ((p : Int) - 1) + emin by ring,
          zpow_add₀ (by norm_num)] at h
        exact lt_of_mul_lt_mul_right h hpos.le
      have h3 : |((m * n + m' * n' : Int) : K)| < 2 ^ p := by
        refine lt_of_lt_of_le h2 ?_
        rw [← zpow_natCast]
        exact zpow_le_zpow_right₀ (by norm_num) (by omega)
      have h4 : |m * n + m' * n'| < 2 ^ p := by exact_mod_cast h3
      exact h4.le
    rw [rnd_of_rep hp hr, sub_self, abs_zero]
    exact mul_nonneg (abs_nonneg _) (two_zpow_pos K _).le

omit [LinearOrder K] [IsStrictOrderedRing K] [FloorRing K] in
theorem Rep.neg {x : K} (h : Rep p emin x) : Rep p emin (-x) := by
  obtain ⟨m, k, h1, h2, rfl⟩ := h
  exact ⟨-m, k, by rwa [abs_neg], h2, by push_cast; ring⟩

theorem rnd_sub_error (hp : 1 ≤ p) {x y : K} (hx : Rep p emin x) (hy : Rep p emin y) :
    |rnd p emin (x - y) - (x - y)| ≤ |x - y| * 2 ^ (-(p : Int)) := by
  have := rnd_add_error hp hx hy.neg
  rwa [← sub_eq_add_neg] at this

omit [IsStrictOrderedRing K] [FloorRing K] in
theorem Rep.abs {x : K} (h : Rep p emin x) : Rep p emin |x| := by
  rcases abs_choice x with e | e
  · rw [e]; exact h
  · rw [e]; exact h.neg

omit [LinearOrder K] [IsStrictOrderedRing K] [FloorRing K] in
theorem rep_zero : Rep p emin (0 : K) := ⟨0, emin, by simp, le_refl _, by simp⟩

/-- How to evaluate a rounding. -/
theorem rnd_eval {x : K} (k m : Int) (h1 : 2 ^ k ≤ |x|) (h2 : |x| < 2 ^ (k + 1))
    (hm : roundEven (x / 2 ^ max (k + 1 - p) emin) = m) :
    rnd p emin x = m * 2 ^ max (k + 1 - (p : Int)) emin := by
  have h0 : x ≠ 0 := by
    rintro rfl
    simp only [abs_zero] at h1
    exact absurd h1 (not_le.2 (two_zpow_pos K k))
  have hl : Int.log 2 |x| = k := by
    have a := lt_of_zpow_lt (lt_of_le_of_lt (log_lower h0) h2)
    have b := lt_of_zpow_lt (lt_of_le_of_lt h1 (log_upper x))
    omega
  unfold rnd ulpExp
  rw [if_neg h0, hl, hm]

/-- Rounding a rational number gives the same result in every ordered field. -/
theorem rnd_cast (x : ℚ) : rnd p emin (x : K) = ((rnd p emin x : ℚ) : K) := by
  have hr : ∀ q : ℚ, roundEven (q : K) = roundEven q := by
    intro q
    unfold roundEven
    have h2 : ((q : K) - (⌊q⌋ : K)) = ((q - (⌊q⌋ : ℚ) : ℚ) : K) := by push_cast; rfl
    have h3 : (1 / 2 : K) = ((1 / 2 : ℚ) : K) := by push_cast; rfl
    rw [Rat.floor_cast, h2, h3]
    simp only [Rat.cast_lt]
  have hu : ulpExp p emin (x : K) = ulpExp p emin x := by
    unfold ulpExp
    by_cases h0 : x = 0
    · simp [h0]
    have h0' : (x : K) ≠ 0 := by exact_mod_cast h0
    have a := log_lower h0
    have b := log_upper x
    have a' := log_lower h0'
    have b' := log_upper (x : K)
    have e : |(x : K)| = ((|x| : ℚ) : K) := by push_cast; rfl
    rw [e] at a' b' ⊢
    have c1 : (2 : K) ^ Int.log 2 ((|x| : ℚ) : K) < 2 ^ (Int.log 2 |x| + 1) := by
      refine lt_of_le_of_lt a' ?_
      have : ((|x| : ℚ) : K) < ((2 ^ (Int.log 2 |x| + 1) : ℚ) : K) := by exact_mod_cast b
      push_cast at this ⊢
      exact this
    have c2 : (2 : K) ^ Int.log 2 |x| < 2 ^ (Int.log 2 ((|x| : ℚ) : K) + 1) := by
      refine lt_of_le_of_lt ?_ b'
      have : ((2 ^ (Int.log 2 |x|) : ℚ) : K) ≤ ((|x| : ℚ) : K) := by exact_mod_cast a
      push_cast at this ⊢
      exact this
    have d1 := lt_of_zpow_lt c1
    have d2 := lt_of_zpow_lt c2
    have : Int.log 2 ((|x| : ℚ) : K) = Int.log 2 |x| := by omega
    rw [this]
  unfold rnd
  by_cases h0 : x = 0
  · simp [h0]
  · have h0' : (x : K) ≠ 0 := by exact_mod_cast h0
    rw [if_neg h0, if_neg h0', hu]
    have : (x : K) / 2 ^ ulpExp p emin x = ((x / 2 ^ ulpExp p emin x : ℚ) : K) := by push_cast; rfl
    rw [this, hr]
    push_cast
    rfl

/-- One third in `f32` and `f64`; the number `2 ^ 24 + 1` is not an `f32`. -/
example : rnd32 (1 / 3 : ℚ) = 11184811 / 33554432 ∧ rnd32 (16777217 : ℚ) = 16777216 ∧
    rnd32 (16777219 : ℚ) = 16777220 := by
  decide +kernel

end Verif.Float
