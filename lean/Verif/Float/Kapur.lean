import Verif.Float.Simplify
import Verif.Float.F32
import Mathlib.Analysis.Complex.ExponentialBounds
import Verif.Contrast.Kapur
/-
Property C151: `kapur_level` (src/contrast.rs:109-171) in `f64`.  `f64::ln` is a parameter `ln`,
assumed to have a relative error of at most 2^-52.  For an empty image the code computes with NaN and
returns 0; here 0 / 0 = 0 leads to the same result.  No value computed here overflows or underflows.
-/
namespace Verif.Float
open Finset Verif.Stats Verif.Contrast

/-- `cum_p` (src/contrast.rs:130-134) in `f64`. -/
noncomputable def cumProb64 (p : Nat → ℝ) : Option (Nat → ℝ) :=
  forRange 1 256 (updR (fun _ => 0) 0 (p 0)) fun i c => some (updR c i (rnd64 (c (i - 1) + p i)))

/-- `h` (src/contrast.rs:138-148) in `f64`. -/
noncomputable def cumEntropy64 (ln : ℝ → ℝ) (p : Nat → ℝ) : Option (Nat → ℝ) :=
  forRange 1 256 (if p 0 > 0 then updR (fun _ => 0) 0 (rnd64 (-p 0 * ln (p 0))) else fun _ => 0)
    fun s h => some (updR h s
      (if p s > 0 then rnd64 (h (s - 1) - rnd64 (p s * ln (p s))) else h (s - 1)))

/-- `psi_s` (src/contrast.rs:163) in `f64`. -/
noncomputable def psi64 (ln : ℝ → ℝ) (cumP h : Nat → ℝ) (s : Nat) : ℝ :=
  let pq := rnd64 (cumP s * rnd64 (1 - cumP s))
  rnd64 (rnd64 (ln pq + rnd64 (h s / cumP s)) + rnd64 (rnd64 (h 255 - h s) / rnd64 (1 - cumP s)))

/-- The search (src/contrast.rs:150-168) in `f64`. -/
noncomputable def kapurScan64 (ln : ℝ → ℝ) (cumP h : Nat → ℝ) : Option (ℝ × Nat) :=
  forRange 0 256 (f64Min, 0) fun s b =>
    if rnd64 (cumP s * rnd64 (1 - cumP s)) ≤ 0 then some b
    else if psi64 ln cumP h s > b.1 then some (psi64 ln cumP h s, s) else some b

/-- `kapur_level` (src/contrast.rs:109-171) in `f64`. -/
noncomputable def kapurLevel64 (ln : ℝ → ℝ) (im : Image Nat) : Option Nat :=
  (histogram 1 (gray im)).bind fun hist =>
  (cmul32 im.w im.h).bind fun total =>
  let p : Nat → ℝ := fun i => rnd64 (rnd64 (hist 0 i : ℝ) / rnd64 (total : ℝ))
  (cumProb64 p).bind fun cumP => (cumEntropy64 ln p).bind fun h =>
  (kapurScan64 ln cumP h).map Prod.snd

theorem e64 {z B : ℝ} (h : |z| ≤ B) : |rnd64 z - z| ≤ B / 2 ^ 53 + 1 / 2 ^ 200 := by
  have := rnd_error_mixed (p := 53) (emin := -1074) z
  refine this.trans ?_
  have h2 : |z| * 2 ^ (-((53 : Nat) : Int)) ≤ B / 2 ^ 53 := by
    rw [zpow_neg, div_eq_mul_inv]
    exact mul_le_mul_of_nonneg_right h (by positivity)
  have h3 : (2 : ℝ) ^ ((-1074 : Int) - 1) ≤ 1 / 2 ^ 200 := by
    rw [show (1 / 2 ^ 200 : ℝ) = 2 ^ (-200 : Int) by rw [zpow_neg, one_div]; norm_cast]
    exact zpow_le_zpow_right₀ (by norm_num) (by norm_num)
  linarith

theorem cumProb64_spec (p : Nat → ℝ) : ∃ c, cumProb64 p = some c ∧ c 0 = p 0 ∧
    ∀ i, 1 ≤ i → i < 256 → c i = rnd64 (c (i - 1) + p i) := by
  unfold cumProb64
  obtain ⟨c, e, h0, h⟩ := forRange_spec (lo := 1) (hi := 256) (s := updR (fun _ => 0) 0 (p 0))
    (f := fun i c => some (updR c i (rnd64 (c (i - 1) + p i))))
    (fun n c => c 0 = p 0 ∧ ∀ i, 1 ≤ i → i < n → c i = rnd64 (c (i - 1) + p i)) (by omega)
    ⟨by simp [updR], by intro i h1 h2; omega⟩
    (by
      rintro n c h1 - ⟨hc0, hc⟩
      refine ⟨_, rfl, ?_, ?_⟩
      · unfold updR; rw [if_neg (by omega)]; exact hc0
      · intro i hi hi'
        unfold updR
        by_cases h : i = n
        · subst h
          rw [if_pos rfl, if_neg (by omega)]
        · rw [if_neg h, if_neg (by omega)]
          exact hc i hi (by omega))
  exact ⟨c, e, h0, h⟩

theorem cumEntropy64_spec (ln : ℝ → ℝ) (p : Nat → ℝ) : ∃ h, cumEntropy64 ln p = some h ∧
    h 0 = (if p 0 > 0 then rnd64 (-p 0 * ln (p 0)) else 0) ∧
    ∀ s, 1 ≤ s → s < 256 → h s = if p s > 0 then rnd64 (h (s - 1) - rnd64 (p s * ln (p s))) else h (s - 1) := by
  unfold cumEntropy64
  obtain ⟨c, e, h0, h⟩ := forRange_spec (lo := 1) (hi := 256)
    (s := if p 0 > 0 then updR (fun _ => 0) 0 (rnd64 (-p 0 * ln (p 0))) else fun _ => 0)
    (f := fun s h => some (updR h s
      (if p s > 0 then rnd64 (h (s - 1) - rnd64 (p s * ln (p s))) else h (s - 1))))
    (fun n h => h 0 = (if p 0 > 0 then rnd64 (-p 0 * ln (p 0)) else 0) ∧
      ∀ s, 1 ≤ s → s < n → h s = if p s > 0 then rnd64 (h (s - 1) - rnd64 (p s * ln (p s))) else h (s - 1))
    (by omega)
    ⟨by split <;> simp [updR], by intro i h1 h2; omega⟩
    (by
      rintro n c h1 - ⟨hc0, hc⟩
      refine ⟨_, rfl, ?_, ?_⟩
      · unfold updR; rw [if_neg (by omega)]; exact hc0
      · intro i hi hi'
        unfold updR
        by_cases h : i = n
        · subst h
          simp only [if_true, show ¬ (i - 1 = i) by omega, if_false]
        · simp only [h, show ¬ (i - 1 = n) by omega, if_false]
          exact hc i hi (by omega))
  exact ⟨c, e, h0, h⟩

/-- Exact probabilities of at least 2^-32 and their approximations. -/
structure Approx (p P : Nat → ℝ) : Prop where
  zero_or : ∀ v, p v = 0 ∨ 1 / 2 ^ 32 ≤ p v
  le_one : ∀ v, p v ≤ 1
  err : ∀ v, |P v - p v| ≤ p v / 2 ^ 53

/-- Cumulative sum. -/
noncomputable def cum (p : Nat → ℝ) (i : Nat) : ℝ := ∑ v ∈ range (i + 1), p v

theorem cum_succ (p : Nat → ℝ) (i : Nat) : cum p (i + 1) = cum p i + p (i + 1) := sum_range_succ _ _

theorem Approx.nonneg {p P : Nat → ℝ} (h : Approx p P) (v : Nat) : 0 ≤ p v := by
  rcases h.zero_or v with e | e
  · rw [e]
  · exact le_trans (by norm_num) e

theorem Approx.P_zero {p P : Nat → ℝ} (h : Approx p P) {v : Nat} (e : p v = 0) : P v = 0 := by
  have := h.err v
  rw [e, zero_div, sub_zero] at this
  exact abs_eq_zero.1 (le_antisymm this (abs_nonneg _))

theorem Approx.cum_nonneg {p P : Nat → ℝ} (h : Approx p P) (i : Nat) : 0 ≤ cum p i :=
  sum_nonneg fun v _ => h.nonneg v

theorem Approx.cum_zero_or {p P : Nat → ℝ} (h : Approx p P) (i : Nat) :
    cum p i = 0 ∨ 1 / 2 ^ 32 ≤ cum p i := by
  induction i with
  | zero => unfold cum; rw [sum_range_one]; exact h.zero_or 0
  | succ i ih =>
    rw [cum_succ]
    have a := h.cum_nonneg i
    have b := h.nonneg (i + 1)
    rcases ih with e | e
    · rcases h.zero_or (i + 1) with e' | e'
      · left; rw [e, e', add_zero]
      · right; linarith
    · right; linarith

/-- Rounding errors of the cumulative probabilities. -/
theorem cum_err {p P c : Nat → ℝ} (h : Approx p P) (h0 : c 0 = P 0)
    (hs : ∀ i, 1 ≤ i → i < 256 → c i = rnd64 (c (i - 1) + P i)) :
    ∀ i, i < 256 → |c i - cum p i| ≤ cum p i * ((i + 1) / 2 ^ 52) := by
  intro i
  induction i with
  | zero =>
    intro _
    rw [h0]
    unfold cum
    rw [zero_add, sum_range_one]
    refine (h.err 0).trans ?_
    have := h.nonneg 0
    norm_num
    linarith
  | succ i ih =>
    intro hi
    have IH := ih (by omega)
    have i0 : (0 : ℝ) ≤ i := by positivity
    have iq : (i : ℝ) + 1 ≤ 256 := by exact_mod_cast (by omega : i + 1 ≤ 256)
    rw [hs (i + 1) (by omega) hi, Nat.add_sub_cancel]
    have E := h.err (i + 1)
    have a := h.cum_nonneg i
    have b := h.nonneg (i + 1)
    rcases h.cum_zero_or (i + 1) with e | e
    · rw [cum_succ] at e
      have e1 : cum p i = 0 := by linarith
      have e2 : p (i + 1) = 0 := by linarith
      rw [e1, zero_mul, sub_zero] at IH
      rw [cum_succ, e1, e2, h.P_zero e2, abs_eq_zero.1 (le_antisymm IH (abs_nonneg _)), add_zero, zero64]
      simp
    · have S := cum_succ p i
      have x1 : |c i + P (i + 1) - cum p (i + 1)| ≤ cum p (i + 1) * ((i + 1) / 2 ^ 52) := by
        have t := abs_add_le (c i - cum p i) (P (i + 1) - p (i + 1))
        rw [show c i - cum p i + (P (i + 1) - p (i + 1)) = c i + P (i + 1) - cum p (i + 1) by rw [S]; ring] at t
        refine t.trans ((add_le_add IH E).trans ?_)
        rw [S, add_mul]
        have : p (i + 1) * (1 / 2 ^ 53) ≤ p (i + 1) * (((i : ℝ) + 1) / 2 ^ 52) :=
          mul_le_mul_of_nonneg_left (by norm_num; linarith) b
        linarith
      have x2 : cum p (i + 1) * (((i : ℝ) + 1) / 2 ^ 52) ≤ cum p (i + 1) * (1 / 2 ^ 44) :=
        mul_le_mul_of_nonneg_left (by norm_num; linarith) (by linarith)
      have x3 : |c i + P (i + 1)| ≤ cum p (i + 1) * (1 + 1 / 2 ^ 44) := by
        have t := abs_add_le (c i + P (i + 1) - cum p (i + 1)) (cum p (i + 1))
        rw [sub_add_cancel, abs_of_nonneg (by linarith : 0 ≤ cum p (i + 1))] at t
        linarith
      have r := e64 x3
      have t := abs_add_le (rnd64 (c i + P (i + 1)) - (c i + P (i + 1))) (c i + P (i + 1) - cum p (i + 1))
      rw [sub_add_sub_cancel] at t
      refine t.trans ((add_le_add r x1).trans ?_)
      push_cast
      rw [show cum p (i + 1) * (((i : ℝ) + 1 + 1) / 2 ^ 52) =
        cum p (i + 1) * (((i : ℝ) + 1) / 2 ^ 52) + cum p (i + 1) / 2 ^ 52 by ring]
      generalize cum p (i + 1) * (((i : ℝ) + 1) / 2 ^ 52) = Z
      norm_num at e ⊢
      linarith

/-- A logarithm with relative error at most 2^-52. -/
def GoodLn (ln : ℝ → ℝ) : Prop := ∀ x, 0 < x → |ln x - Real.log x| ≤ |Real.log x| / 2 ^ 52

theorem log_close {x y e : ℝ} (hx : 0 < x) (he0 : 0 ≤ e) (he : e ≤ 1 / 2) (h : |y - x| ≤ x * e) :
    0 < y ∧ |Real.log y - Real.log x| ≤ 2 * e := by
  rw [abs_le] at h
  have hy : 0 < y := by nlinarith
  refine ⟨hy, ?_⟩
  rw [← Real.log_div hy.ne' hx.ne']
  have r1 : 1 - e ≤ y / x := by rw [le_div_iff₀ hx]; linarith
  have r2 : y / x ≤ 1 + e := by rw [div_le_iff₀ hx]; linarith
  have rp : 0 < y / x := div_pos hy hx
  rw [abs_le]
  constructor
  · have := Real.one_sub_inv_le_log_of_pos rp
    have i1 : (y / x)⁻¹ ≤ (1 - e)⁻¹ := inv_anti₀ (by linarith) r1
    have i2 : (1 - e)⁻¹ ≤ 1 + 2 * e := by
      rw [inv_le_iff_one_le_mul₀ (by linarith)]
      nlinarith
    linarith
  · have := Real.log_le_sub_one_of_pos rp
    linarith

theorem log_abs23 {x : ℝ} (h : 1 / 2 ^ 32 ≤ x) (h1 : x ≤ 1) : |Real.log x| ≤ 23 := by
  have hx : 0 < x := lt_of_lt_of_le (by norm_num) h
  rw [abs_of_nonpos (Real.log_nonpos hx.le h1)]
  have a := Real.log_le_log (by norm_num) h
  rw [one_div, Real.log_inv, Real.log_pow] at a
  have := Real.log_two_lt_d9
  push_cast at a
  linarith

/-- One term of the entropy. -/
theorem term_err {ln : ℝ → ℝ} (hl : GoodLn ln) {p P : ℝ} (h : 1 / 2 ^ 32 ≤ p) (h1 : p ≤ 1)
    (hP : |P - p| ≤ p / 2 ^ 53) :
    0 < P ∧ |rnd64 (P * ln P) - p * Real.log p| ≤ p * (100 / 2 ^ 53) := by
  have hp : 0 < p := lt_of_lt_of_le (by norm_num) h
  obtain ⟨P0, l1⟩ := log_close hp (by norm_num : (0 : ℝ) ≤ 1 / 2 ^ 53) (by norm_num) (by rw [mul_one_div]; exact hP)
  refine ⟨P0, ?_⟩
  have l2 := log_abs23 h h1
  have l3 := hl P P0
  have l4 : |Real.log P| ≤ 24 := by
    have := abs_add_le (Real.log P - Real.log p) (Real.log p)
    rw [sub_add_cancel] at this
    norm_num at l1
    linarith
  have l5 : |ln P - Real.log p| ≤ 50 / 2 ^ 53 := by
    have := abs_add_le (ln P - Real.log P) (Real.log P - Real.log p)
    rw [sub_add_sub_cancel] at this
    norm_num at *
    linarith
  have l6 : |ln P| ≤ 24 := by
    have := abs_add_le (ln P - Real.log p) (Real.log p)
    rw [sub_add_cancel] at this
    norm_num at *
    linarith
  have m1 : |P * ln P - p * Real.log p| ≤ p * (74 / 2 ^ 53) := by
    rw [show P * ln P - p * Real.log p = (P - p) * ln P + p * (ln P - Real.log p) by ring]
    refine (abs_add_le _ _).trans ?_
    rw [abs_mul, abs_mul, abs_of_pos hp]
    have a1 : |P - p| * |ln P| ≤ p / 2 ^ 53 * 24 := mul_le_mul hP l6 (abs_nonneg _) (by positivity)
    have a2 : p * |ln P - Real.log p| ≤ p * (50 / 2 ^ 53) := mul_le_mul_of_nonneg_left l5 hp.le
    norm_num at *
    linarith
  have m2 : |P * ln P| ≤ p * 25 := by
    rw [abs_mul, abs_of_pos P0]
    have hP' : P ≤ p * (1 + 1 / 2 ^ 53) := by rw [abs_le] at hP; linarith [hP.2]
    have : P * |ln P| ≤ p * (1 + 1 / 2 ^ 53) * 24 := mul_le_mul hP' l6 (abs_nonneg _) (by positivity)
    norm_num at *
    linarith
  have r := e64 m2
  have t := abs_add_le (rnd64 (P * ln P) - P * ln P) (P * ln P - p * Real.log p)
  rw [sub_add_sub_cancel] at t
  norm_num at *
  linarith

theorem Approx.cum_term_le {p P : Nat → ℝ} (h : Approx p P) (v : Nat) :
    0 ≤ Real.negMulLog (p v) ∧ Real.negMulLog (p v) ≤ 23 * p v := by
  refine ⟨Real.negMulLog_nonneg (h.nonneg v) (h.le_one v), ?_⟩
  rcases h.zero_or v with e | e
  · rw [e, Real.negMulLog_zero]; norm_num
  · have := log_abs23 e (h.le_one v)
    rw [abs_le] at this
    unfold Real.negMulLog
    nlinarith [h.nonneg v, this.1]

/-- Cumulative entropy. -/
noncomputable def ent (p : Nat → ℝ) (i : Nat) : ℝ := ∑ v ∈ range (i + 1), Real.negMulLog (p v)

theorem ent_succ (p : Nat → ℝ) (i : Nat) : ent p (i + 1) = ent p i + Real.negMulLog (p (i + 1)) :=
  sum_range_succ _ _

theorem Approx.ent_le {p P : Nat → ℝ} (h : Approx p P) (i : Nat) : 0 ≤ ent p i ∧ ent p i ≤ 23 * cum p i := by
  unfold ent cum
  refine ⟨sum_nonneg fun v _ => (h.cum_term_le v).1, ?_⟩
  rw [mul_sum]
  exact sum_le_sum fun v _ => (h.cum_term_le v).2

/-- Rounding errors of the cumulative entropies. -/
theorem ent_err {ln : ℝ → ℝ} (hl : GoodLn ln) {p P hh : Nat → ℝ} (h : Approx p P)
    (h0 : hh 0 = if P 0 > 0 then rnd64 (-P 0 * ln (P 0)) else 0)
    (hs : ∀ s, 1 ≤ s → s < 256 → hh s = if P s > 0 then rnd64 (hh (s - 1) - rnd64 (P s * ln (P s))) else hh (s - 1)) :
    ∀ i, i < 256 → |hh i - ent p i| ≤ cum p i * ((i + 1) / 2 ^ 46) := by
  intro i
  induction i with
  | zero =>
    intro _
    rw [h0]
    unfold cum ent
    rw [zero_add, sum_range_one, sum_range_one]
    rcases h.zero_or 0 with e | e
    · rw [e, h.P_zero e, if_neg (lt_irrefl _), Real.negMulLog_zero]; simp
    · obtain ⟨P0, t⟩ := term_err hl e (h.le_one 0) (h.err 0)
      rw [if_pos P0, neg_mul, show rnd64 (-(P 0 * ln (P 0))) = -rnd64 (P 0 * ln (P 0)) from rnd_neg _]
      unfold Real.negMulLog
      rw [show -rnd64 (P 0 * ln (P 0)) - -p 0 * Real.log (p 0) = -(rnd64 (P 0 * ln (P 0)) - p 0 * Real.log (p 0)) by
        ring, abs_neg]
      refine t.trans ?_
      have := h.nonneg 0
      norm_num
      linarith
  | succ i ih =>
    intro hi
    have IH := ih (by omega)
    have i0 : (0 : ℝ) ≤ i := by positivity
    have iq : (i : ℝ) + 1 ≤ 256 := by exact_mod_cast (by omega : i + 1 ≤ 256)
    rw [hs (i + 1) (by omega) hi, Nat.add_sub_cancel]
    have a := h.cum_nonneg i
    have b := h.nonneg (i + 1)
    rcases h.zero_or (i + 1) with e | e
    · rw [h.P_zero e, if_neg (lt_irrefl _), ent_succ, e, Real.negMulLog_zero, add_zero, cum_succ, e, add_zero]
      refine IH.trans (mul_le_mul_of_nonneg_left ?_ a)
      push_cast
      norm_num
      linarith
    · obtain ⟨P0, t⟩ := term_err hl e (h.le_one (i + 1)) (h.err (i + 1))
      rw [if_pos P0]
      have S := cum_succ p i
      have S' := ent_succ p i
      have B := h.ent_le (i + 1)
      have cp : 1 / 2 ^ 32 ≤ cum p (i + 1) := by rw [S]; linarith
      generalize rnd64 (P (i + 1) * ln (P (i + 1))) = G at *
      have x1 : |hh i - G - ent p (i + 1)| ≤ cum p (i + 1) * ((i + 1) / 2 ^ 46) := by
        have u := abs_add_le (hh i - ent p i) (-(G - p (i + 1) * Real.log (p (i + 1))))
        rw [abs_neg, show hh i - ent p i + -(G - p (i + 1) * Real.log (p (i + 1))) = hh i - G - ent p (i + 1) by
          rw [S']; unfold Real.negMulLog; ring] at u
        refine u.trans ((add_le_add IH t).trans ?_)
        rw [S, add_mul]
        have : p (i + 1) * (100 / 2 ^ 53) ≤ p (i + 1) * (((i : ℝ) + 1) / 2 ^ 46) :=
          mul_le_mul_of_nonneg_left (by norm_num; linarith) b
        linarith
      have x2 : cum p (i + 1) * (((i : ℝ) + 1) / 2 ^ 46) ≤ cum p (i + 1) * (1 / 2 ^ 38) :=
        mul_le_mul_of_nonneg_left (by norm_num; linarith) (by linarith)
      have x3 : |hh i - G| ≤ cum p (i + 1) * 24 := by
        have u := abs_add_le (hh i - G - ent p (i + 1)) (ent p (i + 1))
        rw [sub_add_cancel, abs_of_nonneg B.1] at u
        norm_num at x2 cp
        linarith [B.2]
      have r := e64 x3
      have t := abs_add_le (rnd64 (hh i - G) - (hh i - G)) (hh i - G - ent p (i + 1))
      rw [sub_add_sub_cancel] at t
      refine t.trans ((add_le_add r x1).trans ?_)
      push_cast
      rw [show cum p (i + 1) * (((i : ℝ) + 1 + 1) / 2 ^ 46) =
        cum p (i + 1) * (((i : ℝ) + 1) / 2 ^ 46) + cum p (i + 1) / 2 ^ 46 by ring]
      generalize cum p (i + 1) * (((i : ℝ) + 1) / 2 ^ 46) = Z
      norm_num at cp ⊢
      linarith

theorem sub_abs {a b e : ℝ} (h : |a - b| ≤ e) : b - e ≤ a ∧ a ≤ b + e := by
  rw [abs_le] at h
  constructor <;> linarith [h.1, h.2]

theorem div_close {a b A B e d M : ℝ} (hB : 0 < B) (hd0 : 0 ≤ d) (hd : d ≤ 1 / 2) (ha : |a - A| ≤ B * e) (hb : |b - B| ≤ B * d)
    (hA : 0 ≤ A) (hAM : A ≤ M * B) : |a / b - A / B| ≤ (e + M * d) * (1 + 2 * d) := by
  have hb0 := sub_abs hb
  have bp : 0 < b := by nlinarith
  have e1 : a / b - A / B = ((a - A) - A / B * (b - B)) / b := by
    field_simp
    ring
  rw [e1, abs_div, abs_of_pos bp, div_le_iff₀ bp]
  have q0 : 0 ≤ A / B := div_nonneg hA hB.le
  have q1 : A / B ≤ M := by rwa [div_le_iff₀ hB]
  have t : |(a - A) - A / B * (b - B)| ≤ B * e + M * (B * d) := by
    refine (abs_sub _ _).trans ?_
    rw [abs_mul, abs_of_nonneg q0]
    exact add_le_add ha (mul_le_mul q1 hb (abs_nonneg _) (q0.trans q1))
  have e0 : 0 ≤ e := by
    have := (abs_nonneg _).trans ha
    nlinarith
  have s0 : 0 ≤ e + M * d := add_nonneg e0 (mul_nonneg (q0.trans q1) hd0)
  have f : 1 ≤ (1 + 2 * d) * (1 - d) := by nlinarith
  have g : B * (1 - d) ≤ b := by linarith [hb0.1]
  calc |(a - A) - A / B * (b - B)| ≤ (e + M * d) * B := by linarith
    _ ≤ (e + M * d) * (B * ((1 + 2 * d) * (1 - d))) :=
        mul_le_mul_of_nonneg_left (le_mul_of_one_le_right hB.le f) s0
    _ = (e + M * d) * (1 + 2 * d) * (B * (1 - d)) := by ring
    _ ≤ (e + M * d) * (1 + 2 * d) * b := mul_le_mul_of_nonneg_left g (mul_nonneg s0 (by linarith))

set_option maxHeartbeats 1000000 in
/-- The error of the value compared by the search, for a level that separates the image. -/
theorem psi_err {ln : ℝ → ℝ} (hl : GoodLn ln) {c h255 h C H D N : ℝ} {cumP hh : Nat → ℝ} {s : Nat}
    (ec : cumP s = c) (eh : hh s = h) (eh' : hh 255 = h255)
    (N2 : 2 ≤ N) (hN : N ≤ 2 ^ 32) (hC : 1 / N ≤ C) (hQ : 1 / N ≤ 1 - C)
    (xc : |c - C| ≤ C / 2 ^ 44) (xh : |h - H| ≤ C / 2 ^ 38) (xh' : |h255 - (H + D)| ≤ 1 / 2 ^ 38)
    (H0 : 0 ≤ H) (HC : H ≤ 23 * C) (D0 : 0 ≤ D) (DQ : D ≤ 23 * (1 - C)) :
    0 < rnd64 (c * rnd64 (1 - c)) ∧
    |psi64 ln cumP hh s - (Real.log (C * (1 - C)) + H / C + D / (1 - C))| ≤ N / 2 ^ 35 := by
  have Np : 0 < N := by linarith
  rw [div_le_iff₀ Np] at hC hQ
  obtain ⟨η, eη⟩ : ∃ η, η = N / 2 ^ 43 := ⟨_, rfl⟩
  have η1 : 1 / 2 ^ 42 ≤ η := by rw [eη]; norm_num; linarith
  have η2 : η ≤ 1 / 2 ^ 11 := by rw [eη]; norm_num at hN ⊢; linarith
  have η0 : 0 < η := lt_of_lt_of_le (by norm_num) η1
  obtain ⟨Q, eQ⟩ : ∃ Q, Q = 1 - C := ⟨_, rfl⟩
  rw [← eQ] at hQ DQ ⊢
  have Cη : 1 / 2 ^ 43 ≤ C * η := by rw [eη]; norm_num; linarith
  have Qη : 1 / 2 ^ 43 ≤ Q * η := by rw [eη]; norm_num; linarith
  have C0 : 0 < C := pos_of_mul_pos_left (lt_of_lt_of_le one_pos hC) Np.le
  have Q0 : 0 < Q := pos_of_mul_pos_left (lt_of_lt_of_le one_pos hQ) Np.le
  have C32 : 1 / 2 ^ 32 ≤ C := by
    rw [div_le_iff₀ (by norm_num)]; exact hC.trans (mul_le_mul_of_nonneg_left hN C0.le)
  have Q32 : 1 / 2 ^ 32 ≤ Q := by
    rw [div_le_iff₀ (by norm_num)]; exact hQ.trans (mul_le_mul_of_nonneg_left hN Q0.le)
  have C1 : C ≤ 1 := by norm_num at Q32; linarith
  have Q1 : Q ≤ 1 := by norm_num at C32; linarith
  have xc2 := sub_abs xc
  -- the weight of the foreground
  obtain ⟨q, eq⟩ : ∃ q, q = rnd64 (1 - c) := ⟨_, rfl⟩
  have xq : |q - Q| ≤ Q * η := by
    have r := e64 (z := 1 - c) (B := 2) (by rw [abs_le]; norm_num at xc2 ⊢; constructor <;> linarith [xc2.1, xc2.2])
    rw [← eq] at r
    have r2 := sub_abs r
    rw [abs_le]
    norm_num at r2 xc2 Qη
    constructor <;> linarith [r2.1, r2.2, xc2.1, xc2.2]
  have xq2 := sub_abs xq
  have W32 : 1 / 2 ^ 64 ≤ C * Q := by
    have := mul_le_mul C32 Q32 (by norm_num) C0.le
    norm_num at this ⊢; linarith
  have W0 : 0 < C * Q := mul_pos C0 Q0
  obtain ⟨g, eg⟩ : ∃ g, g = rnd64 (c * q) := ⟨_, rfl⟩
  have xz : |c * q - C * Q| ≤ C * Q * (η + 1 / 2 ^ 43) := by
    rw [show c * q - C * Q = (c - C) * q + C * (q - Q) by ring]
    refine (abs_add_le _ _).trans ?_
    rw [abs_mul, abs_mul, abs_of_pos C0]
    have b1 : |q| ≤ Q * 2 := by
      have := abs_add_le (q - Q) Q
      rw [sub_add_cancel, abs_of_pos Q0] at this
      have k : Q * η ≤ Q * 1 := mul_le_mul_of_nonneg_left (by norm_num at η2; linarith) Q0.le
      linarith
    have b2 : |c - C| * |q| ≤ C / 2 ^ 44 * (Q * 2) := mul_le_mul xc b1 (abs_nonneg _) (by positivity)
    have b3 : C * |q - Q| ≤ C * (Q * η) := mul_le_mul_of_nonneg_left xq C0.le
    refine (add_le_add b2 b3).trans (le_of_eq ?_)
    ring
  have xg : |g - C * Q| ≤ C * Q * (2 * η) := by
    have z1 : |c * q| ≤ C * Q * 2 := by
      have := abs_add_le (c * q - C * Q) (C * Q)
      rw [sub_add_cancel, abs_of_pos W0] at this
      have k : C * Q * (η + 1 / 2 ^ 43) ≤ C * Q * 1 :=
        mul_le_mul_of_nonneg_left (by norm_num at η2 ⊢; linarith) W0.le
      linarith
    have r := e64 z1
    rw [← eg] at r
    have t := abs_add_le (g - c * q) (c * q - C * Q)
    rw [sub_add_sub_cancel] at t
    have k : C * Q * (η + 1 / 2 ^ 43 + 1 / 2 ^ 51) ≤ C * Q * (2 * η) :=
      mul_le_mul_of_nonneg_left (by norm_num at η1 ⊢; linarith) W0.le
    generalize C * Q = W at *
    rw [mul_add, mul_add] at k
    rw [mul_add] at xz
    generalize W * η = V at *
    norm_num at k xz r W32 ⊢
    linarith
  obtain ⟨g0, lg⟩ := log_close W0 (by linarith : 0 ≤ 2 * η) (by norm_num at η2 ⊢; linarith) xg
  have gl := hl g g0
  have lC := log_abs23 C32 C1
  have lQ := log_abs23 Q32 Q1
  have lW : |Real.log (C * Q)| ≤ 46 := by
    rw [Real.log_mul C0.ne' Q0.ne']
    exact (abs_add_le _ _).trans (by linarith)
  have e2 := div_close (a := h) (b := c) (A := H) (B := C) (e := 1 / 2 ^ 38) (d := 1 / 2 ^ 44) (M := 23) C0
    (by norm_num) (by norm_num) (by rw [mul_one_div]; exact xh) (by rw [mul_one_div]; exact xc) H0 HC
  have hC23 : 0 ≤ H / C ∧ H / C ≤ 23 := ⟨div_nonneg H0 C0.le, by rwa [div_le_iff₀ C0]⟩
  have dQ23 : 0 ≤ D / Q ∧ D / Q ≤ 23 := ⟨div_nonneg D0 Q0.le, by rwa [div_le_iff₀ Q0]⟩
  -- the entropy of the foreground
  obtain ⟨d, ed⟩ : ∃ d, d = rnd64 (h255 - h) := ⟨_, rfl⟩
  have xd : |d - D| ≤ Q * (65 * η) := by
    have a1 := sub_abs xh
    have a2 := sub_abs xh'
    have r := e64 (z := h255 - h) (B := 24) (by
      rw [abs_le]; norm_num at a1 a2 ⊢; constructor <;> linarith [a1.1, a1.2, a2.1, a2.2])
    rw [← ed] at r
    have r2 := sub_abs r
    rw [show Q * (65 * η) = 65 * (Q * η) by ring, abs_le]
    norm_num at r2 a1 a2 Qη
    constructor <;> linarith [r2.1, r2.2, a1.1, a1.2, a2.1, a2.2]
  have e3 := div_close (a := d) (b := q) (A := D) (B := Q) (e := 65 * η) (d := η) (M := 23) Q0 η0.le
    (by norm_num at η2 ⊢; linarith) xd xq D0 DQ
  have e3' : (65 * η + 23 * η) * (1 + 2 * η) ≤ 89 * η := by
    have k : η * η ≤ η * (1 / 2 ^ 11) := mul_le_mul_of_nonneg_left η2 η0.le
    norm_num at k
    rw [show (65 * η + 23 * η) * (1 + 2 * η) = 88 * η + 176 * (η * η) by ring]
    linarith
  unfold psi64
  dsimp only
  rw [ec, eh, eh', ← eq, ← eg, ← ed]
  refine ⟨g0, ?_⟩
  have N35 : N / 2 ^ 35 = 256 * η := by rw [eη]; norm_num; ring
  rw [N35]
  generalize Real.log (C * Q) = L at *
  generalize ln g = l at *
  generalize Real.log g = l' at *
  generalize h / c = t2 at *
  generalize H / C = T2 at *
  generalize d / q = t3 at *
  generalize D / Q = T3 at *
  have lg2 := sub_abs lg
  rw [abs_le] at lW
  have l47 : |l'| ≤ 47 := by
    rw [abs_le]; norm_num at η2; constructor <;> linarith [lg2.1, lg2.2, lW.1, lW.2]
  have e2' := sub_abs e2
  have e3'' := sub_abs (e3.trans e3')
  have gl2 := sub_abs gl
  have r2 := sub_abs (e64 (z := t2) (B := 24) (by
    rw [abs_le]; norm_num at e2'; constructor <;> linarith [e2'.1, e2'.2, hC23.1, hC23.2]))
  have r3 := sub_abs (e64 (z := t3) (B := 24) (by
    rw [abs_le]; norm_num at η2; constructor <;> linarith [e3''.1, e3''.2, dQ23.1, dQ23.2]))
  have r4 := sub_abs (e64 (z := l + rnd64 t2) (B := 80) (by
    rw [abs_le]; norm_num at η2 r2 gl2 e2'
    constructor <;> linarith [e2'.1, e2'.2, hC23.1, hC23.2, r2.1, r2.2, gl2.1, gl2.2, lg2.1, lg2.2, lW.1, lW.2]))
  have r5 := sub_abs (e64 (z := rnd64 (l + rnd64 t2) + rnd64 t3) (B := 110) (by
    rw [abs_le]; norm_num at η2 r2 r3 r4 gl2 e2'
    constructor <;> linarith [e2'.1, e2'.2, hC23.1, hC23.2, r2.1, r2.2, gl2.1, gl2.2, lg2.1, lg2.2, lW.1, lW.2,
      r3.1, r3.2, r4.1, r4.2, e3''.1, e3''.2, dQ23.1, dQ23.2]))
  rw [abs_le]
  norm_num at η1 r2 r3 r4 r5 gl2 e2'
  constructor <;> linarith [e2'.1, e2'.2, r2.1, r2.2, gl2.1, gl2.2, lg2.1, lg2.2,
      r3.1, r3.2, r4.1, r4.2, e3''.1, e3''.2, r5.1, r5.2]

/-- At a level at or above the largest one, rounding can make the search compare a value, but a very
small one. -/
theorem psi_spurious {ln : ℝ → ℝ} (hl : GoodLn ln) {c h H : ℝ} {cumP hh : Nat → ℝ} {s : Nat}
    (ec : cumP s = c) (eh : hh s = h) (eh' : hh 255 = h)
    (xc : |c - 1| ≤ 1 / 2 ^ 44) (xh : |h - H| ≤ 1 / 2 ^ 38) (H0 : 0 ≤ H) (HC : H ≤ 23)
    (hg : 0 < rnd64 (c * rnd64 (1 - c))) : psi64 ln cumP hh s < -4 := by
  obtain ⟨q, eq⟩ : ∃ q, q = rnd64 (1 - c) := ⟨_, rfl⟩
  have xc2 := sub_abs xc
  have xq : |q| ≤ 1 / 2 ^ 43 := by
    have r := sub_abs (e64 (z := 1 - c) (B := 1) (by rw [abs_le]; norm_num at xc2 ⊢; constructor <;> linarith [xc2.1, xc2.2]))
    rw [← eq] at r
    rw [abs_le]
    norm_num at r xc2 ⊢
    constructor <;> linarith [r.1, r.2, xc2.1, xc2.2]
  unfold psi64
  dsimp only
  rw [ec, eh, eh', ← eq, sub_self, zero64, zero_div, zero64, add_zero]
  rw [← eq] at hg
  obtain ⟨g, eg⟩ : ∃ g, g = rnd64 (c * q) := ⟨_, rfl⟩
  rw [← eg] at hg ⊢
  have cq : |c * q| ≤ 2 / 2 ^ 43 := by
    rw [abs_mul]
    have : |c| ≤ 2 := by rw [abs_le]; norm_num at xc2; constructor <;> linarith [xc2.1, xc2.2]
    exact (mul_le_mul this xq (abs_nonneg _) (by norm_num)).trans (by norm_num)
  have g1 : g ≤ 1 / 2 ^ 41 := by
    have r := sub_abs (e64 cq)
    rw [← eg] at r
    rw [abs_le] at cq
    norm_num at r cq ⊢
    linarith [r.2, cq.2]
  have lg : Real.log g ≤ -(41 * Real.log 2) := by
    have := Real.log_le_log hg g1
    rwa [one_div, Real.log_inv, Real.log_pow] at this
  have l2 := Real.log_two_gt_d9
  have gl := hl g hg
  have ln0 : Real.log g < 0 := by linarith
  rw [abs_of_neg ln0] at gl
  have gl2 := sub_abs gl
  have e2 := div_close (a := h) (b := c) (A := H) (B := 1) (e := 1 / 2 ^ 38) (d := 1 / 2 ^ 44) (M := 23) one_pos
    (by norm_num) (by norm_num) (by rw [one_mul]; exact xh) (by rw [one_mul]; exact xc) H0 (by linarith)
  rw [div_one] at e2
  have e2' := sub_abs e2
  generalize h / c = t2 at *
  generalize ln g = l at *
  generalize Real.log g = l' at *
  have r2 := sub_abs (e64 (z := t2) (B := 24) (by
    rw [abs_le]; norm_num at e2'; constructor <;> linarith [e2'.1, e2'.2]))
  have k : l + rnd64 t2 ≤ -(9 / 2) := by
    norm_num at gl2 r2 e2' l2
    linarith [gl2.2, r2.2, e2'.2]
  have : rnd64 (l + rnd64 t2) ≤ -(9 / 2) :=
    rnd_le (by norm_num) ⟨-9, -1, by norm_num, by norm_num, by norm_num⟩ k
  rw [show rnd64 (rnd64 (l + rnd64 t2)) = rnd64 (l + rnd64 t2) from rnd_of_rep (by norm_num) (rep_rnd _)]
  linarith

theorem rnd64_natR {n : Nat} (h : n ≤ 2 ^ 53) : rnd64 (n : ℝ) = n := by
  have : rnd64 (((n : Int)) : ℝ) = ((n : Int) : ℝ) :=
    rnd_int (by norm_num) (by norm_num) (by rw [abs_of_nonneg (by omega)]; exact_mod_cast h)
  exact_mod_cast this

/-- After the last positive probability both sums stay constant. -/
theorem stay {f : Nat → ℝ} {n : Nat} (hs : ∀ j, n < j → j < 256 → f j = f (j - 1)) :
    ∀ j, n ≤ j → j < 256 → f j = f n := by
  intro j hj
  induction j, hj using Nat.le_induction with
  | base => intro _; rfl
  | succ j hj ih =>
    intro h
    rw [hs (j + 1) (by omega) h, Nat.add_sub_cancel]
    exact ih (by omega)

/-- C151: in double precision, with a logarithm of relative error at most 2^-52, the Kapur level of
every 8-bit image of `N < 2^32` pixels separates the image into two non-empty classes whenever some
level does; the total entropy of the two classes is then within `N / 2^34` of the largest one.
Otherwise the level is 0. -/
theorem C151_kapur {ln : ℝ → ℝ} (hl : GoodLn ln) (im : Image Nat) (h8 : Is8 im)
    (hfit : im.w * im.h < 2 ^ 32) :
    ∃ r, kapurLevel64 ln im = some r ∧ r < 256 ∧
      ((∀ u, u < 256 → ¬ Separates im u) → r = 0) ∧
      ∀ u, u < 256 → Separates im u → Separates im r ∧
        totalEntropy im u ≤ totalEntropy im r + ((im.w * im.h : Nat) : ℝ) / 2 ^ 34 := by
  obtain ⟨hist, e, hh⟩ := C12_histogram 1 (gray im) (is8c_gray h8)
  have hh' : ∀ v, hist 0 v = countPx im (· = v) := fun v => hh 0 v (by omega)
  unfold kapurLevel64
  rw [e, Option.bind_some, cmul32, if_pos hfit, Option.bind_some]
  dsimp only
  simp only [hh']
  have cle : ∀ (Q : Nat → Prop) [DecidablePred Q], countPx im Q ≤ im.w * im.h := by
    intro Q _
    unfold countPx
    refine (card_filter_le _ _).trans (le_of_eq ?_)
    simp [allPx]
  obtain ⟨N, eN⟩ : ∃ N, N = im.w * im.h := ⟨_, rfl⟩
  rw [← eN] at hfit cle ⊢
  have hNr : (N : ℝ) ≤ 2 ^ 32 := by exact_mod_cast hfit.le
  set P : Nat → ℝ := fun i => rnd64 (rnd64 (countPx im (· = i) : ℝ) / rnd64 (N : ℝ)) with hPdef
  set p : Nat → ℝ := fun i => (countPx im (· = i) : ℝ) / (N : ℝ) with hpdef
  have pe : ∀ v, p v = (countPx im (· = v) : ℝ) / ((im.w * im.h : Nat) : ℝ) := by
    intro v; rw [← eN]
  have Pe : ∀ v, P v = rnd64 (p v) := by
    intro v
    show rnd64 _ = rnd64 _
    rw [rnd64_natR ((cle _).trans (by omega)), rnd64_natR (by omega)]
  have A : Approx p P := by
    have zo : ∀ v, p v = 0 ∨ 1 / 2 ^ 32 ≤ p v := by
      intro v
      show (countPx im (· = v) : ℝ) / (N : ℝ) = 0 ∨ 1 / 2 ^ 32 ≤ (countPx im (· = v) : ℝ) / (N : ℝ)
      rcases Nat.eq_zero_or_pos (countPx im (· = v)) with h | h
      · left; rw [h]; simp
      · right
        have c1 : (1 : ℝ) ≤ countPx im (· = v) := by exact_mod_cast h
        have n1 : (0 : ℝ) < N := by exact_mod_cast h.trans_le (cle _)
        rw [div_le_div_iff₀ (by norm_num) n1]
        nlinarith
    have lo : ∀ v, p v ≤ 1 := by
      intro v
      exact div_le_one_of_le₀ (by exact_mod_cast cle _) (by positivity)
    refine ⟨zo, lo, ?_⟩
    intro v
    rw [Pe]
    rcases zo v with h | h
    · rw [h, zero64]; simp
    · have hp : 0 < p v := lt_of_lt_of_le (by norm_num) h
      have := rnd_error_rel (p := 53) (emin := -1074) (x := p v) (by
        rw [abs_of_pos hp]
        refine le_trans ?_ h
        rw [show (1 / 2 ^ 32 : ℝ) = 2 ^ (-32 : Int) by rw [zpow_neg, one_div]; norm_cast]
        exact zpow_le_zpow_right₀ (by norm_num) (by norm_num))
      rw [abs_of_pos hp] at this
      refine this.trans (le_of_eq ?_)
      rw [zpow_neg, div_eq_mul_inv]
      rfl
  have cumE : ∀ t, t < 256 → cum p t = (countPx im (· ≤ t) : ℝ) / (N : ℝ) := by
    intro t ht
    unfold cum
    rw [count_eq_sum im h8 (· ≤ t), filter_le_eq t ht, hpdef, ← sum_div]
    push_cast; rfl
  have cs : ∀ t, countPx im (· ≤ t) + countPx im (t < ·) = N := by
    intro t; rw [eN]; exact count_split im t
  have cum1 : ∀ t, t < 256 → 0 < N → 1 - cum p t = (countPx im (t < ·) : ℝ) / (N : ℝ) := by
    intro t ht hN
    have hN' : (0 : ℝ) < N := by exact_mod_cast hN
    rw [cumE t ht, eq_div_iff hN'.ne', sub_mul, div_mul_cancel₀ _ hN'.ne', one_mul]
    have h : (N : ℝ) = countPx im (· ≤ t) + countPx im (t < ·) := by
      rw [← cs t]; push_cast; rfl
    rw [h]; ring
  have c255 : countPx im (255 < ·) = 0 := by
    rw [count_eq_sum im h8 (255 < ·)]
    rw [show (range 256).filter (255 < ·) = ∅ by
      rw [filter_eq_empty_iff]; intro v hv; rw [mem_range] at hv; omega, sum_empty]
  have tail : ∀ t, countPx im (t < ·) = 0 → ∀ v, t < v → P v = 0 := by
    intro t h v hv
    have : countPx im (· = v) ≤ countPx im (t < ·) := by
      unfold countPx
      refine card_le_card ?_
      intro q hq
      rw [mem_filter] at hq ⊢
      exact ⟨hq.1, by rw [hq.2]; exact hv⟩
    apply A.P_zero
    show (countPx im (· = v) : ℝ) / (N : ℝ) = 0
    rw [show countPx im (· = v) = 0 by omega]
    simp
  obtain ⟨c, ec, c0, cS⟩ := cumProb64_spec P
  obtain ⟨h, eh, h0, hS⟩ := cumEntropy64_spec ln P
  rw [ec, Option.bind_some, eh, Option.bind_some]
  have cE := cum_err A c0 cS
  have hE := ent_err hl A h0 hS
  have cE' : ∀ i, i < 256 → |c i - cum p i| ≤ cum p i / 2 ^ 44 := by
    intro i hi
    refine (cE i hi).trans ?_
    rw [← mul_one_div]
    refine mul_le_mul_of_nonneg_left ?_ (A.cum_nonneg i)
    have : (i : ℝ) + 1 ≤ 256 := by exact_mod_cast hi
    norm_num; linarith
  have hE' : ∀ i, i < 256 → |h i - ent p i| ≤ cum p i / 2 ^ 38 := by
    intro i hi
    refine (hE i hi).trans ?_
    rw [← mul_one_div]
    refine mul_le_mul_of_nonneg_left ?_ (A.cum_nonneg i)
    have : (i : ℝ) + 1 ≤ 256 := by exact_mod_cast hi
    norm_num; linarith
  -- levels that separate the image
  have sep : ∀ t, t < 256 → Separates im t → 0 < rnd64 (c t * rnd64 (1 - c t)) ∧
      |psi64 ln c h t - totalEntropy im t| ≤ N / 2 ^ 35 := by
    intro t ht hs
    have N2 : 2 ≤ N := by have := cs t; have := hs.1; have := hs.2; omega
    have N2' : (2 : ℝ) ≤ N := by exact_mod_cast N2
    have Np : (0 : ℝ) < N := by linarith
    have hpsi := psi_eq im h8 t ht hs p pe
    dsimp only at hpsi
    have q255 : cum p 255 = 1 := by
      have := cum1 255 (by omega) (by omega)
      rw [c255] at this
      simp at this
      linarith
    have dd : ∑ v ∈ range 256, Real.negMulLog (p v) - ∑ v ∈ range (t + 1), Real.negMulLog (p v) =
        ∑ v ∈ (range 256).filter (t < ·), Real.negMulLog (p v) := (sum_gt _ t ht).symm
    have pp : 1 - cum p t = ∑ v ∈ (range 256).filter (t < ·), p v := by
      rw [sum_gt _ t ht, ← q255]; rfl
    have D0 : 0 ≤ ∑ v ∈ (range 256).filter (t < ·), Real.negMulLog (p v) :=
      sum_nonneg fun v _ => (A.cum_term_le v).1
    have DQ : ∑ v ∈ (range 256).filter (t < ·), Real.negMulLog (p v) ≤ 23 * (1 - cum p t) := by
      rw [pp, mul_sum]
      exact sum_le_sum fun v _ => (A.cum_term_le v).2
    have en := A.ent_le t
    have k := psi_err hl (c := c t) (h255 := h 255) (h := h t) (C := cum p t) (H := ent p t)
      (D := ∑ v ∈ (range 256).filter (t < ·), Real.negMulLog (p v)) (N := N) (cumP := c) (hh := h) (s := t)
      rfl rfl rfl N2' hNr
      (by rw [cumE t ht]
          exact div_le_div_of_nonneg_right (by exact_mod_cast hs.1) Np.le)
      (by rw [cum1 t ht (by omega)]
          exact div_le_div_of_nonneg_right (by exact_mod_cast hs.2) Np.le)
      (cE' t ht) (hE' t ht)
      (by
        rw [← dd]
        have := hE' 255 (by omega)
        rw [q255] at this
        rw [show ent p t + (∑ v ∈ range 256, Real.negMulLog (p v) -
          ∑ v ∈ range (t + 1), Real.negMulLog (p v)) = ent p 255 by unfold ent; ring]
        exact this)
      en.1 en.2 D0 DQ
    refine ⟨k.1, ?_⟩
    rw [← hpsi, dd]
    exact k.2
  -- the other levels
  have nosep : ∀ t, t < 256 → ¬ Separates im t → rnd64 (c t * rnd64 (1 - c t)) ≤ 0 ∨
      ((∃ u, u < t ∧ Separates im u) ∧ psi64 ln c h t < -4) := by
    intro t ht hs
    by_cases z : countPx im (· ≤ t) = 0
    · left
      have : cum p t = 0 := by rw [cumE t ht, z]; simp
      have k := cE' t ht
      rw [this, zero_div, sub_zero] at k
      rw [abs_eq_zero.1 (le_antisymm k (abs_nonneg _)), zero_mul, zero64]
    have zt : countPx im (t < ·) = 0 := by
      unfold Separates at hs; omega
    have Np : 0 < N := by have := cs t; omega
    have q : ∀ v, v < 256 → countPx im (v < ·) = 0 → cum p v = 1 := by
      intro v hv hz
      have := cum1 v hv Np
      rw [hz] at this
      simp at this
      linarith
    by_cases ex : ∃ u, u < t ∧ Separates im u
    · by_cases g : rnd64 (c t * rnd64 (1 - c t)) ≤ 0
      · exact .inl g
      refine .inr ⟨ex, ?_⟩
      have k1 := cE' t ht
      have k2 := hE' t ht
      rw [q t ht zt] at k1 k2
      have en := A.ent_le t
      rw [q t ht zt] at en
      refine psi_spurious hl (c := c t) (h := h t) (H := ent p t) rfl rfl ?_ k1 k2 en.1 (by linarith [en.2])
        (not_le.1 g)
      refine stay (n := t) ?_ 255 (by omega) (by omega)
      intro j hj hj'
      rw [hS j (by omega) hj', tail t zt j hj, if_neg (lt_irrefl _)]
    · left
      have exi : ∃ i, 0 < countPx im (· ≤ i) := ⟨t, by omega⟩
      obtain ⟨v, vp, vm⟩ : ∃ v, 0 < countPx im (· ≤ v) ∧ ∀ u, u < v → countPx im (· ≤ u) = 0 :=
        ⟨Nat.find exi, Nat.find_spec exi, fun u hu => by have := Nat.find_min exi hu; omega⟩
      have vt : v ≤ t := by
        by_contra hc
        exact z (vm t (by omega))
      have vz : countPx im (v < ·) = 0 := by
        rcases vt.eq_or_lt with rfl | hlt
        · exact zt
        · by_contra hc
          exact ex ⟨v, hlt, vp, by omega⟩
      have cv : c v = 1 := by
        have qv := q v (by omega) vz
        rcases Nat.eq_zero_or_pos v with rfl | hv
        · rw [c0, Pe]
          unfold cum at qv
          rw [zero_add, sum_range_one] at qv
          rw [qv]
          exact_mod_cast rnd64_natR (n := 1) (by norm_num)
        · have qz : cum p (v - 1) = 0 := by rw [cumE (v - 1) (by omega), vm (v - 1) (by omega)]; simp
          have k := cE' (v - 1) (by omega)
          rw [qz, zero_div, sub_zero] at k
          have S := cum_succ p (v - 1)
          rw [Nat.sub_add_cancel hv, qz, qv, zero_add] at S
          have one : rnd64 (1 : ℝ) = 1 := by exact_mod_cast rnd64_natR (n := 1) (by norm_num)
          rw [cS v hv (by omega), abs_eq_zero.1 (le_antisymm k (abs_nonneg _)), Pe, ← S, zero_add, one, one]
      have ct : c t = c v := by
        have key : ∀ j, v ≤ j → j < 256 → c j = 1 := by
          intro j hj
          induction j, hj using Nat.le_induction with
          | base => intro _; exact cv
          | succ j hj ih =>
            intro hj'
            rw [cS (j + 1) (by omega) hj', Nat.add_sub_cancel, ih (by omega), tail v vz (j + 1) (by omega), add_zero]
            exact_mod_cast rnd64_natR (n := 1) (by norm_num)
        rw [key t vt ht, cv]
      rw [ct, cv, sub_self, zero64, mul_zero, zero64]
  have small : (N : ℝ) / 2 ^ 35 ≤ 1 / 8 := by
    rw [div_le_iff₀ (by norm_num)]; exact hNr.trans (by norm_num)
  have te0 : ∀ t, 0 ≤ totalEntropy im t := fun t =>
    add_nonneg (classEntropy_nonneg im h8 (· ≤ t)) (classEntropy_nonneg im h8 (t < ·))
  have lowpsi : ∀ t, t < 256 → Separates im t → -1 < psi64 ln c h t := by
    intro t ht hs
    have := sub_abs (sep t ht hs).2
    linarith [this.1, te0 t]
  have fm : f64Min < -100 := by
    unfold f64Min
    have : (1 : ℝ) ≤ 2 ^ 971 := one_le_pow₀ (by norm_num)
    generalize (2 : ℝ) ^ 971 = z at *
    norm_num
    linarith
  unfold kapurScan64
  obtain ⟨r, er, h1, h2, h3⟩ := forRange_spec (lo := 0) (hi := 256) (s := (f64Min, 0))
    (f := fun s (b : ℝ × Nat) =>
      if rnd64 (c s * rnd64 (1 - c s)) ≤ 0 then some b
      else if psi64 ln c h s > b.1 then some (psi64 ln c h s, s) else some b)
    (fun n b => (b.2 < n ∨ b.2 = 0) ∧
      ((∀ u, u < n → ¬ Separates im u) → b = (f64Min, 0)) ∧
      ∀ u, u < n → Separates im u → Separates im b.2 ∧ b.1 = psi64 ln c h b.2 ∧
        psi64 ln c h u ≤ psi64 ln c h b.2) (by omega)
    (by
      refine ⟨Or.inr rfl, fun _ => rfl, ?_⟩
      intro u hu; omega)
    (by
      rintro n b - hn ⟨i1, i2, i3⟩
      by_cases hsep : Separates im n
      · rw [if_neg (not_le.2 (sep n hn hsep).1)]
        by_cases hgt : psi64 ln c h n > b.1
        · rw [if_pos hgt]
          refine ⟨_, rfl, Or.inl (by dsimp only; omega), fun hall => absurd hsep (hall n (by omega)), ?_⟩
          intro u hu hus
          refine ⟨hsep, rfl, ?_⟩
          by_cases hun : u = n
          · subst hun; exact le_rfl
          · obtain ⟨j1, j2, j3⟩ := i3 u (by omega) hus
            rw [j2] at hgt
            exact (j3.trans_lt hgt).le
        · rw [if_neg hgt]
          refine ⟨_, rfl, by omega, fun hall => absurd hsep (hall n (by omega)), ?_⟩
          by_cases hex : ∃ u, u < n ∧ Separates im u
          · obtain ⟨u0, hu0, hs0⟩ := hex
            obtain ⟨j1, j2, j3⟩ := i3 u0 hu0 hs0
            intro u hu hus
            by_cases hun : u = n
            · subst hun
              refine ⟨j1, j2, ?_⟩
              rw [← j2]; exact not_lt.1 hgt
            · exact i3 u (by omega) hus
          · have hb := i2 (fun u hu hs => hex ⟨u, hu, hs⟩)
            rw [hb] at hgt
            have := lowpsi n hn hsep
            exact absurd (by dsimp only; linarith) hgt
      · have keep : (if rnd64 (c n * rnd64 (1 - c n)) ≤ 0 then some b
            else if psi64 ln c h n > b.1 then some (psi64 ln c h n, n) else some b) = some b := by
          rcases nosep n hn hsep with g | ⟨⟨u, hu, hus⟩, g⟩
          · rw [if_pos g]
          · split_ifs with a1 a2
            · rfl
            · obtain ⟨j1, j2, j3⟩ := i3 u hu hus
              have := lowpsi u (by omega) hus
              exfalso; linarith
            · rfl
        rw [keep]
        refine ⟨_, rfl, by omega, ?_, ?_⟩
        · intro hall; exact i2 (fun u hu => hall u (by omega))
        · intro u hu hus
          by_cases hun : u = n
          · subst hun; exact absurd hus hsep
          · exact i3 u (by omega) hus)
  refine ⟨r.2, by rw [er]; rfl, by omega, ?_, ?_⟩
  · intro hall; rw [h2 hall]
  · intro u hu hus
    obtain ⟨j1, _, j3⟩ := h3 u hu hus
    refine ⟨j1, ?_⟩
    have a1 := sub_abs (sep u hu hus).2
    have a2 := sub_abs (sep r.2 (by omega) j1).2
    have e34 : (N : ℝ) / 2 ^ 34 = N / 2 ^ 35 + N / 2 ^ 35 := by ring
    rw [e34]
    linarith [a1.1, a2.2]

/-- Splitting 0, 1, 2, 2 after 1 gives entropy ln 2 + 0, splitting after 0 gives less by more than the
rounding errors, and no other split is possible: with every such logarithm the level is 1. -/
example {ln : ℝ → ℝ} (hl : GoodLn ln) : kapurLevel64 ln kapurIm = some 1 := by
  obtain ⟨r, e, hr, -, h⟩ := C151_kapur hl kapurIm (by intro x y _ _; simp only [kapurIm]; omega)
    (by decide)
  have s1 : Separates kapurIm 1 := by unfold Separates; decide +kernel
  obtain ⟨h1, h2⟩ := h 1 (by omega) s1
  have hr2 : r < 2 := by
    by_contra hc
    have h4 : countPx kapurIm (r < ·) = 0 := by
      unfold countPx
      rw [card_eq_zero, filter_eq_empty_iff]
      intro q _ h
      simp only [kapurIm] at h; omega
    have := h1.2
    omega
  have hne : r ≠ 0 := by
    rintro rfl
    unfold totalEntropy at h2
    simp only [kapurIm_class] at h2
    have c0 : countPx kapurIm (· = 0) = 1 := by decide +kernel
    have c1 : countPx kapurIm (· = 1) = 1 := by decide +kernel
    have c2 : countPx kapurIm (· = 2) = 2 := by decide +kernel
    have d0 : countPx kapurIm (· ≤ 0) = 1 := by decide +kernel
    have d1 : countPx kapurIm (· ≤ 1) = 2 := by decide +kernel
    have d2 : countPx kapurIm (0 < ·) = 3 := by decide +kernel
    have d3 : countPx kapurIm (1 < ·) = 2 := by decide +kernel
    have f0 : (range 3).filter (· ≤ 0) = {0} := by decide
    have f1 : (range 3).filter (· ≤ 1) = {0, 1} := by decide
    have f2 : (range 3).filter (0 < ·) = {1, 2} := by decide
    have f3 : (range 3).filter (1 < ·) = {2} := by decide
    rw [f0, f1, f2, f3, d0, d1, d2, d3, sum_singleton, sum_singleton, sum_pair (by decide),
      sum_pair (by decide), c0, c1, c2, show kapurIm.w * kapurIm.h = 4 from rfl] at h2
    have l3 : Real.log (2 / 3) = Real.log 2 - Real.log 3 := Real.log_div (by norm_num) (by norm_num)
    simp only [Real.negMulLog, Nat.cast_one, Nat.cast_ofNat, div_self (two_ne_zero' ℝ), l3,
      one_div, Real.log_inv, div_one, Real.log_one] at h2
    have h5 : 5 * Real.log 2 ≤ 3 * Real.log 3 + 12 / 2 ^ 34 := by norm_num at h2 ⊢; linarith
    have e1 : 5 * Real.log 2 = Real.log 32 := by
      rw [show (32 : ℝ) = 2 ^ 5 by norm_num, Real.log_pow]; norm_num
    have e2 : 3 * Real.log 3 = Real.log 27 := by
      rw [show (27 : ℝ) = 3 ^ 3 by norm_num, Real.log_pow]; norm_num
    have e3 : Real.log 32 - Real.log 27 = Real.log (32 / 27) :=
      (Real.log_div (by norm_num) (by norm_num)).symm
    have e4 := Real.one_sub_inv_le_log_of_pos (show (0 : ℝ) < 32 / 27 by norm_num)
    norm_num at e4 h5
    linarith
  rw [e, show r = 1 by omega]

end Verif.Float
