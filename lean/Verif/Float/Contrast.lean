import Verif.Float.Basic
import Verif.Contrast.Equalize
/-
`equalize_histogram` and `match_histogram` in single precision (src/contrast.rs:292-311, 419-463):
counts are rounded when they are converted to `f32`, and the division, the multiplication by 255 and
the differences are rounded.
-/
namespace Verif.Float
open Verif.Contrast Verif.Stats

/-- One pixel of `equalize_histogram_mut`, src/contrast.rs:307-309: `c` pixels are at most as bright,
`t` is the number of all pixels. -/
def equalizeLevel32 (c t : Nat) : Nat :=
  ⌊min 255 (rnd32 (255 * rnd32 (rnd32 (c : ℚ) / rnd32 (t : ℚ))))⌋.toNat

/-- `equalize_histogram_mut`, src/contrast.rs:292-311. -/
def equalize32 (im : Image Nat) : Option (Image Nat) :=
  (cumulativeHistogram 1 (gray im)).map fun cum =>
    { im with px := fun x y => equalizeLevel32 (cum 0 (im.px x y)) (cum 0 255) }

/-- The rounded fraction `histc[v] as f32 / total`, src/contrast.rs:443-444. -/
def fraction32 (c t : Nat) : ℚ := rnd32 (rnd32 (c : ℚ) / rnd32 (t : ℚ))

/-- `histogram_lut`, src/contrast.rs:431-463. -/
def histogramLut32 (source target : Nat → Nat) : Option (Nat → Nat) :=
  let tf : Nat → ℚ := fun y => fraction32 (target y) (target 255)
  (forRange 0 256 ((0, 0), fun _ => 0) fun s (st : (Nat × ℚ) × (Nat → Nat)) =>
    let sf : ℚ := fraction32 (source s) (source 255)
    let (y, prev) := lutAdvance tf sf 255 st.1
    let v := if y = 0 then y
      else if |rnd32 (prev - sf)| < |rnd32 (tf y - sf)| then y - 1 else y
    some ((y, prev), fun i => if i = s then v else st.2 i)).map Prod.snd

/-- `match_histogram_mut`, src/contrast.rs:419-427. -/
def matchHistogram32 (im target : Image Nat) : Option (Image Nat) :=
  (cumulativeHistogram 1 (gray im)).bind fun a =>
  (cumulativeHistogram 1 (gray target)).bind fun b =>
  (histogramLut32 (a 0) (b 0)).map fun lut =>
    { im with px := fun x y => lut (im.px x y) }

/-! ### Fractions -/

theorem rep_one : Rep 24 (-149) (1 : ℚ) := ⟨1, 0, by norm_num, by norm_num, by norm_num⟩

theorem rnd32_nat_pos {t : Nat} (h : 0 < t) : 1 ≤ rnd32 (t : ℚ) :=
  le_rnd (by norm_num) rep_one (by exact_mod_cast h)

theorem fraction32_mono {c c' t : Nat} (ht : 0 < t) (h : c ≤ c') : fraction32 c t ≤ fraction32 c' t := by
  have := rnd32_nat_pos ht
  refine rnd_mono (by norm_num) (div_le_div_of_nonneg_right ?_ (by linarith))
  exact rnd_mono (by norm_num) (by exact_mod_cast h)

theorem fraction32_self {t : Nat} (ht : 0 < t) : fraction32 t t = 1 := by
  unfold fraction32
  rw [div_self (by have := rnd32_nat_pos ht; linarith)]
  exact rnd_of_rep (by norm_num) rep_one

theorem fraction32_nonneg (c t : Nat) : 0 ≤ fraction32 c t :=
  rnd_nonneg (div_nonneg (rnd_nonneg (by positivity)) (rnd_nonneg (by positivity)))

theorem fraction32_le_one {c t : Nat} (ht : 0 < t) (h : c ≤ t) : fraction32 c t ≤ 1 := by
  rw [← fraction32_self ht]
  exact fraction32_mono ht h

/-- Rounding a count has a relative error only. -/
theorem rnd32_nat_error (n : Nat) : (1 - 1 / 2 ^ 24) * (n : ℚ) ≤ rnd32 (n : ℚ) ∧
    rnd32 (n : ℚ) ≤ (1 + 1 / 2 ^ 24) * n := by
  rcases Nat.eq_zero_or_pos n with rfl | h
  · have z : rnd32 ((0 : Nat) : ℚ) = 0 := by rw [Nat.cast_zero]; exact rnd_zero
    rw [z]; norm_num
  have h1 : (1 : ℚ) ≤ n := by exact_mod_cast h
  have e : |rnd32 (n : ℚ) - n| ≤ |(n : ℚ)| * 2 ^ (-(24 : Nat) : Int) := by
    refine rnd_error_rel ?_
    rw [abs_of_nonneg (by linarith)]
    refine le_trans ?_ h1
    norm_num
  rw [abs_of_nonneg (show (0 : ℚ) ≤ n by linarith)] at e
  have e24 : (2 : ℚ) ^ (-(24 : Nat) : Int) = 1 / 2 ^ 24 := by norm_num
  rw [e24] at e
  obtain ⟨a, b⟩ := abs_le.1 e
  constructor <;> linarith

/-- The rounded fraction is accurate to `2^-22`. -/
theorem fraction32_error {c t : Nat} (ht : 0 < t) (h : c ≤ t) :
    |fraction32 c t - (c : ℚ) / t| ≤ 1 / 2 ^ 22 := by
  have htq : (0 : ℚ) < t := by exact_mod_cast ht
  have hcq : (c : ℚ) ≤ t := by exact_mod_cast h
  have hc0 : (0 : ℚ) ≤ c := by positivity
  have t1 := rnd32_nat_pos ht
  obtain ⟨a1, a2⟩ := rnd32_nat_error c
  obtain ⟨b1, b2⟩ := rnd32_nat_error t
  have cm : rnd32 (c : ℚ) ≤ rnd32 (t : ℚ) := rnd_mono (by norm_num) hcq
  have c0 : 0 ≤ rnd32 (c : ℚ) := rnd_nonneg hc0
  unfold fraction32
  set C := rnd32 (c : ℚ)
  set T := rnd32 (t : ℚ)
  have hT : 0 < T := by linarith
  have q1 : C / T ≤ 1 := by rw [div_le_one hT]; exact cm
  have q0 : 0 ≤ C / T := div_nonneg c0 hT.le
  have e1 : |rnd32 (C / T) - C / T| ≤ 1 / 2 ^ 24 := by
    have := rnd_error_lt (p := 24) (emin := -149) (x := C / T) (k := 1) (by norm_num) (by
      rw [abs_of_nonneg q0]; norm_num; linarith)
    refine le_trans this ?_
    norm_num
  have x1 : (c : ℚ) / t ≤ 1 := by rw [div_le_one htq]; exact hcq
  have x0 : (0 : ℚ) ≤ c / t := div_nonneg hc0 htq.le
  have e2 : |C / T - (c : ℚ) / t| ≤ 5 / 2 / 2 ^ 24 := by
    have d : C / T - (c : ℚ) / t = (C * t - c * T) / (T * t) := by field_simp
    rw [d, abs_div, abs_of_pos (mul_pos hT htq), div_le_iff₀ (mul_pos hT htq)]
    have u1 : C * t ≤ (1 + 1 / 2 ^ 24) * c * t := mul_le_mul_of_nonneg_right a2 htq.le
    have u2 : (1 - 1 / 2 ^ 24) * c * t ≤ C * t := mul_le_mul_of_nonneg_right a1 htq.le
    have u3 : c * ((1 - 1 / 2 ^ 24) * t) ≤ c * T := mul_le_mul_of_nonneg_left b1 hc0
    have u4 : c * T ≤ c * ((1 + 1 / 2 ^ 24) * t) := mul_le_mul_of_nonneg_left b2 hc0
    have u5 : (c : ℚ) * t ≤ t * t := mul_le_mul_of_nonneg_right hcq htq.le
    have u6 : (1 - 1 / 2 ^ 24) * (t : ℚ) * t ≤ T * t := mul_le_mul_of_nonneg_right b1 htq.le
    rw [abs_le]
    constructor <;> norm_num at * <;> nlinarith
  have := abs_sub_le (rnd32 (C / T)) (C / T) ((c : ℚ) / t)
  norm_num at *
  linarith

/-! ### Equalisation -/

/-- What `equalize32` computes, in terms of counts. -/
theorem equalize32_spec (im : Image Nat) (h8 : Is8 im) :
    ∃ out, equalize32 im = some out ∧ out.w = im.w ∧ out.h = im.h ∧
      ∀ x y, x < im.w → y < im.h →
        out.px x y = equalizeLevel32 (countPx im (· ≤ im.px x y)) (im.w * im.h) := by
  obtain ⟨cum, e, hc⟩ := C12_cumulative_histogram 1 (gray im) (is8c_gray h8)
  have hc' : ∀ v, v < 256 → cum 0 v = countPx im (· ≤ v) := fun v hv => hc 0 v (by omega) hv
  unfold equalize32
  rw [e]
  refine ⟨_, rfl, rfl, rfl, ?_⟩
  intro x y hx hy
  dsimp only
  rw [hc' _ (h8 x y hx hy), hc' 255 (by omega), countPx_all im (· ≤ 255)
    (fun a b ha hb => by have := h8 a b ha hb; omega)]

/-- Up to 65536 pixels the rounding is invisible. -/
theorem equalizeLevel32_exact {c t : Nat} (ht : 0 < t) (h : c ≤ t) (h16 : t ≤ 65536) :
    equalizeLevel32 c t = 255 * c / t := by
  have htq : (0 : ℚ) < t := by exact_mod_cast ht
  have hcq : (c : ℚ) ≤ t := by exact_mod_cast h
  have hc0 : (0 : ℚ) ≤ c := by positivity
  have i : ∀ n : Nat, n ≤ 65536 → rnd32 (n : ℚ) = n := by
    intro n hn
    have : rnd32 ((n : Int) : ℚ) = ((n : Int) : ℚ) := rnd_int (by norm_num) (by norm_num) (by
      rw [abs_of_nonneg (by positivity)]; norm_num; omega)
    exact_mod_cast this
  unfold equalizeLevel32
  rw [i c (by omega), i t h16]
  obtain ⟨k, r, hkr, hr⟩ : ∃ k r, 255 * c = k * t + r ∧ r < t :=
    ⟨255 * c / t, 255 * c % t, by rw [Nat.mul_comm (255 * c / t)]; exact (Nat.div_add_mod _ _).symm,
      Nat.mod_lt _ ht⟩
  have hdiv : 255 * c / t = k := by
    rw [hkr, Nat.add_comm, Nat.add_mul_div_right _ _ ht, Nat.div_eq_of_lt hr, Nat.zero_add]
  rw [hdiv]
  have hkq : (255 : ℚ) * c = k * t + r := by exact_mod_cast hkr
  have hk255 : k ≤ 255 := by
    by_contra hc
    have : 256 * t ≤ k * t := Nat.mul_le_mul_right _ (by omega)
    omega
  have key : ∀ v : ℚ, (k : ℚ) ≤ min 255 v → min 255 v < k + 1 → ⌊min 255 v⌋.toNat = k := by
    intro v h1 h2
    have : ⌊min 255 v⌋ = (k : Int) := by
      rw [Int.floor_eq_iff]
      exact ⟨by exact_mod_cast h1, by exact_mod_cast h2⟩
    rw [this]; rfl
  rcases Nat.eq_zero_or_pos r with h0 | h0
  · -- the exact result is an integer
    subst h0
    have hx : (c : ℚ) / t = k / 255 := by
      rw [div_eq_div_iff htq.ne' (by norm_num)]
      push_cast at hkq
      linarith
    rw [hx]
    have all : ∀ k, k < 256 → ⌊min 255 (rnd32 (255 * rnd32 ((k : Nat) / 255 : ℚ)))⌋.toNat = k := by
      decide +kernel
    exact all k (by omega)
  · -- it is far from integers
    have hrq : (1 : ℚ) ≤ r := by exact_mod_cast h0
    have hrt : (r : ℚ) + 1 ≤ t := by exact_mod_cast hr
    have ht16 : (t : ℚ) ≤ 65536 := by exact_mod_cast h16
    have x1 : (c : ℚ) / t ≤ 1 := by rw [div_le_one htq]; exact hcq
    have x0 : (0 : ℚ) ≤ c / t := div_nonneg hc0 htq.le
    have clt : c < t := by
      rcases Nat.lt_or_ge c t with g | g
      · exact g
      · have : c = t := by omega
        subst this
        have hk : k < 255 ∨ k = 255 := by omega
        rcases hk with hk | hk
        · have : k * c + c ≤ 255 * c := by nlinarith
          omega
        · subst hk; omega
    have x1' : (c : ℚ) / t < 1 := by rw [div_lt_one htq]; exact_mod_cast clt
    have e1 : |rnd32 ((c : ℚ) / t) - c / t| ≤ 1 / 2 ^ 25 := by
      have := rnd_error_lt (p := 24) (emin := -149) (x := (c : ℚ) / t) (k := 0) (by norm_num) (by
        rw [abs_of_nonneg x0]; norm_num; exact x1')
      refine le_trans this ?_
      norm_num
    set q := rnd32 ((c : ℚ) / t)
    have q0 : 0 ≤ q := rnd_nonneg x0
    have q1 : q ≤ 1 := rnd_le (by norm_num) rep_one x1
    have e2 : |rnd32 (255 * q) - 255 * q| ≤ 1 / 2 ^ 17 := by
      have := rnd_error_lt (p := 24) (emin := -149) (x := 255 * q) (k := 8) (by norm_num) (by
        rw [abs_of_nonneg (by linarith)]; norm_num; linarith)
      refine le_trans this ?_
      norm_num
    have hE : (255 : ℚ) * (c / t) = k + r / t := by
      field_simp
      linarith
    have r1 : (1 : ℚ) / 65536 ≤ r / t := by
      rw [div_le_div_iff₀ (by norm_num) htq]
      nlinarith
    have r2 : (r : ℚ) / t ≤ 1 - 1 / 65536 := by
      rw [div_le_iff₀ htq]
      nlinarith
    obtain ⟨a1, a2⟩ := abs_le.1 e1
    obtain ⟨b1, b2⟩ := abs_le.1 e2
    have hk1 : (k : ℚ) ≤ 255 := by exact_mod_cast hk255
    refine key _ (le_min hk1 ?_) (lt_of_le_of_lt (min_le_right _ _) ?_)
    · norm_num at *; linarith
    · norm_num at *; linarith

/-- **C120.** Images of at most 65536 pixels are equalised exactly: a pixel of value `v` becomes the
whole part of `255` times the fraction of pixels that are at most `v`. -/
theorem C120_exact (im : Image Nat) (h8 : Is8 im) (h16 : im.w * im.h ≤ 65536) :
    ∃ out, equalize32 im = some out ∧ out.w = im.w ∧ out.h = im.h ∧
      ∀ x y, x < im.w → y < im.h →
        out.px x y = 255 * countPx im (· ≤ im.px x y) / (im.w * im.h) := by
  obtain ⟨out, e, h1, h2, h3⟩ := equalize32_spec im h8
  refine ⟨out, e, h1, h2, fun x y hx hy => ?_⟩
  rw [h3 x y hx hy]
  exact equalizeLevel32_exact (Nat.mul_pos (by omega) (by omega)) (countPx_le im _) h16

theorem equalizeLevel32_mono {c c' t : Nat} (ht : 0 < t) (h : c ≤ c') :
    equalizeLevel32 c t ≤ equalizeLevel32 c' t := by
  refine Int.toNat_le_toNat (Int.floor_mono (min_le_min_left _ (rnd_mono (by norm_num) ?_)))
  exact mul_le_mul_of_nonneg_left (fraction32_mono ht h) (by norm_num)

theorem equalizeLevel32_self {t : Nat} (ht : 0 < t) : equalizeLevel32 t t = 255 := by
  unfold equalizeLevel32
  rw [show rnd32 (rnd32 (t : ℚ) / rnd32 (t : ℚ)) = 1 from fraction32_self ht]
  decide +kernel

/-- **C120.** For images of any size the order of pixels is preserved, a brightest pixel becomes 255
and the result differs by at most one from the exact whole part. -/
theorem C120_general (im : Image Nat) (h8 : Is8 im) :
    ∃ out, equalize32 im = some out ∧ out.w = im.w ∧ out.h = im.h ∧
      (∀ x y, x < im.w → y < im.h →
        255 * countPx im (· ≤ im.px x y) / (im.w * im.h) ≤ out.px x y + 1 ∧
        out.px x y ≤ 255 * countPx im (· ≤ im.px x y) / (im.w * im.h) + 1 ∧ out.px x y ≤ 255) ∧
      (∀ x y x' y', x < im.w → y < im.h → x' < im.w → y' < im.h →
        im.px x y ≤ im.px x' y' → out.px x y ≤ out.px x' y') ∧
      (∀ x y, x < im.w → y < im.h → (∀ x' y', x' < im.w → y' < im.h → im.px x' y' ≤ im.px x y) →
        out.px x y = 255) := by
  obtain ⟨out, e, h1, h2, h3⟩ := equalize32_spec im h8
  refine ⟨out, e, h1, h2, fun x y hx hy => ?_, fun x y x' y' hx hy hx' hy' h => ?_,
    fun x y hx hy h => ?_⟩
  · rw [h3 x y hx hy]
    have ht : 0 < im.w * im.h := Nat.mul_pos (by omega) (by omega)
    have hc := countPx_le im (· ≤ im.px x y)
    generalize countPx im (· ≤ im.px x y) = c at *
    generalize im.w * im.h = t at *
    have fe := fraction32_error ht hc
    have f0 := fraction32_nonneg c t
    have f1 := fraction32_le_one ht hc
    unfold equalizeLevel32
    change _ ≤ ⌊min 255 (rnd32 (255 * fraction32 c t))⌋.toNat + 1 ∧
      ⌊min 255 (rnd32 (255 * fraction32 c t))⌋.toNat ≤ _ ∧
      ⌊min 255 (rnd32 (255 * fraction32 c t))⌋.toNat ≤ _
    set q := fraction32 c t
    have e2 : |rnd32 (255 * q) - 255 * q| ≤ 1 / 2 ^ 17 := by
      have := rnd_error_lt (p := 24) (emin := -149) (x := 255 * q) (k := 8) (by norm_num) (by
        rw [abs_of_nonneg (by linarith)]; norm_num; linarith)
      refine le_trans this ?_
      norm_num
    have v0 : 0 ≤ rnd32 (255 * q) := rnd_nonneg (by linarith)
    set v := rnd32 (255 * q)
    have htq : (0 : ℚ) < t := by exact_mod_cast ht
    have hfl : (255 * c / t : Nat) = ⌊(255 : ℚ) * (c / t)⌋.toNat := by
      rw [← mul_div_assoc, show (255 : ℚ) * (c : ℚ) = ((255 * c : Nat) : ℚ) by push_cast; rfl,
        Rat.floor_natCast_div_natCast]
      rfl
    rw [hfl]
    have x0 : (0 : ℚ) ≤ 255 * (c / t) := by positivity
    have x1 : (c : ℚ) / t ≤ 1 := by rw [div_le_one htq]; exact_mod_cast hc
    obtain ⟨a1, a2⟩ := abs_le.1 fe
    obtain ⟨b1, b2⟩ := abs_le.1 e2
    have near : |min 255 v - 255 * ((c : ℚ) / t)| < 1 := by
      rw [abs_lt]
      constructor
      · rcases min_choice 255 v with g | g <;> rw [g] <;> norm_num at * <;> linarith
      · refine lt_of_le_of_lt (sub_le_sub_right (min_le_right 255 v) _) ?_
        norm_num at *
        linarith
    have m0 : 0 ≤ min 255 v := le_min (by norm_num) v0
    have m1 := min_le_left 255 v
    generalize min 255 v = m at *
    generalize (255 : ℚ) * ((c : ℚ) / t) = z at *
    obtain ⟨n1, n2⟩ := abs_lt.1 near
    have p1 := Int.floor_nonneg.2 m0
    have p2 := Int.floor_nonneg.2 x0
    have q1 : ⌊m⌋ ≤ ⌊z⌋ + 1 := by
      rw [← Int.floor_add_one]; exact Int.floor_mono (by linarith)
    have q2 : ⌊z⌋ ≤ ⌊m⌋ + 1 := by
      rw [← Int.floor_add_one]; exact Int.floor_mono (by linarith)
    have q3 : ⌊m⌋ ≤ 255 := by
      have : ⌊m⌋ ≤ ⌊(255 : ℚ)⌋ := Int.floor_mono m1
      simpa using this
    omega
  · rw [h3 x y hx hy, h3 x' y' hx' hy']
    exact equalizeLevel32_mono (Nat.mul_pos (by omega) (by omega)) (count_mono im h)
  · rw [h3 x y hx hy, countPx_all im _ h]
    exact equalizeLevel32_self (Nat.mul_pos (by omega) (by omega))

/-- A row of `n` pixels whose first `k` are black and whose others are white. -/
def step (n k : Nat) : Image Nat := ⟨n, 1, fun x _ => if x < k then 0 else 255⟩

theorem count_step {n k : Nat} (h : k ≤ n) : countPx (step n k) (· ≤ 0) = k := by
  have e : (allPx n 1).filter (fun p => (step n k).px p.1 p.2 ≤ 0) =
      (Finset.range k) ×ˢ (Finset.range 1) := by
    ext ⟨x, y⟩
    rw [Finset.mem_filter, mem_allPx, Finset.mem_product, Finset.mem_range, Finset.mem_range]
    show (x < n ∧ y < 1) ∧ (if x < k then 0 else 255) ≤ 0 ↔ x < k ∧ y < 1
    split_ifs <;> omega
  show ((allPx n 1).filter (fun p => (step n k).px p.1 p.2 ≤ 0)).card = k
  rw [e, Finset.card_product, Finset.card_range, Finset.card_range, Nat.mul_one]

theorem step_spec {n k : Nat} (h : k ≤ n) (h0 : 0 < k) :
    ∃ out, equalize32 (step n k) = some out ∧ out.px 0 0 = equalizeLevel32 k n ∧
      countPx (step n k) (· ≤ (step n k).px 0 0) = k := by
  have z : (step n k).px 0 0 = 0 := if_pos h0
  obtain ⟨out, e, -, -, h3⟩ := equalize32_spec (step n k) (by
    intro x y hx hy
    show (if x < k then 0 else 255) < 256
    split_ifs <;> omega)
  refine ⟨out, e, ?_, ?_⟩
  · rw [h3 0 0 (Nat.lt_of_lt_of_le h0 h) Nat.zero_lt_one, z, count_step h]
    exact congrArg _ (Nat.mul_one n)
  · rw [z, count_step h]

theorem step_level : equalizeLevel32 132333 132854 = 254 ∧ 255 * 132333 / 132854 = 253 := by
  decide +kernel

/-- **C120, negation** of exactness for large images: 132333 black pixels and 521 white ones.  The black
pixels should become 253 (`255 * 132333 / 132854` is just below 254) but become 254. -/
theorem C120_negation : ∃ im out : Image Nat, Is8 im ∧ im.w * im.h = 132854 ∧
    equalize32 im = some out ∧ 0 < im.w ∧ 0 < im.h ∧
    255 * countPx im (· ≤ im.px 0 0) / (im.w * im.h) = 253 ∧ out.px 0 0 = 254 := by
  obtain ⟨out, e, h1, h2⟩ := step_spec (n := 132854) (k := 132333) (by norm_num) (by norm_num)
  have hw : (step 132854 132333).w * (step 132854 132333).h = 132854 := Nat.mul_one _
  refine ⟨_, out, ?_, hw, e, ?_, Nat.zero_lt_one, ?_, ?_⟩
  · intro x y hx hy
    show (if x < 132333 then 0 else 255) < 256
    split_ifs <;> omega
  · exact Nat.pos_of_ne_zero (by intro h; rw [h] at hw; omega)
  · rw [h2, hw]
  · rw [h1]
    exact step_level.1

example : (equalize32 (Image.ofRows 0 [[1, 2], [2, 9]])).map Image.rows =
    some [[63, 191], [191, 255]] := by decide +kernel

theorem rnd32_natQ {n : Nat} (h : n ≤ 2 ^ 24) : rnd32 (n : ℚ) = n := by
  have := rnd_int (K := ℚ) (p := 24) (emin := -149) (n := n) (by norm_num) (by norm_num)
    (by rw [abs_of_nonneg (by omega)]; exact_mod_cast h)
  simpa using this


/-- Multiplying by 255 undoes a division by 255. -/
theorem mul_div_255 : ∀ k : Nat, k < 256 → rnd32 (255 * rnd32 ((k : ℚ) / 255)) = k := by
  decide +kernel

/-- **C120.** For images of up to `2 ^ 24` pixels the level is never below the exact one. -/
theorem C120_never_below (im : Image Nat) (h8 : Is8 im) (h24 : im.w * im.h ≤ 2 ^ 24) :
    ∃ out, equalize32 im = some out ∧ ∀ x y, x < im.w → y < im.h →
      255 * countPx im (· ≤ im.px x y) / (im.w * im.h) ≤ out.px x y := by
  obtain ⟨out, e, -, -, h3⟩ := equalize32_spec im h8
  refine ⟨out, e, fun x y hx hy => ?_⟩
  rw [h3 x y hx hy]
  have hn : 0 < im.w * im.h := Nat.mul_pos (by omega) (by omega)
  have hc : countPx im (· ≤ im.px x y) ≤ im.w * im.h := countPx_le im _
  generalize im.w * im.h = n at *
  generalize countPx im (· ≤ im.px x y) = c at *
  have hq : (0 : ℚ) < n := by exact_mod_cast hn
  have hk : 255 * c / n < 256 := by
    have : 255 * c / n ≤ 255 := Nat.div_le_of_le_mul (by nlinarith)
    omega
  have hle : ((255 * c / n : Nat) : ℚ) / 255 ≤ (c : ℚ) / n := by
    have h1 : 255 * c / n * n ≤ 255 * c := Nat.div_mul_le_self _ _
    rw [div_le_div_iff₀ (by norm_num) hq]
    have : ((255 * c / n : Nat) : ℚ) * n ≤ 255 * c := by exact_mod_cast h1
    linarith
  have key : ((255 * c / n : Nat) : ℚ) ≤ rnd32 (255 * rnd32 (rnd32 (c : ℚ) / rnd32 (n : ℚ))) := by
    rw [← mul_div_255 _ hk, rnd32_natQ h24, rnd32_natQ (hc.trans h24)]
    exact rnd_mono (by norm_num) (mul_le_mul_of_nonneg_left (rnd_mono (by norm_num) hle) (by norm_num))
  have h255 : ((255 * c / n : Nat) : ℚ) ≤ 255 := by
    have : 255 * c / n ≤ 255 := by omega
    exact_mod_cast this
  unfold equalizeLevel32
  rw [Int.le_toNat (Int.floor_nonneg.2 (le_trans (Nat.cast_nonneg _) (le_min h255 key)))]
  exact Int.le_floor.2 (by exact_mod_cast le_min h255 key)

/-! ### Matching -/

/-- The scan of `histogram_lut` over monotone fractions, when the distances are compared after
applying a monotone function (`Verif.Contrast.lut_spec` is the case of the identity). -/
theorem lut_spec32 (φ : ℚ → ℚ) (hφ : ∀ a b, a ≤ b → φ a ≤ φ b) (S T : Nat → ℚ)
    (hS : ∀ u v, u ≤ v → v < 256 → S u ≤ S v)
    (hT : ∀ u v, u ≤ v → v < 256 → T u ≤ T v)
    (hS1 : ∀ v, v < 256 → S v ≤ 1) (hT1 : T 255 = 1) :
    ∃ lut, (forRange 0 256 ((0, 0), fun _ => 0) fun s (st : (Nat × ℚ) × (Nat → Nat)) =>
      let (y, prev) := lutAdvance T (S s) 255 st.1
      let v := if y = 0 then y
        else if φ |prev - S s| < φ |T y - S s| then y - 1 else y
      some ((y, prev), fun i => if i = s then v else st.2 i)).map Prod.snd = some lut ∧
    (∀ s, s < 256 → lut s < 256 ∧ ∀ v, v < 256 → φ |T (lut s) - S s| ≤ φ |T v - S s|) ∧
    ∀ s s', s ≤ s' → s' < 256 → lut s ≤ lut s' := by
  obtain ⟨st, e, hst⟩ := forRange_spec (lo := 0) (hi := 256)
    (s := (((0 : Nat), (0 : ℚ)), fun _ : Nat => (0 : Nat)))
    (f := fun s (st : (Nat × ℚ) × (Nat → Nat)) =>
      let (y, prev) := lutAdvance T (S s) 255 st.1
      let v := if y = 0 then y
        else if φ |prev - S s| < φ |T y - S s| then y - 1 else y
      some ((y, prev), fun i => if i = s then v else st.2 i))
    (fun k st => st.1.1 ≤ 255 ∧ (0 < st.1.1 → st.1.2 = T (st.1.1 - 1)) ∧
      (∀ j, j < st.1.1 → ∀ s, k ≤ s + 1 → s < 256 → T j < S s) ∧
      (∀ s, s < k → st.2 s < 256 ∧ ∀ v, v < 256 → φ |T (st.2 s) - S s| ≤ φ |T v - S s|) ∧
      (∀ s s', s ≤ s' → s' < k → st.2 s ≤ st.2 s') ∧
      (∀ s, s < k → st.2 s ≤ st.1.1 ∧ (st.2 s = st.1.1 → 0 < st.1.1 →
        T (st.1.1 - 1) < S s ∧ φ |T st.1.1 - S s| ≤ φ |T (st.1.1 - 1) - S s|)))
    (by omega) (by simp)
    (by
      rintro k ⟨⟨y, prev⟩, lut⟩ _ hk ⟨h1, h2, h3, h4, h5, h6⟩
      dsimp only at h1 h2 h3 h4 h5 h6 ⊢
      obtain ⟨z, pz, ez, a, b, c, d, f⟩ := Verif.Contrast.lutAdvance_spec T (S k)
        (by rw [hT1]; exact hS1 k hk) 255 y prev h1 (by omega) h2
      rw [ez]
      have hlow : ∀ j, j < z → T j < S k := by
        intro j hj
        by_cases hjy : j < y
        · exact h3 j hjy k (by omega) hk
        · exact d j (by omega) hj
      -- the value written
      obtain ⟨v, hv⟩ : ∃ v, v = (if z = 0 then z
        else if φ |pz - S k| < φ |T z - S k| then z - 1 else z) := ⟨_, rfl⟩
      have hvz : v = z ∨ (v + 1 = z ∧ φ |T v - S k| < φ |T z - S k|) := by
        by_cases h0 : z = 0
        · left; rw [hv, if_pos h0]
        · rw [if_neg h0] at hv
          by_cases hlt : φ |pz - S k| < φ |T z - S k|
          · right
            rw [if_pos hlt] at hv
            rw [f (by omega)] at hlt
            subst hv
            exact ⟨by omega, hlt⟩
          · left; rw [hv, if_neg hlt]
      have hvz2 : v = z → 0 < z → φ |T z - S k| ≤ φ |T (z - 1) - S k| := by
        intro e1 e2
        rw [if_neg (by omega)] at hv
        by_cases hlt : φ |pz - S k| < φ |T z - S k|
        · rw [if_pos hlt] at hv; omega
        · rw [f e2] at hlt; exact not_lt.1 hlt
      have hopt : ∀ u, u < 256 → φ |T v - S k| ≤ φ |T u - S k| := by
        intro u hu
        have key : φ |T v - S k| ≤ φ |T z - S k| ∧ (0 < z → φ |T v - S k| ≤ φ |T (z - 1) - S k|) := by
          rcases hvz with e1 | ⟨e1, e2⟩
          · subst e1; exact ⟨le_refl _, fun h => hvz2 rfl h⟩
          · refine ⟨e2.le, fun _ => ?_⟩
            rw [show z - 1 = v by omega]
        by_cases huz : u < z
        · refine (key.2 (by omega)).trans (hφ _ _ ?_)
          have e1 := hT u (z - 1) (by omega) (by omega)
          have e2 := hlow (z - 1) (by omega)
          rw [abs_of_nonpos (by linarith), abs_of_nonpos (by linarith)]
          linarith
        · refine key.1.trans (hφ _ _ ?_)
          have e1 := hT z u (by omega) hu
          rw [abs_of_nonneg (by linarith), abs_of_nonneg (by linarith)]
          linarith
      refine ⟨_, rfl, b, f, ?_, ?_, ?_, ?_⟩
      · intro j hj s hs hs'
        exact (hlow j hj).trans_le (hS k s (by omega) hs')
      · intro s hs
        dsimp only
        rw [← hv]
        by_cases hsk : s = k
        · subst hsk; rw [if_pos rfl]; exact ⟨by omega, hopt⟩
        · rw [if_neg hsk]; exact h4 s (by omega)
      · intro s s' hss hs'
        dsimp only
        rw [← hv]
        by_cases hsk : s' = k
        · subst hsk
          rw [if_pos rfl]
          by_cases hs : s = s'
          · rw [if_pos hs]
          · rw [if_neg hs]
            obtain ⟨q1, q2⟩ := h6 s (by omega)
            rcases hvz with e1 | ⟨e1, e2⟩
            · omega
            · by_cases hyz : y < z
              · omega
              · have hyz : y = z := by omega
                subst hyz
                by_cases hq : lut s = y
                · exfalso
                  obtain ⟨m3, q3⟩ := q2 hq (by omega)
                  rw [show y - 1 = v by omega] at m3 q3
                  have m1 := hS s s' hss hk
                  have m2 := hlow v (by omega)
                  have m4 := hT v y (by omega) (by omega)
                  have n1 : φ |T v - S s| ≤ φ |T v - S s'| := by
                    refine hφ _ _ ?_
                    rw [abs_of_nonpos (show T v - S s ≤ 0 by linarith),
                      abs_of_nonpos (show T v - S s' ≤ 0 by linarith)]
                    linarith
                  have n2 : φ |T y - S s'| ≤ φ |T y - S s| := by
                    refine hφ _ _ ?_
                    rw [abs_of_nonneg (show 0 ≤ T y - S s' by linarith),
                      abs_of_nonneg (show 0 ≤ T y - S s by linarith)]
                    linarith
                  linarith
                · omega
        · rw [if_neg hsk, if_neg (by omega)]; exact h5 s s' hss (by omega)
      · intro s hs
        dsimp only
        rw [← hv]
        by_cases hsk : s = k
        · subst hsk; rw [if_pos rfl]
          exact ⟨by omega, fun e1 e2 => ⟨hlow _ (by omega), hvz2 e1 e2⟩⟩
        · rw [if_neg hsk]
          obtain ⟨q1, q2⟩ := h6 s (by omega)
          refine ⟨by omega, ?_⟩
          intro e1 e2
          have : y = z := by omega
          subst this
          exact q2 e1 e2)
  obtain ⟨_, _, _, h4, h5, _⟩ := hst
  exact ⟨st.2, by rw [e]; rfl, h4, h5⟩

/-- Rounding a number of the unit interval. -/
theorem rnd32_err_unit {x : ℚ} (x0 : 0 ≤ x) (x1 : x ≤ 1) : |rnd32 x - x| ≤ 1 / 2 ^ 25 := by
  rcases eq_or_lt_of_le x1 with h | h
  · have one : rnd32 (1 : ℚ) = 1 := by
      have := rnd32_natQ (n := 1) (by norm_num)
      simpa using this
    rw [h, one]; norm_num
  · have := rnd_error_lt (K := ℚ) (p := 24) (emin := -149) (k := 0) (by norm_num) (x := x)
      (by rw [abs_of_nonneg x0, zpow_zero]; exact h)
    refine le_trans this ?_
    norm_num

/-- The computed fraction of pixels of intensity at most `v`. -/
def frac32 (im : Image Nat) (v : Nat) : ℚ := fraction32 (countPx im (· ≤ v)) (im.w * im.h)

/-- The level chosen is optimal for the computed fractions and rounded distances. -/
theorem match32_spec (im target : Image Nat) (h8 : Is8 im) (h8t : Is8 target)
    (hw : 0 < im.w) (hh : 0 < im.h) (htw : 0 < target.w) (hth : 0 < target.h) :
    ∃ out, matchHistogram32 im target = some out ∧ out.w = im.w ∧ out.h = im.h ∧
      (∀ x y, x < im.w → y < im.h → out.px x y < 256 ∧ ∀ v, v < 256 →
        rnd32 |frac32 target (out.px x y) - frac32 im (im.px x y)| ≤
        rnd32 |frac32 target v - frac32 im (im.px x y)|) ∧
      ∀ x y x' y', x < im.w → y < im.h → x' < im.w → y' < im.h → im.px x y ≤ im.px x' y' →
        out.px x y ≤ out.px x' y' := by
  obtain ⟨a, ea, ha⟩ := C12_cumulative_histogram 1 (gray im) (is8c_gray h8)
  obtain ⟨b, eb, hb⟩ := C12_cumulative_histogram 1 (gray target) (is8c_gray h8t)
  have ha' : ∀ v, v < 256 → a 0 v = countPx im (· ≤ v) := fun v hv => ha 0 v (by omega) hv
  have hb' : ∀ v, v < 256 → b 0 v = countPx target (· ≤ v) := fun v hv => hb 0 v (by omega) hv
  have hat : a 0 255 = im.w * im.h := by
    rw [ha' 255 (by omega)]
    exact countPx_all im _ (fun a b ha hb => by have := h8 a b ha hb; omega)
  have hbt : b 0 255 = target.w * target.h := by
    rw [hb' 255 (by omega)]
    exact countPx_all target _ (fun a b ha hb => by have := h8t a b ha hb; omega)
  have tp : 0 < im.w * im.h := Nat.mul_pos hw hh
  have ttp : 0 < target.w * target.h := Nat.mul_pos htw hth
  have s1 : ∀ v, v < 256 → 0 ≤ fraction32 (a 0 v) (a 0 255) ∧ fraction32 (a 0 v) (a 0 255) ≤ 1 := by
    intro v hv
    refine ⟨fraction32_nonneg _ _, ?_⟩
    rw [ha' v hv, hat]
    exact fraction32_le_one tp (countPx_le im _)
  have t1 : ∀ v, v < 256 → 0 ≤ fraction32 (b 0 v) (b 0 255) ∧ fraction32 (b 0 v) (b 0 255) ≤ 1 := by
    intro v hv
    refine ⟨fraction32_nonneg _ _, ?_⟩
    rw [hb' v hv, hbt]
    exact fraction32_le_one ttp (countPx_le target _)
  obtain ⟨lut, e, h1, h2⟩ := lut_spec32 rnd32 (fun a b h => rnd_mono (by norm_num) h)
    (fun v => fraction32 (a 0 v) (a 0 255)) (fun v => fraction32 (b 0 v) (b 0 255))
    (by
      intro u v huv hv
      rw [ha' u (by omega), ha' v hv, hat]
      exact fraction32_mono tp (count_mono im huv))
    (by
      intro u v huv hv
      rw [hb' u (by omega), hb' v hv, hbt]
      exact fraction32_mono ttp (count_mono target huv))
    (fun v hv => (s1 v hv).2)
    (by rw [hbt]; exact fraction32_self ttp)
  have habs : ∀ x : ℚ, |rnd32 x| = rnd32 |x| := by
    intro x
    rcases le_total 0 x with g | g
    · rw [abs_of_nonneg g, abs_of_nonneg (show 0 ≤ rnd32 x from rnd_nonneg g)]
    · have n : rnd32 (-x) = -rnd32 x := rnd_neg x
      have n0 : 0 ≤ rnd32 (-x) := rnd_nonneg (by linarith)
      rw [abs_of_nonpos g, n, abs_of_nonpos (by linarith)]
  refine ⟨{ im with px := fun x y => lut (im.px x y) }, ?_, rfl, rfl, ?_, ?_⟩
  · unfold matchHistogram32 histogramLut32
    rw [ea, eb]
    simp only [Option.bind_some, habs]
    rw [e]
    rfl
  · intro x y hx hy
    have hp := h8 x y hx hy
    obtain ⟨g1, g2⟩ := h1 _ hp
    refine ⟨g1, ?_⟩
    intro v hv
    have := g2 v hv
    dsimp only at this ⊢
    rw [hb' _ g1, hb' v hv, ha' _ hp, hat, hbt] at this
    exact this
  · intro x y x' y' hx hy hx' hy' hle
    exact h2 _ _ hle (h8 x' y' hx' hy')

theorem frac32_unit (im : Image Nat) (hp : 0 < im.w * im.h) (v : Nat) : 0 ≤ frac32 im v ∧ frac32 im v ≤ 1 :=
  ⟨fraction32_nonneg _ _, fraction32_le_one hp (countPx_le im _)⟩

theorem frac32_err (im : Image Nat) (hp : 0 < im.w * im.h) (v : Nat) :
    |frac32 im v - fraction im v| ≤ 1 / 2 ^ 22 := fraction32_error hp (countPx_le im _)

theorem frac32_err' (im : Image Nat) (hp : 0 < im.w * im.h) (h24 : im.w * im.h ≤ 2 ^ 24) (v : Nat) :
    |frac32 im v - fraction im v| ≤ 1 / 2 ^ 25 := by
  have hq : (0 : ℚ) < ((im.w * im.h : Nat) : ℚ) := by exact_mod_cast hp
  unfold frac32 fraction32 fraction
  rw [rnd32_natQ h24, rnd32_natQ ((countPx_le im _).trans h24)]
  refine rnd32_err_unit (by positivity) ((div_le_one hq).2 ?_)
  exact_mod_cast countPx_le im _

/-- From an optimum of rounded distances to a near-optimum. -/
theorem near_of_rounded {t t' v v' s s' ε : ℚ} (ht : |t' - t| ≤ ε) (hv : |v' - v| ≤ ε) (hs : |s' - s| ≤ ε)
    (t1 : 0 ≤ t' ∧ t' ≤ 1) (v1 : 0 ≤ v' ∧ v' ≤ 1) (s1 : 0 ≤ s' ∧ s' ≤ 1)
    (h : rnd32 |t' - s'| ≤ rnd32 |v' - s'|) : |t - s| ≤ |v - s| + (4 * ε + 1 / 2 ^ 24) := by
  have a1 : |t' - s'| ≤ 1 := abs_le.2 ⟨by linarith, by linarith⟩
  have a2 : |v' - s'| ≤ 1 := abs_le.2 ⟨by linarith, by linarith⟩
  have e1 := abs_le.1 (rnd32_err_unit (abs_nonneg (t' - s')) a1)
  have e2 := abs_le.1 (rnd32_err_unit (abs_nonneg (v' - s')) a2)
  have b1 : |t - s| ≤ |t' - s'| + 2 * ε := by
    have k1 := abs_add_le (t' - s') ((t - t') + (s' - s))
    rw [show t' - s' + ((t - t') + (s' - s)) = t - s by ring] at k1
    have k2 := abs_add_le (t - t') (s' - s)
    rw [abs_sub_comm t t'] at k2
    linarith
  have b2 : |v' - s'| ≤ |v - s| + 2 * ε := by
    have k1 := abs_add_le (v - s) ((v' - v) + (s - s'))
    rw [show v - s + ((v' - v) + (s - s')) = v' - s' by ring] at k1
    have k2 := abs_add_le (v' - v) (s - s')
    rw [abs_sub_comm s s'] at k2
    linarith
  generalize |t - s| = T at *
  generalize |v - s| = V at *
  generalize rnd32 |t' - s'| = R at *
  generalize rnd32 |v' - s'| = Q at *
  norm_num at e1 e2 ⊢
  linarith

/-- **C121.** In single precision histogram matching sends every pixel of value `v` to a level whose
cumulative fraction in the target image is as close as possible to the cumulative fraction of `v` in the
source, up to `2 ^ -19`, and up to `2 ^ -22` for images of at most `2 ^ 24` pixels; and it preserves the order of
pixels. -/
theorem C121_match_histogram (im target : Image Nat) (h8 : Is8 im) (h8t : Is8 target)
    (hw : 0 < im.w) (hh : 0 < im.h) (htw : 0 < target.w) (hth : 0 < target.h) :
    ∃ out, matchHistogram32 im target = some out ∧ out.w = im.w ∧ out.h = im.h ∧
      (∀ x y, x < im.w → y < im.h → out.px x y < 256 ∧ ∀ v, v < 256 →
        |fraction target (out.px x y) - fraction im (im.px x y)| ≤
          |fraction target v - fraction im (im.px x y)| + 1 / 2 ^ 19 ∧
        (im.w * im.h ≤ 2 ^ 24 → target.w * target.h ≤ 2 ^ 24 →
          |fraction target (out.px x y) - fraction im (im.px x y)| <
          |fraction target v - fraction im (im.px x y)| + 1 / 2 ^ 22)) ∧
      ∀ x y x' y', x < im.w → y < im.h → x' < im.w → y' < im.h → im.px x y ≤ im.px x' y' →
        out.px x y ≤ out.px x' y' := by
  have hp : 0 < im.w * im.h := Nat.mul_pos hw hh
  have ht : 0 < target.w * target.h := Nat.mul_pos htw hth
  obtain ⟨out, e, w, h, h1, h2⟩ := match32_spec im target h8 h8t hw hh htw hth
  refine ⟨out, e, w, h, ?_, h2⟩
  intro x y hx hy
  obtain ⟨g1, g2⟩ := h1 x y hx hy
  refine ⟨g1, ?_⟩
  intro v hv
  constructor
  · refine le_trans (near_of_rounded (frac32_err target ht _) (frac32_err target ht v)
      (frac32_err im hp _) (frac32_unit target ht _) (frac32_unit target ht _)
      (frac32_unit im hp _) (g2 v hv)) ?_
    rw [add_le_add_iff_left]
    norm_num
  · intro q1 q2
    refine lt_of_le_of_lt (near_of_rounded (frac32_err' target ht q2 _) (frac32_err' target ht q2 v)
      (frac32_err' im hp q1 _) (frac32_unit target ht _) (frac32_unit target ht _)
      (frac32_unit im hp _) (g2 v hv)) ?_
    rw [add_lt_add_iff_left]
    norm_num

/-- A distance of fractions is a multiple of the reciprocal of the product of the sizes. -/
theorem dist_int (im target : Image Nat) (hp : 0 < im.w * im.h) (ht : 0 < target.w * target.h) (u v : Nat) :
    ∃ k : Int, |fraction target u - fraction im v| * ((im.w * im.h * (target.w * target.h) : Nat) : ℚ) = k := by
  have q1 : ((im.w * im.h : Nat) : ℚ) ≠ 0 := by exact_mod_cast hp.ne'
  have q2 : ((target.w * target.h : Nat) : ℚ) ≠ 0 := by exact_mod_cast ht.ne'
  refine ⟨|(countPx target (· ≤ u) : Int) * (im.w * im.h : Nat) -
    (countPx im (· ≤ v) : Int) * (target.w * target.h : Nat)|, ?_⟩
  have e : ((im.w * im.h * (target.w * target.h) : Nat) : ℚ) =
    |((im.w * im.h : Nat) : ℚ) * ((target.w * target.h : Nat) : ℚ)| := by
    rw [abs_of_nonneg (by positivity), Nat.cast_mul (im.w * im.h)]
  rw [e, ← abs_mul, Int.cast_abs]
  congr 1
  unfold fraction
  rw [sub_mul]
  simp only [Int.cast_sub, Int.cast_mul, Int.cast_natCast]
  congr 1
  · field_simp
  · field_simp

/-- **C121.** When the product of the numbers of pixels is at most `2 ^ 22` the level chosen is optimal,
exactly as over exact arithmetic. -/
theorem C121_optimal (im target out : Image Nat) (h8 : Is8 im) (h8t : Is8 target)
    (hw : 0 < im.w) (hh : 0 < im.h) (htw : 0 < target.w) (hth : 0 < target.h)
    (hsmall : im.w * im.h * (target.w * target.h) ≤ 2 ^ 22)
    (e : matchHistogram32 im target = some out) :
    ∀ x y, x < im.w → y < im.h → ∀ v, v < 256 →
      |fraction target (out.px x y) - fraction im (im.px x y)| ≤
      |fraction target v - fraction im (im.px x y)| := by
  have hp : 0 < im.w * im.h := Nat.mul_pos hw hh
  have ht : 0 < target.w * target.h := Nat.mul_pos htw hth
  obtain ⟨out', e', -, -, h1, -⟩ := C121_match_histogram im target h8 h8t hw hh htw hth
  rw [e] at e'
  cases e'
  intro x y hx hy v hv
  have k1 : im.w * im.h ≤ 2 ^ 24 := by nlinarith
  have k2 : target.w * target.h ≤ 2 ^ 24 := by nlinarith
  have key := ((h1 x y hx hy).2 v hv).2 k1 k2
  obtain ⟨a, ha⟩ := dist_int im target hp ht (out.px x y) (im.px x y)
  obtain ⟨b, hb⟩ := dist_int im target hp ht v (im.px x y)
  have hNM : (0 : ℚ) < ((im.w * im.h * (target.w * target.h) : Nat) : ℚ) := by
    exact_mod_cast Nat.mul_pos hp ht
  have hs : ((im.w * im.h * (target.w * target.h) : Nat) : ℚ) ≤ 2 ^ 22 := by exact_mod_cast hsmall
  generalize ((im.w * im.h * (target.w * target.h) : Nat) : ℚ) = M at *
  generalize |fraction target (out.px x y) - fraction im (im.px x y)| = A at *
  generalize |fraction target v - fraction im (im.px x y)| = B at *
  have k3 : (a : ℚ) < b + 1 := by
    rw [← ha, ← hb]
    have := mul_lt_mul_of_pos_right key hNM
    have m : (1 / 2 ^ 22 : ℚ) * M ≤ 1 := by
      norm_num at hs ⊢
      linarith
    linarith
  have k4 : a ≤ b := by
    have : a < b + 1 := by exact_mod_cast k3
    omega
  have k5 : (a : ℚ) ≤ b := by exact_mod_cast k4
  rw [← ha, ← hb] at k5
  exact le_of_mul_le_mul_right k5 hNM

example : (matchHistogram32 (Image.ofRows 0 [[1, 2], [2, 9]]) (Image.ofRows 0 [[7, 7, 30, 200]])).map
    Image.rows = some [[7, 30], [30, 200]] := by decide +kernel

end Verif.Float
