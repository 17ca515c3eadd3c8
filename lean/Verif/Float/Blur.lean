import Verif.Float.F32
import Verif.Edges.Full
import Mathlib.Analysis.Complex.ExponentialBounds
/-
`gaussian_blur_f32` of 8-bit images in single precision, src/filter/mod.rs:126-166 and the 1-d filters
171-431: every `f32` operation is followed by rounding.  `f32::exp` is a parameter `expf` (its result
depends on the platform's mathematics library); `Verif.Float.GoodExp` is the accuracy that the
theorems need, and rounding the exact exponential satisfies it.  `sqrt`, `recip` and `powi(2)` are
correctly rounded; `i as f32` rounds.  The sum of the kernel starts from zero.
-/
namespace Verif.Float
open Verif.Filter hiding clampU8
open Verif.Edges Verif.Gradients
open Real (exp)
open Finset

/-- `f32::consts::PI`, used in filter/mod.rs:129. -/
noncomputable def pi32 : ℝ := 13176795 / 4194304

/-- `gaussian_pdf`, filter/mod.rs:126-130. -/
noncomputable def gaussianPdf32 (expf : ℝ → ℝ) (x sigma : ℝ) : ℝ :=
  rnd32 (rnd32 (1 / rnd32 (sigma * rnd32 √(rnd32 (2 * pi32)))) *
    expf (rnd32 (-rnd32 (x * x) / rnd32 (2 * rnd32 (sigma * sigma)))))

/-- `gaussian_blur_f32` of an 8-bit image, filter/mod.rs:158-166 with `gaussian_kernel_f32`
(135-147); a non-positive `sigma` panics (163). -/
noncomputable def gaussianBlur32 {ι : Type _} (expf : ℝ → ℝ) (im : Image (ι → Nat)) (sigma : ℝ) :
    Option (Image (ι → Nat)) :=
  if 0 < sigma then
    (gaussianKernel (fun i => (⟨gaussianPdf32 expf (rnd32 (i : ℝ)) sigma⟩ : F32 ℝ))
      ⌈rnd32 (2 * sigma)⌉₊).bind fun ker =>
      separableFilter (fun v : Nat => (⟨(v : ℝ)⟩ : F32 ℝ)) (fun a => clampU8 a.val) 0 im ker ker
  else none

/-- An exponential function with single-precision results, accurate to about two units in the last
place. -/
structure GoodExp (expf : ℝ → ℝ) : Prop where
  rep : ∀ a, Rep 24 (-149) (expf a)
  nonneg : ∀ a, 0 ≤ expf a
  err : ∀ a ≤ 0, |expf a - exp a| ≤ exp a / 2 ^ 22 + 1 / 2 ^ 140

/-- The correctly rounded exponential is one. -/
theorem goodExp_rnd : GoodExp fun a => rnd32 (exp a) := by
  refine ⟨fun a => rep_rnd _, fun a => rnd_nonneg (Real.exp_pos a).le, fun a _ => ?_⟩
  have := rnd_error_mixed (p := 24) (emin := -149) (exp a)
  rw [abs_of_pos (Real.exp_pos a)] at this
  refine le_trans this (add_le_add ?_ ?_)
  · rw [div_eq_mul_inv]
    refine mul_le_mul_of_nonneg_left ?_ (Real.exp_pos a).le
    norm_num
  · norm_num

/-! ### The kernel -/

/-- What `gaussian_kernel_f32` returns, without any law of arithmetic. -/
theorem kernel_spec {K : Type _} [Zero K] [Add K] [Div K] (pdf : Nat → K) (radius : Nat) :
    let data := (List.range (2 * radius + 1)).map fun (i : Nat) => pdf ((i : Int) - radius).natAbs
    gaussianKernel pdf radius = some (data.map fun x => x / data.foldl (· + ·) 0) := by
  intro data
  obtain ⟨d, e, hlen, hval⟩ := forRange_spec (lo := 0) (hi := radius + 1)
    (s := List.replicate (2 * radius + 1) (0 : K))
    (f := fun i data =>
      if radius + i < data.length ∧ radius - i < data.length then
        some ((data.set (radius + i) (pdf i)).set (radius - i) (pdf i))
      else none)
    (fun i data => data.length = 2 * radius + 1 ∧
      ∀ (j : Nat) (h : j < data.length), ((j : Int) - radius).natAbs < i →
        data[j] = pdf ((j : Int) - radius).natAbs)
    (Nat.zero_le _) ⟨by simp, by omega⟩
    (by
      rintro i data _ hi ⟨h1, h2⟩
      rw [if_pos (by omega)]
      refine ⟨_, rfl, by simp [h1], ?_⟩
      intro j hj hji
      simp only [List.length_set] at hj
      rw [List.getElem_set]
      by_cases hc : radius - i = j
      · rw [if_pos hc]
        congr 1; omega
      · rw [if_neg hc, List.getElem_set]
        by_cases hc2 : radius + i = j
        · rw [if_pos hc2]; congr 1; omega
        · rw [if_neg hc2]
          exact h2 j hj (by omega))
  have hd : d = data := by
    apply List.ext_getElem
    · simp [hlen, data]
    · intro j hj _
      rw [hval j hj (by omega)]
      simp [data]
  unfold gaussianKernel
  rw [e, hd]
  rfl

/-! ### One pass -/

/-- The accumulated value of a filter pass is the exact weighted sum up to a factor. -/
theorem corr32_bounds {ι : Type _} (im : Image (ι → Nat)) (kw kh : Nat) (wt : Nat → Nat → F32 ℝ)
    (hw : ∀ i j, 0 ≤ (wt i j).val ∧ Rep 24 (-149) (wt i j).val) (hn : kw * kh + 1 ≤ 4096)
    (x y : Nat) (c : ι) :
    let e := corr (fun v : Nat => (v : ℝ)) im kw kh (fun i j => (wt i j).val) x y c
    let a := (corr (fun v : Nat => (⟨(v : ℝ)⟩ : F32 ℝ)) im kw kh wt x y c).val
    0 ≤ e ∧ (1 - 1 / 4000) * e ≤ a ∧ a ≤ (1 + 1 / 4000) * e := by
  intro e a
  have hl : (kpos kw kh).length = kw * kh := by
    unfold kpos
    simp [List.length_flatMap, Nat.mul_comm]
  obtain ⟨-, h0, h1, h2⟩ := fold_mul_bounds (K := ℝ)
    (fun p : Nat × Nat => im.px (clampTo im.w ((x : Int) + p.1 - (kw : Int) / 2))
      (clampTo im.h ((y : Int) + p.2 - (kh : Int) / 2)) c) (fun p => wt p.1 p.2) (kpos kw kh)
    (fun p _ => hw _ _) 0 0 1 (le_refl _) rep_zero (le_refl _) (by simp [F32.val_zero])
    (by simp [F32.val_zero])
  rw [hl] at h1 h2
  obtain ⟨p1, p2⟩ := pow_bounds (K := ℝ) (1 + kw * kh) (by omega)
  have h0' : 0 ≤ e := h0
  exact ⟨h0', le_trans (mul_le_mul_of_nonneg_right p1 h0') h1,
    le_trans h2 (mul_le_mul_of_nonneg_right p2 h0')⟩

/-- A ratio of perturbed sums. -/
theorem ratio_bound {F G X Y : ℝ} (hF : 0 < F) (hX0 : 0 ≤ X) (hX : X ≤ 255 * F)
    (hG : |G - F| ≤ F / 8000) (hY : |Y - X| ≤ 255 * F / 8000) :
    0 < G ∧ |Y / G - X / F| ≤ 1 / 15 := by
  obtain ⟨g1, g2⟩ := abs_le.1 hG
  have hG0 : 0 < G := by linarith
  refine ⟨hG0, ?_⟩
  have e : Y / G - X / F = ((Y - X) * F - X * (G - F)) / (G * F) := by
    field_simp
    ring
  rw [e, abs_div, abs_of_pos (mul_pos hG0 hF), div_le_iff₀ (mul_pos hG0 hF)]
  have a : |(Y - X) * F - X * (G - F)| ≤ 255 * F / 8000 * F + 255 * F * (F / 8000) := by
    refine le_trans (abs_sub _ _) ?_
    rw [abs_mul, abs_mul, abs_of_pos hF, abs_of_nonneg hX0]
    exact add_le_add (mul_le_mul_of_nonneg_right hY hF.le)
      (mul_le_mul hX hG (abs_nonneg _) (by linarith))
  have b : (F - F / 8000) * F ≤ G * F := mul_le_mul_of_nonneg_right (by linarith) hF.le
  nlinarith [mul_pos hF hF]

/-- Two more factors close to one. -/
theorem factor_bound {Q q T acc : ℝ} (hQ : Q ≤ 256)
    (q1 : (1 - 1 / 4000) * q ≤ Q) (q2 : Q ≤ (1 + 1 / 4000) * q)
    (hT : |T - q| ≤ q / 2 ^ 24 + 1 / 2 ^ 100)
    (a1 : (1 - 1 / 4000) * T ≤ acc) (a2 : acc ≤ (1 + 1 / 4000) * T) :
    |acc - Q| ≤ 11 / 60 := by
  obtain ⟨t1, t2⟩ := abs_le.1 hT
  rw [abs_le]
  constructor <;> norm_num at * <;> linarith

/-- One pass of the blur computes the exact mean to within a quarter. -/
theorem pass_bound (n : Nat) (hn : n ≤ 4095) (f g W : Nat → ℝ) (S acc : ℝ) (v : Nat → ℝ)
    (hf : ∀ j, 0 ≤ f j) (hF : 1 ≤ ∑ j ∈ range n, f j) (hg : ∀ j, 0 ≤ g j)
    (hfg : ∀ j, j < n → |g j - f j| ≤ f j / 8192 + 1 / 2 ^ 100)
    (hS1 : (1 - 1 / 4000) * ∑ j ∈ range n, g j ≤ S) (hS2 : S ≤ (1 + 1 / 4000) * ∑ j ∈ range n, g j)
    (hW : ∀ j, j < n → |W j - g j / S| ≤ g j / S / 2 ^ 24 + 1 / 2 ^ 130)
    (hvr : ∀ j, 0 ≤ v j ∧ v j ≤ 255)
    (a1 : (1 - 1 / 4000) * ∑ j ∈ range n, W j * v j ≤ acc)
    (a2 : acc ≤ (1 + 1 / 4000) * ∑ j ∈ range n, W j * v j) :
    |acc - (∑ j ∈ range n, f j * v j) / ∑ j ∈ range n, f j| ≤ 1 / 4 := by
  have hnr : (n : ℝ) ≤ 4095 := by exact_mod_cast hn
  set F := ∑ j ∈ range n, f j
  set G := ∑ j ∈ range n, g j
  set X := ∑ j ∈ range n, f j * v j
  set Y := ∑ j ∈ range n, g j * v j
  have hX0 : 0 ≤ X := sum_nonneg fun j _ => mul_nonneg (hf j) (hvr j).1
  have hY0 : 0 ≤ Y := sum_nonneg fun j _ => mul_nonneg (hg j) (hvr j).1
  have hX : X ≤ 255 * F := by
    rw [mul_sum]
    exact sum_le_sum fun j _ => by rw [mul_comm]; exact mul_le_mul_of_nonneg_right (hvr j).2 (hf j)
  have hG : |G - F| ≤ F / 8000 := by
    have : |G - F| ≤ ∑ j ∈ range n, (f j / 8192 + 1 / 2 ^ 100) := by
      rw [← sum_sub_distrib]
      exact le_trans (abs_sum_le_sum_abs _ _) (sum_le_sum fun j hj => hfg j (mem_range.1 hj))
    rw [sum_add_distrib, ← sum_div, sum_const, card_range, nsmul_eq_mul] at this
    have : (n : ℝ) * (1 / 2 ^ 100) ≤ 4095 * (1 / 2 ^ 100) :=
      mul_le_mul_of_nonneg_right hnr (by norm_num)
    norm_num at *
    linarith
  have hY : |Y - X| ≤ 255 * F / 8000 := by
    have : |Y - X| ≤ ∑ j ∈ range n, (f j / 8192 + 1 / 2 ^ 100) * 255 := by
      rw [← sum_sub_distrib]
      refine le_trans (abs_sum_le_sum_abs _ _) (sum_le_sum fun j hj => ?_)
      rw [← sub_mul, abs_mul, abs_of_nonneg (hvr j).1]
      exact mul_le_mul (hfg j (mem_range.1 hj)) (hvr j).2 (hvr j).1
        (add_nonneg (div_nonneg (hf j) (by norm_num)) (by norm_num))
    rw [← sum_mul, sum_add_distrib, ← sum_div, sum_const, card_range, nsmul_eq_mul] at this
    have : (n : ℝ) * (1 / 2 ^ 100) ≤ 4095 * (1 / 2 ^ 100) :=
      mul_le_mul_of_nonneg_right hnr (by norm_num)
    norm_num at *
    linarith
  obtain ⟨hG0, hr⟩ := ratio_bound (by linarith) hX0 hX hG hY
  have hS0 : 0 < S := lt_of_lt_of_le (by positivity) hS1
  have hXF : X / F ≤ 255 := by rw [div_le_iff₀ (by linarith)]; exact hX
  have hXF0 : 0 ≤ X / F := div_nonneg hX0 (by linarith)
  obtain ⟨r1, r2⟩ := abs_le.1 hr
  have hT : |∑ j ∈ range n, W j * v j - Y / S| ≤ Y / S / 2 ^ 24 + 1 / 2 ^ 100 := by
    have e : ∑ j ∈ range n, W j * v j - Y / S = ∑ j ∈ range n, (W j - g j / S) * v j := by
      rw [sum_div, ← sum_sub_distrib]
      exact sum_congr rfl fun j _ => by ring
    rw [e]
    have : |∑ j ∈ range n, (W j - g j / S) * v j| ≤
        ∑ j ∈ range n, (g j * v j / S / 2 ^ 24 + 255 / 2 ^ 130) := by
      refine le_trans (abs_sum_le_sum_abs _ _) (sum_le_sum fun j hj => ?_)
      rw [abs_mul, abs_of_nonneg (hvr j).1]
      refine le_trans (mul_le_mul_of_nonneg_right (hW j (mem_range.1 hj)) (hvr j).1) ?_
      rw [add_mul]
      refine add_le_add (le_of_eq (by ring)) ?_
      calc (1 : ℝ) / 2 ^ 130 * v j ≤ 1 / 2 ^ 130 * 255 :=
            mul_le_mul_of_nonneg_left (hvr j).2 (by norm_num)
        _ = 255 / 2 ^ 130 := by ring
    rw [sum_add_distrib, ← sum_div, ← sum_div, sum_const, card_range, nsmul_eq_mul] at this
    have h2 : (n : ℝ) * (255 / 2 ^ 130) ≤ 4095 * (255 / 2 ^ 130) :=
      mul_le_mul_of_nonneg_right hnr (by norm_num)
    have h3 : (4095 : ℝ) * (255 / 2 ^ 130) ≤ 1 / 2 ^ 100 := by norm_num
    linarith
  have q1 : (1 - 1 / 4000) * (Y / S) ≤ Y / G := by
    rw [mul_div_assoc', div_le_div_iff₀ hS0 hG0]
    nlinarith
  have q2 : Y / G ≤ (1 + 1 / 4000) * (Y / S) := by
    rw [mul_div_assoc', div_le_div_iff₀ hG0 hS0]
    nlinarith
  have fb := factor_bound (by linarith) q1 q2 hT a1 a2
  have tri := abs_sub_le acc (Y / G) (X / F)
  linarith

/-! ### The samples of the Gaussian -/

/-- Relative error of a number that is not too small. -/
theorem rnd_two_sided {x : ℝ} (hx : 1 / 2 ^ 120 ≤ x) :
    (1 - 1 / 2 ^ 24) * x ≤ rnd32 x ∧ rnd32 x ≤ (1 + 1 / 2 ^ 24) * x := by
  have h0 : (0 : ℝ) < x := lt_of_lt_of_le (by norm_num) hx
  have h : |rnd32 x - x| ≤ |x| * 2 ^ (-(24 : Nat) : Int) := by
    refine rnd_error_rel ?_
    rw [abs_of_pos h0]
    refine le_trans ?_ hx
    norm_num
  have e : (2 : ℝ) ^ (-(24 : Nat) : Int) = 1 / 2 ^ 24 := by norm_num
  rw [e] at h
  exact two_sided h0.le h

theorem rep_pow (k : Int) (h : -149 ≤ k) : Rep 24 (-149) ((2 : ℝ) ^ k) :=
  ⟨1, k, by norm_num, h, by norm_num⟩

theorem rep_nat (n : Nat) (h : n ≤ 2 ^ 24) : Rep 24 (-149) (n : ℝ) :=
  ⟨n, 0, by rw [abs_of_nonneg (by positivity)]; exact_mod_cast h, by norm_num, by push_cast; ring⟩

theorem rep_double {x : ℝ} (h : Rep 24 (-149) x) : Rep 24 (-149) (2 * x) := by
  obtain ⟨m, k, h1, h2, rfl⟩ := h
  exact ⟨m, k + 1, h1, by omega, by rw [zpow_add₀ (by norm_num)]; ring⟩

/-- The factor in front of the exponential is not too small. -/
theorem front_pos {sigma : ℝ} (h1 : 1 / 2 ^ 50 ≤ sigma) (h2 : sigma ≤ 1000) :
    1 / 2 ^ 12 ≤ rnd32 (1 / rnd32 (sigma * rnd32 √(rnd32 (2 * pi32)))) := by
  have hp : (1 : ℕ) ≤ 24 := by norm_num
  have hs : rnd32 √(rnd32 (2 * pi32)) ≤ 3 ∧ 2 ≤ rnd32 √(rnd32 (2 * pi32)) := by
    have a : rnd32 (2 * pi32) ≤ ((9 : Nat) : ℝ) := rnd_le hp (rep_nat 9 (by norm_num)) (by
      unfold pi32; norm_num)
    have b : ((4 : Nat) : ℝ) ≤ rnd32 (2 * pi32) := le_rnd hp (rep_nat 4 (by norm_num)) (by
      unfold pi32; norm_num)
    constructor
    · have := rnd_le (p := 24) (emin := -149) hp (rep_nat 3 (by norm_num)) (show √(rnd32 (2 * pi32)) ≤ ((3 : Nat) : ℝ) by
        rw [Real.sqrt_le_left (by norm_num)]
        refine le_trans a ?_
        norm_num)
      simpa using this
    · have := le_rnd (p := 24) (emin := -149) hp (rep_nat 2 (by norm_num)) (show ((2 : Nat) : ℝ) ≤ √(rnd32 (2 * pi32)) by
        refine Real.le_sqrt_of_sq_le (le_trans ?_ b)
        norm_num)
      simpa using this
  set c := rnd32 √(rnd32 (2 * pi32))
  have hs0 : 0 < sigma := lt_of_lt_of_le (by norm_num) h1
  have t1 : rnd32 (sigma * c) ≤ ((4096 : Nat) : ℝ) := rnd_le hp (rep_nat 4096 (by norm_num)) (by
    push_cast; nlinarith [hs.1])
  have t2 : (2 : ℝ) ^ (-50 : Int) ≤ rnd32 (sigma * c) := le_rnd hp (rep_pow _ (by norm_num)) (by
    have : (2 : ℝ) ^ (-50 : Int) = 1 / 2 ^ 50 := by norm_num
    rw [this]
    nlinarith [hs.2])
  have t0 : 0 < rnd32 (sigma * c) := lt_of_lt_of_le (by positivity) t2
  have e12 : (2 : ℝ) ^ (-12 : Int) = 1 / 2 ^ 12 := by norm_num
  rw [← e12]
  refine le_rnd hp (rep_pow _ (by norm_num)) ?_
  rw [e12]
  rw [div_le_div_iff₀ (by norm_num) t0]
  push_cast at t1
  linarith

/-- The argument of the exponential. -/
theorem arg_bound {sigma : ℝ} (h1 : 1 / 2 ^ 50 ≤ sigma) (h2 : sigma ≤ 1000) (d : Nat) (hd : d ≤ 4096) :
    abs (rnd32 (-rnd32 (rnd32 (d : ℝ) * rnd32 (d : ℝ)) / rnd32 (2 * rnd32 (sigma * sigma))) -
      -(d : ℝ) ^ 2 / (2 * sigma ^ 2)) ≤ (d : ℝ) ^ 2 / (2 * sigma ^ 2) / 2 ^ 22 ∧
    rnd32 (-rnd32 (rnd32 (d : ℝ) * rnd32 (d : ℝ)) / rnd32 (2 * rnd32 (sigma * sigma))) ≤ 0 := by
  have hp : (1 : ℕ) ≤ 24 := by norm_num
  have hs0 : 0 < sigma := lt_of_lt_of_le (by norm_num) h1
  have e1 : rnd32 (d : ℝ) = d := rnd_of_rep hp (rep_nat d (by omega))
  have e2 : rnd32 ((d : ℝ) * d) = d * d := by
    have := rnd_of_rep (p := 24) (emin := -149) hp (rep_nat (d * d) (by nlinarith))
    push_cast at this
    exact this
  have e3 : rnd32 (2 * rnd32 (sigma * sigma)) = 2 * rnd32 (sigma * sigma) :=
    rnd_of_rep hp (rep_double (rep_rnd _))
  rw [e1, e2, e3, neg_div]
  have neg : rnd32 (-((d : ℝ) * d / (2 * rnd32 (sigma * sigma)))) =
      -rnd32 ((d : ℝ) * d / (2 * rnd32 (sigma * sigma))) := rnd_neg _
  rw [neg]
  have ss : 1 / 2 ^ 100 ≤ sigma * sigma := by
    calc (1 : ℝ) / 2 ^ 100 = 1 / 2 ^ 50 * (1 / 2 ^ 50) := by norm_num
      _ ≤ _ := mul_le_mul h1 h1 (by norm_num) hs0.le
  obtain ⟨s1, s2⟩ := rnd_two_sided (le_trans (by norm_num) ss)
  set t := rnd32 (sigma * sigma)
  have ssp : 0 < sigma * sigma := mul_pos hs0 hs0
  have t0 : 0 < t := lt_of_lt_of_le (by positivity) s1
  rcases Nat.eq_zero_or_pos d with rfl | hd0
  · have z : rnd32 (((0 : Nat) : ℝ) * ((0 : Nat) : ℝ) / (2 * t)) = 0 := by
      rw [Nat.cast_zero, zero_mul, zero_div]
      exact rnd_zero
    rw [z]
    norm_num
  have hdr : (1 : ℝ) ≤ d := by exact_mod_cast hd0
  have dd : (1 : ℝ) ≤ d * d := by nlinarith
  have tt : t ≤ 2 ^ 20 := by
    have : sigma * sigma ≤ 1000 * 1000 := mul_le_mul h2 h2 hs0.le (by norm_num)
    norm_num at *
    linarith
  have qlow : 1 / 2 ^ 120 ≤ (d : ℝ) * d / (2 * t) := by
    rw [div_le_div_iff₀ (by norm_num) (by linarith)]
    norm_num at *
    nlinarith
  obtain ⟨q1, q2⟩ := rnd_two_sided qlow
  set q := rnd32 ((d : ℝ) * d / (2 * t))
  have q0 : 0 ≤ q := rnd_nonneg (by positivity)
  refine ⟨?_, by linarith⟩
  have eA : -(d : ℝ) ^ 2 / (2 * sigma ^ 2) = -((d : ℝ) ^ 2 / (2 * sigma ^ 2)) := by ring
  rw [eA]
  have hA : (d : ℝ) ^ 2 / (2 * sigma ^ 2) = d * d / (2 * (sigma * sigma)) := by ring
  rw [hA]
  set A := (d : ℝ) * d / (2 * (sigma * sigma)) with hAdef
  have A0 : 0 < A := by positivity
  have hB : (d : ℝ) * d / (2 * t) * t = A * (sigma * sigma) := by
    rw [hAdef]; field_simp
  set B := (d : ℝ) * d / (2 * t) with hBdef
  have B0 : 0 < B := by positivity
  have b1 : B * (1 - 1 / 2 ^ 24) ≤ A := by
    have : B * ((1 - 1 / 2 ^ 24) * (sigma * sigma)) ≤ A * (sigma * sigma) := by
      rw [← hB]; exact mul_le_mul_of_nonneg_left s1 B0.le
    rw [← mul_assoc] at this
    exact le_of_mul_le_mul_right this ssp
  have b2 : A ≤ B * (1 + 1 / 2 ^ 24) := by
    have : A * (sigma * sigma) ≤ B * ((1 + 1 / 2 ^ 24) * (sigma * sigma)) := by
      rw [← hB]; exact mul_le_mul_of_nonneg_left s2 B0.le
    rw [← mul_assoc B] at this
    exact le_of_mul_le_mul_right this ssp
  clear_value A B t q
  rw [abs_le]
  clear hB hA eA hAdef hBdef s1 s2 ss tt qlow neg e1 e2 e3
  constructor <;> norm_num at * <;> linarith

/-- A sample of the Gaussian, relative to the factor in front. -/
theorem sample_bound {expf : ℝ → ℝ} (he : GoodExp expf) {sigma : ℝ} (h1 : 1 / 2 ^ 50 ≤ sigma)
    (h2 : sigma ≤ 1000) (d : Nat) (hd : d ≤ 4096) :
    let r := rnd32 (1 / rnd32 (sigma * rnd32 √(rnd32 (2 * pi32))))
    |gaussianPdf32 expf (rnd32 (d : ℝ)) sigma / r - exp (-(d : ℝ) ^ 2 / (2 * sigma ^ 2))| ≤
      exp (-(d : ℝ) ^ 2 / (2 * sigma ^ 2)) / 8192 + 1 / 2 ^ 100 := by
  intro r
  have hr : 1 / 2 ^ 12 ≤ r := front_pos h1 h2
  have hr0 : 0 < r := lt_of_lt_of_le (by norm_num) hr
  obtain ⟨ab, aneg⟩ := arg_bound h1 h2 d hd
  unfold gaussianPdf32
  set a := rnd32 (-rnd32 (rnd32 (d : ℝ) * rnd32 (d : ℝ)) / rnd32 (2 * rnd32 (sigma * sigma)))
  rw [neg_div] at *
  set A := (d : ℝ) ^ 2 / (2 * sigma ^ 2)
  have hA0 : 0 ≤ A := by positivity
  have err := he.err a aneg
  have en := he.nonneg a
  have big : ∀ b : ℝ, b ≤ -120 → exp b ≤ 1 / 2 ^ 120 := by
    intro b hb
    refine le_trans (Real.exp_le_exp.2 hb) ?_
    have : (2 : ℝ) ≤ exp 1 := by linarith [Real.add_one_le_exp (1 : ℝ)]
    have h3 : (2 : ℝ) ^ 120 ≤ exp 120 := by
      calc (2 : ℝ) ^ 120 ≤ exp 1 ^ 120 := pow_le_pow_left₀ (by norm_num) this _
        _ = exp 120 := by rw [← Real.exp_nat_mul]; norm_num
    rw [Real.exp_neg, ← one_div]
    exact one_div_le_one_div_of_le (by norm_num) h3
  have main : |exp a - exp (-A)| ≤ exp (-A) / 16384 + 1 / 2 ^ 118 := by
    rcases le_or_gt A 128 with hA | hA
    · have hd1 : |a - -A| ≤ 1 / 32768 := by
        refine le_trans ab ?_
        norm_num
        linarith
      have := Real.abs_exp_sub_one_le (x := a - -A) (le_trans hd1 (by norm_num))
      have e : exp a - exp (-A) = exp (-A) * (exp (a - -A) - 1) := by
        rw [mul_sub, ← Real.exp_add, mul_one]
        congr 2
        ring
      rw [e, abs_mul, abs_of_pos (Real.exp_pos _)]
      have := mul_le_mul_of_nonneg_left (le_trans this (mul_le_mul_of_nonneg_left hd1 (by norm_num)))
        (Real.exp_pos (-A)).le
      norm_num at *
      linarith
    · have e1 := big (-A) (by linarith)
      have e2 := big a (by
        have := (abs_le.1 ab).2
        norm_num at this
        linarith)
      have p1 := Real.exp_pos (-A)
      have p2 := Real.exp_pos a
      rw [abs_le]
      constructor <;> norm_num at * <;> linarith
  set E := expf a
  set x := exp (-A)
  have x0 : 0 < x := Real.exp_pos _
  have g1 : |rnd32 (r * E) - r * E| ≤ |r * E| * 2 ^ (-(24 : Nat) : Int) + 2 ^ (-149 - 1 : Int) :=
    rnd_error_mixed _
  rw [abs_of_nonneg (mul_nonneg hr0.le en)] at g1
  have e24 : (2 : ℝ) ^ (-(24 : Nat) : Int) = 1 / 2 ^ 24 := by norm_num
  have e150 : (2 : ℝ) ^ (-149 - 1 : Int) ≤ r * (1 / 2 ^ 130) := by
    have : (2 : ℝ) ^ (-149 - 1 : Int) ≤ 1 / 2 ^ 12 * (1 / 2 ^ 130) := by norm_num
    exact le_trans this (mul_le_mul_of_nonneg_right hr (by norm_num))
  rw [e24] at g1
  have g2 : |rnd32 (r * E) / r - E| ≤ E / 2 ^ 24 + 1 / 2 ^ 130 := by
    have e : rnd32 (r * E) / r - E = (rnd32 (r * E) - r * E) / r := by field_simp
    rw [e, abs_div, abs_of_pos hr0, div_le_iff₀ hr0]
    calc _ ≤ _ := g1
      _ ≤ r * E * (1 / 2 ^ 24) + r * (1 / 2 ^ 130) := by linarith
      _ = _ := by ring
  have t1 := abs_sub_le (rnd32 (r * E) / r) E x
  have t2 := abs_sub_le E (exp a) x
  have m2 := (abs_le.1 main).2
  have m3 := (abs_le.1 (le_trans t2 (add_le_add err main))).2
  refine le_trans t1 ?_
  have pa := Real.exp_pos a
  clear_value E x r
  clear big e150 g1 t1 hA0
  norm_num at *
  linarith

/-! ### The blur -/

/-- Clamping a value close to a mean of 8-bit values only rounds it down. -/
theorem clampU8_eq {v : ℝ} (h : v < 256) : clampU8 v = ⌊v⌋₊ := by
  unfold clampU8
  split_ifs with h1 h2
  · rfl
  · rw [Nat.floor_of_nonpos (by linarith)]
  · symm
    rw [Nat.floor_eq_iff (by linarith)]
    constructor
    · push_cast; linarith
    · push_cast; linarith

/-- The kernel in single precision and what one pass with it computes. -/
theorem kernel32 {expf : ℝ → ℝ} (he : GoodExp expf) {sigma : ℝ} (hrep : Rep 24 (-149) sigma)
    (h1 : 1 / 2 ^ 50 ≤ sigma) (h2 : sigma ≤ 1000) (r : Nat) (hr : r = ⌈2 * sigma⌉₊) :
    let g : Nat → ℝ := fun j => exp (-(j - r : ℝ) ^ 2 / (2 * sigma ^ 2)) /
      ∑ i ∈ range (2 * r + 1), exp (-(i - r : ℝ) ^ 2 / (2 * sigma ^ 2))
    r ≤ 2000 ∧ ∃ ker : List (F32 ℝ),
      gaussianKernel (fun i => (⟨gaussianPdf32 expf (rnd32 (i : ℝ)) sigma⟩ : F32 ℝ))
        ⌈rnd32 (2 * sigma)⌉₊ = some ker ∧ ker.length = 2 * r + 1 ∧
      (∀ j, 0 ≤ (ker.getD j 0).val ∧ Rep 24 (-149) (ker.getD j 0).val) ∧
      ∀ (v : Nat → ℝ) (acc : ℝ), (∀ j, 0 ≤ v j ∧ v j ≤ 255) →
        (1 - 1 / 4000) * ∑ j ∈ range (2 * r + 1), (ker.getD j 0).val * v j ≤ acc →
        acc ≤ (1 + 1 / 4000) * ∑ j ∈ range (2 * r + 1), (ker.getD j 0).val * v j →
        0 ≤ ∑ j ∈ range (2 * r + 1), g j * v j ∧ ∑ j ∈ range (2 * r + 1), g j * v j ≤ 255 ∧
          |acc - ∑ j ∈ range (2 * r + 1), g j * v j| ≤ 1 / 4 := by
  intro g
  have hs0 : 0 < sigma := lt_of_lt_of_le (by norm_num) h1
  have hr2 : r ≤ 2000 := by
    rw [hr, Nat.ceil_le]
    push_cast
    linarith
  refine ⟨hr2, ?_⟩
  have hrad : ⌈rnd32 (2 * sigma)⌉₊ = r := by
    have e : rnd32 (2 * sigma) = 2 * sigma := rnd_of_rep (by norm_num) (rep_double hrep)
    rw [e, hr]
  rw [hrad]
  set pdf : Nat → F32 ℝ := fun i => ⟨gaussianPdf32 expf (rnd32 (i : ℝ)) sigma⟩ with hpdf
  have hk := kernel_spec pdf r
  dsimp only at hk
  set data := (List.range (2 * r + 1)).map fun (i : Nat) => pdf ((i : Int) - r).natAbs with hdata
  set S := data.foldl (· + ·) 0 with hS
  have hdl : data.length = 2 * r + 1 := by simp [hdata]
  set front := rnd32 (1 / rnd32 (sigma * rnd32 √(rnd32 (2 * pi32)))) with hfront
  have hf12 : 1 / 2 ^ 12 ≤ front := front_pos h1 h2
  have hf0 : 0 < front := lt_of_lt_of_le (by norm_num) hf12
  have pnn : ∀ i, 0 ≤ (pdf i).val := fun i => rnd_nonneg (mul_nonneg hf0.le (he.nonneg _))
  have prep : ∀ i, Rep 24 (-149) (pdf i).val := fun i => rep_rnd _
  -- the sum of the samples
  obtain ⟨-, hs1, hs2, hs3⟩ := fold_add_bounds (K := ℝ) data
    (by
      intro b hb
      rw [hdata, List.mem_map] at hb
      obtain ⟨i, -, rfl⟩ := hb
      exact ⟨pnn _, prep _⟩) 0 0 0 rep_zero (le_refl _) (by simp [F32.val_zero])
    (by simp [F32.val_zero])
  set gs : Nat → ℝ := fun j => (pdf ((j : Int) - r).natAbs).val with hgs
  have hsum : data.foldl (fun e b => e + b.val) 0 = ∑ j ∈ range (2 * r + 1), gs j := by
    rw [hdata, List.foldl_map, fold_add, zero_add]
  rw [hsum] at hs1 hs2 hs3
  rw [Nat.zero_add, hdl, ← hS] at hs2 hs3
  obtain ⟨p1, p2⟩ := pow_bounds (K := ℝ) (2 * r + 1) (by omega)
  have S1 := le_trans (mul_le_mul_of_nonneg_right p1 hs1) hs2
  have S2 := le_trans hs3 (mul_le_mul_of_nonneg_right p2 hs1)
  refine ⟨_, hk, by simp [hdl], ?_, ?_⟩
  · intro j
    rw [List.getD_eq_getElem?_getD, List.getElem?_map]
    by_cases hj : j < data.length
    · rw [List.getElem?_eq_getElem hj, Option.map_some, Option.getD_some]
      have hd : data[j] = pdf ((j : Int) - r).natAbs := by simp [hdata]
      rw [hd]
      refine ⟨rnd_nonneg (div_nonneg (pnn _) ?_), rep_rnd _⟩
      exact le_trans (mul_nonneg (by norm_num) hs1) S1
    · rw [List.getElem?_eq_none (by omega), Option.map_none, Option.getD_none]
      exact ⟨le_refl _, rep_zero⟩
  · intro v acc hv a1 a2
    set f : Nat → ℝ := fun j => exp (-(j - r : ℝ) ^ 2 / (2 * sigma ^ 2)) with hf
    have fnn : ∀ j, 0 ≤ f j := fun j => (Real.exp_pos _).le
    have F1 : 1 ≤ ∑ j ∈ range (2 * r + 1), f j := by
      have : f r ≤ ∑ j ∈ range (2 * r + 1), f j :=
        single_le_sum (f := f) (fun j _ => fnn j) (mem_range.2 (by omega))
      have e : f r = 1 := by simp [hf]
      linarith
    have hW : ∀ j, j < 2 * r + 1 → ((data.map fun x => x / S).getD j 0).val =
        rnd32 (gs j / S.val) := by
      intro j hj
      rw [List.getD_eq_getElem?_getD, List.getElem?_map, List.getElem?_eq_getElem (by omega),
        Option.map_some, Option.getD_some]
      have hd : data[j]'(by omega) = pdf ((j : Int) - r).natAbs := by simp [hdata]
      rw [hd]
      rfl
    have pb := pass_bound (2 * r + 1) (by omega) f (fun j => gs j / front)
      (fun j => ((data.map fun x => x / S).getD j 0).val) (S.val / front) acc v fnn F1
      (fun j => div_nonneg (pnn _) hf0.le)
      (by
        intro j hj
        have sb := sample_bound he h1 h2 ((j : Int) - r).natAbs (by omega)
        have e : ((((j : Int) - r).natAbs : Nat) : ℝ) ^ 2 = (j - r : ℝ) ^ 2 := by
          rw [Nat.cast_natAbs]
          push_cast
          rw [sq_abs]
        rw [e] at sb
        exact sb)
      (by rw [← sum_div, mul_div_assoc', div_le_div_iff_of_pos_right hf0]; exact S1)
      (by rw [← sum_div, mul_div_assoc', div_le_div_iff_of_pos_right hf0]; exact S2)
      (by
        intro j hj
        rw [hW j hj, div_div_div_cancel_right₀ hf0.ne']
        have hq : 0 ≤ gs j / S.val :=
          div_nonneg (pnn _) (le_trans (mul_nonneg (by norm_num) hs1) S1)
        have := rnd_error_mixed (p := 24) (emin := -149) (gs j / S.val)
        rw [abs_of_nonneg hq] at this
        refine le_trans this (add_le_add (le_of_eq ?_) ?_)
        · norm_num; ring
        · norm_num) hv a1 a2
    have hg : ∑ j ∈ range (2 * r + 1), g j * v j =
        (∑ j ∈ range (2 * r + 1), f j * v j) / ∑ j ∈ range (2 * r + 1), f j := by
      rw [sum_div]
      exact sum_congr rfl fun j _ => by simp only [g, hf]; ring
    rw [hg]
    refine ⟨div_nonneg (sum_nonneg fun j _ => mul_nonneg (fnn j) (hv j).1) (by linarith), ?_, pb⟩
    rw [div_le_iff₀ (by linarith), mul_sum]
    refine sum_le_sum fun j _ => ?_
    rw [mul_comm]
    exact mul_le_mul_of_nonneg_right (hv j).2 (fnn j)

/-- What one pass with the kernel makes of 8-bit values. -/
theorem pass32 {expf : ℝ → ℝ} (he : GoodExp expf) {sigma : ℝ} (hrep : Rep 24 (-149) sigma)
    (h1 : 1 / 2 ^ 50 ≤ sigma) (h2 : sigma ≤ 1000) (r : Nat) (hr : r = ⌈2 * sigma⌉₊) :
    let g : Nat → ℝ := fun j => exp (-(j - r : ℝ) ^ 2 / (2 * sigma ^ 2)) /
      ∑ i ∈ range (2 * r + 1), exp (-(i - r : ℝ) ^ 2 / (2 * sigma ^ 2))
    r ≤ 2000 ∧ ∃ ker : List (F32 ℝ),
      gaussianKernel (fun i => (⟨gaussianPdf32 expf (rnd32 (i : ℝ)) sigma⟩ : F32 ℝ))
        ⌈rnd32 (2 * sigma)⌉₊ = some ker ∧ ker.length = 2 * r + 1 ∧
      (∀ j, 0 ≤ (ker.getD j 0).val ∧ Rep 24 (-149) (ker.getD j 0).val) ∧
      ∀ (v : Nat → Nat) (acc : ℝ), (∀ j, v j ≤ 255) →
        (1 - 1 / 4000) * ∑ j ∈ range (2 * r + 1), (ker.getD j 0).val * v j ≤ acc →
        acc ≤ (1 + 1 / 4000) * ∑ j ∈ range (2 * r + 1), (ker.getD j 0).val * v j →
        ∃ d, |d| ≤ 1 / 4 ∧ clampU8 acc = ⌊∑ j ∈ range (2 * r + 1), g j * v j + d⌋₊ := by
  intro g
  obtain ⟨hr2, ker, k1, k2, k3, k4⟩ := kernel32 he hrep h1 h2 r hr
  refine ⟨hr2, ker, k1, k2, k3, fun v acc hv a1 a2 => ?_⟩
  obtain ⟨-, m2, m3⟩ := k4 (fun j => (v j : ℝ)) acc
    (fun j => ⟨by positivity, by exact_mod_cast hv j⟩) a1 a2
  refine ⟨acc - ∑ j ∈ range (2 * r + 1), g j * v j, m3, ?_⟩
  rw [add_sub_cancel]
  exact clampU8_eq (by linarith [(abs_le.1 m3).2])

/-- **C119.** `gaussian_blur_f32` in single precision: both passes compute, at every pixel, the mean
with the exact Gaussian weights (those of `C88_gaussian_weights`) up to an error of at most a quarter,
rounded down. -/
theorem C119_accuracy {ι : Type _} {expf : ℝ → ℝ} (he : GoodExp expf) (im : Image (ι → Nat))
    (hu : IsU8 im) (sigma : ℝ) (hrep : Rep 24 (-149) sigma) (h1 : 1 / 2 ^ 50 ≤ sigma)
    (h2 : sigma ≤ 1000) (r : Nat) (hr : r = ⌈2 * sigma⌉₊) :
    let g : Nat → ℝ := fun j => exp (-(j - r : ℝ) ^ 2 / (2 * sigma ^ 2)) /
      ∑ i ∈ range (2 * r + 1), exp (-(i - r : ℝ) ^ 2 / (2 * sigma ^ 2))
    ∃ mid out : Image (ι → Nat), gaussianBlur32 expf im sigma = some out ∧
      mid.w = im.w ∧ mid.h = im.h ∧ out.w = im.w ∧ out.h = im.h ∧
      ∀ x y c, x < im.w → y < im.h →
        (∃ d, |d| ≤ 1 / 4 ∧ mid.px x y c = ⌊∑ j ∈ range (2 * r + 1),
          g j * im.px (clampTo im.w ((x : Int) + j - r)) y c + d⌋₊) ∧
        ∃ d, |d| ≤ 1 / 4 ∧ out.px x y c = ⌊∑ j ∈ range (2 * r + 1),
          g j * mid.px x (clampTo im.h ((y : Int) + j - r)) c + d⌋₊ := by
  intro g
  have hs0 : 0 < sigma := lt_of_lt_of_le (by norm_num) h1
  obtain ⟨hr2, ker, k1, k2, k3, k4⟩ := pass32 he hrep h1 h2 r hr
  obtain ⟨out, e, o1, o2, o3⟩ := separable_spec (fun v : Nat => (⟨(v : ℝ)⟩ : F32 ℝ))
    (fun a => clampU8 a.val) 0 im ker ker rfl hu.1 hu.2.1
  have hlen2 : (ker.length : Int) / 2 = r := by omega
  refine ⟨⟨im.w, im.h, fun x y c => clampU8 (corr (fun v : Nat => (⟨(v : ℝ)⟩ : F32 ℝ)) im ker.length 1
    (weights ker ker.length) x y c).val⟩, out, by unfold gaussianBlur32; rw [if_pos hs0, k1, Option.bind_some, e],
    rfl, rfl, o1, o2, fun x y c hx hy => ⟨?_, ?_⟩⟩
  · dsimp only
    obtain ⟨-, c1, c2⟩ := corr32_bounds im ker.length 1 (weights ker ker.length)
      (fun i j => k3 _) (by omega) x y c
    rw [corr_eq_sum, Finset.sum_range_one] at c1 c2
    simp only [weights, Nat.zero_mul, Nat.zero_add, hlen2] at c1 c2
    have hy0 : clampTo im.h ((y : Int) + ((0 : Nat) : Int) - ((1 : Nat) : Int) / 2) = y := by
      rw [show ((y : Int) + ((0 : Nat) : Int) - ((1 : Nat) : Int) / 2) = y by omega, clampTo_of_mem hy]
    rw [hy0, k2] at c1 c2
    rw [k2]
    exact k4 (fun j => im.px (clampTo im.w ((x : Int) + j - r)) y c) _
      (fun j => hu.2.2 _ _ _ (clampTo_lt (by omega) _) hy) c1 c2
  · rw [o3 x y hx hy]
    set mid : Image (ι → Nat) := ⟨im.w, im.h, fun x y c => clampU8 (corr (fun v : Nat =>
      (⟨(v : ℝ)⟩ : F32 ℝ)) im ker.length 1 (weights ker ker.length) x y c).val⟩ with hmid
    obtain ⟨-, c1, c2⟩ := corr32_bounds mid 1 ker.length (weights ker 1) (fun i j => k3 _)
      (by omega) x y c
    rw [corr_eq_sum] at c1 c2
    simp only [Finset.sum_range_one, weights, Nat.mul_one, Nat.add_zero, hlen2] at c1 c2
    have hx0 : clampTo mid.w ((x : Int) + ((0 : Nat) : Int) - ((1 : Nat) : Int) / 2) = x := by
      rw [show ((x : Int) + ((0 : Nat) : Int) - ((1 : Nat) : Int) / 2) = x by omega, clampTo_of_mem hx]
    rw [hx0, k2] at c1 c2
    rw [k2]
    exact k4 (fun j => mid.px x (clampTo im.h ((y : Int) + j - r)) c) _
      (fun j => clampU8_bounds.2.2 _) c1 c2

/-- **C119.** The result is never brighter than the brightest input value, and at most two levels
darker than the darkest one (one for each pass). -/
theorem C119_range_partial {ι : Type _} {expf : ℝ → ℝ} (he : GoodExp expf) (im : Image (ι → Nat))
    (hu : IsU8 im) (sigma : ℝ) (hrep : Rep 24 (-149) sigma) (h1 : 1 / 2 ^ 50 ≤ sigma)
    (h2 : sigma ≤ 1000) :
    ∃ out, gaussianBlur32 expf im sigma = some out ∧ out.w = im.w ∧ out.h = im.h ∧ IsU8 out ∧
      ∀ c a b, (∀ x y, x < im.w → y < im.h → a ≤ im.px x y c ∧ im.px x y c ≤ b) →
        ∀ x y, x < im.w → y < im.h → a ≤ out.px x y c + 2 ∧ out.px x y c ≤ b := by
  obtain ⟨mid, out, e, m1, m2, o1, o2, o3⟩ := C119_accuracy he im hu sigma hrep h1 h2 _ rfl
  set r := ⌈2 * sigma⌉₊
  set g : Nat → ℝ := fun j => exp (-(j - r : ℝ) ^ 2 / (2 * sigma ^ 2)) /
      ∑ i ∈ range (2 * r + 1), exp (-(i - r : ℝ) ^ 2 / (2 * sigma ^ 2)) with hg
  have F0 : 0 < ∑ i ∈ range (2 * r + 1), exp (-(i - r : ℝ) ^ 2 / (2 * sigma ^ 2)) :=
    sum_pos (fun i _ => Real.exp_pos _) ⟨0, mem_range.2 (by omega)⟩
  have g0 : ∀ j, 0 ≤ g j := fun j => div_nonneg (Real.exp_pos _).le F0.le
  have g1 : ∑ j ∈ range (2 * r + 1), g j = 1 := by
    rw [hg, ← sum_div, div_self F0.ne']
  have step : ∀ (v : Nat → Nat) (a b : Nat) (d : ℝ), |d| ≤ 1 / 4 → (∀ j, a ≤ v j + 1 ∧ v j ≤ b) →
      (a ≤ ⌊∑ j ∈ range (2 * r + 1), g j * v j + d⌋₊ + 2 ∧
        ⌊∑ j ∈ range (2 * r + 1), g j * v j + d⌋₊ ≤ b) ∧
      ((∀ j, a ≤ v j) → a ≤ ⌊∑ j ∈ range (2 * r + 1), g j * v j + d⌋₊ + 1) := by
    intro v a b d hd hv
    obtain ⟨d1, d2⟩ := abs_le.1 hd
    obtain ⟨b1, b2⟩ := mean_bounds (2 * r + 1) g (fun j => (v j : ℝ)) ((a : ℝ) - 1) b g0 g1
      (fun j _ => ⟨by have := (hv j).1; have : (a : ℝ) ≤ v j + 1 := by exact_mod_cast this
                      linarith, by exact_mod_cast (hv j).2⟩)
    have low : ∀ (k : Nat) (t : ℝ), (k : ℝ) - 1 < t → k ≤ ⌊t⌋₊ + 1 := by
      intro k t ht
      have := Nat.lt_floor_add_one t
      have h3 : (k : ℝ) < (⌊t⌋₊ + 2 : Nat) := by push_cast; linarith
      have : k < ⌊t⌋₊ + 2 := by exact_mod_cast h3
      omega
    refine ⟨⟨?_, ?_⟩, ?_⟩
    · rcases Nat.eq_zero_or_pos a with rfl | ha
      · omega
      · have := low (a - 1) (∑ j ∈ range (2 * r + 1), g j * v j + d) (by
          rw [Nat.cast_sub ha]
          push_cast
          linarith)
        omega
    · have : ⌊∑ j ∈ range (2 * r + 1), g j * v j + d⌋₊ < b + 1 := by
        rw [Nat.floor_lt' (by omega)]
        push_cast
        linarith
      omega
    · intro hv'
      obtain ⟨b3, -⟩ := mean_bounds (2 * r + 1) g (fun j => (v j : ℝ)) (a : ℝ) b g0 g1
        (fun j _ => ⟨by exact_mod_cast hv' j, by exact_mod_cast (hv j).2⟩)
      exact low a _ (by linarith)
  have range : ∀ c a b, (∀ x y, x < im.w → y < im.h → a ≤ im.px x y c ∧ im.px x y c ≤ b) →
        ∀ x y, x < im.w → y < im.h → a ≤ out.px x y c + 2 ∧ out.px x y c ≤ b := by
    intro c a b hab x y hx hy
    have mids : ∀ x y, x < im.w → y < im.h → a ≤ mid.px x y c + 1 ∧ mid.px x y c ≤ b := by
      intro x y hx hy
      obtain ⟨⟨d, hd, e⟩, -⟩ := o3 x y c hx hy
      have := step (fun j => im.px (clampTo im.w ((x : Int) + j - r)) y c) a b d hd
        (fun j => ⟨by have := (hab _ y (clampTo_lt (by omega) ((x : Int) + j - r)) hy).1; omega,
          (hab _ y (clampTo_lt (by omega) ((x : Int) + j - r)) hy).2⟩)
      rw [e]
      exact ⟨this.2 (fun j => (hab _ y (clampTo_lt (by omega) ((x : Int) + j - r)) hy).1), this.1.2⟩
    obtain ⟨-, d, hd, e⟩ := o3 x y c hx hy
    rw [e]
    exact (step (fun j => mid.px x (clampTo im.h ((y : Int) + j - r)) c) a b d hd
      (fun j => mids x _ hx (clampTo_lt (by omega) _))).1
  refine ⟨out, e, o1, o2, ⟨by rw [o1]; exact hu.1, by rw [o2]; exact hu.2.1, fun x y c hx hy => ?_⟩,
    range⟩
  rw [o1] at hx
  rw [o2] at hy
  exact (range c 0 255 (fun x y hx hy => ⟨Nat.zero_le _, hu.2.2 x y c hx hy⟩) x y hx hy).2

/-! ### Monotonicity -/

theorem fold_mono {β : Type _} (v v' : β → Nat) (w : β → F32 ℝ) :
    ∀ (l : List β), (∀ b ∈ l, 0 ≤ (w b).val ∧ v b ≤ v' b) → ∀ (a a' : F32 ℝ), a.val ≤ a'.val →
      (l.foldl (fun a b => a + (⟨(v b : ℝ)⟩ : F32 ℝ) * w b) a).val ≤
        (l.foldl (fun a b => a + (⟨(v' b : ℝ)⟩ : F32 ℝ) * w b) a').val := by
  intro l
  induction l with
  | nil => intro _ a a' h; exact h
  | cons b l ih =>
    intro hl a a' h
    obtain ⟨hw, hv⟩ := hl b (by simp)
    refine ih (fun b' hb' => hl b' (by simp [hb'])) _ _ ?_
    refine rnd_mono (by norm_num) (add_le_add h (rnd_mono (by norm_num) ?_))
    exact mul_le_mul_of_nonneg_right (show (v b : ℝ) ≤ (v' b : ℝ) by exact_mod_cast hv) hw

theorem clampU8_mono {a b : ℝ} (h : a ≤ b) : clampU8 a ≤ clampU8 b := by
  unfold clampU8
  split_ifs <;> first | exact Nat.floor_mono h | (exfalso; linarith) | exact Nat.zero_le _ | exact le_refl _ | skip
  · rename_i h1 h2 h3
    have : ⌊a⌋₊ < 256 := by rw [Nat.floor_lt h2.le]; push_cast; linarith
    omega

/-- **C119.** Brightening the input never darkens the output, rounding included. -/
theorem C119_monotone {ι : Type _} {expf : ℝ → ℝ} (he : GoodExp expf) (im im' : Image (ι → Nat))
    (hu : IsU8 im) (hw : im'.w = im.w) (hh : im'.h = im.h) (sigma : ℝ) (hrep : Rep 24 (-149) sigma)
    (h1 : 1 / 2 ^ 50 ≤ sigma) (h2 : sigma ≤ 1000)
    (hle : ∀ x y c, x < im.w → y < im.h → im.px x y c ≤ im'.px x y c) :
    ∃ out out', gaussianBlur32 expf im sigma = some out ∧ gaussianBlur32 expf im' sigma = some out' ∧
      ∀ x y c, x < im.w → y < im.h → out.px x y c ≤ out'.px x y c := by
  have hs0 : 0 < sigma := lt_of_lt_of_le (by norm_num) h1
  obtain ⟨-, ker, k1, -, k3, -⟩ := pass32 he hrep h1 h2 _ rfl
  obtain ⟨out, e, -, -, o3⟩ := separable_spec (fun v : Nat => (⟨(v : ℝ)⟩ : F32 ℝ))
    (fun a => clampU8 a.val) 0 im ker ker rfl hu.1 hu.2.1
  obtain ⟨out', e', -, -, o3'⟩ := separable_spec (fun v : Nat => (⟨(v : ℝ)⟩ : F32 ℝ))
    (fun a => clampU8 a.val) 0 im' ker ker rfl (by rw [hw]; exact hu.1) (by rw [hh]; exact hu.2.1)
  refine ⟨out, out', by unfold gaussianBlur32; rw [if_pos hs0, k1, Option.bind_some, e],
    by unfold gaussianBlur32; rw [if_pos hs0, k1, Option.bind_some, e'], fun x y c hx hy => ?_⟩
  rw [o3 x y hx hy, o3' x y (by omega) (by omega)]
  refine clampU8_mono (fold_mono _ _ _ _ (fun p _ => ⟨(k3 _).1, ?_⟩) _ _ (le_refl _))
  dsimp only
  refine clampU8_mono ?_
  rw [hw, hh]
  unfold corr
  refine fold_mono _ _ _ _ (fun q _ => ⟨(k3 _).1, ?_⟩) _ _ (le_refl _)
  rw [hw, hh]
  exact hle _ _ _ (clampTo_lt (by omega) _) (clampTo_lt (by omega) _)

/-! ### A constant image that becomes darker -/

/-- Computing with rational values. -/
def F32.toReal (a : F32 ℚ) : F32 ℝ := ⟨(a.val : ℝ)⟩

theorem F32.toReal_add (a b : F32 ℚ) : (a + b).toReal = a.toReal + b.toReal := by
  show F32.mk _ = F32.mk _
  congr 1
  show ((rnd32 (a.val + b.val) : ℚ) : ℝ) = rnd 24 (-149) ((a.val : ℝ) + (b.val : ℝ))
  rw [← rnd_cast]; push_cast; rfl

theorem F32.toReal_mul (a b : F32 ℚ) : (a * b).toReal = a.toReal * b.toReal := by
  show F32.mk _ = F32.mk _
  congr 1
  show ((rnd32 (a.val * b.val) : ℚ) : ℝ) = rnd 24 (-149) ((a.val : ℝ) * (b.val : ℝ))
  rw [← rnd_cast]; push_cast; rfl

theorem F32.toReal_div (a b : F32 ℚ) : (a / b).toReal = a.toReal / b.toReal := by
  show F32.mk _ = F32.mk _
  congr 1
  show ((rnd32 (a.val / b.val) : ℚ) : ℝ) = rnd 24 (-149) ((a.val : ℝ) / (b.val : ℝ))
  rw [← rnd_cast]; push_cast; rfl

theorem foldl_toReal (l : List (F32 ℚ)) (a : F32 ℚ) :
    (l.map F32.toReal).foldl (· + ·) a.toReal = (l.foldl (· + ·) a).toReal := by
  induction l generalizing a with
  | nil => rfl
  | cons b l ih => rw [List.map_cons, List.foldl_cons, List.foldl_cons, ← F32.toReal_add, ih]

/-- Samples given by rational numbers give a rational kernel. -/
theorem kernel_toReal (pdf : Nat → F32 ℝ) (q : Nat → F32 ℚ) (r : Nat)
    (h : ∀ i, i ≤ r → pdf i = (q i).toReal) (kq : List (F32 ℚ)) (hk : gaussianKernel q r = some kq) :
    gaussianKernel pdf r = some (kq.map F32.toReal) := by
  rw [kernel_spec] at hk ⊢
  obtain rfl := Option.some.inj hk
  have e : (List.range (2 * r + 1)).map (fun (i : Nat) => pdf ((i : Int) - r).natAbs) =
      ((List.range (2 * r + 1)).map fun (i : Nat) => q ((i : Int) - r).natAbs).map F32.toReal := by
    rw [List.map_map]
    refine List.map_congr_left fun i hi => h _ ?_
    rw [List.mem_range] at hi
    omega
  rw [e]
  have z : (0 : F32 ℝ) = (0 : F32 ℚ).toReal := by
    show F32.mk _ = F32.mk _
    congr 1
    exact (Rat.cast_zero (α := ℝ)).symm
  rw [z, foldl_toReal]
  simp only [List.map_map, Option.some.injEq]
  refine List.map_congr_left fun i _ => ?_
  exact (F32.toReal_div _ _).symm

/-- The samples for `sigma = 1/2`. -/
def halfSamples : Nat → F32 ℚ
  | 0 => ⟨6693141 / 8388608⟩
  | _ => ⟨7246545 / 67108864⟩

theorem sqrt_two_pi32 : rnd32 √(rnd32 (2 * pi32)) = ((10513561 / 4194304 : ℚ) : ℝ) := by
  have e1 : rnd32 (2 * pi32) = 13176795 / 2097152 := by
    have : rnd32 (((13176795 / 2097152 : ℚ) : ℝ)) = ((rnd32 (13176795 / 2097152 : ℚ) : ℚ) : ℝ) := rnd_cast _
    rw [show rnd32 (13176795 / 2097152 : ℚ) = 13176795 / 2097152 by decide +kernel] at this
    push_cast at this
    rw [show 2 * pi32 = 13176795 / 2097152 by unfold pi32; norm_num]
    exact this
  rw [e1]
  have hlo : (10513560.5 / 4194304 : ℝ) < √(13176795 / 2097152) := by
    rw [Real.lt_sqrt (by norm_num)]
    norm_num
  have hhi : √(13176795 / 2097152) < (10513561.5 / 4194304 : ℝ) := by
    rw [Real.sqrt_lt' (by norm_num)]
    norm_num
  have := rnd_eval (p := 24) (emin := -149) (x := √(13176795 / 2097152)) 1 10513561
    (by rw [abs_of_nonneg (Real.sqrt_nonneg _)]; norm_num at *; linarith)
    (by rw [abs_of_nonneg (Real.sqrt_nonneg _)]; norm_num at *; linarith)
    (roundEven_near (by
      norm_num
      rw [abs_lt]
      norm_num at *
      constructor <;> linarith))
  refine this.trans ?_
  norm_num

theorem exp_neg_two : rnd32 (exp (-2)) = ((9082197 / 67108864 : ℚ) : ℝ) := by
  have a := Real.exp_one_gt_d9
  have b := Real.exp_one_lt_d9
  have e : exp (-2) = 1 / (exp 1 * exp 1) := by
    rw [← Real.exp_add, Real.exp_neg, one_div]
    norm_num
  have p := Real.exp_pos 1
  have lo : (9082196.5 / 67108864 : ℝ) < exp (-2) := by
    rw [e, lt_div_iff₀ (mul_pos p p)]
    have : exp 1 * exp 1 < 2.7182818286 * 2.7182818286 := mul_lt_mul b b.le p (by norm_num)
    norm_num at *
    linarith
  have hi : exp (-2) < (9082197.5 / 67108864 : ℝ) := by
    rw [e, div_lt_iff₀ (mul_pos p p)]
    have : 2.7182818283 * 2.7182818283 < exp 1 * exp 1 := mul_lt_mul a a.le (by norm_num) p.le
    norm_num at *
    linarith
  have := rnd_eval (p := 24) (emin := -149) (x := exp (-2)) (-3) 9082197
    (by rw [abs_of_pos (Real.exp_pos _)]; norm_num at *; linarith)
    (by rw [abs_of_pos (Real.exp_pos _)]; norm_num at *; linarith)
    (roundEven_near (by
      norm_num
      rw [abs_lt]
      norm_num at *
      constructor <;> linarith))
  refine this.trans ?_
  norm_num

theorem half_samples (i : Nat) (hi : i ≤ 1) :
    (⟨gaussianPdf32 (fun a => rnd32 (exp a)) (rnd32 (i : ℝ)) (1 / 2)⟩ : F32 ℝ) =
      (halfSamples i).toReal := by
  have c : ∀ q : ℚ, rnd32 (q : ℝ) = ((rnd32 q : ℚ) : ℝ) := fun q => rnd_cast q
  have front : rnd32 (1 / rnd32 ((1 / 2 : ℝ) * rnd32 √(rnd32 (2 * pi32)))) =
      ((6693141 / 8388608 : ℚ) : ℝ) := by
    rw [sqrt_two_pi32, show (1 / 2 : ℝ) * ((10513561 / 4194304 : ℚ) : ℝ) =
      ((1 / 2 * (10513561 / 4194304) : ℚ) : ℝ) by push_cast; ring, c,
      show (1 : ℝ) / ((rnd32 (1 / 2 * (10513561 / 4194304) : ℚ) : ℚ) : ℝ) =
        ((1 / rnd32 (1 / 2 * (10513561 / 4194304) : ℚ) : ℚ) : ℝ) by push_cast; rfl, c]
    congr 1
    decide +kernel
  have den : rnd32 (2 * rnd32 ((1 / 2 : ℝ) * (1 / 2))) = ((1 / 2 : ℚ) : ℝ) := by
    rw [show (1 / 2 : ℝ) * (1 / 2) = ((1 / 4 : ℚ) : ℝ) by norm_num, c,
      show (2 : ℝ) * ((rnd32 (1 / 4 : ℚ) : ℚ) : ℝ) = ((2 * rnd32 (1 / 4 : ℚ) : ℚ) : ℝ) by push_cast; rfl, c]
    congr 1
    decide +kernel
  unfold gaussianPdf32 F32.toReal
  rw [front, den]
  congr 1
  have hi' : i = 0 ∨ i = 1 := by omega
  rcases hi' with rfl | rfl
  · have a0 : rnd32 (-rnd32 (rnd32 ((0 : Nat) : ℝ) * rnd32 ((0 : Nat) : ℝ)) / ((1 / 2 : ℚ) : ℝ)) = 0 := by
      have z : rnd32 (0 : ℝ) = 0 := rnd_zero
      rw [Nat.cast_zero, z, zero_mul, z, neg_zero, zero_div, z]
    have o : rnd32 (1 : ℝ) = ((1 : ℚ) : ℝ) := by
      rw [show (1 : ℝ) = ((1 : ℚ) : ℝ) by norm_num, c]
      congr 1
      decide +kernel
    rw [a0]
    dsimp only
    rw [Real.exp_zero, o, ← Rat.cast_mul, c]
    congr 1
    decide +kernel
  · have a1 : rnd32 (-rnd32 (rnd32 ((1 : Nat) : ℝ) * rnd32 ((1 : Nat) : ℝ)) / ((1 / 2 : ℚ) : ℝ)) = -2 := by
      have o : rnd32 ((1 : Nat) : ℝ) = 1 := by
        rw [show ((1 : Nat) : ℝ) = ((1 : ℚ) : ℝ) by norm_num, c,
          show rnd32 (1 : ℚ) = 1 by decide +kernel]
        norm_num
      have o' : rnd32 (1 : ℝ) = 1 := by simpa using o
      rw [o, mul_one, o', show (-1 : ℝ) / ((1 / 2 : ℚ) : ℝ) = ((-2 : ℚ) : ℝ) by norm_num, c,
        show rnd32 (-2 : ℚ) = -2 by decide +kernel]
      norm_num
    rw [a1]
    dsimp only
    rw [exp_neg_two, ← Rat.cast_mul, c]
    congr 1
    decide +kernel

/-- **C119, negation.** Blurring with `sigma = 0.5` turns every image of constant value 178 into one of
constant value 176, one level in each pass: in single precision the weights do not sum to one.  (With
the correctly rounded exponential; only `exp(-2)` and `exp(0)` are used.) -/
theorem C119_negation (w h : Nat) (hw : w < 2147483648) (hh : h < 2147483648) :
    ∃ out, gaussianBlur32 (fun a => rnd32 (exp a)) ⟨w, h, fun _ _ (_ : Unit) => 178⟩ (1 / 2) = some out ∧
      out.w = w ∧ out.h = h ∧ ∀ x y, x < w → y < h → out.px x y () = 176 := by
  have hrad : ⌈rnd32 (2 * (1 / 2) : ℝ)⌉₊ = 1 := by
    have : rnd32 (((1 : ℚ) : ℝ)) = ((rnd32 (1 : ℚ) : ℚ) : ℝ) := rnd_cast _
    rw [show rnd32 (1 : ℚ) = 1 by decide +kernel] at this
    push_cast at this
    rw [show (2 * (1 / 2) : ℝ) = 1 by norm_num, this]
    norm_num
  have kq : gaussianKernel halfSamples 1 =
      some [⟨14295125 / 134217728⟩, ⟨13203435 / 16777216⟩, ⟨14295125 / 134217728⟩] := by decide +kernel
  have hk := kernel_toReal _ halfSamples 1 half_samples _ kq
  obtain ⟨out, e, o1, o2, o3⟩ := separable_spec (fun v : Nat => (⟨(v : ℝ)⟩ : F32 ℝ))
    (fun a => clampU8 a.val) 0 ⟨w, h, fun _ _ (_ : Unit) => 178⟩ _ _ rfl hw hh
  refine ⟨out, by unfold gaussianBlur32; rw [if_pos (by norm_num), hrad, hk, Option.bind_some, e],
    o1, o2, fun x y hx hy => ?_⟩
  rw [o3 x y hx hy]
  have acc : ∀ v : ℚ, ((0 + (⟨(v : ℝ)⟩ : F32 ℝ) * (⟨14295125 / 134217728⟩ : F32 ℚ).toReal) +
      (⟨(v : ℝ)⟩ : F32 ℝ) * (⟨13203435 / 16777216⟩ : F32 ℚ).toReal) +
      (⟨(v : ℝ)⟩ : F32 ℝ) * (⟨14295125 / 134217728⟩ : F32 ℚ).toReal =
      (((0 + (⟨v⟩ : F32 ℚ) * ⟨14295125 / 134217728⟩) + (⟨v⟩ : F32 ℚ) * ⟨13203435 / 16777216⟩) +
        (⟨v⟩ : F32 ℚ) * ⟨14295125 / 134217728⟩).toReal := by
    intro v
    have z : (0 : F32 ℝ) = (0 : F32 ℚ).toReal := by
      show F32.mk _ = F32.mk _
      congr 1
      exact (Rat.cast_zero (α := ℝ)).symm
    rw [z, show (⟨(v : ℝ)⟩ : F32 ℝ) = (⟨v⟩ : F32 ℚ).toReal from rfl]
    simp only [F32.toReal_add, F32.toReal_mul]
  have trunc : ∀ (q : F32 ℚ) (n : Nat), (n : ℚ) ≤ q.val → q.val < n + 1 → n < 255 →
      clampU8 q.toReal.val = n := by
    intro q n h1 h2 h3
    have h1' : (n : ℝ) ≤ (q.val : ℝ) := by exact_mod_cast h1
    have h2' : (q.val : ℝ) < (n : ℝ) + 1 := by exact_mod_cast h2
    have h3' : (n : ℝ) + 1 ≤ 255 := by exact_mod_cast h3
    show clampU8 (q.val : ℝ) = n
    rw [clampU8_eq (show (q.val : ℝ) < 256 by linarith)]
    exact (Nat.floor_eq_iff (le_trans (by positivity) h1')).2 ⟨h1', h2'⟩
  have first : ∀ x y, clampU8 (corr (fun v : Nat => (⟨(v : ℝ)⟩ : F32 ℝ))
      ⟨w, h, fun _ _ (_ : Unit) => 178⟩ 3 1 (weights (List.map F32.toReal
        [⟨14295125 / 134217728⟩, ⟨13203435 / 16777216⟩, ⟨14295125 / 134217728⟩]) 3) x y ()).val = 177 := by
    intro x y
    refine Eq.trans (congrArg (fun a : F32 ℝ => clampU8 a.val) (?_ : _ = _)) (trunc
      (((0 + (⟨178⟩ : F32 ℚ) * ⟨14295125 / 134217728⟩) + (⟨178⟩ : F32 ℚ) * ⟨13203435 / 16777216⟩) +
        (⟨178⟩ : F32 ℚ) * ⟨14295125 / 134217728⟩) 177 (by decide +kernel) (by decide +kernel) (by norm_num))
    rw [← acc 178]
    norm_num
    rfl
  refine Eq.trans (congrArg (fun a : F32 ℝ => clampU8 a.val) (?_ : _ = _)) (trunc
    (((0 + (⟨177⟩ : F32 ℚ) * ⟨14295125 / 134217728⟩) + (⟨177⟩ : F32 ℚ) * ⟨13203435 / 16777216⟩) +
      (⟨177⟩ : F32 ℚ) * ⟨14295125 / 134217728⟩) 176 (by decide +kernel) (by decide +kernel) (by norm_num))
  rw [← acc 177]
  simp only [List.length_map, List.length_cons, List.length_nil, Nat.zero_add, Nat.reduceAdd] at first ⊢
  simp only [first]
  norm_num
  rfl

/-- The hypotheses hold: blurring a 3 by 1 image with `sigma = 1.5` and a correctly rounded
exponential stays between 5 - 2 and 9. -/
example : ∃ out, gaussianBlur32 (fun a => rnd32 (exp a)) ⟨3, 1, fun x _ (_ : Unit) => 5 + 2 * x⟩ (3 / 2) =
    some out ∧ ∀ x, x < 3 → 3 ≤ out.px x 0 () ∧ out.px x 0 () ≤ 9 := by
  obtain ⟨out, e, -, -, -, h⟩ := C119_range_partial goodExp_rnd ⟨3, 1, fun x _ (_ : Unit) => 5 + 2 * x⟩
    ⟨by norm_num, by norm_num, fun x y c (hx : x < 3) _ => by dsimp only; omega⟩ (3 / 2)
    ⟨3, -1, by norm_num, by norm_num, by norm_num⟩ (by norm_num) (by norm_num)
  refine ⟨out, e, fun x hx => ?_⟩
  have := h () 5 9 (fun x y (hx : x < 3) _ => by dsimp only; omega) x 0 hx (by norm_num)
  omega

end Verif.Float
