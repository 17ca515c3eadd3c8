import Verif.Float.Blur
/-
`sharpen_gaussian` in single precision, src/filter/sharpen.rs:31-38, with the blur of an `f32` image
(src/filter/mod.rs:158-166 and the 1-d filters 171-431): every `f32` operation is followed by rounding.
The exponential is a parameter as in `Verif/Float/Blur.lean`.  Overflow is not represented; it does not
occur for amounts of magnitude below `2 ^ 119`.
-/
namespace Verif.Float
open Verif.Filter hiding clampU8
open Verif.Edges Verif.Gradients
open Real (exp)
open Finset

/-- `gaussian_blur_f32` of an `f32` image, filter/mod.rs:158-166; the conversion to `f32` and the clamp
back (definitions.rs) are the identity. -/
noncomputable def gaussianBlurF32 {ι : Type _} (expf : ℝ → ℝ) (im : Image (ι → F32 ℝ)) (sigma : ℝ) :
    Option (Image (ι → F32 ℝ)) :=
  if 0 < sigma then
    (gaussianKernel (fun i => (⟨gaussianPdf32 expf (rnd32 (i : ℝ)) sigma⟩ : F32 ℝ))
      ⌈rnd32 (2 * sigma)⌉₊).bind fun ker => separableFilter id id 0 im ker ker
  else none

/-- `sharpen_gaussian`, sharpen.rs:31-38.  `x as f32` is exact for `u8`; `map_pixels2` pairs equal
coordinates (C74). -/
noncomputable def sharpenGaussian32 {ι : Type _} (expf : ℝ → ℝ) (im : Image (ι → Nat))
    (sigma amount : ℝ) : Option (Image (ι → Nat)) :=
  let image : Image (ι → F32 ℝ) := ⟨im.w, im.h, fun x y c => ⟨(im.px x y c : ℝ)⟩⟩
  (gaussianBlurF32 expf image sigma).map fun smooth =>
  ⟨image.w, image.h, fun x y c =>
    clampU8 (rnd32 (rnd32 (rnd32 (1 + amount) * (image.px x y c).val) -
      rnd32 (amount * (smooth.px x y c).val)))⟩

theorem sharpen_some {ι : Type _} {expf : ℝ → ℝ} {im : Image (ι → Nat)} {sigma : ℝ} (amount : ℝ)
    {ker : List (F32 ℝ)} {smooth : Image (ι → F32 ℝ)} (hs : 0 < sigma)
    (hk : gaussianKernel (fun i => (⟨gaussianPdf32 expf (rnd32 (i : ℝ)) sigma⟩ : F32 ℝ))
      ⌈rnd32 (2 * sigma)⌉₊ = some ker)
    (h : separableFilter id id 0 (⟨im.w, im.h, fun x y c => ⟨(im.px x y c : ℝ)⟩⟩ : Image (ι → F32 ℝ))
      ker ker = some smooth) :
    sharpenGaussian32 expf im sigma amount = some ⟨im.w, im.h, fun x y c =>
      clampU8 (rnd32 (rnd32 (rnd32 (1 + amount) * (im.px x y c : ℝ)) -
        rnd32 (amount * (smooth.px x y c).val)))⟩ := by
  unfold sharpenGaussian32 gaussianBlurF32
  dsimp only
  rw [if_pos hs, hk, Option.bind_some, h]
  rfl

/-! ### One pass over real values -/

theorem step_low {u P e t q a d k : ℝ} (b : P * t ≤ (1 - u) * t) (m : -(t * u + d) ≤ q - t)
    (h : P * e - k * d ≤ a) : P * (e + t) - (k + 1) * d ≤ a + q := by linarith

theorem step_high {u P e t q a d k : ℝ} (b : (1 + u) * t ≤ P * t) (m : q - t ≤ t * u + d)
    (h : a ≤ P * (e + k * d)) (hd : d ≤ P * d) : a + q ≤ P * (e + t + (k + 1) * d) := by linarith

/-- A running sum of non-negative products in single precision, compared with exact arithmetic; each
product may underflow. -/
theorem fold_mul_mixed {β : Type _} (v w : β → F32 ℝ) :
    ∀ (l : List β), (∀ b ∈ l, 0 ≤ (v b).val ∧ 0 ≤ (w b).val) →
    ∀ (a : F32 ℝ) (e : ℝ) (k : Nat), 1 ≤ k → Rep 24 (-149) a.val → 0 ≤ a.val → 0 ≤ e →
      (1 - u32) ^ k * e - k / 2 ^ 150 ≤ a.val → a.val ≤ (1 + u32) ^ k * (e + k / 2 ^ 150) →
      let r := l.foldl (fun a b => a + v b * w b) a
      let s := l.foldl (fun e b => e + (v b).val * (w b).val) e
      0 ≤ r.val ∧ 0 ≤ s ∧ (1 - u32) ^ (k + l.length) * s - (k + l.length : ℕ) / 2 ^ 150 ≤ r.val ∧
        r.val ≤ (1 + u32) ^ (k + l.length) * (s + (k + l.length : ℕ) / 2 ^ 150) := by
  intro l
  induction l with
  | nil => intro _ a e k _ _ h1 h2 h3 h4; exact ⟨h1, h2, h3, h4⟩
  | cons b l ih =>
    intro hl a e k hk h0 h1 h2 h3 h4
    obtain ⟨hv, hw⟩ := hl b (by simp)
    have hu := u32_pos (K := ℝ)
    have hu1 := u32_lt_one (K := ℝ)
    have hvw : 0 ≤ (v b).val * (w b).val := mul_nonneg hv hw
    have m := rnd_error_mixed (p := 24) (emin := -149) ((v b).val * (w b).val)
    rw [abs_of_nonneg hvw] at m
    have m' : |rnd32 ((v b).val * (w b).val) - (v b).val * (w b).val| ≤
        (v b).val * (w b).val * u32 + 1 / 2 ^ 150 := by
      refine le_trans m (add_le_add (le_refl _) (le_of_eq ?_))
      norm_num
    obtain ⟨m1, m2⟩ := abs_le.1 m'
    have hq0 : 0 ≤ rnd32 ((v b).val * (w b).val) := rnd_nonneg hvw
    have s1 := rnd_add_error (p := 24) (emin := -149) (by norm_num) h0
      (show Rep 24 (-149) (rnd32 ((v b).val * (w b).val)) from rep_rnd _)
    obtain ⟨s2, s3⟩ := two_sided (by linarith) s1
    have hval : (a + v b * w b).val = rnd 24 (-149) (a.val + rnd32 ((v b).val * (w b).val)) := rfl
    have p1 : (1 - u32 : ℝ) ^ k ≤ 1 - u32 :=
      pow_le_of_le_one (by linarith) (by linarith) (by omega)
    have p2 : (1 + u32 : ℝ) ≤ (1 + u32) ^ k := by
      calc (1 + u32 : ℝ) = (1 + u32) ^ 1 := (pow_one _).symm
        _ ≤ _ := pow_le_pow_right₀ (by linarith) hk
    have p3 : (1 : ℝ) ≤ (1 + u32) ^ k := one_le_pow₀ (by linarith)
    set q : ℝ := rnd32 ((v b).val * (w b).val)
    set t := (v b).val * (w b).val with ht
    have := ih (fun b' hb' => hl b' (by simp [hb'])) (a + v b * w b) (e + t) (k + 1) (by omega)
      (by rw [hval]; exact rep_rnd _) (by rw [hval]; exact rnd_nonneg (by linarith)) (by linarith)
      (by
        rw [hval]
        refine le_trans ?_ s2
        have b1 : (1 - u32) ^ k * t ≤ (1 - u32) * t := mul_le_mul_of_nonneg_right p1 hvw
        have b2 : (1 - u32) ^ k * (e + t) - (k + 1) / 2 ^ 150 ≤ a.val + q := by
          rw [div_eq_mul_one_div]
          exact step_low b1 m1 (by rw [← div_eq_mul_one_div]; exact h3)
        have b3 := mul_le_mul_of_nonneg_left b2 (show (0 : ℝ) ≤ 1 - u32 by linarith)
        have b4 : (0 : ℝ) ≤ u32 * ((k + 1) / 2 ^ 150) := by positivity
        push_cast
        have e1 : (1 - u32 : ℝ) ^ (k + 1) * (e + t) - (k + 1) / 2 ^ 150 =
          (1 - u32) * ((1 - u32) ^ k * (e + t) - (k + 1) / 2 ^ 150) - u32 * ((k + 1) / 2 ^ 150) := by
            ring
        rw [e1]
        linarith)
      (by
        rw [hval]
        refine le_trans s3 ?_
        have b1 : (1 + u32) * t ≤ (1 + u32) ^ k * t := mul_le_mul_of_nonneg_right p2 hvw
        have b2 : a.val + q ≤ (1 + u32) ^ k * (e + t + (k + 1) / 2 ^ 150) := by
          rw [div_eq_mul_one_div]
          exact step_high b1 m2 (by rw [← div_eq_mul_one_div]; exact h4)
            (le_mul_of_one_le_left (by positivity) p3)
        have b3 := mul_le_mul_of_nonneg_left b2 (show (0 : ℝ) ≤ 1 + u32 by linarith)
        refine le_trans b3 (le_of_eq ?_)
        push_cast
        ring)
    simp only [List.foldl_cons, List.length_cons]
    rw [show k + (l.length + 1) = k + 1 + l.length by omega]
    exact this

/-- The accumulated value of a filter pass over real values. -/
theorem corrF32_bounds {ι : Type _} (im : Image (ι → F32 ℝ)) (kw kh : Nat) (wt : Nat → Nat → F32 ℝ)
    (hw : ∀ i j, 0 ≤ (wt i j).val) (hn : kw * kh + 1 ≤ 4096) (x y : Nat) (c : ι)
    (hx : x < im.w) (hy : y < im.h) (hp : ∀ x y, x < im.w → y < im.h → 0 ≤ (im.px x y c).val) :
    let e := corr (fun v : F32 ℝ => v.val) im kw kh (fun i j => (wt i j).val) x y c
    let a := (corr id im kw kh wt x y c).val
    0 ≤ a ∧ 0 ≤ e ∧ (1 - 1 / 4000) * e - 1 / 2 ^ 138 ≤ a ∧ a ≤ (1 + 1 / 4000) * (e + 1 / 2 ^ 138) := by
  intro e a
  have hl : (kpos kw kh).length = kw * kh := by
    unfold kpos
    simp [List.length_flatMap, Nat.mul_comm]
  obtain ⟨h0, h1, h2, h3⟩ := fold_mul_mixed
    (fun p : Nat × Nat => im.px (clampTo im.w ((x : Int) + p.1 - (kw : Int) / 2))
      (clampTo im.h ((y : Int) + p.2 - (kh : Int) / 2)) c) (fun p => wt p.1 p.2) (kpos kw kh)
    (fun p _ => ⟨hp _ _ (clampTo_lt (by omega) _) (clampTo_lt (by omega) _), hw _ _⟩) 0 0 1 (le_refl _)
    rep_zero (le_refl _) (le_refl _) (by rw [F32.val_zero]; norm_num)
    (by rw [F32.val_zero]; have := u32_pos (K := ℝ); positivity)
  rw [hl] at h2 h3
  obtain ⟨p1, p2⟩ := pow_bounds (K := ℝ) (1 + kw * kh) (by omega)
  have h1' : 0 ≤ e := h1
  have hnr : ((1 + kw * kh : ℕ) : ℝ) / 2 ^ 150 ≤ 1 / 2 ^ 138 := by
    have : ((1 + kw * kh : ℕ) : ℝ) ≤ 4096 := by exact_mod_cast (by omega : 1 + kw * kh ≤ 4096)
    rw [div_le_div_iff₀ (by positivity) (by positivity)]
    norm_num at *
    linarith
  refine ⟨h0, h1', le_trans (sub_le_sub (mul_le_mul_of_nonneg_right p1 h1') hnr) h2,
    le_trans h3 ?_⟩
  exact mul_le_mul p2 (add_le_add (le_refl _) hnr) (by positivity) (by norm_num)

/-- One pass of the blur over real values, given what it does up to a factor. -/
theorem pass_real {n : Nat} {W g : Nat → ℝ}
    (k : ∀ (v : Nat → ℝ) (acc : ℝ), (∀ j, 0 ≤ v j ∧ v j ≤ 255) →
        (1 - 1 / 4000) * ∑ j ∈ range n, W j * v j ≤ acc →
        acc ≤ (1 + 1 / 4000) * ∑ j ∈ range n, W j * v j →
        0 ≤ ∑ j ∈ range n, g j * v j ∧ ∑ j ∈ range n, g j * v j ≤ 255 ∧
          |acc - ∑ j ∈ range n, g j * v j| ≤ 1 / 4)
    (v : Nat → ℝ) (acc : ℝ) (hv : ∀ j, 0 ≤ v j ∧ v j ≤ 256) (hT : 0 ≤ ∑ j ∈ range n, W j * v j)
    (a1 : (1 - 1 / 4000) * ∑ j ∈ range n, W j * v j - 1 / 2 ^ 138 ≤ acc)
    (a2 : acc ≤ (1 + 1 / 4000) * (∑ j ∈ range n, W j * v j + 1 / 2 ^ 138)) :
    |acc - ∑ j ∈ range n, g j * v j| ≤ 13 / 50 := by
  set T := ∑ j ∈ range n, W j * v j with hTd
  have eW : ∑ j ∈ range n, W j * (255 / 256 * v j) = 255 / 256 * T := by
    rw [hTd, mul_sum]; exact sum_congr rfl fun j _ => by ring
  have eg : ∑ j ∈ range n, g j * (255 / 256 * v j) = 255 / 256 * ∑ j ∈ range n, g j * v j := by
    rw [mul_sum]; exact sum_congr rfl fun j _ => by ring
  -- the nearest value without underflow
  set b := max ((1 - 1 / 4000) * T) (min acc ((1 + 1 / 4000) * T)) with hb
  have hlo : (1 - 1 / 4000) * T ≤ b := le_max_left _ _
  have hhi : b ≤ (1 + 1 / 4000) * T := max_le (by nlinarith) (min_le_right _ _)
  have hab : |acc - b| ≤ 1 / 2 ^ 130 := by
    have t : (1 + 1 / 4000) * (1 / 2 ^ 138 : ℝ) ≤ 1 / 2 ^ 130 := by norm_num
    have t' : (1 / 2 ^ 138 : ℝ) ≤ 1 / 2 ^ 130 := by norm_num
    rw [mul_add] at a2
    rw [abs_le]
    rcases max_cases ((1 - 1 / 4000) * T) (min acc ((1 + 1 / 4000) * T)) with ⟨h, h'⟩ | ⟨h, h'⟩ <;>
    rcases min_cases acc ((1 + 1 / 4000) * T) with ⟨i, i'⟩ | ⟨i, i'⟩ <;>
    rw [hb, h] <;> (try rw [i]) <;> rw [i] at h' <;> constructor <;> linarith
  obtain ⟨-, -, h⟩ := k (fun j => 255 / 256 * v j) (255 / 256 * b)
    (fun j => ⟨by have := (hv j).1; positivity, by have := (hv j).2; linarith⟩)
    (by rw [eW]; linarith) (by rw [eW]; linarith)
  rw [eg, ← mul_sub, abs_mul, abs_of_pos (by norm_num : (0 : ℝ) < 255 / 256)] at h
  have tri := abs_sub_le acc b (∑ j ∈ range n, g j * v j)
  have : (1 / 2 ^ 130 : ℝ) ≤ 1 / 1000 := by norm_num
  linarith

/-- Combining the image with the blurred one. -/
theorem combine_bound {p a q : ℝ} (hp0 : 0 ≤ p) (hp : p ≤ 255) (hq0 : 0 ≤ q)
    (hq : q ≤ 256) :
    |rnd32 (rnd32 (rnd32 (1 + a) * p) - rnd32 (a * q)) - ((1 + a) * p - a * q)| ≤
      (1 + |a|) / 5000 := by
  have A0 := abs_nonneg a
  have h1a : |1 + a| ≤ 1 + |a| := le_trans (abs_add_le _ _) (by rw [abs_one])
  have z24 : ((2 : ℝ) ^ (-((24 : Nat) : Int))) = 1 / 16777216 := by norm_num
  have z150 : ((2 : ℝ) ^ ((-149 : Int) - 1)) ≤ 1 / 16777216 := by norm_num
  have er : ∀ z : ℝ, |rnd32 z - z| ≤ |z| / 16777216 + 1 / 2 ^ 150 := by
    intro z
    have := rnd_error_mixed (p := 24) (emin := -149) z
    rw [z24] at this
    refine le_trans this (add_le_add (le_of_eq (by ring)) (le_of_eq (by norm_num)))
  have hd : (1 / 2 ^ 150 : ℝ) ≤ 1 / 16777216 := by norm_num
  have hm : ∀ z M : ℝ, |z| ≤ M → 0 ≤ M → |rnd32 z - z| ≤ (M + 1) / 16777216 ∧ |rnd32 z| ≤ M + (M + 1) / 16777216 := by
    intro z M h _
    have e1 : |rnd32 z - z| ≤ (M + 1) / 16777216 := by
      refine le_trans (er z) ?_
      have : |z| / 16777216 ≤ M / 16777216 := by linarith
      linarith
    refine ⟨e1, ?_⟩
    have := abs_sub_abs_le_abs_sub (rnd32 z) z
    linarith
  set A := 1 + |a| with hA
  obtain ⟨c1, c2⟩ := hm (1 + a) A h1a (by linarith)
  set s := rnd32 (1 + a)
  have hs : |s| ≤ 11 / 10 * A := by linarith
  have sp : |s * p| ≤ 11 / 10 * A * 255 := by
    rw [abs_mul, abs_of_nonneg hp0]
    exact mul_le_mul hs hp hp0 (by linarith)
  obtain ⟨d1, d2⟩ := hm (s * p) _ sp (by linarith)
  have aq : |a * q| ≤ A * 256 := by
    rw [abs_mul, abs_of_nonneg hq0]
    exact mul_le_mul (by linarith) hq hq0 (by linarith)
  obtain ⟨f1, f2⟩ := hm (a * q) _ aq (by linarith)
  set X := rnd32 (s * p)
  set Y := rnd32 (a * q)
  have hXY : |X - Y| ≤ 600 * A := by
    refine le_trans (abs_sub _ _) ?_
    linarith
  obtain ⟨g1, -⟩ := hm (X - Y) _ hXY (by linarith)
  have spa : |s * p - (1 + a) * p| ≤ (A + 1) / 16777216 * 255 := by
    rw [← sub_mul, abs_mul, abs_of_nonneg hp0]
    exact mul_le_mul c1 hp hp0 (by positivity)
  rw [abs_le] at *
  constructor <;> linarith [g1.1, g1.2, spa.1, spa.2, d1.1, d1.2, f1.1, f1.2]

theorem clampU8_min (v : ℝ) : clampU8 v = min 255 ⌊v⌋₊ := by
  rcases lt_or_ge v 256 with h | h
  · rw [clampU8_eq h, min_eq_right]
    have := (Nat.floor_lt' (by norm_num : (256 : Nat) ≠ 0)).2 (by exact_mod_cast h)
    omega
  · have h2 : ¬ v < 255 := by linarith
    unfold clampU8
    rw [if_neg h2, min_eq_left]
    exact Nat.le_floor (by push_cast; linarith)

/-- **C139.** `sharpen_gaussian` of an 8-bit image in single precision returns, at every pixel, the
value of `image + amount * (image - blurred image)`, where the blurred image is exact and uses the
exact Gaussian weights, up to an error of `0.53 * |amount| + 0.0002`, rounded down and clamped to
0..255. -/
theorem C139_accuracy {ι : Type _} {expf : ℝ → ℝ} (he : GoodExp expf) (im : Image (ι → Nat))
    (hu : IsU8 im) (sigma : ℝ) (hrep : Rep 24 (-149) sigma) (h1 : 1 / 2 ^ 50 ≤ sigma)
    (h2 : sigma ≤ 1000) (amount : ℝ) (r : Nat) (hr : r = ⌈2 * sigma⌉₊) :
    let g : Nat → ℝ := fun j => exp (-(j - r : ℝ) ^ 2 / (2 * sigma ^ 2)) /
      ∑ i ∈ range (2 * r + 1), exp (-(i - r : ℝ) ^ 2 / (2 * sigma ^ 2))
    ∃ out : Image (ι → Nat), sharpenGaussian32 expf im sigma amount = some out ∧
      out.w = im.w ∧ out.h = im.h ∧ ∀ x y c, x < im.w → y < im.h →
        ∃ d, |d| ≤ 53 / 100 * |amount| + 1 / 5000 ∧
          out.px x y c = min 255 ⌊(im.px x y c : ℝ) + amount * (im.px x y c -
            ∑ i ∈ range (2 * r + 1), ∑ j ∈ range (2 * r + 1), g i * (g j *
              im.px (clampTo im.w ((x : Int) + j - r)) (clampTo im.h ((y : Int) + i - r)) c)) + d⌋₊ := by
  intro g
  have hs0 : 0 < sigma := lt_of_lt_of_le (by norm_num) h1
  obtain ⟨hr2, ker, k1, k2, k3, k4⟩ := kernel32 he hrep h1 h2 r hr
  have hlen2 : (ker.length : Int) / 2 = r := by omega
  set image : Image (ι → F32 ℝ) := ⟨im.w, im.h, fun x y c => ⟨(im.px x y c : ℝ)⟩⟩ with himage
  obtain ⟨smooth, e, o1, o2, o3⟩ := separable_spec id id 0 image ker ker rfl hu.1 hu.2.1
  refine ⟨_, sharpen_some _ hs0 k1 e, rfl, rfl, fun x y c hx hy => ?_⟩
  dsimp only
  have gnn : ∀ j, 0 ≤ g j := fun j =>
    div_nonneg (Real.exp_pos _).le (sum_nonneg fun i _ => (Real.exp_pos _).le)
  have gsum : ∑ j ∈ range (2 * r + 1), g j = 1 := by
    simp only [g]
    rw [← sum_div, div_self]
    have : 0 < ∑ i ∈ range (2 * r + 1), exp (-(i - r : ℝ) ^ 2 / (2 * sigma ^ 2)) :=
      sum_pos (fun i _ => Real.exp_pos _) ⟨r, mem_range.2 (by omega)⟩
    exact this.ne'
  have pu : ∀ x y, x < im.w → y < im.h → (0 : ℝ) ≤ im.px x y c ∧ (im.px x y c : ℝ) ≤ 255 :=
    fun x y hx hy => ⟨by positivity, by exact_mod_cast hu.2.2 x y c hx hy⟩
  -- the first pass
  set mid : Image (ι → F32 ℝ) := ⟨im.w, im.h, fun x y c =>
    corr id image ker.length 1 (weights ker ker.length) x y c⟩ with hmid
  set M : Nat → Nat → ℝ := fun x y => ∑ j ∈ range (2 * r + 1),
    g j * im.px (clampTo im.w ((x : Int) + j - r)) y c with hM
  have first : ∀ x y, x < im.w → y < im.h → 0 ≤ (mid.px x y c).val ∧ (mid.px x y c).val ≤ 256 ∧
      |(mid.px x y c).val - M x y| ≤ 13 / 50 := by
    intro x y hx hy
    obtain ⟨c0, c1, c2, c3⟩ := corrF32_bounds image ker.length 1 (weights ker ker.length)
      (fun i j => (k3 _).1) (by omega) x y c hx hy (fun x y hx hy => (pu x y hx hy).1)
    rw [corr_eq_sum, Finset.sum_range_one] at c1 c2 c3
    simp only [weights, Nat.zero_mul, Nat.zero_add, hlen2, himage] at c1 c2 c3
    have hy0 : clampTo im.h ((y : Int) + ((0 : Nat) : Int) - ((1 : Nat) : Int) / 2) = y := by
      rw [show ((y : Int) + ((0 : Nat) : Int) - ((1 : Nat) : Int) / 2) = y by omega, clampTo_of_mem hy]
    rw [hy0, k2] at c1 c2 c3
    have hv : ∀ j : Nat, (0 : ℝ) ≤ im.px (clampTo im.w ((x : Int) + j - r)) y c ∧
        (im.px (clampTo im.w ((x : Int) + j - r)) y c : ℝ) ≤ 255 :=
      fun j => pu _ _ (clampTo_lt (by omega) _) hy
    have pr := pass_real k4 (fun j => (im.px (clampTo im.w ((x : Int) + j - r)) y c : ℝ))
      (mid.px x y c).val (fun j => ⟨(hv j).1, by linarith [(hv j).2]⟩) c1
      (by simp only [hmid, k2]; exact c2) (by simp only [hmid, k2]; exact c3)
    have pk := k4 (fun j => (im.px (clampTo im.w ((x : Int) + j - r)) y c : ℝ)) _ hv
      (by nlinarith [c1] : _ ≤ ∑ j ∈ range (2 * r + 1), (ker.getD j 0).val *
        (im.px (clampTo im.w ((x : Int) + j - r)) y c : ℝ)) (by nlinarith [c1])
    refine ⟨c0, ?_, pr⟩
    linarith [pk.2.1, (abs_le.1 pr).2]
  -- the second pass
  set Q := ∑ i ∈ range (2 * r + 1), ∑ j ∈ range (2 * r + 1), g i * (g j *
    (im.px (clampTo im.w ((x : Int) + j - r)) (clampTo im.h ((y : Int) + i - r)) c : ℝ)) with hQ
  have second : 0 ≤ (smooth.px x y c).val ∧ |(smooth.px x y c).val - Q| ≤ 13 / 25 ∧
      (smooth.px x y c).val ≤ 256 := by
    have hsm : smooth.px x y c = corr id mid 1 ker.length (weights ker 1) x y c := o3 x y hx hy c
    rw [hsm]
    obtain ⟨c0, c1, c2, c3⟩ := corrF32_bounds mid 1 ker.length (weights ker 1)
      (fun i j => (k3 _).1) (by omega) x y c hx hy (fun x y hx hy => (first x y hx hy).1)
    rw [corr_eq_sum] at c1 c2 c3
    simp only [Finset.sum_range_one, weights, Nat.mul_one, Nat.add_zero, hlen2] at c1 c2 c3
    have hx0 : clampTo mid.w ((x : Int) + ((0 : Nat) : Int) - ((1 : Nat) : Int) / 2) = x := by
      rw [show ((x : Int) + ((0 : Nat) : Int) - ((1 : Nat) : Int) / 2) = x by omega, clampTo_of_mem hx]
    rw [hx0] at c1 c2 c3
    have hm : ∀ i : Nat, 0 ≤ (mid.px x (clampTo mid.h ((y : Int) + i - r)) c).val ∧
        (mid.px x (clampTo mid.h ((y : Int) + i - r)) c).val ≤ 256 ∧
        |(mid.px x (clampTo mid.h ((y : Int) + i - r)) c).val -
          M x (clampTo im.h ((y : Int) + i - r))| ≤ 13 / 50 :=
      fun i => first _ _ hx (clampTo_lt (show 0 < im.h by omega) _)
    have pr := pass_real k4 (fun i => (mid.px x (clampTo mid.h ((y : Int) + i - r)) c).val)
      (corr id mid 1 ker.length (weights ker 1) x y c).val (fun i => ⟨(hm i).1, (hm i).2.1⟩)
      (by rw [k2] at c1; exact c1) (by rw [k2] at c2 ⊢; exact c2) (by rw [k2] at c3 ⊢; exact c3)
    have hQ2 : Q = ∑ i ∈ range (2 * r + 1), g i * M x (clampTo im.h ((y : Int) + i - r)) := by
      rw [hQ]
      exact sum_congr rfl fun i _ => by rw [hM, mul_sum]
    have near : |∑ i ∈ range (2 * r + 1), g i * (mid.px x (clampTo mid.h ((y : Int) + i - r)) c).val -
        Q| ≤ 13 / 50 := by
      rw [hQ2, ← sum_sub_distrib]
      refine le_trans (abs_sum_le_sum_abs _ _) ?_
      calc _ ≤ ∑ i ∈ range (2 * r + 1), g i * (13 / 50) := sum_le_sum fun i _ => by
            rw [← mul_sub, abs_mul, abs_of_nonneg (gnn i)]
            exact mul_le_mul_of_nonneg_left (hm i).2.2 (gnn i)
        _ = 13 / 50 := by rw [← sum_mul, gsum, one_mul]
    have hQ255 : Q ≤ 255 := by
      rw [hQ]
      calc _ ≤ ∑ i ∈ range (2 * r + 1), ∑ j ∈ range (2 * r + 1), g i * (g j * 255) :=
            sum_le_sum fun i _ => sum_le_sum fun j _ => mul_le_mul_of_nonneg_left
              (mul_le_mul_of_nonneg_left (pu _ _ (clampTo_lt (by omega) _) (clampTo_lt (by omega) _)).2
                (gnn j)) (gnn i)
        _ = 255 := by simp only [← mul_sum, ← sum_mul, gsum]; norm_num
    have tri := abs_sub_le (corr id mid 1 ker.length (weights ker 1) x y c).val
      (∑ i ∈ range (2 * r + 1), g i * (mid.px x (clampTo mid.h ((y : Int) + i - r)) c).val) Q
    have tot : |(corr id mid 1 ker.length (weights ker 1) x y c).val - Q| ≤ 13 / 25 := by linarith
    exact ⟨c0, tot, by linarith [(abs_le.1 tot).2]⟩
  obtain ⟨q0, q1, q2⟩ := second
  obtain ⟨p0, p1⟩ := pu x y hx hy
  have cb := combine_bound (a := amount) p0 p1 q0 q2
  rw [clampU8_min]
  set V := rnd32 (rnd32 (rnd32 (1 + amount) * (im.px x y c : ℝ)) -
    rnd32 (amount * (smooth.px x y c).val)) with hV
  refine ⟨V - ((im.px x y c : ℝ) + amount * (im.px x y c - Q)), ?_, by rw [add_sub_cancel]⟩
  have e1 : V - ((im.px x y c : ℝ) + amount * (im.px x y c - Q)) =
      (V - ((1 + amount) * im.px x y c - amount * (smooth.px x y c).val)) -
        amount * ((smooth.px x y c).val - Q) := by ring
  rw [e1]
  refine le_trans (abs_sub _ _) ?_
  rw [abs_mul]
  have := mul_le_mul_of_nonneg_left q1 (abs_nonneg amount)
  linarith [abs_nonneg amount]

/-- **C139.** With `amount = 0` the image is returned unchanged. -/
theorem C139_zero {ι : Type _} {expf : ℝ → ℝ} (he : GoodExp expf) (im : Image (ι → Nat))
    (hu : IsU8 im) (sigma : ℝ) (hrep : Rep 24 (-149) sigma) (h1 : 1 / 2 ^ 50 ≤ sigma)
    (h2 : sigma ≤ 1000) :
    ∃ out : Image (ι → Nat), sharpenGaussian32 expf im sigma 0 = some out ∧
      out.w = im.w ∧ out.h = im.h ∧ ∀ x y c, x < im.w → y < im.h → out.px x y c = im.px x y c := by
  have hs0 : 0 < sigma := lt_of_lt_of_le (by norm_num) h1
  obtain ⟨-, ker, k1, -, -, -⟩ := kernel32 he hrep h1 h2 _ rfl
  obtain ⟨smooth, e, -, -, -⟩ := separable_spec id id 0
    (⟨im.w, im.h, fun x y c => ⟨(im.px x y c : ℝ)⟩⟩ : Image (ι → F32 ℝ)) ker ker rfl hu.1 hu.2.1
  refine ⟨_, sharpen_some _ hs0 k1 e, rfl, rfl, fun x y c hx hy => ?_⟩
  have hp := hu.2.2 x y c hx hy
  have n32 : ∀ n : Nat, n ≤ 255 → rnd32 (n : ℝ) = n := by
    intro n hn
    have := rnd_int (K := ℝ) (p := 24) (emin := -149) (n := (n : Int)) (by norm_num)
      (by norm_num) (by rw [abs_of_nonneg (by positivity)]; omega)
    simpa using this
  have o : rnd32 (1 : ℝ) = 1 := by simpa using n32 1 (by norm_num)
  have z : rnd32 (0 : ℝ) = 0 := rnd_zero
  dsimp only
  rw [add_zero, o, one_mul, zero_mul, z, sub_zero, n32 _ hp, n32 _ hp, clampU8_min, Nat.floor_natCast]
  omega

/-- **C139, a non-positive `sigma` panics.** -/
theorem C139_panics {ι : Type _} (expf : ℝ → ℝ) (im : Image (ι → Nat)) (sigma amount : ℝ)
    (h : sigma ≤ 0) : sharpenGaussian32 expf im sigma amount = none := by
  have : ¬ 0 < sigma := not_lt.2 h
  unfold sharpenGaussian32 gaussianBlurF32
  dsimp only
  rw [if_neg this]
  rfl

/-- **C139, constant images.** For amounts between -1 and 1 a region of constant value (at least as far
as the blur reaches) keeps its value or loses one level; what is missing is that it keeps its value
(`C139_negation`). -/
theorem C139_flat_partial {ι : Type _} {expf : ℝ → ℝ} (he : GoodExp expf) (im : Image (ι → Nat))
    (hu : IsU8 im) (sigma : ℝ) (hrep : Rep 24 (-149) sigma) (h1 : 1 / 2 ^ 50 ≤ sigma)
    (h2 : sigma ≤ 1000) (amount : ℝ) (ha : |amount| ≤ 1) :
    ∃ out : Image (ι → Nat), sharpenGaussian32 expf im sigma amount = some out ∧
      out.w = im.w ∧ out.h = im.h ∧ ∀ x y c, x < im.w → y < im.h →
        (∀ x' y' : Nat, x' < im.w → y' < im.h → |(x' : ℝ) - x| ≤ 2 * sigma + 1 →
          |(y' : ℝ) - y| ≤ 2 * sigma + 1 → im.px x' y' c = im.px x y c) →
        out.px x y c ≤ im.px x y c ∧ im.px x y c ≤ out.px x y c + 1 := by
  obtain ⟨out, e, o1, o2, o3⟩ := C139_accuracy he im hu sigma hrep h1 h2 amount _ rfl
  refine ⟨out, e, o1, o2, fun x y c hx hy hf => ?_⟩
  obtain ⟨d, hd, h⟩ := o3 x y c hx hy
  set r := ⌈2 * sigma⌉₊ with hr
  have hs0 : 0 < sigma := lt_of_lt_of_le (by norm_num) h1
  have hrr : (r : ℝ) < 2 * sigma + 1 := Nat.ceil_lt_add_one (by linarith)
  have near : ∀ (n z j : Nat), z < n → j < 2 * r + 1 →
      |((clampTo n ((z : Int) + j - r) : Nat) : ℝ) - z| ≤ 2 * sigma + 1 := by
    intro n z j hz hj
    have : |((clampTo n ((z : Int) + j - r) : Nat) : Int) - z| ≤ r := by
      unfold clampTo
      rw [abs_le]
      omega
    have : |((clampTo n ((z : Int) + j - r) : Nat) : ℝ) - z| ≤ r := by exact_mod_cast this
    linarith
  have hS : ∑ i ∈ range (2 * r + 1), exp (-(i - r : ℝ) ^ 2 / (2 * sigma ^ 2)) ≠ 0 := by
    have : 0 < ∑ i ∈ range (2 * r + 1), exp (-(i - r : ℝ) ^ 2 / (2 * sigma ^ 2)) :=
      sum_pos (fun i _ => Real.exp_pos _) ⟨r, mem_range.2 (by omega)⟩
    exact this.ne'
  have hsum : ∑ i ∈ range (2 * r + 1), ∑ j ∈ range (2 * r + 1),
      (exp (-(i - r : ℝ) ^ 2 / (2 * sigma ^ 2)) /
        ∑ i ∈ range (2 * r + 1), exp (-(i - r : ℝ) ^ 2 / (2 * sigma ^ 2))) *
      ((exp (-(j - r : ℝ) ^ 2 / (2 * sigma ^ 2)) /
        ∑ i ∈ range (2 * r + 1), exp (-(i - r : ℝ) ^ 2 / (2 * sigma ^ 2))) *
        (im.px (clampTo im.w ((x : Int) + j - r)) (clampTo im.h ((y : Int) + i - r)) c : ℝ)) =
      im.px x y c := by
    rw [sum_congr rfl fun i hi => sum_congr rfl fun j hj => by
      rw [hf _ _ (clampTo_lt (by omega) _) (clampTo_lt (by omega) _)
        (near _ _ _ hx (mem_range.1 hj)) (near _ _ _ hy (mem_range.1 hi))]]
    simp only [← mul_sum, ← sum_mul, ← sum_div]
    rw [div_self hS]
    ring
  rw [hsum, sub_self, mul_zero, add_zero] at h
  have hp := hu.2.2 x y c hx hy
  have hd' : |d| ≤ 54 / 100 := by linarith
  obtain ⟨d1, d2⟩ := abs_le.1 hd'
  have f1 : ⌊(im.px x y c : ℝ) + d⌋₊ ≤ im.px x y c := by
    have : ⌊(im.px x y c : ℝ) + d⌋₊ < im.px x y c + 1 := by
      rw [Nat.floor_lt' (by omega)]
      push_cast
      linarith
    omega
  have f2 : im.px x y c ≤ ⌊(im.px x y c : ℝ) + d⌋₊ + 1 := by
    have := Nat.lt_floor_add_one ((im.px x y c : ℝ) + d)
    have : (im.px x y c : ℝ) < ((⌊(im.px x y c : ℝ) + d⌋₊ + 2 : Nat) : ℝ) := by push_cast; linarith
    have : im.px x y c < ⌊(im.px x y c : ℝ) + d⌋₊ + 2 := by exact_mod_cast this
    omega
  omega

/-- **C139, negation.** Sharpening an image of constant value 5 with `sigma = 0.5` and `amount = 1`
returns an image of constant value 4: the blurred value is slightly above 5, and the result, slightly
below 5, is rounded down.  (With the correctly rounded exponential; only `exp(-2)` and `exp(0)` are
used.) -/
theorem C139_negation (w h : Nat) (hw : w < 2147483648) (hh : h < 2147483648) :
    ∃ out, sharpenGaussian32 (fun a => rnd32 (exp a)) ⟨w, h, fun _ _ (_ : Unit) => 5⟩ (1 / 2) 1 = some out ∧
      out.w = w ∧ out.h = h ∧ ∀ x y, x < w → y < h → out.px x y () = 4 := by
  have c : ∀ q : ℚ, rnd32 (q : ℝ) = ((rnd32 q : ℚ) : ℝ) := fun q => rnd_cast q
  have hrad : ⌈rnd32 (2 * (1 / 2) : ℝ)⌉₊ = 1 := by
    have := c 1
    rw [show rnd32 (1 : ℚ) = 1 by decide +kernel] at this
    push_cast at this
    rw [show (2 * (1 / 2) : ℝ) = 1 by norm_num, this]
    norm_num
  have kq : gaussianKernel halfSamples 1 =
      some [⟨14295125 / 134217728⟩, ⟨13203435 / 16777216⟩, ⟨14295125 / 134217728⟩] := by decide +kernel
  have hk := kernel_toReal _ halfSamples 1 half_samples _ kq
  obtain ⟨smooth, e, o1, o2, o3⟩ := separable_spec id id 0
    (⟨w, h, fun _ _ (_ : Unit) => ⟨((5 : Nat) : ℝ)⟩⟩ : Image (Unit → F32 ℝ)) _ _ rfl hw hh
  refine ⟨_, sharpen_some (im := ⟨w, h, fun _ _ (_ : Unit) => 5⟩) 1 (by norm_num)
    (by rw [hrad]; exact hk) e, rfl, rfl,
    fun x y hx hy => ?_⟩
  have acc : ∀ v : ℚ, ((0 + (⟨(v : ℝ)⟩ : F32 ℝ) * (⟨14295125 / 134217728⟩ : F32 ℚ).toReal) +
      (⟨(v : ℝ)⟩ : F32 ℝ) * (⟨13203435 / 16777216⟩ : F32 ℚ).toReal) +
      (⟨(v : ℝ)⟩ : F32 ℝ) * (⟨14295125 / 134217728⟩ : F32 ℚ).toReal =
      (((0 + (⟨v⟩ : F32 ℚ) * ⟨14295125 / 134217728⟩) + (⟨v⟩ : F32 ℚ) * ⟨13203435 / 16777216⟩) +
        (⟨v⟩ : F32 ℚ) * ⟨14295125 / 134217728⟩).toReal := by
    intro v
    have z : (0 : F32 ℝ) = (0 : F32 ℚ).toReal := by
      show F32.mk _ = F32.mk _
      congr 1
      exact (Rat.cast_zero (α := ℝ)).symm
    rw [z, show (⟨(v : ℝ)⟩ : F32 ℝ) = (⟨v⟩ : F32 ℚ).toReal from rfl]
    simp only [F32.toReal_add, F32.toReal_mul]
  have one : ∀ (im : Image (Unit → F32 ℝ)) (v q : ℚ) (kw kh n : Nat) (x y : Nat),
      (kw = 3 ∧ kh = 1 ∨ kw = 1 ∧ kh = 3) → (∀ x y, im.px x y () = ⟨(v : ℝ)⟩) →
      n = kw →
      (((0 + (⟨v⟩ : F32 ℚ) * ⟨14295125 / 134217728⟩) + (⟨v⟩ : F32 ℚ) * ⟨13203435 / 16777216⟩) +
        (⟨v⟩ : F32 ℚ) * ⟨14295125 / 134217728⟩) = ⟨q⟩ →
      corr id im kw kh (weights (List.map F32.toReal
        [⟨14295125 / 134217728⟩, ⟨13203435 / 16777216⟩, ⟨14295125 / 134217728⟩]) n) x y () = ⟨(q : ℝ)⟩ := by
    intro im v q kw kh n x y hkk hv hn hq
    have := acc v
    rw [hq] at this
    unfold corr
    simp only [hv]
    rcases hkk with ⟨rfl, rfl⟩ | ⟨rfl, rfl⟩ <;> subst hn <;> exact this
  have hs : smooth.px x y () = ⟨((10485761 / 2097152 : ℚ) : ℝ)⟩ := by
    rw [o3 x y hx hy ()]
    refine one _ (10485761 / 2097152) _ 1 3 1 x y (Or.inr ⟨rfl, rfl⟩) (fun x y => ?_) rfl
      (by decide +kernel)
    exact one _ 5 _ 3 1 3 x y (Or.inl ⟨rfl, rfl⟩) (fun x y => by norm_num) rfl (by decide +kernel)
  dsimp only
  rw [hs]
  dsimp only
  rw [show (1 + 1 : ℝ) = ((2 : ℚ) : ℝ) by norm_num, c, show ((5 : Nat) : ℝ) = ((5 : ℚ) : ℝ) by norm_num,
    ← Rat.cast_mul, c, one_mul, c, ← Rat.cast_sub, c]
  have b1 : ((4 : ℚ) : ℝ) ≤ ((rnd32 (rnd32 (rnd32 (2 : ℚ) * 5) - rnd32 (10485761 / 2097152)) : ℚ) : ℝ) :=
    Rat.cast_le.2 (by decide +kernel)
  have b2 : ((rnd32 (rnd32 (rnd32 (2 : ℚ) * 5) - rnd32 (10485761 / 2097152)) : ℚ) : ℝ) < ((5 : ℚ) : ℝ) :=
    Rat.cast_lt.2 (by decide +kernel)
  push_cast at b1 b2
  rw [clampU8_eq (by linarith)]
  exact (Nat.floor_eq_iff (by linarith)).2 ⟨by push_cast; exact b1, by push_cast; linarith⟩

/-- The hypotheses hold: sharpening a 1 by 1 image of value 9 with `sigma = 1.5` and `amount = 0.5`
gives 8 or 9. -/
example : ∃ out, sharpenGaussian32 (fun a => rnd32 (exp a)) ⟨1, 1, fun _ _ (_ : Unit) => 9⟩ (3 / 2) (1 / 2) =
    some out ∧ (out.px 0 0 () = 8 ∨ out.px 0 0 () = 9) := by
  obtain ⟨out, e, -, -, h⟩ := C139_flat_partial goodExp_rnd ⟨1, 1, fun _ _ (_ : Unit) => 9⟩
    ⟨by norm_num, by norm_num, fun x y c _ _ => by dsimp only; omega⟩ (3 / 2)
    ⟨3, -1, by norm_num, by norm_num, by norm_num⟩ (by norm_num) (by norm_num) (1 / 2)
    (by rw [abs_of_pos] <;> norm_num)
  refine ⟨out, e, ?_⟩
  have := h 0 0 () (by norm_num) (by norm_num) (fun _ _ _ _ _ _ => rfl)
  dsimp only at this
  omega

end Verif.Float
