import Verif.Float.F32
import Mathlib.Algebra.Order.Floor.Semifield
/-
Fitting an image into a window, src/window.rs:183-244: `resize_to_fit` and the placement computed by
`render_image_to_canvas`, in `f32`.  Only the sizes and positions are modelled; resizing itself is the
`image` crate's, painting is SDL's.
-/
namespace Verif.Float

/-- The size chosen by `resize_to_fit`, window.rs:183-202, as width and height.  A division by a zero
dimension is infinite, so the other scale is the minimum; `as u32` rounds down (and sends NaN to 0). -/
def fitSize32 (iw ih ww wh : Nat) : Nat × Nat :=
  if ih < wh ∧ iw < ww then (iw, ih)
  else if iw = 0 ∧ ih = 0 then (0, 0)
  else
    let ws : ℚ := rnd32 (rnd32 (ww : ℚ) / rnd32 (iw : ℚ))
    let hs : ℚ := rnd32 (rnd32 (wh : ℚ) / rnd32 (ih : ℚ))
    let scale := if iw = 0 then hs else if ih = 0 then ws else min ws hs
    (⌊rnd32 (scale * rnd32 (iw : ℚ))⌋₊, ⌊rnd32 (scale * rnd32 (ih : ℚ))⌋₊)

/-- The rectangle `render_image_to_canvas` paints to, window.rs:204-244: left, top, width, height; `none`
if one of the subtractions at lines 232-233 underflows. -/
def fitRect32 (iw ih ww wh : Nat) : Option (Nat × Nat × Nat × Nat) :=
  let d := fitSize32 iw ih ww wh
  if d.1 ≤ ww ∧ d.2 ≤ wh then
    some (⌊rnd32 (rnd32 ((ww - d.1 : Nat) : ℚ) / 2)⌋₊, ⌊rnd32 (rnd32 ((wh - d.2 : Nat) : ℚ) / 2)⌋₊, d.1, d.2)
  else none

/-! ### One side -/

theorem nat32 {n : Nat} (h : n ≤ 2 ^ 24) : rnd32 (n : ℚ) = n := by
  have := rnd_int (K := ℚ) (p := 24) (emin := -149) (n := (n : Int)) (by norm_num) (by norm_num)
    (by rw [abs_of_nonneg (by positivity)]; exact_mod_cast h)
  simpa using this

theorem rep_halves {n : Int} (h : |n| ≤ 2 ^ 24) : Rep 24 (-149) ((n : ℚ) / 2) :=
  ⟨n, -1, h, by norm_num, by rw [zpow_neg_one]; rfl⟩

/-- The scale of one side times that side is the window's side up to half a pixel. -/
theorem scale_back {i w : Nat} (hi0 : 0 < i) (hi : i ≤ 2 ^ 22) (hw : w ≤ 2 ^ 22) :
    |rnd32 ((w : ℚ) / i) * i - w| ≤ 3 / 8 := by
  have hi' : (0 : ℚ) < i := by exact_mod_cast hi0
  have hi2 : (i : ℚ) ≤ 2 ^ 22 := by exact_mod_cast hi
  have hw2 : (w : ℚ) ≤ 2 ^ 22 := by exact_mod_cast hw
  have hw0 : (0 : ℚ) ≤ w := by positivity
  have e := rnd_error_mixed (p := 24) (emin := -149) ((w : ℚ) / i)
  rw [abs_of_nonneg (div_nonneg hw0 hi'.le)] at e
  have h2 : (2 : ℚ) ^ ((-149 : Int) - 1) ≤ 1 / 2 ^ 100 := by norm_num
  have h3 : (2 : ℚ) ^ (-((24 : Nat) : Int)) = 1 / 2 ^ 24 := by norm_num
  rw [h3] at e
  have k : rnd32 ((w : ℚ) / i) * i - w = (rnd32 ((w : ℚ) / i) - w / i) * i := by
    field_simp
  rw [k, abs_mul, abs_of_pos hi']
  have : |rnd32 ((w : ℚ) / i) - w / i| * i ≤ (w / i * (1 / 2 ^ 24) + 1 / 2 ^ 100) * i :=
    mul_le_mul_of_nonneg_right (e.trans (by linarith)) hi'.le
  have e2 : ((w : ℚ) / i * (1 / 2 ^ 24) + 1 / 2 ^ 100) * i = w * (1 / 2 ^ 24) + i * (1 / 2 ^ 100) := by
    field_simp
  rw [e2] at this
  refine this.trans ?_
  linarith

theorem floor_le_of_half {x : ℚ} {w : Nat} (hw : w ≤ 2 ^ 22) (h : x ≤ w + 3 / 8) : ⌊rnd32 x⌋₊ ≤ w := by
  have : rnd32 x ≤ ((2 * w + 1 : Int) : ℚ) / 2 :=
    rnd_le (by norm_num) (rep_halves (by rw [abs_of_nonneg (by positivity)]; omega)) (by push_cast; linarith)
  refine Nat.lt_succ_iff.1 ((Nat.floor_lt' (by omega)).2 ?_)
  push_cast at this ⊢
  linarith

theorem le_floor_of_half {x : ℚ} {w : Nat} (hw : w ≤ 2 ^ 22) (h : (w : ℚ) - 3 / 8 ≤ x) :
    w ≤ ⌊rnd32 x⌋₊ + 1 := by
  have : ((2 * w - 1 : Int) : ℚ) / 2 ≤ rnd32 x :=
    le_rnd (by norm_num) (rep_halves (by rw [abs_le]; omega)) (by push_cast; linarith)
  by_contra hc
  push Not at hc
  have h1 : (⌊rnd32 x⌋₊ : ℚ) + 2 ≤ w := by exact_mod_cast hc
  have h2 := Nat.lt_floor_add_one (rnd32 x)
  push_cast at this
  linarith

theorem half_floor {n : Nat} (h : n ≤ 2 ^ 22) : ⌊rnd32 (rnd32 (n : ℚ) / 2)⌋₊ = n / 2 := by
  rw [nat32 (by omega)]
  have : rnd32 ((n : ℚ) / 2) = n / 2 := by
    have := rnd_of_rep (p := 24) (emin := -149) (by norm_num)
      (rep_halves (n := (n : Int)) (by rw [abs_of_nonneg (by positivity)]; omega))
    simpa using this
  rw [this]
  exact_mod_cast Nat.floor_div_eq_div (K := ℚ) n 2

/-- The rounded product of the scale with the longer side, from both sides. -/
theorem prod_near {s : ℚ} {i B : Nat} (hs0 : 0 ≤ s) (hB : s * i ≤ B) (hB2 : B ≤ 2 ^ 23) :
    |rnd32 (s * i) - s * i| ≤ 5 / 8 := by
  have e := rnd_error_mixed (p := 24) (emin := -149) (s * i)
  rw [abs_of_nonneg (mul_nonneg hs0 (by positivity))] at e
  have h2 : (2 : ℚ) ^ ((-149 : Int) - 1) ≤ 1 / 2 ^ 100 := by norm_num
  have h3 : (2 : ℚ) ^ (-((24 : Nat) : Int)) = 1 / 2 ^ 24 := by norm_num
  rw [h3] at e
  have hB' : (B : ℚ) ≤ 2 ^ 23 := by exact_mod_cast hB2
  refine e.trans ?_
  linarith

/-- **C141.** For every image and window with sides from 1 to 2^22: the placement never fails; the painted
rectangle lies inside the window and is centred up to one pixel; an image smaller than the window in both
directions keeps its size; otherwise the image is not enlarged, it reaches to within one pixel of the window's
width or of its height, and the ratio of its sides is kept up to the rounding of each side to a pixel. -/
theorem C141_fits (iw ih ww wh : Nat) (h1 : 0 < iw) (h2 : 0 < ih) (hiw : iw ≤ 2 ^ 22) (hih : ih ≤ 2 ^ 22)
    (hww : ww ≤ 2 ^ 22) (hwh : wh ≤ 2 ^ 22) :
    ∃ l t w h, fitRect32 iw ih ww wh = some (l, t, w, h) ∧
      l + w ≤ ww ∧ t + h ≤ wh ∧ 2 * l + w ≤ ww ∧ ww ≤ 2 * l + w + 1 ∧ 2 * t + h ≤ wh ∧ wh ≤ 2 * t + h + 1 ∧
      w ≤ iw ∧ h ≤ ih ∧
      (iw < ww ∧ ih < wh → w = iw ∧ h = ih) ∧
      (¬ (iw < ww ∧ ih < wh) → ww ≤ w + 1 ∨ wh ≤ h + 1) ∧
      |(w : ℚ) / iw - (h : ℚ) / ih| ≤ 2 / iw + 2 / ih := by
  obtain ⟨w, h, hd⟩ : ∃ w h, fitSize32 iw ih ww wh = (w, h) := ⟨_, _, rfl⟩
  have hi' : (0 : ℚ) < iw := by exact_mod_cast h1
  have hh' : (0 : ℚ) < ih := by exact_mod_cast h2
  suffices key : w ≤ ww ∧ h ≤ wh ∧ w ≤ iw ∧ h ≤ ih ∧ (iw < ww ∧ ih < wh → w = iw ∧ h = ih) ∧
      (¬ (iw < ww ∧ ih < wh) → ww ≤ w + 1 ∨ wh ≤ h + 1) ∧
      |(w : ℚ) / iw - (h : ℚ) / ih| ≤ 2 / iw + 2 / ih by
    obtain ⟨k1, k2, k3⟩ := key
    refine ⟨(ww - w) / 2, (wh - h) / 2, w, h, ?_, by omega, by omega, by omega, by omega, by omega,
      by omega, k3⟩
    unfold fitRect32
    rw [hd]
    dsimp only
    rw [if_pos ⟨k1, k2⟩, half_floor (by omega), half_floor (by omega)]
  unfold fitSize32 at hd
  by_cases hc : ih < wh ∧ iw < ww
  · rw [if_pos hc, Prod.mk.injEq] at hd
    obtain ⟨rfl, rfl⟩ := hd
    refine ⟨by omega, by omega, le_rfl, le_rfl, fun _ => ⟨rfl, rfl⟩, fun h => absurd ⟨hc.2, hc.1⟩ h, ?_⟩
    rw [div_self hi'.ne', div_self hh'.ne', sub_self, abs_zero]
    positivity
  · rw [if_neg hc, if_neg (by omega)] at hd
    dsimp only at hd
    rw [if_neg (by omega), if_neg (by omega), nat32 (by omega), nat32 (by omega),
      nat32 (by omega), nat32 (by omega), Prod.mk.injEq] at hd
    have sw := abs_le.1 (scale_back h1 hiw hww)
    have sh := abs_le.1 (scale_back h2 hih hwh)
    have ws0 : 0 ≤ rnd32 ((ww : ℚ) / iw) := rnd_nonneg (by positivity)
    have hs0 : 0 ≤ rnd32 ((wh : ℚ) / ih) := rnd_nonneg (by positivity)
    have one : Rep 24 (-149) (1 : ℚ) := ⟨1, 0, by norm_num, by norm_num, by norm_num⟩
    have hs1 : min (rnd32 ((ww : ℚ) / iw)) (rnd32 ((wh : ℚ) / ih)) ≤ 1 := by
      rcases not_and_or.1 hc with hc | hc
      · refine (min_le_right _ _).trans (rnd_le (by norm_num) one ?_)
        rw [div_le_one hh']; exact_mod_cast not_lt.1 hc
      · refine (min_le_left _ _).trans (rnd_le (by norm_num) one ?_)
        rw [div_le_one hi']; exact_mod_cast not_lt.1 hc
    have hsw := min_le_left (rnd32 ((ww : ℚ) / iw)) (rnd32 ((wh : ℚ) / ih))
    have hsh := min_le_right (rnd32 ((ww : ℚ) / iw)) (rnd32 ((wh : ℚ) / ih))
    have hsc := min_choice (rnd32 ((ww : ℚ) / iw)) (rnd32 ((wh : ℚ) / ih))
    have hs := le_min ws0 hs0
    generalize min (rnd32 ((ww : ℚ) / iw)) (rnd32 ((wh : ℚ) / ih)) = s at *
    have pw := mul_le_mul_of_nonneg_right hsw hi'.le
    have ph := mul_le_mul_of_nonneg_right hsh hh'.le
    have p1 := mul_le_mul_of_nonneg_right hs1 hi'.le
    have p2 := mul_le_mul_of_nonneg_right hs1 hh'.le
    rw [one_mul] at p1 p2
    obtain ⟨rfl, rfl⟩ := hd
    refine ⟨floor_le_of_half hww (by linarith), floor_le_of_half hwh (by linarith),
      floor_le_of_half hiw (by linarith), floor_le_of_half hih (by linarith), fun h => absurd ⟨h.2, h.1⟩ hc,
      fun _ => ?_, ?_⟩
    · rcases hsc with e | e
      · exact Or.inl (le_floor_of_half hww (by rw [e]; linarith))
      · exact Or.inr (le_floor_of_half hwh (by rw [e]; linarith))
    · have n1 := abs_le.1 (prod_near hs p1 (by omega))
      have n2 := abs_le.1 (prod_near hs p2 (by omega))
      have r1 : 0 ≤ rnd32 (s * iw) := rnd_nonneg (mul_nonneg hs hi'.le)
      have r2 : 0 ≤ rnd32 (s * ih) := rnd_nonneg (mul_nonneg hs hh'.le)
      have f1 := Nat.floor_le r1
      have f2 := Nat.floor_le r2
      have g1 := Nat.lt_floor_add_one (rnd32 (s * iw))
      have g2 := Nat.lt_floor_add_one (rnd32 (s * ih))
      have q1 : |(⌊rnd32 (s * iw)⌋₊ : ℚ) / iw - s| ≤ 2 / iw := by
        rw [show (⌊rnd32 (s * iw)⌋₊ : ℚ) / iw - s = ((⌊rnd32 (s * iw)⌋₊ : ℚ) - s * iw) / iw by field_simp,
          abs_div, abs_of_pos hi']
        refine div_le_div_of_nonneg_right ?_ hi'.le
        rw [abs_le]
        constructor <;> linarith [n1.1, n1.2]
      have q2 : |s - (⌊rnd32 (s * ih)⌋₊ : ℚ) / ih| ≤ 2 / ih := by
        rw [show s - (⌊rnd32 (s * ih)⌋₊ : ℚ) / ih = (s * ih - (⌊rnd32 (s * ih)⌋₊ : ℚ)) / ih by field_simp,
          abs_div, abs_of_pos hh']
        refine div_le_div_of_nonneg_right ?_ hh'.le
        rw [abs_le]
        constructor <;> linarith [n2.1, n2.2]
      exact (abs_sub_le _ s _).trans (add_le_add q1 q2)

/-- **C141, thin images vanish.** An image more than about 150 times as wide as high, in the smallest window, is
scaled to height 0: nothing is shown of it. -/
theorem C141_negation : fitRect32 1000 1 150 150 = some (0, 75, 150, 0) := by decide +kernel

/-- **C141.** A larger image keeps a positive height unless it is about as many times wider than high as the
window has columns; beyond twice that ratio it is scaled to height 0. -/
theorem C141_height (iw ih ww wh : Nat) (h1 : 0 < iw) (h2 : 0 < ih) (h4 : 2 ≤ wh)
    (hc : ¬ (ih < wh ∧ iw < ww)) (hiw : iw ≤ 2 ^ 22) (hih : ih ≤ 2 ^ 22) (hww : ww ≤ 2 ^ 22)
    (hwh : wh ≤ 2 ^ 22) :
    (2 * iw ≤ ww * ih → 1 ≤ (fitSize32 iw ih ww wh).2) ∧
    (2 * (ww * ih) ≤ iw → (fitSize32 iw ih ww wh).2 = 0) := by
  have hi' : (0 : ℚ) < iw := by exact_mod_cast h1
  have hh' : (0 : ℚ) < ih := by exact_mod_cast h2
  unfold fitSize32
  rw [if_neg hc, if_neg (by omega)]
  dsimp only
  rw [if_neg (by omega), if_neg (by omega), nat32 (by omega), nat32 (by omega),
      nat32 (by omega), nat32 (by omega)]
  have sh := abs_le.1 (scale_back h2 hih hwh)
  have half : Rep 24 (-149) ((1 : ℚ) / 2) := ⟨1, -1, by norm_num, by norm_num, by norm_num⟩
  have one : Rep 24 (-149) (1 : ℚ) := ⟨1, 0, by norm_num, by norm_num, by norm_num⟩
  constructor
  · intro h
    have hr : 2 * (iw : ℚ) ≤ ww * ih := by exact_mod_cast h
    have s2 := abs_le.1 (scale_back (w := 2) h2 hih (by norm_num))
    have m : rnd32 (((2 : Nat) : ℚ) / ih) ≤ rnd32 ((ww : ℚ) / iw) := by
      refine rnd_mono (by norm_num) ?_
      rw [div_le_div_iff₀ hh' hi']
      push_cast; linarith
    have w2 : (2 : ℚ) ≤ wh := by exact_mod_cast h4
    refine Nat.le_floor ?_
    rw [Nat.cast_one]
    refine le_rnd (by norm_num) one ?_
    rcases min_choice (rnd32 ((ww : ℚ) / iw)) (rnd32 ((wh : ℚ) / ih)) with e | e
    · rw [e]
      have := mul_le_mul_of_nonneg_right m hh'.le
      push_cast at s2 this
      linarith [s2.1]
    · rw [e]; linarith [sh.1]
  · intro h
    have hr : 2 * ((ww : ℚ) * ih) ≤ iw := by exact_mod_cast h
    rw [Nat.floor_eq_zero]
    have m2 : rnd32 ((ww : ℚ) / iw) * ih ≤ 3 / 4 := by
      have e := rnd_error_mixed (p := 24) (emin := -149) ((ww : ℚ) / iw)
      rw [abs_of_nonneg (show (0 : ℚ) ≤ (ww : ℚ) / iw by positivity)] at e
      have h2 : (2 : ℚ) ^ ((-149 : Int) - 1) ≤ 1 / 2 ^ 100 := by norm_num
      have h3 : (2 : ℚ) ^ (-((24 : Nat) : Int)) = 1 / 2 ^ 24 := by norm_num
      rw [h3] at e
      have e2 : rnd32 ((ww : ℚ) / iw) ≤ (ww : ℚ) / iw * (1 + 1 / 2 ^ 24) + 1 / 2 ^ 100 := by
        linarith [(abs_le.1 e).2]
      have e3 := mul_le_mul_of_nonneg_right e2 hh'.le
      have e4 : (ww : ℚ) / iw * ih ≤ 1 / 2 := by
        rw [div_mul_eq_mul_div, div_le_iff₀ hi']; linarith
      have hi2 : (ih : ℚ) ≤ 2 ^ 22 := by exact_mod_cast hih
      have e5 : ((ww : ℚ) / iw * (1 + 1 / 2 ^ 24) + 1 / 2 ^ 100) * ih =
        (ww : ℚ) / iw * ih * (1 + 1 / 2 ^ 24) + ih * (1 / 2 ^ 100) := by ring
      rw [e5] at e3
      linarith
    have m3 := mul_le_mul_of_nonneg_right (min_le_left (rnd32 ((ww : ℚ) / iw)) (rnd32 ((wh : ℚ) / ih))) hh'.le
    have : rnd32 (min (rnd32 ((ww : ℚ) / iw)) (rnd32 ((wh : ℚ) / ih)) * ih) ≤ 3 / 4 :=
      rnd_le (by norm_num) ⟨3, -2, by norm_num, by norm_num, by norm_num⟩ (m3.trans m2)
    linarith

-- a photograph in a smaller window, an image of the window's size, a small image
example : fitRect32 4000 3000 800 800 = some (0, 100, 800, 600) := by decide +kernel
example : fitRect32 640 480 640 480 = some (0, 0, 640, 480) := by decide +kernel
example : fitRect32 100 50 151 150 = some (25, 50, 100, 50) := by decide +kernel

/-- **C141, images without pixels.** An image with one side 0 that is not smaller than the window keeps the zero
side, and its other side is scaled to the window's up to one pixel; an image with both sides 0 stays as it is. -/
theorem C141_empty (i ww wh : Nat) (h1 : 0 < i) (hi : i ≤ 2 ^ 22) (hww : ww ≤ 2 ^ 22) (hwh : wh ≤ 2 ^ 22) :
    (¬ (i < wh ∧ 0 < ww) → (fitSize32 0 i ww wh).1 = 0 ∧ (fitSize32 0 i ww wh).2 ≤ wh ∧
      wh ≤ (fitSize32 0 i ww wh).2 + 1) ∧
    (¬ (0 < wh ∧ i < ww) → (fitSize32 i 0 ww wh).2 = 0 ∧ (fitSize32 i 0 ww wh).1 ≤ ww ∧
      ww ≤ (fitSize32 i 0 ww wh).1 + 1) ∧
    fitSize32 0 0 ww wh = (0, 0) := by
  have z : rnd32 (((0 : Nat) : ℚ)) = 0 := by rw [nat32 (by omega)]; norm_num
  have z' : rnd32 (0 : ℚ) = 0 := by simpa using z
  have sw := abs_le.1 (scale_back h1 hi hww)
  have sh := abs_le.1 (scale_back h1 hi hwh)
  refine ⟨fun hc => ?_, fun hc => ?_, ?_⟩
  · unfold fitSize32
    rw [if_neg hc, if_neg (by omega)]
    dsimp only
    rw [if_pos rfl, z, mul_zero, z', nat32 (n := wh) (by omega), nat32 (n := i) (by omega)]
    exact ⟨Nat.floor_zero, floor_le_of_half hwh (by linarith), le_floor_of_half hwh (by linarith)⟩
  · unfold fitSize32
    rw [if_neg hc, if_neg (by omega)]
    dsimp only
    rw [if_neg (by omega), if_pos rfl, z, mul_zero, z', nat32 (n := ww) (by omega), nat32 (n := i) (by omega)]
    exact ⟨Nat.floor_zero, floor_le_of_half hww (by linarith), le_floor_of_half hww (by linarith)⟩
  · unfold fitSize32
    split_ifs <;> simp_all

example : fitSize32 0 300 150 150 = (0, 150) ∧ fitSize32 500 0 150 150 = (150, 0) := by decide +kernel

end Verif.Float
