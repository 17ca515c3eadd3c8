import Verif.Float.Basic
import Verif.Gradients.Props
import Mathlib.Analysis.Real.Sqrt
import Mathlib.Tactic.IntervalCases
/-
Property C116: gradient magnitudes computed in `f32`.
-/
namespace Verif.Float
open Verif.Filter Verif.Gradients

/-- `gradient_magnitude` in `f32`, gradients.rs:157-159: the arguments are `i16` values converted to
`f32`, `powi(2)` is one rounded multiplication, the square root is correctly rounded and `as u16`
truncates and saturates. -/
noncomputable def gradientMagnitude32 (dx dy : Int) : Nat :=
  min 65535 ⌊rnd32 (√(rnd32 (rnd32 ((dx : ℝ) * dx) + rnd32 ((dy : ℝ) * dy))))⌋₊

/-- `gradients` in `f32`, gradients.rs:99-154. -/
noncomputable def gradients32 {ι β : Type _} (z : β) (im : Image (ι → Nat)) (hk vk : Kernel Int)
    (f : (ι → Nat) → β) : Option (Image β) :=
  (filterI16 im hk).bind fun hor => (filterI16 im vk).bind fun ver =>
  forYX 0 im.h 0 im.w (Image.new im.w im.h z) fun x y out =>
    (hor.get x y).bind fun h => (ver.get x y).bind fun v =>
    out.put x y (f fun c => gradientMagnitude32 (h c) (v c))

theorem rnd32_nat {n : Nat} (h : n ≤ 2 ^ 24) : rnd32 (n : ℝ) = n := by
  have := rnd_int (K := ℝ) (p := 24) (emin := -149) (n := n) (by norm_num) (by norm_num)
    (by rw [abs_of_nonneg (by positivity)]; exact_mod_cast h)
  exact_mod_cast this

theorem sq_cast (d : Int) : (d : ℝ) * d = ((d.natAbs ^ 2 : Nat) : ℝ) := by
  have : d * d = ((d.natAbs ^ 2 : Nat) : Int) := by push_cast; rw [sq_abs]; ring
  rw [← Int.cast_mul, this, Int.cast_natCast]

/-- The magnitude is the exact integer square root while the sum of squares is below `2 ^ 24`. -/
theorem magnitude_exact (dx dy : Int) (h : dx ^ 2 + dy ^ 2 < 2 ^ 24) :
    gradientMagnitude32 dx dy = gradientMagnitude dx dy := by
  unfold gradientMagnitude32 gradientMagnitude
  rw [sq_cast, sq_cast]
  have hs : dx.natAbs ^ 2 + dy.natAbs ^ 2 < 2 ^ 24 := by
    have : ((dx.natAbs ^ 2 + dy.natAbs ^ 2 : Nat) : Int) < 2 ^ 24 := by
      push_cast; rw [sq_abs, sq_abs]; exact h
    exact_mod_cast this
  rw [rnd32_nat (by omega), rnd32_nat (by omega), ← Nat.cast_add, rnd32_nat (by omega)]
  generalize dx.natAbs ^ 2 + dy.natAbs ^ 2 = s at hs
  set n := Nat.sqrt s with hn
  have h1 : n * n ≤ s := Nat.sqrt_le s
  have h2 : s < (n + 1) * (n + 1) := Nat.lt_succ_sqrt s
  have hn12 : n < 4096 := by
    by_contra hc
    have : 4096 * 4096 ≤ n * n := Nat.mul_le_mul (by omega) (by omega)
    omega
  have lo : (n : ℝ) ≤ √(s : ℝ) := by
    refine Real.le_sqrt_of_sq_le ?_
    rw [sq]; exact_mod_cast h1
  have hfl : (n : ℝ) ≤ rnd32 (√(s : ℝ)) := by
    refine le_rnd (by norm_num) ⟨n, 0, ?_, by norm_num, by simp⟩ lo
    rw [abs_of_nonneg (by positivity)]
    norm_num
    omega
  have hN : (0 : ℝ) < (n : ℝ) + 1 := by positivity
  have hN' : (n : ℝ) + 1 ≤ 4096 := by exact_mod_cast hn12
  have up : √(s : ℝ) < (n : ℝ) + 1 - 1 / 8192 := by
    rw [Real.sqrt_lt' (by nlinarith)]
    have h3 : (s : ℝ) ≤ ((n : ℝ) + 1) * (n + 1) - 1 := by
      have : s + 1 ≤ (n + 1) * (n + 1) := h2
      have : (s : ℝ) + 1 ≤ ((n : ℝ) + 1) * (n + 1) := by exact_mod_cast this
      linarith
    nlinarith
  have hlt : rnd32 (√(s : ℝ)) < (n : ℝ) + 1 := by
    have e := rnd_error_lt (K := ℝ) (p := 24) (emin := -149) (x := √(s : ℝ)) (k := 12) (by norm_num)
      (by rw [abs_of_nonneg (Real.sqrt_nonneg _)]; norm_num; linarith)
    norm_num at e
    have := (abs_le.1 e).2
    linarith
  have : ⌊rnd32 (√(s : ℝ))⌋₊ = n := by
    rw [Nat.floor_eq_iff (le_trans (by positivity) hfl)]
    exact ⟨hfl, hlt⟩
  rw [this]
  omega

/-- For all 16-bit arguments the magnitude differs from the integer square root by at most one. -/
theorem magnitude_within_one (dx dy : Int) (hx : |dx| ≤ 32768) (hy : |dy| ≤ 32768) :
    gradientMagnitude32 dx dy ≤ gradientMagnitude dx dy + 1 ∧
      gradientMagnitude dx dy ≤ gradientMagnitude32 dx dy + 1 := by
  by_cases h0 : dx = 0 ∧ dy = 0
  · obtain ⟨rfl, rfl⟩ := h0
    rw [magnitude_exact 0 0 (by norm_num)]
    omega
  unfold gradientMagnitude32 gradientMagnitude
  rw [sq_cast, sq_cast]
  have hx' : dx.natAbs ^ 2 ≤ 2 ^ 30 := by
    have : dx.natAbs ≤ 32768 := by have := abs_le.1 hx; omega
    calc _ ≤ 32768 ^ 2 := Nat.pow_le_pow_left this 2
      _ = _ := by norm_num
  have hy' : dy.natAbs ^ 2 ≤ 2 ^ 30 := by
    have : dy.natAbs ≤ 32768 := by have := abs_le.1 hy; omega
    calc _ ≤ 32768 ^ 2 := Nat.pow_le_pow_left this 2
      _ = _ := by norm_num
  have hs1 : 1 ≤ dx.natAbs ^ 2 + dy.natAbs ^ 2 := by
    by_contra hc
    have a : dx.natAbs ^ 2 = 0 := by omega
    have b : dy.natAbs ^ 2 = 0 := by omega
    exact h0 ⟨by simpa using a, by simpa using b⟩
  generalize dx.natAbs ^ 2 = a at *
  generalize dy.natAbs ^ 2 = b at *
  clear h0 hx hy dx dy
  set n := Nat.sqrt (a + b) with hn
  have h1 : n * n ≤ a + b := Nat.sqrt_le (a + b)
  have h2 : a + b < (n + 1) * (n + 1) := Nat.lt_succ_sqrt (a + b)
  -- relative error of one rounding of a number that is zero or at least one
  have rel : ∀ x : ℝ, 0 ≤ x → (x = 0 ∨ 1 / 2 ≤ x) →
      x * (1 - 1 / 2 ^ 24) ≤ rnd32 x ∧ rnd32 x ≤ x * (1 + 1 / 2 ^ 24) := by
    intro x hx hx1
    rcases hx1 with rfl | hx1
    · rw [rnd32, rnd_zero]; norm_num
    have := rnd_error_rel (K := ℝ) (p := 24) (emin := -149) (x := x)
      (by rw [abs_of_nonneg hx]; refine le_trans ?_ hx1; norm_num)
    rw [abs_of_nonneg hx, abs_le] at this
    have e : (2 : ℝ) ^ (-((24 : Nat) : Int)) = 1 / 2 ^ 24 := by norm_num
    rw [e] at this
    constructor
    · linarith [this.1]
    · linarith [this.2]
  have natc : ∀ m : Nat, (m : ℝ) = 0 ∨ 1 / 2 ≤ (m : ℝ) := by
    intro m
    rcases Nat.eq_zero_or_pos m with h | h
    · left; exact_mod_cast h
    · right
      have : (1 : ℝ) ≤ m := by exact_mod_cast h
      linarith
  obtain ⟨a1, a2⟩ := rel a (by positivity) (natc a)
  obtain ⟨b1, b2⟩ := rel b (by positivity) (natc b)
  set A := rnd32 (a : ℝ)
  set B := rnd32 (b : ℝ)
  set S : ℝ := (a : ℝ) + b with hS
  have hS1 : 1 ≤ S := by rw [hS]; exact_mod_cast hs1
  have hS2 : S ≤ 2 ^ 31 := by
    have : a + b ≤ 2 ^ 31 := by omega
    rw [hS]; exact_mod_cast this
  have ab1 : S * (1 - 1 / 2 ^ 24) ≤ A + B := by rw [hS]; linarith
  have ab2 : A + B ≤ S * (1 + 1 / 2 ^ 24) := by rw [hS]; linarith
  have abpos : 1 / 2 ≤ A + B := by
    refine le_trans ?_ ab1
    nlinarith
  obtain ⟨c1, c2⟩ := rel (A + B) (by linarith) (Or.inr abpos)
  set C := rnd32 (A + B)
  have cS1 : S * (1 - 1 / 2 ^ 24) ^ 2 ≤ C := by
    refine le_trans ?_ c1
    rw [sq, ← mul_assoc]
    exact mul_le_mul_of_nonneg_right ab1 (by norm_num)
  have cS2 : C ≤ S * (1 + 1 / 2 ^ 24) ^ 2 := by
    refine le_trans c2 ?_
    rw [sq, ← mul_assoc]
    exact mul_le_mul_of_nonneg_right ab2 (by norm_num)
  have q1 : √S * (1 - 1 / 2 ^ 24) ≤ √C := by
    refine Real.le_sqrt_of_sq_le ?_
    rw [mul_pow, Real.sq_sqrt (by linarith)]
    exact cS1
  have q2 : √C ≤ √S * (1 + 1 / 2 ^ 24) := by
    rw [Real.sqrt_le_left (mul_nonneg (Real.sqrt_nonneg _) (by norm_num))]
    rw [mul_pow, Real.sq_sqrt (by linarith)]
    exact cS2
  have r1 : 1 ≤ √S := by
    refine Real.le_sqrt_of_sq_le ?_
    simpa using hS1
  have r2 : √S ≤ 2 ^ 16 := by
    rw [Real.sqrt_le_left (by norm_num)]
    refine le_trans hS2 ?_
    norm_num
  obtain ⟨d1, d2⟩ := rel (√C) (Real.sqrt_nonneg _) (Or.inr (by refine le_trans ?_ q1; nlinarith))
  set R := rnd32 (√C)
  have R1 : √S - 1 ≤ R := by
    refine le_trans ?_ d1
    have := mul_le_mul_of_nonneg_right q1 (by norm_num : (0 : ℝ) ≤ 1 - 1 / 2 ^ 24)
    refine le_trans ?_ this
    nlinarith
  have R2 : R < √S + 1 := by
    refine lt_of_le_of_lt d2 ?_
    have := mul_le_mul_of_nonneg_right q2 (by norm_num : (0 : ℝ) ≤ 1 + 1 / 2 ^ 24)
    refine lt_of_le_of_lt this ?_
    nlinarith
  have hlo : (n : ℝ) ≤ √S := by
    refine Real.le_sqrt_of_sq_le ?_
    rw [sq, hS]
    exact_mod_cast h1
  have hhi : √S < (n : ℝ) + 1 := by
    rw [Real.sqrt_lt' (by positivity), sq, hS]
    exact_mod_cast h2
  have hn16 : n ≤ 65536 := by
    have : (n : ℝ) ≤ 65536 := by linarith
    exact_mod_cast this
  have k1 : ⌊R⌋₊ < n + 2 := by
    rw [Nat.floor_lt (by linarith)]
    push_cast
    linarith
  have k2 : n - 1 ≤ ⌊R⌋₊ := by
    refine Nat.le_floor ?_
    rcases Nat.eq_zero_or_pos n with h | h
    · rw [h]; norm_num; linarith
    · rw [Nat.cast_sub h]; push_cast; linarith
  omega

/-- The pixels of `gradients` in `f32`. -/
theorem gradients32_eq {ι β : Type _} (z : β) (im : Image (ι → Nat)) (hk vk : Kernel Int)
    (f : (ι → Nat) → β) (gh gv : ι → Nat → Nat → Int)
    (hh : Computes (filterI16 im hk) im gh) (hv : Computes (filterI16 im vk) im gv) :
    ∃ out, gradients32 z im hk vk f = some out ∧ out.w = im.w ∧ out.h = im.h ∧
      ∀ x y, x < im.w → y < im.h →
        out.px x y = f fun c => gradientMagnitude32 (gh c x y) (gv c x y) := by
  obtain ⟨oh, eh, wh, hh', ph⟩ := hh
  obtain ⟨ov, ev, wv, hv', pv⟩ := hv
  unfold gradients32
  rw [eh, Option.bind_some, ev, Option.bind_some]
  obtain ⟨out, e, h1, h2, h3⟩ := raster_put (w := im.w) (h := im.h) (s := Image.new im.w im.h z)
    (f := fun x y out => (oh.get x y).bind fun h => (ov.get x y).bind fun v =>
      out.put x y (f fun c => gradientMagnitude32 (h c) (v c)))
    (fun x y => f fun c => gradientMagnitude32 (oh.px x y c) (ov.px x y c)) rfl rfl
    (fun x y out hx hy _ _ _ _ => by
      rw [Image.get_of_inB (by omega) (by omega), Option.bind_some,
        Image.get_of_inB (by omega) (by omega), Option.bind_some])
  refine ⟨out, e, h1, h2, fun x y hx hy => ?_⟩
  rw [h3 x y hx hy]
  congr 1
  funext c
  rw [ph x y hx hy c, pv x y hx hy c]

/-- Every magnitude of the result is the exact integer part of the Euclidean length. -/
def ExactMagnitudes {ι β : Type _} (r : Option (Image β)) (im : Image (ι → Nat))
    (f : (ι → Nat) → β) (gh gv : ι → Nat → Nat → Int) : Prop :=
  ∃ out, r = some out ∧ out.w = im.w ∧ out.h = im.h ∧
    ∀ x y, x < im.w → y < im.h → ∃ m : ι → Nat, out.px x y = f m ∧
      ∀ c, (m c : Int) ^ 2 ≤ gh c x y ^ 2 + gv c x y ^ 2 ∧
        gh c x y ^ 2 + gv c x y ^ 2 < ((m c : Int) + 1) ^ 2

theorem isqrt_bounds (p q : Int) : (gradientMagnitude p q : Int) ^ 2 ≤ p ^ 2 + q ^ 2 ∧
    p ^ 2 + q ^ 2 < ((gradientMagnitude p q : Int) + 1) ^ 2 := by
  unfold gradientMagnitude
  have k1 := Nat.sqrt_le' (p.natAbs ^ 2 + q.natAbs ^ 2)
  have k2 := Nat.lt_succ_sqrt' (p.natAbs ^ 2 + q.natAbs ^ 2)
  have hp : p ^ 2 + q ^ 2 = ((p.natAbs ^ 2 + q.natAbs ^ 2 : Nat) : Int) := by
    push_cast; rw [sq_abs, sq_abs]
  rw [hp]
  constructor
  · exact_mod_cast k1
  · exact_mod_cast k2

/-- **C116.** In `f32`, the Sobel and the Prewitt magnitudes of every 8-bit image are exactly the integer
parts of the Euclidean lengths. -/
theorem C116_sobel_prewitt {ι β : Type _} (z : β) (im : Image (ι → Nat)) (h : IsU8 im)
    (f : (ι → Nat) → β) :
    ExactMagnitudes (gradients32 z im sobelH sobelV f) im f (hDiff 1 2 im) (vDiff 1 2 im) ∧
    ExactMagnitudes (gradients32 z im prewittH prewittV f) im f (hDiff 1 1 im) (vDiff 1 1 im) := by
  have key : ∀ (a b : Int) (hk vk : Kernel Int), 0 ≤ a → 0 ≤ b → 2 * a + b ≤ 4 →
      Computes (filterI16 im hk) im (hDiff a b im) → Computes (filterI16 im vk) im (vDiff a b im) →
      ExactMagnitudes (gradients32 z im hk vk f) im f (hDiff a b im) (vDiff a b im) := by
    intro a b hk vk ha hb hab c1 c2
    obtain ⟨out, e1, e2, e3, e4⟩ := gradients32_eq z im hk vk f _ _ c1 c2
    refine ⟨out, e1, e2, e3, fun x y hx hy => ⟨_, e4 x y hx hy, fun c => ?_⟩⟩
    have bnd : ∀ d1 d2 d3 : Int, |d1| ≤ 255 → |d2| ≤ 255 → |d3| ≤ 255 →
        |a * d1 + b * d2 + a * d3| ≤ 1020 := by
      intro d1 d2 d3 h1 h2 h3
      rw [abs_le] at *
      constructor <;> nlinarith
    have hd : ∀ dx dy dx' dy' : Int, |at' im c x y dx dy - at' im c x y dx' dy'| ≤ 255 := by
      intro dx dy dx' dy'
      have := at_range h c hx hy dx dy
      have := at_range h c hx hy dx' dy'
      rw [abs_le]
      omega
    have b1 : |hDiff a b im c x y| ≤ 1020 := bnd _ _ _ (hd _ _ _ _) (hd _ _ _ _) (hd _ _ _ _)
    have b2 : |vDiff a b im c x y| ≤ 1020 := bnd _ _ _ (hd _ _ _ _) (hd _ _ _ _) (hd _ _ _ _)
    rw [magnitude_exact _ _ (by
      have s1 := sq_le_sq' (abs_le.1 b1).1 (abs_le.1 b1).2
      have s2 := sq_le_sq' (abs_le.1 b2).1 (abs_le.1 b2).2
      omega)]
    exact isqrt_bounds _ _
  obtain ⟨v1, v2, -, -, v5, v6⟩ := C76_values im h
  exact ⟨key 1 2 _ _ (by norm_num) (by norm_num) (by norm_num) v1 v2,
    key 1 1 _ _ (by norm_num) (by norm_num) (by norm_num) v5 v6⟩

/-- **C116.** For arbitrary kernels the magnitude is off by at most one. -/
theorem C116_within_one {ι β : Type _} (z : β) (im : Image (ι → Nat)) (hk vk : Kernel Int)
    (f : (ι → Nat) → β) (gh gv : ι → Nat → Nat → Int)
    (hh : Computes (filterI16 im hk) im gh) (hv : Computes (filterI16 im vk) im gv)
    (bh : ∀ c x y, x < im.w → y < im.h → |gh c x y| ≤ 32768 ∧ |gv c x y| ≤ 32768) :
    ∃ out, gradients32 z im hk vk f = some out ∧ out.w = im.w ∧ out.h = im.h ∧
      ∀ x y, x < im.w → y < im.h → ∃ m : ι → Nat, out.px x y = f m ∧
        ∀ c, (m c = 0 ∨ ((m c : Int) - 1) ^ 2 ≤ gh c x y ^ 2 + gv c x y ^ 2) ∧
          gh c x y ^ 2 + gv c x y ^ 2 < ((m c : Int) + 2) ^ 2 := by
  obtain ⟨out, e1, e2, e3, e4⟩ := gradients32_eq z im hk vk f _ _ hh hv
  refine ⟨out, e1, e2, e3, fun x y hx hy => ⟨_, e4 x y hx hy, fun c => ?_⟩⟩
  obtain ⟨b1, b2⟩ := bh c x y hx hy
  obtain ⟨k1, k2⟩ := magnitude_within_one _ _ b1 b2
  obtain ⟨i1, i2⟩ := isqrt_bounds (gh c x y) (gv c x y)
  set m := gradientMagnitude32 (gh c x y) (gv c x y)
  set n := gradientMagnitude (gh c x y) (gv c x y)
  constructor
  · by_cases hm : m = 0
    · exact Or.inl hm
    · right
      refine le_trans ?_ i1
      exact pow_le_pow_left₀ (by omega) (by omega) 2
  · refine lt_of_lt_of_le i2 ?_
    exact pow_le_pow_left₀ (by omega) (by omega) 2

theorem magnitude_4019_821 : gradientMagnitude32 4019 821 = 4102 := by
  unfold gradientMagnitude32
  have e : rnd32 (rnd32 (((4019 : Int) : ℝ) * (4019 : Int)) + rnd32 (((821 : Int) : ℝ) * (821 : Int))) =
      (16826402 : ℝ) := by
    rw [sq_cast, sq_cast, rnd32_nat (by decide), rnd32_nat (by decide)]
    have h1 : rnd32 (16826402 : ℚ) = 16826402 := by decide +kernel
    have h2 := rnd_cast (K := ℝ) (p := 24) (emin := -149) 16826402
    rw [show rnd 24 (-149) (16826402 : ℚ) = 16826402 from h1] at h2
    push_cast at h2
    norm_num
    exact h2
  rw [e]
  have u : √(16826402 : ℝ) < 4102 := by
    rw [Real.sqrt_lt' (by norm_num)]; norm_num
  have l : 4102 - 0.0002439 < √(16826402 : ℝ) := by
    refine Real.lt_sqrt_of_sq_lt ?_
    norm_num
  have hx0 : 0 < √(16826402 : ℝ) := by linarith
  have : rnd32 (√(16826402 : ℝ)) = 4102 := by
    have := rnd_eval (K := ℝ) (p := 24) (emin := -149) (x := √(16826402 : ℝ)) 12 8400896
      (by rw [abs_of_pos hx0]; norm_num; linarith) (by rw [abs_of_pos hx0]; norm_num; linarith)
      (by
        refine roundEven_near ?_
        rw [abs_lt]
        norm_num
        constructor <;> linarith)
    rw [rnd32, this]
    norm_num
  rw [this]
  norm_num

/-- Scharr responses of this image are 4019 and 821 at the centre. -/
def scharrWitness : Image (Unit → Nat) :=
  ⟨3, 3, fun x y _ => ([[0, 0, 252], [0, 0, 251], [4, 80, 255]].getD y []).getD x 0⟩

/-- **C116.** With the Scharr kernels the magnitude is not always exact: for this 8-bit image the result
at the centre is 4102 although the length is below 4102. -/
theorem C116_scharr_negation : IsU8 scharrWitness ∧
    hDiff 3 10 scharrWitness () 1 1 ^ 2 + vDiff 3 10 scharrWitness () 1 1 ^ 2 < 4102 ^ 2 ∧
    ∃ out, gradients32 0 scharrWitness scharrH scharrV (fun p => p ()) = some out ∧
      out.px 1 1 = 4102 := by
  have h8 : IsU8 scharrWitness := by
    refine ⟨by decide, by decide, ?_⟩
    intro x y c hx hy
    have hx' : x < 3 := hx
    have hy' : y < 3 := hy
    interval_cases x <;> interval_cases y <;> decide +revert
  refine ⟨h8, by decide, ?_⟩
  obtain ⟨-, -, v3, v4, -, -⟩ := C76_values scharrWitness h8
  obtain ⟨out, e1, -, -, e4⟩ := gradients32_eq 0 scharrWitness scharrH scharrV (fun p => p ()) _ _ v3 v4
  refine ⟨out, e1, ?_⟩
  rw [e4 1 1 (by decide) (by decide)]
  have a : hDiff 3 10 scharrWitness () 1 1 = 4019 := by decide
  have b : vDiff 3 10 scharrWitness () 1 1 = 821 := by decide
  dsimp only
  rw [a, b]
  exact magnitude_4019_821

/-- The Scharr responses of an 8-bit image satisfy the bounds of `C116_within_one`. -/
example (c : Unit) : |hDiff 3 10 scharrWitness c 1 1| ≤ 32768 ∧ |vDiff 3 10 scharrWitness c 1 1| ≤ 32768 := by
  decide +revert

end Verif.Float
