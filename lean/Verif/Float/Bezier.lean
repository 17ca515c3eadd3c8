import Verif.Float.Line
import Verif.Float.Polygon
import Verif.Float.F32
import Verif.Drawing.OutlineProps
/-
`draw_cubic_bezier_curve_mut` in single precision, src/drawing/bezier.rs:27-80: every `f32` operation is
followed by rounding.  `f32::sqrt` is a parameter with the accuracy `GoodSqrt` (the real one is correctly
rounded); `powi(2)` is one multiplication; `f32::round` of these values is exact.
-/
namespace Verif.Float
open Verif.Definitions Verif.Drawing

universe u

/-- One coordinate of `cubic_bezier_curve` before rounding to a pixel, in `f32`, bezier.rs:38-51. -/
def bezierCoord32 (s e a b t : ℚ) : ℚ :=
  let t2 := rnd32 (t * t)
  let t3 := rnd32 (t2 * t)
  let mt := rnd32 (1 - t)
  let mt2 := rnd32 (mt * mt)
  let mt3 := rnd32 (mt2 * mt)
  rnd32 (rnd32 (rnd32 (rnd32 (s * mt3) + rnd32 (rnd32 (rnd32 (3 * a) * mt2) * t)) +
    rnd32 (rnd32 (rnd32 (3 * b) * mt) * t2)) + rnd32 (e * t3))

/-- `cubic_bezier_curve` in `f32`, bezier.rs:38-53. -/
def bezierAt32 (s e a b : ℚ × ℚ) (t : ℚ) : Int × Int :=
  (roundQ (bezierCoord32 s.1 e.1 a.1 b.1 t), roundQ (bezierCoord32 s.2 e.2 a.2 b.2 t))

/-- `distance` in `f32`, bezier.rs:55-57. -/
def bezierDist32 (sqrt : ℚ → ℚ) (p q : ℚ × ℚ) : ℚ :=
  sqrt (rnd32 (rnd32 (rnd32 (p.1 - q.1) * rnd32 (p.1 - q.1)) +
    rnd32 (rnd32 (p.2 - q.2) * rnd32 (p.2 - q.2))))

/-- `num_segments` in `f32`, bezier.rs:60-64; `as i32` truncates and saturates. -/
def bezierSegments32 (sqrt : ℚ → ℚ) (s e a b : ℚ × ℚ) : Int :=
  let bound := rnd32 (rnd32 (bezierDist32 sqrt s a + bezierDist32 sqrt a b) + bezierDist32 sqrt b e)
  min 2147483647 (truncQ (rnd32 (sqrt (rnd32 (rnd32 (bound * bound) + 800)) / 8)))

/-- `draw_cubic_bezier_curve_mut` in `f32`, bezier.rs:27-80. -/
def drawBezier32 {α : Type _} (sqrt : ℚ → ℚ) (op : α → α → α) (im : Image α) (s e a b : ℚ × ℚ)
    (c : α) : Option (Image α) :=
  let n := bezierSegments32 sqrt s e a b
  let tInterval := rnd32 (1 / rnd32 (n : ℚ))
  (forRange 0 n.toNat ((im, 0) : Image α × ℚ) fun i st =>
    let t2 := rnd32 (rnd32 (rnd32 (i : ℚ) + 1) * tInterval)
    let p := bezierAt32 s e a b st.2
    let q := bezierAt32 s e a b t2
    (drawLine32 op st.1 ((p.1 : ℚ), (p.2 : ℚ)) ((q.1 : ℚ), (q.2 : ℚ)) c).map fun im => (im, t2)).map
      Prod.fst

/-- A square root as accurate as that of `f32`. -/
structure GoodSqrt (sqrt : ℚ → ℚ) : Prop where
  nonneg : ∀ x, 0 ≤ x → 0 ≤ sqrt x
  err : ∀ x, 0 ≤ x → |sqrt x ^ 2 - x| ≤ x / 2 ^ 20

/-! ### Rounding errors -/

/-- A bit more than the rounding unit, covering underflow. -/
def uu : ℚ := 1 / 2 ^ 24 + 1 / 2 ^ 149

theorem uu_err {z B : ℚ} (h : |z| ≤ B) (hB : 1 ≤ B) : |rnd32 z - z| ≤ B * uu := by
  have := rnd_error_mixed (p := 24) (emin := -149) z
  refine this.trans ?_
  have h2 : |z| * 2 ^ (-((24 : Nat) : Int)) ≤ B * (1 / 2 ^ 24) := by
    rw [zpow_neg, ← one_div]
    exact mul_le_mul_of_nonneg_right h (by positivity)
  have h3 : (2 : ℚ) ^ ((-149 : Int) - 1) ≤ B * (1 / 2 ^ 149) := by
    have : (2 : ℚ) ^ ((-149 : Int) - 1) ≤ 1 * (1 / 2 ^ 149) := by norm_num
    exact this.trans (mul_le_mul_of_nonneg_right hB (by positivity))
  unfold uu
  linarith

theorem rep1 : Rep 24 (-149) (1 : ℚ) := ⟨1, 0, by norm_num, by norm_num, by norm_num⟩

theorem rnd_unit_bez {x : ℚ} (h0 : 0 ≤ x) (h1 : x ≤ 1) : 0 ≤ rnd32 x ∧ rnd32 x ≤ 1 :=
  ⟨rnd_nonneg h0, rnd_le (by norm_num) rep1 h1⟩

/-- A rounded product of a rounded number of size `M` and one in the unit interval. -/
theorem mul_err {x' x y' y d e X : ℚ} (hX : 1 ≤ X) (hx : |x'| ≤ X) (hy0 : 0 ≤ y') (hy1 : y' ≤ 1)
    (hyy0 : 0 ≤ y) (hyy1 : y ≤ 1) (hd : |x' - x| ≤ d) (he : |y' - y| ≤ e) :
    |rnd32 (x' * y') - x * y| ≤ X * uu + X * e + d := by
  have b : |x' * y'| ≤ X := by
    rw [abs_mul, abs_of_nonneg hy0]
    calc |x'| * y' ≤ X * 1 := mul_le_mul hx hy1 hy0 (by linarith)
      _ = X := mul_one X
  have h1 := uu_err b hX
  have e1 : x' * y' - x * y = x' * (y' - y) + (x' - x) * y := by ring
  have h2 : |x' * y' - x * y| ≤ X * e + d := by
    rw [e1]
    refine (abs_add_le _ _).trans (add_le_add ?_ ?_)
    · rw [abs_mul]
      exact mul_le_mul hx he (abs_nonneg _) (by linarith)
    · rw [abs_mul, abs_of_nonneg hyy0]
      calc |x' - x| * y ≤ d * 1 := mul_le_mul hd hyy1 hyy0 ((abs_nonneg _).trans hd)
        _ = d := mul_one d
  have := abs_sub_le (rnd32 (x' * y')) (x' * y') (x * y)
  linarith

/-- Error of one coordinate. -/
theorem coord_err {s e a b t M : ℚ} (hM : 1 ≤ M) (ht0 : 0 ≤ t) (ht1 : t ≤ 1) (hs : |s| ≤ M)
    (he : |e| ≤ M) (ha : |a| ≤ M) (hb : |b| ≤ M) :
    |bezierCoord32 s e a b t - bezierCoord s e a b t| ≤ 50 * M * uu := by
  have hu0 : 0 < uu := by unfold uu; norm_num
  have hu1 : uu ≤ 1 / 2 ^ 23 := by unfold uu; norm_num
  have z : ∀ x : ℚ, |x - x| ≤ 0 := fun x => by simp
  unfold bezierCoord32 bezierCoord
  dsimp only
  have ab1 : ∀ {x : ℚ}, 0 ≤ x → x ≤ 1 → |x| ≤ 1 := fun h0 h1 => by rw [abs_of_nonneg h0]; exact h1
  have m0 : 0 ≤ 1 - t := by linarith
  have m1 : 1 - t ≤ 1 := by linarith
  have tt0 : 0 ≤ t * t := mul_nonneg ht0 ht0
  have tt1 : t * t ≤ 1 := mul_le_one₀ ht1 ht0 ht1
  have ttt0 : 0 ≤ t * t * t := mul_nonneg tt0 ht0
  have ttt1 : t * t * t ≤ 1 := mul_le_one₀ tt1 ht0 ht1
  have mm0 : 0 ≤ (1 - t) * (1 - t) := mul_nonneg m0 m0
  have mm1 : (1 - t) * (1 - t) ≤ 1 := mul_le_one₀ m1 m0 m1
  have mmm0 : 0 ≤ (1 - t) * (1 - t) * (1 - t) := mul_nonneg mm0 m0
  have mmm1 : (1 - t) * (1 - t) * (1 - t) ≤ 1 := mul_le_one₀ mm1 m0 m1
  -- the weights
  have e2 := mul_err (le_refl 1) (ab1 ht0 ht1) ht0 ht1 ht0 ht1 (z t) (z t)
  obtain ⟨b20, b21⟩ := rnd_unit_bez tt0 tt1
  set t2 := rnd32 (t * t)
  have e3 := mul_err (le_refl 1) (ab1 b20 b21) ht0 ht1 ht0 ht1 e2 (z t)
  obtain ⟨b30, b31⟩ := rnd_unit_bez (mul_nonneg b20 ht0) (mul_le_one₀ b21 ht0 ht1)
  set t3 := rnd32 (t2 * t)
  have f1 := uu_err (ab1 m0 m1) (le_refl 1)
  obtain ⟨c10, c11⟩ := rnd_unit_bez m0 m1
  set mt := rnd32 (1 - t)
  have f2 := mul_err (le_refl 1) (ab1 c10 c11) c10 c11 m0 m1 f1 f1
  obtain ⟨c20, c21⟩ := rnd_unit_bez (mul_nonneg c10 c10) (mul_le_one₀ c11 c10 c11)
  set mt2 := rnd32 (mt * mt)
  have f3 := mul_err (le_refl 1) (ab1 c20 c21) c10 c11 m0 m1 f2 f1
  obtain ⟨c30, c31⟩ := rnd_unit_bez (mul_nonneg c20 c10) (mul_le_one₀ c21 c10 c11)
  set mt3 := rnd32 (mt2 * mt)
  -- the four terms
  have T1 := mul_err hM hs c30 c31 mmm0 mmm1 (z s) f3
  have T4 := mul_err hM he b30 b31 ttt0 ttt1 (z e) e3
  have h3 : ∀ {x : ℚ}, |x| ≤ M → |3 * x| ≤ 3 * M := fun h => by
    rw [abs_mul, abs_of_pos (by norm_num : (0 : ℚ) < 3)]; linarith
  have small : M * uu ≤ M / 2 ^ 23 := by
    have := mul_le_mul_of_nonneg_left hu1 (by linarith : 0 ≤ M)
    linarith
  have near : ∀ {x y d B : ℚ}, |x - y| ≤ d → |y| ≤ B → |x| ≤ B + d := by
    intro x y d B h1 h2
    have := abs_sub_abs_le_abs_sub x y
    linarith
  have A1 := uu_err (h3 ha) (by linarith)
  have A1b : |rnd32 (3 * a)| ≤ 31 / 10 * M := by
    have := near A1 (h3 ha)
    linarith
  have A2 := mul_err (X := 31 / 10 * M) (by linarith) A1b c20 c21 mm0 mm1 A1 f2
  have A2b : |rnd32 (rnd32 (3 * a) * mt2)| ≤ 32 / 10 * M := by
    have h : |3 * a * ((1 - t) * (1 - t))| ≤ 3 * M := by
      rw [abs_mul, abs_of_nonneg mm0]
      calc _ ≤ 3 * M * 1 := mul_le_mul (h3 ha) mm1 mm0 (by linarith)
        _ = 3 * M := mul_one _
    have := near A2 h
    linarith
  have A3 := mul_err (X := 32 / 10 * M) (by linarith) A2b ht0 ht1 ht0 ht1 A2 (z t)
  have B1 := uu_err (h3 hb) (by linarith)
  have B1b : |rnd32 (3 * b)| ≤ 31 / 10 * M := by
    have := near B1 (h3 hb)
    linarith
  have B2 := mul_err (X := 31 / 10 * M) (by linarith) B1b c10 c11 m0 m1 B1 f1
  have B2b : |rnd32 (rnd32 (3 * b) * mt)| ≤ 32 / 10 * M := by
    have h : |3 * b * (1 - t)| ≤ 3 * M := by
      rw [abs_mul, abs_of_nonneg m0]
      calc _ ≤ 3 * M * 1 := mul_le_mul (h3 hb) m1 m0 (by linarith)
        _ = 3 * M := mul_one _
    have := near B2 h
    linarith
  have B3 := mul_err (X := 32 / 10 * M) (by linarith) B2b b20 b21 tt0 tt1 B2 e2
  -- exact partial sums
  set x1 := s * ((1 - t) * (1 - t) * (1 - t)) with hx1
  set x2 := 3 * a * ((1 - t) * (1 - t)) * t with hx2
  set x3 := 3 * b * (1 - t) * (t * t) with hx3
  set x4 := e * (t * t * t) with hx4
  have w2 : 0 ≤ 3 * ((1 - t) * (1 - t)) * t := by positivity
  have w3 : 0 ≤ 3 * (1 - t) * (t * t) := by positivity
  have g1 : |x1| ≤ M * ((1 - t) * (1 - t) * (1 - t)) := by
    rw [hx1, abs_mul, abs_of_nonneg mmm0]; exact mul_le_mul_of_nonneg_right hs mmm0
  have g2 : |x2| ≤ M * (3 * ((1 - t) * (1 - t)) * t) := by
    rw [hx2, show 3 * a * ((1 - t) * (1 - t)) * t = a * (3 * ((1 - t) * (1 - t)) * t) by ring, abs_mul,
      abs_of_nonneg w2]
    exact mul_le_mul_of_nonneg_right ha w2
  have g3 : |x3| ≤ M * (3 * (1 - t) * (t * t)) := by
    rw [hx3, show 3 * b * (1 - t) * (t * t) = b * (3 * (1 - t) * (t * t)) by ring, abs_mul,
      abs_of_nonneg w3]
    exact mul_le_mul_of_nonneg_right hb w3
  have g4 : |x4| ≤ M * (t * t * t) := by
    rw [hx4, abs_mul, abs_of_nonneg ttt0]; exact mul_le_mul_of_nonneg_right he ttt0
  have gs : M * ((1 - t) * (1 - t) * (1 - t)) + M * (3 * ((1 - t) * (1 - t)) * t) +
      M * (3 * (1 - t) * (t * t)) + M * (t * t * t) = M := by ring
  have M0 : 0 ≤ M := by linarith
  have n2 : 0 ≤ M * (3 * ((1 - t) * (1 - t)) * t) := mul_nonneg M0 w2
  have n3 : 0 ≤ M * (3 * (1 - t) * (t * t)) := mul_nonneg M0 w3
  have n4 : 0 ≤ M * (t * t * t) := mul_nonneg M0 ttt0
  have s12 : |x1 + x2| ≤ M := (abs_add_le _ _).trans (by linarith)
  have s123 : |x1 + x2 + x3| ≤ M := (abs_add_le _ _).trans (by linarith [abs_add_le x1 x2])
  have s1234 : |x1 + x2 + x3 + x4| ≤ M :=
    (abs_add_le _ _).trans (by linarith [abs_add_le x1 x2, abs_add_le (x1 + x2) x3])
  -- the sums
  have add : ∀ {p p' q q' d d' : ℚ}, |p' - p| ≤ d → |q' - q| ≤ d' → |p + q| ≤ M → d + d' ≤ M / 100 →
      |rnd32 (p' + q') - (p + q)| ≤ d + d' + 101 / 100 * M * uu := by
    intro p p' q q' d d' h1 h2 h3 h4
    have h5 : |p' + q' - (p + q)| ≤ d + d' := by
      rw [show p' + q' - (p + q) = (p' - p) + (q' - q) by ring]
      exact (abs_add_le _ _).trans (add_le_add h1 h2)
    have h6 : |p' + q'| ≤ 101 / 100 * M := by linarith [near h5 h3]
    have h7 := uu_err h6 (by linarith)
    linarith [abs_sub_le (rnd32 (p' + q')) (p' + q') (p + q)]
  have S1 := add T1 A3 s12 (by linarith)
  have S2 := add S1 B3 s123 (by linarith)
  have S3 := add S2 T4 s1234 (by linarith)
  refine S3.trans ?_
  have := mul_pos (by linarith : 0 < M) hu0
  linarith

/-! ### The parameter values -/

/-- The parameter of sample `i` out of `n`. -/
def paramAt (n i : Nat) : ℚ := rnd32 ((i : ℚ) * rnd32 (1 / (n : ℚ)))

theorem recip_err {n : Nat} (h1 : 1 ≤ n) (h2 : n ≤ 2 ^ 24) :
    |rnd32 (1 / (n : ℚ)) - 1 / n| ≤ 1 / n * (1 / 2 ^ 24) := by
  have hn : (0 : ℚ) < n := by exact_mod_cast h1
  have hn2 : (n : ℚ) ≤ 2 ^ 24 := by exact_mod_cast h2
  have hp : (0 : ℚ) < 1 / n := by positivity
  have := rnd_error_rel (p := 24) (emin := -149) (x := (1 / n : ℚ)) (by
    rw [abs_of_pos hp, le_div_iff₀ hn]
    have : (2 : ℚ) ^ ((-149 : Int) + ((24 : Nat) : Int) - 1) ≤ 1 / 2 ^ 24 := by norm_num
    calc _ ≤ (1 / 2 ^ 24 : ℚ) * 2 ^ 24 := mul_le_mul this hn2 hn.le (by norm_num)
      _ = 1 := by norm_num)
  rw [abs_of_pos hp] at this
  refine this.trans (le_of_eq ?_)
  norm_num

theorem paramAt_spec {n i : Nat} (h1 : 1 ≤ n) (h2 : n ≤ 2 ^ 24) (hi : i ≤ n) :
    0 ≤ paramAt n i ∧ paramAt n i ≤ 1 ∧ |paramAt n i - (i : ℚ) / n| ≤ 21 / 10 * uu := by
  have hn : (0 : ℚ) < n := by exact_mod_cast h1
  have hin : (i : ℚ) / n ≤ 1 := by rw [div_le_one hn]; exact_mod_cast hi
  have hin0 : (0 : ℚ) ≤ (i : ℚ) / n := by positivity
  have he := recip_err h1 h2
  have hd0 : 0 ≤ rnd32 (1 / (n : ℚ)) := rnd_nonneg (by positivity)
  set d := rnd32 (1 / (n : ℚ)) with hd
  have e1 : |(i : ℚ) * d - i / n| ≤ 1 / 2 ^ 24 := by
    have : (i : ℚ) * d - i / n = i * (d - 1 / n) := by ring
    rw [this, abs_mul, abs_of_nonneg (by positivity : (0 : ℚ) ≤ i)]
    calc (i : ℚ) * |d - 1 / n| ≤ i * (1 / n * (1 / 2 ^ 24)) :=
          mul_le_mul_of_nonneg_left he (by positivity)
      _ = i / n * (1 / 2 ^ 24) := by ring
      _ ≤ 1 * (1 / 2 ^ 24) := mul_le_mul_of_nonneg_right hin (by norm_num)
      _ = 1 / 2 ^ 24 := one_mul _
  have hle : (i : ℚ) * d ≤ 1 + 1 / 2 ^ 24 := by linarith [(abs_le.1 e1).2]
  refine ⟨rnd_nonneg (by positivity), ?_, ?_⟩
  · have := rnd_mono (K := ℚ) (p := 24) (emin := -149) (by norm_num) hle
    have h1 : rnd32 (1 + 1 / 2 ^ 24 : ℚ) = 1 := by decide +kernel
    calc paramAt n i ≤ rnd32 (1 + 1 / 2 ^ 24 : ℚ) := this
      _ = 1 := h1
  · have h := uu_err (z := (i : ℚ) * d) (B := 1 + 1 / 2 ^ 24)
      (by rw [abs_of_nonneg (by positivity)]; exact hle) (by norm_num)
    have t := abs_sub_le (paramAt n i) ((i : ℚ) * d) ((i : ℚ) / n)
    have h' : |paramAt n i - (i : ℚ) * d| ≤ (1 + 1 / 2 ^ 24) * uu := h
    have : (1 / 2 ^ 24 : ℚ) ≤ uu := by unfold uu; norm_num
    have u0 : 0 < uu := by unfold uu; norm_num
    have : (1 / 2 ^ 24) * uu ≤ 1 / 10 * uu := mul_le_mul_of_nonneg_right (by norm_num) u0.le
    linarith

theorem bernstein_close {s a b e t u M : ℚ} (ht0 : 0 ≤ t) (ht1 : t ≤ 1) (hu0 : 0 ≤ u) (hu1 : u ≤ 1)
    (hs : |s| ≤ M) (he : |e| ≤ M) (ha : |a| ≤ M) (hb : |b| ≤ M) :
    |bernstein s a b e t - bernstein s a b e u| ≤ 18 * M * |t - u| := by
  have leg : ∀ {x y : ℚ}, |x| ≤ M → |y| ≤ M → |x - y| ≤ 2 * M := fun h1 h2 =>
    (abs_sub _ _).trans (by linarith)
  have key : ∀ {t u : ℚ}, 0 ≤ t → t ≤ u → u ≤ 1 →
      |bernstein s a b e u - bernstein s a b e t| ≤ 18 * M * (u - t) := by
    intro t u h0 h1 h2
    refine (bernstein_lipschitz s a b e t u h0 h1 h2).trans ?_
    refine mul_le_mul_of_nonneg_right ?_ (by linarith)
    linarith [leg hs ha, leg ha hb, leg hb he]
  rcases le_total t u with h | h
  · rw [abs_sub_comm, abs_sub_comm t u, abs_of_nonneg (by linarith : 0 ≤ u - t)]
    exact key ht0 h hu1
  · rw [abs_of_nonneg (by linarith : 0 ≤ t - u)]
    exact key hu0 h ht1

/-- A sample in single precision is close to the sample of the curve. -/
theorem sample_err {s e a b M : ℚ} {n i : Nat} (h1 : 1 ≤ n) (h2 : n ≤ 2 ^ 24) (hi : i ≤ n) (hM : 1 ≤ M)
    (hs : |s| ≤ M) (he : |e| ≤ M) (ha : |a| ≤ M) (hb : |b| ≤ M) :
    |bezierCoord32 s e a b (paramAt n i) - bernstein s a b e ((i : ℚ) / n)| ≤ 3 * M / 2 ^ 19 := by
  obtain ⟨p0, p1, p2⟩ := paramAt_spec h1 h2 hi
  have hn : (0 : ℚ) < n := by exact_mod_cast h1
  have hin : (i : ℚ) / n ≤ 1 := by rw [div_le_one hn]; exact_mod_cast hi
  have c := coord_err hM p0 p1 hs he ha hb
  have hbern : bezierCoord s e a b (paramAt n i) = bernstein s a b e (paramAt n i) := by
    unfold bezierCoord bernstein; ring
  rw [hbern] at c
  have l := bernstein_close (e := e) p0 p1 (by positivity : (0 : ℚ) ≤ (i : ℚ) / n) hin hs he ha hb
  have l2 : 18 * M * |paramAt n i - (i : ℚ) / n| ≤ 18 * M * (21 / 10 * uu) :=
    mul_le_mul_of_nonneg_left p2 (by linarith)
  have t := abs_sub_le (bezierCoord32 s e a b (paramAt n i)) (bernstein s a b e (paramAt n i))
    (bernstein s a b e ((i : ℚ) / n))
  have hu : M * uu ≤ M * (101 / 100 / 2 ^ 24) :=
    mul_le_mul_of_nonneg_left (by unfold uu; norm_num) (by linarith)
  linarith

/-! ### The number of segments -/

theorem rnd_pow_le {x : ℚ} (k : Nat) (h : x ≤ 2 ^ k) : rnd32 x ≤ 2 ^ k := by
  refine rnd_le (by norm_num) ⟨1, k, by norm_num, by omega, ?_⟩ h
  rw [zpow_natCast]; norm_num

theorem rnd_abs_pow {x : ℚ} (k : Nat) (h : |x| ≤ 2 ^ k) : |rnd32 x| ≤ 2 ^ k := by
  rw [abs_le] at *
  refine ⟨?_, rnd_pow_le k h.2⟩
  refine le_rnd (by norm_num) ⟨-1, k, by norm_num, by omega, ?_⟩ h.1
  rw [zpow_natCast]; norm_num

theorem GoodSqrt.le {sqrt : ℚ → ℚ} (hq : GoodSqrt sqrt) {x y : ℚ} (hx : 0 ≤ x) (hy : 0 ≤ y)
    (h : 2 * x ≤ y ^ 2) : sqrt x ≤ y := by
  have h1 := (abs_le.1 (hq.err x hx)).2
  have h2 : sqrt x ^ 2 ≤ y ^ 2 := by linarith
  have := abs_le_of_sq_le_sq h2 hy
  exact (le_abs_self _).trans this

theorem segments_bounds {sqrt : ℚ → ℚ} (hq : GoodSqrt sqrt) {s e a b : ℚ × ℚ}
    (hM : ∀ p ∈ [s, e, a, b], |p.1| ≤ 2 ^ 16 ∧ |p.2| ≤ 2 ^ 16) :
    3 ≤ bezierSegments32 sqrt s e a b ∧ bezierSegments32 sqrt s e a b ≤ 2 ^ 24 := by
  have dist : ∀ p q : ℚ × ℚ, p ∈ [s, e, a, b] → q ∈ [s, e, a, b] →
      0 ≤ bezierDist32 sqrt p q ∧ bezierDist32 sqrt p q ≤ 2 ^ 18 := by
    intro p q hp hq'
    obtain ⟨p1, p2⟩ := hM p hp
    obtain ⟨q1, q2⟩ := hM q hq'
    have d1 : |rnd32 (p.1 - q.1)| ≤ 2 ^ 17 := rnd_abs_pow 17 ((abs_sub _ _).trans (by linarith))
    have d2 : |rnd32 (p.2 - q.2)| ≤ 2 ^ 17 := rnd_abs_pow 17 ((abs_sub _ _).trans (by linarith))
    have sq : ∀ z : ℚ, |z| ≤ 2 ^ 17 → 0 ≤ rnd32 (z * z) ∧ rnd32 (z * z) ≤ 2 ^ 34 := by
      intro z hz
      refine ⟨rnd_nonneg (mul_self_nonneg z), rnd_pow_le 34 ?_⟩
      rw [abs_le] at hz
      nlinarith [hz.1, hz.2]
    obtain ⟨s1, s2⟩ := sq _ d1
    obtain ⟨s3, s4⟩ := sq _ d2
    unfold bezierDist32
    set X := rnd32 (rnd32 (p.1 - q.1) * rnd32 (p.1 - q.1))
    set Y := rnd32 (rnd32 (p.2 - q.2) * rnd32 (p.2 - q.2))
    have r0 : 0 ≤ rnd32 (X + Y) := rnd_nonneg (by linarith)
    have r1 : rnd32 (X + Y) ≤ 2 ^ 35 := rnd_pow_le 35 (by linarith)
    exact ⟨hq.nonneg _ r0, hq.le r0 (by norm_num) (by norm_num at *; linarith)⟩
  obtain ⟨a1, a2⟩ := dist s a (by simp) (by simp)
  obtain ⟨b1, b2⟩ := dist a b (by simp) (by simp)
  obtain ⟨c1, c2⟩ := dist b e (by simp) (by simp)
  unfold bezierSegments32
  dsimp only
  have d0 : 0 ≤ rnd32 (bezierDist32 sqrt s a + bezierDist32 sqrt a b) := rnd_nonneg (by linarith)
  have d1 := rnd_pow_le (x := bezierDist32 sqrt s a + bezierDist32 sqrt a b) 19 (by linarith)
  have e0 : 0 ≤ rnd32 (rnd32 (bezierDist32 sqrt s a + bezierDist32 sqrt a b) + bezierDist32 sqrt b e) :=
    rnd_nonneg (by linarith)
  have e1 := rnd_pow_le (x := rnd32 (bezierDist32 sqrt s a + bezierDist32 sqrt a b) +
    bezierDist32 sqrt b e) 20 (by linarith)
  set z := rnd32 (rnd32 (bezierDist32 sqrt s a + bezierDist32 sqrt a b) + bezierDist32 sqrt b e)
  have f0 : 0 ≤ rnd32 (z * z) := rnd_nonneg (mul_self_nonneg z)
  have f1 : rnd32 (z * z) ≤ 2 ^ 40 := rnd_pow_le 40 (by nlinarith)
  have g0 : 800 ≤ rnd32 (rnd32 (z * z) + 800) :=
    le_rnd (by norm_num) ⟨800, 0, by norm_num, by norm_num, by norm_num⟩ (by linarith)
  have g1 : rnd32 (rnd32 (z * z) + 800) ≤ 2 ^ 41 := rnd_pow_le 41 (by linarith)
  set R := rnd32 (rnd32 (z * z) + 800)
  have h0 : 24 ≤ sqrt R := by
    have q0 := hq.nonneg R (by linarith)
    have q1 := (abs_le.1 (hq.err R (by linarith))).1
    by_contra hc
    push Not at hc
    nlinarith
  have h1 : sqrt R ≤ 2 ^ 21 := hq.le (by linarith) (by norm_num) (by norm_num at *; linarith)
  have k0 : 3 ≤ rnd32 (sqrt R / 8) :=
    le_rnd (by norm_num) ⟨3, 0, by norm_num, by norm_num, by norm_num⟩ (by linarith)
  have k1 : rnd32 (sqrt R / 8) ≤ 2 ^ 18 := rnd_pow_le 18 (by linarith)
  have ht : truncQ (rnd32 (sqrt R / 8)) = ⌊rnd32 (sqrt R / 8)⌋ := by
    unfold truncQ
    rw [if_pos (by linarith)]
  rw [ht]
  have l0 : 3 ≤ ⌊rnd32 (sqrt R / 8)⌋ := Int.le_floor.2 (by exact_mod_cast k0)
  have l1 : ⌊rnd32 (sqrt R / 8)⌋ ≤ 2 ^ 18 := by
    have := Int.floor_le (rnd32 (sqrt R / 8))
    have : ((⌊rnd32 (sqrt R / 8)⌋ : Int) : ℚ) ≤ ((2 ^ 18 : Int) : ℚ) := by push_cast; linarith
    exact_mod_cast this
  omega

/-! ### The number of segments, from below -/

theorem rnd_low {x : ℚ} (h : 0 ≤ x) : x * (1 - 1 / 2 ^ 24) - 1 / 2 ^ 100 ≤ rnd32 x := by
  have := (abs_le.1 (rnd_error_mixed (p := 24) (emin := -149) x)).1
  rw [abs_of_nonneg h, zpow_neg] at this
  have h2 : (2 : ℚ) ^ ((-149 : Int) - 1) ≤ 1 / 2 ^ 100 := by norm_num
  have h3 : ((2 : ℚ) ^ ((24 : Nat) : Int))⁻¹ = 1 / 2 ^ 24 := by norm_num
  rw [h3] at this
  linarith

theorem sqrt_low {sqrt : ℚ → ℚ} (hq : GoodSqrt sqrt) {z W : ℚ} (hz : 0 ≤ z) (hW : rnd32 (z * z) ≤ W) :
    z * (1 - 1 / 2 ^ 19) - 1 / 8 ≤ sqrt W := by
  have W0 : 0 ≤ W := le_trans (rnd_nonneg (mul_self_nonneg z)) hW
  have s0 := hq.nonneg W W0
  rcases lt_or_ge z (1 / 8) with h | h
  · have : z * (1 - 1 / 2 ^ 19) ≤ 1 / 8 := by nlinarith
    linarith
  · have l := (rnd_low (mul_self_nonneg z)).trans hW
    have z64 : 1 / 64 ≤ z * z := by nlinarith
    have e := (abs_le.1 (hq.err W W0)).1
    have sq : (z * (1 - 1 / 2 ^ 19)) ^ 2 ≤ sqrt W ^ 2 := by
      have k1 : z * z * (1 - 1 / 2 ^ 23) ≤ W := by norm_num at *; linarith
      have k2 : W * (1 - 1 / 2 ^ 20) ≤ sqrt W ^ 2 := by linarith
      have k3 : (z * (1 - 1 / 2 ^ 19)) ^ 2 = z * z * (1 - 1 / 2 ^ 19) ^ 2 := by ring
      have k4 : z * z * (1 - 1 / 2 ^ 23) * (1 - 1 / 2 ^ 20) ≤ W * (1 - 1 / 2 ^ 20) :=
        mul_le_mul_of_nonneg_right k1 (by norm_num)
      have k5 : z * z * (1 - 1 / 2 ^ 19) ^ 2 ≤ z * z * ((1 - 1 / 2 ^ 23) * (1 - 1 / 2 ^ 20)) :=
        mul_le_mul_of_nonneg_left (by norm_num) (mul_self_nonneg z)
      rw [k3]; linarith
    have := abs_le_of_sq_le_sq sq s0
    have := le_abs_self (z * (1 - 1 / 2 ^ 19))
    linarith

theorem dist_low {sqrt : ℚ → ℚ} (hq : GoodSqrt sqrt) (p q : ℚ × ℚ) :
    |p.1 - q.1| * (1 - 1 / 2 ^ 18) - 1 / 4 ≤ bezierDist32 sqrt p q ∧
    |p.2 - q.2| * (1 - 1 / 2 ^ 18) - 1 / 4 ≤ bezierDist32 sqrt p q := by
  have key : ∀ z W : ℚ, rnd32 (rnd32 z * rnd32 z) ≤ W → |z| * (1 - 1 / 2 ^ 18) - 1 / 4 ≤ sqrt W := by
    intro z W h
    have h' : rnd32 (|rnd32 z| * |rnd32 z|) ≤ W := by rw [abs_mul_abs_self]; exact h
    have l := sqrt_low hq (abs_nonneg _) h'
    have m := rnd_error_mixed (p := 24) (emin := -149) z
    have m2 : |z| * (1 - 1 / 2 ^ 24) - 1 / 2 ^ 100 ≤ |rnd32 z| := by
      have h2 : (2 : ℚ) ^ ((-149 : Int) - 1) ≤ 1 / 2 ^ 100 := by norm_num
      have h3 : ((2 : ℚ) ^ ((24 : Nat) : Int))⁻¹ = 1 / 2 ^ 24 := by norm_num
      rw [zpow_neg, h3] at m
      have := abs_sub_abs_le_abs_sub z (rnd32 z)
      rw [abs_sub_comm] at this
      linarith
    have z0 := abs_nonneg z
    have : (|z| * (1 - 1 / 2 ^ 24) - 1 / 2 ^ 100) * (1 - 1 / 2 ^ 19) ≤ |rnd32 z| * (1 - 1 / 2 ^ 19) :=
      mul_le_mul_of_nonneg_right m2 (by norm_num)
    generalize |z| = Z at *
    generalize |rnd32 z| = Z' at *
    norm_num at l this ⊢
    linarith
  unfold bezierDist32
  refine ⟨key _ _ (le_rnd (by norm_num) (rep_rnd _) ?_),
    key _ _ (le_rnd (by norm_num) (rep_rnd _) ?_)⟩
  · exact le_add_of_nonneg_right (rnd_nonneg (mul_self_nonneg _))
  · exact le_add_of_nonneg_left (rnd_nonneg (mul_self_nonneg _))

theorem segments_low {sqrt : ℚ → ℚ} (hq : GoodSqrt sqrt) {s e a b : ℚ × ℚ}
    (hN : bezierSegments32 sqrt s e a b ≤ 2 ^ 24) {x y z : ℚ}
    (h1 : x * (1 - 1 / 2 ^ 18) - 1 / 4 ≤ bezierDist32 sqrt s a)
    (h2 : y * (1 - 1 / 2 ^ 18) - 1 / 4 ≤ bezierDist32 sqrt a b)
    (h3 : z * (1 - 1 / 2 ^ 18) - 1 / 4 ≤ bezierDist32 sqrt b e)
    (p1 : 0 ≤ bezierDist32 sqrt s a) (p2 : 0 ≤ bezierDist32 sqrt a b) (p3 : 0 ≤ bezierDist32 sqrt b e) :
    (1 - 1 / 2 ^ 15) * (x + y + z) ≤ 8 * (bezierSegments32 sqrt s e a b : ℚ) + 10 := by
  unfold bezierSegments32 at *
  dsimp only at *
  have a1 := rnd_low (add_nonneg p1 p2)
  have b0 : 0 ≤ rnd32 (bezierDist32 sqrt s a + bezierDist32 sqrt a b) := rnd_nonneg (add_nonneg p1 p2)
  have a2 := rnd_low (add_nonneg b0 p3)
  have b1 : 0 ≤ rnd32 (rnd32 (bezierDist32 sqrt s a + bezierDist32 sqrt a b) + bezierDist32 sqrt b e) :=
    rnd_nonneg (add_nonneg b0 p3)
  set w := rnd32 (rnd32 (bezierDist32 sqrt s a + bezierDist32 sqrt a b) + bezierDist32 sqrt b e)
  have w1 : (x + y + z) * (1 - 1 / 2 ^ 17) - 1 ≤ w := by
    norm_num at *
    linarith
  have r : rnd32 (w * w) ≤ rnd32 (rnd32 (w * w) + 800) :=
    le_rnd (by norm_num) (rep_rnd _) (by linarith)
  have a3 := sqrt_low hq b1 r
  have r0 : 0 ≤ rnd32 (rnd32 (w * w) + 800) := le_trans (rnd_nonneg (mul_self_nonneg w)) r
  have s0 := hq.nonneg _ r0
  have v0 : 0 ≤ sqrt (rnd32 (rnd32 (w * w) + 800)) / 8 := by linarith
  have a4 := rnd_low v0
  have v1 : 0 ≤ rnd32 (sqrt (rnd32 (rnd32 (w * w) + 800)) / 8) := rnd_nonneg v0
  set v := rnd32 (sqrt (rnd32 (rnd32 (w * w) + 800)) / 8)
  have ht : truncQ v = ⌊v⌋ := by
    unfold truncQ
    rw [if_pos v1]
  rw [ht] at hN ⊢
  have hm : min 2147483647 ⌊v⌋ = ⌊v⌋ := by omega
  rw [hm]
  have f := Int.lt_floor_add_one v
  have k1 : ((x + y + z) * (1 - 1 / 2 ^ 17) - 1) * (1 - 1 / 2 ^ 19) ≤ w * (1 - 1 / 2 ^ 19) :=
    mul_le_mul_of_nonneg_right w1 (by norm_num)
  generalize ((⌊v⌋ : Int) : ℚ) = F at *
  clear_value w v
  norm_num at k1 a3 a4 ⊢
  linarith

/-! ### Drawing -/

theorem bezierLoop32_eq {α : Type _} (op : α → α → α) (im : Image α) (s e a b : ℚ × ℚ) (c : α) (N : Nat)
    (hN : N ≤ 2 ^ 24)
    (hb : ∀ i ≤ N, |(bezierAt32 s e a b (paramAt N i)).1| ≤ 2 ^ 22 ∧
      |(bezierAt32 s e a b (paramAt N i)).2| ≤ 2 ^ 22) (n : Nat) (hn : n ≤ N) :
    (forRange 0 n ((im, 0) : Image α × ℚ) fun i st =>
      (drawLine32 op st.1 (((bezierAt32 s e a b st.2).1 : ℚ), ((bezierAt32 s e a b st.2).2 : ℚ))
        (((bezierAt32 s e a b (rnd32 (rnd32 (rnd32 (i : ℚ) + 1) * rnd32 (1 / rnd32 ((N : Nat) : ℚ))))).1 : ℚ),
          ((bezierAt32 s e a b (rnd32 (rnd32 (rnd32 (i : ℚ) + 1) *
            rnd32 (1 / rnd32 ((N : Nat) : ℚ))))).2 : ℚ)) c).map
        fun im => (im, rnd32 (rnd32 (rnd32 (i : ℚ) + 1) * rnd32 (1 / rnd32 ((N : Nat) : ℚ))))) =
    (forList ((List.range n).flatMap fun i : Nat =>
      segPts (bezierAt32 s e a b (paramAt N i)) (bezierAt32 s e a b (paramAt N (i + 1)))) im
      fun p out => drawIfInBounds op out p.1 p.2 c).map fun im => (im, paramAt N n) := by
  have nat32 : ∀ k : Nat, k ≤ 2 ^ 24 → rnd32 ((k : Nat) : ℚ) = k := by
    intro k hk
    have := rnd_int (K := ℚ) (p := 24) (emin := -149) (n := (k : Int)) (by norm_num) (by norm_num)
      (by rw [abs_of_nonneg (by positivity)]; exact_mod_cast hk)
    simpa using this
  have ht : ∀ i : Nat, i < N → rnd32 (rnd32 (rnd32 (i : ℚ) + 1) * rnd32 (1 / rnd32 ((N : Nat) : ℚ))) =
      paramAt N (i + 1) := by
    intro i hi
    have e1 : rnd32 ((i : ℚ) + 1) = ((i + 1 : Nat) : ℚ) := by
      rw [← nat32 (i + 1) (by omega)]; push_cast; rfl
    rw [nat32 i (by omega), nat32 N hN, e1, paramAt]
  induction n with
  | zero =>
    rw [forRange_empty le_rfl]
    have : paramAt N 0 = 0 := by
      unfold paramAt
      rw [Nat.cast_zero, zero_mul]
      exact rnd_zero
    simp [forList, this]
  | succ n ih =>
    rw [forRange_succ_last (Nat.zero_le _), ih (by omega), List.range_succ, List.flatMap_append,
      forList_append]
    generalize forList ((List.range n).flatMap _) im _ = o
    cases o with
    | none => rfl
    | some o =>
      rw [Option.map_some, Option.bind_some, Option.bind_some, List.flatMap_singleton]
      dsimp only
      rw [ht n (by omega)]
      obtain ⟨u1, u2⟩ := hb n (by omega)
      obtain ⟨v1, v2⟩ := hb (n + 1) (by omega)
      rw [C118_draw op o c _ _ u1 u2 v1 v2]
      exact congrArg (Option.map fun im => (im, paramAt N (n + 1))) (drawLineInt_eq op o _ _ _ _ c)

/-- The pixels `draw_cubic_bezier_curve_mut` colours. -/
theorem drawBezier32_pixels {α : Type u} (sqrt : ℚ → ℚ) (s e a b : ℚ × ℚ) (N : Nat) (N24 : N ≤ 2 ^ 24)
    (hN : (N : Int) = bezierSegments32 sqrt s e a b)
    (big : ∀ i ≤ N, |(bezierAt32 s e a b (paramAt N i)).1| ≤ 2 ^ 22 ∧
      |(bezierAt32 s e a b (paramAt N i)).2| ≤ 2 ^ 22) (im : Image α) (c : α) :
    ∃ out, drawBezier32 sqrt overwrite im s e a b c = some out ∧ out.w = im.w ∧ out.h = im.h ∧
      ∀ x y : Nat, im.InB x y →
        ((∃ i < N, ((x : Int), (y : Int)) ∈ segPts (bezierAt32 s e a b (paramAt N i))
          (bezierAt32 s e a b (paramAt N (i + 1)))) → out.px x y = c) ∧
        ((∀ i < N, ((x : Int), (y : Int)) ∉ segPts (bezierAt32 s e a b (paramAt N i))
          (bezierAt32 s e a b (paramAt N (i + 1)))) → out.px x y = im.px x y) := by
  set q : Nat → Int × Int := fun i => bezierAt32 s e a b (paramAt N i) with hqd
  have hNn : (bezierSegments32 sqrt s e a b).toNat = N := by omega
  obtain ⟨o, g1, g2, g3, g4⟩ := drawList_overwrite im c
    ((List.range N).flatMap fun i : Nat => segPts (q i) (q (i + 1)))
  have hm : ∀ p, p ∈ ((List.range N).flatMap fun i : Nat => segPts (q i) (q (i + 1))) ↔
      ∃ i < N, p ∈ segPts (q i) (q (i + 1)) := by
    intro p
    rw [List.mem_flatMap]
    simp only [List.mem_range]
  refine ⟨o, ?_, g2, g3, fun x y hxy => ⟨fun h => ?_, fun h => ?_⟩⟩
  · unfold drawBezier32
    dsimp only
    rw [hNn, ← hN, Int.cast_natCast, bezierLoop32_eq overwrite im s e a b c N N24 big N le_rfl, g1]
    rfl
  · rw [g4 x y hxy, if_pos ((hm _).2 h)]
  · rw [g4 x y hxy, if_neg]
    intro h'
    obtain ⟨i, hi, hp⟩ := (hm _).1 h'
    exact h i hi hp

/-- **C140.** In single precision, for end and control points with coordinates of at most `M` in
magnitude, `1 ≤ M ≤ 65536`: there are `N ≥ 3`, at least about an eighth of the horizontal and of the
vertical extent of the three legs of the control polygon, and pixels `q 0, …, q N`, where each coordinate of `q i` is
within `1/2 + 3 * M / 2^19` (at most 7/8) of the point of the cubic curve at parameter `i / N`, and digital
lines between consecutive `q i`, such that on every image the drawing never fails and colours exactly the
image pixels on these lines.  The first pixel is the rounded start point; the last one is the end point if
its coordinates are integers; and if the four points lie in a box with integer corners then every coloured
pixel does. -/
theorem C140_bezier_partial {sqrt : ℚ → ℚ} (hq : GoodSqrt sqrt) (s e a b : ℚ × ℚ) (M : ℚ) (hM1 : 1 ≤ M)
    (hM2 : M ≤ 65536) (hr1 : Rep 24 (-149) s.1) (hr2 : Rep 24 (-149) s.2)
    (hM : ∀ p ∈ [s, e, a, b], |p.1| ≤ M ∧ |p.2| ≤ M) :
    ∃ (N : Nat) (q : Nat → Int × Int) (L : Nat → List (Int × Int)), 3 ≤ N ∧
      (1 - 1 / 2 ^ 15) * (|s.1 - a.1| + |a.1 - b.1| + |b.1 - e.1|) ≤ 8 * (N : ℚ) + 10 ∧
      (1 - 1 / 2 ^ 15) * (|s.2 - a.2| + |a.2 - b.2| + |b.2 - e.2|) ≤ 8 * (N : ℚ) + 10 ∧
      q 0 = (roundQ s.1, roundQ s.2) ∧
      (∀ ex ey : Int, e = ((ex : ℚ), (ey : ℚ)) → q N = (ex, ey)) ∧
      (∀ i ≤ N, |((q i).1 : ℚ) - bernstein s.1 a.1 b.1 e.1 ((i : ℚ) / N)| ≤ 1 / 2 + 3 * M / 2 ^ 19 ∧
        |((q i).2 : ℚ) - bernstein s.2 a.2 b.2 e.2 ((i : ℚ) / N)| ≤ 1 / 2 + 3 * M / 2 ^ 19) ∧
      (∀ i < N, GoodLine (q i) (q (i + 1)) (L i)) ∧
      (∀ l t r d : Int, (∀ p ∈ [s, e, a, b], (l : ℚ) ≤ p.1 ∧ p.1 ≤ r ∧ (t : ℚ) ≤ p.2 ∧ p.2 ≤ d) →
        ∀ i < N, ∀ p ∈ L i, l ≤ p.1 ∧ p.1 ≤ r ∧ t ≤ p.2 ∧ p.2 ≤ d) ∧
      ∀ {α : Type u} (im : Image α) (c : α), ∃ out,
        drawBezier32 sqrt overwrite im s e a b c = some out ∧ out.w = im.w ∧ out.h = im.h ∧
        ∀ x y : Nat, im.InB x y →
          ((∃ i < N, ((x : Int), (y : Int)) ∈ L i) → out.px x y = c) ∧
          ((∀ i < N, ((x : Int), (y : Int)) ∉ L i) → out.px x y = im.px x y) := by
  obtain ⟨n3, n24⟩ := segments_bounds hq (s := s) (e := e) (a := a) (b := b) (fun p hp => by
    have := hM p hp
    constructor <;> norm_num at * <;> linarith [this.1, this.2])
  obtain ⟨N, hN⟩ : ∃ N : Nat, (N : Int) = bezierSegments32 sqrt s e a b :=
    ⟨(bezierSegments32 sqrt s e a b).toNat, Int.toNat_of_nonneg (by omega)⟩
  have N1 : 1 ≤ N := by omega
  have N24 : N ≤ 2 ^ 24 := by omega
  have hs := hM s (by simp)
  have he := hM e (by simp)
  have ha := hM a (by simp)
  have hb := hM b (by simp)
  have M0 : 3 * M / 2 ^ 19 ≤ 3 / 8 := by norm_num; linarith
  set q : Nat → Int × Int := fun i => bezierAt32 s e a b (paramAt N i) with hqd
  have er1 : ∀ i ≤ N, |bezierCoord32 s.1 e.1 a.1 b.1 (paramAt N i) -
      bernstein s.1 a.1 b.1 e.1 ((i : ℚ) / N)| ≤ 3 * M / 2 ^ 19 := fun i hi =>
    sample_err N1 N24 hi hM1 hs.1 he.1 ha.1 hb.1
  have er2 : ∀ i ≤ N, |bezierCoord32 s.2 e.2 a.2 b.2 (paramAt N i) -
      bernstein s.2 a.2 b.2 e.2 ((i : ℚ) / N)| ≤ 3 * M / 2 ^ 19 := fun i hi =>
    sample_err N1 N24 hi hM1 hs.2 he.2 ha.2 hb.2
  have hNpos : (0 : ℚ) < N := by exact_mod_cast N1
  have dist0 : ∀ p q, 0 ≤ bezierDist32 sqrt p q := fun p q =>
    hq.nonneg _ (rnd_nonneg (add_nonneg (rnd_nonneg (mul_self_nonneg _)) (rnd_nonneg (mul_self_nonneg _))))
  have i01 : ∀ i ≤ N, (0 : ℚ) ≤ (i : ℚ) / N ∧ (i : ℚ) / N ≤ 1 := fun i hi =>
    ⟨by positivity, by rw [div_le_one hNpos]; exact_mod_cast hi⟩
  have hbern : ∀ s e a b t : ℚ, bezierCoord s e a b t = bernstein s a b e t := by
    intro s e a b t; unfold bezierCoord bernstein; ring
  -- a coordinate stays in every integer interval that contains the four points
  have inside : ∀ (s e a b v : ℚ) (t : ℚ) (l r : Int), 0 ≤ t → t ≤ 1 →
      |v - bernstein s a b e t| ≤ 3 * M / 2 ^ 19 →
      (l : ℚ) ≤ s → (l : ℚ) ≤ e → (l : ℚ) ≤ a → (l : ℚ) ≤ b → s ≤ r → e ≤ r → a ≤ r → b ≤ r →
      l ≤ roundQ v ∧ roundQ v ≤ r := by
    intro s e a b v t l r h0 h1 h l1 l2 l3 l4 r1 r2 r3 r4
    rw [← hbern] at h
    have b1 := bezier_le s e a b t r h0 h1 r1 r2 r3 r4
    have b2 := le_bezier s e a b t l h0 h1 l1 l2 l3 l4
    obtain ⟨h2, h3⟩ := abs_le.1 h
    have e1 : roundQ ((l : ℚ) - 3 / 8) = l := Verif.Float.roundQ_near (by
      rw [show (l : ℚ) - 3 / 8 - l = -(3 / 8) by ring, abs_neg, abs_of_pos] <;> norm_num)
    have e2 : roundQ ((r : ℚ) + 3 / 8) = r := Verif.Float.roundQ_near (by
      rw [show (r : ℚ) + 3 / 8 - r = 3 / 8 by ring, abs_of_pos] <;> norm_num)
    refine ⟨?_, ?_⟩
    · rw [← e1]; exact roundQ_mono (by linarith)
    · rw [← e2]; exact roundQ_mono (by linarith)
  have big : ∀ i ≤ N, |(q i).1| ≤ 2 ^ 22 ∧ |(q i).2| ≤ 2 ^ 22 := by
    intro i hi
    have k : ∀ z : ℚ, |z| ≤ M → ((-65536 : Int) : ℚ) ≤ z ∧ z ≤ ((65536 : Int) : ℚ) := by
      intro z hz
      rw [abs_le] at hz
      push_cast
      constructor <;> linarith [hz.1, hz.2]
    obtain ⟨i0, i1⟩ := i01 i hi
    have w1 := inside s.1 e.1 a.1 b.1 _ _ (-65536) 65536 i0 i1 (er1 i hi) (k _ hs.1).1 (k _ he.1).1
      (k _ ha.1).1 (k _ hb.1).1 (k _ hs.1).2 (k _ he.1).2 (k _ ha.1).2 (k _ hb.1).2
    have w2 := inside s.2 e.2 a.2 b.2 _ _ (-65536) 65536 i0 i1 (er2 i hi) (k _ hs.2).1 (k _ he.2).1
      (k _ ha.2).1 (k _ hb.2).1 (k _ hs.2).2 (k _ he.2).2 (k _ ha.2).2 (k _ hb.2).2
    simp only [hqd, bezierAt32, abs_le]
    omega
  have hgood : ∀ i, GoodLine (q i) (q (i + 1)) (segPts (q i) (q (i + 1))) := fun i =>
    C42_bresenham _ _
  refine ⟨N, q, fun i => segPts (q i) (q (i + 1)), by omega, ?_, ?_, ?_, ?_, fun i hi => ⟨?_, ?_⟩,
    fun i _ => hgood i, fun l t r d hbox i hi p hp => ?_, fun im c => ?_⟩
  · have := segments_low hq n24 (dist_low hq s a).1
      (dist_low hq a b).1 (dist_low hq b e).1 (dist0 s a) (dist0 a b) (dist0 b e)
    rw [← hN, Int.cast_natCast] at this
    exact this
  · have := segments_low hq n24 (dist_low hq s a).2
      (dist_low hq a b).2 (dist_low hq b e).2 (dist0 s a) (dist0 a b) (dist0 b e)
    rw [← hN, Int.cast_natCast] at this
    exact this
  · have p0 : paramAt N 0 = 0 := by
      unfold paramAt
      rw [Nat.cast_zero, zero_mul]
      exact rnd_zero
    have z : rnd32 (0 : ℚ) = 0 := rnd_zero
    have o : rnd32 (1 : ℚ) = 1 := rnd_of_rep (by norm_num) rep1
    have c0 : ∀ s e a b : ℚ, Rep 24 (-149) s → bezierCoord32 s e a b 0 = s := by
      intro s e a b h
      have hs : rnd32 s = s := rnd_of_rep (by norm_num) h
      unfold bezierCoord32
      simp only [mul_zero, z, sub_zero, o, mul_one, hs, add_zero]
    simp only [hqd, p0, bezierAt32, c0 _ _ _ _ hr1, c0 _ _ _ _ hr2]
  · rintro ex ey rfl
    have e1 := er1 N le_rfl
    have e2 := er2 N le_rfl
    rw [div_self hNpos.ne'] at e1 e2
    have one : ∀ s a b e : ℚ, bernstein s a b e 1 = e := by
      intro s a b e; unfold bernstein; ring
    rw [one] at e1 e2
    simp only [hqd, bezierAt32]
    rw [Verif.Float.roundQ_near (lt_of_le_of_lt e1 (by linarith)), Verif.Float.roundQ_near (lt_of_le_of_lt e2 (by linarith))]
  · exact (abs_sub_le _ _ _).trans (add_le_add (roundQ_bound _) (er1 i hi))
  · exact (abs_sub_le _ _ _).trans (add_le_add (roundQ_bound _) (er2 i hi))
  · have hb' := (hgood i).box p hp
    have hin : ∀ k ≤ N, l ≤ (q k).1 ∧ (q k).1 ≤ r ∧ t ≤ (q k).2 ∧ (q k).2 ≤ d := by
      intro k hk
      obtain ⟨k0, k1⟩ := i01 k hk
      have b1 := hbox s (by simp)
      have b2 := hbox e (by simp)
      have b3 := hbox a (by simp)
      have b4 := hbox b (by simp)
      have w1 := inside _ _ _ _ _ _ l r k0 k1 (er1 k hk) b1.1 b2.1 b3.1 b4.1 b1.2.1 b2.2.1 b3.2.1 b4.2.1
      have w2 := inside _ _ _ _ _ _ t d k0 k1 (er2 k hk) b1.2.2.1 b2.2.2.1 b3.2.2.1 b4.2.2.1
        b1.2.2.2 b2.2.2.2 b3.2.2.2 b4.2.2.2
      exact ⟨w1.1, w1.2, w2.1, w2.2⟩
    have i1 := hin i (by omega)
    have i2 := hin (i + 1) (by omega)
    omega
  · exact drawBezier32_pixels sqrt s e a b N N24 hN big im c

/-- **C140, the rounded end point is missed.** The curve from (0, 0) to (327.5, 0) with both control points
at (0, 0) is cut into 41 segments; in `f32`, `41 * (1 / 41)` is less than one, and the last sample rounds to
327 although the end point rounds to 328.  So the pixel of the end point is never coloured, while the pixel
before it is. -/
theorem C140_negation {sqrt : ℚ → ℚ} (hq : GoodSqrt sqrt) :
    roundQ (655 / 2) = 328 ∧
    ∃ out, drawBezier32 sqrt overwrite (⟨400, 1, fun _ _ => false⟩ : Image Bool) (0, 0) (655 / 2, 0) (0, 0)
      (0, 0) true = some out ∧ out.px 327 0 = true ∧ out.px 328 0 = false := by
  have z : rnd32 (0 : ℚ) = 0 := rnd_zero
  have sq0 : sqrt 0 = 0 := by
    have := hq.err 0 le_rfl
    rw [zero_div, sub_zero] at this
    exact pow_eq_zero_iff (two_ne_zero) |>.1 (abs_nonpos_iff.1 this)
  have d0 : bezierDist32 sqrt (0, 0) (0, 0) = 0 := by
    unfold bezierDist32
    simp only [sub_zero, z, mul_zero, add_zero, sq0]
  have d1 : bezierDist32 sqrt (0, 0) (655 / 2, 0) = sqrt (429025 / 4) := by
    unfold bezierDist32
    have : rnd32 (rnd32 (rnd32 ((0 : ℚ) - 655 / 2) * rnd32 ((0 : ℚ) - 655 / 2)) +
      rnd32 (rnd32 ((0 : ℚ) - 0) * rnd32 ((0 : ℚ) - 0))) = 429025 / 4 := by decide +kernel
    exact congrArg sqrt this
  have rint : ∀ n : Nat, n ≤ 2 ^ 24 → Rep 24 (-149) (n : ℚ) := fun n hn =>
    ⟨n, 0, by rw [abs_of_nonneg (by positivity)]; exact_mod_cast hn, by norm_num, by simp⟩
  have lo : ∀ (n : Nat) (x : ℚ), n ≤ 2 ^ 24 → (n : ℚ) ≤ x → (n : ℚ) ≤ rnd32 x := fun n x hn h =>
    le_rnd (by norm_num) (rint n hn) h
  have hi : ∀ (n : Nat) (x : ℚ), n ≤ 2 ^ 24 → x ≤ (n : ℚ) → rnd32 x ≤ (n : ℚ) := fun n x hn h =>
    rnd_le (by norm_num) (rint n hn) h
  have sqlo : ∀ x y : ℚ, 0 ≤ x → 0 ≤ y → y ^ 2 ≤ x * (1 - 1 / 2 ^ 20) → y ≤ sqrt x := by
    intro x y hx hy h
    have h1 := (abs_le.1 (hq.err x hx)).1
    have h2 : y ^ 2 ≤ sqrt x ^ 2 := by linarith
    exact (le_abs_self _).trans (abs_le_of_sq_le_sq h2 (hq.nonneg x hx))
  have sqhi : ∀ x y : ℚ, 0 ≤ x → 0 ≤ y → x * (1 + 1 / 2 ^ 20) ≤ y ^ 2 → sqrt x ≤ y := by
    intro x y hx hy h
    have h1 := (abs_le.1 (hq.err x hx)).2
    have h2 : sqrt x ^ 2 ≤ y ^ 2 := by linarith
    exact (le_abs_self _).trans (abs_le_of_sq_le_sq h2 hy)
  have hN : ((41 : Nat) : Int) = bezierSegments32 sqrt (0, 0) (655 / 2, 0) (0, 0) (0, 0) := by
    unfold bezierSegments32
    dsimp only
    rw [d0, d1, add_zero, z, zero_add]
    have a1 : (327 : ℚ) ≤ rnd32 (sqrt (429025 / 4)) := by
      exact_mod_cast lo 327 _ (by norm_num) (sqlo _ _ (by norm_num) (by norm_num) (by norm_num))
    have a2 : rnd32 (sqrt (429025 / 4)) ≤ (328 : ℚ) := by
      exact_mod_cast hi 328 _ (by norm_num) (sqhi _ _ (by norm_num) (by norm_num) (by norm_num))
    set w := rnd32 (sqrt (429025 / 4))
    have b1 : ((106929 : Nat) : ℚ) ≤ rnd32 (w * w) := lo _ _ (by norm_num) (by push_cast; nlinarith)
    have b2 : rnd32 (w * w) ≤ ((107584 : Nat) : ℚ) := hi _ _ (by norm_num) (by push_cast; nlinarith)
    push_cast at b1 b2
    have c1 : ((107729 : Nat) : ℚ) ≤ rnd32 (rnd32 (w * w) + 800) :=
      lo _ _ (by norm_num) (by push_cast; linarith)
    have c2 : rnd32 (rnd32 (w * w) + 800) ≤ ((108384 : Nat) : ℚ) :=
      hi _ _ (by norm_num) (by push_cast; linarith)
    push_cast at c1 c2
    set R := rnd32 (rnd32 (w * w) + 800)
    have e1 : 328 ≤ sqrt R := sqlo _ _ (by linarith) (by norm_num) (by norm_num at *; linarith)
    have e2 : sqrt R ≤ 332 := sqhi _ _ (by linarith) (by norm_num) (by norm_num at *; linarith)
    have f1 : ((41 : Nat) : ℚ) ≤ rnd32 (sqrt R / 8) := lo _ _ (by norm_num) (by push_cast; linarith)
    have f2 : rnd32 (sqrt R / 8) ≤ 83 / 2 :=
      rnd_le (by norm_num) ⟨83, -1, by norm_num, by norm_num, by norm_num⟩ (by linarith)
    push_cast at f1
    have ht : truncQ (rnd32 (sqrt R / 8)) = 41 := by
      unfold truncQ
      rw [if_pos (by linarith), Int.floor_eq_iff]
      push_cast
      constructor <;> linarith
    rw [ht]
    norm_num
  -- the samples: only the term of the end point is left
  have hc : ∀ e t : ℚ, bezierCoord32 0 e 0 0 t = rnd32 (rnd32 (e * rnd32 (rnd32 (t * t) * t))) := by
    intro e t
    unfold bezierCoord32
    simp only [zero_mul, mul_zero, z, add_zero, zero_add]
  have hr : rnd32 (1 / ((41 : Nat) : ℚ)) = 3273603 / 134217728 := by decide +kernel
  have hT : paramAt 41 41 = 16777215 / 16777216 := by
    unfold paramAt
    rw [hr]
    decide +kernel
  have hv : rnd32 (rnd32 (655 / 2 * rnd32 (rnd32 (16777215 / 16777216 * (16777215 / 16777216)) *
      (16777215 / 16777216)))) = (5365759 / 16384 : ℚ) := by
    have k1 : rnd32 (16777215 / 16777216 * (16777215 / 16777216)) = (8388607 / 8388608 : ℚ) := by
      decide +kernel
    have k2 : rnd32 (8388607 / 8388608 * (16777215 / 16777216)) = (16777213 / 16777216 : ℚ) := by
      decide +kernel
    have k3 : rnd32 (655 / 2 * (16777213 / 16777216)) = (5365759 / 16384 : ℚ) := by decide +kernel
    have k4 : rnd32 (5365759 / 16384) = (5365759 / 16384 : ℚ) := by decide +kernel
    rw [k1, k2, k3, k4]
  have hpts : ∀ i ≤ 41, 0 ≤ (bezierAt32 (0, 0) (655 / 2, 0) (0, 0) (0, 0) (paramAt 41 i)).1 ∧
      (bezierAt32 (0, 0) (655 / 2, 0) (0, 0) (0, 0) (paramAt 41 i)).1 ≤ 327 ∧
      (bezierAt32 (0, 0) (655 / 2, 0) (0, 0) (0, 0) (paramAt 41 i)).2 = 0 := by
    intro i hi
    have t0 : 0 ≤ paramAt 41 i := rnd_nonneg (mul_nonneg (by positivity) (by rw [hr]; norm_num))
    have t1 : paramAt 41 i ≤ 16777215 / 16777216 := by
      rw [← hT]
      unfold paramAt
      refine rnd_mono (by norm_num) (mul_le_mul_of_nonneg_right ?_ (by rw [hr]; norm_num))
      exact_mod_cast hi
    simp only [bezierAt32, hc]
    have m1 := rnd_mono (p := 24) (emin := -149) (by norm_num) (mul_le_mul t1 t1 t0 (by norm_num))
    have n1 : 0 ≤ rnd32 (paramAt 41 i * paramAt 41 i) := rnd_nonneg (mul_nonneg t0 t0)
    have m2 := rnd_mono (p := 24) (emin := -149) (by norm_num) (mul_le_mul m1 t1 t0 (n1.trans m1))
    have n2 : 0 ≤ rnd32 (rnd32 (paramAt 41 i * paramAt 41 i) * paramAt 41 i) :=
      rnd_nonneg (mul_nonneg n1 t0)
    have m3 := rnd_mono (p := 24) (emin := -149) (by norm_num)
      (mul_le_mul_of_nonneg_left m2 (show (0 : ℚ) ≤ 655 / 2 by norm_num))
    have m4 := rnd_mono (p := 24) (emin := -149) (by norm_num) m3
    have m5 := roundQ_mono (m4.trans_eq hv)
    have r1 : roundQ (5365759 / 16384) = 327 := by decide +kernel
    have r0 : roundQ 0 = 0 := by decide +kernel
    rw [r1] at m5
    have n3 : (0 : ℚ) ≤ rnd32 (rnd32 (655 / 2 * rnd32 (rnd32 (paramAt 41 i * paramAt 41 i) *
        paramAt 41 i))) := rnd_nonneg (rnd_nonneg (mul_nonneg (by norm_num) n2))
    have m6 := roundQ_mono n3
    rw [r0] at m6
    refine ⟨m6, m5, ?_⟩
    rw [zero_mul, z, z, r0]
  have hlast : bezierAt32 (0, 0) (655 / 2, 0) (0, 0) (0, 0) (paramAt 41 (40 + 1)) = (327, 0) := by
    have r1 : roundQ (5365759 / 16384) = 327 := by decide +kernel
    have r0 : roundQ 0 = 0 := by decide +kernel
    simp only [bezierAt32, hc]
    rw [show 40 + 1 = 41 from rfl, hT, hv, r1, zero_mul, z, z, r0]
  have hdraw := drawBezier32_pixels (α := Bool) sqrt (0, 0) (655 / 2, 0) (0, 0) (0, 0) 41 (by norm_num) hN
  obtain ⟨q, hqq⟩ : ∃ q : Nat → Int × Int,
    ∀ i, bezierAt32 (0, 0) (655 / 2, 0) (0, 0) (0, 0) (paramAt 41 i) = q i := ⟨_, fun _ => rfl⟩
  simp only [hqq] at hdraw hpts hlast
  obtain ⟨out, o1, o2, o3, o4⟩ := hdraw (fun i hi => by
      obtain ⟨u1, u2, u3⟩ := hpts i hi
      rw [u3, abs_of_nonneg u1, abs_zero]
      constructor <;> omega) (⟨400, 1, fun _ _ => false⟩ : Image Bool) true
  refine ⟨by decide +kernel, out, o1, (o4 327 0 ⟨by norm_num, by norm_num⟩).1 ⟨40, by norm_num, ?_⟩,
    (o4 328 0 ⟨by norm_num, by norm_num⟩).2 fun i hi hp => ?_⟩
  · rw [hlast]
    have hg := (C42_bresenham (q 40) (327, 0)).ends
    rcases hg with ⟨_, h⟩ | ⟨h, _⟩
    · exact List.mem_of_getLast? h
    · exact List.mem_of_head? h
  · have hb := (C42_bresenham (q i) (q (i + 1))).box _ hp
    have h1 := hpts i (by omega)
    have h2 := hpts (i + 1) (by omega)
    omega

/-- Square roots with this accuracy exist. -/
example : ∃ sqrt : ℚ → ℚ, GoodSqrt sqrt := by
  have : ∀ x : ℚ, 0 ≤ x → ∃ r : ℚ, 0 ≤ r ∧ |r ^ 2 - x| ≤ x / 2 ^ 20 := by
    intro x hx
    rcases hx.eq_or_lt with rfl | hx
    · exact ⟨0, le_rfl, by norm_num⟩
    · have hx' : (0 : ℝ) < x := by exact_mod_cast hx
      have hlt : Real.sqrt x < Real.sqrt (x * (1 + 1 / 2 ^ 20)) :=
        Real.sqrt_lt_sqrt hx'.le (by nlinarith)
      obtain ⟨r, h1, h2⟩ := exists_rat_btwn hlt
      have r0 : (0 : ℝ) ≤ r := (Real.sqrt_nonneg _).trans h1.le
      have l1 : (x : ℝ) ≤ r ^ 2 := by
        have := Real.sqrt_le_sqrt hx'.le
        have := Real.sq_sqrt hx'.le
        nlinarith [Real.sqrt_nonneg (x : ℝ)]
      have l2 : (r : ℝ) ^ 2 ≤ x * (1 + 1 / 2 ^ 20) := by
        have := Real.sq_sqrt (show 0 ≤ (x : ℝ) * (1 + 1 / 2 ^ 20) by positivity)
        nlinarith [Real.sqrt_nonneg ((x : ℝ) * (1 + 1 / 2 ^ 20))]
      have l1' : x ≤ r ^ 2 := by exact_mod_cast l1
      have l2' : r ^ 2 ≤ x * (1 + 1 / 2 ^ 20) := by
        have : ((r ^ 2 : ℚ) : ℝ) ≤ ((x * (1 + 1 / 2 ^ 20) : ℚ) : ℝ) := by push_cast; exact l2
        exact_mod_cast this
      refine ⟨r, by exact_mod_cast r0, ?_⟩
      rw [abs_le]
      constructor <;> linarith
  choose! f h1 h2 using this
  exact ⟨f, h1, h2⟩

/-- A sample in the middle of a curve: parameter 1/2 of the curve (0,0), (8,16), (24,16), (32,0). -/
example : bezierAt32 (0, 0) (32, 0) (8, 16) (24, 16) (1 / 2) = (16, 12) := by decide +kernel

end Verif.Float
