import Verif.Float.F32
import Verif.Float.PixelOps
import Verif.Drawing.EllipseProps
/-
The ellipse functions of src/drawing/conics.rs in single precision: every `f32` operation is followed by
rounding.  `powi(2)` is one multiplication.  Radii are at most 512, so the `i32` products do not overflow (C143).
-/
namespace Verif.Float
open Verif.Drawing

/-- The loop over the top and bottom regions in `f32`, conics.rs:138-150.  Returns `x`, `y`, `px`, `py`. -/
def ellipseTop32 {σ : Type _} (draw : Int → Int → σ → Option σ) (w2 h2 : ℚ) :
    Nat → Int → Int → ℚ → ℚ → ℚ → σ → Option (Int × Int × ℚ × ℚ × σ)
  | 0, x, y, px, py, _, s => if px < py then none else some (x, y, px, py, s)
  | n + 1, x, y, px, py, p, s =>
    if px < py then
      let x := x + 1
      let px := rnd32 (px + rnd32 (2 * h2))
      if p < 0 then
        (draw x y s).bind fun s => ellipseTop32 draw w2 h2 n x y px py (rnd32 (p + rnd32 (h2 + px))) s
      else
        let y := y - 1
        let py := rnd32 (py + rnd32 (-2 * w2))
        (draw x y s).bind fun s =>
          ellipseTop32 draw w2 h2 n x y px py (rnd32 (p + rnd32 (rnd32 (h2 + px) - py))) s
    else some (x, y, px, py, s)

/-- The loop over the left and right regions in `f32`, conics.rs:154-166. -/
def ellipseSide32 {σ : Type _} (draw : Int → Int → σ → Option σ) (w2 h2 : ℚ) :
    Nat → Int → Int → ℚ → ℚ → ℚ → σ → Option σ
  | 0, _, y, _, _, _, s => if y > 0 then none else some s
  | n + 1, x, y, px, py, p, s =>
    if y > 0 then
      let y := y - 1
      let py := rnd32 (py + rnd32 (-2 * w2))
      if p > 0 then
        (draw x y s).bind fun s => ellipseSide32 draw w2 h2 n x y px py (rnd32 (p + rnd32 (w2 - py))) s
      else
        let x := x + 1
        let px := rnd32 (px + rnd32 (2 * h2))
        (draw x y s).bind fun s =>
          ellipseSide32 draw w2 h2 n x y px py (rnd32 (p + rnd32 (rnd32 (w2 - py) + px))) s
    else some s

/-- `draw_ellipse` in `f32`, conics.rs:122-167, with the render function as a parameter. -/
def drawEllipse32 {σ : Type _} (draw : Int → Int → σ → Option σ) (a b : Int) (s : σ) : Option σ :=
  let w2 : ℚ := rnd32 ((a * a : Int) : ℚ)
  let h2 : ℚ := rnd32 ((b * b : Int) : ℚ)
  (draw 0 b s).bind fun s =>
  (ellipseTop32 draw w2 h2 (a.natAbs + 1) 0 b 0 (rnd32 (rnd32 (2 * w2) * rnd32 (b : ℚ)))
    (rnd32 (rnd32 (h2 - rnd32 (w2 * rnd32 (b : ℚ))) + rnd32 (1 / 4 * w2))) s).bind
    fun (x, y, px, py, s) =>
  let t := rnd32 (rnd32 (x : ℚ) + 1 / 2)
  ellipseSide32 draw w2 h2 y.toNat x y px py
    (rnd32 (rnd32 (rnd32 (h2 * rnd32 (t * t)) + rnd32 (w2 * rnd32 (((y - 1) ^ 2 : Int) : ℚ))) -
      rnd32 (w2 * h2))) s

/-- `draw_hollow_ellipse_mut` in `f32`, conics.rs:34-59. -/
def drawHollowEllipse32 {α : Type _} (op : α → α → α) (im : Image α) (center : Int × Int)
    (a b : Int) (c : α) : Option (Image α) :=
  if a = b then drawHollowCircle op im center a c
  else
    let x0 := center.1
    let y0 := center.2
    drawEllipse32 (fun x y im =>
      (drawIfInBounds op im (x0 + x) (y0 + y) c).bind fun im =>
      (drawIfInBounds op im (x0 - x) (y0 + y) c).bind fun im =>
      (drawIfInBounds op im (x0 + x) (y0 - y) c).bind fun im =>
      drawIfInBounds op im (x0 - x) (y0 - y) c) a b im

/-- `draw_filled_ellipse_mut` in `f32`, conics.rs:86-116. -/
def drawFilledEllipse32 {α : Type _} (op : α → α → α) (im : Image α) (center : Int × Int)
    (a b : Int) (c : α) : Option (Image α) :=
  if a = b then drawFilledCircle op im center a c
  else
    let x0 := center.1
    let y0 := center.2
    drawEllipse32 (fun x y im =>
      (drawLineInt op im (x0 - x) (y0 + y) (x0 + x) (y0 + y) c).bind fun im =>
      drawLineInt op im (x0 - x) (y0 - y) (x0 + x) (y0 - y) c) a b im

/-! ### Specification -/

/-- The rounding tolerance, relative to `a² b²`: about `(a + b) / 2^24` for radii of similar size. -/
def ellTol (a b : ℚ) : ℚ := 9 * (a ^ 2 * b ^ 2 * (a + b + 36) + 6 * (a * b) * (a ^ 2 + b ^ 2)) / 2 ^ 27

/-- `NearEllipse` with a tolerance `E`: the points half a pixel beyond and half a pixel (or, horizontally, one
pixel) before `q` are outside and inside of the ellipses `ellF = -E` and `ellF = E`, which are the ideal ellipse
scaled by the square roots of `1 - E / (a² b²)` and `1 + E / (a² b²)`. -/
def NearEllipseTol (E : ℚ) (a b : Int) (q : Int × Int) : Prop :=
  (-E ≤ ellF a b q.1 (q.2 + 1 / 2) ∨ -E ≤ ellF a b (q.1 + 1 / 2) q.2) ∧
  (ellF a b q.1 (q.2 - 1 / 2) ≤ E ∨ ellF a b (q.1 - 1) q.2 ≤ E)

/-- A quadrant of the outline as in `Quadrant`, with tolerance `E`. -/
structure QuadrantTol (E : ℚ) (a b : Int) (L : List (Int × Int)) : Prop where
  head : L.head? = some (0, b)
  path : L.IsChain QuadStep
  last : ∃ x, L.getLast? = some (x, 0)
  box : ∀ q ∈ L, 0 ≤ q.1 ∧ q.1 ≤ a ∧ 0 ≤ q.2 ∧ q.2 ≤ b
  near : ∀ q ∈ L, NearEllipseTol E a b q
  tip : a ≤ 4 * b ^ 2 → L.getLast? = some (a, 0)
  row : ∀ y : Int, 1 ≤ y → y ≤ b → ∃ x, (x, y) ∈ L ∧ -E ≤ ellF a b (x + 1) y

/-! ### Error bounds -/

/-- Relative error of one operation whose exact result is bounded by a number above 1. -/
def eu : ℚ := 1 / 2 ^ 24 + 1 / 2 ^ 150

theorem eu_pos : 0 < eu := by unfold eu; positivity
theorem eu_le : eu * 16384000 ≤ 1 := by unfold eu; norm_num

theorem ell_rnd {z t e X : ℚ} (h : |z - t| ≤ e) (ht : |t| + e ≤ X) (hX : 1 ≤ X) :
    |rnd32 z - t| ≤ e + eu * X := by
  have h1 := rnd_error_mixed (p := 24) (emin := -149) z
  have h2 : |z| ≤ X := by
    have := abs_add_le (z - t) t
    rw [sub_add_cancel] at this
    linarith
  have h3 := abs_add_le (rnd32 z - z) (z - t)
  rw [sub_add_sub_cancel] at h3
  have h4 : |z| * 2 ^ (-((24 : Nat) : Int)) + 2 ^ ((-149 : Int) - 1) ≤ eu * X := by
    have e1 : (2 : ℚ) ^ (-((24 : Nat) : Int)) = 1 / 2 ^ 24 := by norm_num
    have e2 : (2 : ℚ) ^ ((-149 : Int) - 1) = 1 / 2 ^ 150 := by norm_num
    rw [e1, e2]
    unfold eu
    have : (1 : ℚ) / 2 ^ 150 * 1 ≤ 1 / 2 ^ 150 * X := mul_le_mul_of_nonneg_left hX (by positivity)
    have : |z| * (1 / 2 ^ 24 : ℚ) ≤ X * (1 / 2 ^ 24) := mul_le_mul_of_nonneg_right h2 (by positivity)
    rw [add_mul]
    linarith
  exact le_trans h3 (by linarith)

/-- Error bound of `px` at abscissa `x`. -/
def errX (a b x : ℚ) : ℚ := 17 / 8 * eu * (a * b ^ 2) * x
/-- Error bound of `py` at ordinate `y`. -/
def errY (a b y : ℚ) : ℚ := 17 / 8 * eu * (a ^ 2 * b) * (b - y + 1)
/-- Error bound of the accumulated errors of `px` and `py`. -/
def errXY (a b x y : ℚ) : ℚ :=
  17 / 16 * eu * (a * b ^ 2) * (x * (x + 1)) + 17 / 16 * eu * (a ^ 2 * b) * ((b - y + 1) * (b - y + 2))
/-- Error bound of `p` in the top region. -/
def errTop (a b x y : ℚ) : ℚ :=
  errXY a b x y + eu * (11 * (a * b ^ 2) + 5 * (a ^ 2 * b)) * x + 6 * eu * (a ^ 2 * b ^ 2)
/-- Error bound of `p` in the side region. -/
def errSide (a b x y : ℚ) : ℚ :=
  errXY a b x y + eu * (6 * (a * b ^ 2) + 10 * (a ^ 2 * b)) * (b - y) + 20 * eu * (a ^ 2 * b ^ 2)

section Bounds
variable {a b x y : ℚ} (ha : 1 ≤ a) (hb : 1 ≤ b) (hx0 : 0 ≤ x) (hxa : x ≤ a) (hy0 : 0 ≤ y) (hyb : y ≤ b)
include ha hb

theorem mono_le : a ≤ a ^ 2 ∧ b ≤ b ^ 2 ∧ 1 ≤ a ^ 2 ∧ 1 ≤ b ^ 2 ∧ b ^ 2 ≤ a * b ^ 2 ∧ a ^ 2 ≤ a ^ 2 * b ∧
    a * b ^ 2 ≤ a ^ 2 * b ^ 2 ∧ a ^ 2 * b ≤ a ^ 2 * b ^ 2 ∧ 1 ≤ a * b ^ 2 ∧ 1 ≤ a ^ 2 * b := by
  have h1 : a ≤ a ^ 2 := by nlinarith
  have h2 : b ≤ b ^ 2 := by nlinarith
  have h3 : b ^ 2 ≤ a * b ^ 2 := by nlinarith [sq_nonneg b]
  have h4 : a ^ 2 ≤ a ^ 2 * b := by nlinarith [sq_nonneg a]
  have h5 : a * b ^ 2 ≤ a ^ 2 * b ^ 2 := mul_le_mul_of_nonneg_right h1 (sq_nonneg b)
  have h6 : a ^ 2 * b ≤ a ^ 2 * b ^ 2 := mul_le_mul_of_nonneg_left h2 (sq_nonneg a)
  refine ⟨h1, h2, by linarith, by linarith, h3, h4, h5, h6, by linarith, by linarith⟩

theorem ellTol_le (ha5 : a ≤ 512) (hb5 : b ≤ 512) : 8 * ellTol a b ≤ a * b ^ 2 := by
  have key : a ^ 2 * b + a * b ^ 2 + 36 * (a * b) + 6 * a ^ 2 + 6 * b ^ 2 ≤ 1864135 * b := by
    have h1 : b ^ 2 ≤ 513 * b - 512 := by nlinarith
    have h2 : a ^ 2 ≤ 512 * a := by nlinarith
    have h3 : a * b ^ 2 ≤ a * (513 * b - 512) := mul_le_mul_of_nonneg_left h1 (by linarith)
    rcases le_total 0 (6 * a ^ 2 - 512 * a - 3072) with h | h
    · have h4 := mul_le_mul_of_nonneg_left hb h
      have h5 : b * (7 * a ^ 2 + 37 * a + 6) ≤ b * 1864135 :=
        mul_le_mul_of_nonneg_left (by nlinarith) (by linarith)
      linarith
    · have h5 : b * (a ^ 2 + 549 * a + 3078) ≤ b * 1864135 :=
        mul_le_mul_of_nonneg_left (by nlinarith) (by linarith)
      linarith
  have hab : 0 ≤ a * b := by nlinarith
  have := mul_le_mul_of_nonneg_left key hab
  unfold ellTol
  have e : a * b ^ 2 = a * b * b := by ring
  rw [e]
  have h6 : 0 ≤ a * b * b := mul_nonneg hab (by linarith)
  linarith

theorem ellTol_le' (ha5 : a ≤ 512) (hb5 : b ≤ 512) : 8 * ellTol a b ≤ a ^ 2 * b := by
  have h := ellTol_le hb ha hb5 ha5
  have e : ellTol a b = ellTol b a := by unfold ellTol; ring
  rw [e]
  linarith

theorem ellTol_pos : 0 < ellTol a b := by unfold ellTol; positivity

include hx0 hxa hy0 hyb

theorem errXY_le : errXY a b x y ≤ 17 / 16 * eu * (a ^ 2 * b ^ 2 * (a + b + 6)) := by
  obtain ⟨_, _, _, _, _, _, _, m8, _, _⟩ := mono_le ha hb
  have h1 : x * (x + 1) ≤ a * (a + 1) := by nlinarith
  have h2 : (b - y + 1) * (b - y + 2) ≤ (b + 1) * (b + 2) := by nlinarith
  have h3 := mul_le_mul_of_nonneg_left h1 (show 0 ≤ a * b ^ 2 by positivity)
  have h4 := mul_le_mul_of_nonneg_left h2 (show 0 ≤ a ^ 2 * b by positivity)
  unfold errXY
  rw [mul_assoc _ (a * b ^ 2), mul_assoc _ (a ^ 2 * b), ← mul_add]
  refine mul_le_mul_of_nonneg_left ?_ (by have := eu_pos; positivity)
  linarith

omit hx0 hxa hy0 hyb in
theorem eu_tol {R : ℚ} (h : R ≤ 17 / 16 * (a ^ 2 * b ^ 2 * (a + b + 36) + 6 * (a * b) * (a ^ 2 + b ^ 2))) :
    eu * R ≤ ellTol a b := by
  have h1 := mul_le_mul_of_nonneg_left h eu_pos.le
  have h2 : 0 ≤ a ^ 2 * b ^ 2 * (a + b + 36) + 6 * (a * b) * (a ^ 2 + b ^ 2) := by positivity
  unfold ellTol
  generalize a ^ 2 * b ^ 2 * (a + b + 36) + 6 * (a * b) * (a ^ 2 + b ^ 2) = Q at *
  have h3 : eu * (17 / 16) ≤ 9 / 2 ^ 27 := by unfold eu; norm_num
  have h4 := mul_le_mul_of_nonneg_right h3 h2
  linarith

theorem errTop_le : errTop a b x y ≤ ellTol a b := by
  obtain ⟨_, _, _, _, _, _, _, m8, _, _⟩ := mono_le ha hb
  have h1 := errXY_le ha hb hx0 hxa hy0 hyb
  have h2 : (11 * (a * b ^ 2) + 5 * (a ^ 2 * b)) * x ≤ (11 * (a * b ^ 2) + 5 * (a ^ 2 * b)) * a :=
    mul_le_mul_of_nonneg_left hxa (by positivity)
  have h3 := mul_le_mul_of_nonneg_left h2 eu_pos.le
  refine le_trans ?_ (eu_tol ha hb (R := 17 / 16 * (a ^ 2 * b ^ 2 * (a + b + 6)) +
    (11 * (a * b ^ 2) + 5 * (a ^ 2 * b)) * a + 6 * (a ^ 2 * b ^ 2)) ?_)
  · unfold errTop; linarith
  · have h4 : 0 ≤ a ^ 3 * b := by positivity
    have h5 : 0 ≤ a * b ^ 3 := by positivity
    have h6 : 0 ≤ a ^ 2 * b ^ 2 := by positivity
    linarith

theorem errSide_le : errSide a b x y ≤ ellTol a b := by
  obtain ⟨_, _, _, _, _, _, _, m8, _, _⟩ := mono_le ha hb
  have h1 := errXY_le ha hb hx0 hxa hy0 hyb
  have h2 : (6 * (a * b ^ 2) + 10 * (a ^ 2 * b)) * (b - y) ≤ (6 * (a * b ^ 2) + 10 * (a ^ 2 * b)) * b :=
    mul_le_mul_of_nonneg_left (by linarith) (by positivity)
  have h3 := mul_le_mul_of_nonneg_left h2 eu_pos.le
  refine le_trans ?_ (eu_tol ha hb (R := 17 / 16 * (a ^ 2 * b ^ 2 * (a + b + 6)) +
    (6 * (a * b ^ 2) + 10 * (a ^ 2 * b)) * b + 20 * (a ^ 2 * b ^ 2)) ?_)
  · unfold errSide; linarith
  · have h4 : 0 ≤ a ^ 3 * b := by positivity
    have h5 : 0 ≤ a * b ^ 3 := by positivity
    have h6 : 0 ≤ a ^ 2 * b ^ 2 := by positivity
    linarith

omit hy0 hyb in
theorem errX_le (ha5 : a ≤ 512) : 0 ≤ errX a b x ∧ 8 * errX a b x ≤ a * b ^ 2 ∧
    errX a b x ≤ 17 / 8 * eu * (a ^ 2 * b ^ 2) := by
  have hu := eu_pos
  refine ⟨by unfold errX; positivity, ?_, ?_⟩
  · unfold errX
    have h1 : 0 ≤ a * b ^ 2 := by positivity
    have h2 : 17 * eu * x ≤ 1 := by have := eu_le; nlinarith
    have := mul_le_mul_of_nonneg_left h2 h1
    linarith
  · unfold errX
    have := mul_le_mul_of_nonneg_left hxa (show 0 ≤ 17 / 8 * eu * (a * b ^ 2) by positivity)
    linarith

omit hx0 hxa in
theorem errY_le (hb5 : b ≤ 512) : 0 ≤ errY a b y ∧ 8 * errY a b y ≤ a ^ 2 * b ∧
    errY a b y ≤ 17 / 4 * eu * (a ^ 2 * b ^ 2) := by
  have hu := eu_pos
  have h0 : 0 ≤ b - y + 1 := by linarith
  refine ⟨by unfold errY; positivity, ?_, ?_⟩
  · unfold errY
    have h1 : 0 ≤ a ^ 2 * b := by positivity
    have h2 : 17 * eu * (b - y + 1) ≤ 1 := by have := eu_le; nlinarith
    have := mul_le_mul_of_nonneg_left h2 h1
    linarith
  · unfold errY
    have := mul_le_mul_of_nonneg_left (show b - y + 1 ≤ 2 * b by linarith)
      (show 0 ≤ 17 / 8 * eu * (a ^ 2 * b) by positivity)
    linarith

/-- The error of the slope test. -/
theorem slope_err (ha5 : a ≤ 512) (hb5 : b ≤ 512) : 8 * (errX a b x + errY a b y) ≤ b ^ 2 := by
  have h1 := (errX_le ha hb hx0 hxa ha5).2.2
  have h2 := (errY_le ha hb hy0 hyb hb5).2.2
  have h3 : a ^ 2 ≤ 512 ^ 2 := pow_le_pow_left₀ (by linarith) ha5 2
  have h4 : 51 * eu * a ^ 2 ≤ 1 := by
    have := mul_le_mul_of_nonneg_left h3 eu_pos.le
    have := eu_le
    linarith
  have h5 := mul_le_mul_of_nonneg_right h4 (sq_nonneg b)
  linarith

end Bounds

/-! ### One step of the loops -/

section Steps
variable {a b : ℚ} (ha : 1 ≤ a) (hb : 1 ≤ b) (ha5 : a ≤ 512) (hb5 : b ≤ 512)
include ha hb

include ha5 in
theorem px_step {x px : ℚ} (hx0 : 0 ≤ x) (hxa : x + 1 ≤ a) (h : |px - 2 * b ^ 2 * x| ≤ errX a b x) :
    |rnd32 (px + 2 * b ^ 2) - 2 * b ^ 2 * (x + 1)| ≤ errX a b (x + 1) := by
  obtain ⟨_, _, _, _, _, _, _, _, m9, _⟩ := mono_le ha hb
  obtain ⟨e1, e2, -⟩ := errX_le ha hb hx0 (show x ≤ a by linarith) ha5
  have h1 := mul_le_mul_of_nonneg_left hxa (sq_nonneg b)
  have := ell_rnd (z := px + 2 * b ^ 2) (t := 2 * b ^ 2 * (x + 1)) (e := errX a b x) (X := 17 / 8 * (a * b ^ 2))
    (by rw [show px + 2 * b ^ 2 - 2 * b ^ 2 * (x + 1) = px - 2 * b ^ 2 * x by ring]; exact h)
    (by rw [abs_of_nonneg (by positivity)]; linarith) (by linarith)
  refine le_trans this (le_of_eq ?_)
  unfold errX; ring

include hb5 in
theorem py_step {y py : ℚ} (hy0 : 1 ≤ y) (hyb : y ≤ b) (h : |py - 2 * a ^ 2 * y| ≤ errY a b y) :
    |rnd32 (py + -2 * a ^ 2) - 2 * a ^ 2 * (y - 1)| ≤ errY a b (y - 1) := by
  obtain ⟨_, _, _, _, _, _, _, _, _, m10⟩ := mono_le ha hb
  obtain ⟨e1, e2, -⟩ := errY_le ha hb (show 0 ≤ y by linarith) hyb hb5
  have h0 : 0 ≤ y - 1 := by linarith
  have h1 := mul_le_mul_of_nonneg_left (show y - 1 ≤ b by linarith) (sq_nonneg a)
  have := ell_rnd (z := py + -2 * a ^ 2) (t := 2 * a ^ 2 * (y - 1)) (e := errY a b y)
    (X := 17 / 8 * (a ^ 2 * b))
    (by rw [show py + -2 * a ^ 2 - 2 * a ^ 2 * (y - 1) = py - 2 * a ^ 2 * y by ring]; exact h)
    (by rw [abs_of_nonneg (by positivity)]; linarith) (by linarith)
  refine le_trans this (le_of_eq ?_)
  unfold errY; ring

include ha5 in
theorem hx_step {x px : ℚ} (hx0 : 0 ≤ x) (hxa : x ≤ a) (h : |px - 2 * b ^ 2 * x| ≤ errX a b x) :
    |rnd32 (b ^ 2 + px) - b ^ 2 * (2 * x + 1)| ≤ errX a b x + eu * (25 / 8 * (a * b ^ 2)) := by
  obtain ⟨_, _, _, _, m5, _, _, _, m9, _⟩ := mono_le ha hb
  obtain ⟨e1, e2, -⟩ := errX_le ha hb hx0 hxa ha5
  have h1 := mul_le_mul_of_nonneg_left hxa (sq_nonneg b)
  refine ell_rnd (z := b ^ 2 + px) (t := b ^ 2 * (2 * x + 1))
    (by rw [show b ^ 2 + px - b ^ 2 * (2 * x + 1) = px - 2 * b ^ 2 * x by ring]; exact h)
    (by rw [abs_of_nonneg (by positivity)]; linarith) (by linarith)

include hb5 in
theorem wy_step {y py : ℚ} (hy0 : 0 ≤ y) (hyb : y ≤ b) (h : |py - 2 * a ^ 2 * y| ≤ errY a b y) :
    |rnd32 (a ^ 2 - py) - a ^ 2 * (1 - 2 * y)| ≤ errY a b y + eu * (25 / 8 * (a ^ 2 * b)) := by
  obtain ⟨_, _, _, _, _, m6, _, _, _, m10⟩ := mono_le ha hb
  obtain ⟨e1, e2, -⟩ := errY_le ha hb hy0 hyb hb5
  have h1 := mul_le_mul_of_nonneg_left hyb (sq_nonneg a)
  have h2 := mul_nonneg (sq_nonneg a) hy0
  refine ell_rnd (z := a ^ 2 - py) (t := a ^ 2 * (1 - 2 * y))
    (by rw [show a ^ 2 - py - a ^ 2 * (1 - 2 * y) = -(py - 2 * a ^ 2 * y) by ring, abs_neg]; exact h)
    ?_ (by linarith)
  have : |a ^ 2 * (1 - 2 * y)| ≤ 3 * (a ^ 2 * b) := by rw [abs_le]; constructor <;> linarith
  linarith

/-- The last addition of a step: `p + q` where `q` approximates the difference `d` with error `e`. -/
theorem p_step {p q f d e R K : ℚ} (hp : |p - f| ≤ R) (hq : |q - d| ≤ e) (hR : R + e ≤ ellTol a b)
    (hf : |f + d| ≤ ellTol a b + K) (hK : 8 * ellTol a b ≤ a * b ^ 2 ∧ 8 * ellTol a b ≤ a ^ 2 * b)
    (hK0 : 1 ≤ K) :
    |rnd32 (p + q) - (f + d)| ≤ R + e + eu * (K + (a * b ^ 2 + a ^ 2 * b) / 8) := by
  have ht := ellTol_pos ha hb
  refine ell_rnd ?_ (by linarith) (by linarith)
  have := abs_add_le (p - f) (q - d)
  rw [show p + q - (f + d) = p - f + (q - d) by ring]
  linarith

include ha5 hb5

theorem top_straight {x y p px f : ℚ} (hx0 : 0 ≤ x) (hxa : x + 1 ≤ a) (hy0 : 0 ≤ y) (hyb : y ≤ b)
    (hp : |p - f| ≤ errTop a b x y) (hpx : |px - 2 * b ^ 2 * (x + 1)| ≤ errX a b (x + 1))
    (hf : |f + b ^ 2 * (2 * x + 3)| ≤ ellTol a b + (4 * (a * b ^ 2) + 2 * (a ^ 2 * b))) :
    |rnd32 (p + rnd32 (b ^ 2 + px)) - (f + b ^ 2 * (2 * x + 3))| ≤ errTop a b (x + 1) y := by
  obtain ⟨_, _, _, _, _, _, _, _, m9, m10⟩ := mono_le ha hb
  have hu := eu_pos
  have h1 := hx_step ha hb ha5 (show 0 ≤ x + 1 by linarith) hxa hpx
  rw [show b ^ 2 * (2 * (x + 1) + 1) = b ^ 2 * (2 * x + 3) by ring] at h1
  have m9' := mul_nonneg hu.le (show 0 ≤ a * b ^ 2 by linarith)
  have m10' := mul_nonneg hu.le (show 0 ≤ a ^ 2 * b by linarith)
  have e : errTop a b (x + 1) y = errTop a b x y + errX a b (x + 1) +
      eu * (11 * (a * b ^ 2) + 5 * (a ^ 2 * b)) := by unfold errTop errXY errX; ring
  have h2 := errTop_le ha hb (show 0 ≤ x + 1 by linarith) hxa hy0 hyb
  have := p_step ha hb hp h1 (by linarith) hf ⟨ellTol_le ha hb ha5 hb5, ellTol_le' ha hb ha5 hb5⟩
    (by linarith)
  rw [e]
  linarith

theorem top_diag {x y p px py f : ℚ} (hx0 : 0 ≤ x) (hxa : x + 1 ≤ a) (hy0 : 1 ≤ y) (hyb : y ≤ b)
    (hp : |p - f| ≤ errTop a b x y) (hpx : |px - 2 * b ^ 2 * (x + 1)| ≤ errX a b (x + 1))
    (hpy : |py - 2 * a ^ 2 * (y - 1)| ≤ errY a b (y - 1))
    (hf : |f + (b ^ 2 * (2 * x + 3) - 2 * a ^ 2 * (y - 1))| ≤
      ellTol a b + (4 * (a * b ^ 2) + 2 * (a ^ 2 * b))) :
    |rnd32 (p + rnd32 (rnd32 (b ^ 2 + px) - py)) - (f + (b ^ 2 * (2 * x + 3) - 2 * a ^ 2 * (y - 1)))| ≤
      errTop a b (x + 1) (y - 1) := by
  obtain ⟨_, _, _, _, m5, _, _, _, m9, m10⟩ := mono_le ha hb
  have hu := eu_pos
  have hule := eu_le
  have h1 := hx_step ha hb ha5 (show 0 ≤ x + 1 by linarith) hxa hpx
  rw [show b ^ 2 * (2 * (x + 1) + 1) = b ^ 2 * (2 * x + 3) by ring] at h1
  obtain ⟨e1, e2, -⟩ := errX_le ha hb (show 0 ≤ x + 1 by linarith) hxa ha5
  obtain ⟨e3, e4, -⟩ := errY_le ha hb (show 0 ≤ y - 1 by linarith) (by linarith) hb5
  have m9' := mul_nonneg hu.le (show 0 ≤ a * b ^ 2 by linarith)
  have m10' := mul_nonneg hu.le (show 0 ≤ a ^ 2 * b by linarith)
  have m9'' := mul_le_mul_of_nonneg_right hule (show 0 ≤ a * b ^ 2 by linarith)
  have k1 := mul_le_mul_of_nonneg_left hxa (sq_nonneg b)
  have k2 := mul_le_mul_of_nonneg_left (show y - 1 ≤ b by linarith) (sq_nonneg a)
  have k3 := mul_nonneg (sq_nonneg b) hx0
  have k4 := mul_nonneg (sq_nonneg a) (show 0 ≤ y - 1 by linarith)
  have h2 := ell_rnd (z := rnd32 (b ^ 2 + px) - py) (t := b ^ 2 * (2 * x + 3) - 2 * a ^ 2 * (y - 1))
    (e := errX a b (x + 1) + eu * (25 / 8 * (a * b ^ 2)) + errY a b (y - 1))
    (X := 13 / 4 * (a * b ^ 2) + 9 / 4 * (a ^ 2 * b))
    (by
      have := abs_sub (rnd32 (b ^ 2 + px) - b ^ 2 * (2 * x + 3)) (py - 2 * a ^ 2 * (y - 1))
      rw [show rnd32 (b ^ 2 + px) - py - (b ^ 2 * (2 * x + 3) - 2 * a ^ 2 * (y - 1)) =
        (rnd32 (b ^ 2 + px) - b ^ 2 * (2 * x + 3)) - (py - 2 * a ^ 2 * (y - 1)) by ring]
      linarith)
    (by
      have : |b ^ 2 * (2 * x + 3) - 2 * a ^ 2 * (y - 1)| ≤ 3 * (a * b ^ 2) + 2 * (a ^ 2 * b) := by
        rw [abs_le]; constructor <;> linarith
      linarith) (by linarith)
  have e : errTop a b (x + 1) (y - 1) = errTop a b x y + errX a b (x + 1) + errY a b (y - 1) +
      eu * (11 * (a * b ^ 2) + 5 * (a ^ 2 * b)) := by unfold errTop errXY errX errY; ring
  have h3 := errTop_le ha hb (show 0 ≤ x + 1 by linarith) hxa (show 0 ≤ y - 1 by linarith)
    (show y - 1 ≤ b by linarith)
  have := p_step ha hb hp h2 (by linarith) hf ⟨ellTol_le ha hb ha5 hb5, ellTol_le' ha hb ha5 hb5⟩
    (by linarith)
  rw [e]
  linarith

theorem side_straight {x y p py f : ℚ} (hx0 : 0 ≤ x) (hxa : x ≤ a) (hy0 : 1 ≤ y) (hyb : y ≤ b)
    (hp : |p - f| ≤ errSide a b x y) (hpy : |py - 2 * a ^ 2 * (y - 1)| ≤ errY a b (y - 1))
    (hf : |f + a ^ 2 * (3 - 2 * y)| ≤ ellTol a b + (3 * (a * b ^ 2) + 3 * (a ^ 2 * b))) :
    |rnd32 (p + rnd32 (a ^ 2 - py)) - (f + a ^ 2 * (3 - 2 * y))| ≤ errSide a b x (y - 1) := by
  obtain ⟨_, _, _, _, _, _, _, _, m9, m10⟩ := mono_le ha hb
  have hu := eu_pos
  have h1 := wy_step ha hb hb5 (show 0 ≤ y - 1 by linarith) (by linarith) hpy
  rw [show a ^ 2 * (1 - 2 * (y - 1)) = a ^ 2 * (3 - 2 * y) by ring] at h1
  have m9' := mul_nonneg hu.le (show 0 ≤ a * b ^ 2 by linarith)
  have m10' := mul_nonneg hu.le (show 0 ≤ a ^ 2 * b by linarith)
  have e : errSide a b x (y - 1) = errSide a b x y + errY a b (y - 1) +
      eu * (6 * (a * b ^ 2) + 10 * (a ^ 2 * b)) := by unfold errSide errXY errY; ring
  have h2 := errSide_le ha hb hx0 hxa (show 0 ≤ y - 1 by linarith) (show y - 1 ≤ b by linarith)
  have := p_step ha hb hp h1 (by linarith) hf ⟨ellTol_le ha hb ha5 hb5, ellTol_le' ha hb ha5 hb5⟩
    (by linarith)
  rw [e]
  linarith

theorem side_diag {x y p px py f : ℚ} (hx0 : 0 ≤ x) (hxa : x + 1 ≤ a) (hy0 : 1 ≤ y) (hyb : y ≤ b)
    (hp : |p - f| ≤ errSide a b x y) (hpx : |px - 2 * b ^ 2 * (x + 1)| ≤ errX a b (x + 1))
    (hpy : |py - 2 * a ^ 2 * (y - 1)| ≤ errY a b (y - 1))
    (hf : |f + (a ^ 2 * (3 - 2 * y) + 2 * b ^ 2 * (x + 1))| ≤
      ellTol a b + (3 * (a * b ^ 2) + 3 * (a ^ 2 * b))) :
    |rnd32 (p + rnd32 (rnd32 (a ^ 2 - py) + px)) - (f + (a ^ 2 * (3 - 2 * y) + 2 * b ^ 2 * (x + 1)))| ≤
      errSide a b (x + 1) (y - 1) := by
  obtain ⟨_, _, _, _, _, m6, _, _, m9, m10⟩ := mono_le ha hb
  have hu := eu_pos
  have hule := eu_le
  have h1 := wy_step ha hb hb5 (show 0 ≤ y - 1 by linarith) (by linarith) hpy
  rw [show a ^ 2 * (1 - 2 * (y - 1)) = a ^ 2 * (3 - 2 * y) by ring] at h1
  obtain ⟨e1, e2, -⟩ := errX_le ha hb (show 0 ≤ x + 1 by linarith) hxa ha5
  obtain ⟨e3, e4, -⟩ := errY_le ha hb (show 0 ≤ y - 1 by linarith) (by linarith) hb5
  have m9' := mul_nonneg hu.le (show 0 ≤ a * b ^ 2 by linarith)
  have m10' := mul_nonneg hu.le (show 0 ≤ a ^ 2 * b by linarith)
  have m10'' := mul_le_mul_of_nonneg_right hule (show 0 ≤ a ^ 2 * b by linarith)
  have k1 := mul_le_mul_of_nonneg_left hxa (sq_nonneg b)
  have k2 := mul_le_mul_of_nonneg_left hyb (sq_nonneg a)
  have k3 := mul_nonneg (sq_nonneg b) hx0
  have k4 := mul_nonneg (sq_nonneg a) (show 0 ≤ y - 1 by linarith)
  have k5 := sq_nonneg a
  have k6 := sq_nonneg b
  have h2 := ell_rnd (z := rnd32 (a ^ 2 - py) + px) (t := a ^ 2 * (3 - 2 * y) + 2 * b ^ 2 * (x + 1))
    (e := errY a b (y - 1) + eu * (25 / 8 * (a ^ 2 * b)) + errX a b (x + 1))
    (X := 9 / 4 * (a * b ^ 2) + 9 / 4 * (a ^ 2 * b))
    (by
      have := abs_add_le (rnd32 (a ^ 2 - py) - a ^ 2 * (3 - 2 * y)) (px - 2 * b ^ 2 * (x + 1))
      rw [show rnd32 (a ^ 2 - py) + px - (a ^ 2 * (3 - 2 * y) + 2 * b ^ 2 * (x + 1)) =
        (rnd32 (a ^ 2 - py) - a ^ 2 * (3 - 2 * y)) + (px - 2 * b ^ 2 * (x + 1)) by ring]
      linarith)
    (by
      have : |a ^ 2 * (3 - 2 * y) + 2 * b ^ 2 * (x + 1)| ≤ 2 * (a * b ^ 2) + 2 * (a ^ 2 * b) := by
        rw [abs_le]; constructor <;> linarith
      linarith) (by linarith)
  have e : errSide a b (x + 1) (y - 1) = errSide a b x y + errY a b (y - 1) + errX a b (x + 1) +
      eu * (6 * (a * b ^ 2) + 10 * (a ^ 2 * b)) := by unfold errSide errXY errX errY; ring
  have h3 := errSide_le ha hb (show 0 ≤ x + 1 by linarith) hxa (show 0 ≤ y - 1 by linarith)
    (show y - 1 ≤ b by linarith)
  have := p_step ha hb hp h2 (by linarith) hf ⟨ellTol_le ha hb ha5 hb5, ellTol_le' ha hb ha5 hb5⟩
    (by linarith)
  rw [e]
  linarith

end Steps

/-! ### The two loops -/

/-- State of the outline at a pixel of the top region. -/
structure TopTol (E : ℚ) (a b x y : Int) : Prop where
  x0 : 0 ≤ x
  xa : x ≤ a
  y0 : 0 ≤ y
  yb : y ≤ b
  hi : -E ≤ ellF a b x (y + 1 / 2)
  lo : 2 * (b : ℚ) ^ 2 * x < 2 * (a : ℚ) ^ 2 * y + (b : ℚ) ^ 2 / 8 → ellF a b x (y - 1 / 2) ≤ E
  lo' : ellF a b x (y - 1 / 2) ≤ E ∨ (1 ≤ x ∧ ellF a b (x - 1) (y + 1 / 2) ≤ E)

theorem TopTol.near {E : ℚ} {a b x y : Int} (h : TopTol E a b x y) : NearEllipseTol E a b (x, y) := by
  refine ⟨Or.inl h.hi, ?_⟩
  rcases h.lo' with h1 | ⟨h1, h2⟩
  · exact Or.inl h1
  · right
    refine le_trans (ellF_mono ?_ ?_ le_rfl ?_) h2
    · have : (1 : ℚ) ≤ x := by exact_mod_cast h1
      dsimp only; linarith
    · exact_mod_cast h.y0
    · dsimp only; linarith

/-- The decision variable of the top region is bounded. -/
theorem TopTol.bound {E : ℚ} {a b x y : Int} (h : TopTol E a b x y) (_hE : 0 ≤ E) (ha : 1 ≤ (a : ℚ)) :
    |ellF a b (x + 1) (y - 1 / 2)| ≤ E + (4 * ((a : ℚ) * (b : ℚ) ^ 2) + 2 * ((a : ℚ) ^ 2 * b)) := by
  have hx0 : (0 : ℚ) ≤ x := by exact_mod_cast h.x0
  have hxa : (x : ℚ) ≤ a := by exact_mod_cast h.xa
  have hy0 : (0 : ℚ) ≤ y := by exact_mod_cast h.y0
  have hyb : (y : ℚ) ≤ b := by exact_mod_cast h.yb
  have k1 := mul_le_mul_of_nonneg_left hxa (sq_nonneg (b : ℚ))
  have k2 := mul_le_mul_of_nonneg_left hyb (sq_nonneg (a : ℚ))
  have k3 := mul_nonneg (sq_nonneg (b : ℚ)) hx0
  have k4 := mul_nonneg (sq_nonneg (a : ℚ)) hy0
  have k5 := mul_le_mul_of_nonneg_left ha (sq_nonneg (b : ℚ))
  have k6 := sq_nonneg (b : ℚ)
  have hhi := h.hi
  have hlo := h.lo'
  unfold ellF at *
  rw [abs_le]
  constructor
  · linarith
  · rcases hlo with h1 | ⟨h1, h2⟩ <;> linarith

/-- State of the outline at a pixel of the side region. -/
structure SideTol (E : ℚ) (a b x y : Int) : Prop where
  x0 : 0 ≤ x
  xa : x ≤ a
  y0 : 0 ≤ y
  yb : y ≤ b
  hi : -E ≤ ellF a b x (y + 1 / 2) ∨ -E ≤ ellF a b (x + 1 / 2) y
  lo : ellF a b x (y - 1 / 2) ≤ E ∨ ellF a b (x - 1) y ≤ E
  slope : (a : ℚ) ^ 2 * y ≤ (b : ℚ) ^ 2 * x + (b : ℚ) ^ 2 / 16

theorem SideTol.row {E : ℚ} {a b x y : Int} (h : SideTol E a b x y) (hy : 1 ≤ y) :
    -E ≤ ellF a b (x + 1) y := by
  have hx0 : (0 : ℚ) ≤ x := by exact_mod_cast h.x0
  have hy1 : (1 : ℚ) ≤ y := by exact_mod_cast hy
  have hs := h.slope
  rcases h.hi with h1 | h1
  · unfold ellF at h1 ⊢
    have h2 := sq_nonneg (b : ℚ)
    have h3 := mul_nonneg (sq_nonneg (a : ℚ)) (show (0 : ℚ) ≤ y - 1 / 4 by linarith)
    linarith
  · exact le_trans h1 (ellF_mono (by linarith) (by linarith) (by linarith) le_rfl)

/-- The decision variable of the side region is bounded. -/
theorem SideTol.bound {E : ℚ} {a b x y : Int} (h : SideTol E a b x y) (_hE : 0 ≤ E) (ha : 1 ≤ (a : ℚ))
    (hb : 1 ≤ (b : ℚ)) :
    |ellF a b (x + 1 / 2) (y - 1)| ≤ E + (3 * ((a : ℚ) * (b : ℚ) ^ 2) + 3 * ((a : ℚ) ^ 2 * b)) := by
  have hx0 : (0 : ℚ) ≤ x := by exact_mod_cast h.x0
  have hxa : (x : ℚ) ≤ a := by exact_mod_cast h.xa
  have hy0 : (0 : ℚ) ≤ y := by exact_mod_cast h.y0
  have hyb : (y : ℚ) ≤ b := by exact_mod_cast h.yb
  have k1 := mul_le_mul_of_nonneg_left hxa (sq_nonneg (b : ℚ))
  have k2 := mul_le_mul_of_nonneg_left hyb (sq_nonneg (a : ℚ))
  have k3 := mul_nonneg (sq_nonneg (b : ℚ)) hx0
  have k4 := mul_nonneg (sq_nonneg (a : ℚ)) hy0
  have k5 := mul_le_mul_of_nonneg_left ha (sq_nonneg (b : ℚ))
  have k6 := sq_nonneg (b : ℚ)
  have k7 := mul_le_mul_of_nonneg_left hb (sq_nonneg (a : ℚ))
  have k8 := sq_nonneg (a : ℚ)
  have hhi := h.hi
  have hlo := h.lo
  unfold ellF at *
  rw [abs_le]
  constructor
  · rcases hhi with h1 | h1 <;> linarith
  · rcases hlo with h1 | h1 <;> linarith

universe u

theorem top32_spec (a b : Int) (ha : 1 ≤ a) (hb : 1 ≤ b) (ha5 : a ≤ 512) (hb5 : b ≤ 512)
    (hw : rnd32 (-2 * (a : ℚ) ^ 2) = -2 * (a : ℚ) ^ 2) (hh : rnd32 (2 * (b : ℚ) ^ 2) = 2 * (b : ℚ) ^ 2) :
    ∀ (n : Nat) (x y : Int) (px py p : ℚ), TopTol (ellTol a b) a b x y →
    |px - 2 * (b : ℚ) ^ 2 * x| ≤ errX a b x → |py - 2 * (a : ℚ) ^ 2 * y| ≤ errY a b y →
    |p - ellF a b (x + 1) (y - 1 / 2)| ≤ errTop a b x y → a - x < n →
    ∃ (L : List (Int × Int)) (x' y' : Int) (px' py' : ℚ),
      (∀ {σ : Type u} (draw : Int → Int → σ → Option σ) (s : σ),
        ellipseTop32 draw ((a : ℚ) ^ 2) ((b : ℚ) ^ 2) n x y px py p s =
          (forList L s fun q s => draw q.1 q.2 s).map fun s => (x', y', px', py', s)) ∧
      |px' - 2 * (b : ℚ) ^ 2 * x'| ≤ errX a b x' ∧ |py' - 2 * (a : ℚ) ^ 2 * y'| ≤ errY a b y' ∧
      List.IsChain QuadStep ((x, y) :: L) ∧ ((x, y) :: L).getLast? = some (x', y') ∧
      TopTol (ellTol a b) a b x' y' ∧ (a : ℚ) ^ 2 * y' ≤ (b : ℚ) ^ 2 * x' + (b : ℚ) ^ 2 / 16 ∧ y' ≤ y ∧
      (∀ q ∈ L, TopTol (ellTol a b) a b q.1 q.2) ∧
      (∀ Y : Int, y' < Y → Y ≤ y → ∃ X : Int, (X, Y) ∈ (x, y) :: L ∧ -ellTol a b ≤ ellF a b (X + 1) Y) := by
  have haq : (1 : ℚ) ≤ a := by exact_mod_cast ha
  have hbq : (1 : ℚ) ≤ b := by exact_mod_cast hb
  have ha5q : (a : ℚ) ≤ 512 := by exact_mod_cast ha5
  have hb5q : (b : ℚ) ≤ 512 := by exact_mod_cast hb5
  have hE := ellTol_pos haq hbq
  have hE1 := ellTol_le haq hbq ha5q hb5q
  have hE2 := ellTol_le' haq hbq ha5q hb5q
  obtain ⟨_, _, _, _, m5, m6, _, _, _, _⟩ := mono_le haq hbq
  intro n
  induction n with
  | zero => intro x y px py p h _ _ _ hn; have := h.xa; push_cast at hn; omega
  | succ n ih =>
    intro x y px py p h hpx hpy hp hn
    have hx0 : (0 : ℚ) ≤ x := by exact_mod_cast h.x0
    have hxa' : (x : ℚ) ≤ a := by exact_mod_cast h.xa
    have hy0 : (0 : ℚ) ≤ y := by exact_mod_cast h.y0
    have hyb : (y : ℚ) ≤ b := by exact_mod_cast h.yb
    have hsl := slope_err haq hbq hx0 hxa' hy0 hyb ha5q hb5q
    have hpx' := abs_le.1 hpx
    have hpy' := abs_le.1 hpy
    have hpt := abs_le.1 (le_trans hp (errTop_le haq hbq hx0 hxa' hy0 hyb))
    by_cases hcc : px < py
    · have hc : 2 * (b : ℚ) ^ 2 * x < 2 * (a : ℚ) ^ 2 * y + (b : ℚ) ^ 2 / 8 := by linarith
      have hlo := h.lo hc
      have hy1 : 1 ≤ y := by
        by_contra hcon
        obtain rfl : y = 0 := by have := h.y0; omega
        by_cases hx1 : 1 ≤ x
        · have hx1' : (1 : ℚ) ≤ x := by exact_mod_cast hx1
          have := mul_le_mul_of_nonneg_left hx1' (sq_nonneg (b : ℚ))
          push_cast at hc
          linarith
        · obtain rfl : x = 0 := by have := h.x0; omega
          have hhi := h.hi
          unfold ellF at hhi
          push_cast at hhi
          linarith
      have hy1' : (1 : ℚ) ≤ y := by exact_mod_cast hy1
      have hxa : x < a := by
        by_contra hcon
        obtain rfl : x = a := by have := h.xa; omega
        have e1 : (x : ℚ) ^ 2 * ((y : ℚ) - 1 / 2) ^ 2 ≤ ellTol x b := by
          refine le_trans (le_of_eq ?_) hlo
          unfold ellF; ring
        have e2 : (y : ℚ) / 4 ≤ ((y : ℚ) - 1 / 2) ^ 2 := by nlinarith
        have e3 := mul_le_mul_of_nonneg_left e2 (sq_nonneg (x : ℚ))
        linarith
      have hxaq : (x : ℚ) + 1 ≤ a := by exact_mod_cast hxa
      have hpx1 := px_step haq hbq ha5q hx0 hxaq hpx
      by_cases hp0 : p < 0
      · have hinv : TopTol (ellTol a b) a b (x + 1) y := by
          refine ⟨by have := h.x0; omega, by omega, h.y0, h.yb, ?_, fun _ => ?_, Or.inl ?_⟩
          · refine le_trans h.hi (ellF_mono hx0 (by linarith) ?_ le_rfl)
            push_cast; linarith
          · push_cast; linarith
          · push_cast; linarith
        have hbd := hinv.bound hE.le haq
        have ef : ellF a b (((x + 1 : Int) : ℚ) + 1) (y - 1 / 2) = ellF a b (x + 1) (y - 1 / 2) +
            (b : ℚ) ^ 2 * (2 * x + 3) := by unfold ellF; push_cast; ring
        rw [ef] at hbd
        obtain ⟨L, x', y', px', py', e, c1, c2, c3, c4, c5, c6, c7, c8, c9⟩ := ih (x + 1) y
          (rnd32 (px + rnd32 (2 * (b : ℚ) ^ 2))) py
          (rnd32 (p + rnd32 ((b : ℚ) ^ 2 + rnd32 (px + rnd32 (2 * (b : ℚ) ^ 2))))) hinv
          (by rw [hh]; push_cast; exact hpx1) hpy
          (by
            rw [hh, ef]; push_cast
            exact top_straight haq hbq ha5q hb5q hx0 hxaq hy0 hyb hp hpx1 hbd)
          (by push_cast at hn; omega)
        refine ⟨(x + 1, y) :: L, x', y', px', py', ?_, c1, c2, ?_, ?_, c5, c6, c7, ?_, ?_⟩
        · intro σ draw s
          rw [ellipseTop32, if_pos hcc]
          dsimp only
          rw [if_pos hp0, forList, Option.map_bind]
          congr 1
          funext s
          exact e draw s
        · exact List.IsChain.cons_cons (Or.inl rfl) c3
        · rw [List.getLast?_cons_cons]; exact c4
        · intro q hq
          rcases List.mem_cons.1 hq with rfl | hq
          · exact hinv
          · exact c8 q hq
        · intro Y h1 h2
          obtain ⟨X, hX, hF⟩ := c9 Y h1 h2
          exact ⟨X, List.mem_cons_of_mem _ hX, hF⟩
      · have hF0 : -ellTol a b ≤ ellF a b (x + 1) (y - 1 / 2) := by linarith [not_lt.1 hp0]
        have hinv : TopTol (ellTol a b) a b (x + 1) (y - 1) := by
          refine ⟨by have := h.x0; omega, by omega, by omega, by have := h.yb; omega, ?_, fun hc' => ?_,
            Or.inr ⟨by have := h.x0; omega, ?_⟩⟩
          · push_cast
            rw [show (y : ℚ) - 1 + 1 / 2 = y - 1 / 2 by ring]
            exact hF0
          · push_cast at hc' ⊢
            unfold ellF at hlo ⊢
            have := sq_nonneg (b : ℚ)
            linarith
          · push_cast
            rw [show (y : ℚ) - 1 + 1 / 2 = y - 1 / 2 by ring, show (x : ℚ) + 1 - 1 = x by ring]
            exact hlo
        have hpy1 := py_step haq hbq hb5q hy1' hyb hpy
        have hbd := hinv.bound hE.le haq
        have ef : ellF a b (((x + 1 : Int) : ℚ) + 1) (((y - 1 : Int) : ℚ) - 1 / 2) =
            ellF a b (x + 1) (y - 1 / 2) + ((b : ℚ) ^ 2 * (2 * x + 3) - 2 * (a : ℚ) ^ 2 * (y - 1)) := by
          unfold ellF; push_cast; ring
        rw [ef] at hbd
        obtain ⟨L, x', y', px', py', e, c1, c2, c3, c4, c5, c6, c7, c8, c9⟩ := ih (x + 1) (y - 1)
          (rnd32 (px + rnd32 (2 * (b : ℚ) ^ 2))) (rnd32 (py + rnd32 (-2 * (a : ℚ) ^ 2)))
          (rnd32 (p + rnd32 (rnd32 ((b : ℚ) ^ 2 + rnd32 (px + rnd32 (2 * (b : ℚ) ^ 2))) -
            rnd32 (py + rnd32 (-2 * (a : ℚ) ^ 2))))) hinv
          (by rw [hh]; push_cast; exact hpx1) (by rw [hw]; push_cast; exact hpy1)
          (by
            rw [hh, hw, ef]; push_cast
            exact top_diag haq hbq ha5q hb5q hx0 hxaq hy1' hyb hp hpx1 hpy1 hbd)
          (by push_cast at hn; omega)
        refine ⟨(x + 1, y - 1) :: L, x', y', px', py', ?_, c1, c2, ?_, ?_, c5, c6, by omega, ?_, ?_⟩
        · intro σ draw s
          rw [ellipseTop32, if_pos hcc]
          dsimp only
          rw [if_neg hp0, forList, Option.map_bind]
          congr 1
          funext s
          exact e draw s
        · exact List.IsChain.cons_cons (Or.inr (Or.inl rfl)) c3
        · rw [List.getLast?_cons_cons]; exact c4
        · intro q hq
          rcases List.mem_cons.1 hq with rfl | hq
          · exact hinv
          · exact c8 q hq
        · intro Y h1 h2
          by_cases hY : Y = y
          · subst hY
            refine ⟨x, List.mem_cons_self, ?_⟩
            exact le_trans hF0 (ellF_mono (by linarith) (by linarith) le_rfl (by linarith))
          · obtain ⟨X, hX, hF⟩ := c9 Y h1 (by omega)
            exact ⟨X, List.mem_cons_of_mem _ hX, hF⟩
    · refine ⟨[], x, y, px, py, ?_, hpx, hpy, List.isChain_singleton _, rfl, h, ?_, le_rfl, ?_, ?_⟩
      · intro σ draw s
        rw [ellipseTop32, if_neg hcc, forList]; rfl
      · have := not_lt.1 hcc; linarith
      · intro q hq; cases hq
      · intro Y h1 h2; omega

theorem side32_spec (a b : Int) (ha : 1 ≤ a) (hb : 1 ≤ b) (ha5 : a ≤ 512) (hb5 : b ≤ 512)
    (hw : rnd32 (-2 * (a : ℚ) ^ 2) = -2 * (a : ℚ) ^ 2) (hh : rnd32 (2 * (b : ℚ) ^ 2) = 2 * (b : ℚ) ^ 2) :
    ∀ (n : Nat) (x y : Int) (px py p : ℚ), SideTol (ellTol a b) a b x y →
    |px - 2 * (b : ℚ) ^ 2 * x| ≤ errX a b x → |py - 2 * (a : ℚ) ^ 2 * y| ≤ errY a b y →
    |p - ellF a b (x + 1 / 2) (y - 1)| ≤ errSide a b x y → y ≤ n →
    ∃ (L : List (Int × Int)) (x' : Int),
      (∀ {σ : Type u} (draw : Int → Int → σ → Option σ) (s : σ),
        ellipseSide32 draw ((a : ℚ) ^ 2) ((b : ℚ) ^ 2) n x y px py p s =
          forList L s fun q s => draw q.1 q.2 s) ∧
      List.IsChain QuadStep ((x, y) :: L) ∧ ((x, y) :: L).getLast? = some (x', 0) ∧
      (∀ q ∈ L, SideTol (ellTol a b) a b q.1 q.2) ∧ (y = 0 → x' = x) ∧
      (0 < y → -ellTol a b ≤ ellF a b (x' + 1 / 2) 0) ∧ 0 ≤ x' ∧ x' ≤ a ∧
      (∀ Y : Int, 1 ≤ Y → Y ≤ y → ∃ X : Int, (X, Y) ∈ (x, y) :: L ∧ -ellTol a b ≤ ellF a b (X + 1) Y) := by
  have haq : (1 : ℚ) ≤ a := by exact_mod_cast ha
  have hbq : (1 : ℚ) ≤ b := by exact_mod_cast hb
  have ha5q : (a : ℚ) ≤ 512 := by exact_mod_cast ha5
  have hb5q : (b : ℚ) ≤ 512 := by exact_mod_cast hb5
  have hE := ellTol_pos haq hbq
  have hE1 := ellTol_le haq hbq ha5q hb5q
  have hE2 := ellTol_le' haq hbq ha5q hb5q
  obtain ⟨_, _, m3, m4, m5, m6, _, _, _, _⟩ := mono_le haq hbq
  intro n
  induction n with
  | zero =>
    intro x y px py p h hpx hpy hp hn
    obtain rfl : y = 0 := by have := h.y0; push_cast at hn; omega
    refine ⟨[], x, ?_, List.isChain_singleton _, rfl, ?_, fun _ => rfl, fun h => by omega, h.x0, h.xa, ?_⟩
    · intro σ draw s; rw [ellipseSide32, if_neg (by omega)]; rfl
    · intro q hq; cases hq
    · intro Y h1 h2; omega
  | succ n ih =>
    intro x y px py p h hpx hpy hp hn
    have hx0 : (0 : ℚ) ≤ x := by exact_mod_cast h.x0
    have hxa' : (x : ℚ) ≤ a := by exact_mod_cast h.xa
    have hy0 : (0 : ℚ) ≤ y := by exact_mod_cast h.y0
    have hyb : (y : ℚ) ≤ b := by exact_mod_cast h.yb
    have hpt := abs_le.1 (le_trans hp (errSide_le haq hbq hx0 hxa' hy0 hyb))
    by_cases hc : y > 0
    · have hy1' : (1 : ℚ) ≤ y := by exact_mod_cast hc
      have hs := h.slope
      have ha2 := sq_nonneg (a : ℚ)
      have hb2 := sq_nonneg (b : ℚ)
      have hpy1 := py_step haq hbq hb5q hy1' hyb hpy
      by_cases hp0 : p > 0
      · have hF0 : -ellTol a b ≤ ellF a b (x + 1 / 2) (y - 1) := by linarith
        have hinv : SideTol (ellTol a b) a b x (y - 1) := by
          refine ⟨h.x0, h.xa, by omega, by have := h.yb; omega, Or.inr ?_, ?_, ?_⟩
          · push_cast; exact hF0
          · rcases h.lo with h1 | h1
            · left
              unfold ellF at h1 ⊢
              push_cast
              have h3 := mul_nonneg ha2 (show (0 : ℚ) ≤ 2 * y - 2 by linarith)
              linarith
            · right
              unfold ellF at h1 ⊢
              push_cast
              have h3 := mul_nonneg ha2 (show (0 : ℚ) ≤ 2 * y - 1 by linarith)
              linarith
          · push_cast; linarith
        have hbd := hinv.bound hE.le haq hbq
        have ef : ellF a b (x + 1 / 2) (((y - 1 : Int) : ℚ) - 1) = ellF a b (x + 1 / 2) (y - 1) +
            (a : ℚ) ^ 2 * (3 - 2 * y) := by unfold ellF; push_cast; ring
        rw [ef] at hbd
        obtain ⟨L, x', e, c1, c2, c3, c4, c5, c6, c7, c8⟩ := ih x (y - 1) px
          (rnd32 (py + rnd32 (-2 * (a : ℚ) ^ 2)))
          (rnd32 (p + rnd32 ((a : ℚ) ^ 2 - rnd32 (py + rnd32 (-2 * (a : ℚ) ^ 2))))) hinv hpx
          (by rw [hw]; push_cast; exact hpy1)
          (by
            rw [hw, ef]; push_cast
            exact side_straight haq hbq ha5q hb5q hx0 hxa' hy1' hyb hp hpy1 hbd)
          (by push_cast at hn; omega)
        refine ⟨(x, y - 1) :: L, x', ?_, ?_, ?_, ?_, fun h0 => by omega, fun _ => ?_, c6, c7, ?_⟩
        · intro σ draw s
          rw [ellipseSide32, if_pos hc]
          dsimp only
          rw [if_pos hp0, forList]
          congr 1
          funext s
          exact e draw s
        · exact List.IsChain.cons_cons (Or.inr (Or.inr rfl)) c1
        · rw [List.getLast?_cons_cons]; exact c2
        · intro q hq
          rcases List.mem_cons.1 hq with rfl | hq
          · exact hinv
          · exact c3 q hq
        · by_cases h1 : y - 1 = 0
          · rw [c4 h1]
            have : (y : ℚ) - 1 = 0 := by exact_mod_cast h1
            rw [this] at hF0; exact hF0
          · exact c5 (by omega)
        · intro Y h1 h2
          by_cases hY : Y = y
          · subst hY; exact ⟨x, List.mem_cons_self, h.row h1⟩
          · obtain ⟨X, hX, hF⟩ := c8 Y h1 (by omega)
            exact ⟨X, List.mem_cons_of_mem _ hX, hF⟩
      · have hin : ellF a b (x + 1 / 2) (y - 1) ≤ ellTol a b := by linarith [not_lt.1 hp0]
        have hxa : x + 1 ≤ a := by
          by_contra hcon
          obtain rfl : x = a := by have := h.xa; omega
          unfold ellF at hin
          have := mul_nonneg ha2 (sq_nonneg ((y : ℚ) - 1))
          linarith
        have hxaq : (x : ℚ) + 1 ≤ a := by exact_mod_cast hxa
        have hout : -ellTol a b ≤ ellF a b (x + 3 / 2) (y - 1) := by
          rcases h.hi with h1 | h1
          · unfold ellF at h1 ⊢; linarith
          · unfold ellF at h1 ⊢; linarith
        have hinv : SideTol (ellTol a b) a b (x + 1) (y - 1) := by
          refine ⟨by have := h.x0; omega, hxa, by omega, by have := h.yb; omega, Or.inr ?_,
            Or.inr ?_, ?_⟩
          · push_cast
            rw [show (x : ℚ) + 1 + 1 / 2 = x + 3 / 2 by ring]; exact hout
          · push_cast
            rw [show (x : ℚ) + 1 - 1 = x by ring]
            exact le_trans (ellF_mono hx0 (by linarith) (by linarith) le_rfl) hin
          · push_cast; linarith
        have hpx1 := px_step haq hbq ha5q hx0 hxaq hpx
        have hbd := hinv.bound hE.le haq hbq
        have ef : ellF a b (((x + 1 : Int) : ℚ) + 1 / 2) (((y - 1 : Int) : ℚ) - 1) =
            ellF a b (x + 1 / 2) (y - 1) + ((a : ℚ) ^ 2 * (3 - 2 * y) + 2 * (b : ℚ) ^ 2 * (x + 1)) := by
          unfold ellF; push_cast; ring
        rw [ef] at hbd
        obtain ⟨L, x', e, c1, c2, c3, c4, c5, c6, c7, c8⟩ := ih (x + 1) (y - 1)
          (rnd32 (px + rnd32 (2 * (b : ℚ) ^ 2))) (rnd32 (py + rnd32 (-2 * (a : ℚ) ^ 2)))
          (rnd32 (p + rnd32 (rnd32 ((a : ℚ) ^ 2 - rnd32 (py + rnd32 (-2 * (a : ℚ) ^ 2))) +
            rnd32 (px + rnd32 (2 * (b : ℚ) ^ 2))))) hinv
          (by rw [hh]; push_cast; exact hpx1) (by rw [hw]; push_cast; exact hpy1)
          (by
            rw [hh, hw, ef]; push_cast
            exact side_diag haq hbq ha5q hb5q hx0 hxaq hy1' hyb hp hpx1 hpy1 hbd)
          (by push_cast at hn; omega)
        refine ⟨(x + 1, y - 1) :: L, x', ?_, ?_, ?_, ?_, fun h0 => by omega, fun _ => ?_, c6, c7, ?_⟩
        · intro σ draw s
          rw [ellipseSide32, if_pos hc]
          dsimp only
          rw [if_neg hp0, forList]
          congr 1
          funext s
          exact e draw s
        · exact List.IsChain.cons_cons (Or.inr (Or.inl rfl)) c1
        · rw [List.getLast?_cons_cons]; exact c2
        · intro q hq
          rcases List.mem_cons.1 hq with rfl | hq
          · exact hinv
          · exact c3 q hq
        · by_cases h1 : y - 1 = 0
          · rw [c4 h1]
            have : (y : ℚ) - 1 = 0 := by exact_mod_cast h1
            rw [this] at hout
            push_cast
            rw [show (x : ℚ) + 1 + 1 / 2 = x + 3 / 2 by ring]; exact hout
          · exact c5 (by omega)
        · intro Y h1 h2
          by_cases hY : Y = y
          · subst hY; exact ⟨x, List.mem_cons_self, h.row h1⟩
          · obtain ⟨X, hX, hF⟩ := c8 Y h1 (by omega)
            exact ⟨X, List.mem_cons_of_mem _ hX, hF⟩
    · obtain rfl : y = 0 := by have := h.y0; omega
      refine ⟨[], x, ?_, List.isChain_singleton _, rfl, ?_, fun _ => rfl, fun h => by omega, h.x0,
        h.xa, ?_⟩
      · intro σ draw s; rw [ellipseSide32, if_neg (by omega)]; rfl
      · intro q hq; cases hq
      · intro Y h1 h2; omega

theorem sq32 {n : Int} (h0 : 0 ≤ n) (h : n ≤ 512) :
    rnd32 ((n * n : Int) : ℚ) = (n : ℚ) ^ 2 ∧ rnd32 (2 * (n : ℚ) ^ 2) = 2 * (n : ℚ) ^ 2 ∧
    rnd32 (-2 * (n : ℚ) ^ 2) = -2 * (n : ℚ) ^ 2 ∧ rnd32 (1 / 4 * (n : ℚ) ^ 2) = 1 / 4 * (n : ℚ) ^ 2 := by
  have h1 : n * n ≤ 262144 := by nlinarith
  have h2 : 0 ≤ n * n := mul_nonneg h0 h0
  refine ⟨?_, ?_, ?_, ?_⟩
  · rw [rnd32_int (by rw [abs_le]; constructor <;> omega)]; push_cast; ring
  · have := rnd32_int (n := 2 * (n * n)) (by rw [abs_le]; constructor <;> omega)
    rw [show 2 * (n : ℚ) ^ 2 = ((2 * (n * n) : Int) : ℚ) by push_cast; ring, this]
  · have := rnd32_int (n := -2 * (n * n)) (by rw [abs_le]; constructor <;> omega)
    rw [show -2 * (n : ℚ) ^ 2 = ((-2 * (n * n) : Int) : ℚ) by push_cast; ring, this]
  · refine rnd_of_rep (by norm_num) ⟨n * n, -2, by rw [abs_le]; constructor <;> omega, by norm_num, ?_⟩
    push_cast
    rw [show (2 : ℚ) ^ (-2 : Int) = 1 / 4 by norm_num]; ring

theorem half_sq32 {n : Int} (h0 : 0 ≤ n) (h : n ≤ 512) :
    rnd32 (rnd32 (rnd32 (n : ℚ) + 1 / 2) * rnd32 (rnd32 (n : ℚ) + 1 / 2)) = ((n : ℚ) + 1 / 2) ^ 2 := by
  have e1 : rnd32 ((n : ℚ) + 1 / 2) = n + 1 / 2 := by
    refine rnd_of_rep (by norm_num) ⟨2 * n + 1, -1, by rw [abs_le]; constructor <;> omega, by norm_num, ?_⟩
    push_cast
    rw [show (2 : ℚ) ^ (-1 : Int) = 1 / 2 by norm_num]; ring
  rw [rnd32_int (by rw [abs_le]; constructor <;> omega), e1]
  have h1 : (2 * n + 1) * (2 * n + 1) ≤ 1050625 := by nlinarith
  have h2 : 0 ≤ (2 * n + 1) * (2 * n + 1) := mul_nonneg (by omega) (by omega)
  have e2 : rnd32 (((n : ℚ) + 1 / 2) * (n + 1 / 2)) = (n + 1 / 2) * (n + 1 / 2) := by
    refine rnd_of_rep (by norm_num) ⟨(2 * n + 1) * (2 * n + 1), -2, by rw [abs_le]; constructor <;> omega,
      by norm_num, ?_⟩
    push_cast
    rw [show (2 : ℚ) ^ (-2 : Int) = 1 / 4 by norm_num]; ring
  rw [e2]; ring

/-- The decision variable at the start of the top region. -/
theorem top_init {a b : ℚ} (ha : 1 ≤ a) (hb : 1 ≤ b) :
    |rnd32 (rnd32 (b ^ 2 - rnd32 (a ^ 2 * b)) + 1 / 4 * a ^ 2) - (b ^ 2 - a ^ 2 * b + 1 / 4 * a ^ 2)| ≤
      errTop a b 0 b := by
  obtain ⟨_, _, m3, m4, m5, m6, m7, m8, m9, m10⟩ := mono_le ha hb
  have hu := eu_pos
  have hule := eu_le
  have h1 := ell_rnd (z := a ^ 2 * b) (t := a ^ 2 * b) (e := 0) (X := a ^ 2 * b) (by simp)
    (by rw [abs_of_nonneg (by positivity)]; linarith) m10
  have k1 := mul_le_mul_of_nonneg_right hule (show 0 ≤ a ^ 2 * b by linarith)
  have k2 := mul_le_mul_of_nonneg_left m7 hu.le
  have k3 := mul_le_mul_of_nonneg_left m8 hu.le
  have k4 := mul_nonneg hu.le (show 0 ≤ a ^ 2 * b ^ 2 by linarith)
  have b1 : |b ^ 2 - a ^ 2 * b| ≤ a ^ 2 * b ^ 2 := by
    rw [abs_le]; constructor <;> linarith
  have k5 := mul_le_mul_of_nonneg_right hule (show 0 ≤ a ^ 2 * b ^ 2 by linarith)
  have h2 := ell_rnd (z := b ^ 2 - rnd32 (a ^ 2 * b)) (t := b ^ 2 - a ^ 2 * b) (e := 0 + eu * (a ^ 2 * b))
    (X := 5 / 4 * (a ^ 2 * b ^ 2))
    (by rw [show b ^ 2 - rnd32 (a ^ 2 * b) - (b ^ 2 - a ^ 2 * b) = -(rnd32 (a ^ 2 * b) - a ^ 2 * b) by ring,
          abs_neg]; exact h1) (by linarith) (by linarith)
  have b2 : |b ^ 2 - a ^ 2 * b + 1 / 4 * a ^ 2| ≤ 5 / 4 * (a ^ 2 * b ^ 2) := by
    rw [abs_le] at b1 ⊢; constructor <;> linarith
  have h3 := ell_rnd (z := rnd32 (b ^ 2 - rnd32 (a ^ 2 * b)) + 1 / 4 * a ^ 2)
    (t := b ^ 2 - a ^ 2 * b + 1 / 4 * a ^ 2)
    (e := 0 + eu * (a ^ 2 * b) + eu * (5 / 4 * (a ^ 2 * b ^ 2))) (X := 6 / 4 * (a ^ 2 * b ^ 2))
    (by rw [show rnd32 (b ^ 2 - rnd32 (a ^ 2 * b)) + 1 / 4 * a ^ 2 - (b ^ 2 - a ^ 2 * b + 1 / 4 * a ^ 2) =
          rnd32 (b ^ 2 - rnd32 (a ^ 2 * b)) - (b ^ 2 - a ^ 2 * b) by ring]; exact h2)
    (by linarith) (by linarith)
  refine le_trans h3 ?_
  unfold errTop errXY
  have k6 := mul_nonneg hu.le (show 0 ≤ a ^ 2 * b by linarith)
  linarith

/-- The decision variable at the start of the side region. -/
theorem side_init {a b x y f : ℚ} (ha : 1 ≤ a) (hb : 1 ≤ b) (ha5 : a ≤ 512) (hb5 : b ≤ 512) (hx0 : 0 ≤ x)
    (hxa : x ≤ a) (hy0 : 0 ≤ y) (hyb : y ≤ b)
    (hf : f = b ^ 2 * (x + 1 / 2) ^ 2 + a ^ 2 * (y - 1) ^ 2 - a ^ 2 * b ^ 2)
    (hbd : |f| ≤ ellTol a b + (3 * (a * b ^ 2) + 3 * (a ^ 2 * b))) :
    |rnd32 (rnd32 (rnd32 (b ^ 2 * (x + 1 / 2) ^ 2) + rnd32 (a ^ 2 * (y - 1) ^ 2)) - rnd32 (a ^ 2 * b ^ 2)) - f| ≤
      errSide a b x y := by
  obtain ⟨_, _, m3, m4, m5, m6, m7, m8, m9, m10⟩ := mono_le ha hb
  have hu := eu_pos
  have hule := eu_le
  have hE := ellTol_le ha hb ha5 hb5
  have k4 := mul_nonneg hu.le (show 0 ≤ a ^ 2 * b ^ 2 by linarith)
  have k5 := mul_le_mul_of_nonneg_right hule (show 0 ≤ a ^ 2 * b ^ 2 by linarith)
  have q1 : (x + 1 / 2) ^ 2 ≤ 9 / 4 * a ^ 2 := by nlinarith
  have q2 : (y - 1) ^ 2 ≤ b ^ 2 := by nlinarith
  have q3 := mul_le_mul_of_nonneg_left q1 (sq_nonneg b)
  have q4 := mul_le_mul_of_nonneg_left q2 (sq_nonneg a)
  have q5 := mul_nonneg (sq_nonneg b) (sq_nonneg (x + 1 / 2))
  have q6 := mul_nonneg (sq_nonneg a) (sq_nonneg (y - 1))
  have h1 := ell_rnd (z := b ^ 2 * (x + 1 / 2) ^ 2) (t := b ^ 2 * (x + 1 / 2) ^ 2) (e := 0)
    (X := 9 / 4 * (a ^ 2 * b ^ 2)) (by simp) (by rw [abs_of_nonneg q5]; linarith) (by linarith)
  have h2 := ell_rnd (z := a ^ 2 * (y - 1) ^ 2) (t := a ^ 2 * (y - 1) ^ 2) (e := 0)
    (X := a ^ 2 * b ^ 2) (by simp) (by rw [abs_of_nonneg q6]; linarith) (by linarith)
  have h3 := ell_rnd (z := a ^ 2 * b ^ 2) (t := a ^ 2 * b ^ 2) (e := 0)
    (X := a ^ 2 * b ^ 2) (by simp) (by rw [abs_of_nonneg (by linarith)]; linarith) (by linarith)
  have hf' := abs_le.1 hbd
  generalize rnd32 (b ^ 2 * (x + 1 / 2) ^ 2) = A at *
  generalize rnd32 (a ^ 2 * (y - 1) ^ 2) = B at *
  generalize rnd32 (a ^ 2 * b ^ 2) = C at *
  generalize b ^ 2 * (x + 1 / 2) ^ 2 = A' at *
  generalize a ^ 2 * (y - 1) ^ 2 = B' at *
  have h4 := ell_rnd (z := A + B) (t := A' + B') (e := eu * (13 / 4 * (a ^ 2 * b ^ 2)))
    (X := 8 * (a ^ 2 * b ^ 2))
    (by
      have := abs_add_le (A - A') (B - B')
      rw [show A + B - (A' + B') = A - A' + (B - B') by ring]; linarith)
    (by rw [abs_of_nonneg (by linarith)]; linarith) (by linarith)
  have h5 := ell_rnd (z := rnd32 (A + B) - C) (t := f) (e := eu * (49 / 4 * (a ^ 2 * b ^ 2)))
    (X := 7 * (a ^ 2 * b ^ 2))
    (by
      have := abs_sub (rnd32 (A + B) - (A' + B')) (C - a ^ 2 * b ^ 2)
      rw [hf, show rnd32 (A + B) - C - (A' + B' - a ^ 2 * b ^ 2) = rnd32 (A + B) - (A' + B') -
        (C - a ^ 2 * b ^ 2) by ring]; linarith)
    (by linarith) (by linarith)
  refine le_trans h5 ?_
  unfold errSide errXY
  have g1 : 0 ≤ 17 / 16 * eu * (a * b ^ 2) * (x * (x + 1)) := by positivity
  have g2 : 0 ≤ 17 / 16 * eu * (a ^ 2 * b) * ((b - y + 1) * (b - y + 2)) := by
    have : 0 ≤ b - y := by linarith
    positivity
  have g3 : 0 ≤ eu * (6 * (a * b ^ 2) + 10 * (a ^ 2 * b)) * (b - y) :=
    mul_nonneg (by positivity) (by linarith)
  linarith

/-- `draw_ellipse` in `f32` renders the pixels of a quadrant, in order. -/
theorem drawEllipse32_spec (a b : Int) (ha : 1 ≤ a) (hb : 1 ≤ b) (ha5 : a ≤ 512) (hb5 : b ≤ 512) :
    ∃ L, QuadrantTol (ellTol a b) a b L ∧ ∀ {σ : Type u} (draw : Int → Int → σ → Option σ) (s : σ),
      drawEllipse32 draw a b s = forList L s fun q s => draw q.1 q.2 s := by
  have haq : (1 : ℚ) ≤ a := by exact_mod_cast ha
  have hbq : (1 : ℚ) ≤ b := by exact_mod_cast hb
  have ha5q : (a : ℚ) ≤ 512 := by exact_mod_cast ha5
  have hb5q : (b : ℚ) ≤ 512 := by exact_mod_cast hb5
  have hE := ellTol_pos haq hbq
  have hE1 := ellTol_le haq hbq ha5q hb5q
  have hE2 := ellTol_le' haq hbq ha5q hb5q
  obtain ⟨_, _, m3, m4, m5, m6, m7, m8, m9, m10⟩ := mono_le haq hbq
  obtain ⟨sa1, sa2, sa3, sa4⟩ := sq32 (n := a) (by omega) ha5
  obtain ⟨sb1, sb2, sb3, sb4⟩ := sq32 (n := b) (by omega) hb5
  have hb32 : rnd32 (b : ℚ) = b := rnd32_int (by rw [abs_le]; constructor <;> omega)
  have ha2 := sq_nonneg (a : ℚ)
  have h0 : TopTol (ellTol a b) a b 0 b := by
    have hlow : ellF a b (0 : Int) (b - 1 / 2) ≤ ellTol a b := by
      have h2 := mul_nonneg ha2 (show (0 : ℚ) ≤ b - 1 / 4 by linarith)
      unfold ellF; push_cast; linarith
    refine ⟨le_rfl, by omega, by omega, le_rfl, ?_, fun _ => hlow, Or.inl hlow⟩
    have h2 := mul_nonneg ha2 (show (0 : ℚ) ≤ b + 1 / 4 by linarith)
    unfold ellF; push_cast; linarith
  obtain ⟨L1, x1, y1, px1, py1, e1, ex, ey, c1, c2, c3, c4, c5, c6, c8⟩ := top32_spec.{u} a b ha hb ha5 hb5
    sa3 sb2 (a.natAbs + 1) 0 b 0 (rnd32 (2 * (a : ℚ) ^ 2 * b))
    (rnd32 (rnd32 ((b : ℚ) ^ 2 - rnd32 ((a : ℚ) ^ 2 * b)) + 1 / 4 * (a : ℚ) ^ 2)) h0
    (by simp [errX])
    (by
      have := ell_rnd (z := 2 * (a : ℚ) ^ 2 * b) (t := 2 * (a : ℚ) ^ 2 * b) (e := 0)
        (X := 17 / 8 * ((a : ℚ) ^ 2 * b)) (by simp)
        (by rw [abs_of_nonneg (by positivity)]; linarith) (by linarith)
      refine le_trans this (le_of_eq ?_)
      unfold errY; ring)
    (by
      have := top_init haq hbq
      push_cast
      rw [show ellF a b ((0 : ℚ) + 1) (b - 1 / 2) = (b : ℚ) ^ 2 - (a : ℚ) ^ 2 * b + 1 / 4 * (a : ℚ) ^ 2 by
        unfold ellF; ring]
      exact this) (by omega)
  have h1 : SideTol (ellTol a b) a b x1 y1 := ⟨c3.x0, c3.xa, c3.y0, c3.yb, Or.inl c3.hi, c3.near.2, c4⟩
  have hx1 : (0 : ℚ) ≤ x1 := by exact_mod_cast c3.x0
  have hx1a : (x1 : ℚ) ≤ a := by exact_mod_cast c3.xa
  have hy1 : (0 : ℚ) ≤ y1 := by exact_mod_cast c3.y0
  have hy1b : (y1 : ℚ) ≤ b := by exact_mod_cast c3.yb
  obtain ⟨L2, x2, e2, d1, d2, d3, d4, d5, d6, d7, d8⟩ := side32_spec.{u} a b ha hb ha5 hb5 sa3 sb2
    y1.toNat x1 y1 px1 py1
    (rnd32 (rnd32 (rnd32 ((b : ℚ) ^ 2 * ((x1 : ℚ) + 1 / 2) ^ 2) + rnd32 ((a : ℚ) ^ 2 * ((y1 : ℚ) - 1) ^ 2)) -
      rnd32 ((a : ℚ) ^ 2 * (b : ℚ) ^ 2))) h1 ex ey
    (side_init haq hbq ha5q hb5q hx1 hx1a hy1 hy1b (by unfold ellF; rfl) (h1.bound hE.le haq hbq)) (by omega)
  have hlast : ((0, b) :: (L1 ++ L2)).getLast? = some (x2, 0) := by
    rw [← List.cons_append, List.getLast?_append]
    cases L2 with
    | nil =>
      rw [List.getLast?_nil, Option.none_or, c2]
      exact d2
    | cons q L2 =>
      rw [List.getLast?_cons_cons] at d2
      rw [d2]; rfl
  refine ⟨(0, b) :: (L1 ++ L2), ⟨rfl, ?_, ⟨x2, hlast⟩, ?_, ?_, ?_, ?_⟩, ?_⟩
  · rw [← List.cons_append, List.isChain_append]
    refine ⟨c1, ?_, ?_⟩
    · exact d1.tail
    · intro p hp q hq
      rw [c2] at hp
      cases hp
      cases L2 with
      | nil => cases hq
      | cons r L2 =>
        cases hq
        exact (List.isChain_cons_cons.1 d1).1
  · intro q hq
    rcases List.mem_cons.1 hq with rfl | hq
    · exact ⟨le_rfl, by omega, by omega, le_rfl⟩
    · rcases List.mem_append.1 hq with hq | hq
      · have := c6 q hq; exact ⟨this.x0, this.xa, this.y0, this.yb⟩
      · have := d3 q hq; exact ⟨this.x0, this.xa, this.y0, this.yb⟩
  · intro q hq
    rcases List.mem_cons.1 hq with rfl | hq
    · exact h0.near
    · rcases List.mem_append.1 hq with hq | hq
      · exact (c6 q hq).near
      · exact ⟨(d3 q hq).hi, (d3 q hq).lo⟩
  · intro hlt
    rw [hlast]
    have hltq : (a : ℚ) ≤ 4 * (b : ℚ) ^ 2 := by exact_mod_cast hlt
    have hx2 : x2 = a := by
      by_contra hne
      have g2 : (x2 : ℚ) + 1 ≤ a := by exact_mod_cast (show x2 + 1 ≤ a by omega)
      have g3 : (0 : ℚ) ≤ x2 := by exact_mod_cast d6
      by_cases hy : y1 = 0
      · have hh := c3.hi
        rw [hy, ← d4 hy] at hh
        unfold ellF at hh
        push_cast at hh
        have g5 : (x2 : ℚ) ^ 2 ≤ ((a : ℚ) - 1) ^ 2 := pow_le_pow_left₀ g3 (by linarith) 2
        have g6 := mul_le_mul_of_nonneg_left g5 (sq_nonneg (b : ℚ))
        have g7 := mul_le_mul_of_nonneg_left hltq (show (0 : ℚ) ≤ a by linarith)
        rcases (show a = 1 ∨ 2 ≤ a by omega) with h | h
        · have : (a : ℚ) = 1 := by exact_mod_cast h
          rw [this] at g6 hh hE1 hE2 g7
          linarith
        · have h' : (2 : ℚ) ≤ a := by exact_mod_cast h
          have := mul_le_mul_of_nonneg_right h' (sq_nonneg (b : ℚ))
          linarith
      · have hF := d5 (by have := c3.y0; omega)
        have g5 : ((x2 : ℚ) + 1 / 2) ^ 2 ≤ ((a : ℚ) - 1 / 2) ^ 2 :=
          pow_le_pow_left₀ (by linarith) (by linarith) 2
        have g6 := mul_le_mul_of_nonneg_left g5 (sq_nonneg (b : ℚ))
        unfold ellF at hF
        linarith
    rw [hx2]
  · intro y hy1 hyb
    by_cases h : y1 < y
    · obtain ⟨X, hX, hF⟩ := c8 y h hyb
      refine ⟨X, ?_, hF⟩
      rw [← List.cons_append]
      exact List.mem_append_left _ hX
    · obtain ⟨X, hX, hF⟩ := d8 y hy1 (by omega)
      refine ⟨X, ?_, hF⟩
      rw [← List.cons_append]
      rcases List.mem_cons.1 hX with hX | hX
      · rw [hX]
        exact List.mem_append_left _ (List.mem_of_getLast? c2)
      · exact List.mem_append_right _ hX
  · intro σ draw s
    unfold drawEllipse32
    dsimp only
    rw [forList]
    congr 1
    funext s
    have q1 : rnd32 (((y1 - 1) ^ 2 : Int) : ℚ) = ((y1 : ℚ) - 1) ^ 2 := by
      have h1 : (y1 - 1) ^ 2 ≤ 262144 := by
        have := c3.y0; have := c3.yb
        nlinarith
      rw [rnd32_int (by rw [abs_le]; have := sq_nonneg (y1 - 1); constructor <;> omega)]
      push_cast; rfl
    rw [sa1, sb1, sa2, sa4, hb32, e1 draw s, forList_append, Option.bind_map]
    congr 1
    funext s
    dsimp only [Function.comp]
    rw [half_sq32 c3.x0 (by have := c3.xa; omega), q1]
    exact e2 draw s

/-! ### Images -/

/-- **C143.** For every image, centre and pair of different radii from 1 to 512, drawing a hollow ellipse in `f32`
terminates without failure; the pixels coloured are exactly the reflections in both axes of the pixels of an
unbroken monotone path from the top of the ellipse to its horizontal axis, which stays in the bounding box
and near the ideal ellipse up to the tolerance `ellTol` (see `QuadrantTol`). -/
theorem C143_hollow {α : Type u} (im : Image α) (x0 y0 a b : Int) (ha : 1 ≤ a) (hb : 1 ≤ b) (ha5 : a ≤ 512)
    (hb5 : b ≤ 512) (hne : a ≠ b) (c : α) :
    ∃ L out, QuadrantTol (ellTol a b) a b L ∧ drawHollowEllipse32 overwrite im (x0, y0) a b c = some out ∧
      out.w = im.w ∧ out.h = im.h ∧ ∀ x y : Nat, im.InB x y →
        ((|(x : Int) - x0|, |(y : Int) - y0|) ∈ L → out.px x y = c) ∧
        ((|(x : Int) - x0|, |(y : Int) - y0|) ∉ L → out.px x y = im.px x y) := by
  obtain ⟨L, hL, e⟩ := drawEllipse32_spec.{u} a b ha hb ha5 hb5
  obtain ⟨o, h1, h2, h3, h4⟩ := drawList_overwrite im c (quadPts x0 y0 L)
  refine ⟨L, o, hL, ?_, h2, h3, fun x y hxy => ⟨fun h => ?_, fun h => ?_⟩⟩
  · unfold drawHollowEllipse32
    rw [if_neg hne]
    dsimp only
    rw [e, ← h1, quadPts, forList_flatMap]
    congr 1
    funext q im
    simp only [forList]
    cases h : drawIfInBounds overwrite im (x0 + q.1) (y0 + q.2) c <;> simp
  · rw [h4 x y hxy, if_pos ((quadPts_mem hL.box x0 y0 _).2 h)]
  · rw [h4 x y hxy, if_neg (fun h' => h ((quadPts_mem hL.box x0 y0 _).1 h'))]

/-- **C143.** Filled ellipses: exactly the pixels between two mirror-image outline pixels of their row are
coloured.  Every pixel inside the ideal ellipse by more than the tolerance is coloured, except possibly near the
tips of the row through the centre when `a > 4 b²`. -/
theorem C143_filled {α : Type u} (im : Image α) (x0 y0 a b : Int) (ha : 1 ≤ a) (hb : 1 ≤ b) (ha5 : a ≤ 512)
    (hb5 : b ≤ 512) (hne : a ≠ b) (c : α) :
    ∃ L out, QuadrantTol (ellTol a b) a b L ∧ drawFilledEllipse32 overwrite im (x0, y0) a b c = some out ∧
      out.w = im.w ∧ out.h = im.h ∧ ∀ x y : Nat, im.InB x y →
        ((∃ X, (X, |(y : Int) - y0|) ∈ L ∧ |(x : Int) - x0| ≤ X) → out.px x y = c) ∧
        ((∀ X, (X, |(y : Int) - y0|) ∈ L → X < |(x : Int) - x0|) → out.px x y = im.px x y) ∧
        (ellF a b ((x : Int) - x0 : Int) ((y : Int) - y0 : Int) < -ellTol a b →
          (y : Int) ≠ y0 ∨ a ≤ 4 * b ^ 2 → out.px x y = c) := by
  obtain ⟨L, hL, e⟩ := drawEllipse32_spec.{u} a b ha hb ha5 hb5
  obtain ⟨o, h1, h2, h3, h4⟩ := drawList_overwrite im c (spanPts x0 y0 L)
  have key : ∀ x y : Nat, im.InB x y → (∃ X, (X, |(y : Int) - y0|) ∈ L ∧ |(x : Int) - x0| ≤ X) →
      o.px x y = c := by
    intro x y hxy h
    rw [h4 x y hxy, if_pos ((spanPts_mem hL.box x0 y0 _).2 h)]
  refine ⟨L, o, hL, ?_, h2, h3, fun x y hxy => ⟨key x y hxy, fun h => ?_, fun hF hor => ?_⟩⟩
  · unfold drawFilledEllipse32
    rw [if_neg hne]
    dsimp only
    rw [e, ← h1, spanPts, forList_flatMap]
    congr 1
    funext q im
    simp only [forList_append, drawLineInt_eq, hline]
  · rw [h4 x y hxy, if_neg]
    intro h'
    obtain ⟨X, hX, hle⟩ := (spanPts_mem hL.box x0 y0 _).1 h'
    have h5 := h X hX
    dsimp only at hle
    omega
  · refine key x y hxy ?_
    have hE := ellTol_pos (a := a) (b := b) (by exact_mod_cast ha) (by exact_mod_cast hb)
    have hF' : ellF a b (|(x : Int) - x0| : Int) (|(y : Int) - y0| : Int) < -ellTol a b := by
      unfold ellF at hF ⊢
      push_cast at hF ⊢
      rw [sq_abs, sq_abs]
      exact hF
    have hor' : |(y : Int) - y0| ≠ 0 ∨ a ≤ 4 * b ^ 2 := by
      rcases hor with h | h
      · left; rw [Ne, abs_eq_zero]; omega
      · exact Or.inr h
    have hy0 := abs_nonneg ((y : Int) - y0)
    have hx0 := abs_nonneg ((x : Int) - x0)
    generalize |(y : Int) - y0| = v at hF' hor' hy0 ⊢
    generalize |(x : Int) - x0| = u at hF' hx0 ⊢
    have hu : (0 : ℚ) ≤ u := by exact_mod_cast hx0
    have hv : (0 : ℚ) ≤ v := by exact_mod_cast hy0
    have haq : (0 : ℚ) ≤ a := by exact_mod_cast (show 0 ≤ a by omega)
    have hbq : (0 : ℚ) ≤ b := by exact_mod_cast (show 0 ≤ b by omega)
    by_cases hv0 : v = 0
    · subst hv0
      have hlt := hor'.resolve_left (fun h => h rfl)
      refine ⟨a, List.mem_of_getLast? (hL.tip hlt), ?_⟩
      by_contra hc
      have h5 : (a : ℚ) ≤ u := by exact_mod_cast (show a ≤ u by omega)
      have h6 := mul_le_mul_of_nonneg_left (pow_le_pow_left₀ haq h5 2) (sq_nonneg (b : ℚ))
      unfold ellF at hF'
      push_cast at hF'
      linarith
    · have hvb : v ≤ b := by
        by_contra hc
        have h5 : (b : ℚ) ≤ v := by exact_mod_cast (show b ≤ v by omega)
        have h6 := mul_le_mul_of_nonneg_left (pow_le_pow_left₀ hbq h5 2) (sq_nonneg (a : ℚ))
        have h7 := mul_nonneg (sq_nonneg (b : ℚ)) (sq_nonneg (u : ℚ))
        unfold ellF at hF'
        linarith
      obtain ⟨X, hX, hFX⟩ := hL.row v (by omega) hvb
      refine ⟨X, hX, ?_⟩
      by_contra hc
      have hX0 := (hL.box _ hX).1
      have h5 : (X : ℚ) + 1 ≤ u := by exact_mod_cast (show X + 1 ≤ u by omega)
      have h6 : (0 : ℚ) ≤ X := by exact_mod_cast hX0
      have := ellF_mono (a := a) (b := b) (show (0 : ℚ) ≤ X + 1 by linarith) hv h5 le_rfl
      linarith

/-- **C143.** The tolerance is at most `a² b² / (8 r)` for both radii `r`, so the ellipses `ellF = ±ellTol` are the
ideal one with radii changed by at most about 1/16 pixel. -/
theorem C143_tolerance (a b : ℚ) (ha : 1 ≤ a) (hb : 1 ≤ b) (ha5 : a ≤ 512) (hb5 : b ≤ 512) :
    0 < ellTol a b ∧ ellTol a b ≤ a ^ 2 * b ^ 2 / (8 * a) ∧ ellTol a b ≤ a ^ 2 * b ^ 2 / (8 * b) := by
  refine ⟨ellTol_pos ha hb, ?_, ?_⟩
  · rw [le_div_iff₀ (by linarith)]
    have := mul_le_mul_of_nonneg_left (ellTol_le ha hb ha5 hb5) (show 0 ≤ a by linarith)
    linarith
  · rw [le_div_iff₀ (by linarith)]
    have := mul_le_mul_of_nonneg_left (ellTol_le' ha hb ha5 hb5) (show 0 ≤ b by linarith)
    linarith

-- for radii 500 and 400 the outline is within 1/2 pixel of an ellipse whose radii differ by 0.004 percent
example : ellTol 500 400 / (500 ^ 2 * 400 ^ 2) < 1 / 10000 := by norm_num [ellTol]

-- the path for radii 2 and 1, evaluated with rounding
example : (drawEllipse32 (fun x y (s : List (Int × Int)) => some (s ++ [(x, y)])) 2 1 []) =
    some [(0, 1), (1, 1), (2, 0)] := by decide +kernel

end Verif.Float
