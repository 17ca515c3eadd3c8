import Verif.Geometry.MinRect
import Verif.Float.Kapur
import Mathlib.Analysis.Real.Pi.Bounds
import Mathlib.Analysis.SpecialFunctions.Trigonometric.Bounds
/-
Property C153: `min_area_rect` and `rotating_calipers` (src/geometry.rs:99-183) with `Rotation`
(src/point.rs:81-115) in `f64`.  `atan2`, `sin` and `cos` are parameters of bounded error;
the convex hull uses integers only.
-/
namespace Verif.Float
open Verif.Geometry

noncomputable section

/-- `std::f64::consts::PI`. -/
def pi64 : ℝ := 884279719003555 / 281474976710656

/-- `%` of `f64`, which is exact: the remainder has the sign of the dividend. -/
def frem (x m : ℝ) : ℝ := if 0 ≤ x then fmod x m else -fmod (-x) m

/-- Angle of an edge, geometry.rs:127-128.  The half of `PI` is exact. -/
def edgeAngle64 (at2 : ℝ → ℝ → ℝ) (p q : Pt) : ℝ :=
  let ex := rnd64 ((toReal q).1 - (toReal p).1)
  let ey := rnd64 ((toReal q).2 - (toReal p).2)
  |frem (rnd64 (at2 ey ex + pi64)) (pi64 / 2)|

/-- geometry.rs:124-130. -/
def edgeAngles64 (at2 : ℝ → ℝ → ℝ) : List Pt → List ℝ
  | p :: q :: l => edgeAngle64 at2 p q :: edgeAngles64 at2 (q :: l)
  | _ => []

/-- `rotate`, point.rs:100-105. -/
def rotate64 (c s : ℝ) (p : ℝ × ℝ) : ℝ × ℝ :=
  (rnd64 (rnd64 (p.1 * c) + rnd64 (p.2 * s)), rnd64 (rnd64 (p.2 * c) - rnd64 (p.1 * s)))

/-- `invert_rotation`, point.rs:108-112. -/
def invertRotation64 (c s : ℝ) (p : ℝ × ℝ) : ℝ × ℝ :=
  (rnd64 (rnd64 (p.1 * c) - rnd64 (p.2 * s)), rnd64 (rnd64 (p.2 * c) + rnd64 (p.1 * s)))

/-- The fold of geometry.rs:140-148; `f64::MAX` and `f64::MIN` disappear with the first point. -/
def bounds64 (c s : ℝ) (p : Pt) (l : List Pt) : ℝ × ℝ × ℝ × ℝ :=
  let first := rotate64 c s (toReal p)
  l.foldl (fun acc q =>
    let p := rotate64 c s (toReal q)
    (min acc.1 p.1, max acc.2.1 p.1, min acc.2.2.1 p.2, max acc.2.2.2 p.2))
    (first.1, first.1, first.2, first.2)

/-- The area of geometry.rs:150. -/
def area64 (b : ℝ × ℝ × ℝ × ℝ) : ℝ := rnd64 (rnd64 (b.2.1 - b.1) * rnd64 (b.2.2.2 - b.2.2.1))

/-- The corners of geometry.rs:153-156. -/
def corners64 (c s : ℝ) (b : ℝ × ℝ × ℝ × ℝ) : List (ℝ × ℝ) :=
  [invertRotation64 c s (b.2.1, b.2.2.1), invertRotation64 c s (b.1, b.2.2.1),
    invertRotation64 c s (b.1, b.2.2.2), invertRotation64 c s (b.2.1, b.2.2.2)]

open Classical in
/-- Body of the loop of geometry.rs:136-158. -/
def caliperStep64 (sin64 cos64 : ℝ → ℝ) (p : Pt) (l : List Pt) (st : Option (ℝ × List (ℝ × ℝ))) (angle : ℝ) :
    Option (ℝ × List (ℝ × ℝ)) :=
  let s := sin64 angle
  let c := cos64 angle
  let b := bounds64 c s p l
  match st with
  | none => some (area64 b, corners64 c s b)
  | some (minArea, res) => if area64 b < minArea then some (area64 b, corners64 c s b) else some (minArea, res)

/-- geometry.rs:124-158. -/
def calipers64 (at2 : ℝ → ℝ → ℝ) (sin64 cos64 : ℝ → ℝ) (p : Pt) (l : List Pt) : Option (ℝ × List (ℝ × ℝ)) :=
  (dedup (edgeAngles64 at2 (p :: l))).foldl (caliperStep64 sin64 cos64 p l) none

/-- `min_area_rect` in `f64`, geometry.rs:102-114; sorting and rounding to integers are exact. -/
def minAreaRect64 (at2 : ℝ → ℝ → ℝ) (sin64 cos64 : ℝ → ℝ) (points : List Pt) : Option (List Pt) :=
  match convexHull points with
  | [] => none
  | [p] => some [p, p, p, p]
  | [p, q] => some [p, q, q, p]
  | p :: l => (calipers64 at2 sin64 cos64 p l).bind fun r => labelCorners r.2

/-- Accuracy of the trigonometric functions: absolute errors of a few units in the last place, and the
exact values of IEEE 754 on the axes. -/
structure GoodTrig (at2 : ℝ → ℝ → ℝ) (sin64 cos64 : ℝ → ℝ) : Prop where
  atan : ∀ x y : ℝ, |at2 y x - Complex.arg ⟨x, y⟩| ≤ 1 / 2 ^ 50
  low : ∀ x y : ℝ, -pi64 ≤ at2 y x
  right : ∀ x : ℝ, 0 < x → at2 0 x = 0
  left : ∀ x : ℝ, x < 0 → at2 0 x = pi64
  up : ∀ y : ℝ, 0 < y → at2 y 0 = pi64 / 2
  down : ∀ y : ℝ, y < 0 → at2 y 0 = -(pi64 / 2)
  sin : ∀ a : ℝ, 0 ≤ a → a ≤ 2 → |sin64 a - Real.sin a| ≤ 1 / 2 ^ 52
  cos : ∀ a : ℝ, 0 ≤ a → a ≤ 2 → |cos64 a - Real.cos a| ≤ 1 / 2 ^ 52
  sin0 : sin64 0 = 0
  cos0 : cos64 0 = 1

theorem pi64_near : |pi64 - Real.pi| ≤ 1 / 2 ^ 52 := by
  have h1 := Real.pi_gt_d20
  have h2 := Real.pi_lt_d20
  unfold pi64
  rw [abs_le]
  constructor <;> norm_num at h1 h2 ⊢ <;> linarith

/-! ### Directions -/

/-- The direction of a turned edge is along the edge. -/
theorem turned_along (p q : Pt) (n : ℤ) (β : ℝ)
    (hβ : β = Complex.arg ⟨(toReal q).1 - (toReal p).1, (toReal q).2 - (toReal p).2⟩ + n * (Real.pi / 2)) :
    comp (Real.cos β) (Real.sin β) p = comp (Real.cos β) (Real.sin β) q ∨
    comp (-Real.sin β) (Real.cos β) p = comp (-Real.sin β) (Real.cos β) q := by
  set z : ℂ := ⟨(toReal q).1 - (toReal p).1, (toReal q).2 - (toReal p).2⟩ with hz
  have hx : ‖z‖ * Real.cos (Complex.arg z) = (q.1 : ℝ) - p.1 := Complex.norm_mul_cos_arg z
  have hy : ‖z‖ * Real.sin (Complex.arg z) = (q.2 : ℝ) - p.2 := Complex.norm_mul_sin_arg z
  have e : (n : ℝ) * (Real.pi / 2) = β - Complex.arg z := by rw [hβ]; ring
  have h1 : comp (Real.cos β) (Real.sin β) q - comp (Real.cos β) (Real.sin β) p =
      ‖z‖ * Real.cos (n * (Real.pi / 2)) := by
    rw [e, Real.cos_sub]
    unfold comp
    linear_combination -Real.cos β * hx - Real.sin β * hy
  have h2 : comp (-Real.sin β) (Real.cos β) q - comp (-Real.sin β) (Real.cos β) p =
      -(‖z‖ * Real.sin (n * (Real.pi / 2))) := by
    rw [e, Real.sin_sub]
    unfold comp
    linear_combination Real.sin β * hx - Real.cos β * hy
  have h3 : Real.sin (n * (Real.pi / 2)) * Real.cos (n * (Real.pi / 2)) = 0 := by
    have h4 := Real.sin_two_mul ((n : ℝ) * (Real.pi / 2))
    rw [show 2 * ((n : ℝ) * (Real.pi / 2)) = n * Real.pi by ring, Real.sin_int_mul_pi] at h4
    linarith
  rcases mul_eq_zero.1 h3 with h | h
  · right; rw [h, mul_zero, neg_zero] at h2; linarith
  · left; rw [h, mul_zero] at h1; linarith

theorem rnd64_int31 {n : ℤ} (h : |n| ≤ 2 ^ 32) : rnd64 (n : ℝ) = n :=
  rnd_int (by norm_num) (by norm_num) (h.trans (by norm_num))

theorem diff_exact {a b : ℤ} (ha : |a| ≤ 2 ^ 30) (hb : |b| ≤ 2 ^ 30) :
    rnd64 ((a : ℝ) - b) = (a : ℝ) - b := by
  have h : |a - b| ≤ 2 ^ 32 := by
    have := abs_sub a b
    rw [abs_le] at *
    constructor <;> linarith [ha.1, ha.2, hb.1, hb.2]
  have := rnd64_int31 h
  push_cast at this
  exact this

/-- The computed sine and cosine of an edge are those of a direction along the edge up to `2^-47`. -/
theorem dir_near {at2 : ℝ → ℝ → ℝ} {sin64 cos64 : ℝ → ℝ} (G : GoodTrig at2 sin64 cos64) {p q : Pt}
    (hp : |p.1| ≤ 2 ^ 30 ∧ |p.2| ≤ 2 ^ 30) (hq : |q.1| ≤ 2 ^ 30 ∧ |q.2| ≤ 2 ^ 30) :
    ∃ β : ℝ, |cos64 (edgeAngle64 at2 p q) - Real.cos β| ≤ 1 / 2 ^ 47 ∧
      |sin64 (edgeAngle64 at2 p q) - Real.sin β| ≤ 1 / 2 ^ 47 ∧
      (comp (Real.cos β) (Real.sin β) p = comp (Real.cos β) (Real.sin β) q ∨
       comp (-Real.sin β) (Real.cos β) p = comp (-Real.sin β) (Real.cos β) q) := by
  unfold edgeAngle64
  dsimp only
  rw [show rnd64 ((toReal q).1 - (toReal p).1) = (toReal q).1 - (toReal p).1 from diff_exact hq.1 hp.1,
    show rnd64 ((toReal q).2 - (toReal p).2) = (toReal q).2 - (toReal p).2 from diff_exact hq.2 hp.2]
  obtain ⟨X, hX⟩ : ∃ X, X = (toReal q).1 - (toReal p).1 := ⟨_, rfl⟩
  obtain ⟨Y, hY⟩ : ∃ Y, Y = (toReal q).2 - (toReal p).2 := ⟨_, rfl⟩
  rw [← hX, ← hY]
  have hpi := pi64_near
  have hpl := Real.pi_gt_d2
  have hpu := Real.pi_lt_d2
  have hat := G.atan X Y
  have hlo := G.low X Y
  have ha1 := Complex.arg_le_pi ⟨X, Y⟩
  have ha2 := Complex.neg_pi_lt_arg ⟨X, Y⟩
  obtain ⟨A, hA⟩ : ∃ A, A = Complex.arg ⟨X, Y⟩ := ⟨_, rfl⟩
  rw [← hA] at hat ha1 ha2
  rw [abs_le] at hat hpi
  norm_num at hat hpi hpl hpu
  have x0 : 0 ≤ at2 Y X + pi64 := by linarith
  have x1 : at2 Y X + pi64 ≤ 7 := by linarith [hat.2, hpi.2]
  have er := e64 (show |at2 Y X + pi64| ≤ 7 by rw [abs_of_nonneg x0]; exact x1)
  have r0 : 0 ≤ rnd64 (at2 Y X + pi64) := rnd_nonneg x0
  obtain ⟨x, hx⟩ : ∃ x, x = rnd64 (at2 Y X + pi64) := ⟨_, rfl⟩
  rw [← hx] at er r0 ⊢
  unfold frem
  rw [if_pos r0]
  unfold fmod
  have m0 : 0 < pi64 / 2 := by linarith [hpi.1]
  obtain ⟨k, hk⟩ : ∃ k : ℤ, k = ⌊x / (pi64 / 2)⌋ := ⟨_, rfl⟩
  rw [← hk]
  have k1 : (k : ℝ) * (pi64 / 2) ≤ x := by
    have := Int.floor_le (x / (pi64 / 2))
    rwa [le_div_iff₀ m0, ← hk] at this
  have k2 : x < (k + 1 : ℝ) * (pi64 / 2) := by
    have := Int.lt_floor_add_one (x / (pi64 / 2))
    rwa [div_lt_iff₀ m0, ← hk] at this
  have kn : 0 ≤ k := by rw [hk]; exact Int.floor_nonneg.2 (div_nonneg r0 m0.le)
  rw [abs_le] at er
  norm_num at er
  have k5 : k ≤ 4 := by
    by_contra hc
    have : (5 : ℝ) ≤ k := by exact_mod_cast (by omega : 5 ≤ k)
    have : 5 * (pi64 / 2) ≤ k * (pi64 / 2) := mul_le_mul_of_nonneg_right this m0.le
    linarith [er.2, hpi.1]
  have kr : (k : ℝ) ≤ 4 := by exact_mod_cast k5
  have kr0 : (0 : ℝ) ≤ k := by exact_mod_cast kn
  have a0 : 0 ≤ x - pi64 / 2 * k := by linarith [mul_comm (k : ℝ) (pi64 / 2)]
  rw [abs_of_nonneg a0]
  have a2 : x - pi64 / 2 * k ≤ 2 := by
    have := mul_comm (k : ℝ) (pi64 / 2)
    have : (k + 1 : ℝ) * (pi64 / 2) = k * (pi64 / 2) + pi64 / 2 := by ring
    linarith [hpi.2]
  refine ⟨A + ((2 - k : ℤ) : ℝ) * (Real.pi / 2), ?_, ?_, turned_along p q (2 - k) _ (by rw [hA, hX, hY])⟩
  all_goals
    have close : |x - pi64 / 2 * k - (A + ((2 - k : ℤ) : ℝ) * (Real.pi / 2))| ≤ 1 / 2 ^ 48 := by
      have e : x - pi64 / 2 * k - (A + ((2 - k : ℤ) : ℝ) * (Real.pi / 2)) =
          (x - (at2 Y X + pi64)) + (at2 Y X - A) + (pi64 - Real.pi) - (pi64 - Real.pi) * k / 2 := by
        push_cast; ring
      have d : |(pi64 - Real.pi) * k| ≤ 1 / 2 ^ 52 * 4 := by
        rw [abs_mul, abs_of_nonneg kr0]
        exact mul_le_mul pi64_near kr kr0 (by norm_num)
      rw [abs_le] at d
      rw [e, abs_le]
      norm_num at d ⊢
      constructor <;> linarith [er.1, er.2, hat.1, hat.2, hpi.1, hpi.2, d.1, d.2]
  · have h1 := G.cos _ a0 a2
    have h2 := Real.abs_cos_sub_cos_le (x - pi64 / 2 * k) (A + ((2 - k : ℤ) : ℝ) * (Real.pi / 2))
    have h3 := abs_add_le (cos64 (x - pi64 / 2 * k) - Real.cos (x - pi64 / 2 * k))
      (Real.cos (x - pi64 / 2 * k) - Real.cos (A + ((2 - k : ℤ) : ℝ) * (Real.pi / 2)))
    rw [sub_add_sub_cancel] at h3
    norm_num at close h1 h2 h3 ⊢
    linarith
  · have h1 := G.sin _ a0 a2
    have h2 := Real.abs_sin_sub_sin_le (x - pi64 / 2 * k) (A + ((2 - k : ℤ) : ℝ) * (Real.pi / 2))
    have h3 := abs_add_le (sin64 (x - pi64 / 2 * k) - Real.sin (x - pi64 / 2 * k))
      (Real.sin (x - pi64 / 2 * k) - Real.sin (A + ((2 - k : ℤ) : ℝ) * (Real.pi / 2)))
    rw [sub_add_sub_cancel] at h3
    norm_num at close h1 h2 h3 ⊢
    linarith

/-! ### Error of the extents, areas and corners -/

theorem prod_near64 {a a' c c' A e η : ℝ} (ha' : |a'| ≤ A) (hc : |c| ≤ 1) (he : |a' - a| ≤ e) (hη : |c' - c| ≤ η) :
    |a' * c' - a * c| ≤ A * η + e := by
  have h := abs_add_le (a' * (c' - c)) ((a' - a) * c)
  rw [show a' * (c' - c) + (a' - a) * c = a' * c' - a * c by ring] at h
  have h1 : |a' * (c' - c)| ≤ A * η := by
    rw [abs_mul]; exact mul_le_mul ha' hη (abs_nonneg _) (le_trans (abs_nonneg _) ha')
  have h2 : |(a' - a) * c| ≤ e * 1 := by
    rw [abs_mul]; exact mul_le_mul he hc (abs_nonneg _) (le_trans (abs_nonneg _) he)
  linarith

/-- `rnd(rnd(a c) + rnd(b s))` for `|a|, |b| ≤ 3 B`. -/
theorem dot_near {a a' b b' c c' s s' B e : ℝ} (hB : 1 ≤ B) (ha : |a'| ≤ 3 * B) (hb : |b'| ≤ 3 * B)
    (ea : |a' - a| ≤ e) (eb : |b' - b| ≤ e) (hc : |c| ≤ 1) (hs : |s| ≤ 1) (ec : |c' - c| ≤ 1 / 2 ^ 47)
    (es : |s' - s| ≤ 1 / 2 ^ 47) :
    |rnd64 (rnd64 (a' * c') + rnd64 (b' * s')) - (a * c + b * s)| ≤ 2 * e + B / 2 ^ 44 := by
  have p1 := prod_near64 ha hc ea ec
  have p2 := prod_near64 hb hs eb es
  have mul_le : ∀ {x c c' : ℝ}, |x| ≤ 3 * B → |c| ≤ 1 → |c' - c| ≤ 1 / 2 ^ 47 → |x * c'| ≤ 4 * B := by
    intro x c c' hx hc hcc
    have : |c'| ≤ 4 / 3 := by
      have := abs_sub_abs_le_abs_sub c' c
      norm_num at hcc
      linarith
    rw [abs_mul]
    calc |x| * |c'| ≤ 3 * B * (4 / 3) := mul_le_mul hx this (abs_nonneg _) (by linarith)
      _ = 4 * B := by ring
  have m1 := mul_le ha hc ec
  have m2 := mul_le hb hs es
  have r1 := e64 m1
  have r2 := e64 m2
  have m3 : |rnd64 (a' * c') + rnd64 (b' * s')| ≤ 9 * B := by
    rw [abs_le] at *
    norm_num at *
    constructor <;> linarith [r1.1, r1.2, r2.1, r2.2, m1.1, m1.2, m2.1, m2.2]
  have r3 := e64 m3
  rw [abs_le] at *
  norm_num at *
  constructor <;> linarith [r1.1, r1.2, r2.1, r2.2, r3.1, r3.2, p1.1, p1.2, p2.1, p2.2]

theorem top_near {f g : Pt → ℝ} {p : Pt} {l : List Pt} {e : ℝ} (h : ∀ q ∈ p :: l, |f q - g q| ≤ e) :
    |top f p l - top g p l| ≤ e := by
  obtain ⟨a, ha, ea⟩ := top_mem f p l
  obtain ⟨b, hb, eb⟩ := top_mem g p l
  have h1 := le_top f p l b hb
  have h2 := le_top g p l a ha
  have h3 := abs_le.1 (h a ha)
  have h4 := abs_le.1 (h b hb)
  rw [abs_le]
  constructor <;> linarith [h3.1, h3.2, h4.1, h4.2]

theorem fold_bounds (f g : Pt → ℝ) (p : Pt) (l : List Pt) :
    l.foldl (fun acc q => (min acc.1 (f q), max acc.2.1 (f q), min acc.2.2.1 (g q), max acc.2.2.2 (g q)))
      (f p, f p, g p, g p) =
    (-top (fun q => -f q) p l, top f p l, -top (fun q => -g q) p l, top g p l) := by
  have key : ∀ (l : List Pt) (a b c d : ℝ),
      l.foldl (fun acc q => (min acc.1 (f q), max acc.2.1 (f q), min acc.2.2.1 (g q), max acc.2.2.2 (g q)))
        (-a, b, -c, d) =
      (-l.foldl (fun x q => max x (-f q)) a, l.foldl (fun x q => max x (f q)) b,
        -l.foldl (fun x q => max x (-g q)) c, l.foldl (fun x q => max x (g q)) d) := by
    intro l
    induction l with
    | nil => intro a b c d; rfl
    | cons q l ih =>
      intro a b c d
      simp only [List.foldl_cons]
      rw [← ih]
      congr 1
      simp only [← min_neg_neg, neg_neg]
  have := key l (-f p) (f p) (-g p) (g p)
  rw [neg_neg, neg_neg] at this
  exact this

theorem bounds64_eq (c s : ℝ) (p : Pt) (l : List Pt) : bounds64 c s p l =
    (-top (fun q => -(rotate64 c s (toReal q)).1) p l, top (fun q => (rotate64 c s (toReal q)).1) p l,
     -top (fun q => -(rotate64 c s (toReal q)).2) p l, top (fun q => (rotate64 c s (toReal q)).2) p l) :=
  fold_bounds (fun q => (rotate64 c s (toReal q)).1) (fun q => (rotate64 c s (toReal q)).2) p l

/-- All points are within `B` of the origin in each coordinate. -/
def Within (B : ℝ) (l : List Pt) : Prop := ∀ q ∈ l, |(q.1 : ℝ)| ≤ B ∧ |(q.2 : ℝ)| ≤ B

/-- The four extents are computed to `B / 2^44`. -/
theorem bounds_near {c s β B : ℝ} {p : Pt} {l : List Pt} (hB : 1 ≤ B) (hl : Within B (p :: l))
    (ec : |c - Real.cos β| ≤ 1 / 2 ^ 47) (es : |s - Real.sin β| ≤ 1 / 2 ^ 47) :
    |(bounds64 c s p l).1 - (boxRect p l β).lo1| ≤ B / 2 ^ 44 ∧
    |(bounds64 c s p l).2.1 - (boxRect p l β).hi1| ≤ B / 2 ^ 44 ∧
    |(bounds64 c s p l).2.2.1 - (boxRect p l β).lo2| ≤ B / 2 ^ 44 ∧
    |(bounds64 c s p l).2.2.2 - (boxRect p l β).hi2| ≤ B / 2 ^ 44 := by
  have hcos := Real.abs_cos_le_one β
  have hsin := Real.abs_sin_le_one β
  rw [bounds64_eq]
  have z : ∀ x : ℝ, |x - x| ≤ 0 := by intro x; simp
  have d1 : ∀ q ∈ p :: l, |(rotate64 c s (toReal q)).1 - comp (Real.cos β) (Real.sin β) q| ≤ B / 2 ^ 44 := by
    intro q hq
    obtain ⟨h1, h2⟩ := hl q hq
    have := dot_near (a := (q.1 : ℝ)) (b := (q.2 : ℝ)) hB (by linarith) (by linarith) (z _) (z _) hcos hsin ec es
    rw [mul_zero, zero_add] at this
    exact this
  have d2 : ∀ q ∈ p :: l, |(rotate64 c s (toReal q)).2 - comp (-Real.sin β) (Real.cos β) q| ≤ B / 2 ^ 44 := by
    intro q hq
    obtain ⟨h1, h2⟩ := hl q hq
    have := dot_near (a := (q.2 : ℝ)) (b := -(q.1 : ℝ)) hB (by linarith)
      (by rw [abs_neg]; linarith) (z _) (z _) hcos hsin ec es
    rw [mul_zero, zero_add, neg_mul, neg_mul, show rnd64 (-((q.1 : ℝ) * s)) = -rnd64 ((q.1 : ℝ) * s) from rnd_neg _,
      ← sub_eq_add_neg] at this
    unfold rotate64 comp toReal
    dsimp only
    convert this using 2
    ring
  unfold boxRect
  dsimp only
  refine ⟨?_, top_near d1, ?_, top_near d2⟩
  · rw [neg_sub_neg, abs_sub_comm]
    refine top_near fun q hq => ?_
    rw [comp_neg, neg_sub_neg, abs_sub_comm]
    exact d1 q hq
  · rw [neg_sub_neg, abs_sub_comm]
    refine top_near fun q hq => ?_
    rw [comp_neg, neg_sub_neg, abs_sub_comm]
    exact d2 q hq

/-- The extents are at most `2 B`. -/
theorem box_le {β B : ℝ} {p : Pt} {l : List Pt} (hl : Within B (p :: l)) :
    |(boxRect p l β).lo1| ≤ 2 * B ∧ |(boxRect p l β).hi1| ≤ 2 * B ∧
    |(boxRect p l β).lo2| ≤ 2 * B ∧ |(boxRect p l β).hi2| ≤ 2 * B := by
  have hcos := Real.abs_cos_le_one β
  have hsin := Real.abs_sin_le_one β
  have key : ∀ c s : ℝ, |c| ≤ 1 → |s| ≤ 1 → |top (comp c s) p l| ≤ 2 * B := by
    intro c s hc hs
    obtain ⟨q, hq, e⟩ := top_mem (comp c s) p l
    rw [e]
    obtain ⟨h1, h2⟩ := hl q hq
    unfold comp
    refine (abs_add_le _ _).trans ?_
    rw [abs_mul, abs_mul]
    have := mul_le_mul h1 hc (abs_nonneg _) (le_trans (abs_nonneg _) h1)
    have := mul_le_mul h2 hs (abs_nonneg _) (le_trans (abs_nonneg _) h2)
    linarith
  unfold boxRect
  dsimp only
  refine ⟨?_, key _ _ hcos hsin, ?_, key _ _ (by rwa [abs_neg]) hcos⟩
  · rw [abs_neg]; exact key _ _ (by rwa [abs_neg]) (by rwa [abs_neg])
  · rw [abs_neg]; exact key _ _ (by rwa [neg_neg]) (by rwa [abs_neg])

/-- The area is computed to `B^2 / 2^38`. -/
theorem area_near {c s β B : ℝ} {p : Pt} {l : List Pt} (hB : 1 ≤ B) (hl : Within B (p :: l))
    (ec : |c - Real.cos β| ≤ 1 / 2 ^ 47) (es : |s - Real.sin β| ≤ 1 / 2 ^ 47) :
    |area64 (bounds64 c s p l) - (boxRect p l β).area| ≤ B ^ 2 / 2 ^ 38 := by
  obtain ⟨n1, n2, n3, n4⟩ := bounds_near hB hl ec es
  obtain ⟨g1, g2, g3, g4⟩ := box_le (β := β) hl
  unfold area64 Rect.area
  generalize bounds64 c s p l = b at *
  obtain ⟨b1, b2, b3, b4⟩ := b
  dsimp only at *
  generalize boxRect p l β = R at *
  have width : ∀ {lo hi lo' hi' : ℝ}, |lo' - lo| ≤ B / 2 ^ 44 → |hi' - hi| ≤ B / 2 ^ 44 → |lo| ≤ 2 * B →
      |hi| ≤ 2 * B → |rnd64 (hi' - lo') - (hi - lo)| ≤ B / 2 ^ 42 ∧ |hi - lo| ≤ 4 * B ∧ |rnd64 (hi' - lo')| ≤ 5 * B := by
    intro lo hi lo' hi' h1 h2 h3 h4
    have m : |hi' - lo'| ≤ 5 * B := by
      rw [abs_le] at *
      norm_num at *
      constructor <;> linarith [h1.1, h1.2, h2.1, h2.2, h3.1, h3.2, h4.1, h4.2]
    have r := e64 m
    rw [abs_le] at h1 h2 h3 h4 r
    norm_num at h1 h2 r
    refine ⟨?_, ?_, ?_⟩ <;> rw [abs_le] <;> constructor <;> norm_num <;> linarith [h1.1, h1.2, h2.1, h2.2, h3.1, h3.2, h4.1, h4.2, r.1, r.2]
  obtain ⟨w1, w2, w3⟩ := width n1 n2 g1 g2
  obtain ⟨v1, v2, v3⟩ := width n3 n4 g3 g4
  generalize rnd64 (b2 - b1) = x at *
  generalize rnd64 (b4 - b3) = y at *
  generalize R.hi1 - R.lo1 = X at *
  generalize R.hi2 - R.lo2 = Y at *
  have B2 : B ≤ B ^ 2 := by rw [sq]; exact le_mul_of_one_le_left (by linarith) hB
  have xy : |x * y| ≤ 25 * B ^ 2 := by
    rw [abs_mul]
    calc |x| * |y| ≤ (5 * B) * (5 * B) := mul_le_mul w3 v3 (abs_nonneg _) (by linarith)
      _ = 25 * B ^ 2 := by ring
  have r := e64 xy
  have t1 : |x * (y - Y)| ≤ 5 * B ^ 2 / 2 ^ 42 := by
    rw [abs_mul]
    calc |x| * |y - Y| ≤ (5 * B) * (B / 2 ^ 42) := mul_le_mul w3 v1 (abs_nonneg _) (by linarith)
      _ = _ := by ring
  have t2 : |(x - X) * Y| ≤ 4 * B ^ 2 / 2 ^ 42 := by
    rw [abs_mul]
    calc |x - X| * |Y| ≤ (B / 2 ^ 42) * (4 * B) := mul_le_mul w1 v2 (abs_nonneg _) (by positivity)
      _ = _ := by ring
  have e : rnd64 (x * y) - X * Y = (rnd64 (x * y) - x * y) + x * (y - Y) + (x - X) * Y := by ring
  rw [e]
  have q1 := abs_add_le (rnd64 (x * y) - x * y + x * (y - Y)) ((x - X) * Y)
  have q2 := abs_add_le (rnd64 (x * y) - x * y) (x * (y - Y))
  have B1 : 1 ≤ B ^ 2 := by linarith
  norm_num at r t1 t2 q1 q2 ⊢
  linarith

/-- Two lists of points agree up to `e`. -/
def NearList (e : ℝ) (a b : List (ℝ × ℝ)) : Prop :=
  List.Forall₂ (fun x y => |x.1 - y.1| ≤ e ∧ |x.2 - y.2| ≤ e) a b

/-- The corners are computed to `B / 2^42`. -/
theorem corners_near {c s β B : ℝ} {p : Pt} {l : List Pt} (hB : 1 ≤ B) (hl : Within B (p :: l))
    (ec : |c - Real.cos β| ≤ 1 / 2 ^ 47) (es : |s - Real.sin β| ≤ 1 / 2 ^ 47) :
    NearList (B / 2 ^ 42) (corners64 c s (bounds64 c s p l)) (boxRect p l β).corners := by
  obtain ⟨n1, n2, n3, n4⟩ := bounds_near hB hl ec es
  obtain ⟨g1, g2, g3, g4⟩ := box_le (β := β) hl
  have hcos := Real.abs_cos_le_one β
  have hsin := Real.abs_sin_le_one β
  have hc : (boxRect p l β).c = Real.cos β := rfl
  have hs : (boxRect p l β).s = Real.sin β := rfl
  unfold corners64 Rect.corners Rect.corner invertRotation64 NearList
  rw [hc, hs]
  generalize bounds64 c s p l = b at *
  obtain ⟨b1, b2, b3, b4⟩ := b
  dsimp only at *
  generalize boxRect p l β = R at *
  have big : ∀ {x' x : ℝ}, |x' - x| ≤ B / 2 ^ 44 → |x| ≤ 2 * B → |x'| ≤ 3 * B := by
    intro x' x h1 h2
    have := abs_sub_abs_le_abs_sub x' x
    norm_num at h1
    linarith
  have one : ∀ {a' a b' b : ℝ}, |a' - a| ≤ B / 2 ^ 44 → |a| ≤ 2 * B → |b' - b| ≤ B / 2 ^ 44 → |b| ≤ 2 * B →
      |rnd64 (rnd64 (a' * c) - rnd64 (b' * s)) - (a * Real.cos β - b * Real.sin β)| ≤ B / 2 ^ 42 ∧
      |rnd64 (rnd64 (b' * c) + rnd64 (a' * s)) - (a * Real.sin β + b * Real.cos β)| ≤ B / 2 ^ 42 := by
    intro a' a b' b h1 h2 h3 h4
    have k2 := dot_near hB (big h3 h4) (big h1 h2) h3 h1 hcos hsin ec es
    have k1 := dot_near (b' := -b') (b := -b) hB (big h1 h2) (by rw [abs_neg]; exact big h3 h4) h1
      (by rw [neg_sub_neg, abs_sub_comm]; exact h3) hcos hsin ec es
    rw [neg_mul, neg_mul, show rnd64 (-(b' * s)) = -rnd64 (b' * s) from rnd_neg _, ← sub_eq_add_neg,
      ← sub_eq_add_neg] at k1
    constructor
    · refine k1.trans ?_
      norm_num
      linarith
    · rw [add_comm (a * Real.sin β)]
      refine k2.trans ?_
      norm_num
      linarith
  simp only [List.forall₂_cons, List.forall₂_nil_left_iff, and_true]
  exact ⟨one n2 g2 n3 g3, one n1 g1 n3 g3, one n1 g1 n4 g4, one n2 g2 n4 g4⟩

/-! ### The choice of the edge -/

theorem caliper_fold64 (sin64 cos64 : ℝ → ℝ) (p : Pt) (l : List Pt) : ∀ (as : List ℝ) (S : List ℝ) (θ : ℝ), θ ∈ S →
    (∀ φ ∈ S, area64 (bounds64 (cos64 θ) (sin64 θ) p l) ≤ area64 (bounds64 (cos64 φ) (sin64 φ) p l)) →
    ∃ θ', (θ' ∈ S ∨ θ' ∈ as) ∧
      as.foldl (caliperStep64 sin64 cos64 p l) (some (area64 (bounds64 (cos64 θ) (sin64 θ) p l),
          corners64 (cos64 θ) (sin64 θ) (bounds64 (cos64 θ) (sin64 θ) p l))) =
        some (area64 (bounds64 (cos64 θ') (sin64 θ') p l),
          corners64 (cos64 θ') (sin64 θ') (bounds64 (cos64 θ') (sin64 θ') p l)) ∧
      ∀ φ, φ ∈ S ∨ φ ∈ as →
        area64 (bounds64 (cos64 θ') (sin64 θ') p l) ≤ area64 (bounds64 (cos64 φ) (sin64 φ) p l) := by
  intro as
  induction as with
  | nil =>
    intro S θ h1 h2
    exact ⟨θ, Or.inl h1, rfl, fun φ h => h2 φ (by simpa using h)⟩
  | cons a as ih =>
    intro S θ h1 h2
    rw [List.foldl_cons]
    conv in caliperStep64 _ _ _ _ _ a => unfold caliperStep64
    dsimp only
    by_cases hlt : area64 (bounds64 (cos64 a) (sin64 a) p l) < area64 (bounds64 (cos64 θ) (sin64 θ) p l)
    · rw [if_pos hlt]
      obtain ⟨θ', h3, h4, h5⟩ := ih (a :: S) a (by simp) (by
        intro φ hφ
        rcases List.mem_cons.1 hφ with rfl | hφ
        · exact le_refl _
        · exact hlt.le.trans (h2 φ hφ))
      refine ⟨θ', ?_, h4, ?_⟩
      · simp only [List.mem_cons] at h3 ⊢; tauto
      · intro φ hφ
        apply h5
        simp only [List.mem_cons] at hφ ⊢; tauto
    · rw [if_neg hlt]
      obtain ⟨θ', h3, h4, h5⟩ := ih (a :: S) θ (by simp [h1]) (by
        intro φ hφ
        rcases List.mem_cons.1 hφ with rfl | hφ
        · exact not_lt.1 hlt
        · exact h2 φ hφ)
      refine ⟨θ', ?_, h4, ?_⟩
      · simp only [List.mem_cons] at h3 ⊢; tauto
      · intro φ hφ
        apply h5
        simp only [List.mem_cons] at hφ ⊢; tauto

theorem calipers64_spec (at2 : ℝ → ℝ → ℝ) (sin64 cos64 : ℝ → ℝ) (p q : Pt) (l : List Pt) :
    ∃ θ, θ ∈ edgeAngles64 at2 (p :: q :: l) ∧
      calipers64 at2 sin64 cos64 p (q :: l) = some (area64 (bounds64 (cos64 θ) (sin64 θ) p (q :: l)),
        corners64 (cos64 θ) (sin64 θ) (bounds64 (cos64 θ) (sin64 θ) p (q :: l))) ∧
      ∀ φ ∈ edgeAngles64 at2 (p :: q :: l), area64 (bounds64 (cos64 θ) (sin64 θ) p (q :: l)) ≤
        area64 (bounds64 (cos64 φ) (sin64 φ) p (q :: l)) := by
  unfold calipers64
  have hm := mem_dedup (edgeAngles64 at2 (p :: q :: l))
  have hin : edgeAngle64 at2 p q ∈ dedup (edgeAngles64 at2 (p :: q :: l)) := (hm _).2 (by simp [edgeAngles64])
  cases e : dedup (edgeAngles64 at2 (p :: q :: l)) with
  | nil => rw [e] at hin; simp at hin
  | cons a as =>
    rw [List.foldl_cons]
    conv in caliperStep64 _ _ _ _ _ a => unfold caliperStep64
    dsimp only
    obtain ⟨θ, h1, h2, h3⟩ := caliper_fold64 sin64 cos64 p (q :: l) as [a] a (by simp) (by simp)
    rw [e] at hm
    refine ⟨θ, (hm θ).1 ?_, h2, fun φ hφ => h3 φ ?_⟩
    · simp only [List.mem_cons, List.not_mem_nil, or_false] at h1 ⊢; exact h1
    · have := (hm φ).2 hφ
      simp only [List.mem_cons, List.not_mem_nil, or_false] at this ⊢; exact this

theorem mem_edgeAngles64 (at2 : ℝ → ℝ → ℝ) : ∀ (H : List Pt) (θ : ℝ), θ ∈ edgeAngles64 at2 H ↔
    ∃ i, i + 1 < H.length ∧ θ = edgeAngle64 at2 (vertex H i) (vertex H (i + 1)) := by
  have hv : ∀ (p : Pt) (H : List Pt) (i : Nat), i < H.length → vertex (p :: H) (i + 1) = vertex H i := by
    intro p H i hi
    unfold vertex
    rw [List.length_cons, Nat.mod_eq_of_lt (by omega), Nat.mod_eq_of_lt hi]
    rfl
  have h0 : ∀ (p : Pt) (H : List Pt), vertex (p :: H) 0 = p := by
    intro p H
    unfold vertex
    rw [Nat.zero_mod]
    rfl
  intro H
  induction H with
  | nil => intro θ; simp [edgeAngles64]
  | cons p H ih =>
    intro θ
    cases H with
    | nil => simp [edgeAngles64]
    | cons q H =>
      rw [edgeAngles64, List.mem_cons, ih]
      constructor
      · rintro (rfl | ⟨i, hi, rfl⟩)
        · exact ⟨0, by simp, by rw [h0, hv _ _ _ (by simp), h0]⟩
        · refine ⟨i + 1, by simpa using hi, ?_⟩
          rw [hv p (q :: H) i (by omega), hv p (q :: H) (i + 1) (by omega)]
      · rintro ⟨i, hi, rfl⟩
        cases i with
        | zero => left; rw [h0, hv _ _ _ (by simp), h0]
        | succ i =>
          right
          rw [List.length_cons] at hi
          exact ⟨i, by omega, by rw [hv p (q :: H) i (by omega), hv p (q :: H) (i + 1) (by omega)]⟩

/-! ### Main statements -/

/-- C153 (least area): for points that are not all on one line, at most `B` away from the origin in each
coordinate, the corners that are rounded to integers are, up to `B / 2^42`, those of a rectangle that contains all
points.  Its area exceeds that of every rectangle, in every direction, that contains the points by
at most `B^2 / 2^37` -- unless the least one has a side along the edge that joins the last vertex of the
convex hull to the first one. -/
theorem C153_least {at2 : ℝ → ℝ → ℝ} {sin64 cos64 : ℝ → ℝ} (G : GoodTrig at2 sin64 cos64) {B : ℝ} (hB : 1 ≤ B)
    (hB' : B ≤ 2 ^ 30) (pts : List Pt) (hl : Within B pts)
    (hnc : ∃ a ∈ pts, ∃ b ∈ pts, ∃ c ∈ pts, det a b c ≠ 0) :
    ∃ (R : Rect) (res : List (ℝ × ℝ)), minAreaRect64 at2 sin64 cos64 pts = labelCorners res ∧
      NearList (B / 2 ^ 42) res R.corners ∧ (∀ q ∈ pts, R.Has q) ∧
      ((∀ R' : Rect, (∀ q ∈ pts, R'.Has q) → R.area ≤ R'.area + B ^ 2 / 2 ^ 37) ∨
       ∃ S : Rect, S.Along (vertex (convexHull pts) ((convexHull pts).length - 1))
          (vertex (convexHull pts) 0) ∧ (∀ q ∈ pts, S.Has q) ∧
          ∀ R' : Rect, (∀ q ∈ pts, R'.Has q) → S.area ≤ R'.area) := by
  have C := hull_convex hnc
  have hlen := C.len
  unfold minAreaRect64
  generalize convexHull pts = H at C hlen
  have hlH : Within B H := fun v hv => hl v (C.mem v hv)
  have hi : ∀ v ∈ H, |v.1| ≤ 2 ^ 30 ∧ |v.2| ≤ 2 ^ 30 := by
    intro v hv
    obtain ⟨h1, h2⟩ := hlH v hv
    have h1' := h1.trans hB'
    have h2' := h2.trans hB'
    exact ⟨by exact_mod_cast h1', by exact_mod_cast h2'⟩
  match H, C, hlen, hlH, hi with
  | [], _, h, _, _ => simp at h
  | [_], _, h, _, _ => simp at h
  | [_, _], _, h, _, _ => simp at h
  | p :: q :: r :: l, C, _, hlH, hi =>
    obtain ⟨θ, h1, h2, h3⟩ := calipers64_spec at2 sin64 cos64 p q (r :: l)
    dsimp only
    rw [h2, Option.bind_some]
    have ne : p :: q :: r :: l ≠ [] := by simp
    -- a direction for each tried edge
    have dir : ∀ i, ∃ β : ℝ,
        |cos64 (edgeAngle64 at2 (vertex (p :: q :: r :: l) i) (vertex (p :: q :: r :: l) (i + 1))) - Real.cos β| ≤ 1 / 2 ^ 47 ∧
        |sin64 (edgeAngle64 at2 (vertex (p :: q :: r :: l) i) (vertex (p :: q :: r :: l) (i + 1))) - Real.sin β| ≤ 1 / 2 ^ 47 ∧
        (boxRect p (q :: r :: l) β).Along (vertex (p :: q :: r :: l) i) (vertex (p :: q :: r :: l) (i + 1)) :=
      fun i => dir_near G (hi _ (vertex_mem ne _)) (hi _ (vertex_mem ne _))
    obtain ⟨k, hk, ek⟩ := (mem_edgeAngles64 at2 _ θ).1 h1
    obtain ⟨β, d1, d2, -⟩ := dir k
    rw [← ek] at d1 d2
    refine ⟨boxRect p (q :: r :: l) β, _, rfl, corners_near hB hlH d1 d2, fun x hx => C.boxRect_has β hx, ?_⟩
    have hbox : ∀ R' : Rect, (∀ q ∈ pts, R'.Has q) → boxArea R'.c R'.s p (q :: r :: l) ≤ R'.area :=
      fun R' h => boxArea_le_area R' fun x hx => h x (C.mem x hx)
    obtain ⟨c, s, hu, hmin⟩ := exists_min_box p (q :: r :: l)
    obtain ⟨i, hf⟩ := C.min_flush hu hmin
    obtain ⟨j, hj, e1, e2⟩ := edge_cases (H := p :: q :: r :: l) (by simp) i
    rw [e1, e2] at hf
    obtain ⟨φ, f1, f2, f3⟩ := dir j
    have hphi : (boxRect p (q :: r :: l) φ).area = boxArea c s p (q :: r :: l) := by
      rw [boxRect_area]
      exact boxArea_eq_of_along (C.ne j)
        (by rw [add_comm]; exact Real.sin_sq_add_cos_sq φ) hu f3 hf _ _
    have hleast : ∀ R' : Rect, (∀ q ∈ pts, R'.Has q) → (boxRect p (q :: r :: l) φ).area ≤ R'.area := by
      intro R' h
      rw [hphi]
      exact (hmin _ _ R'.unit).trans (hbox R' h)
    by_cases hj' : j = (p :: q :: r :: l).length - 1
    · right
      refine ⟨boxRect p (q :: r :: l) φ, ?_, fun x hx => C.boxRect_has φ hx, hleast⟩
      have hlast : vertex (p :: q :: r :: l) (j + 1) = vertex (p :: q :: r :: l) 0 := by
        have h0 : (p :: q :: r :: l).length = l.length + 3 := by simp
        rw [show j + 1 = 0 + (p :: q :: r :: l).length by omega, vertex_add_length]
      rw [← hj', ← hlast]
      exact f3
    · left
      intro R' hR
      have a1 := abs_le.1 (area_near hB hlH d1 d2)
      have a2 := abs_le.1 (area_near hB hlH f1 f2)
      have a3 := h3 _ ((mem_edgeAngles64 at2 _ _).2 ⟨j, by omega, rfl⟩)
      have a4 := hleast R' hR
      have : B ^ 2 / 2 ^ 37 = B ^ 2 / 2 ^ 38 + B ^ 2 / 2 ^ 38 := by ring
      linarith [a1.1, a2.2]

/-- C153 (containment): every input point is less than `1 + B / 2^42` pixels, in each coordinate, away from the
returned quadrilateral. -/
theorem C153_near {at2 : ℝ → ℝ → ℝ} {sin64 cos64 : ℝ → ℝ} (G : GoodTrig at2 sin64 cos64) {B : ℝ} (hB : 1 ≤ B)
    (hB' : B ≤ 2 ^ 30) (pts : List Pt) (hl : Within B pts)
    (hnc : ∃ a ∈ pts, ∃ b ∈ pts, ∃ c ∈ pts, det a b c ≠ 0) :
    ∃ out, minAreaRect64 at2 sin64 cos64 pts = some out ∧ ∀ q ∈ pts, NearQuad out (1 + B / 2 ^ 42) q := by
  obtain ⟨R, res, h1, hn, h2, -⟩ := C153_least G hB hB' pts hl hnc
  obtain ⟨a, ha, -⟩ := hnc
  unfold NearList Rect.corners at hn
  match res, hn with
  | [r1, r2, r3, r4], hn =>
    simp only [List.forall₂_cons, List.forall₂_nil_left_iff, and_true] at hn
    obtain ⟨⟨x1, y1⟩, ⟨x2, y2⟩, ⟨x3, y3⟩, x4, y4⟩ := hn
    have mean : ∀ {w1 w2 w3 w4 a1 a2 a3 a4 b1 b2 b3 b4 e z : ℝ}, 0 ≤ w1 → 0 ≤ w2 → 0 ≤ w3 → 0 ≤ w4 →
        w1 + w2 + w3 + w4 = 1 → |a1 - b1| ≤ e → |a2 - b2| ≤ e → |a3 - b3| ≤ e → |a4 - b4| ≤ e →
        w1 * b1 + w2 * b2 + w3 * b3 + w4 * b4 = z → |w1 * a1 + w2 * a2 + w3 * a3 + w4 * a4 - z| ≤ e := by
      intro w1 w2 w3 w4 a1 a2 a3 a4 b1 b2 b3 b4 e z g1 g2 g3 g4 gs d1 d2 d3 d4 hz
      have m : ∀ {w a b : ℝ}, 0 ≤ w → |a - b| ≤ e → -(w * e) ≤ w * a - w * b ∧ w * a - w * b ≤ w * e := by
        intro w a b hw h
        rw [abs_le] at h
        constructor
        · have := mul_le_mul_of_nonneg_left h.1 hw; linarith
        · have := mul_le_mul_of_nonneg_left h.2 hw; linarith
      have se : w1 * e + w2 * e + w3 * e + w4 * e = e := by rw [← add_mul, ← add_mul, ← add_mul, gs, one_mul]
      have k1 := m g1 d1
      have k2 := m g2 d2
      have k3 := m g3 d3
      have k4 := m g4 d4
      rw [abs_le]
      constructor <;> linarith [k1.1, k1.2, k2.1, k2.2, k3.1, k3.2, k4.1, k4.2]
    have key : ∀ q ∈ pts, ∃ out, minAreaRect64 at2 sin64 cos64 pts = some out ∧
        NearQuad out (1 + B / 2 ^ 42) q := by
      intro q hq
      obtain ⟨w1, w2, w3, w4, g1, g2, g3, g4, gs, gx, gy⟩ := R.weights (h2 q hq)
      obtain ⟨out, e1, e2⟩ := labelCorners_near (q := q) g1 g2 g3 g4 gs
        (mean g1 g2 g3 g4 gs x1 x2 x3 x4 gx) (mean g1 g2 g3 g4 gs y1 y2 y3 y4 gy)
      exact ⟨out, h1.trans e1, e2⟩
    obtain ⟨out, e, -⟩ := key a ha
    refine ⟨out, e, fun q hq => ?_⟩
    obtain ⟨out', e', h⟩ := key q hq
    rw [e] at e'
    cases e'
    exact h

/-! ### Rectangles parallel to the axes -/

/-- An edge of the hull of points that fill a box is parallel to an axis. -/
theorem edge_axis {x0 x1 y0 y1 : ℤ} {v w : Pt}
    (hv : x0 ≤ v.1 ∧ v.1 ≤ x1 ∧ y0 ≤ v.2 ∧ v.2 ≤ y1) (hw : x0 ≤ w.1 ∧ w.1 ≤ x1 ∧ y0 ≤ w.2 ∧ w.2 ≤ y1)
    (h1 : 0 ≤ det v w (x0, y0)) (h2 : 0 ≤ det v w (x1, y0)) (h3 : 0 ≤ det v w (x0, y1))
    (h4 : 0 ≤ det v w (x1, y1)) : v.1 = w.1 ∨ v.2 = w.2 := by
  by_contra hc
  push Not at hc
  obtain ⟨hc1, hc2⟩ := hc
  obtain ⟨a, b⟩ := v
  obtain ⟨c, d⟩ := w
  unfold det at h1 h2 h3 h4
  dsimp only at *
  obtain ⟨v1, v2, v3, v4⟩ := hv
  obtain ⟨w1, w2, w3, w4⟩ := hw
  rcases lt_or_gt_of_ne hc1 with g1 | g1 <;> rcases lt_or_gt_of_ne hc2 with g2 | g2
  · nlinarith
  · nlinarith
  · nlinarith
  · nlinarith

theorem rep_quarter {n : ℤ} (h0 : 0 ≤ n) (h4 : n ≤ 4) : rnd64 ((n : ℝ) * (pi64 / 2)) = (n : ℝ) * (pi64 / 2) := by
  apply rnd_of_rep (by norm_num)
  refine ⟨n * 884279719003555, -49, ?_, by norm_num, ?_⟩
  · rw [abs_of_nonneg (by positivity)]
    norm_num
    omega
  · unfold pi64
    rw [zpow_neg]
    push_cast
    norm_num
    ring

theorem frem_quarter {n : ℤ} (h0 : 0 ≤ n) : frem ((n : ℝ) * (pi64 / 2)) (pi64 / 2) = 0 := by
  have p : pi64 / 2 ≠ 0 := by unfold pi64; norm_num
  unfold frem fmod
  rw [if_pos (mul_nonneg (by exact_mod_cast h0) (by unfold pi64; norm_num)), mul_div_cancel_right₀ _ p, Int.floor_intCast]
  ring

/-- The angle of an edge parallel to an axis is exactly 0. -/
theorem angle_axis {at2 : ℝ → ℝ → ℝ} {sin64 cos64 : ℝ → ℝ} (G : GoodTrig at2 sin64 cos64) {p q : Pt}
    (hp : |p.1| ≤ 2 ^ 30 ∧ |p.2| ≤ 2 ^ 30) (hq : |q.1| ≤ 2 ^ 30 ∧ |q.2| ≤ 2 ^ 30) (hne : p ≠ q)
    (h : p.1 = q.1 ∨ p.2 = q.2) : edgeAngle64 at2 p q = 0 := by
  unfold edgeAngle64
  dsimp only
  rw [show rnd64 ((toReal q).1 - (toReal p).1) = (toReal q).1 - (toReal p).1 from diff_exact hq.1 hp.1,
    show rnd64 ((toReal q).2 - (toReal p).2) = (toReal q).2 - (toReal p).2 from diff_exact hq.2 hp.2]
  unfold toReal
  dsimp only
  have key : ∀ n : ℤ, 0 ≤ n → n ≤ 4 → ∀ z : ℝ, z + pi64 = (n : ℝ) * (pi64 / 2) →
      |frem (rnd64 (z + pi64)) (pi64 / 2)| = 0 := by
    intro n n0 n4 z hz
    rw [hz, rep_quarter n0 n4, frem_quarter n0, abs_zero]
  rcases h with h | h
  · rw [h, sub_self]
    have : p.2 ≠ q.2 := fun h' => hne (Prod.ext h h')
    rcases lt_or_gt_of_ne this with g | g
    · rw [G.up _ (by rw [sub_pos]; exact_mod_cast g)]
      exact key 3 (by norm_num) (by norm_num) _ (by push_cast; ring)
    · rw [G.down _ (by rw [sub_neg]; exact_mod_cast g)]
      exact key 1 (by norm_num) (by norm_num) _ (by push_cast; ring)
  · rw [h, sub_self]
    have : p.1 ≠ q.1 := fun h' => hne (Prod.ext h' h)
    rcases lt_or_gt_of_ne this with g | g
    · rw [G.right _ (by rw [sub_pos]; exact_mod_cast g)]
      exact key 2 (by norm_num) (by norm_num) _ (by push_cast; ring)
    · rw [G.left _ (by rw [sub_neg]; exact_mod_cast g)]
      exact key 4 (by norm_num) (by norm_num) _ (by push_cast; ring)

theorem rotate64_one {a b : ℤ} (ha : |a| ≤ 2 ^ 30) (hb : |b| ≤ 2 ^ 30) :
    rotate64 1 0 ((a : ℝ), (b : ℝ)) = ((a : ℝ), (b : ℝ)) ∧
    invertRotation64 1 0 ((a : ℝ), (b : ℝ)) = ((a : ℝ), (b : ℝ)) := by
  have h1 := rnd64_int31 (n := a) (ha.trans (by norm_num))
  have h2 := rnd64_int31 (n := b) (hb.trans (by norm_num))
  unfold rotate64 invertRotation64
  simp only [mul_one, mul_zero, zero64, add_zero, sub_zero, h1, h2, and_self]

/-- C153 (rectangles parallel to the axes): points that contain the four corners of their bounding box
give exactly these corners. -/
theorem C153_axis {at2 : ℝ → ℝ → ℝ} {sin64 cos64 : ℝ → ℝ} (G : GoodTrig at2 sin64 cos64) {x0 x1 y0 y1 : ℤ}
    (hx : x0 < x1) (hy : y0 < y1) (hx0 : -2 ^ 30 ≤ x0) (hx1 : x1 ≤ 2 ^ 30) (hy0 : -2 ^ 30 ≤ y0) (hy1 : y1 ≤ 2 ^ 30)
    (pts : List Pt) (hbox : ∀ q ∈ pts, x0 ≤ q.1 ∧ q.1 ≤ x1 ∧ y0 ≤ q.2 ∧ q.2 ≤ y1)
    (c1 : (x0, y0) ∈ pts) (c2 : (x1, y0) ∈ pts) (c3 : (x0, y1) ∈ pts) (c4 : (x1, y1) ∈ pts) :
    minAreaRect64 at2 sin64 cos64 pts = some [(x0, y0), (x1, y0), (x1, y1), (x0, y1)] := by
  have hnc : ∃ a ∈ pts, ∃ b ∈ pts, ∃ c ∈ pts, det a b c ≠ 0 := by
    refine ⟨_, c1, _, c2, _, c3, ?_⟩
    unfold det
    dsimp only
    have : 0 < (x1 - x0) * (y1 - y0) := mul_pos (by omega) (by omega)
    rw [sub_self, sub_self, mul_zero, sub_zero]
    exact this.ne'
  have C := hull_convex hnc
  have hlen := C.len
  unfold minAreaRect64
  generalize convexHull pts = H at C hlen
  have hi : ∀ v ∈ H, |v.1| ≤ 2 ^ 30 ∧ |v.2| ≤ 2 ^ 30 := by
    intro v hv
    obtain ⟨h1, h2, h3, h4⟩ := hbox v (C.mem v hv)
    rw [abs_le, abs_le]
    omega
  have i1 : |x0| ≤ 2 ^ 30 := by rw [abs_le]; omega
  have i2 : |x1| ≤ 2 ^ 30 := by rw [abs_le]; omega
  have i3 : |y0| ≤ 2 ^ 30 := by rw [abs_le]; omega
  have i4 : |y1| ≤ 2 ^ 30 := by rw [abs_le]; omega
  match H, C, hlen, hi with
  | [], _, h, _ => simp at h
  | [_], _, h, _ => simp at h
  | [_, _], _, h, _ => simp at h
  | p :: q :: r :: l, C, _, hi =>
    obtain ⟨θ, h1, h2, -⟩ := calipers64_spec at2 sin64 cos64 p q (r :: l)
    dsimp only
    rw [h2, Option.bind_some]
    have ne : p :: q :: r :: l ≠ [] := by simp
    obtain ⟨k, -, ek⟩ := (mem_edgeAngles64 at2 _ θ).1 h1
    have m1 := vertex_mem ne k
    have m2 := vertex_mem ne (k + 1)
    rw [angle_axis G (hi _ m1) (hi _ m2) (C.ne k)
      (edge_axis (hbox _ (C.mem _ m1)) (hbox _ (C.mem _ m2)) (C.left k _ c1) (C.left k _ c2) (C.left k _ c3)
        (C.left k _ c4))] at ek
    rw [ek, G.sin0, G.cos0]
    -- the extents
    have rot : ∀ v ∈ p :: q :: r :: l, rotate64 1 0 (toReal v) = ((v.1 : ℝ), (v.2 : ℝ)) :=
      fun v hv => (rotate64_one (hi v hv).1 (hi v hv).2).1
    have ext : ∀ (f : Pt → ℝ) (c s M : ℝ) (w : Pt), (∀ v ∈ p :: q :: r :: l, f v = comp c s v) → w ∈ pts →
        comp c s w = M → (∀ v ∈ pts, comp c s v ≤ M) → top f p (q :: r :: l) = M := by
      intro f c s M w hf hw hM hle
      have e := top_near (e := 0) (f := f) (g := comp c s) (p := p) (l := q :: r :: l)
        (fun v hv => by rw [hf v hv, sub_self, abs_zero])
      have e' : top f p (q :: r :: l) = top (comp c s) p (q :: r :: l) := by
        have := abs_nonpos_iff.1 e
        linarith
      rw [e']
      obtain ⟨v, hv, hv'⟩ := top_mem (comp c s) p (q :: r :: l)
      apply le_antisymm
      · rw [hv']; exact hle v (C.mem v hv)
      · rw [← hM]; exact C.le_top c s w hw
    have cast : ∀ v ∈ pts, (x0 : ℝ) ≤ v.1 ∧ (v.1 : ℝ) ≤ x1 ∧ (y0 : ℝ) ≤ v.2 ∧ (v.2 : ℝ) ≤ y1 := by
      intro v hv
      obtain ⟨a, b, c, d⟩ := hbox v hv
      exact ⟨by exact_mod_cast a, by exact_mod_cast b, by exact_mod_cast c, by exact_mod_cast d⟩
    have t1 := ext (fun v => -(rotate64 1 0 (toReal v)).1) (-1) 0 (-x0) (x0, y0)
      (fun v hv => by rw [rot v hv]; unfold comp; ring) c1 (by unfold comp; ring)
      (fun v hv => by unfold comp; linarith [(cast v hv).1])
    have t2 := ext (fun v => (rotate64 1 0 (toReal v)).1) 1 0 x1 (x1, y0)
      (fun v hv => by rw [rot v hv]; unfold comp; ring) c2 (by unfold comp; ring)
      (fun v hv => by unfold comp; linarith [(cast v hv).2.1])
    have t3 := ext (fun v => -(rotate64 1 0 (toReal v)).2) 0 (-1) (-y0) (x0, y0)
      (fun v hv => by rw [rot v hv]; unfold comp; ring) c1 (by unfold comp; ring)
      (fun v hv => by unfold comp; linarith [(cast v hv).2.2.1])
    have t4 := ext (fun v => (rotate64 1 0 (toReal v)).2) 0 1 y1 (x0, y1)
      (fun v hv => by rw [rot v hv]; unfold comp; ring) c3 (by unfold comp; ring)
      (fun v hv => by unfold comp; linarith [(cast v hv).2.2.2])
    rw [bounds64_eq, t1, t2, t3, t4, neg_neg, neg_neg]
    unfold corners64
    dsimp only
    rw [(rotate64_one i2 i3).2, (rotate64_one i1 i3).2, (rotate64_one i1 i4).2, (rotate64_one i2 i4).2]
    unfold labelCorners
    have hs : ∀ inst : (a b : ℝ × ℝ) → Decidable (a.1 < b.1),
        sortBy (fun a b => @decide (a.1 < b.1) (inst a b))
          [((x1 : ℝ), (y0 : ℝ)), (x0, y0), (x0, y1), (x1, y1)] =
        [((x0 : ℝ), (y0 : ℝ)), (x0, y1), (x1, y0), (x1, y1)] := by
      intro inst
      simp [sortBy, insertBy, hx, not_lt.2 hx.le]
    rw [hs]
    simp [hy]

/-- Functions with this accuracy exist: exact ones, adjusted on the axes. -/
theorem goodTrig_exists : ∃ at2 sin64 cos64, GoodTrig at2 sin64 cos64 := by
  classical
  have hp := pi64_near
  have pp : 0 < pi64 := by unfold pi64; norm_num
  rw [abs_le] at hp
  norm_num at hp
  refine ⟨fun y x => if y = 0 ∧ x < 0 then pi64 else if x = 0 ∧ 0 < y then pi64 / 2 else
    if x = 0 ∧ y < 0 then -(pi64 / 2) else max (-pi64) (Complex.arg ⟨x, y⟩), Real.sin, Real.cos, ?_, ?_, ?_, ?_, ?_, ?_,
    ?_, ?_, Real.sin_zero, Real.cos_zero⟩
  · intro x y
    split
    · rename_i h
      rw [Complex.arg_eq_pi_iff.2 ⟨h.2, h.1⟩, abs_le]
      norm_num
      constructor <;> linarith [hp.1, hp.2]
    split
    · rename_i h
      rw [Complex.arg_eq_pi_div_two_iff.2 ⟨h.1, h.2⟩, abs_le]
      norm_num
      constructor <;> linarith [hp.1, hp.2]
    split
    · rename_i h
      rw [Complex.arg_eq_neg_pi_div_two_iff.2 ⟨h.1, h.2⟩, abs_le]
      norm_num
      constructor <;> linarith [hp.1, hp.2]
    · have := Complex.neg_pi_lt_arg ⟨x, y⟩
      rcases max_cases (-pi64) (Complex.arg ⟨x, y⟩) with ⟨e, h⟩ | ⟨e, h⟩ <;> rw [e, abs_le] <;> norm_num <;>
        first | linarith [hp.1, hp.2] | (constructor <;> linarith [hp.1, hp.2])
  · intro x y
    split
    · linarith
    split
    · linarith
    split
    · linarith
    · exact le_max_left _ _
  · intro x hx
    have : Complex.arg ⟨x, 0⟩ = 0 := Complex.arg_ofReal_of_nonneg hx.le
    simp [hx.le, hx.ne', this, pp.le]
  · intro x hx; simp [hx]
  · intro y hy; simp [hy, hy.ne']
  · intro y hy; simp [hy, hy.ne, hy.le]
  · intro a _ _; simp
  · intro a _ _; simp

/-- C153: no points panic. -/
theorem C153_empty (at2 : ℝ → ℝ → ℝ) (sin64 cos64 : ℝ → ℝ) : minAreaRect64 at2 sin64 cos64 [] = none := rfl

/-- C153: points that are all on one line give, whatever the trigonometric functions, the segment between two of
them that contains all points, there and back; equal points give that point. -/
theorem C153_collinear (at2 : ℝ → ℝ → ℝ) (sin64 cos64 : ℝ → ℝ) (pts : List Pt) (hne : pts ≠ [])
    (hc : ∀ a ∈ pts, ∀ b ∈ pts, ∀ c ∈ pts, det a b c = 0) :
    ∃ a ∈ pts, ∃ b ∈ pts, minAreaRect64 at2 sin64 cos64 pts = some [a, b, b, a] ∧
      ∀ q ∈ pts, det a b q = 0 ∧ 0 ≤ dot a q b ∧ dot a q b ≤ distSq a b ∧ (a = b → q = a) := by
  by_cases hd : ∃ a ∈ pts, ∃ b ∈ pts, a ≠ b
  · obtain ⟨h1, h2, h3, h4⟩ := C54_hull pts hd
    have hlen : (convexHull pts).length = 2 := by
      by_contra hn
      have h3' : 3 ≤ (convexHull pts).length := by omega
      have hnil : convexHull pts ≠ [] := by intro h; rw [h] at h3'; simp at h3'
      have := h4 h3' 0
      rw [hc _ (h2 _ (vertex_mem hnil _)) _ (h2 _ (vertex_mem hnil _)) _ (h2 _ (vertex_mem hnil _))]
        at this
      exact absurd this (lt_irrefl _)
    obtain ⟨a, b, hab⟩ := List.length_eq_two.1 hlen
    refine ⟨a, h2 a (by rw [hab]; simp), b, h2 b (by rw [hab]; simp), ?_, ?_⟩
    · unfold minAreaRect64; rw [hab]
    · intro q hq
      obtain ⟨g1, g2, g3⟩ := C54_segment pts a b hab q hq
      exact ⟨g1, g2, g3, fun h => absurd h (hull_two_ne hd hab)⟩
  · push Not at hd
    obtain ⟨p, hp⟩ := List.exists_mem_of_ne_nil pts hne
    have hall : ∀ q ∈ pts, q = p := fun q hq => hd q hq p hp
    rcases C54_degenerate pts p hall with ⟨h, -⟩ | ⟨-, h⟩
    · exact absurd h hne
    · refine ⟨p, hp, p, hp, ?_, ?_⟩
      · unfold minAreaRect64
        rcases h with h | h <;> rw [h]
      · intro q hq
        rw [hall q hq]
        unfold det dot distSq
        simp

/-- Seven points around a 40 by 30 rectangle. -/
example {at2 : ℝ → ℝ → ℝ} {sin64 cos64 : ℝ → ℝ} (G : GoodTrig at2 sin64 cos64) :
    minAreaRect64 at2 sin64 cos64 [(50, 40), (12, 10), (10, 10), (50, 10), (30, 25), (10, 40), (50, 33)] =
      some [(10, 10), (50, 10), (50, 40), (10, 40)] :=
  C153_axis G (by norm_num) (by norm_num) (by norm_num) (by norm_num) (by norm_num) (by norm_num) _ (by decide)
    (by decide) (by decide) (by decide) (by decide)

/-- A triangle: every point is less than 1 + 2^-41 from the returned quadrilateral. -/
example {at2 : ℝ → ℝ → ℝ} {sin64 cos64 : ℝ → ℝ} (G : GoodTrig at2 sin64 cos64) :
    ∃ out, minAreaRect64 at2 sin64 cos64 [(0, 0), (1, 0), (2, 2)] = some out ∧
      ∀ q ∈ [((0, 0) : Pt), (1, 0), (2, 2)], NearQuad out (1 + 2 / 2 ^ 42) q :=
  C153_near G (by norm_num) (by norm_num) _
    (by simp only [Within, List.mem_cons, List.not_mem_nil, or_false, forall_eq_or_imp, forall_eq]; norm_num)
    ⟨(0, 0), by decide, (1, 0), by decide, (2, 2), by decide, by decide⟩

end
end Verif.Float
