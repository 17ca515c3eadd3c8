import Verif.Float.Line
import Verif.Float.PixelOps
import Verif.Float.F32
import Verif.Drawing.PolygonProps
/-
Property C132: filling polygons in `f32`.
-/
namespace Verif.Float
open Verif.Definitions Verif.Drawing

/-- The position of a crossing before it is rounded to a column, in `f32`, polygon.rs:191-192. -/
def pos32 (y : Int) (p0 p1 : Int × Int) : ℚ :=
  let fraction := rnd32 (rnd32 ((y - p0.2 : Int) : ℚ) / rnd32 ((p1.2 - p0.2 : Int) : ℚ))
  rnd32 (rnd32 (p0.1 : ℚ) + rnd32 (fraction * rnd32 ((p1.1 - p0.1 : Int) : ℚ)))

/-- The column of a crossing in `f32`, polygon.rs:191-193. -/
def cross32 (y : Int) (p0 p1 : Int × Int) : Int := roundQ (pos32 y p0 p1)

/-- `draw_polygon_mut` in `f32`, polygon.rs:21-26 and 141-221.  The `i32` differences do not
overflow and the casts back to `i32` do not saturate for the coordinates considered below. -/
def drawPolygon32 {α : Type _} (op : α → α → α) (im : Image α) (poly : List (Int × Int)) (c : α) :
    Option (Image α) :=
  drawPolygonWith op (edgeInterWith cross32)
    (fun im s e => drawLine32 op im (rnd32 (s.1 : ℚ), rnd32 (s.2 : ℚ))
      (rnd32 (e.1 : ℚ), rnd32 (e.2 : ℚ)) c) im poly c

/-! ### Specification -/

/-- The ideal position at which the line through `p0` and `p1` meets the row `y`. -/
def idealX (y : Int) (p0 p1 : Int × Int) : ℚ :=
  (p0.1 : ℚ) + ((y : ℚ) - p0.2) * ((p1.1 : ℚ) - p0.1) / ((p1.2 : ℚ) - p0.2)

/-- All coordinates are at most `B` in absolute value. -/
def CoordsLe (B : Int) (poly : List (Int × Int)) : Prop := ∀ p ∈ poly, |p.1| ≤ B ∧ |p.2| ≤ B

theorem rnd32_small {n : Int} (h : |n| ≤ 2 ^ 24) : rnd32 (n : ℚ) = n :=
  rnd_int (by norm_num) (by norm_num) h

theorem crossQ_ideal (y : Int) (p0 p1 : Int × Int) : crossQ y p0 p1 = roundQ (idealX y p0 p1) := by
  unfold crossQ idealX
  dsimp only
  push_cast
  congr 1
  ring

/-! ### One crossing -/

/-- What the bounds on the coordinates give: the conversions are exact. -/
theorem pos32_eq {y : Int} {p0 p1 : Int × Int} (h0 : |p0.1| ≤ 2 ^ 22) (h1 : |p1.1| ≤ 2 ^ 22)
    (h2 : |p0.2| ≤ 2 ^ 22) (h3 : |p1.2| ≤ 2 ^ 22) (hy : |y| ≤ 2 ^ 22) :
    pos32 y p0 p1 = rnd32 ((p0.1 : ℚ) +
      rnd32 (((p1.1 - p0.1 : Int) : ℚ) * rnd32 (((y - p0.2 : Int) : ℚ) / ((p1.2 - p0.2 : Int) : ℚ)))) := by
  rw [abs_le] at h0 h1 h2 h3 hy
  unfold pos32
  dsimp only
  rw [rnd32_small (n := y - p0.2) (by rw [abs_le]; constructor <;> omega),
    rnd32_small (n := p1.2 - p0.2) (by rw [abs_le]; constructor <;> omega),
    rnd32_small (n := p1.1 - p0.1) (by rw [abs_le]; constructor <;> omega),
    rnd32_small (n := p0.1) (by rw [abs_le]; constructor <;> omega), mul_comm]

/-- Rows of the edge have a fraction between 0 and 1. -/
theorem frac_range {y y0 y1 : Int} (hne : y0 ≠ y1) (h1 : min y0 y1 ≤ y) (h2 : y ≤ max y0 y1) :
    0 ≤ ((y - y0 : Int) : ℚ) / ((y1 - y0 : Int) : ℚ) ∧
      ((y - y0 : Int) : ℚ) / ((y1 - y0 : Int) : ℚ) ≤ 1 := by
  rcases lt_or_gt_of_ne hne with hl | hl
  · have a1 : (0 : ℚ) < ((y1 - y0 : Int) : ℚ) := by exact_mod_cast (by omega : 0 < y1 - y0)
    have a2 : (0 : ℚ) ≤ ((y - y0 : Int) : ℚ) := by exact_mod_cast (by omega : 0 ≤ y - y0)
    have a3 : ((y - y0 : Int) : ℚ) ≤ ((y1 - y0 : Int) : ℚ) := by
      exact_mod_cast (by omega : y - y0 ≤ y1 - y0)
    exact ⟨div_nonneg a2 a1.le, (div_le_one a1).2 a3⟩
  · have a1 : ((y1 - y0 : Int) : ℚ) < 0 := by exact_mod_cast (by omega : y1 - y0 < 0)
    have a2 : ((y - y0 : Int) : ℚ) ≤ 0 := by exact_mod_cast (by omega : y - y0 ≤ 0)
    have a3 : ((y1 - y0 : Int) : ℚ) ≤ ((y - y0 : Int) : ℚ) := by
      exact_mod_cast (by omega : y1 - y0 ≤ y - y0)
    exact ⟨div_nonneg_of_nonpos a2 a1.le, (div_le_one_of_neg a1).2 a3⟩

/-- A number between two integers stays between them when rounded; used with `d = x1 - x0`. -/
theorem prod_between {d : Int} {f : ℚ} (hd : |d| ≤ 2 ^ 24) (f0 : 0 ≤ f) (f1 : f ≤ 1) :
    ((min 0 d : Int) : ℚ) ≤ rnd32 ((d : ℚ) * f) ∧ rnd32 ((d : ℚ) * f) ≤ ((max 0 d : Int) : ℚ) := by
  have hd' := abs_le.1 hd
  rcases le_total 0 d with h | h
  · have hq : (0 : ℚ) ≤ d := by exact_mod_cast h
    rw [min_eq_left h, max_eq_right h]
    refine ⟨by rw [Int.cast_zero]; exact rnd_nonneg (mul_nonneg hq f0), ?_⟩
    exact rnd_le (by norm_num) (rep_int32 hd) (by nlinarith)
  · have hq : (d : ℚ) ≤ 0 := by exact_mod_cast h
    rw [min_eq_right h, max_eq_left h]
    refine ⟨le_rnd (by norm_num) (rep_int32 hd) (by nlinarith), ?_⟩
    rw [Int.cast_zero]
    exact rnd_le (by norm_num) rep_zero (by nlinarith)

theorem rnd_unit {f : ℚ} (f0 : 0 ≤ f) (f1 : f ≤ 1) : 0 ≤ rnd32 f ∧ rnd32 f ≤ 1 := by
  refine ⟨rnd_nonneg f0, rnd_le (by norm_num) ?_ f1⟩
  simpa using rep_int32 (n := 1) (by norm_num)

/-- The position is between the ends of the edge. -/
theorem pos32_between {y : Int} {p0 p1 : Int × Int} (h0 : |p0.1| ≤ 2 ^ 22) (h1 : |p1.1| ≤ 2 ^ 22)
    (h2 : |p0.2| ≤ 2 ^ 22) (h3 : |p1.2| ≤ 2 ^ 22) (hne : p0.2 ≠ p1.2)
    (hl : min p0.2 p1.2 ≤ y) (hu : y ≤ max p0.2 p1.2) :
    ((min p0.1 p1.1 : Int) : ℚ) ≤ pos32 y p0 p1 ∧ pos32 y p0 p1 ≤ ((max p0.1 p1.1 : Int) : ℚ) := by
  have a0 := abs_le.1 h0
  have a1 := abs_le.1 h1
  have a2 := abs_le.1 h2
  have a3 := abs_le.1 h3
  rw [pos32_eq h0 h1 h2 h3 (by rw [abs_le]; constructor <;> omega)]
  obtain ⟨f0, f1⟩ := frac_range hne hl hu
  obtain ⟨g0, g1⟩ := rnd_unit f0 f1
  obtain ⟨k0, k1⟩ := prod_between (d := p1.1 - p0.1) (by rw [abs_le]; constructor <;> omega) g0 g1
  generalize rnd32 (((p1.1 - p0.1 : Int) : ℚ) *
    rnd32 (((y - p0.2 : Int) : ℚ) / ((p1.2 - p0.2 : Int) : ℚ))) = P at k0 k1
  constructor
  · refine le_rnd (by norm_num) (rep_int32 (by rw [abs_le]; constructor <;> omega)) ?_
    have : ((min p0.1 p1.1 : Int) : ℚ) = p0.1 + ((min 0 (p1.1 - p0.1) : Int) : ℚ) := by
      exact_mod_cast (by omega : min p0.1 p1.1 = p0.1 + min 0 (p1.1 - p0.1))
    linarith
  · refine rnd_le (by norm_num) (rep_int32 (by rw [abs_le]; constructor <;> omega)) ?_
    have : ((max p0.1 p1.1 : Int) : ℚ) = p0.1 + ((max 0 (p1.1 - p0.1) : Int) : ℚ) := by
      exact_mod_cast (by omega : max p0.1 p1.1 = p0.1 + max 0 (p1.1 - p0.1))
    linarith

theorem cross32_between {y : Int} {p0 p1 : Int × Int} (h0 : |p0.1| ≤ 2 ^ 22) (h1 : |p1.1| ≤ 2 ^ 22)
    (h2 : |p0.2| ≤ 2 ^ 22) (h3 : |p1.2| ≤ 2 ^ 22) (hne : p0.2 ≠ p1.2)
    (hl : min p0.2 p1.2 ≤ y) (hu : y ≤ max p0.2 p1.2) :
    min p0.1 p1.1 ≤ cross32 y p0 p1 ∧ cross32 y p0 p1 ≤ max p0.1 p1.1 := by
  obtain ⟨g1, g2⟩ := pos32_between h0 h1 h2 h3 hne hl hu
  have k1 := roundQ_mono g1
  have k2 := roundQ_mono g2
  rw [roundQ_int] at k1 k2
  exact ⟨k1, k2⟩

theorem cross32_start {p0 p1 : Int × Int} (h0 : |p0.1| ≤ 2 ^ 22) (h1 : |p1.1| ≤ 2 ^ 22)
    (h2 : |p0.2| ≤ 2 ^ 22) (h3 : |p1.2| ≤ 2 ^ 22) : cross32 p0.2 p0 p1 = p0.1 := by
  have a0 := abs_le.1 h0
  have z : rnd32 (0 : ℚ) = 0 := rnd_zero
  unfold cross32
  rw [pos32_eq h0 h1 h2 h3 h2, sub_self, Int.cast_zero, zero_div, z, mul_zero, z, add_zero, rnd32_small (by rw [abs_le]; constructor <;> omega), roundQ_int]

theorem cross32_end {p0 p1 : Int × Int} (h0 : |p0.1| ≤ 2 ^ 22) (h1 : |p1.1| ≤ 2 ^ 22)
    (h2 : |p0.2| ≤ 2 ^ 22) (h3 : |p1.2| ≤ 2 ^ 22) (hne : p0.2 ≠ p1.2) :
    cross32 p1.2 p0 p1 = p1.1 := by
  have a0 := abs_le.1 h0
  have a1 := abs_le.1 h1
  unfold cross32
  have hz : ((p1.2 - p0.2 : Int) : ℚ) ≠ 0 := by exact_mod_cast (by omega : p1.2 - p0.2 ≠ 0)
  have r1 : rnd32 (1 : ℚ) = 1 := by
    have := rnd32_small (n := 1) (by norm_num)
    simpa using this
  rw [pos32_eq h0 h1 h2 h3 h3, div_self hz, r1, mul_one,
    rnd32_small (n := p1.1 - p0.1) (by rw [abs_le]; constructor <;> omega)]
  rw [show (p0.1 : ℚ) + ((p1.1 - p0.1 : Int) : ℚ) = (p1.1 : Int) by push_cast; ring,
    rnd32_small (by rw [abs_le]; constructor <;> omega), roundQ_int]

/-- The values pushed in `f32`. -/
theorem edgeInter32_eq {y : Int} {e : (Int × Int) × (Int × Int)} (h0 : |e.1.1| ≤ 2 ^ 22)
    (h1 : |e.2.1| ≤ 2 ^ 22) (h2 : |e.1.2| ≤ 2 ^ 22) (h3 : |e.2.2| ≤ 2 ^ 22) :
    edgeInterWith cross32 y e = crossingsWith cross32 y e :=
  edgeInterWith_eq cross32 y e (fun _ => cross32_start h0 h1 h2 h3) (cross32_end h0 h1 h2 h3)

theorem mem_crossingsWith {c : Int → Int × Int → Int × Int → Int} {y x : Int}
    {e : (Int × Int) × (Int × Int)} (h : x ∈ crossingsWith c y e) :
    (e.1.2 = e.2.2 ∧ e.1.2 = y ∧ (x = e.1.1 ∨ x = e.2.1)) ∨
      (e.1.2 ≠ e.2.2 ∧ min e.1.2 e.2.2 ≤ y ∧ y < max e.1.2 e.2.2 ∧ x = c y e.1 e.2) := by
  unfold crossingsWith at h
  split at h
  · rename_i h1
    split at h
    · rename_i h2
      simp only [List.mem_cons, List.not_mem_nil, or_false] at h
      exact Or.inl ⟨h1, h2, h⟩
    · cases h
  · rename_i h1
    split at h
    · rename_i h2
      rw [List.mem_singleton] at h
      exact Or.inr ⟨h1, h2.1, h2.2, h⟩
    · cases h

/-! ### Accuracy -/

/-- The error of a position: relative to the width of the edge and to the size of the
coordinates. -/
theorem pos32_error {y : Int} {p0 p1 : Int × Int} {X : Int} (h0 : |p0.1| ≤ X) (h1 : |p1.1| ≤ X)
    (hX : X ≤ 2 ^ 22)
    (h2 : |p0.2| ≤ 2 ^ 22) (h3 : |p1.2| ≤ 2 ^ 22) (hne : p0.2 ≠ p1.2)
    (hl : min p0.2 p1.2 ≤ y) (hu : y ≤ max p0.2 p1.2) :
    |pos32 y p0 p1 - idealX y p0 p1| ≤ (3 * |((p1.1 - p0.1 : Int) : ℚ)| + 2 * X) / 2 ^ 25 := by
  have b0 := h0.trans hX
  have b1 := h1.trans hX
  have a0 := abs_le.1 b0
  have a1 := abs_le.1 b1
  have a2 := abs_le.1 h2
  have a3 := abs_le.1 h3
  rw [pos32_eq b0 b1 h2 h3 (by rw [abs_le]; constructor <;> omega)]
  obtain ⟨f0, f1⟩ := frac_range hne hl hu
  obtain ⟨g0, g1⟩ := rnd_unit f0 f1
  have hi : idealX y p0 p1 = p0.1 + ((p1.1 - p0.1 : Int) : ℚ) *
      (((y - p0.2 : Int) : ℚ) / ((p1.2 - p0.2 : Int) : ℚ)) := by
    unfold idealX; push_cast; ring
  rw [hi]
  have ef : |rnd32 (((y - p0.2 : Int) : ℚ) / ((p1.2 - p0.2 : Int) : ℚ)) -
      ((y - p0.2 : Int) : ℚ) / ((p1.2 - p0.2 : Int) : ℚ)| ≤ 1 / 2 ^ 25 := by
    rcases eq_or_lt_of_le f1 with h | h
    · rw [h]
      have := rnd32_small (n := 1) (by norm_num)
      rw [show rnd32 (1 : ℚ) = 1 by simpa using this]
      norm_num
    · have := rnd_error_lt (K := ℚ) (p := 24) (emin := -149) (k := 0) (by norm_num)
        (x := ((y - p0.2 : Int) : ℚ) / ((p1.2 - p0.2 : Int) : ℚ))
        (by rw [abs_of_nonneg f0, zpow_zero]; exact h)
      refine le_trans this ?_
      norm_num
  generalize ((y - p0.2 : Int) : ℚ) / ((p1.2 - p0.2 : Int) : ℚ) = f at *
  have rf : Rep 24 (-149) (rnd32 f) := rep_rnd _
  have u24 : (2 : ℚ) ^ (-((24 : Nat) : Int)) = 1 / 2 ^ 24 := by norm_num
  generalize rnd32 f = g at *
  set d : Int := p1.1 - p0.1 with hd
  have hd24 : |d| ≤ 2 ^ 24 := by rw [abs_le]; constructor <;> omega
  obtain ⟨k0, k1⟩ := prod_between hd24 g0 g1
  have eP := rnd_int_mul_error (p := 24) (emin := -149) (by norm_num) rf d
  have rP : Rep 24 (-149) (rnd32 ((d : ℚ) * g)) := rep_rnd _
  have eP' : |rnd32 ((d : ℚ) * g) - d * g| ≤ |(d : ℚ) * g| * (1 / 2 ^ 24) := by
    rw [← u24]; exact eP
  clear eP
  generalize rnd32 ((d : ℚ) * g) = P at *
  have rx : Rep 24 (-149) (p0.1 : ℚ) := rep_int32 (by rw [abs_le]; constructor <;> omega)
  have eS : |rnd32 ((p0.1 : ℚ) + P) - ((p0.1 : ℚ) + P)| ≤ |(p0.1 : ℚ) + P| * (1 / 2 ^ 24) := by
    rw [← u24]; exact rnd_add_error (by norm_num) rx rP
  have hs : |(p0.1 : ℚ) + P| ≤ X := by
    have x0 := abs_le.1 h0
    have x1 := abs_le.1 h1
    have m0 : -(X : ℚ) ≤ p0.1 + ((min 0 d : Int) : ℚ) := by
      exact_mod_cast (by omega : -X ≤ p0.1 + min 0 d)
    have m1 : (p0.1 : ℚ) + ((max 0 d : Int) : ℚ) ≤ X := by
      exact_mod_cast (by omega : p0.1 + max 0 d ≤ X)
    rw [abs_le]; constructor <;> linarith
  have dg : |(d : ℚ) * g| ≤ |(d : ℚ)| := by
    rw [abs_mul, abs_of_nonneg g0]
    exact mul_le_of_le_one_right (abs_nonneg _) g1
  have dgf : |(d : ℚ) * g - d * f| ≤ |(d : ℚ)| * (1 / 2 ^ 25) := by
    rw [← mul_sub, abs_mul]
    exact mul_le_mul_of_nonneg_left ef (abs_nonneg _)
  have t : rnd32 ((p0.1 : ℚ) + P) - (p0.1 + d * f) =
      (rnd32 ((p0.1 : ℚ) + P) - (p0.1 + P)) + (P - d * g) + (d * g - d * f) := by ring
  rw [t]
  generalize rnd32 ((p0.1 : ℚ) + P) = S at *
  have q1 := abs_add_le ((S - (p0.1 + P)) + (P - d * g)) (d * g - d * f)
  have q2 := abs_add_le (S - ((p0.1 : ℚ) + P)) (P - d * g)
  linarith

/-- Rounding a number strictly within one half of an integer. -/
theorem roundQ_near {x : ℚ} {n : Int} (h : |x - n| < 1 / 2) : roundQ x = n := by
  rw [abs_lt] at h
  unfold roundQ
  split
  · rw [Int.floor_eq_iff]; constructor <;> linarith
  · rw [Int.ceil_eq_iff]; constructor <;> linarith

theorem roundQ_bound (x : ℚ) : |(roundQ x : ℚ) - x| ≤ 1 / 2 := by
  unfold roundQ
  split
  · have := Int.floor_le (x + 1 / 2)
    have := Int.lt_floor_add_one (x + 1 / 2)
    rw [abs_le]; constructor <;> linarith
  · have := Int.le_ceil (x - 1 / 2)
    have := Int.ceil_lt_add_one (x - 1 / 2)
    rw [abs_le]; constructor <;> linarith

/-- Numbers less than one apart are rounded to integers at most one apart. -/
theorem roundQ_close {a b : ℚ} (h : |a - b| < 1) : |roundQ a - roundQ b| ≤ 1 := by
  have key : ∀ a b : ℚ, a - b < 1 → roundQ a ≤ roundQ b + 1 := by
    intro a b hab
    unfold roundQ
    split
    · rename_i ha
      split
      · rename_i hb
        have : ⌊a + 1 / 2⌋ < ⌊b + 1 / 2⌋ + 2 := by
          rw [Int.floor_lt]
          have := Int.lt_floor_add_one (b + 1 / 2)
          push_cast
          linarith
        omega
      · rename_i hb
        push Not at hb
        have h1 : ⌊a + 1 / 2⌋ < 2 := by rw [Int.floor_lt]; push_cast; linarith
        have h2 : -1 < ⌈b - 1 / 2⌉ ∨ ⌈b - 1 / 2⌉ ≤ -1 := by omega
        rcases h2 with h2 | h2
        · omega
        · have h3 := Int.ceil_le.1 h2
          push_cast at h3
          have h4 : ⌊a + 1 / 2⌋ < 1 := by rw [Int.floor_lt]; push_cast; linarith
          have h5 : ⌈b - 1 / 2⌉ > -2 := by
            rw [gt_iff_lt, Int.lt_ceil]; push_cast; linarith
          omega
    · rename_i ha
      push Not at ha
      split
      · rename_i hb
        have h1 : ⌈a - 1 / 2⌉ ≤ 0 := Int.ceil_le.2 (by push_cast; linarith)
        have h2 : 0 ≤ ⌊b + 1 / 2⌋ := Int.le_floor.2 (by push_cast; linarith)
        omega
      · rw [Int.ceil_le]
        have := Int.le_ceil (b - 1 / 2)
        push_cast
        linarith
  rw [abs_lt] at h
  rw [abs_le]
  have k1 := key a b h.2
  have k2 := key b a (by linarith)
  constructor <;> omega

/-- A fraction that is not half-way between two integers is rounded correctly from an approximation with an
error below `1 / (2 B)`. -/
theorem roundQ_frac {A B : Int} {v : ℚ} (hB : 0 < B) (hodd : ∀ k : Int, 2 * A ≠ (2 * k + 1) * B)
    (hv : |v - (A : ℚ) / B| < 1 / (2 * B)) : roundQ v = roundQ ((A : ℚ) / B) := by
  have hBq : (0 : ℚ) < B := by exact_mod_cast hB
  set m := roundQ ((A : ℚ) / B) with hm
  refine roundQ_near ?_
  have h1 := abs_le.1 (roundQ_bound ((A : ℚ) / B))
  rw [← hm] at h1
  have e : (A : ℚ) = (A : ℚ) / B * B := by field_simp
  generalize (A : ℚ) / B = z at *
  have u1 : 2 * A ≤ (2 * m + 1) * B := by
    have : (2 * A : ℚ) ≤ (2 * m + 1) * B := by rw [e]; nlinarith
    exact_mod_cast this
  have l1 : (2 * (m - 1) + 1) * B ≤ 2 * A := by
    have : (2 * (m - 1) + 1) * (B : ℚ) ≤ 2 * A := by rw [e]; nlinarith
    exact_mod_cast this
  have u2 : 2 * A + 1 ≤ (2 * m + 1) * B := by have := hodd m; omega
  have l2 : (2 * (m - 1) + 1) * B + 1 ≤ 2 * A := by have := hodd (m - 1); omega
  have u3 : 2 * (z * B) + 1 ≤ (2 * m + 1) * (B : ℚ) := by rw [← e]; exact_mod_cast u2
  have l3 : (2 * ((m : ℚ) - 1) + 1) * (B : ℚ) + 1 ≤ 2 * (z * B) := by rw [← e]; exact_mod_cast l2
  have hv' := abs_lt.1 hv
  have hinv : 1 / (2 * (B : ℚ)) * (2 * B) = 1 := by field_simp
  generalize 1 / (2 * (B : ℚ)) = t at *
  rw [abs_lt]
  constructor
  · by_contra hc
    push Not at hc
    have : (v - z) * (2 * B) > -1 := by nlinarith
    nlinarith
  · by_contra hc
    push Not at hc
    have : (v - z) * (2 * B) < 1 := by nlinarith
    nlinarith

/-! ### Polygons -/

/-- The bounds of the coordinates of an edge. -/
theorem edge_coords {B : Int} {poly : List (Int × Int)} (h : CoordsLe B poly)
    {e : (Int × Int) × (Int × Int)} (he : e ∈ polyEdges poly) :
    (|e.1.1| ≤ B ∧ |e.2.1| ≤ B) ∧ |e.1.2| ≤ B ∧ |e.2.2| ≤ B := by
  obtain ⟨v1, v2⟩ := polyEdges_mem he
  have k1 := h _ v1
  have k2 := h _ v2
  exact ⟨⟨k1.1, k2.1⟩, k1.2, k2.2⟩

theorem plot32 {α : Type _} (op : α → α → α) (im : Image α) (c : α) {s e : Int × Int}
    (h1 : |s.1| ≤ 2 ^ 22) (h2 : |s.2| ≤ 2 ^ 22) (h3 : |e.1| ≤ 2 ^ 22) (h4 : |e.2| ≤ 2 ^ 22) :
    drawLine32 op im (rnd32 (s.1 : ℚ), rnd32 (s.2 : ℚ)) (rnd32 (e.1 : ℚ), rnd32 (e.2 : ℚ)) c =
      drawLineInt op im s.1 s.2 e.1 e.2 c := by
  have up : ∀ {n : Int}, |n| ≤ 2 ^ 22 → |n| ≤ 2 ^ 24 := fun h => h.trans (by norm_num)
  rw [rnd32_small (up h1), rnd32_small (up h2), rnd32_small (up h3), rnd32_small (up h4),
    C118_draw op im c s e h1 h2 h3 h4]
  rfl

/-- **C132.** Drawing a polygon in `f32` with coordinates up to `2 ^ 22` does not fail, and the coloured
pixels are those on the lines of the edges and those inside by the even-odd rule, where the column of each
crossing is the one computed in `f32`. -/
theorem C132_fill {α : Type _} (op : α → α → α) (im : Image α) (hh : 0 < im.h)
    (poly : List (Int × Int)) (hB : CoordsLe (2 ^ 22) poly) (c : α) :
    ∃ out, drawPolygon32 op im poly c = some out ∧ out.w = im.w ∧ out.h = im.h ∧
      ∀ a b : Nat, im.InB a b → ∃ n : Nat,
        (0 < n ↔ (∃ e ∈ polyEdges poly, ((a : Int), (b : Int)) ∈
            bresenham ((e.1.1 : ℚ), (e.1.2 : ℚ)) ((e.2.1 : ℚ), (e.2.2 : ℚ))) ∨
          EvenOddWith (crossingsWith cross32) (polyEdges poly) a b) ∧
        out.px a b = (fun v => op v c)^[n] (im.px a b) := by
  have hi : ∀ y, ∀ e ∈ polyEdges poly, edgeInterWith cross32 y e = crossingsWith cross32 y e := by
    intro y e he
    obtain ⟨⟨k1, k2⟩, k3, k4⟩ := edge_coords hB he
    exact edgeInter32_eq k1 k2 k3 k4
  obtain ⟨out, h1, h2, h3, h4⟩ := fill_with op (edgeInterWith cross32)
    (fun im s e => drawLine32 op im (rnd32 (s.1 : ℚ), rnd32 (s.2 : ℚ))
      (rnd32 (e.1 : ℚ), rnd32 (e.2 : ℚ)) c)
    (fun e => bresenham ((e.1.1 : ℚ), (e.1.2 : ℚ)) ((e.2.1 : ℚ), (e.2.2 : ℚ))) im hh poly c
    (fun y e he => by
      rw [hi y e he, crossingsWith_length cross32 crossQ, crossingsWith_Q])
    (fun e he o => by
      obtain ⟨⟨k1, k2⟩, k3, k4⟩ := edge_coords hB he
      rw [plot32 op o c k1 k3 k2 k4]
      exact Draws.line op c o e.1 e.2)
  refine ⟨out, h1, h2, h3, fun a b hab => ?_⟩
  obtain ⟨n, hn, hp⟩ := h4 a b hab
  refine ⟨n, ?_, hp⟩
  rw [hn]
  refine or_congr Iff.rfl ?_
  have : (polyEdges poly).flatMap (edgeInterWith cross32 b) =
      (polyEdges poly).flatMap (crossingsWith cross32 b) := by
    rw [List.flatMap_def, List.flatMap_def, List.map_congr_left (hi b)]
  unfold EvenOddWith
  rw [this]

/-- **C132.** The column of a crossing is within the horizontal extent of its edge and within
`1/2 + (3 |x1 - x0| + 2 X) / 2 ^ 25` of the ideal position, where `X` bounds the columns of the ends. -/
theorem C132_crossing (y : Int) (p0 p1 : Int × Int) (X : Int) (h0 : |p0.1| ≤ X) (h1 : |p1.1| ≤ X)
    (hX : X ≤ 2 ^ 22) (h2 : |p0.2| ≤ 2 ^ 22) (h3 : |p1.2| ≤ 2 ^ 22) (hne : p0.2 ≠ p1.2)
    (hl : min p0.2 p1.2 ≤ y) (hu : y ≤ max p0.2 p1.2) :
    min p0.1 p1.1 ≤ cross32 y p0 p1 ∧ cross32 y p0 p1 ≤ max p0.1 p1.1 ∧
      |(cross32 y p0 p1 : ℚ) - idealX y p0 p1| ≤
        1 / 2 + (3 * |((p1.1 - p0.1 : Int) : ℚ)| + 2 * X) / 2 ^ 25 := by
  obtain ⟨k1, k2⟩ := cross32_between (h0.trans hX) (h1.trans hX) h2 h3 hne hl hu
  refine ⟨k1, k2, ?_⟩
  have e := pos32_error h0 h1 hX h2 h3 hne hl hu
  have r := roundQ_bound (pos32 y p0 p1)
  unfold cross32
  generalize (roundQ (pos32 y p0 p1) : ℚ) = R at *
  have := abs_add_le (R - pos32 y p0 p1) (pos32 y p0 p1 - idealX y p0 p1)
  rw [sub_add_sub_cancel] at this
  linarith

/-- **C132.** The column of a crossing is at most one away from the column of exact arithmetic, for
coordinates up to `2 ^ 21`. -/
theorem C132_close (y : Int) (p0 p1 : Int × Int) (h0 : |p0.1| ≤ 2 ^ 21) (h1 : |p1.1| ≤ 2 ^ 21)
    (h2 : |p0.2| ≤ 2 ^ 21) (h3 : |p1.2| ≤ 2 ^ 21) (hne : p0.2 ≠ p1.2)
    (hl : min p0.2 p1.2 ≤ y) (hu : y ≤ max p0.2 p1.2) :
    |cross32 y p0 p1 - crossQ y p0 p1| ≤ 1 := by
  rw [crossQ_ideal, cross32]
  refine roundQ_close ?_
  have e := pos32_error h0 h1 (by norm_num) (h2.trans (by norm_num)) (h3.trans (by norm_num)) hne hl hu
  refine lt_of_le_of_lt e ?_
  have a0 := abs_le.1 h0
  have a1 := abs_le.1 h1
  have : |((p1.1 - p0.1 : Int) : ℚ)| ≤ 2 ^ 22 := by
    have : |p1.1 - p0.1| ≤ 2 ^ 22 := by rw [abs_le]; constructor <;> omega
    exact_mod_cast this
  push_cast at *
  linarith

/-- **C132.** The crossing is the one of exact arithmetic if the ideal position is not exactly half-way between
two columns and `(3 |x1 - x0| + 2 X) |y1 - y0| < 2 ^ 24`. -/
theorem C132_crossing_exact (y : Int) (p0 p1 : Int × Int) (X : Int) (h0 : |p0.1| ≤ X)
    (h1 : |p1.1| ≤ X) (hX : X ≤ 2 ^ 22) (h2 : |p0.2| ≤ 2 ^ 22) (h3 : |p1.2| ≤ 2 ^ 22)
    (hne : p0.2 ≠ p1.2) (hl : min p0.2 p1.2 ≤ y) (hu : y ≤ max p0.2 p1.2)
    (hs : (3 * |p1.1 - p0.1| + 2 * X) * |p1.2 - p0.2| < 2 ^ 24)
    (htie : ∀ k : Int, 2 * idealX y p0 p1 ≠ 2 * k + 1) :
    cross32 y p0 p1 = crossQ y p0 p1 := by
  rw [crossQ_ideal, cross32]
  have e := pos32_error h0 h1 hX h2 h3 hne hl hu
  -- the ideal position as a fraction with a positive denominator
  obtain ⟨A, hA⟩ : ∃ A : Int, idealX y p0 p1 = (A : ℚ) / (|p1.2 - p0.2| : Int) := by
    have hz : ((p1.2 : ℚ) - p0.2) ≠ 0 := by
      have : ((p1.2 - p0.2 : Int) : ℚ) ≠ 0 := by exact_mod_cast (by omega : p1.2 - p0.2 ≠ 0)
      push_cast at this
      exact this
    unfold idealX
    rcases abs_cases (p1.2 - p0.2) with ⟨h, _⟩ | ⟨h, _⟩
    · refine ⟨p0.1 * (p1.2 - p0.2) + (y - p0.2) * (p1.1 - p0.1), ?_⟩
      rw [h]; push_cast; field_simp
    · refine ⟨-(p0.1 * (p1.2 - p0.2) + (y - p0.2) * (p1.1 - p0.1)), ?_⟩
      rw [h]; push_cast
      rw [neg_div_neg_eq]
      field_simp
  have hB : 0 < |p1.2 - p0.2| := abs_pos.2 (by omega)
  rw [hA] at e htie ⊢
  have hBq : (0 : ℚ) < ((|p1.2 - p0.2| : Int) : ℚ) := by exact_mod_cast hB
  have hsq : (3 * |((p1.1 - p0.1 : Int) : ℚ)| + 2 * X) * ((|p1.2 - p0.2| : Int) : ℚ) < 2 ^ 24 := by
    exact_mod_cast hs
  generalize |p1.2 - p0.2| = B at *
  refine roundQ_frac hB ?_ ?_
  · intro k hk
    apply htie k
    have : 2 * (A : ℚ) = (2 * k + 1) * B := by exact_mod_cast hk
    field_simp
    linarith
  · refine lt_of_le_of_lt e ?_
    rw [div_lt_div_iff₀ (by norm_num) (by linarith)]
    nlinarith

theorem evenOddWith_between {inter : Int → (Int × Int) × (Int × Int) → List Int}
    {edges : List ((Int × Int) × (Int × Int))} {a b : Int}
    (hev : Even (edges.flatMap (inter b)).length) (h : EvenOddWith inter edges a b) :
    (∃ e ∈ edges, ∃ x ∈ inter b e, x ≤ a) ∧ (∃ e ∈ edges, ∃ x ∈ inter b e, a ≤ x) := by
  have key : (∃ x ∈ edges.flatMap (inter b), x ≤ a) ∧ (∃ x ∈ edges.flatMap (inter b), a ≤ x) := by
    rcases h with h | h
    · exact ⟨⟨_, h, le_refl _⟩, ⟨_, h, le_refl _⟩⟩
    · constructor
      · have := h.pos
        rw [List.countP_pos_iff] at this
        obtain ⟨x, hx, h2⟩ := this
        exact ⟨x, hx, by simp at h2; omega⟩
      · by_contra hc
        push Not at hc
        have : (edges.flatMap (inter b)).countP (· < a) = (edges.flatMap (inter b)).length := by
          rw [List.countP_eq_length]
          intro z hz
          simpa using hc z hz
        rw [this] at h
        exact (Nat.not_odd_iff_even.2 hev) h
  obtain ⟨⟨x, hx, k1⟩, ⟨z, hz, k2⟩⟩ := key
  obtain ⟨e, he, hxe⟩ := List.mem_flatMap.1 hx
  obtain ⟨e', he', hze⟩ := List.mem_flatMap.1 hz
  exact ⟨⟨e, he, x, hxe, k1⟩, ⟨e', he', z, hze, k2⟩⟩

/-- **C132**, bounding box: also in `f32` every coloured pixel is in the bounding box of the vertices. -/
theorem C132_bbox (poly : List (Int × Int)) (hB : CoordsLe (2 ^ 22) poly) (a b : Int)
    (h : (∃ e ∈ polyEdges poly, (a, b) ∈
        bresenham ((e.1.1 : ℚ), (e.1.2 : ℚ)) ((e.2.1 : ℚ), (e.2.2 : ℚ))) ∨
      EvenOddWith (crossingsWith cross32) (polyEdges poly) a b) :
    (∃ p ∈ poly, p.1 ≤ a) ∧ (∃ p ∈ poly, a ≤ p.1) ∧ (∃ p ∈ poly, p.2 ≤ b) ∧
      (∃ p ∈ poly, b ≤ p.2) := by
  rcases h with h | h
  · exact C47_bbox poly a b (Or.inl h)
  have pick : ∀ (f : Int × Int → Int) (e : (Int × Int) × (Int × Int)) (z : Int),
      e ∈ polyEdges poly → (min (f e.1) (f e.2) ≤ z → ∃ p ∈ poly, f p ≤ z) ∧
        (z ≤ max (f e.1) (f e.2) → ∃ p ∈ poly, z ≤ f p) := by
    intro f e z he
    obtain ⟨v1, v2⟩ := polyEdges_mem he
    constructor
    · intro hz
      rcases min_le_iff.1 hz with h | h
      · exact ⟨_, v1, h⟩
      · exact ⟨_, v2, h⟩
    · intro hz
      rcases le_max_iff.1 hz with h | h
      · exact ⟨_, v1, h⟩
      · exact ⟨_, v2, h⟩
  have hev := inter_even (crossingsWith cross32) poly b fun e _ => by
    rw [crossingsWith_length cross32 crossQ, crossingsWith_Q]
  obtain ⟨⟨e, he, x, hx, hxa⟩, ⟨e', he', x', hx', hxa'⟩⟩ := evenOddWith_between hev h
  have range : ∀ e ∈ polyEdges poly, ∀ x ∈ crossingsWith cross32 b e,
      (min e.1.1 e.2.1 ≤ x ∧ x ≤ max e.1.1 e.2.1) ∧ min e.1.2 e.2.2 ≤ b ∧ b ≤ max e.1.2 e.2.2 := by
    intro e he x hx
    obtain ⟨⟨k1, k2⟩, k3, k4⟩ := edge_coords hB he
    rcases mem_crossingsWith hx with ⟨g1, g2, g3⟩ | ⟨g1, g2, g3, g4⟩
    · omega
    · rw [g4]
      exact ⟨cross32_between k1 k2 k3 k4 g1 g2 g3.le, g2, g3.le⟩
  have r := range e he x hx
  have r' := range e' he' x' hx'
  exact ⟨(pick Prod.fst e a he).1 (r.1.1.trans hxa), (pick Prod.fst e' a he').2 (hxa'.trans r'.1.2),
    (pick Prod.snd e b he).1 r.2.1, (pick Prod.snd e b he).2 r.2.2⟩

/-- **C132.** A pixel at least two columns away from every crossing of exact arithmetic in its row is inside
in `f32` exactly if it is inside in exact arithmetic. -/
theorem C132_away (poly : List (Int × Int)) (hB : CoordsLe (2 ^ 21) poly) (a b : Int)
    (haway : ∀ e ∈ polyEdges poly, ∀ z ∈ crossings b e, 2 ≤ |z - a|) :
    EvenOddWith (crossingsWith cross32) (polyEdges poly) a b ↔ EvenOdd (polyEdges poly) a b := by
  have key : ∀ l : List ((Int × Int) × (Int × Int)), (∀ e ∈ l, e ∈ polyEdges poly) →
      (a ∉ l.flatMap (crossingsWith cross32 b)) ∧ (a ∉ l.flatMap (crossings b)) ∧
      (l.flatMap (crossingsWith cross32 b)).countP (· < a) =
        (l.flatMap (crossings b)).countP (· < a) := by
    intro l
    induction l with
    | nil => intro _; simp
    | cons e l ih =>
      intro hl
      obtain ⟨i1, i2, i3⟩ := ih fun e' he' => hl e' (List.mem_cons_of_mem _ he')
      have he := hl e (by simp)
      obtain ⟨⟨k1, k2⟩, k3, k4⟩ := edge_coords hB he
      have hz := haway e he
      rw [← crossingsWith_Q] at hz
      rw [List.flatMap_cons, List.flatMap_cons, List.countP_append, List.countP_append, i3,
        List.mem_append, List.mem_append, ← crossingsWith_Q]
      have one : a ∉ crossingsWith cross32 b e ∧ a ∉ crossingsWith crossQ b e ∧
          (crossingsWith cross32 b e).countP (· < a) =
            (crossingsWith crossQ b e).countP (· < a) := by
        have hn : a ∉ crossingsWith crossQ b e := by
          intro h
          have := hz a h
          rw [sub_self, abs_zero] at this
          omega
        refine ⟨?_, hn, ?_⟩
        · intro h
          rcases mem_crossingsWith h with ⟨g1, g2, g3⟩ | ⟨g1, g2, g3, g4⟩
          · apply hn
            unfold crossingsWith
            rw [if_pos g1, if_pos g2]
            rcases g3 with g | g <;> simp [g]
          · have hm : crossQ b e.1 e.2 ∈ crossingsWith crossQ b e := by
              unfold crossingsWith
              rw [if_neg g1, if_pos ⟨g2, g3⟩]
              simp
            have q := hz _ hm
            have c := C132_close b e.1 e.2 k1 k2 k3 k4 g1 g2 g3.le
            rw [← g4] at c
            rw [abs_sub_comm] at c
            omega
        · by_cases g1 : e.1.2 = e.2.2
          · unfold crossingsWith
            rw [if_pos g1, if_pos g1]
          · by_cases g2 : min e.1.2 e.2.2 ≤ b ∧ b < max e.1.2 e.2.2
            · have hm : crossQ b e.1 e.2 ∈ crossingsWith crossQ b e := by
                unfold crossingsWith
                rw [if_neg g1, if_pos g2]
                simp
              have q := hz _ hm
              have c := abs_le.1 (C132_close b e.1 e.2 k1 k2 k3 k4 g1 g2.1 g2.2.le)
              unfold crossingsWith
              rw [if_neg g1, if_pos g2, if_neg g1, if_pos g2, List.countP_singleton,
                List.countP_singleton]
              have : (cross32 b e.1 e.2 < a) = (crossQ b e.1 e.2 < a) := by
                rw [eq_iff_iff]
                rcases le_abs.1 q with q | q <;> constructor <;> intro <;> omega
              simp only [this]
            · unfold crossingsWith
              rw [if_neg g1, if_neg g2, if_neg g1, if_neg g2]
      obtain ⟨o1, o2, o3⟩ := one
      exact ⟨by tauto, by tauto, by rw [o3]⟩
  obtain ⟨k1, k2, k3⟩ := key (polyEdges poly) fun _ h => h
  unfold EvenOddWith EvenOdd
  rw [k3]
  tauto

theorem drawPolygonWith_congr {α : Type _} (op : α → α → α)
    {inter inter' : Int → (Int × Int) × (Int × Int) → List Int}
    {plotter plotter' : Image α → Int × Int → Int × Int → Option (Image α)}
    (im : Image α) (poly : List (Int × Int)) (c : α)
    (h1 : ∀ y, ∀ e ∈ polyEdges poly, inter y e = inter' y e)
    (h2 : ∀ o, ∀ e ∈ polyEdges poly, plotter o e.1 e.2 = plotter' o e.1 e.2) :
    drawPolygonWith op inter plotter im poly c = drawPolygonWith op inter' plotter' im poly c := by
  cases poly with
  | nil => rfl
  | cons f rest =>
    unfold drawPolygonWith
    dsimp only
    rw [← polyEdges_cons]
    generalize polyEdges (f :: rest) = edges at *
    have e1 : ∀ y1 y2, scanFill op inter im y1 y2 edges c = scanFill op inter' im y1 y2 edges c := by
      intro y1 y2
      unfold scanFill
      congr 1
      funext y o
      rw [List.flatMap_def, List.flatMap_def, List.map_congr_left (h1 y)]
    rw [e1]
    congr 1
    funext o
    have : ∀ (l : List ((Int × Int) × (Int × Int))), (∀ e ∈ l, e ∈ edges) → ∀ o,
        (forList l o fun e im => plotter im e.1 e.2) = forList l o fun e im => plotter' im e.1 e.2 := by
      intro l
      induction l with
      | nil => intro _ o; rfl
      | cons e l ih =>
        intro hl o
        rw [forList, forList, h2 o e (hl e (by simp))]
        congr 1
        funext o'
        exact ih (fun e' he' => hl e' (List.mem_cons_of_mem _ he')) o'
    exact this edges (fun _ h => h) o

/-- **C132, partial**: for vertices in a canvas of `W` by `H` with `5 W H < 2 ^ 24` (1920 by 1080, say), the
image is that of exact arithmetic, if no edge meets a row exactly half-way between two columns.  Missing: such
rows, for which the result can differ (`C132_negation`), and larger canvases. -/
theorem C132_exact_partial {α : Type _} (op : α → α → α) (im : Image α) (poly : List (Int × Int))
    (c : α) (W H : Int) (hW : W ≤ 2 ^ 22) (hH : H ≤ 2 ^ 22) (hWH : 5 * W * H < 2 ^ 24)
    (hv : ∀ p ∈ poly, 0 ≤ p.1 ∧ p.1 ≤ W ∧ 0 ≤ p.2 ∧ p.2 ≤ H)
    (htie : ∀ e ∈ polyEdges poly, e.1.2 ≠ e.2.2 → ∀ y, min e.1.2 e.2.2 < y → y < max e.1.2 e.2.2 →
      ∀ k : Int, 2 * idealX y e.1 e.2 ≠ 2 * k + 1) :
    drawPolygon32 op im poly c = drawPolygon op im poly c := by
  have hB : CoordsLe (2 ^ 22) poly := by
    intro p hp
    have := hv p hp
    constructor <;> rw [abs_le] <;> constructor <;> omega
  unfold drawPolygon32 drawPolygon
  refine drawPolygonWith_congr op im poly c ?_ ?_
  · intro y e he
    obtain ⟨⟨k1, k2⟩, k3, k4⟩ := edge_coords hB he
    obtain ⟨v1, v2⟩ := polyEdges_mem he
    have w1 := hv _ v1
    have w2 := hv _ v2
    rw [edgeInter32_eq k1 k2 k3 k4, edgeInter_eq, ← crossingsWith_Q]
    unfold crossingsWith
    by_cases g1 : e.1.2 = e.2.2
    · rw [if_pos g1, if_pos g1]
    · rw [if_neg g1, if_neg g1]
      by_cases g2 : min e.1.2 e.2.2 ≤ y ∧ y < max e.1.2 e.2.2
      · rw [if_pos g2, if_pos g2]
        congr 1
        by_cases s1 : y = e.1.2
        · rw [s1, cross32_start k1 k2 k3 k4, crossQ_start]
        by_cases s2 : y = e.2.2
        · rw [s2, cross32_end k1 k2 k3 k4 g1, crossQ_end _ _ g1]
        refine C132_crossing_exact y e.1 e.2 W (by rw [abs_le]; constructor <;> omega)
          (by rw [abs_le]; constructor <;> omega) hW k3 k4 g1 g2.1 g2.2.le ?_
          (htie e he g1 y (by omega) g2.2)
        have q1 : |e.2.1 - e.1.1| ≤ W := by rw [abs_le]; constructor <;> omega
        have q2 : |e.2.2 - e.1.2| ≤ H := by rw [abs_le]; constructor <;> omega
        have : (3 * |e.2.1 - e.1.1| + 2 * W) * |e.2.2 - e.1.2| ≤ 5 * W * H :=
          mul_le_mul (by omega) q2 (abs_nonneg _) (by omega)
        omega
      · rw [if_neg g2, if_neg g2]
  · intro o e he
    obtain ⟨⟨k1, k2⟩, k3, k4⟩ := edge_coords hB he
    exact plot32 op o c k1 k3 k2 k4

/-- **C132, negation** of "the image is that of exact arithmetic": the edge from (0, 0) to (11, 22) meets row
13 at 6.5, which is 7 to the nearest column, but 13/22 is rounded down and the crossing is put at 6.  The
pixel (7, 13) of the triangle is not coloured. -/
theorem C132_negation :
    cross32 13 (0, 0) (11, 22) = 6 ∧ crossQ 13 (0, 0) (11, 22) = 7 ∧
    (drawPolygon32 overwrite (Image.new 12 23 0) [(0, 0), (11, 22), (0, 22)] 1).map
      (fun o => (o.px 6 13, o.px 7 13)) = some (1, 0) ∧
    (drawPolygon overwrite (Image.new 12 23 0) [(0, 0), (11, 22), (0, 22)] 1).map
      (fun o => (o.px 6 13, o.px 7 13)) = some (1, 1) := by
  decide +kernel

-- A triangle with a vertex outside the image, clipped, in `f32`.
example : (drawPolygon32 overwrite (Image.new 5 4 0) [(0, 0), (6, 0), (0, 3)] 1).map Image.rows =
    some [[1, 1, 1, 1, 1], [1, 1, 1, 1, 1], [1, 1, 1, 1, 0], [1, 1, 0, 0, 0]] := by decide +kernel
-- The hypotheses of `C132_exact_partial` hold for full-HD canvases.
example : (5 : Int) * 1920 * 1080 < 2 ^ 24 := by decide

end Verif.Float
