import Verif.Float.F32
import Verif.Hough.Votes
import Mathlib.Analysis.Real.Sqrt
/-
`detect_lines` (src/hough.rs:39-94) in single precision: the model `Verif.Hough.detectLines` works
for any number type, here it is used with `f32` numbers.  Property theorem C131.
-/
namespace Verif.Float
open Verif.Hough Finset

/-- `r as i32`: truncation, saturating. -/
def toI32 (r : F32 ℚ) : Int := max (-2147483648) (min (trunc r.val) 2147483647)

/-! ### Rounding near an integer -/

/-- An integer minus less than half the spacing below it rounds back to the integer. -/
theorem rnd32_sub_small {y : Nat} {q : ℚ} (hy : 1 ≤ y) (hy2 : y < 2 ^ 24) (hq : 0 ≤ q)
    (h : q * 2 ^ 25 < y) : rnd32 ((y : ℚ) - q) = y := by
  have hy' : (1 : ℚ) ≤ y := by exact_mod_cast hy
  have hyl : (y : ℚ) < 16777216 := by exact_mod_cast hy2
  have hq1 : q < 1 / 2 := by linarith
  obtain ⟨k, hk⟩ : ∃ k, k = Nat.log 2 y := ⟨_, rfl⟩
  have l1 : 2 ^ k ≤ y := by rw [hk]; exact Nat.pow_log_le_self 2 (by omega)
  have l2 : y < 2 ^ (k + 1) := by rw [hk]; exact Nat.lt_pow_succ_log_self (by norm_num) y
  have hk24 : k < 24 := by
    by_contra hc
    have : 2 ^ 24 ≤ 2 ^ k := Nat.pow_le_pow_right (by norm_num) (by omega)
    omega
  have l1' : (2 : ℚ) ^ k ≤ y := by exact_mod_cast l1
  have l2' : (y : ℚ) < 2 ^ (k + 1) := by exact_mod_cast l2
  have hpos : (0 : ℚ) < (y : ℚ) - q := by linarith
  have key : ∀ e : Int, -149 ≤ e → e ≤ 0 → q < 2 ^ e / 2 → 2 ^ (e + 23) ≤ (y : ℚ) - q →
      (y : ℚ) - q < 2 ^ (e + 24) → rnd32 ((y : ℚ) - q) = y := by
    intro e he he0 h1 h2 h3
    obtain ⟨j, hj⟩ := Int.eq_ofNat_of_zero_le (show 0 ≤ -e by omega)
    have hej : e = -(j : Int) := by omega
    have hep := two_zpow_pos ℚ e
    have hym : (y : ℚ) = ((y * 2 ^ j : Int) : ℚ) * 2 ^ e := by
      rw [hej, zpow_neg, zpow_natCast]
      push_cast
      field_simp
    have hmax : max (e + 23 + 1 - ((24 : Nat) : Int)) (-149) = e := by
      rw [max_eq_left] <;> push_cast <;> omega
    have ev := rnd_eval (p := 24) (emin := -149) (x := (y : ℚ) - q) (e + 23) (y * 2 ^ j)
      (by rw [abs_of_pos hpos]; exact h2)
      (by rw [abs_of_pos hpos, show e + 23 + 1 = e + 24 by ring]; exact h3)
      (roundEven_near (by
        rw [hmax, div_sub' hep.ne', abs_div, abs_of_pos hep, div_lt_iff₀ hep]
        rw [show (y : ℚ) - q - 2 ^ e * ((y * 2 ^ j : Int) : ℚ) = -q by
          rw [mul_comm, ← hym]; ring]
        rw [abs_neg, abs_of_nonneg hq]
        linarith))
    rw [hmax, ← hym] at ev
    exact ev
  have z1 : (2 : ℚ) ^ ((k : Int) - 23 + 23) = 2 ^ k := by
    rw [sub_add_cancel, zpow_natCast]
  have z2 : (2 : ℚ) ^ ((k : Int) - 23 + 24) = 2 ^ (k + 1) := by
    rw [show (k : Int) - 23 + 24 = ((k + 1 : Nat) : Int) by push_cast; ring, zpow_natCast]
  have z3 : (2 : ℚ) ^ ((k : Int) - 23) = 2 ^ (k + 1) / 2 ^ 24 := by
    rw [zpow_sub₀ (by norm_num), zpow_natCast, pow_succ]; norm_num; ring
  have z4 : (2 : ℚ) ^ ((k : Int) - 24) = 2 ^ k / 2 ^ 24 := by
    rw [zpow_sub₀ (by norm_num), zpow_natCast]; norm_num
  by_cases hz : (2 : ℚ) ^ k ≤ (y : ℚ) - q
  · refine key ((k : Int) - 23) (by omega) (by omega) ?_ (by rw [z1]; exact hz) (by rw [z2]; linarith)
    rw [z3]
    norm_num at h ⊢
    linarith
  · rw [not_le] at hz
    have hyk : y = 2 ^ k := by
      by_contra hne
      have : 2 ^ k + 1 ≤ y := by omega
      have : (2 : ℚ) ^ k + 1 ≤ y := by exact_mod_cast this
      linarith
    have hyk' : (y : ℚ) = 2 ^ k := by exact_mod_cast hyk
    refine key ((k : Int) - 24) (by omega) (by omega) ?_ ?_ ?_
    · rw [z4]
      norm_num at h ⊢
      linarith
    · have : (2 : ℚ) ^ ((k : Int) - 24 + 23) = 2 ^ k / 2 := by
        rw [show (k : Int) - 24 + 23 = (k : Int) - 1 by ring, zpow_sub₀ (by norm_num), zpow_natCast]; norm_num
      rw [this]
      linarith
    · rw [sub_add_cancel, zpow_natCast]
      exact hz

/-! ### Horizontal lines -/

theorem dist32_eq (lut : Nat → F32 ℚ × F32 ℚ) (m x y : Nat) : dist toI32 lut m (x, y) =
    toI32 ⟨rnd32 (rnd32 (rnd32 (x : ℚ) * (lut m).2.val) + rnd32 (rnd32 (y : ℚ) * (lut m).1.val))⟩ := rfl

theorem rnd32_natH {n : Nat} (h : n ≤ 2 ^ 24) : rnd32 (n : ℚ) = n := by
  have : rnd32 ((n : Int) : ℚ) = ((n : Int) : ℚ) := rnd_int (by norm_num) (by norm_num) (by
    rw [abs_of_nonneg (by omega)]; exact_mod_cast h)
  exact_mod_cast this

theorem rep_natH {n : Nat} (h : n ≤ 2 ^ 24) : Rep (K := ℚ) 24 (-149) (n : ℚ) :=
  ⟨n, 0, by rw [abs_of_nonneg (by omega)]; exact_mod_cast h, by norm_num, by simp⟩

theorem toI32_floor {r : ℚ} {n : Nat} (h1 : (n : ℚ) ≤ r) (h2 : r < n + 1) (hn : n < 2 ^ 24) :
    toI32 ⟨r⟩ = n := by
  unfold toI32 trunc
  have h0 : 0 ≤ r := le_trans (by positivity) h1
  dsimp only
  rw [if_pos h0]
  have : ⌊r⌋ = (n : Int) := by
    rw [Int.floor_eq_iff]
    exact ⟨by exact_mod_cast h1, by exact_mod_cast h2⟩
  rw [this]
  omega

/-- The table entry for 90 degrees: the sine is `1`; the `f32` nearest to `π / 2` is slightly larger
than `π / 2`, so the cosine is not `0` but `-4.371139e-8`.  Any value close to it will do. -/
def RightAngle (lut : Nat → F32 ℚ × F32 ℚ) : Prop :=
  (lut 90).1.val = 1 ∧ -(438 / 10 ^ 10) ≤ (lut 90).2.val ∧ (lut 90).2.val ≤ -(437 / 10 ^ 10)

/-- The value in the table: the cosine of the `f32` nearest to `π / 2`, rounded. -/
example : RightAngle fun _ => (⟨1⟩, ⟨-6151831 / 140737488355328⟩) := by
  unfold RightAngle
  norm_num

/-- C131: vertical lines are exact. -/
theorem C131_vertical_vote (lut : Nat → F32 ℚ × F32 ℚ) (hs : (lut 0).1.val = 0) (hc : (lut 0).2.val = 1)
    (x y : Nat) (hx : x < 2 ^ 24) : dist toI32 lut 0 (x, y) = x := by
  rw [dist32_eq, hs, hc, mul_one, mul_zero]
  have z : rnd32 (0 : ℚ) = 0 := rnd_zero
  rw [z, add_zero, rnd32_natH hx.le, rnd32_natH hx.le, rnd32_natH hx.le]
  exact toI32_floor (le_refl _) (by linarith) hx

/-- C131: where the pixel `(x, y)` votes at 90 degrees.  The exact distance of the horizontal line
through it is `y`.  Left of the diagonal the vote is for `y`, right of it for `y - 1`. -/
theorem C131_horizontal_vote (lut : Nat → F32 ℚ × F32 ℚ) (hl : RightAngle lut) (x y : Nat)
    (hx : x < 2 ^ 22) (hy : 1 ≤ y) (hy2 : y < 2 ^ 24) :
    (3 * x ≤ 2 * y → dist toI32 lut 90 (x, y) = y) ∧
    (7 * y ≤ 5 * x → dist toI32 lut 90 (x, y) = y - 1) := by
  obtain ⟨hs, hc1, hc2⟩ := hl
  rw [dist32_eq, rnd32_natH (by omega), rnd32_natH hy2.le, hs, mul_one, rnd32_natH hy2.le]
  generalize (lut 90).2.val = c at *
  have hx0 : (0 : ℚ) ≤ x := by positivity
  have hxl : (x : ℚ) < 4194304 := by exact_mod_cast hx
  have hyl : (y : ℚ) < 16777216 := by exact_mod_cast hy2
  have hy1 : (1 : ℚ) ≤ y := by exact_mod_cast hy
  have e1 := rnd_error_mixed (p := 24) (emin := -149) ((x : ℚ) * c)
  have b1 : (x : ℚ) * c ≤ -(437 / 10 ^ 10) * x := by nlinarith
  have b2 : -(438 / 10 ^ 10) * x ≤ (x : ℚ) * c := by nlinarith
  have e2 : rnd32 ((x : ℚ) * c) ≤ 0 := rnd_le (by norm_num) rep_zero (by linarith)
  rw [abs_of_nonpos (show (x : ℚ) * c ≤ 0 by linarith)] at e1
  have u1 : (2 : ℚ) ^ (-((24 : Nat) : Int)) = 1 / 16777216 := by norm_num
  have u2 : (2 : ℚ) ^ ((-149 : Int) - 1) ≤ 1 / 10 ^ 40 := by norm_num
  rw [u1] at e1
  obtain ⟨q, hq⟩ : ∃ q, q = -rnd32 ((x : ℚ) * c) := ⟨_, rfl⟩
  have hr : rnd32 ((x : ℚ) * c) = -q := by rw [hq, neg_neg]
  have e1' : |-q - x * c| ≤ -(x * c) * (1 / 16777216) + 2 ^ ((-149 : Int) - 1) := by rw [← hr]; exact e1
  rw [hr] at e2 ⊢
  rw [show -q + (y : ℚ) = y - q by ring]
  rw [abs_le] at e1'
  obtain ⟨e3, e4⟩ := e1'
  generalize (2 : ℚ) ^ ((-149 : Int) - 1) = tiny at *
  clear e1 hq hr
  constructor
  · intro h
    have h' : 3 * (x : ℚ) ≤ 2 * y := by exact_mod_cast h
    rw [rnd32_sub_small hy hy2 (by linarith) (by norm_num; linarith)]
    exact toI32_floor (le_refl _) (by linarith) hy2
  · intro h
    have h' : 7 * (y : ℚ) ≤ 5 * x := by exact_mod_cast h
    have hq1 : q < 1 := by linarith
    have lo : ((y - 1 : Nat) : ℚ) ≤ rnd32 ((y : ℚ) - q) :=
      le_rnd (by norm_num) (rep_natH (by omega)) (by push_cast [hy]; linarith)
    have hi : rnd32 ((y : ℚ) - q) < y := by
      have hq2 : q ≤ 1 / 2 := by linarith
      have e := rnd_error_rel (p := 24) (emin := -149) (x := (y : ℚ) - q) (by
        rw [abs_of_pos (by linarith)]
        exact le_trans (show (2 : ℚ) ^ ((-149 : Int) + ((24 : Nat) : Int) - 1) ≤ 1 / 2 by norm_num) (by linarith))
      rw [abs_of_pos (show 0 < (y : ℚ) - q by linarith), u1] at e
      obtain ⟨-, e⟩ := abs_le.1 e
      have e' : rnd32 ((y : ℚ) - q) - (y - q) ≤ (y - q) * (1 / 16777216) := e
      linarith
    rw [toI32_floor lo (by push_cast [hy]; linarith) (by omega)]
    push_cast [hy]
    rfl

theorem size_lt {w h : Nat} (hs : w * w + h * h < 2 ^ 32) : w < 2 ^ 16 ∧ h < 2 ^ 16 := by
  constructor <;> (by_contra hc; rw [not_lt] at hc; have := Nat.mul_le_mul hc hc; omega)

/-- C131 is false as far as horizontal lines are concerned: if the foreground lies in row `y0`, in
columns from about `1.4 y0` on, then `detect_lines` never reports the line at distance `y0`, whatever
the threshold and the radius ... -/
theorem C131_negation (lut : Nat → F32 ℚ × F32 ℚ) (hl : RightAngle lut) (im : Image Nat)
    (hs : im.w * im.w + im.h * im.h < 2 ^ 32) (y0 : Nat) (h1 : 1 ≤ y0)
    (hrow : ∀ x y, im.InB x y → 0 < im.px x y → y = y0 ∧ 7 * y0 ≤ 5 * x)
    (t radius : Nat) (ht : 0 < t) :
    ∃ lines, detectLines toI32 lut im t radius = some lines ∧ ((y0 : Int), 90) ∉ lines := by
  obtain ⟨lines, e, h, -⟩ := C58_lines toI32 lut im t radius hs ht
  refine ⟨lines, e, fun hm => ?_⟩
  obtain ⟨-, -, h2, -⟩ := (h _ _).1 hm
  obtain ⟨hw, hh⟩ := size_lt hs
  have : votes toI32 lut im 90 y0 = 0 := by
    unfold votes
    rw [card_eq_zero, filter_eq_empty_iff]
    rintro ⟨x, y⟩ hp ⟨hf, hd⟩
    rw [mem_allPx] at hp
    obtain ⟨rfl, h7⟩ := hrow x y hp hf
    have := (C131_horizontal_vote lut hl x y (by omega) h1 (by omega)).2 h7
    rw [this] at hd
    omega
  omega

/-- ... and without suppression it does report the wrong line, one pixel higher, if there are enough
foreground pixels. -/
theorem C131_negation_reported (lut : Nat → F32 ℚ × F32 ℚ) (hl : RightAngle lut) (im : Image Nat)
    (hs : im.w * im.w + im.h * im.h < 2 ^ 32) (y0 : Nat) (h1 : 1 ≤ y0) (h2 : y0 < im.h)
    (hrow : ∀ x y, im.InB x y → 0 < im.px x y → y = y0 ∧ 7 * y0 ≤ 5 * x)
    (t : Nat) (ht : 0 < t) (hn : t ≤ ((allPx im.w im.h).filter fun p => 0 < im.px p.1 p.2).card) :
    ∃ lines, detectLines toI32 lut im t 0 = some lines ∧ ((y0 : Int) - 1, 90) ∈ lines := by
  obtain ⟨lines, e, h, -⟩ := C58_lines toI32 lut im t 0 hs ht
  refine ⟨lines, e, (h _ _).2 ⟨by norm_num, ?_, ?_, ?_⟩⟩
  · rw [Nat.le_sqrt]
    have a : ((y0 : Int) - 1).natAbs ≤ im.h := by omega
    have := Nat.mul_le_mul a a
    omega
  · refine le_trans hn (card_le_card ?_)
    rintro ⟨x, y⟩ hp
    rw [mem_filter] at hp ⊢
    obtain ⟨hw, hh⟩ := size_lt hs
    obtain ⟨hin, hf⟩ := hp
    rw [mem_allPx] at hin
    obtain ⟨rfl, h7⟩ := hrow x y hin hf
    exact ⟨by rw [mem_allPx]; exact hin, hf, (C131_horizontal_vote lut hl x y (by omega) h1 (by omega)).2 h7⟩
  · intro r' m' _ _ hr hm hb
    have e1 : r' = (y0 : Int) - 1 := by omega
    have e2 : m' = 90 := by omega
    rw [e1, e2] at hb
    unfold BeatsLine at hb
    omega

/-- The image of the unit test `detect_lines_horizontal_above_threshold` (src/hough.rs:406-417): a
segment in row 2.  The test expects distance 1. -/
example (lut : Nat → F32 ℚ × F32 ℚ) (hl : RightAngle lut) :
    let im : Image Nat := ⟨20, 5, fun x y => if y = 2 ∧ (5 ≤ x ∧ x < 10 ∨ 12 ≤ x ∧ x < 17) then 255 else 0⟩
    ∃ lines, detectLines toI32 lut im 10 0 = some lines ∧ (1, 90) ∈ lines ∧ (2, 90) ∉ lines := by
  intro im
  have hrow : ∀ x y, im.InB x y → 0 < im.px x y → y = 2 ∧ 7 * 2 ≤ 5 * x := by
    intro x y _ hf
    by_contra hc
    have : im.px x y = 0 := if_neg (by omega)
    omega
  obtain ⟨l1, e1, h1⟩ := C131_negation_reported lut hl im (by decide) 2 (by omega) (by decide) hrow 10 (by omega)
    (by decide +kernel)
  obtain ⟨l2, e2, h2⟩ := C131_negation lut hl im (by decide) 2 (by omega) hrow 10 0 (by omega)
  rw [e1] at e2
  obtain rfl := Option.some.inj e2
  exact ⟨l1, e1, h1, h2⟩

/-! ### Accuracy of the votes -/

/-- Table entries: `f32` numbers of absolute value at most one. -/
def TableEntry (p : F32 ℚ × F32 ℚ) : Prop :=
  Rep 24 (-149) p.1.val ∧ Rep 24 (-149) p.2.val ∧ |p.1.val| ≤ 1 ∧ |p.2.val| ≤ 1

theorem dist32_error (lut : Nat → F32 ℚ × F32 ℚ) (m x y : Nat) (hl : TableEntry (lut m))
    (hx : x < 2 ^ 16) (hy : y < 2 ^ 16) :
    |rnd32 (rnd32 (rnd32 (x : ℚ) * (lut m).2.val) + rnd32 (rnd32 (y : ℚ) * (lut m).1.val)) -
      (x * (lut m).2.val + y * (lut m).1.val)| ≤ (x + y) / 2 ^ 22 := by
  obtain ⟨r1, r2, b1, b2⟩ := hl
  rw [rnd32_natH (by omega), rnd32_natH (by omega)]
  generalize (lut m).1.val = s at *
  generalize (lut m).2.val = c at *
  have hx0 : (0 : ℚ) ≤ x := by positivity
  have hy0 : (0 : ℚ) ≤ y := by positivity
  have a1 : |(x : ℚ) * c| ≤ x := by rw [abs_mul, abs_of_nonneg hx0]; nlinarith
  have a2 : |(y : ℚ) * s| ≤ y := by rw [abs_mul, abs_of_nonneg hy0]; nlinarith
  have u1 : (2 : ℚ) ^ (-((24 : Nat) : Int)) = 1 / 16777216 := by norm_num
  have e1 : |rnd32 ((x : ℚ) * c) - x * c| ≤ x * (1 / 16777216) := by
    have := rnd_int_mul_error (p := 24) (emin := -149) (by norm_num) r2 (x : Int)
    rw [u1, Int.cast_natCast] at this
    exact le_trans this (by linarith)
  have e2 : |rnd32 ((y : ℚ) * s) - y * s| ≤ y * (1 / 16777216) := by
    have := rnd_int_mul_error (p := 24) (emin := -149) (by norm_num) r1 (y : Int)
    rw [u1, Int.cast_natCast] at this
    exact le_trans this (by linarith)
  have e3 := rnd_add_error (K := ℚ) (p := 24) (emin := -149) (by norm_num) (rep_rnd (x * c)) (rep_rnd (y * s))
  rw [u1] at e3
  have e3' : |rnd32 (rnd32 ((x : ℚ) * c) + rnd32 (y * s)) - (rnd32 (x * c) + rnd32 (y * s))| ≤
    |rnd32 ((x : ℚ) * c) + rnd32 (y * s)| * (1 / 16777216) := e3
  generalize rnd32 ((x : ℚ) * c) = A at *
  generalize rnd32 ((y : ℚ) * s) = B at *
  generalize rnd32 (A + B) = C at *
  have f : |A + B| ≤ 2 * (x + y) := by
    rw [abs_le] at a1 a2 e1 e2 ⊢
    constructor <;> linarith
  have e4 : |C - (A + B)| ≤ 2 * (x + y) * (1 / 16777216) := le_trans e3' (by linarith)
  rw [abs_le] at e1 e2 e4 ⊢
  norm_num
  constructor <;> linarith

theorem trunc_close (q : ℚ) : |((trunc q : Int) : ℚ) - q| < 1 := by
  unfold trunc
  split_ifs
  · have h1 := Int.floor_le q
    have h2 := Int.lt_floor_add_one q
    rw [abs_lt]; constructor <;> linarith
  · have h1 := Int.le_ceil q
    have h2 := Int.ceil_lt_add_one q
    rw [abs_lt]; constructor <;> linarith

theorem toI32_eq {q : ℚ} (h : |q| < 2 ^ 20) : toI32 ⟨q⟩ = trunc q := by
  unfold toI32
  have h1 := trunc_le q
  have h2 : |((trunc q : Int) : ℚ)| < 2 ^ 20 := lt_of_le_of_lt h1 h
  have h3 : |trunc q| < 2 ^ 20 := by exact_mod_cast h2
  rw [abs_lt] at h3
  dsimp only
  omega

/-- C131: at every angle a pixel votes for a distance less than `1 + (x + y) / 2^22` (at most
`1.04`) away from the distance computed exactly from the same table. -/
theorem C131_vote_close (lut : Nat → F32 ℚ × F32 ℚ) (m x y : Nat) (hl : TableEntry (lut m))
    (hx : x < 2 ^ 16) (hy : y < 2 ^ 16) :
    |((dist toI32 lut m (x, y) : Int) : ℚ) - (x * (lut m).2.val + y * (lut m).1.val)| <
      1 + (x + y) / 2 ^ 22 := by
  have e := dist32_error lut m x y hl hx hy
  rw [dist32_eq]
  generalize rnd32 (rnd32 (rnd32 (x : ℚ) * (lut m).2.val) + rnd32 (rnd32 (y : ℚ) * (lut m).1.val)) = r at *
  obtain ⟨r1, r2, b1, b2⟩ := hl
  have hx0 : (0 : ℚ) ≤ x := by positivity
  have hy0 : (0 : ℚ) ≤ y := by positivity
  have hxl : (x : ℚ) < 65536 := by exact_mod_cast hx
  have hyl : (y : ℚ) < 65536 := by exact_mod_cast hy
  have a1 : |(x : ℚ) * (lut m).2.val| ≤ x := by rw [abs_mul, abs_of_nonneg hx0]; nlinarith
  have a2 : |(y : ℚ) * (lut m).1.val| ≤ y := by rw [abs_mul, abs_of_nonneg hy0]; nlinarith
  have hr : |r| < 2 ^ 20 := by
    rw [abs_le] at a1 a2 e
    rw [abs_lt]
    constructor <;> linarith
  rw [toI32_eq hr]
  have t := trunc_close r
  rw [abs_lt] at t ⊢
  rw [abs_le] at e
  constructor <;> linarith

/-- C131: no vote is lost in single precision.  If the table entries are within `2^-20` of the unit
circle, the votes cast at any angle add up to the number of foreground pixels. -/
theorem C131_all_votes (lut : Nat → F32 ℚ × F32 ℚ) (m : Nat) (hl : TableEntry (lut m))
    (hu : (lut m).1.val ^ 2 + (lut m).2.val ^ 2 ≤ 1 + 1 / 2 ^ 20) (im : Image Nat)
    (hs : im.w * im.w + im.h * im.h < 2 ^ 32) :
    let R := Nat.sqrt (im.w * im.w + im.h * im.h)
    ∑ d ∈ range (2 * R + 1), votes toI32 lut im m ((d : Int) - R) =
      ((allPx im.w im.h).filter fun p => 0 < im.px p.1 p.2).card := by
  intro R
  refine sum_votes toI32 lut im m R ?_
  rintro ⟨x, y⟩ hp
  rw [mem_allPx] at hp
  obtain ⟨hw, hh⟩ := size_lt hs
  obtain ⟨px, py⟩ := hp
  dsimp only at px py
  have e := dist32_error lut m x y hl (by omega) (by omega)
  rw [dist32_eq]
  generalize rnd32 (rnd32 (rnd32 (x : ℚ) * (lut m).2.val) + rnd32 (rnd32 (y : ℚ) * (lut m).1.val)) = r at *
  obtain ⟨r1, r2, b1, b2⟩ := hl
  generalize (lut m).1.val = s at *
  generalize (lut m).2.val = c at *
  have hx0 : (0 : ℚ) ≤ x := by positivity
  have hy0 : (0 : ℚ) ≤ y := by positivity
  have hxl : (x : ℚ) < 65536 := by exact_mod_cast (by omega : x < 65536)
  have hyl : (y : ℚ) < 65536 := by exact_mod_cast (by omega : y < 65536)
  have a1 : |(x : ℚ) * c| ≤ x := by rw [abs_mul, abs_of_nonneg hx0]; nlinarith
  have a2 : |(y : ℚ) * s| ≤ y := by rw [abs_mul, abs_of_nonneg hy0]; nlinarith
  obtain ⟨E, hE⟩ : ∃ E, E = (x : ℚ) * c + y * s := ⟨_, rfl⟩
  have hE1 : |E| ≤ x + y := by
    rw [hE]
    rw [abs_le] at a1 a2 ⊢
    constructor <;> linarith
  have hE2 : E ^ 2 ≤ (x ^ 2 + y ^ 2) * (1 + 1 / 2 ^ 20) := by
    have h1 : E ^ 2 + ((x : ℚ) * s - y * c) ^ 2 = (x ^ 2 + y ^ 2) * (s ^ 2 + c ^ 2) := by rw [hE]; ring
    have h2 : 0 ≤ ((x : ℚ) * s - y * c) ^ 2 := by positivity
    have h3 : ((x : ℚ) ^ 2 + y ^ 2) * (s ^ 2 + c ^ 2) ≤ (x ^ 2 + y ^ 2) * (1 + 1 / 2 ^ 20) :=
      mul_le_mul_of_nonneg_left hu (by positivity)
    linarith
  rw [← hE] at e
  have hr : |r| ≤ |E| + (x + y) / 2 ^ 22 := by
    have := abs_sub_abs_le_abs_sub r E
    linarith
  have hr20 : |r| < 2 ^ 20 := by
    have : |E| + ((x : ℚ) + y) / 2 ^ 22 < 2 ^ 20 := by linarith
    linarith
  rw [toI32_eq hr20]
  have ht := trunc_le r
  obtain ⟨T, hT⟩ : ∃ T, T = trunc r := ⟨_, rfl⟩
  rw [← hT] at ht ⊢
  by_contra hc
  have hc' : R + 1 ≤ T.natAbs := by omega
  have q1 : im.w * im.w + im.h * im.h < (R + 1) * (R + 1) := Nat.sqrt_lt.1 (Nat.lt_succ_self R)
  have q2 := Nat.mul_le_mul hc' hc'
  have q3 : (x + 1) * (x + 1) + (y + 1) * (y + 1) ≤ im.w * im.w + im.h * im.h :=
    Nat.add_le_add (Nat.mul_le_mul px px) (Nat.mul_le_mul py py)
  have q4 : (x + 1) * (x + 1) + (y + 1) * (y + 1) ≤ T.natAbs * T.natAbs := by omega
  have q5 : ((x : ℚ) + 1) * (x + 1) + (y + 1) * (y + 1) ≤ |(T : ℚ)| * |(T : ℚ)| := by
    have : |(T : ℚ)| = (T.natAbs : ℚ) := by
      rw [Nat.cast_natAbs, Int.cast_abs]
    rw [this]
    exact_mod_cast q4
  have ha0 := abs_nonneg E
  have q6 : |(T : ℚ)| ≤ |E| + (x + y) / 2 ^ 22 := le_trans ht hr
  have q7 : |(T : ℚ)| * |(T : ℚ)| ≤ (|E| + (x + y) / 2 ^ 22) * (|E| + (x + y) / 2 ^ 22) :=
    mul_self_le_mul_self (abs_nonneg _) q6
  have q8 : (|E| + ((x : ℚ) + y) / 2 ^ 22) * (|E| + (x + y) / 2 ^ 22) ≤ E ^ 2 + (x + y) := by
    have : |E| * |E| = E ^ 2 := by rw [abs_mul_abs_self, pow_two]
    have g1 : |E| * (x + y) ≤ (x + y) * (x + y) := mul_le_mul_of_nonneg_right hE1 (by positivity)
    have g2 : ((x : ℚ) + y) * (x + y) ≤ 2 ^ 17 * (x + y) := mul_le_mul_of_nonneg_right (by linarith) (by positivity)
    have g3 : (|E| + ((x : ℚ) + y) / 2 ^ 22) * (|E| + (x + y) / 2 ^ 22) =
        |E| * |E| + |E| * (x + y) / 2 ^ 21 + (x + y) * (x + y) / 2 ^ 44 := by ring
    rw [g3, this]
    linarith
  have q9 : (x : ℚ) ^ 2 + y ^ 2 ≤ 65536 * (x + y) := by nlinarith
  linarith

/-- The diagonal of the image as computed (src/hough.rs:43): a square root in `f64`, truncated. -/
noncomputable def diagonal64 (w h : Nat) : Option Nat :=
  if w * w + h * h < 2 ^ 32 then some ⌊rnd64 √((w * w + h * h : Nat) : ℝ)⌋₊ else none

/-- C131: the diagonal in `f64` is the integer square root used in the model. -/
theorem C131_diagonal (w h : Nat) : diagonal64 w h = diagonal w h := by
  unfold diagonal64 diagonal
  split_ifs with hs
  · generalize w * w + h * h = n at *
    congr 1
    obtain ⟨k, hk⟩ : ∃ k, k = Nat.sqrt n := ⟨_, rfl⟩
    rw [← hk]
    have h1 : k * k ≤ n := by rw [hk]; exact Nat.sqrt_le n
    have h2 : n < (k + 1) * (k + 1) := by rw [hk]; exact Nat.sqrt_lt.1 (Nat.lt_succ_self _)
    have hk16 : k < 2 ^ 16 := by
      by_contra hc; rw [not_lt] at hc; have := Nat.mul_le_mul hc hc; omega
    have r1 : Rep (K := ℝ) 53 (-1074) (k : ℝ) :=
      ⟨k, 0, by rw [abs_of_nonneg (by omega)]; omega, by norm_num, by simp⟩
    have r2 : Rep (K := ℝ) 53 (-1074) ((k : ℝ) + 1 - 1 / 2 ^ 20) :=
      ⟨(k + 1) * 2 ^ 20 - 1, -20, by rw [abs_le]; constructor <;> (push_cast; omega), by norm_num, by
        push_cast; norm_num; ring⟩
    have s1 : (k : ℝ) ≤ √(n : ℝ) := by
      rw [Real.le_sqrt (by positivity) (by positivity)]
      rw [pow_two]
      exact_mod_cast h1
    have s2 : √(n : ℝ) ≤ (k : ℝ) + 1 - 1 / 2 ^ 20 := by
      have hk1 : (k : ℝ) + 1 ≤ 65536 := by exact_mod_cast (by omega : k + 1 ≤ 65536)
      have hk0 : (0 : ℝ) ≤ k := by positivity
      rw [Real.sqrt_le_left (by norm_num; linarith)]
      have : (n : ℝ) + 1 ≤ ((k : ℝ) + 1) * (k + 1) := by exact_mod_cast h2
      nlinarith
    have t1 : (k : ℝ) ≤ rnd64 √(n : ℝ) := le_rnd (by norm_num) r1 s1
    have t2 : rnd64 √(n : ℝ) ≤ (k : ℝ) + 1 - 1 / 2 ^ 20 := rnd_le (by norm_num) r2 s2
    rw [Nat.floor_eq_iff (le_trans (by positivity) t1)]
    exact ⟨t1, lt_of_le_of_lt t2 (by norm_num)⟩
  · rfl

end Verif.Float
