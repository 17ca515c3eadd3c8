import Verif.Float.Basic
import Verif.PixelOps.Props
/-
Property C117: `weighted_sum` and `interpolate` in `f32`.
-/
namespace Verif.Float
open Verif.Definitions Verif.PixelOps

variable {ι : Type _}

/-- `weighted_channel_sum` in `f32`, pixelops.rs:57-62, on 8-bit channels. -/
def weightedChannelSum32 (left right : Nat) (lw rw : ℚ) : Nat :=
  (clampQ 0 255 (rnd32 (rnd32 ((left : ℚ) * lw) + rnd32 ((right : ℚ) * rw)))).toNat

/-- `weighted_sum` in `f32`, pixelops.rs:23-30. -/
def weightedSum32 (left right : ι → Nat) (lw rw : ℚ) : ι → Nat :=
  fun c => weightedChannelSum32 (left c) (right c) lw rw

/-- `interpolate` in `f32`, pixelops.rs:49-54. -/
def interpolate32 (left right : ι → Nat) (lw : ℚ) : ι → Nat :=
  weightedSum32 left right lw (rnd32 (1 - lw))

theorem rep_int32 {n : Int} (h : |n| ≤ 2 ^ 24) : Rep (K := ℚ) 24 (-149) (n : ℚ) :=
  ⟨n, 0, h, by norm_num, by simp⟩

theorem rnd32_int {n : Int} (h : |n| ≤ 2 ^ 24) : rnd32 (n : ℚ) = n :=
  rnd_int (by norm_num) (by norm_num) h

/-- The value before truncation is within `2 ^ -14` of the exact interpolation. -/
theorem interpolate_error {l r : Nat} (hl : l ≤ 255) (hr : r ≤ 255) {w : ℚ} (h0 : 0 ≤ w) (h1 : w ≤ 1) :
    |rnd32 (rnd32 ((l : ℚ) * w) + rnd32 ((r : ℚ) * rnd32 (1 - w))) - (l * w + r * (1 - w))| ≤
      1 / 16384 := by
  have hl' : (l : ℚ) ≤ 255 := by exact_mod_cast hl
  have hr' : (r : ℚ) ≤ 255 := by exact_mod_cast hr
  have hl0 : (0 : ℚ) ≤ l := by positivity
  have hr0 : (0 : ℚ) ≤ r := by positivity
  have w1 : rnd32 (1 - w) ≤ 1 := rnd_le (by norm_num) (by simpa using rep_int32 (n := 1) (by norm_num))
    (by linarith)
  have w0 : 0 ≤ rnd32 (1 - w) := rnd_nonneg (by linarith)
  have e1 := rnd_error_lt (K := ℚ) (p := 24) (emin := -149) (x := 1 - w) (k := 1) (by norm_num)
    (by rw [abs_of_nonneg (by linarith)]; norm_num; linarith)
  have p1 : (l : ℚ) * w ≤ 255 := by nlinarith
  have p2 : (r : ℚ) * rnd32 (1 - w) ≤ 255 := by nlinarith
  have n1 : 0 ≤ (l : ℚ) * w := mul_nonneg hl0 h0
  have n2 : 0 ≤ (r : ℚ) * rnd32 (1 - w) := mul_nonneg hr0 w0
  have e2 := rnd_error_lt (K := ℚ) (p := 24) (emin := -149) (x := (l : ℚ) * w) (k := 8) (by norm_num)
    (by rw [abs_of_nonneg n1]; norm_num; linarith)
  have e3 := rnd_error_lt (K := ℚ) (p := 24) (emin := -149) (x := (r : ℚ) * rnd32 (1 - w)) (k := 8)
    (by norm_num) (by rw [abs_of_nonneg n2]; norm_num; linarith)
  have q1 := rnd_nonneg (p := 24) (emin := -149) n1
  have q2 := rnd_nonneg (p := 24) (emin := -149) n2
  norm_num at e1 e2 e3
  rw [abs_le] at e1 e2 e3
  set u := rnd32 (1 - w)
  set a := rnd32 ((l : ℚ) * w)
  set b := rnd32 ((r : ℚ) * u)
  have e4 := rnd_error_lt (K := ℚ) (p := 24) (emin := -149) (x := a + b) (k := 9)
    (by norm_num) (by rw [abs_of_nonneg (by linarith)]; norm_num; linarith)
  norm_num at e4
  rw [abs_le] at e4 ⊢
  have f1 : (r : ℚ) * (u - (1 - w)) ≤ 255 * (1 / 16777216) := by nlinarith
  have f2 : -(255 * (1 / 16777216)) ≤ (r : ℚ) * (u - (1 - w)) := by nlinarith
  constructor <;> linarith

theorem floor_cast_eq {v : ℚ} (h0 : 0 ≤ v) (h1 : v < 256) :
    (((clampQ 0 255 v).toNat : Nat) : Int) = ⌊v⌋ := by
  have hf0 : 0 ≤ ⌊v⌋ := Int.floor_nonneg.2 h0
  have hf1 : ⌊v⌋ < 256 := by rw [Int.floor_lt]; exact_mod_cast h1
  rw [clampQ_eq 0 255 v (by norm_num)]
  unfold truncQ
  rw [if_pos h0]
  omega

/-- The result as a floor. -/
theorem interpolate32_floor (left right : ι → Nat) (w : ℚ) (c : ι) (hl : left c ≤ 255)
    (hr : right c ≤ 255) (h0 : 0 ≤ w) (h1 : w ≤ 1) :
    ∃ v : ℚ, |v - ((left c : ℚ) * w + right c * (1 - w))| ≤ 1 / 16384 ∧ 0 ≤ v ∧
      (interpolate32 left right w c : Int) = ⌊v⌋ := by
  refine ⟨_, interpolate_error hl hr h0 h1, ?_, ?_⟩
  · refine rnd_nonneg (add_nonneg (rnd_nonneg ?_) (rnd_nonneg ?_))
    · exact mul_nonneg (by positivity) h0
    · exact mul_nonneg (by positivity) (rnd_nonneg (by linarith))
  · have he := interpolate_error hl hr h0 h1
    have hl' : (left c : ℚ) ≤ 255 := by exact_mod_cast hl
    have hr' : (right c : ℚ) ≤ 255 := by exact_mod_cast hr
    rw [abs_le] at he
    refine floor_cast_eq ?_ ?_
    · refine rnd_nonneg (add_nonneg (rnd_nonneg ?_) (rnd_nonneg ?_))
      · exact mul_nonneg (by positivity) h0
      · exact mul_nonneg (by positivity) (rnd_nonneg (by linarith))
    · have : (left c : ℚ) * w + right c * (1 - w) ≤ 255 := by nlinarith
      linarith [he.2]

/-- **C117.** In `f32`, interpolating 8-bit pixels with a weight between 0 and 1 never exceeds the larger
channel and never falls more than one below the smaller one; it differs from the exact result by at most
one, and not at all when the exact weighted sum is further than `2 ^ -14` from an integer. -/
theorem C117_interpolate (left right : ι → Nat) (w : ℚ) (c : ι) (hl : left c ≤ 255)
    (hr : right c ≤ 255) (h0 : 0 ≤ w) (h1 : w ≤ 1) :
    min (left c) (right c) ≤ interpolate32 left right w c + 1 ∧
    interpolate32 left right w c ≤ max (left c) (right c) ∧
    |(interpolate32 left right w c : ℚ) - ((left c : ℚ) * w + right c * (1 - w))| ≤ 1 + 1 / 16384 ∧
    ((∀ n : Int, 1 / 16384 < |(left c : ℚ) * w + right c * (1 - w) - n|) →
      (interpolate32 left right w c : ℚ) ≤ (left c : ℚ) * w + right c * (1 - w) ∧
      (left c : ℚ) * w + right c * (1 - w) < interpolate32 left right w c + 1) := by
  obtain ⟨v, hv, hv0, e⟩ := interpolate32_floor left right w c hl hr h0 h1
  have l1 : ((min (left c) (right c) : Nat) : ℚ) ≤ left c := by exact_mod_cast min_le_left _ _
  have l2 : ((min (left c) (right c) : Nat) : ℚ) ≤ right c := by exact_mod_cast min_le_right _ _
  have l3 : (left c : ℚ) ≤ (max (left c) (right c) : Nat) := by exact_mod_cast le_max_left _ _
  have l4 : (right c : ℚ) ≤ (max (left c) (right c) : Nat) := by exact_mod_cast le_max_right _ _
  have a : ((min (left c) (right c) : Nat) : ℚ) ≤ (left c : ℚ) * w + (right c : ℚ) * (1 - w) := by
    nlinarith
  have b : (left c : ℚ) * w + (right c : ℚ) * (1 - w) ≤ ((max (left c) (right c) : Nat) : ℚ) := by
    nlinarith
  set E := (left c : ℚ) * w + (right c : ℚ) * (1 - w)
  have eq : (interpolate32 left right w c : ℚ) = ((⌊v⌋ : Int) : ℚ) := by exact_mod_cast congrArg (fun t : Int => (t : ℚ)) e
  have f1 := Int.floor_le v
  have f2 := Int.lt_floor_add_one v
  rw [← eq] at f1 f2
  have hv' := abs_le.1 hv
  refine ⟨?_, ?_, ?_, ?_⟩
  · have : ((min (left c) (right c) : Nat) : ℚ) < ((interpolate32 left right w c + 2 : Nat) : ℚ) := by
      push_cast at *
      linarith
    have : min (left c) (right c) < interpolate32 left right w c + 2 := by exact_mod_cast this
    omega
  · have : ((interpolate32 left right w c : Nat) : ℚ) < ((max (left c) (right c) + 1 : Nat) : ℚ) := by
      push_cast at *
      linarith
    have : interpolate32 left right w c < max (left c) (right c) + 1 := by exact_mod_cast this
    omega
  · rw [abs_le]
    constructor <;> linarith
  · intro hn
    have n1 := hn (interpolate32 left right w c)
    have n2 := hn (interpolate32 left right w c + 1)
    push_cast at n1 n2
    constructor
    · by_contra hc
      push Not at hc
      rw [abs_of_neg (by linarith)] at n1
      linarith
    · by_contra hc
      push Not at hc
      rw [abs_of_nonneg (by linarith)] at n2
      linarith

/-- **C117.** Weight 1 gives the left pixel and weight 0 the right one, exactly. -/
theorem C117_ends (left right : ι → Nat) (c : ι) (hl : left c ≤ 255) (hr : right c ≤ 255) :
    interpolate32 left right 1 c = left c ∧ interpolate32 left right 0 c = right c := by
  have i : ∀ n : Nat, n ≤ 255 → rnd32 (n : ℚ) = n := by
    intro n hn
    have := rnd32_int (n := n) (by rw [abs_of_nonneg (by positivity)]; norm_num; omega)
    exact_mod_cast this
  have i1 : rnd32 (1 : ℚ) = 1 := by simpa using i 1 (by norm_num)
  have hcl : ∀ n : Nat, n ≤ 255 → (clampQ 0 255 (n : ℚ)).toNat = n := by
    intro n hn
    have := (C75_float 0 255 (n : ℚ) (by omega)).1 n (by norm_num) (by omega) (by omega)
    rw [this]; rfl
  unfold interpolate32 weightedSum32 weightedChannelSum32
  constructor
  · rw [mul_one, sub_self, rnd32, rnd_zero, mul_zero, rnd_zero, add_zero]
    rw [rnd_rnd (by norm_num), show rnd 24 (-149) ((left c : Nat) : ℚ) = _ from i _ hl, hcl _ hl]
  · rw [mul_zero, sub_zero, i1, mul_one, rnd32, rnd_zero, zero_add]
    rw [rnd_rnd (by norm_num), show rnd 24 (-149) ((right c : Nat) : ℚ) = _ from i _ hr, hcl _ hr]

/-- **C117.** Larger channels never lower a weighted sum with non-negative weights. -/
theorem C117_monotone (left right left' right' : ι → Nat) (lw rw : ℚ) (c : ι) (h0 : 0 ≤ lw)
    (h1 : 0 ≤ rw) (hl : left c ≤ left' c) (hr : right c ≤ right' c) :
    weightedSum32 left right lw rw c ≤ weightedSum32 left' right' lw rw c := by
  refine Int.toNat_le_toNat ((C75_float_mono 0 255 _ _ (by omega)).1 ?_)
  refine rnd_mono (by norm_num) (add_le_add (rnd_mono (by norm_num) ?_) (rnd_mono (by norm_num) ?_))
  · exact mul_le_mul_of_nonneg_right (by exact_mod_cast hl) h0
  · exact mul_le_mul_of_nonneg_right (by exact_mod_cast hr) h1

/-- **C117**, the property that fails: interpolating between two equal pixels can darken them.  The weight
is the `f32` number nearest to 0.008. -/
theorem C117_equal_negation :
    rnd32 (8 / 1000) = (8589935 / 1073741824 : ℚ) ∧
    interpolate32 (fun _ : Unit => 255) (fun _ => 255) (8589935 / 1073741824) () = 254 := by
  decide +kernel

/-- The documentation examples, with the `f32` numbers nearest to 0.7 and 0.3. -/
example : (List.ofFn (weightedSum32 ![10, 20, 30] ![100, 80, 60] (rnd32 (7 / 10)) (rnd32 (3 / 10)))) =
    [37, 38, 39] := by decide +kernel
example : (List.ofFn (interpolate32 ![10, 20, 30] ![100, 80, 60] (rnd32 (7 / 10)))) = [37, 38, 39] := by
  decide +kernel

end Verif.Float
