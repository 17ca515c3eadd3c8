import Verif.PixelOps.Model
import Mathlib.Data.Fin.VecNotation
/-
Property theorem C102: weighted sums and interpolation of pixels.
-/
namespace Verif.PixelOps
open Verif.Definitions

variable {ι : Type _}

/-- **C102.** Each channel of a weighted sum is the weighted sum of the channels, rounded down, when
this is in the range of the channel type, and the nearest end of the range otherwise. -/
theorem C102_weighted_sum (mx : Nat) (left right : ι → Nat) (lw rw : ℚ) (c : ι) :
    let v := (left c : ℚ) * lw + (right c : ℚ) * rw
    weightedSum mx left right lw rw c ≤ mx ∧
    (0 ≤ v → v ≤ mx → (weightedSum mx left right lw rw c : ℚ) ≤ v ∧
      v < weightedSum mx left right lw rw c + 1) ∧
    (v < 0 → weightedSum mx left right lw rw c = 0) ∧
    ((mx : ℚ) < v → weightedSum mx left right lw rw c = mx) := by
  intro v
  obtain ⟨-, h1, h2, h3⟩ := C75_float 0 mx v (by omega)
  obtain ⟨-, -, h4, h5⟩ := C75_float_mono 0 mx v v (by omega)
  have e : weightedSum mx left right lw rw c = (clampQ 0 mx v).toNat := rfl
  rw [e]
  refine ⟨by omega, fun g1 g2 => ?_, fun g => ?_, fun g => ?_⟩
  · rw [h1 (by exact_mod_cast g1) (by exact_mod_cast g2)]
    obtain ⟨k1, k2, k3⟩ := (C75_trunc v).1 g1
    have k0 : 0 ≤ truncQ v := by exact_mod_cast k1
    have e : (((truncQ v).toNat : Nat) : ℚ) = (truncQ v : ℚ) := by
      have : (((truncQ v).toNat : Nat) : Int) = truncQ v := Int.toNat_of_nonneg k0
      exact_mod_cast this
    rw [e]
    exact ⟨k2, k3⟩
  · rw [h2 (by exact_mod_cast g)]; rfl
  · rw [h3 (by exact_mod_cast g)]; rfl

/-- **C102.** Interpolating with a weight between 0 and 1 stays between the two channels, weight 1 gives the left
pixel, weight 0 the right one, and swapping the pixels complements the weight. -/
theorem C102_interpolate (mx : Nat) (left right : ι → Nat) (w : ℚ) (c : ι) (hl : left c ≤ mx)
    (hr : right c ≤ mx) :
    (0 ≤ w → w ≤ 1 → min (left c) (right c) ≤ interpolate mx left right w c ∧
      interpolate mx left right w c ≤ max (left c) (right c)) ∧
    interpolate mx left right 1 c = left c ∧ interpolate mx left right 0 c = right c ∧
    interpolate mx left right w c = interpolate mx right left (1 - w) c := by
  have hcl : ∀ n : Nat, n ≤ mx → (clampQ 0 mx (n : ℚ)).toNat = n := by
    intro n hn
    have := (C75_float 0 mx (n : ℚ) (by omega)).1 n (by norm_num) (by omega) (by omega)
    rw [this]; rfl
  refine ⟨fun h0 h1 => ?_, ?_, ?_, ?_⟩
  · have a : ((min (left c) (right c) : Nat) : ℚ) ≤ (left c : ℚ) * w + (right c : ℚ) * (1 - w) := by
      have l1 : ((min (left c) (right c) : Nat) : ℚ) ≤ left c := by exact_mod_cast min_le_left _ _
      have l2 : ((min (left c) (right c) : Nat) : ℚ) ≤ right c := by exact_mod_cast min_le_right _ _
      nlinarith
    have b : (left c : ℚ) * w + (right c : ℚ) * (1 - w) ≤ ((max (left c) (right c) : Nat) : ℚ) := by
      have l1 : (left c : ℚ) ≤ (max (left c) (right c) : Nat) := by exact_mod_cast le_max_left _ _
      have l2 : (right c : ℚ) ≤ (max (left c) (right c) : Nat) := by exact_mod_cast le_max_right _ _
      nlinarith
    have a' := (C75_float_mono 0 mx _ _ (by omega)).1 a
    have b' := (C75_float_mono 0 mx _ _ (by omega)).1 b
    have ea := hcl (min (left c) (right c)) (by omega)
    have eb := hcl (max (left c) (right c)) (by omega)
    have e : interpolate mx left right w c =
      (clampQ 0 mx ((left c : ℚ) * w + (right c : ℚ) * (1 - w))).toNat := rfl
    rw [e]
    omega
  · unfold interpolate weightedSum weightedChannelSum
    rw [mul_one, sub_self, mul_zero, add_zero, hcl _ hl]
  · unfold interpolate weightedSum weightedChannelSum
    rw [mul_zero, sub_zero, mul_one, zero_add, hcl _ hr]
  · unfold interpolate weightedSum weightedChannelSum
    rw [show (left c : ℚ) * w + (right c : ℚ) * (1 - w) =
      (right c : ℚ) * (1 - w) + (left c : ℚ) * (1 - (1 - w)) by ring]

/-- **C102.** Interpolation is monotone: more weight on the larger channel never lowers the result, and
larger channels never lower it. -/
theorem C102_monotone (mx : Nat) (left right left' right' : ι → Nat) (w w' : ℚ) (c : ι) :
    (right c ≤ left c → w ≤ w' → interpolate mx left right w c ≤ interpolate mx left right w' c) ∧
    (0 ≤ w → w ≤ 1 → left c ≤ left' c → right c ≤ right' c →
      interpolate mx left right w c ≤ interpolate mx left' right' w c) := by
  constructor
  · intro h hw
    refine Int.toNat_le_toNat ((C75_float_mono 0 mx _ _ (by omega)).1 ?_)
    have : (right c : ℚ) ≤ left c := by exact_mod_cast h
    nlinarith
  · intro h0 h1 hl hr
    refine Int.toNat_le_toNat ((C75_float_mono 0 mx _ _ (by omega)).1 ?_)
    have a : (left c : ℚ) ≤ left' c := by exact_mod_cast hl
    have b : (right c : ℚ) ≤ right' c := by exact_mod_cast hr
    nlinarith

-- The documentation examples.
example : (List.ofFn (weightedSum 255 ![10, 20, 30] ![100, 80, 60] (7 / 10) (3 / 10))) =
    [37, 38, 39] := by decide +kernel
example : (List.ofFn (interpolate 255 ![10, 20, 30] ![100, 80, 60] (7 / 10))) = [37, 38, 39] := by
  decide +kernel
example : weightedChannelSum 255 150 150 (9 / 5) (4 / 5) = 255 ∧
    weightedChannelSum 255 10 20 (9 / 10) (1 / 10) = 11 ∧
    weightedChannelSum 255 10 20 (-1) (1 / 10) = 0 := by decide +kernel

end Verif.PixelOps
