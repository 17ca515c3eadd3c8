import Verif.Lbp.Model
import Mathlib.Tactic.IntervalCases
import Mathlib.Data.List.Nodup
/-
Property theorem C62: local binary patterns.  The quantifier over bytes ranges over all 256 values,
so the table theorems are proved by checking every byte.
-/
namespace Verif.Lbp

/-! ### Specification -/

/-- `c` is `b` rotated by some number of places. -/
def IsRotation (b c : BitVec 8) : Prop :=
  ∃ k, ∀ i, i < 8 → c.getLsbD i = b.getLsbD ((i + k) % 8)

/-- `m` is the least rotation of `b`. -/
def IsLeastRotation (b m : BitVec 8) : Prop := IsRotation b m ∧ ∀ c, IsRotation b c → m ≤ c

/-- Number of cyclically adjacent positions with different bits. -/
def transitions (b : BitVec 8) : Nat :=
  ((List.range 8).filter fun i => b.getLsbD i != b.getLsbD ((i + 1) % 8)).length

/-- The eight neighbours in the documented order, as offsets. -/
def offset : Nat → Int × Int
  | 0 => (0, -1) | 1 => (1, -1) | 2 => (1, 0) | 3 => (1, 1)
  | 4 => (0, 1) | 5 => (-1, 1) | 6 => (-1, 0) | _ => (-1, -1)

/-! ### Rotations -/

theorem ext8 {a b : BitVec 8} (h : ∀ i, i < 8 → a.getLsbD i = b.getLsbD i) : a = b :=
  BitVec.eq_of_getLsbD_eq fun i hi => h i hi

/-- Every statement about all bytes can be checked on `0, …, 255`. -/
theorem all_bytes {P : BitVec 8 → Prop} (h : ∀ n : Fin 256, P (BitVec.ofFin n)) (b : BitVec 8) : P b :=
  h b.toFin

theorem rotateRight_bit : ∀ (b : BitVec 8), ∀ k, k < 8 → ∀ i, i < 8 →
    (b.rotateRight k).getLsbD i = b.getLsbD ((i + k) % 8) := by
  refine all_bytes ?_
  decide +kernel

theorem isRotation_iff (b c : BitVec 8) : IsRotation b c ↔ ∃ k, k < 8 ∧ c = b.rotateRight k := by
  constructor
  · rintro ⟨k, h⟩
    refine ⟨k % 8, Nat.mod_lt _ (by decide), ext8 fun i hi => ?_⟩
    rw [h i hi, rotateRight_bit b _ (Nat.mod_lt _ (by decide)) i hi, Nat.add_mod_mod]
  · rintro ⟨k, hk, rfl⟩
    exact ⟨k, rotateRight_bit b k hk⟩

theorem minShift_bytes : ∀ b : BitVec 8, (∃ k, k < 8 ∧ minShift b = b.rotateRight k) ∧
    ∀ k, k < 8 → minShift b ≤ b.rotateRight k := by
  refine all_bytes ?_
  decide +kernel

/-! ### C62 -/

/-- **C62.** `min_shift` returns the least rotation of every byte. -/
theorem C62_min_shift (b : BitVec 8) : IsLeastRotation b (minShift b) := by
  obtain ⟨h1, h2⟩ := minShift_bytes b
  refine ⟨(isRotation_iff _ _).2 h1, fun c hc => ?_⟩
  obtain ⟨k, hk, rfl⟩ := (isRotation_iff _ _).1 hc
  exact h2 k hk

/-- **C62.** `min_shift` does not change when the byte is rotated. -/
theorem C62_rotation_invariant (b c : BitVec 8) (h : IsRotation b c) : minShift c = minShift b := by
  obtain ⟨⟨k, hk⟩, hmin⟩ := C62_min_shift b
  obtain ⟨⟨l, hl⟩, lmin⟩ := C62_min_shift c
  obtain ⟨m, hm⟩ := h
  refine BitVec.le_antisymm (lmin _ ⟨k + (8 - m % 8), fun i hi => ?_⟩)
    (hmin _ ⟨l + m, fun i hi => ?_⟩)
  · rw [hk i hi, hm _ (Nat.mod_lt _ (by decide))]
    congr 1; omega
  · rw [hl i hi, hm _ (Nat.mod_lt _ (by decide))]
    congr 1; omega

/-- **C62.** The lookup table for least rotations is right for every byte. -/
theorem C62_min_table (b : BitVec 8) :
    ∃ m : BitVec 8, minShiftTable[b.toNat]? = some m.toNat ∧ IsLeastRotation b m := by
  refine ⟨minShift b, ?_, C62_min_shift b⟩
  revert b
  refine all_bytes ?_
  decide +kernel

/-- **C62.** `count_transitions` counts the cyclically adjacent pairs of different bits. -/
theorem C62_transitions : ∀ b : BitVec 8, countTransitions b = transitions b := by
  refine all_bytes ?_
  decide +kernel

/-- **C62.** The table of uniform representatives holds the least rotation of every byte with at
most two transitions and 10101010 for every other byte, which itself has more than two. -/
theorem C62_uniform_table (b : BitVec 8) :
    (transitions b ≤ 2 → ∃ m : BitVec 8, uniformRepresentative2[b.toNat]? = some m.toNat ∧
      IsLeastRotation b m) ∧
    (2 < transitions b → uniformRepresentative2[b.toNat]? = some 0b10101010) ∧
    2 < transitions 0b10101010#8 := by
  have h1 : ∀ b : BitVec 8, (transitions b ≤ 2 →
      uniformRepresentative2[b.toNat]? = some (minShift b).toNat) ∧
      (2 < transitions b → uniformRepresentative2[b.toNat]? = some 0b10101010) := by
    refine all_bytes ?_
    decide +kernel
  exact ⟨fun h => ⟨minShift b, (h1 b).1 h, C62_min_shift b⟩, (h1 b).2, by decide⟩

/-- **C62**, bit order as implemented: for an interior pixel, bit `n` of the pattern, counted from
the least significant, tells whether the pixel is strictly brighter than neighbour `n`.  Missing:
the documentation counts from the most significant bit, which is wrong (`C62_negation`). -/
theorem C62_pattern_partial (im : Image Nat) (x y : Nat) (hx0 : 0 < x) (hx : x + 1 < im.w) (hy0 : 0 < y)
    (hy : y + 1 < im.h) :
    ∃ p : BitVec 8, localBinaryPattern im x y = some (some p) ∧
      ∀ n, n < 8 → (p.getLsbD n = true ↔
        im.px (x + (offset n).1).toNat (y + (offset n).2).toNat < im.px x y) := by
  unfold localBinaryPattern
  rw [if_neg (by omega), if_neg (by omega)]
  rw [Image.get_of_inB (by omega) (by omega), Option.bind_some,
    Image.get_of_inB (by omega) (by omega), Option.bind_some,
    Image.get_of_inB (by omega) (by omega), Option.bind_some,
    Image.get_of_inB (by omega) (by omega), Option.bind_some,
    Image.get_of_inB (by omega) (by omega), Option.bind_some,
    Image.get_of_inB (by omega) (by omega), Option.bind_some,
    Image.get_of_inB (by omega) (by omega), Option.bind_some,
    Image.get_of_inB (by omega) (by omega), Option.bind_some,
    Image.get_of_inB (by omega) (by omega), Option.bind_some]
  have hn : ∀ n, n < 8 → [im.px x (y - 1), im.px (x + 1) (y - 1), im.px (x + 1) y,
      im.px (x + 1) (y + 1), im.px x (y + 1), im.px (x - 1) (y + 1), im.px (x - 1) y,
      im.px (x - 1) (y - 1)][n]? =
      some (im.px (x + (offset n).1).toNat (y + (offset n).2).toNat) := by
    have ex : ((x : Int) + 0).toNat = x := by omega
    have ex1 : ((x : Int) + 1).toNat = x + 1 := by omega
    have ex2 : ((x : Int) + -1).toNat = x - 1 := by omega
    have ey : ((y : Int) + 0).toNat = y := by omega
    have ey1 : ((y : Int) + 1).toNat = y + 1 := by omega
    have ey2 : ((y : Int) + -1).toNat = y - 1 := by omega
    intro n hn
    interval_cases n <;> simp only [offset, ex, ex1, ex2, ey, ey1, ey2] <;> rfl
  generalize [im.px x (y - 1), im.px (x + 1) (y - 1), im.px (x + 1) y,
      im.px (x + 1) (y + 1), im.px x (y + 1), im.px (x - 1) (y + 1), im.px (x - 1) y,
      im.px (x - 1) (y - 1)] = l at hn ⊢
  obtain ⟨p, h1, h2, -⟩ := forRange_spec (lo := 0) (hi := 8) (s := (0 : BitVec 8))
    (f := fun i pattern => (l[i]?).bind fun n =>
      some (pattern ||| ((1 &&& (if n < im.px x y then 1 else 0 : BitVec 8)) <<< i)))
    (fun i p => (∀ n, n < i → (p.getLsbD n = true ↔
        im.px (x + (offset n).1).toNat (y + (offset n).2).toNat < im.px x y)) ∧
      ∀ n, i ≤ n → p.getLsbD n = false) (by decide)
    ⟨fun n hn => by omega, fun n _ => by simp⟩
    (by
      rintro i p _ hi ⟨h1, h2⟩
      rw [hn i hi, Option.bind_some]
      have bit : ∀ (c : Prop) [Decidable c] (n : Nat),
          ((1 &&& (if c then 1 else 0 : BitVec 8)) <<< i).getLsbD n = true ↔ n = i ∧ c := by
        intro c _ n
        by_cases hc : c
        · rw [if_pos hc]
          rw [show (1 &&& 1 : BitVec 8) = 1 from rfl]
          simp only [BitVec.getLsbD_shiftLeft, hc, and_true]
          by_cases hni : n = i
          · subst hni; simp [hi]
          · simp [hni, BitVec.getLsbD_one]; omega
        · rw [if_neg hc]
          simp [hc]
      refine ⟨_, rfl, fun n hn' => ?_, fun n hn' => ?_⟩
      · rw [BitVec.getLsbD_or, Bool.or_eq_true, bit]
        rcases Nat.lt_or_ge n i with h | h
        · rw [h1 n h]; constructor
          · rintro (h | h)
            · exact h
            · omega
          · exact Or.inl
        · obtain rfl : n = i := by omega
          rw [h2 n (Nat.le_refl _)]
          simp
      · rw [BitVec.getLsbD_or, h2 n (by omega), Bool.false_or]
        exact Bool.eq_false_iff.2 fun h => by have := ((bit _ n).1 h).1; omega)
  exact ⟨p, by rw [h1]; rfl, h2⟩

/-- **C62.** Pixels on the border (and outside) have no pattern, whatever the size. -/
theorem C62_border (im : Image Nat) (x y : Nat)
    (h : x = 0 ∨ im.w ≤ x + 1 ∨ y = 0 ∨ im.h ≤ y + 1) : localBinaryPattern im x y = some none := by
  unfold localBinaryPattern
  by_cases h0 : im.w = 0 ∨ im.h = 0
  · rw [if_pos h0]
  · rw [if_neg h0, if_pos (by omega)]

/-- **C62 is false with the documented bit order.** In the documented example the centre 10 is
brighter than neighbour 4 (value 0) but the fourth bit from the most significant one (counting
from zero) is not set. -/
theorem C62_negation : ∃ (im : Image Nat) (p : BitVec 8), im.w = 3 ∧ im.h = 3 ∧
    localBinaryPattern im 1 1 = some (some p) ∧ im.px 1 2 < im.px 1 1 ∧
    p.getMsbD 4 = false := by
  refine ⟨⟨3, 3, fun x y => [[6, 11, 14], [9, 10, 10], [19, 0, 22]].getD y [] |>.getD x 0⟩,
    0b11010000#8, rfl, rfl, by decide +kernel, by decide, by decide⟩

example : minShift 0b10110100#8 = 0b00101101#8 ∧ countTransitions 0b10011001#8 = 4 ∧
    IsRotation 0b10110100#8 0b00101101#8 :=
  ⟨by decide, by decide, 2, by decide⟩

end Verif.Lbp
