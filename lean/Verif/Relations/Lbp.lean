import Verif.Relations.Filters
import Verif.Lbp.Props
/-
C180: local binary patterns under changes of brightness, turns and flips.
-/
namespace Verif.Relations
open Verif.Lbp

/-- **C180.** Patterns only depend on the order of the intensities: a strictly increasing map of
brightness does not change any pattern. -/
theorem C180_brightness {im im' : Image Nat} (hw : im'.w = im.w) (hh : im'.h = im.h)
    (h : ∀ x y a b, x < im.w → y < im.h → a < im.w → b < im.h →
      (im'.px x y < im'.px a b ↔ im.px x y < im.px a b)) (x y : Nat) :
    localBinaryPattern im' x y = localBinaryPattern im x y := by
  by_cases hb : x = 0 ∨ im.w ≤ x + 1 ∨ y = 0 ∨ im.h ≤ y + 1
  · rw [C62_border im x y hb, C62_border im' x y (by omega)]
  obtain ⟨p, e, hp⟩ := C62_pattern_partial im x y (by omega) (by omega) (by omega) (by omega)
  obtain ⟨p', e', hp'⟩ := C62_pattern_partial im' x y (by omega) (by omega) (by omega) (by omega)
  rw [e, e']
  congr 2
  refine ext8 fun n hn => ?_
  rw [Bool.eq_iff_iff, hp n hn, hp' n hn]
  refine h _ _ _ _ ?_ ?_ (by omega) (by omega) <;>
    interval_cases n <;> simp only [offset] <;> omega

/-- Bit of the neighbour that a turn puts at the place of neighbour `n`. -/
def bitFrom (s fx fy : Bool) (n : Nat) : Nat :=
  match s, fx, fy with
  | false, false, false => n
  | false, true, true => (n + 4) % 8
  | true, false, true => (n + 6) % 8
  | true, true, false => (n + 2) % 8
  | false, true, false => (8 - n) % 8
  | false, false, true => (12 - n) % 8
  | true, false, false => (14 - n) % 8
  | true, true, true => (10 - n) % 8

theorem neighbour_turned {s fx fy : Bool} {im im' : Image Nat} (t : Turned s fx fy im im') {x y : Nat}
    (hx0 : 0 < x) (hx : x + 1 < im.w) (hy0 : 0 < y) (hy : y + 1 < im.h) {n : Nat} (hn : n < 8) :
    im'.px ((turn s fx fy im.w im.h x y).1 + (offset n).1 : Int).toNat
      ((turn s fx fy im.w im.h x y).2 + (offset n).2 : Int).toNat =
    im.px (x + (offset (bitFrom s fx fy n)).1).toNat (y + (offset (bitFrom s fx fy n)).2).toNat := by
  have key := t.px (x + (offset (bitFrom s fx fy n)).1).toNat (y + (offset (bitFrom s fx fy n)).2).toNat
    (by cases s <;> cases fx <;> cases fy <;> interval_cases n <;> simp [bitFrom, offset] <;> omega)
    (by cases s <;> cases fx <;> cases fy <;> interval_cases n <;> simp [bitFrom, offset] <;> omega)
  rw [← key]
  congr 1
  · cases s <;> cases fx <;> cases fy <;> interval_cases n <;>
      simp [bitFrom, offset, turn, swapIf, mirrorIf] <;> omega
  · cases s <;> cases fx <;> cases fy <;> interval_cases n <;>
      simp [bitFrom, offset, turn, swapIf, mirrorIf] <;> omega

theorem pattern_turned {s fx fy : Bool} {im im' : Image Nat} (t : Turned s fx fy im im') {x y : Nat}
    (hx0 : 0 < x) (hx : x + 1 < im.w) (hy0 : 0 < y) (hy : y + 1 < im.h) :
    ∃ p p' : BitVec 8, localBinaryPattern im x y = some (some p) ∧
      localBinaryPattern im' (turn s fx fy im.w im.h x y).1 (turn s fx fy im.w im.h x y).2 =
        some (some p') ∧
      ∀ n, n < 8 → p'.getLsbD n = p.getLsbD (bitFrom s fx fy n) := by
  obtain ⟨p, e, hp⟩ := C62_pattern_partial im x y hx0 hx hy0 hy
  have hs := t.size
  have hin : 0 < (turn s fx fy im.w im.h x y).1 ∧ (turn s fx fy im.w im.h x y).1 + 1 < im'.w ∧
      0 < (turn s fx fy im.w im.h x y).2 ∧ (turn s fx fy im.w im.h x y).2 + 1 < im'.h := by
    cases s
    · obtain ⟨h1, h2⟩ := Prod.mk.inj hs
      unfold turn swapIf mirrorIf
      cases fx <;> cases fy <;> simp <;> omega
    · obtain ⟨h1, h2⟩ := Prod.mk.inj hs
      unfold turn swapIf mirrorIf
      cases fx <;> cases fy <;> simp <;> omega
  obtain ⟨p', e', hp'⟩ := C62_pattern_partial im' _ _ hin.1 hin.2.1 hin.2.2.1 hin.2.2.2
  refine ⟨p, p', e, e', fun n hn => ?_⟩
  have hm : bitFrom s fx fy n < 8 := by
    unfold bitFrom
    split <;> omega
  rw [Bool.eq_iff_iff, hp' n hn, hp _ hm, neighbour_turned t hx0 hx hy0 hy hn,
    t.px x y (by omega) (by omega)]

/-- **C180.** Turning the image by a multiple of 90 degrees rotates the pattern, so the least
rotation (`min_shift`, the `MIN_SHIFT` table) is the same for the turned image. -/
theorem C180_turned {s fx fy : Bool} (ho : (s ^^ (fx ^^ fy)) = false) {im im' : Image Nat}
    (t : Turned s fx fy im im') {x y : Nat}
    (hx0 : 0 < x) (hx : x + 1 < im.w) (hy0 : 0 < y) (hy : y + 1 < im.h) :
    ∃ p p' : BitVec 8, localBinaryPattern im x y = some (some p) ∧
      localBinaryPattern im' (turn s fx fy im.w im.h x y).1 (turn s fx fy im.w im.h x y).2 =
        some (some p') ∧ IsRotation p p' ∧ minShift p' = minShift p ∧
        transitions p' = transitions p ∧ minShiftTable[p'.toNat]? = minShiftTable[p.toNat]? ∧
        uniformRepresentative2[p'.toNat]? = uniformRepresentative2[p.toNat]? := by
  obtain ⟨p, p', e, e', h⟩ := pattern_turned t hx0 hx hy0 hy
  have hr : IsRotation p p' := by
    cases s <;> cases fx <;> cases fy <;> simp at ho
    · exact ⟨0, fun i hi => by rw [h i hi]; unfold bitFrom; rw [show (i + 0) % 8 = i by omega]⟩
    · exact ⟨4, h⟩
    · exact ⟨6, h⟩
    · exact ⟨2, h⟩
  have hms := C62_rotation_invariant p p' hr
  have ht : ∀ b : BitVec 8, ∀ k, k < 8 → transitions (b.rotateRight k) = transitions b := by
    refine all_bytes ?_
    decide +kernel
  have least : ∀ {b m : BitVec 8}, IsLeastRotation b m → m = minShift b := fun {b m} hm =>
    BitVec.le_antisymm (hm.2 _ (C62_min_shift b).1) ((C62_min_shift b).2 _ hm.1)
  have htr : transitions p' = transitions p := by
    obtain ⟨k, hk, rfl⟩ := (isRotation_iff _ _).mp hr
    exact ht p k hk
  refine ⟨p, p', e, e', hr, hms, htr, ?_, ?_⟩
  · obtain ⟨m, h1, h2⟩ := C62_min_table p
    obtain ⟨m', h1', h2'⟩ := C62_min_table p'
    rw [h1, h1', least h2, least h2', hms]
  · obtain ⟨u1, u2, -⟩ := C62_uniform_table p
    obtain ⟨v1, v2, -⟩ := C62_uniform_table p'
    rcases Nat.lt_or_ge 2 (transitions p) with h2 | h2
    · rw [u2 h2, v2 (by omega)]
    · obtain ⟨m, h1, h2⟩ := u1 h2
      obtain ⟨m', h1', h2'⟩ := v1 (by omega)
      rw [h1, h1', least h2, least h2', hms]

/-- **C180.** Flipping the image reverses the pattern: the number of transitions (whether the
pattern is uniform) stays the same. -/
theorem C180_flipped {s fx fy : Bool} (ho : (s ^^ (fx ^^ fy)) = true) {im im' : Image Nat}
    (t : Turned s fx fy im im') {x y : Nat}
    (hx0 : 0 < x) (hx : x + 1 < im.w) (hy0 : 0 < y) (hy : y + 1 < im.h) :
    ∃ p p' : BitVec 8, localBinaryPattern im x y = some (some p) ∧
      localBinaryPattern im' (turn s fx fy im.w im.h x y).1 (turn s fx fy im.w im.h x y).2 =
        some (some p') ∧ IsRotation p.reverse p' ∧ transitions p' = transitions p := by
  obtain ⟨p, p', e, e', h⟩ := pattern_turned t hx0 hx hy0 hy
  have rev : ∀ b : BitVec 8, ∀ i, i < 8 → b.reverse.getLsbD i = b.getLsbD (7 - i) := by
    refine all_bytes ?_
    decide +kernel
  have hr : IsRotation p.reverse p' := by
    have go : ∀ k, (∀ i, i < 8 → bitFrom s fx fy i = 7 - (i + k) % 8) → IsRotation p.reverse p' := by
      intro k hk
      refine ⟨k, fun i hi => ?_⟩
      rw [h i hi, hk i hi, rev p _ (Nat.mod_lt _ (by decide))]
    cases s <;> cases fx <;> cases fy <;> simp at ho
    · exact go 3 (by decide)
    · exact go 7 (by decide)
    · exact go 1 (by decide)
    · exact go 5 (by decide)
  have key : ∀ b : BitVec 8, ∀ k, k < 8 → transitions (b.reverse.rotateRight k) = transitions b := by
    refine all_bytes ?_
    decide +kernel
  obtain ⟨k, hk, rfl⟩ := (isRotation_iff _ _).mp hr
  exact ⟨p, _, e, e', hr, key p k hk⟩

/-- The least rotation is not the same after a flip. -/
theorem C180_flip_differs : ∃ im im' : Image Nat, Compose.flipHorizontal im = some im' ∧
    ∃ p p', localBinaryPattern im 1 1 = some (some p) ∧ localBinaryPattern im' 1 1 = some (some p') ∧
      minShift p ≠ minShift p' := by
  have key : ((Compose.flipHorizontal (⟨3, 3, fun x y => [[9, 0, 0], [9, 5, 9], [9, 9, 0]].getD y [] |>.getD x 0⟩ : Image Nat)).bind
      fun o => localBinaryPattern o 1 1) = some (some 0b10100001#8) := by decide +kernel
  obtain ⟨o, eo, ho⟩ := Option.bind_eq_some_iff.mp key
  exact ⟨_, o, eo, 0b00001011#8, _, by decide +kernel, ho, by decide⟩

example : (localBinaryPattern (⟨3, 3, fun x y => [[9, 0, 0], [9, 5, 9], [9, 9, 0]].getD y [] |>.getD x 0⟩ : Image Nat) 1 1,
  (Compose.rotate90 0 (⟨3, 3, fun x y => [[9, 0, 0], [9, 5, 9], [9, 9, 0]].getD y [] |>.getD x 0⟩ : Image Nat)).bind
    fun o => localBinaryPattern o 1 1) = (some (some 0b00001011#8), some (some 0b00101100#8)) := by decide +kernel

end Verif.Relations
