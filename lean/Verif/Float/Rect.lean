import Verif.Float.Hull
import Verif.Float.Line
import Verif.Float.FromMatrix
import Verif.Drawing.RectProps
import Verif.Drawing.OutlineProps
/-
Property C155: rectangles (src/rect.rs, src/drawing/rect.rs) in machine arithmetic: `i32` corners, `u32` sizes, `f32` for
`Region<f32>::contains` and for the outline.  `dbg = true` is a build with overflow checks (`none` is the panic),
`dbg = false` one that wraps.
-/
namespace Verif.Float
open Verif.Drawing

/-- The result `z` of an `i32` operation. -/
def mi32 (dbg : Bool) (z : Int) : Option Int := if dbg then chk32 z else wrap32 z

/-- The result `z` of a `u32` operation. -/
def mu32 (dbg : Bool) (z : Int) : Option Nat :=
  if dbg then if 0 ≤ z ∧ z < 2 ^ 32 then some z.toNat else none else some (z % 2 ^ 32).toNat

/-- `as i32` of a `u32`. -/
def asI32 (n : Nat) : Int := Int.bmod n (2 ^ 32)

/-- `as u32` of an `i32`. -/
def castU32 (z : Int) : Nat := (z % 2 ^ 32).toNat

/-- `Rect::bottom`, rect.rs:64-66. -/
def bottom32 (dbg : Bool) (r : Rect) : Option Int :=
  (mi32 dbg (r.top + asI32 r.height)).bind fun s => mi32 dbg (s - 1)

/-- `Rect::right`, rect.rs:71-73. -/
def right32 (dbg : Bool) (r : Rect) : Option Int :=
  (mi32 dbg (r.left + asI32 r.width)).bind fun s => mi32 dbg (s - 1)

/-- `Region<i32>::contains`, rect.rs:127-129; `&&` evaluates its right side only if the left side holds. -/
def contains32 (dbg : Bool) (r : Rect) (x y : Int) : Option Bool :=
  if r.left ≤ x then
    (right32 dbg r).bind fun right =>
    if x ≤ right then
      if r.top ≤ y then (bottom32 dbg r).map fun bottom => decide (y ≤ bottom) else some false
    else some false
  else some false

/-- `Region<f32>::contains`, rect.rs:133-138. -/
def containsF32 (dbg : Bool) (r : Rect) (x y : ℚ) : Option Bool :=
  if rnd32 (r.left : ℚ) ≤ x then
    (right32 dbg r).bind fun right =>
    if x ≤ rnd32 (right : ℚ) then
      if rnd32 (r.top : ℚ) ≤ y then (bottom32 dbg r).map fun bottom => decide (y ≤ rnd32 (bottom : ℚ)) else some false
    else some false
  else some false

/-- `Rect::intersect`, rect.rs:107-123. -/
def intersect32 (dbg : Bool) (r s : Rect) : Option (Option Rect) :=
  let left := max r.left s.left
  let top := max r.top s.top
  (right32 dbg r).bind fun r1 => (right32 dbg s).bind fun r2 =>
  let right := min r1 r2
  (bottom32 dbg r).bind fun b1 => (bottom32 dbg s).bind fun b2 =>
  let bottom := min b1 b2
  if right < left ∨ bottom < top then some none
  else
    (mi32 dbg (right - left)).bind fun w => (mu32 dbg (castU32 w + 1)).bind fun w =>
    (mi32 dbg (bottom - top)).bind fun h => (mu32 dbg (castU32 h + 1)).map fun h =>
      some ⟨left, top, w, h⟩

/-- `draw_filled_rect_mut`, drawing/rect.rs:51-65. -/
def drawFilledRect32 {α : Type _} (dbg : Bool) (op : α → α → α) (im : Image α) (rect : Rect) (c : α) :
    Option (Image α) :=
  (Rect.ofSize 0 0 im.w im.h).bind fun bounds =>
  (intersect32 dbg bounds rect).bind fun
  | none => some im
  | some i =>
    forYX 0 i.height 0 i.width im fun dx dy im =>
      (mu32 dbg (castU32 i.left + dx)).bind fun x => (mu32 dbg (castU32 i.top + dy)).bind fun y => drawPixel op im x y c

/-- `draw_hollow_rect_mut`, drawing/rect.rs:22-35. -/
def drawHollowRect32 {α : Type _} (dbg : Bool) (op : α → α → α) (im : Image α) (r : Rect) (c : α) :
    Option (Image α) :=
  let left := rnd32 (r.left : ℚ)
  (right32 dbg r).bind fun right =>
  let right := rnd32 (right : ℚ)
  let top := rnd32 (r.top : ℚ)
  (bottom32 dbg r).bind fun bottom =>
  let bottom := rnd32 (bottom : ℚ)
  (drawLine32 op im (left, top) (right, top) c).bind fun im =>
  (drawLine32 op im (left, bottom) (right, bottom) c).bind fun im =>
  (drawLine32 op im (left, top) (left, bottom) c).bind fun im =>
  drawLine32 op im (right, top) (right, bottom) c

/-- The values of the fields of a `Rect`. -/
def IsRect (r : Rect) : Prop :=
  (-2 ^ 31 ≤ r.left ∧ r.left < 2 ^ 31 ∧ 0 < r.width ∧ r.width < 2 ^ 32) ∧
  -2 ^ 31 ≤ r.top ∧ r.top < 2 ^ 31 ∧ 0 < r.height ∧ r.height < 2 ^ 32

/-- The corner one past the rectangle has `i32` coordinates, as has its size (debug builds); its last pixel has
`i32` coordinates (release builds). -/
def Fits (dbg : Bool) (r : Rect) : Prop := IsRect r ∧
  if dbg then (r.width < 2 ^ 31 ∧ r.left + r.width < 2 ^ 31) ∧ r.height < 2 ^ 31 ∧ r.top + r.height < 2 ^ 31
  else r.left + r.width ≤ 2 ^ 31 ∧ r.top + r.height ≤ 2 ^ 31

theorem bmod32 {z : Int} (h1 : -2 ^ 31 ≤ z) (h2 : z < 2 ^ 31) : Int.bmod z (2 ^ 32) = z :=
  Option.some.inj (exact_wrap z h1 h2)

theorem bmod32_congr {a b : Int} (h : a % 2 ^ 32 = b % 2 ^ 32) : Int.bmod a (2 ^ 32) = Int.bmod b (2 ^ 32) := by
  have h' : a % ((2 ^ 32 : Nat) : Int) = b % ((2 ^ 32 : Nat) : Int) := h
  unfold Int.bmod
  rw [h']

theorem bmod32_emod (a : Int) : Int.bmod a (2 ^ 32) % 2 ^ 32 = a % 2 ^ 32 := Int.bmod_emod (x := a) (m := 2 ^ 32)

theorem asI32_small {n : Nat} (h : n < 2 ^ 31) : asI32 n = n := bmod32 (by omega) (by omega)

theorem asI32_large {n : Nat} (h : 2 ^ 31 ≤ n) (h' : n < 2 ^ 32) : asI32 n = (n : Int) - 2 ^ 32 := by
  have e := bmod32 (z := (n : Int) - 2 ^ 32) (by omega) (by omega)
  rw [← e]
  exact bmod32_congr (by omega)

/-- The last coordinate in a debug build. -/
theorem last_dbg {l : Int} {n : Nat} (h1 : -2 ^ 31 ≤ l) (h2 : l < 2 ^ 31) (h3 : 0 < n) (h4 : n < 2 ^ 32) :
    ((mi32 true (l + asI32 n)).bind fun s => mi32 true (s - 1)) = some (l + n - 1) ↔ n < 2 ^ 31 ∧ l + n < 2 ^ 31 := by
  simp only [mi32, if_true, chk32]
  by_cases hn : n < 2 ^ 31
  · rw [asI32_small hn]
    by_cases hl : l + n < 2 ^ 31
    · rw [if_pos ⟨by omega, hl⟩, Option.bind_some, if_pos ⟨by omega, by omega⟩]
      exact ⟨fun _ => ⟨hn, hl⟩, fun _ => rfl⟩
    · rw [if_neg (by omega), Option.bind_none]
      exact ⟨fun h => (nomatch h), fun h => absurd h.2 hl⟩
  · rw [asI32_large (by omega) h4]
    constructor
    · intro h
      split at h
      · rw [Option.bind_some] at h
        split at h
        · simp only [Option.some.injEq] at h; omega
        · cases h
      · cases h
    · omega

/-- The last coordinate in a release build. -/
theorem last_rel {l : Int} {n : Nat} (h1 : -2 ^ 31 ≤ l) (h3 : 0 < n) :
    ((mi32 false (l + asI32 n)).bind fun s => mi32 false (s - 1)) = some (l + n - 1) ↔ l + n ≤ 2 ^ 31 := by
  have e : Int.bmod (Int.bmod (l + asI32 n) (2 ^ 32) - 1) (2 ^ 32) = Int.bmod (l + n - 1) (2 ^ 32) := by
    have h1 := bmod32_emod (l + asI32 n)
    have h2 : asI32 n % 2 ^ 32 = (n : Int) % 2 ^ 32 := bmod32_emod n
    exact bmod32_congr (by omega)
  show some (Int.bmod (Int.bmod (l + asI32 n) (2 ^ 32) - 1) (2 ^ 32)) = some (l + n - 1) ↔ _
  rw [e, Option.some.injEq]
  constructor
  · intro h
    have := Int.bmod_lt (x := l + n - 1) (m := 2 ^ 32) (by norm_num)
    rw [h] at this
    push_cast at this
    omega
  · intro h
    exact bmod32 (by omega) (by omega)

/-- C155: which rectangles have correct `right` and `bottom` coordinates. -/
theorem C155_corner {r : Rect} (h : IsRect r) :
    (right32 true r = some (r.left + r.width - 1) ↔ r.width < 2 ^ 31 ∧ r.left + r.width < 2 ^ 31) ∧
    (bottom32 true r = some (r.top + r.height - 1) ↔ r.height < 2 ^ 31 ∧ r.top + r.height < 2 ^ 31) ∧
    (right32 false r = some (r.left + r.width - 1) ↔ r.left + r.width ≤ 2 ^ 31) ∧
    (bottom32 false r = some (r.top + r.height - 1) ↔ r.top + r.height ≤ 2 ^ 31) :=
  ⟨last_dbg h.1.1 h.1.2.1 h.1.2.2.1 h.1.2.2.2, last_dbg h.2.1 h.2.2.1 h.2.2.2.1 h.2.2.2.2,
    last_rel h.1.1 h.1.2.2.1, last_rel h.2.1 h.2.2.2.1⟩

theorem fits_corner {dbg : Bool} {r : Rect} (h : Fits dbg r) :
    right32 dbg r = some r.right ∧ bottom32 dbg r = some r.bottom := by
  obtain ⟨h1, h2⟩ := h
  obtain ⟨a, b, c, d⟩ := C155_corner h1
  cases dbg
  · rw [if_neg (by simp)] at h2
    exact ⟨c.2 h2.1, d.2 h2.2⟩
  · rw [if_pos rfl] at h2
    exact ⟨a.2 h2.1, b.2 h2.2⟩

/-- C155: membership is exact in both build profiles. -/
theorem C155_contains {dbg : Bool} {r : Rect} (h : Fits dbg r) (x y : Int) :
    contains32 dbg r x y =
      some (decide (r.left ≤ x ∧ x < r.left + r.width ∧ r.top ≤ y ∧ y < r.top + r.height)) := by
  unfold contains32
  rw [(fits_corner h).1, (fits_corner h).2]
  simp only [Option.bind_some, Option.map_some, Rect.right, Rect.bottom]
  split
  · split
    · split
      · rw [Option.some.injEq, decide_eq_decide]; omega
      · rw [Option.some.injEq, eq_comm, decide_eq_false_iff_not]; omega
    · rw [Option.some.injEq, eq_comm, decide_eq_false_iff_not]; omega
  · rw [Option.some.injEq, eq_comm, decide_eq_false_iff_not]; omega

theorem span32 {dbg : Bool} {a b : Int} (h1 : a ≤ b) (h2 : b - a < 2 ^ 32 - 1)
    (h3 : dbg = true → b - a < 2 ^ 31) :
    ((mi32 dbg (b - a)).bind fun w => mu32 dbg (castU32 w + 1)) = some ((b - a).toNat + 1) := by
  cases dbg
  · rw [mi32, if_neg Bool.false_ne_true, wrap32, Option.bind_some, mu32, if_neg Bool.false_ne_true, castU32,
      Option.some.injEq]
    have e : Int.bmod (b - a) (2 ^ 32) % 2 ^ 32 = b - a := by
      rw [bmod32_emod, Int.emod_eq_of_lt (by omega) (by omega)]
    rw [e, Int.toNat_of_nonneg (by omega), Int.emod_eq_of_lt (by omega) (by omega)]
    omega
  · have h3 := h3 rfl
    simp only [mi32, mu32, chk32, if_true]
    rw [if_pos ⟨by omega, h3⟩, Option.bind_some]
    unfold castU32
    rw [Int.emod_eq_of_lt (by omega) (by omega), Int.toNat_of_nonneg (by omega), if_pos ⟨by omega, by omega⟩]
    congr 1
    omega

/-- C155: intersection is exact (C07) in both build profiles. -/
theorem C155_intersect {dbg : Bool} {r s : Rect} (hr : Fits dbg r) (hs : Fits dbg s) :
    intersect32 dbg r s = some (r.intersect s) := by
  unfold intersect32 Rect.intersect
  rw [(fits_corner hr).1, (fits_corner hr).2, (fits_corner hs).1, (fits_corner hs).2]
  simp only [Option.bind_some]
  split
  · rfl
  · rename_i hn
    obtain ⟨⟨⟨a1, a2, a3, a4⟩, a5, a6, a7, a8⟩, hr⟩ := hr
    have e1 := span32 (dbg := dbg) (a := max r.left s.left) (b := min r.right s.right) (by omega)
      (by unfold Rect.right; omega) (by rintro rfl; simp only [if_true] at hr; unfold Rect.right; omega)
    have e2 := span32 (dbg := dbg) (a := max r.top s.top) (b := min r.bottom s.bottom) (by omega)
      (by unfold Rect.bottom; omega) (by rintro rfl; simp only [if_true] at hr; unfold Rect.bottom; omega)
    rw [← Option.bind_assoc, e1, Option.bind_some]
    obtain ⟨h, m1, m2⟩ := Option.bind_eq_some_iff.1 e2
    rw [m1, Option.bind_some, m2, Option.map_some]

/-- C155: filling a rectangle colours exactly its pixels on the canvas (C08), in both build profiles. -/
theorem C155_filled {α : Type _} {dbg : Bool} (op : α → α → α) (im : Image α) {r : Rect} (c : α) (hr : Fits dbg r)
    (hw : im.w < 2 ^ 31) (hh : im.h < 2 ^ 31) : drawFilledRect32 dbg op im r c = drawFilledRect op im r c := by
  unfold drawFilledRect32 drawFilledRect Rect.ofSize
  split
  · rename_i h
    have hb : Fits dbg ⟨0, 0, im.w, im.h⟩ := by
      refine ⟨⟨⟨by norm_num, by norm_num, h.1, by dsimp only; omega⟩, by norm_num, by norm_num, h.2, by dsimp only; omega⟩, ?_⟩
      cases dbg
      · simp only [Bool.false_eq_true, if_false]; omega
      · simp only [if_true]; omega
    rw [Option.bind_some, Option.bind_some, C155_intersect hb hr, Option.bind_some]
    split
    · next e => rw [e]
    · next i e =>
      rw [e]
      dsimp only
      have hi : 0 ≤ i.left ∧ 0 ≤ i.top ∧ i.left + i.width ≤ im.w ∧ i.top + i.height ≤ im.h := by
        simp only [Rect.intersect] at e
        split at e
        · cases e
        · next hn =>
          cases e
          dsimp only [Rect.right, Rect.bottom] at *
          omega
      unfold forYX
      refine forRange_congr _ fun dy s _ h2 => forRange_congr _ fun dx s _ h4 => ?_
      have m : ∀ {l : Int} {d : Nat}, 0 ≤ l → l + d < 2 ^ 31 → mu32 dbg (castU32 l + d) = some (l.toNat + d) := by
        intro l d h1 h2
        unfold mu32 castU32
        rw [Int.emod_eq_of_lt h1 (by omega), Int.toNat_of_nonneg h1]
        cases dbg
        · rw [if_neg (by simp), Int.emod_eq_of_lt (by omega) (by omega)]; congr 1; omega
        · rw [if_pos rfl, if_pos ⟨by omega, by omega⟩]; congr 1; omega
      dsimp only
      rw [m hi.1 (by omega), m hi.2.1 (by omega), asU32, if_pos hi.1, asU32, if_pos hi.2.1]
      rfl
  · rfl

/-- C155: the outline of a rectangle with coordinates up to `2 ^ 22` is exact (C99), in both build profiles. -/
theorem C155_hollow {α : Type _} (dbg : Bool) (op : α → α → α) (im : Image α) {r : Rect} (c : α)
    (hw : 0 < r.width) (hh : 0 < r.height)
    (h1 : -2 ^ 22 ≤ r.left) (h2 : r.left + r.width ≤ 2 ^ 22) (h3 : -2 ^ 22 ≤ r.top) (h4 : r.top + r.height ≤ 2 ^ 22) :
    drawHollowRect32 dbg op im r c = drawHollowRect op im r c := by
  have hf : Fits dbg r := by
    refine ⟨⟨⟨by omega, by omega, hw, by omega⟩, by omega, by omega, hh, by omega⟩, ?_⟩
    cases dbg
    · simp only [Bool.false_eq_true, if_false]; omega
    · simp only [if_true]; omega
  have hR : |r.right| ≤ 2 ^ 22 := by unfold Rect.right; rw [abs_le]; omega
  have hB : |r.bottom| ≤ 2 ^ 22 := by unfold Rect.bottom; rw [abs_le]; omega
  have hL : |r.left| ≤ 2 ^ 22 := by rw [abs_le]; omega
  have hT : |r.top| ≤ 2 ^ 22 := by rw [abs_le]; omega
  have big : ∀ {z : Int}, |z| ≤ 2 ^ 22 → rnd32 (z : ℚ) = z := fun h => rnd32_intQ (h.trans (by norm_num))
  unfold drawHollowRect32 drawHollowRect
  rw [(fits_corner hf).1, (fits_corner hf).2]
  simp only [Option.bind_some]
  rw [big hL, big hT, big hR, big hB]
  have d : ∀ (im : Image α) (a b x y : Int), |a| ≤ 2 ^ 22 → |b| ≤ 2 ^ 22 → |x| ≤ 2 ^ 22 → |y| ≤ 2 ^ 22 →
      drawLine32 op im ((a : ℚ), (b : ℚ)) ((x : ℚ), (y : ℚ)) c = drawLineInt op im a b x y c :=
    fun im a b x y h1 h2 h3 h4 => C118_draw op im c (a, b) (x, y) h1 h2 h3 h4
  rw [d _ _ _ _ _ hL hT hR hT]
  congr 1; funext im
  rw [d _ _ _ _ _ hL hB hR hB]
  congr 1; funext im
  rw [d _ _ _ _ _ hL hT hL hB]
  congr 1; funext im
  rw [d _ _ _ _ _ hR hT hR hB]

/-- C155: a rectangle contains an `f32` point if it lies between the corners rounded to `f32`. -/
theorem C155_containsF {dbg : Bool} {r : Rect} (h : Fits dbg r) (x y : ℚ) :
    containsF32 dbg r x y = some (decide (rnd32 (r.left : ℚ) ≤ x ∧ x ≤ rnd32 ((r.left + r.width - 1 : Int) : ℚ) ∧
      rnd32 (r.top : ℚ) ≤ y ∧ y ≤ rnd32 ((r.top + r.height - 1 : Int) : ℚ))) := by
  unfold containsF32
  rw [(fits_corner h).1, (fits_corner h).2]
  simp only [Option.bind_some, Rect.right, Rect.bottom]
  split
  · split
    · split <;> simp_all
    · simp_all
  · simp_all

/-- C155: every `f32` point of the rectangle is contained; nothing else is contained if the corners are at most `2 ^ 24` in
absolute value, and in general the points contained exceed the rectangle by at most one part in `2 ^ 24`. -/
theorem C155_containsF_points {dbg : Bool} {r : Rect} (h : Fits dbg r) {x y : ℚ} (hx : Rep 24 (-149) x)
    (hy : Rep 24 (-149) y) :
    ((r.left ≤ x ∧ x ≤ r.left + r.width - 1 ∧ r.top ≤ y ∧ y ≤ r.top + r.height - 1) →
      containsF32 dbg r x y = some true) ∧
    (containsF32 dbg r x y = some true →
      |r.left| ≤ 2 ^ 24 → |r.left + r.width - 1| ≤ 2 ^ 24 → |r.top| ≤ 2 ^ 24 → |r.top + r.height - 1| ≤ 2 ^ 24 →
      r.left ≤ x ∧ x ≤ r.left + r.width - 1 ∧ r.top ≤ y ∧ y ≤ r.top + r.height - 1) ∧
    (containsF32 dbg r x y = some true →
      r.left - |(r.left : ℚ)| / 2 ^ 24 ≤ x ∧ x ≤ r.left + r.width - 1 + |(r.left : ℚ) + r.width - 1| / 2 ^ 24 ∧
      r.top - |(r.top : ℚ)| / 2 ^ 24 ≤ y ∧ y ≤ r.top + r.height - 1 + |(r.top : ℚ) + r.height - 1| / 2 ^ 24) := by
  rw [C155_containsF h]
  simp only [Option.some.injEq, decide_eq_true_eq]
  have e1 : ((r.left + r.width - 1 : Int) : ℚ) = r.left + r.width - 1 := by push_cast; ring
  have e2 : ((r.top + r.height - 1 : Int) : ℚ) = r.top + r.height - 1 := by push_cast; ring
  refine ⟨?_, ?_, ?_⟩
  · rintro ⟨h1, h2, h3, h4⟩
    rw [e1, e2]
    refine ⟨?_, ?_, ?_, ?_⟩
    · exact rnd_le (by norm_num) hx h1
    · exact le_rnd (by norm_num) hx h2
    · exact rnd_le (by norm_num) hy h3
    · exact le_rnd (by norm_num) hy h4
  · rintro ⟨h1, h2, h3, h4⟩ b1 b2 b3 b4
    rw [rnd32_intQ b1] at h1
    rw [rnd32_intQ b2, e1] at h2
    rw [rnd32_intQ b3] at h3
    rw [rnd32_intQ b4, e2] at h4
    exact ⟨h1, h2, h3, h4⟩
  · rintro ⟨h1, h2, h3, h4⟩
    have er : ∀ z : Int, |rnd32 (z : ℚ) - z| ≤ |(z : ℚ)| / 2 ^ 24 := by
      intro z
      by_cases hz : z = 0
      · subst hz; rw [Int.cast_zero, rnd32_zeroQ]; simp
      · have : (1 : ℚ) ≤ |(z : ℚ)| := by exact_mod_cast Int.one_le_abs hz
        have := rnd_error_rel (p := 24) (emin := -149) (x := (z : ℚ)) (le_trans (by norm_num) this)
        refine this.trans_eq ?_
        norm_num
        ring
    have a1 := abs_le.1 (er r.left)
    have a2 := abs_le.1 (er (r.left + r.width - 1))
    have a3 := abs_le.1 (er r.top)
    have a4 := abs_le.1 (er (r.top + r.height - 1))
    rw [e1] at a2 h2
    rw [e2] at a4 h4
    refine ⟨by linarith, by linarith, by linarith, by linarith⟩

/-- C155 (the bounds matter): the pixel (2147483647, 0) makes debug builds panic; the rectangle of two pixels starting
there does not contain its own corner in release builds; a rectangle of width `2 ^ 31` at 1 ends left of its start, even in
debug builds; and a
rectangle whose last column is 16777219 contains the `f32` point 16777220. -/
theorem C155_negation :
    contains32 true ⟨2147483647, 0, 1, 1⟩ 2147483647 0 = none ∧
    contains32 false ⟨2147483647, 0, 1, 1⟩ 2147483647 0 = some true ∧
    contains32 false ⟨2147483647, 0, 2, 1⟩ 2147483647 0 = some false ∧
    right32 true ⟨1, 0, 2147483648, 1⟩ = some (-2147483648) ∧
    containsF32 true ⟨0, 0, 16777220, 1⟩ 16777220 0 = some true := by
  refine ⟨by decide, by decide, by decide, by decide, by decide +kernel⟩

/-- The whole square of `i32` pixels minus its last row and column, in release builds. -/
example : contains32 false ⟨-2147483648, -2147483648, 4294967295, 4294967295⟩ 2147483646 (-5) = some true := by
  rw [C155_contains ⟨by unfold IsRect; decide, by decide⟩]
  decide

end Verif.Float
