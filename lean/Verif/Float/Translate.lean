import Verif.Float.Cross
import Verif.Filter.Machine
import Verif.Compose.Props
import Verif.Float.WarpSafe

/-!
C163: `translate` in `i32` arithmetic (src/geometric_transformations.rs:465-507). `dbg` says whether
overflow checks are on.
-/

namespace Verif.Float

open Verif Verif.Compose

/-- `translate`, geometric_transformations.rs:465-507, with `width as i32`, `height as i32`,
`y as i32 - ty`, `h - 1`, `w - tx`, `w + tx` in `i32`. The slice copies are rows of the image, as in
`Compose.translate`; buffer offsets are `usize` and taken exactly. -/
def translateM {α : Type _} (dbg : Bool) (z : α) (im : Image α) (tx ty : Int) : Option (Image α) :=
  let w := asI32 im.w
  let h := asI32 im.h
  forRange 0 im.h (Image.new im.w im.h z) fun y out =>
    (mi32 dbg (asI32 y - ty)).bind fun d =>
    (mi32 dbg (h - 1)).bind fun h1 =>
    let yin := castU32 (max 0 (min d h1))
    if tx > 0 then
      (im.get 0 yin).bind fun pmin =>
      (forRange 0 (min tx w).toNat out fun x out => out.put x y pmin).bind fun out =>
      if tx < w then (mi32 dbg (w - tx)).bind fun len => copyRow im out yin 0 y tx.toNat len.toNat
      else some out
    else
      (csub im.w 1).bind fun w1 =>
      (im.get w1 yin).bind fun pmax =>
      (mi32 dbg (w + tx)).bind fun s =>
      (forRange (max s 0).toNat w.toNat out fun x out => out.put x y pmax).bind fun out =>
      if s > 0 then copyRow im out yin tx.natAbs y 0 s.toNat else some out

/-- One row of the exact translation, reading row `yin`. -/
def translateRow {α : Type _} (im : Image α) (tx : Int) (yin y : Nat) (out : Image α) : Option (Image α) :=
  if tx > 0 then
    (im.get 0 yin).bind fun pmin =>
    (forRange 0 (min tx (im.w : Int)).toNat out fun x out => out.put x y pmin).bind fun out =>
    if tx < im.w then copyRow im out yin 0 y tx.toNat ((im.w : Int) - tx).toNat else some out
  else
    (csub im.w 1).bind fun w1 =>
    (im.get w1 yin).bind fun pmax =>
    (forRange (max ((im.w : Int) + tx) 0).toNat im.w out fun x out => out.put x y pmax).bind fun out =>
    if (im.w : Int) + tx > 0 then copyRow im out yin tx.natAbs y 0 ((im.w : Int) + tx).toNat else some out

theorem translateRows_spec {α : Type _} (z : α) (im : Image α) (tx : Int) (g : Nat → Nat) (hw : 0 < im.w)
    (hg : ∀ y, y < im.h → g y < im.h) :
    ∃ out, (forRange 0 im.h (Image.new im.w im.h z) fun y out => translateRow im tx (g y) y out) = some out ∧
      out.w = im.w ∧ out.h = im.h ∧
      ∀ x y, x < im.w → y < im.h → out.px x y = im.px (clampTo im.w ((x : Int) - tx)) (g y) := by
  have fin : ∀ out : Image α, (out.w = im.w ∧ out.h = im.h ∧ ∀ a b, a < im.w → b < im.h →
      b < im.h → out.px a b = im.px (clampTo im.w ((a : Int) - tx)) (g b)) →
      (out.w = im.w ∧ out.h = im.h ∧ ∀ x y, x < im.w → y < im.h → out.px x y =
        im.px (clampTo im.w ((x : Int) - tx)) (g y)) :=
    fun out h => ⟨h.1, h.2.1, fun a b ha hb => h.2.2 a b ha hb hb⟩
  refine (forRange_spec (lo := 0) (hi := im.h) (s := Image.new im.w im.h z)
    (fun y out => out.w = im.w ∧ out.h = im.h ∧ ∀ a b, a < im.w → b < im.h → b < y → out.px a b =
        im.px (clampTo im.w ((a : Int) - tx)) (g b))
    (by omega) ⟨rfl, rfl, by omega⟩ ?_).imp fun out h => ⟨h.1, fin out h.2⟩
  rintro y out _ hy ⟨h1, h2, h3⟩
  have hlt := hg y hy
  unfold translateRow
  by_cases ht : tx > 0
  · rw [if_pos ht, Image.get_of_inB hw hlt, Option.bind_some, putRow _ _ _ _ _ (by omega) (by omega)
      (by omega), Option.bind_some]
    by_cases htw : tx < im.w
    · rw [if_pos htw, copyRow, if_pos (by dsimp only; omega)]
      refine ⟨_, rfl, h1, h2, ?_⟩
      intro a b ha hb hby
      dsimp only
      by_cases hb' : b = y
      · subst hb'
        by_cases hat : (a : Int) < tx
        · rw [if_neg (by omega), if_pos (by omega)]
          congr 1
          unfold clampTo; omega
        · rw [if_pos (by omega)]
          congr 1
          unfold clampTo; omega
      · rw [if_neg (by omega), if_neg (by omega)]
        exact h3 a b ha hb (by omega)
    · rw [if_neg htw]
      refine ⟨_, rfl, h1, h2, ?_⟩
      intro a b ha hb hby
      dsimp only
      by_cases hb' : b = y
      · subst hb'
        rw [if_pos (by omega)]
        congr 1
        unfold clampTo; omega
      · rw [if_neg (by omega)]
        exact h3 a b ha hb (by omega)
  · rw [if_neg ht, csub_of_le (by omega), Option.bind_some, Image.get_of_inB (by omega) hlt,
      Option.bind_some, putRow _ _ _ _ _ (by omega) (by omega) (by omega), Option.bind_some]
    by_cases htw : (im.w : Int) + tx > 0
    · rw [if_pos htw, copyRow, if_pos (by dsimp only; omega)]
      refine ⟨_, rfl, h1, h2, ?_⟩
      intro a b ha hb hby
      dsimp only
      by_cases hb' : b = y
      · subst hb'
        by_cases hat : (a : Int) < im.w + tx
        · rw [if_pos (by omega)]
          congr 1
          unfold clampTo; omega
        · rw [if_neg (by omega), if_pos (by omega)]
          congr 1
          unfold clampTo; omega
      · rw [if_neg (by omega), if_neg (by omega)]
        exact h3 a b ha hb (by omega)
    · rw [if_neg htw]
      refine ⟨_, rfl, h1, h2, ?_⟩
      intro a b ha hb hby
      dsimp only
      by_cases hb' : b = y
      · subst hb'
        rw [if_pos (by omega)]
        congr 1
        unfold clampTo; omega
      · rw [if_neg (by omega)]
        exact h3 a b ha hb (by omega)

/-- The source row that the program uses for row `y`. -/
theorem translate_row {d : Int} {h : Nat} (hh : 0 < h) (hh2 : h < 2 ^ 31) :
    castU32 (max 0 (min d ((h : Int) - 1))) = clampTo h d := by
  rw [castU32_small (by omega) (by omega)]
  rfl

theorem translateM_body {α : Type _} (dbg : Bool) (im : Image α) (tx : Int) (d : Int) (y : Nat) (out : Image α)
    (hw2 : im.w < 2 ^ 31) (hh : 0 < im.h) (hh2 : im.h < 2 ^ 31)
    (htx : -2 ^ 31 ≤ tx ∧ tx < 2 ^ 31) :
    ((mi32 dbg (asI32 im.h - 1)).bind fun h1 =>
      let yin := castU32 (max 0 (min d h1))
      if tx > 0 then
        (im.get 0 yin).bind fun pmin =>
        (forRange 0 (min tx (asI32 im.w)).toNat out fun x out => out.put x y pmin).bind fun out =>
        if tx < asI32 im.w then (mi32 dbg (asI32 im.w - tx)).bind fun len => copyRow im out yin 0 y tx.toNat len.toNat
        else some out
      else
        (csub im.w 1).bind fun w1 =>
        (im.get w1 yin).bind fun pmax =>
        (mi32 dbg (asI32 im.w + tx)).bind fun s =>
        (forRange (max s 0).toNat (asI32 im.w).toNat out fun x out => out.put x y pmax).bind fun out =>
        if s > 0 then copyRow im out yin tx.natAbs y 0 s.toNat else some out) =
      translateRow im tx (clampTo im.h d) y out := by
  unfold translateRow
  rw [asI32_small hw2, asI32_small hh2, mi32_some dbg (by omega) (by omega), Option.bind_some]
  dsimp only
  rw [translate_row hh hh2]
  by_cases ht : tx > 0
  · rw [if_pos ht, if_pos ht]
    congr 1
    funext pmin
    congr 1
    funext out
    by_cases h : tx < im.w
    · rw [if_pos h, if_pos h, mi32_some dbg (by omega) (by omega), Option.bind_some]
    · rw [if_neg h, if_neg h]
  · rw [if_neg ht, if_neg ht]
    congr 1
    funext w1
    congr 1
    funext pmax
    rw [mi32_some dbg (by omega) (by omega), Option.bind_some, Int.toNat_natCast]

/-- The result of `y as i32 - ty` with wrapping. -/
theorem sub_wrap {y : Nat} {ty : Int} (hy : y < 2 ^ 31) (hty : -2 ^ 31 ≤ ty ∧ ty < 2 ^ 31) :
    mi32 false ((y : Int) - ty) = some (if 2 ^ 31 ≤ (y : Int) - ty then (y : Int) - ty - 2 ^ 32 else (y : Int) - ty) := by
  by_cases h : 2 ^ 31 ≤ (y : Int) - ty
  · rw [if_pos h]
    show wrap32 _ = _
    unfold wrap32
    rw [bmod32_congr (b := (y : Int) - ty - 2 ^ 32) (by omega), bmod32 (by omega) (by omega)]
  · rw [if_neg h, mi32_some false (by omega) (by omega)]

/-- C163: with overflow checks off, every row is the clamped shift, except the rows where
`y - ty` exceeds the `i32` range: those are taken from the top row although the row at the bottom is the nearest. -/
theorem C163_release {α : Type _} (z : α) (im : Image α) (tx ty : Int) (hw : 0 < im.w) (hw2 : im.w < 2 ^ 31)
    (hh2 : im.h < 2 ^ 31) (htx : -2 ^ 31 ≤ tx ∧ tx < 2 ^ 31) (hty : -2 ^ 31 ≤ ty ∧ ty < 2 ^ 31) :
    ∃ out, translateM false z im tx ty = some out ∧ out.w = im.w ∧ out.h = im.h ∧
      ∀ x y, x < im.w → y < im.h → out.px x y = im.px (clampTo im.w ((x : Int) - tx))
        (if 2 ^ 31 ≤ (y : Int) - ty then 0 else clampTo im.h ((y : Int) - ty)) := by
  obtain ⟨out, e, r⟩ := translateRows_spec z im tx
    (fun y => if 2 ^ 31 ≤ (y : Int) - ty then 0 else clampTo im.h ((y : Int) - ty)) hw
    (by
      intro y hy
      split
      · omega
      · exact clampTo_lt (by omega) _)
  refine ⟨out, ?_, r⟩
  rw [← e]
  unfold translateM
  refine forRange_congr _ ?_
  intro y out _ hy
  rw [asI32_small (n := y) (by omega), sub_wrap (by omega) hty, Option.bind_some,
    translateM_body false im tx _ y out hw2 (by omega) hh2 htx]
  congr 1
  by_cases h : 2 ^ 31 ≤ (y : Int) - ty
  · rw [if_pos h, if_pos h]
    unfold clampTo
    omega
  · rw [if_neg h, if_neg h]

theorem translateM_debug {α : Type _} (z : α) (im : Image α) (tx ty : Int) (hw2 : im.w < 2 ^ 31)
    (hh2 : im.h < 2 ^ 31) (htx : -2 ^ 31 ≤ tx ∧ tx < 2 ^ 31) (hty : -2 ^ 31 ≤ ty ∧ ty < 2 ^ 31)
    (hc : ∀ y : Nat, y < im.h → (y : Int) - ty < 2 ^ 31) :
    translateM true z im tx ty = forRange 0 im.h (Image.new im.w im.h z) fun y out =>
      translateRow im tx (clampTo im.h ((y : Int) - ty)) y out := by
  unfold translateM
  refine forRange_congr _ ?_
  intro y out _ hy
  have := hc y hy
  rw [asI32_small (n := y) (by omega), mi32_some true (by omega) (by omega), Option.bind_some,
    translateM_body true im tx _ y out hw2 (by omega) hh2 htx]

/-- C163: with overflow checks on, the call panics exactly if `y - ty` leaves the `i32` range in some row. -/
theorem C163_panics {α : Type _} (z : α) (im : Image α) (tx ty : Int) (hw : 0 < im.w) (hw2 : im.w < 2 ^ 31)
    (hh2 : im.h < 2 ^ 31) (htx : -2 ^ 31 ≤ tx ∧ tx < 2 ^ 31) (hty : -2 ^ 31 ≤ ty ∧ ty < 2 ^ 31) :
    translateM true z im tx ty = none ↔ ∃ y : Nat, y < im.h ∧ 2 ^ 31 ≤ (y : Int) - ty := by
  constructor
  · intro hn
    by_contra hc
    push Not at hc
    obtain ⟨out, e, -⟩ := translateRows_spec z im tx (fun y => clampTo im.h ((y : Int) - ty)) hw
      (fun y hy => clampTo_lt (by omega) _)
    rw [← translateM_debug z im tx ty hw2 hh2 htx hty hc, hn] at e
    exact absurd e (by simp)
  · rintro ⟨y, hy, hc⟩
    unfold translateM
    refine Verif.Filter.Machine.forRange_fail (i := y) (fun _ _ => True) hy trivial (fun _ _ _ _ _ => trivial) ?_
    intro s _
    rw [asI32_small (n := y) (by omega), mi32_true_none (by omega)]
    rfl

/-- C163: for every shift with `ty ≥ height - 2^31` and every `tx`, both builds return the image whose pixel
`(x, y)` is the input at `(x - tx, y - ty)` clamped into the image. -/
theorem C163_partial {α : Type _} (dbg : Bool) (z : α) (im : Image α) (tx ty : Int) (hw : 0 < im.w) (hw2 : im.w < 2 ^ 31)
    (hh2 : im.h < 2 ^ 31) (htx : -2 ^ 31 ≤ tx ∧ tx < 2 ^ 31) (hty : (im.h : Int) - 2 ^ 31 ≤ ty ∧ ty < 2 ^ 31) :
    ∃ out, translateM dbg z im tx ty = some out ∧ out.w = im.w ∧ out.h = im.h ∧
      ∀ x y, x < im.w → y < im.h → out.px x y =
        im.px (clampTo im.w ((x : Int) - tx)) (clampTo im.h ((y : Int) - ty)) := by
  cases dbg with
  | true =>
    rw [translateM_debug z im tx ty hw2 hh2 htx (by omega) (fun y hy => by omega)]
    exact translateRows_spec z im tx (fun y => clampTo im.h ((y : Int) - ty)) hw
      (fun y hy => clampTo_lt (by omega) _)
  | false =>
    obtain ⟨out, e, h1, h2, h3⟩ := C163_release z im tx ty hw hw2 hh2 htx (by omega)
    refine ⟨out, e, h1, h2, fun x y hx hy => ?_⟩
    rw [h3 x y hx hy, if_neg (by omega)]

/-- C163 is false as stated: shifting two rows up by 2^31 must repeat the bottom row; the release build
repeats the top row and the debug build panics. -/
theorem C163_negation :
    (translateM false 0 (Image.ofRows 0 [[1, 2], [3, 4]]) 0 (-2147483648)).map Image.rows = some [[1, 2], [1, 2]] ∧
    translateM true 0 (Image.ofRows 0 [[1, 2], [3, 4]]) 0 (-2147483648) = none ∧
    (translate 0 (Image.ofRows 0 [[1, 2], [3, 4]]) 0 (-2147483648)).map Image.rows = some [[3, 4], [3, 4]] := by
  decide +kernel

example : (translateM true 0 (Image.ofRows 0 [[1, 2, 3], [4, 5, 6]]) (-2147483648) (-1)).map Image.rows =
    some [[6, 6, 6], [6, 6, 6]] := by decide +kernel

end Verif.Float
