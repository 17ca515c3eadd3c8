import Verif.Float.EllipseM
import Verif.Drawing.RectProps

/-!
C162: `draw_cross` in `i32` arithmetic (src/drawing/cross.rs:20-47). `dbg` says whether overflow
checks are on, as in the other machine-integer models.
-/

namespace Verif.Float

open Verif Verif.Drawing

/-- `draw_cross_mut`, cross.rs:20-47, with `y + sy`, `x + sx` in `i32` and the casts `height as i32`,
`width as i32`, `ix as u32`, `iy as u32`. The stencil index stays small and is taken exactly. -/
def drawCross32 {α : Type _} (dbg : Bool) (op : α → α → α) (im : Image α) (c : α) (x y : Int) :
    Option (Image α) :=
  forList [-1, 0, 1] im fun (sy : Int) im =>
    (mi32 dbg (y + sy)).bind fun iy =>
    if iy < 0 ∨ iy ≥ asI32 im.h then some im
    else forList [-1, 0, 1] im fun (sx : Int) im =>
      (mi32 dbg (x + sx)).bind fun ix =>
      if ix < 0 ∨ ix ≥ asI32 im.w then some im
      else
        (crossStencil[(3 * (sy + 1) + sx + 1).toNat]?).bind fun v =>
        if v = 1 then drawPixel op im (castU32 ix) (castU32 iy) c else some im

/-- One row of the stencil, exact arithmetic. -/
def crossRow {α : Type _} (op : α → α → α) (c : α) (x iy sy : Int) (im : Image α) : Option (Image α) :=
  forList [-1, 0, 1] im fun (sx : Int) im =>
    let ix := x + sx
    if ix < 0 ∨ ix ≥ im.w then some im
    else
      (crossStencil[(3 * (sy + 1) + sx + 1).toNat]?).bind fun v =>
      if v = 1 then drawPixel op im ix.toNat iy.toNat c else some im

theorem forList_inv {σ β : Type _} {f : β → σ → Option σ} (I : σ → Prop)
    (hI : ∀ b s s', I s → f b s = some s' → I s') : ∀ (l : List β) (s s' : σ), I s → forList l s f = some s' → I s'
  | [], s, s', hs, e => by
    unfold forList at e
    exact Option.some.inj e ▸ hs
  | b :: l, s, s', hs, e => by
    unfold forList at e
    cases e1 : f b s with
    | none => rw [e1] at e; exact absurd e (by simp)
    | some t =>
      rw [e1] at e
      exact forList_inv I hI l t s' (hI _ _ _ hs e1) e

theorem forList_fail_inv {σ β : Type _} {f : β → σ → Option σ} (I : σ → Prop)
    (hI : ∀ b s s', I s → f b s = some s' → I s') {b0 : β} (hb : ∀ s, I s → f b0 s = none) :
    ∀ (l : List β) (s : σ), b0 ∈ l → I s → forList l s f = none
  | [], s, h, _ => by simp at h
  | b :: l, s, h, hs => by
    unfold forList
    cases e1 : f b s with
    | none => rfl
    | some t =>
      rcases List.mem_cons.1 h with h | h
      · subst h; rw [hb s hs] at e1; exact absurd e1 (by simp)
      · exact forList_fail_inv I hI hb l t h (hI _ _ _ hs e1)

theorem crossCell_dims {α : Type _} {op : α → α → α} {c : α} {m : Option Int} {sy sx : Int} {g : Int → Nat} {k : Nat}
    {W : Image α → Int} {s s' : Image α}
    (h : (m.bind fun ix => if ix < 0 ∨ ix ≥ W s then some s
      else (crossStencil[(3 * (sy + 1) + sx + 1).toNat]?).bind fun v =>
        if v = 1 then drawPixel op s (g ix) k c else some s) = some s') : s'.w = s.w ∧ s'.h = s.h := by
  obtain ⟨ix, -, h⟩ := Option.bind_eq_some_iff.1 h
  split at h
  · cases h; exact ⟨rfl, rfl⟩
  · obtain ⟨v, -, h⟩ := Option.bind_eq_some_iff.1 h
    split at h
    · exact drawPixel_dims h
    · cases h; exact ⟨rfl, rfl⟩

theorem castU32_small {z : Int} (h0 : 0 ≤ z) (h : z < 2 ^ 31) : castU32 z = z.toNat := by
  unfold castU32
  rw [Int.emod_eq_of_lt h0 (by omega)]

/-- The sum of an `i32` and -1, 0 or 1 when it does not fit. -/
theorem mi32_true_none {z : Int} (h : z < -2 ^ 31 ∨ 2 ^ 31 ≤ z) : mi32 true z = none := by
  show chk32 z = none
  unfold chk32
  rw [if_neg (by omega)]

theorem mi32_false_over {z : Int} (h : z = 2 ^ 31) : mi32 false z = some (-2 ^ 31) := by subst h; decide

theorem mi32_false_under {z : Int} (h : z = -2 ^ 31 - 1) : mi32 false z = some (2 ^ 31 - 1) := by subst h; decide

/-- Cells: equality as long as the sum fits, or overflow checks are off. -/
theorem crossRow32_eq {α : Type _} (dbg : Bool) (op : α → α → α) (c : α) (x iy sy : Int) (w h : Nat) (hw : w < 2 ^ 31)
    (hiy : 0 ≤ iy ∧ iy < 2 ^ 31) (hx : -2 ^ 31 ≤ x ∧ x < 2 ^ 31) (hd : dbg = true → -2 ^ 31 < x ∧ x < 2 ^ 31 - 1)
    (im : Image α) (him : im.w = w ∧ im.h = h) :
    (forList [-1, 0, 1] im fun (sx : Int) im =>
      (mi32 dbg (x + sx)).bind fun ix =>
      if ix < 0 ∨ ix ≥ asI32 im.w then some im
      else
        (crossStencil[(3 * (sy + 1) + sx + 1).toNat]?).bind fun v =>
        if v = 1 then drawPixel op im (castU32 ix) (castU32 iy) c else some im) = crossRow op c x iy sy im := by
  unfold crossRow
  refine forList_congr_inv (fun s => s.w = w ∧ s.h = h) _ im him ?_ ?_
  · intro sx hsx s hs
    have hsx' : sx = -1 ∨ sx = 0 ∨ sx = 1 := by simpa using hsx
    rw [castU32_small hiy.1 hiy.2, asI32_small (by omega)]
    by_cases h1 : x + sx < -2 ^ 31
    · cases dbg with
      | true => have := hd rfl; omega
      | false =>
        rw [mi32_false_under (by omega), Option.bind_some, if_pos (by omega)]
        exact (if_pos (by omega)).symm
    by_cases h2 : 2 ^ 31 ≤ x + sx
    · cases dbg with
      | true => have := hd rfl; omega
      | false =>
        rw [mi32_false_over (by omega), Option.bind_some, if_pos (by omega)]
        exact (if_pos (by omega)).symm
    rw [mi32_some dbg (by omega) (by omega), Option.bind_some]
    dsimp only
    by_cases h3 : x + sx < 0 ∨ x + sx ≥ s.w
    · rw [if_pos h3, if_pos h3]
    · rw [if_neg h3, if_neg h3, castU32_small (by omega) (by omega)]
  · intro sx s s' hs e
    have := crossCell_dims (m := some (x + sx)) (W := fun s => (s.w : Int)) (g := Int.toNat) (sy := sy) e
    exact ⟨this.1.trans hs.1, this.2.trans hs.2⟩

theorem crossRow_dims {α : Type _} {op : α → α → α} {c : α} {x iy sy : Int} {im out : Image α}
    (e : crossRow op c x iy sy im = some out) : out.w = im.w ∧ out.h = im.h := by
  unfold crossRow at e
  refine forList_inv (fun s => s.w = im.w ∧ s.h = im.h) ?_ _ im out ⟨rfl, rfl⟩ e
  intro sx s s' hs e
  have := crossCell_dims (m := some (x + sx)) (W := fun s => (s.w : Int)) (g := Int.toNat) (sy := sy) e
  exact ⟨this.1.trans hs.1, this.2.trans hs.2⟩

theorem drawCross32_eq {α : Type _} (dbg : Bool) (op : α → α → α) (im : Image α) (c : α) (x y : Int)
    (hw : im.w < 2 ^ 31) (hh : im.h < 2 ^ 31) (hx : -2 ^ 31 ≤ x ∧ x < 2 ^ 31) (hy : -2 ^ 31 ≤ y ∧ y < 2 ^ 31)
    (hdy : dbg = true → -2 ^ 31 < y ∧ y < 2 ^ 31 - 1)
    (hdx : dbg = true → (-2 ^ 31 < x ∧ x < 2 ^ 31 - 1) ∨ y < -1 ∨ (im.h : Int) < y ∨ im.h = 0) :
    drawCross32 dbg op im c x y = drawCross op im c x y := by
  unfold drawCross32 drawCross
  refine forList_congr_inv (fun s => s.w = im.w ∧ s.h = im.h) _ im ⟨rfl, rfl⟩ ?_ ?_
  · intro sy hsy s hs
    have hsy' : sy = -1 ∨ sy = 0 ∨ sy = 1 := by simpa using hsy
    rw [asI32_small (by omega)]
    by_cases h1 : y + sy < -2 ^ 31
    · cases dbg with
      | true => have := hdy rfl; omega
      | false =>
        rw [mi32_false_under (by omega), Option.bind_some, if_pos (by omega)]
        exact (if_pos (by omega)).symm
    by_cases h2 : 2 ^ 31 ≤ y + sy
    · cases dbg with
      | true => have := hdy rfl; omega
      | false =>
        rw [mi32_false_over (by omega), Option.bind_some, if_pos (by omega)]
        exact (if_pos (by omega)).symm
    rw [mi32_some dbg (by omega) (by omega), Option.bind_some]
    dsimp only
    by_cases h3 : y + sy < 0 ∨ y + sy ≥ s.h
    · rw [if_pos h3, if_pos h3]
    · rw [if_neg h3, if_neg h3]
      exact crossRow32_eq dbg op c x (y + sy) sy im.w im.h hw (by omega) hx
        (fun hd => by have := hdx hd; omega) s hs
  · intro sy s s' hs e
    dsimp only at e
    split at e
    · cases e; exact hs
    · have := crossRow_dims (op := op) (c := c) (x := x) (iy := y + sy) (sy := sy) e
      exact ⟨this.1.trans hs.1, this.2.trans hs.2⟩

/-- C162: with overflow checks off, for every `i32` centre, `draw_cross` changes exactly the cells within
distance one of the centre and nothing else.  (At the ends of the range `x + sx` wraps to the other end,
which is off the image just as well.) -/
theorem C162_release {α : Type _} (op : α → α → α) (im : Image α) (c : α) (x y : Int)
    (hw : im.w < 2 ^ 31) (hh : im.h < 2 ^ 31) (hx : -2 ^ 31 ≤ x ∧ x < 2 ^ 31) (hy : -2 ^ 31 ≤ y ∧ y < 2 ^ 31) :
    ∃ out, drawCross32 false op im c x y = some out ∧ out.w = im.w ∧ out.h = im.h ∧
      ∀ a b : Nat, a < im.w → b < im.h → out.px a b =
        if ((a : Int) - x).natAbs + ((b : Int) - y).natAbs ≤ 1 then op (im.px a b) c
        else im.px a b := by
  rw [drawCross32_eq false op im c x y hw hh hx hy (by simp) (by simp)]
  exact C49_cross op im c x y

/-- C162: with overflow checks on, the call panics exactly for centres at the ends of the `i32` range: in `y`
always, in `x` when one of the three rows of the cross is on the image. -/
theorem C162_panics {α : Type _} (op : α → α → α) (im : Image α) (c : α) (x y : Int)
    (hw : im.w < 2 ^ 31) (hh : im.h < 2 ^ 31) (hx : -2 ^ 31 ≤ x ∧ x < 2 ^ 31) (hy : -2 ^ 31 ≤ y ∧ y < 2 ^ 31) :
    drawCross32 true op im c x y = none ↔
      y = -2 ^ 31 ∨ y = 2 ^ 31 - 1 ∨
        ((x = -2 ^ 31 ∨ x = 2 ^ 31 - 1) ∧ ∃ b : Nat, b < im.h ∧ ((b : Int) - y).natAbs ≤ 1) := by
  constructor
  · intro hn
    by_contra hc
    push Not at hc
    obtain ⟨h1, h2, h3⟩ := hc
    have hdx : (-2 ^ 31 < x ∧ x < 2 ^ 31 - 1) ∨ y < -1 ∨ (im.h : Int) < y ∨ im.h = 0 := by
      by_cases hxe : x = -2 ^ 31 ∨ x = 2 ^ 31 - 1
      · have h4 := h3 hxe
        right
        by_contra hc
        push Not at hc
        have := h4 (if y < 0 then 0 else if y = im.h then im.h - 1 else y.toNat)
          (by split_ifs <;> omega)
        split_ifs at this <;> omega
      · left; omega
    rw [drawCross32_eq true op im c x y hw hh hx hy (fun _ => by omega) (fun _ => hdx)] at hn
    obtain ⟨out, e, -⟩ := C49_cross op im c x y
    rw [e] at hn
    exact absurd hn (by simp)
  · intro hc
    unfold drawCross32
    have hI : ∀ (sy : Int) (s s' : Image α), (s.w = im.w ∧ s.h = im.h) →
        ((mi32 true (y + sy)).bind fun iy =>
          if iy < 0 ∨ iy ≥ asI32 s.h then some s
          else forList [-1, 0, 1] s fun (sx : Int) s =>
            (mi32 true (x + sx)).bind fun ix =>
            if ix < 0 ∨ ix ≥ asI32 s.w then some s
            else
              (crossStencil[(3 * (sy + 1) + sx + 1).toNat]?).bind fun v =>
              if v = 1 then drawPixel op s (castU32 ix) (castU32 iy) c else some s) = some s' →
        (s'.w = im.w ∧ s'.h = im.h) := by
      intro sy s s' hs e
      obtain ⟨iy, -, e⟩ := Option.bind_eq_some_iff.1 e
      split at e
      · cases e; exact hs
      · refine forList_inv (fun s => s.w = im.w ∧ s.h = im.h) ?_ _ s s' hs e
        intro sx s s' hs e
        have := crossCell_dims (m := mi32 true (x + sx)) (W := fun s => asI32 s.w) (g := castU32) (sy := sy) e
        exact ⟨this.1.trans hs.1, this.2.trans hs.2⟩
    by_cases hy1 : y = -2 ^ 31
    · refine forList_fail_inv (b0 := (-1 : Int)) (fun s => s.w = im.w ∧ s.h = im.h) hI ?_ _ im (by simp) ⟨rfl, rfl⟩
      intro s hs
      rw [mi32_true_none (by omega)]; rfl
    by_cases hy2 : y = 2 ^ 31 - 1
    · refine forList_fail_inv (b0 := (1 : Int)) (fun s => s.w = im.w ∧ s.h = im.h) hI ?_ _ im (by simp) ⟨rfl, rfl⟩
      intro s hs
      rw [mi32_true_none (by omega)]; rfl
    obtain ⟨hxe, b, hb, hby⟩ : (x = -2 ^ 31 ∨ x = 2 ^ 31 - 1) ∧ ∃ b : Nat, b < im.h ∧ ((b : Int) - y).natAbs ≤ 1 := by
      rcases hc with h | h | h
      · exact absurd h hy1
      · exact absurd h hy2
      · exact h
    refine forList_fail_inv (b0 := (b : Int) - y) (fun s => s.w = im.w ∧ s.h = im.h) hI ?_ _ im
      (by simp only [List.mem_cons, List.not_mem_nil]; omega) ⟨rfl, rfl⟩
    intro s hs
    have hb' : y + ((b : Int) - y) = b := by omega
    rw [hb', mi32_some true (by omega) (by omega), Option.bind_some, asI32_small (by omega), if_neg (by omega)]
    have hJ : ∀ (sx : Int) (t t' : Image α), (t.w = im.w ∧ t.h = im.h) →
        ((mi32 true (x + sx)).bind fun ix =>
            if ix < 0 ∨ ix ≥ asI32 t.w then some t
            else
              (crossStencil[(3 * ((b : Int) - y + 1) + sx + 1).toNat]?).bind fun v =>
              if v = 1 then drawPixel op t (castU32 ix) (castU32 b) c else some t) = some t' →
        (t'.w = im.w ∧ t'.h = im.h) := by
      intro sx t t' ht e
      have := crossCell_dims (m := mi32 true (x + sx)) (W := fun s => asI32 s.w) (g := castU32) (sy := (b : Int) - y) e
      exact ⟨this.1.trans ht.1, this.2.trans ht.2⟩
    rcases hxe with hxe | hxe
    · refine forList_fail_inv (b0 := (-1 : Int)) (fun s => s.w = im.w ∧ s.h = im.h) hJ ?_ _ s (by simp) hs
      intro t ht
      rw [mi32_true_none (by omega)]; rfl
    · refine forList_fail_inv (b0 := (1 : Int)) (fun s => s.w = im.w ∧ s.h = im.h) hJ ?_ _ s (by simp) hs
      intro t ht
      rw [mi32_true_none (by omega)]; rfl

/-- C162: away from the ends of the range both builds agree with the exact cross. -/
theorem C162_debug {α : Type _} (op : α → α → α) (im : Image α) (c : α) (x y : Int)
    (hw : im.w < 2 ^ 31) (hh : im.h < 2 ^ 31) (hx : -2 ^ 31 ≤ x ∧ x < 2 ^ 31) (hy : -2 ^ 31 ≤ y ∧ y < 2 ^ 31)
    (hs : drawCross32 true op im c x y ≠ none) :
    drawCross32 true op im c x y = drawCross32 false op im c x y := by
  rw [Ne, C162_panics op im c x y hw hh hx hy] at hs
  push Not at hs
  obtain ⟨h1, h2, h3⟩ := hs
  rw [drawCross32_eq false op im c x y hw hh hx hy (by simp) (by simp)]
  refine drawCross32_eq true op im c x y hw hh hx hy (fun _ => by omega) (fun _ => ?_)
  by_cases hxe : x = -2 ^ 31 ∨ x = 2 ^ 31 - 1
  · have h4 := h3 hxe
    right
    by_contra hc
    push Not at hc
    have := h4 (if y < 0 then 0 else if y = im.h then im.h - 1 else y.toNat)
      (by split_ifs <;> omega)
    split_ifs at this <;> omega
  · left; omega

/-- C162 is false as stated: the documentation says that coordinates outside the image are handled, but a
debug build panics for a centre at the end of the range. -/
theorem C162_negation :
    drawCross32 true overwrite (⟨5, 5, fun _ _ => 0⟩ : Image Nat) 9 2 2147483647 = none ∧
    drawCross32 true overwrite (⟨5, 5, fun _ _ => 0⟩ : Image Nat) 9 (-2147483648) 5 = none := by
  decide +kernel

example : ((drawCross32 true overwrite (⟨5, 5, fun _ _ => 0⟩ : Image Nat) 9 5 4).map fun o =>
    (o.px 4 4, o.px 4 3, o.px 3 4)) = some (9, 0, 0) := by decide +kernel

end Verif.Float
