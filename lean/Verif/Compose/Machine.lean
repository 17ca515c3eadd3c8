import Verif.Compose.Props
import Verif.Stats.Machine
/-
`crop`, `crop_parallel`, `replace` and `overlay` (src/compose.rs) with the `u32` arithmetic of
their coordinate sums, in debug builds (overflow panics) and release builds (overflow wraps).
Property theorem C202.
-/
namespace Verif.Compose
open Verif.Stats (u32)
variable {α : Type _}

/-! ### The model -/

/-- `crop` (src/compose.rs:38-48) and `crop_parallel` (:51-62) on `u32` coordinates. -/
def cropM [Inhabited α] (dbg : Bool) (im : Image α) (rx ry rw rh : Nat) : Option (Image α) :=
  (u32 dbg (rx + rw)).bind fun r => if r ≤ im.w then
    (u32 dbg (ry + rh)).bind fun b => if b ≤ im.h then
      Image.fromFn rw rh fun x y =>
        (u32 dbg (rx + x)).bind fun a => (u32 dbg (ry + y)).bind fun c => im.get a c
    else none
  else none

/-- `replace_mut` (src/compose.rs:211-226) on `u32` coordinates. -/
def replaceM (dbg : Bool) (bottom top : Image α) (x y : Nat) : Option (Image α) :=
  if x < bottom.w ∧ y < bottom.h then
    (csub bottom.w 1).bind fun w1 => (u32 dbg (x + top.w)).bind fun xr =>
    (csub bottom.h 1).bind fun h1 => (u32 dbg (y + top.h)).bind fun yr =>
    forYX y (min h1 yr) x (min w1 xr) bottom fun a b bottom =>
      (csub a x).bind fun ta => (csub b y).bind fun tb =>
      (top.get ta tb).bind fun v => bottom.put a b v
  else none

/-- `overlay_mut` (src/compose.rs:258-278) on `u32` coordinates. -/
def overlayM (dbg : Bool) (blend : α → α → α) (bottom top : Image α) (x y : Nat) :
    Option (Image α) :=
  if x < bottom.w ∧ y < bottom.h then
    (csub bottom.w 1).bind fun w1 => (u32 dbg (x + top.w)).bind fun xr =>
    (csub bottom.h 1).bind fun h1 => (u32 dbg (y + top.h)).bind fun yr =>
    forYX y (min h1 yr) x (min w1 xr) bottom fun a b bottom =>
      (bottom.get a b).bind fun bp =>
      (csub a x).bind fun ta => (csub b y).bind fun tb =>
      (bottom.get ta tb).bind fun tp => bottom.put a b (blend bp tp)
  else none

/-! ### Lemmas -/

theorem u32_fit (dbg : Bool) {z : Nat} (h : z < 2 ^ 32) : u32 dbg z = some z := by
  unfold u32; rw [if_pos h]

theorem u32_over_true {z : Nat} (h : 2 ^ 32 ≤ z) : u32 true z = none := by
  unfold u32; rw [if_neg (by omega)]; rfl

theorem u32_over_false {z : Nat} (h : 2 ^ 32 ≤ z) (h2 : z < 2 ^ 32 + 2 ^ 32) :
    u32 false z = some (z - 2 ^ 32) := by
  have e : z % 2 ^ 32 = z - 2 ^ 32 := by omega
  unfold u32; rw [if_neg (by omega), if_neg (by simp), e]

theorem forYX_nothing {σ : Type _} {f : Nat → Nat → σ → Option σ} {y0 y1 x0 x1 : Nat} {s : σ}
    (h : y1 ≤ y0 ∨ x1 ≤ x0) : forYX y0 y1 x0 x1 s f = some s := by
  unfold forYX
  rcases h with h | h
  · exact forRange_empty h
  · by_cases h' : y1 ≤ y0
    · exact forRange_empty h'
    · obtain ⟨s', e, i⟩ := forRange_spec (lo := y0) (hi := y1) (s := s)
        (f := fun y s => forRange x0 x1 s fun x s => f x y s) (fun _ t => t = s) (by omega) rfl
        (fun y t _ _ ht => ⟨t, forRange_empty h, ht⟩)
      rw [e, i]

/-! ### C202 -/

/-- C202: in both build profiles a rectangle with at least one pixel is accepted exactly if it
lies inside the image, and the result is then exactly that part of the image: a wrapped sum never
makes `crop` return pixels from elsewhere. -/
theorem C202_crop [Inhabited α] (dbg : Bool) (im : Image α) (rx ry rw rh : Nat)
    (hw : im.w < 2 ^ 32) (hh : im.h < 2 ^ 32) (hx : rx < 2 ^ 32) (hy : ry < 2 ^ 32)
    (hrw : rw < 2 ^ 32) (hrh : rh < 2 ^ 32) (pw : 0 < rw) (ph : 0 < rh) :
    (rx + rw ≤ im.w ∧ ry + rh ≤ im.h →
      ∃ out, cropM dbg im rx ry rw rh = some out ∧ out.w = rw ∧ out.h = rh ∧
        ∀ x y, x < rw → y < rh → out.px x y = im.px (rx + x) (ry + y)) ∧
    (im.w < rx + rw ∨ im.h < ry + rh → cropM dbg im rx ry rw rh = none) := by
  constructor
  · rintro ⟨h1, h2⟩
    unfold cropM
    rw [u32_fit dbg (by omega), Option.bind_some, if_pos h1, u32_fit dbg (by omega),
      Option.bind_some, if_pos h2]
    refine Image.fromFn_of_some fun x y hx hy => ?_
    rw [u32_fit dbg (by omega), Option.bind_some, u32_fit dbg (by omega), Option.bind_some,
      Image.get_of_inB (by omega) (by omega)]
  · intro h
    have key : ∀ r ≤ im.w, ∀ b ≤ im.h, u32 dbg (rx + rw) = some r → u32 dbg (ry + rh) = some b →
        (Image.fromFn rw rh fun x y => (u32 dbg (rx + x)).bind fun a =>
          (u32 dbg (ry + y)).bind fun c => im.get a c) = none := by
      intro r hr b hb er eb
      unfold Image.fromFn
      rw [if_neg]
      intro hall
      have h0 := hall 0 ph 0 pw
      dsimp only at h0
      rw [u32_fit dbg (by omega), Option.bind_some, u32_fit dbg (by omega), Option.bind_some] at h0
      have hin : rx < im.w ∧ ry < im.h := by
        by_contra hc
        rw [Image.get, if_neg (by unfold Image.InB; omega)] at h0
        simp at h0
      have hlast := hall (if rh < 2 ^ 32 - ry then rh - 1 else 2 ^ 32 - 1 - ry)
        (by split_ifs <;> omega) (if rw < 2 ^ 32 - rx then rw - 1 else 2 ^ 32 - 1 - rx)
        (by split_ifs <;> omega)
      dsimp only at hlast
      rw [u32_fit dbg (by split_ifs <;> omega), Option.bind_some,
        u32_fit dbg (by split_ifs <;> omega), Option.bind_some, Image.get,
        if_neg (by unfold Image.InB; split_ifs <;> omega)] at hlast
      simp at hlast
    unfold cropM
    rcases er : u32 dbg (rx + rw) with _ | r
    · rfl
    · rw [Option.bind_some]
      split_ifs with c1
      · rcases eb : u32 dbg (ry + rh) with _ | b
        · rfl
        · rw [Option.bind_some]
          split_ifs with c2
          · exact key r c1 b c2 er eb
          · rfl
      · rfl

example : (cropM false (Image.ofRows 0 [[1, 2, 3], [4, 5, 6], [7, 8, 9]]) 1 1 2 2).map Image.rows =
    some [[5, 6], [8, 9]] := by decide +kernel

/-- C202: an empty rectangle is accepted in debug builds exactly if its edges fit, and in release
builds exactly if its right and bottom edges, taken modulo 2^32, do. -/
theorem C202_crop_empty [Inhabited α] (im : Image α) (rx ry rw rh : Nat)
    (hw : im.w < 2 ^ 32) (hh : im.h < 2 ^ 32) (he : rw = 0 ∨ rh = 0) :
    ((cropM true im rx ry rw rh).isSome = true ↔ rx + rw ≤ im.w ∧ ry + rh ≤ im.h) ∧
    ((cropM false im rx ry rw rh).isSome = true ↔
      (rx + rw) % 2 ^ 32 ≤ im.w ∧ (ry + rh) % 2 ^ 32 ≤ im.h) := by
  have hf : ∀ f : Nat → Nat → Option α, (Image.fromFn rw rh f).isSome = true := by
    intro f
    unfold Image.fromFn
    rw [if_pos (by rintro y hy x hx; omega)]; rfl
  have hr : ∀ z, u32 false z = some (z % 2 ^ 32) := by
    intro z; unfold u32
    by_cases h1 : z < 2 ^ 32
    · rw [if_pos h1, Nat.mod_eq_of_lt h1]
    · rw [if_neg h1, if_neg (by simp)]
  constructor
  · unfold cropM
    by_cases c1 : rx + rw < 2 ^ 32
    · rw [u32_fit _ c1, Option.bind_some]
      by_cases c2 : rx + rw ≤ im.w
      · rw [if_pos c2]
        by_cases c3 : ry + rh < 2 ^ 32
        · rw [u32_fit _ c3, Option.bind_some]
          by_cases c4 : ry + rh ≤ im.h
          · rw [if_pos c4]; simp only [hf]; simp [c2, c4]
          · rw [if_neg c4]; simp [c4]
        · rw [u32_over_true (by omega)]; simp; omega
      · rw [if_neg c2]; simp [c2]
    · rw [u32_over_true (by omega)]; simp; omega
  · unfold cropM
    rw [hr, hr, Option.bind_some, Option.bind_some]
    by_cases c2 : (rx + rw) % 2 ^ 32 ≤ im.w
    · rw [if_pos c2]
      by_cases c4 : (ry + rh) % 2 ^ 32 ≤ im.h
      · rw [if_pos c4]; simp only [hf]; simp only [c2, c4, and_self]
      · rw [if_neg c4]; simp only [c4, and_false, Option.isSome_none, Bool.false_eq_true]
    · rw [if_neg c2]; simp only [c2, false_and, Option.isSome_none, Bool.false_eq_true]

/-- C202 is false of the code: on a 1x1 image a release build accepts a rectangle two billion
columns to the right of the image (and 2^31 columns wide, without rows), which a debug build
rejects. -/
theorem C202_negation :
    ¬ ∀ (dbg : Bool) (im : Image Nat) (rx ry rw rh : Nat), im.w < 2 ^ 32 → im.h < 2 ^ 32 →
      rx < 2 ^ 32 → ry < 2 ^ 32 → rw < 2 ^ 32 → rh < 2 ^ 32 →
      im.w < rx + rw ∨ im.h < ry + rh → cropM dbg im rx ry rw rh = none := by
  intro h
  have h1 := h false (Image.new 1 1 0) (2 ^ 31) 0 (2 ^ 31) 0 (by norm_num [Image.new])
    (by norm_num [Image.new]) (by norm_num) (by norm_num) (by norm_num) (by norm_num)
    (Or.inl (by norm_num [Image.new]))
  have h2 := (C202_crop_empty (Image.new 1 1 0) (2 ^ 31) 0 (2 ^ 31) 0 (by norm_num [Image.new])
    (by norm_num [Image.new]) (Or.inr rfl)).2.2 ⟨by norm_num [Image.new], by norm_num [Image.new]⟩
  rw [h1] at h2
  simp at h2

/-- C202 (partial: the sums must fit in a `u32`): then `replace` and `overlay` are, in both build
profiles, the functions on unbounded coordinates of C22 and C23. -/
theorem C202_paste_partial (dbg : Bool) (blend : α → α → α) (bottom top : Image α) (x y : Nat)
    (hx : x + top.w < 2 ^ 32) (hy : y + top.h < 2 ^ 32) :
    replaceM dbg bottom top x y = replace bottom top x y ∧
    overlayM dbg blend bottom top x y = overlay blend bottom top x y := by
  constructor
  · unfold replaceM replace
    rw [u32_fit dbg hx, u32_fit dbg hy]
    rfl
  · unfold overlayM overlay
    rw [u32_fit dbg hx, u32_fit dbg hy]
    rfl

example : (replaceM true (Image.ofRows 0 [[0, 0, 0], [0, 0, 0], [0, 0, 0]])
    (Image.ofRows 0 [[1, 2, 3], [4, 5, 6]]) 1 0).map Image.rows =
    some [[0, 1, 0], [0, 4, 0], [0, 0, 0]] := by decide +kernel

/-- C202 (when a sum does not fit): debug builds panic, and release builds leave the bottom image
completely unchanged, although the top image then covers everything right of (or below) the
offset. -/
theorem C202_paste_overflow (blend : α → α → α) (bottom top : Image α) (x y : Nat)
    (hx : x < bottom.w) (hy : y < bottom.h) (hw : bottom.w < 2 ^ 32) (hh : bottom.h < 2 ^ 32)
    (htw : top.w < 2 ^ 32) (hth : top.h < 2 ^ 32)
    (ho : 2 ^ 32 ≤ x + top.w ∨ 2 ^ 32 ≤ y + top.h) :
    replaceM true bottom top x y = none ∧ overlayM true blend bottom top x y = none ∧
    replaceM false bottom top x y = some bottom ∧
    overlayM false blend bottom top x y = some bottom := by
  have hd : ∀ f : Nat → Nat → Image α → Option (Image α),
      ((csub bottom.w 1).bind fun w1 => (u32 true (x + top.w)).bind fun xr =>
        (csub bottom.h 1).bind fun h1 => (u32 true (y + top.h)).bind fun yr =>
        forYX y (min h1 yr) x (min w1 xr) bottom f) = none := by
    intro f
    rw [csub_of_le (by omega), csub_of_le (by omega), Option.bind_some]
    by_cases c : 2 ^ 32 ≤ x + top.w
    · rw [u32_over_true c]; rfl
    · rw [u32_fit _ (by omega), Option.bind_some, Option.bind_some, u32_over_true (by omega)]; rfl
  have hr : ∀ f : Nat → Nat → Image α → Option (Image α),
      ((csub bottom.w 1).bind fun w1 => (u32 false (x + top.w)).bind fun xr =>
        (csub bottom.h 1).bind fun h1 => (u32 false (y + top.h)).bind fun yr =>
        forYX y (min h1 yr) x (min w1 xr) bottom f) = some bottom := by
    intro f
    rw [csub_of_le (by omega), csub_of_le (by omega), Option.bind_some]
    by_cases c : 2 ^ 32 ≤ x + top.w
    · rw [u32_over_false c (by omega), Option.bind_some, Option.bind_some]
      by_cases c2 : 2 ^ 32 ≤ y + top.h
      · rw [u32_over_false c2 (by omega), Option.bind_some]
        exact forYX_nothing (by omega)
      · rw [u32_fit _ (by omega), Option.bind_some]
        exact forYX_nothing (by omega)
    · rw [u32_fit _ (by omega), Option.bind_some, Option.bind_some,
        u32_over_false (by omega) (by omega), Option.bind_some]
      exact forYX_nothing (by omega)
  unfold replaceM overlayM
  simp only [if_pos (show x < bottom.w ∧ y < bottom.h from ⟨hx, hy⟩)]
  exact ⟨hd _, hd _, hr _, hr _⟩

/-- C202 is false of the code for `replace` too: with a top image 2^32 - 1 columns wide and one
row high at column 1 of a 3x2 image, the covered pixel (1, 0) keeps its old value in a release
build. -/
theorem C202_negation_replace :
    ¬ ∀ (bottom top : Image Nat) (x y a b : Nat), bottom.w < 2 ^ 32 → bottom.h < 2 ^ 32 →
      top.w < 2 ^ 32 → top.h < 2 ^ 32 → x ≤ a → a < x + top.w → y ≤ b → b < y + top.h →
      a + 1 < bottom.w → b + 1 < bottom.h →
      ∃ out, replaceM false bottom top x y = some out ∧ out.px a b = top.px (a - x) (b - y) := by
  intro h
  obtain ⟨out, e, p⟩ := h (Image.new 3 2 0) (Image.new (2 ^ 32 - 1) 1 7) 1 0 1 0
    (by norm_num [Image.new]) (by norm_num [Image.new]) (by norm_num [Image.new])
    (by norm_num [Image.new]) (by norm_num) (by norm_num [Image.new]) (by norm_num)
    (by norm_num [Image.new]) (by norm_num [Image.new]) (by norm_num [Image.new])
  have := (C202_paste_overflow (fun a _ => a) (Image.new 3 2 0) (Image.new (2 ^ 32 - 1) 1 7) 1 0
    (by norm_num [Image.new]) (by norm_num [Image.new]) (by norm_num [Image.new])
    (by norm_num [Image.new]) (by norm_num [Image.new]) (by norm_num [Image.new])
    (Or.inl (by norm_num [Image.new]))).2.2.1
  rw [this] at e
  cases e
  simp [Image.new] at p

end Verif.Compose
