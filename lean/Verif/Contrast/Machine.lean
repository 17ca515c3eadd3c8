import Verif.Contrast.Threshold
import Verif.Float.Rect
import Verif.Float.WarpSafe
/-
Property C157: integral images (src/integral_image.rs) and `adaptive_threshold` (src/contrast.rs:19-47) in machine arithmetic.
`dbg = true` is a build with overflow checks (`none` is the panic), `dbg = false` one that wraps.
-/
namespace Verif.Machine
open Finset Verif.Integral Verif.Contrast Verif.Float

/-- The result `v` of an operation in an unsigned type with values below `bound`. -/
def red (dbg : Bool) (bound v : Nat) : Option Nat :=
  if dbg then if v < bound then some v else none else some (v % bound)

/-- Inner loop body of `integral_image_impl`, integral_image.rs:128-147; `val` is `pix` or `pix * pix`. -/
def integralStepM {α : Type _} (dbg : Bool) (bound : Nat) (im : Image α) (val : α → Nat) (y x : Nat)
    (st : Image Nat × Nat) : Option (Image Nat × Nat) :=
  (im.get x y).bind fun input =>
  (red dbg bound (val input)).bind fun v =>
  (red dbg bound (st.2 + v)).bind fun sum =>
  (st.1.get (x + 1) y).bind fun above =>
  (red dbg bound (above + sum)).bind fun cur =>
  (st.1.put (x + 1) (y + 1) cur).map fun out => (out, sum)

/-- `integral_image_impl`, integral_image.rs:98-152, one channel. -/
def integralImageM {α : Type _} (dbg : Bool) (bound : Nat) (im : Image α) (val : α → Nat) : Option (Image Nat) :=
  let out := Image.new (im.w + 1) (im.h + 1) 0
  if im.w = 0 ∨ im.h = 0 then some out
  else forRange 0 im.h out fun y out =>
    (forRange 0 im.w (out, 0) (integralStepM dbg bound im val y)).map Prod.fst

/-- The unsigned difference. -/
def subM (dbg : Bool) (bound a b : Nat) : Option Nat :=
  if dbg then csub a b else some ((a + (bound - b % bound)) % bound)

/-- `sum_image_pixels` (one channel), integral_image.rs:250-269. -/
def sumImagePixelsM (dbg : Bool) (bound : Nat) (I : Image Nat) (left top right bottom : Nat) : Option Nat :=
  (I.get (right + 1) (bottom + 1)).bind fun a =>
  (I.get left top).bind fun b =>
  (I.get (right + 1) top).bind fun c =>
  (I.get left (bottom + 1)).bind fun d =>
  (red dbg bound (a + b)).bind fun s => (subM dbg bound s c).bind fun s => subM dbg bound s d

/-- `adaptive_threshold`, contrast.rs:19-47. -/
def adaptiveThresholdM (dbg : Bool) (im : Image Nat) (r : Nat) (delta : Int) : Option (Image Nat) :=
  if 0 < r then
    (integralImageM dbg (2 ^ 32) im fun v => v).bind fun integral =>
    forYX 0 im.h 0 im.w (Image.new im.w im.h 0) fun x y out =>
      (im.get x y).bind fun cur =>
      (mi32 dbg (asI32 y - asI32 r)).bind fun yl =>
      (subM dbg (2 ^ 32) im.h 1).bind fun h1 => (red dbg (2 ^ 32) (y + r)).bind fun yr =>
      let yLow := castU32 (max 0 yl)
      let yHigh := min h1 yr
      (mi32 dbg (asI32 x - asI32 r)).bind fun xl =>
      (subM dbg (2 ^ 32) im.w 1).bind fun w1 => (red dbg (2 ^ 32) (x + r)).bind fun xr =>
      let xLow := castU32 (max 0 xl)
      let xHigh := min w1 xr
      (subM dbg (2 ^ 32) yHigh yLow).bind fun dh => (red dbg (2 ^ 32) (dh + 1)).bind fun dh =>
      (subM dbg (2 ^ 32) xHigh xLow).bind fun dw => (red dbg (2 ^ 32) (dw + 1)).bind fun dw =>
      (red dbg (2 ^ 32) (dh * dw)).bind fun w =>
      (sumImagePixelsM dbg (2 ^ 32) integral xLow yLow xHigh yHigh).bind fun sum =>
      if w = 0 then none else
      (mi32 dbg (asI32 (sum / w) - delta)).bind fun t =>
      if (cur : Int) ≥ t then out.put x y 255 else some out
  else none

/-! ### Integral images -/

/-- The value held for the exact value `v`. -/
def R (dbg : Bool) (bound v : Nat) : Nat := if dbg then v else v % bound

theorem R_true (bound v : Nat) : R true bound v = v := rfl
theorem R_false (bound v : Nat) : R false bound v = v % bound := rfl

theorem red_R {dbg : Bool} {bound v : Nat} (h : dbg = true → v < bound) : red dbg bound v = some (R dbg bound v) := by
  cases dbg
  · rfl
  · exact if_pos (h rfl)

theorem red_add {dbg : Bool} {bound u v : Nat} (h : dbg = true → u + v < bound) :
    red dbg bound (R dbg bound u + R dbg bound v) = some (R dbg bound (u + v)) := by
  cases dbg
  · simp only [red, R, Bool.false_eq_true, if_false, Nat.add_mod_mod, Nat.mod_add_mod]
  · exact if_pos (h rfl)

theorem R_zero (dbg : Bool) (bound : Nat) : R dbg bound 0 = 0 := by cases dbg <;> simp [R]

theorem integralRowM {α : Type _} {dbg : Bool} {bound : Nat} (im : Image α) (val : α → Nat)
    (hfit : dbg = true → prefixSum im val im.w im.h < bound) (y : Nat)
    (hy : y < im.h) (out : Image Nat) (ow : out.w = im.w + 1) (oh : out.h = im.h + 1)
    (ho : ∀ a b, a ≤ im.w → out.px a b = if b ≤ y then R dbg bound (prefixSum im val a b) else 0) :
    ∃ st, forRange 0 im.w (out, 0) (integralStepM dbg bound im val y) = some st ∧
      st.1.w = im.w + 1 ∧ st.1.h = im.h + 1 ∧
      (∀ a b, a ≤ im.w → st.1.px a b = if b ≤ y + 1 then R dbg bound (prefixSum im val a b) else 0) := by
  obtain ⟨st, e, h1, h2, h3, h4⟩ := forRange_spec (f := integralStepM dbg bound im val y)
    (fun x (st : Image Nat × Nat) => st.1.w = im.w + 1 ∧ st.1.h = im.h + 1 ∧
      st.2 = R dbg bound (∑ i ∈ range x, val (im.px i y)) ∧
      ∀ a b, a ≤ im.w → st.1.px a b =
        if b ≤ y ∨ (b = y + 1 ∧ a ≤ x) then R dbg bound (prefixSum im val a b) else 0)
    (lo := 0) (hi := im.w) (s := (out, 0)) (by omega)
    ⟨ow, oh, by rw [sum_range_zero, R_zero], by
      intro a b ha
      rw [ho a b ha]
      by_cases hb : b ≤ y
      · simp [hb]
      · rw [if_neg hb]
        split
        · next h =>
          have : a = 0 := by omega
          rw [this, prefixSum_zero_left, R_zero]
        · rfl⟩
    (by
      intro x st _ hx ⟨h1, h2, h3, h4⟩
      have m1 : prefixSum im val (x + 1) (y + 1) ≤ prefixSum im val im.w im.h :=
        prefixSum_mono im val (by omega) (by omega)
      have e1 := prefixSum_succ im val (x + 1) y
      have e2 := sum_range_succ (fun i => val (im.px i y)) x
      simp only [integralStepM]
      rw [Image.get_of_inB hx hy, Option.bind_some, red_R (fun hd => by have := hfit hd; omega), Option.bind_some, h3,
        red_add (fun hd => by have := hfit hd; omega), Option.bind_some,
        Image.get_of_inB (by omega) (by omega), Option.bind_some, h4 (x + 1) y (by omega), if_pos (by omega), ← e2,
        red_add (fun hd => by have := hfit hd; omega), Option.bind_some,
        Image.put_of_inB _ (by omega) (by omega), Option.map_some]
      refine ⟨_, rfl, h1, h2, rfl, ?_⟩
      · intro a b ha
        dsimp only
        by_cases hab : a = x + 1 ∧ b = y + 1
        · rw [if_pos hab, if_pos (by omega), hab.1, hab.2, prefixSum_succ]
        · rw [if_neg hab, h4 a b ha]
          by_cases hc : b ≤ y ∨ (b = y + 1 ∧ a ≤ x)
          · rw [if_pos hc, if_pos (by omega)]
          · rw [if_neg hc, if_neg (by omega)])
  refine ⟨st, e, h1, h2, ?_⟩
  intro a b ha
  rw [h4 a b ha]
  by_cases hc : b ≤ y + 1
  · rw [if_pos hc, if_pos (by omega)]
  · rw [if_neg hc, if_neg (by omega)]

theorem integralImageM_spec {α : Type _} {dbg : Bool} {bound : Nat} (im : Image α) (val : α → Nat)
    (hfit : dbg = true → prefixSum im val im.w im.h < bound) :
    ∃ out, integralImageM dbg bound im val = some out ∧ out.w = im.w + 1 ∧ out.h = im.h + 1 ∧
      ∀ x y, x ≤ im.w → y ≤ im.h → out.px x y = R dbg bound (prefixSum im val x y) := by
  unfold integralImageM
  dsimp only
  split
  · next h0 =>
    refine ⟨_, rfl, rfl, rfl, ?_⟩
    intro x y hx hy
    have : x = 0 ∨ y = 0 := by omega
    rcases this with rfl | rfl
    · rw [prefixSum_zero_left, R_zero]; rfl
    · rw [prefixSum_zero_right, R_zero]; rfl
  · obtain ⟨out, e, h1, h2, h3⟩ := forRange_spec
      (f := fun y out => (forRange 0 im.w (out, 0) (integralStepM dbg bound im val y)).map Prod.fst)
      (fun y (out : Image Nat) => out.w = im.w + 1 ∧ out.h = im.h + 1 ∧
        ∀ a b, a ≤ im.w → out.px a b = if b ≤ y then R dbg bound (prefixSum im val a b) else 0)
      (lo := 0) (hi := im.h) (s := Image.new (im.w + 1) (im.h + 1) 0) (by omega)
      ⟨rfl, rfl, by
        intro a b _
        split
        · next h =>
          have : b = 0 := by omega
          rw [this, prefixSum_zero_right, R_zero]; rfl
        · rfl⟩
      (by
        intro y s _ hy ⟨h1, h2, h3⟩
        obtain ⟨st, e, h⟩ := integralRowM im val hfit y hy s h1 h2 h3
        exact ⟨st.1, by rw [e]; rfl, h⟩)
    refine ⟨out, e, h1, h2, ?_⟩
    intro x y hx hy
    rw [h3 x y hx, if_pos hy]

theorem forRange_refine {σ : Type _} {f g : Nat → σ → Option σ} (hfg : ∀ i s s', f i s = some s' → g i s = some s')
    {lo hi : Nat} {s r : σ} (h : forRange lo hi s f = some r) : forRange lo hi s g = some r := by
  by_cases hle : lo ≤ hi
  · induction hi, hle using Nat.le_induction generalizing r with
    | base => rwa [forRange_empty le_rfl] at h ⊢
    | succ n hn ih =>
      rw [forRange_succ_last hn] at h ⊢
      obtain ⟨t, e1, e2⟩ := Option.bind_eq_some_iff.1 h
      rw [ih e1]
      exact hfg n t r e2
  · rwa [forRange_empty (by omega)] at h ⊢

theorem red_true {bound v w : Nat} (h : red true bound v = some w) : w = v ∧ v < bound := by
  unfold red at h
  rw [if_pos rfl] at h
  split at h
  · cases h; exact ⟨rfl, by assumption⟩
  · cases h

theorem integralStepM_some {α : Type _} {bound : Nat} {im : Image α} {val : α → Nat} {y x : Nat}
    {st st' : Image Nat × Nat} (h : integralStepM true bound im val y x st = some st') :
    integralStep im val y x st = some st' ∧ ((∀ a b, st.1.px a b < bound) → ∀ a b, st'.1.px a b < bound) := by
  unfold integralStepM at h
  obtain ⟨i, h1, h⟩ := Option.bind_eq_some_iff.1 h
  obtain ⟨v, h2, h⟩ := Option.bind_eq_some_iff.1 h
  obtain ⟨s, h3, h⟩ := Option.bind_eq_some_iff.1 h
  obtain ⟨a, h4, h⟩ := Option.bind_eq_some_iff.1 h
  obtain ⟨c, h5, h⟩ := Option.bind_eq_some_iff.1 h
  obtain ⟨rfl, -⟩ := red_true h2
  obtain ⟨rfl, -⟩ := red_true h3
  obtain ⟨rfl, hc⟩ := red_true h5
  constructor
  · unfold integralStep
    rw [h1, Option.bind_some]
    dsimp only
    rw [h4, Option.bind_some, h]
  · obtain ⟨o, e1, e2⟩ := Option.map_eq_some_iff.1 h
    subst e2
    intro hb p q
    unfold Image.put at e1
    split at e1
    · cases e1
      dsimp only
      split
      · exact hc
      · exact hb p q
    · cases e1

/-- C157: with overflow checks the integral image (of values or squares, in any accumulator type) is built if and only if the
sum over the whole image fits the accumulator, and it is then exact (C09). -/
theorem C157_build {α : Type _} (bound : Nat) (hb : 0 < bound) (im : Image α) (val : α → Nat) :
    ((integralImageM true bound im val).isSome ↔ ∑ j ∈ range im.h, ∑ i ∈ range im.w, val (im.px i j) < bound) ∧
    ∀ I, integralImageM true bound im val = some I → I.w = im.w + 1 ∧ I.h = im.h + 1 ∧
      ∀ x y, x ≤ im.w → y ≤ im.h → I.px x y = ∑ j ∈ range y, ∑ i ∈ range x, val (im.px i j) := by
  have sound : ∀ I, integralImageM true bound im val = some I →
      integralImage im val = some I ∧ ∀ a b, I.px a b < bound := by
    intro I h
    unfold integralImageM at h
    unfold integralImage
    dsimp only at h ⊢
    split at h
    · next h0 =>
      rw [if_pos h0, h]
      cases h
      exact ⟨rfl, fun _ _ => hb⟩
    · next h0 =>
      rw [if_neg h0]
      constructor
      · refine forRange_refine ?_ h
        intro i s s' e
        obtain ⟨t, e1, e2⟩ := Option.map_eq_some_iff.1 e
        rw [forRange_refine (fun i s s' e => (integralStepM_some e).1) e1, Option.map_some, e2]
      · refine forRange_inv (fun _ (s : Image Nat) => ∀ a b, s.px a b < bound) (Nat.zero_le _) (fun _ _ => hb) ?_ h
        intro i s s' _ _ hs e
        obtain ⟨t, e1, e2⟩ := Option.map_eq_some_iff.1 e
        subst e2
        exact forRange_inv (fun _ (s : Image Nat × Nat) => ∀ a b, s.1.px a b < bound) (Nat.zero_le _) hs
          (fun _ _ _ _ _ hs e => (integralStepM_some e).2 hs) e1
  obtain ⟨J, eJ, j1, j2, j3⟩ := integralImage_spec im val
  refine ⟨⟨?_, ?_⟩, ?_⟩
  · intro h
    obtain ⟨I, e⟩ := Option.isSome_iff_exists.1 h
    obtain ⟨e1, e2⟩ := sound I e
    rw [eJ] at e1
    cases e1
    have := e2 im.w im.h
    rwa [j3 _ _ le_rfl le_rfl] at this
  · intro h
    obtain ⟨I, e, -⟩ := integralImageM_spec (dbg := true) (bound := bound) im val (fun _ => h)
    rw [e]; rfl
  · intro I e
    obtain ⟨e1, -⟩ := sound I e
    rw [eJ] at e1
    cases e1
    exact ⟨j1, j2, j3⟩

/-- C157: without overflow checks the integral image is always built and exact modulo the range of the accumulator. -/
theorem C157_build_wrapping {α : Type _} (bound : Nat) (im : Image α) (val : α → Nat) :
    ∃ I, integralImageM false bound im val = some I ∧ I.w = im.w + 1 ∧ I.h = im.h + 1 ∧
      ∀ x y, x ≤ im.w → y ≤ im.h → I.px x y = (∑ j ∈ range y, ∑ i ∈ range x, val (im.px i j)) % bound :=
  integralImageM_spec im val (by simp)

theorem wrap_sum {m a b c d S : Nat} (hm : 0 < m) (h : a + b ≡ S + c + d [MOD m]) :
    ((((a + b) % m + (m - c % m)) % m + (m - d % m)) % m) = S % m := by
  have k : ∀ u v : Nat, (u + (m - v % m)) % m + v ≡ u [MOD m] := by
    intro u v
    have e1 : (u + (m - v % m)) % m ≡ u + (m - v % m) [MOD m] := Nat.mod_modEq _ _
    have e2 : v ≡ v % m [MOD m] := (Nat.mod_modEq _ _).symm
    have e3 := e1.add e2
    refine e3.trans ?_
    have : u + (m - v % m) + v % m = u + m := by have := Nat.mod_lt v hm; omega
    rw [this]
    simp [Nat.ModEq]
  have k1 := k ((a + b) % m) c
  have k2 := k (((a + b) % m + (m - c % m)) % m) d
  have k3 := (k2.add_right c).trans k1 |>.trans (Nat.mod_modEq _ _) |>.trans h
  have k4 : ((((a + b) % m + (m - c % m)) % m + (m - d % m)) % m) ≡ S [MOD m] := by
    refine Nat.ModEq.add_right_cancel' (c + d) ?_
    rw [← Nat.add_assoc, ← Nat.add_assoc]
    refine (show _ ≡ _ [MOD m] from ?_).trans k3
    rw [Nat.add_assoc, Nat.add_comm c d, ← Nat.add_assoc]
  have := k4
  unfold Nat.ModEq at this
  rwa [Nat.mod_mod] at this

/-- Block sums from the table of the same build profile. -/
theorem sumM_spec {α : Type _} {dbg : Bool} {bound : Nat} (hb : 0 < bound) (im : Image α) (val : α → Nat) (I : Image Nat)
    (iw : I.w = im.w + 1) (ih : I.h = im.h + 1)
    (ip : ∀ x y, x ≤ im.w → y ≤ im.h → I.px x y = R dbg bound (prefixSum im val x y)) {l t r b : Nat} (hl : l ≤ r)
    (hr : r < im.w) (ht : t ≤ b) (hb' : b < im.h)
    (hfit : dbg = true → prefixSum im val (r + 1) (b + 1) + prefixSum im val l t < bound) :
    sumImagePixelsM dbg bound I l t r b = some (R dbg bound (rectSum im val l t r b)) := by
  have key := prefix_inclusion im val (l := l) (t := t) (r := r) (b := b) (by omega) (by omega)
  unfold sumImagePixelsM
  rw [Image.get_of_inB (by omega) (by omega), Image.get_of_inB (by omega) (by omega),
    Image.get_of_inB (by omega) (by omega), Image.get_of_inB (by omega) (by omega)]
  simp only [Option.bind_some]
  rw [ip _ _ (by omega) (by omega), ip _ _ (by omega) (by omega), ip _ _ (by omega) (by omega),
    ip _ _ (by omega) (by omega)]
  cases dbg
  · simp only [red, subM, R, Bool.false_eq_true, if_false, Option.bind_some]
    rw [wrap_sum hb (S := rectSum im val l t r b)]
    unfold Nat.ModEq
    simp only [Nat.add_mod_mod, Nat.mod_add_mod]
    rw [key]
    simp only [Nat.add_mod, Nat.mod_mod]
  · have hf := hfit rfl
    simp only [red, subM, R, if_true]
    rw [if_pos hf, Option.bind_some, csub_of_le (by omega), Option.bind_some, csub_of_le (by omega)]
    congr 1
    omega

/-! ### Adaptive threshold -/

theorem sub32 {dbg : Bool} {a b : Nat} (h : b ≤ a) (ha : a < 2 ^ 32) : subM dbg (2 ^ 32) a b = some (a - b) := by
  cases dbg
  · simp only [subM, Bool.false_eq_true, if_false, Option.some.injEq]
    rw [Nat.mod_eq_of_lt (show b < 2 ^ 32 by omega)]
    omega
  · exact csub_of_le h

theorem red32 {dbg : Bool} {v : Nat} (h : v < 2 ^ 32) : red dbg (2 ^ 32) v = some v := by
  rw [red_R (fun _ => h)]
  cases dbg
  · rw [R_false, Nat.mod_eq_of_lt h]
  · rfl

theorem mi32_ok {dbg : Bool} {z : Int} (h1 : -2 ^ 31 ≤ z) (h2 : z < 2 ^ 31) : mi32 dbg z = some z := by
  cases dbg
  · exact exact_wrap z h1 h2
  · exact exact_chk z h1 h2

/-- One pixel of `adaptive_threshold`. -/
theorem threshold_pixel {dbg : Bool} {im I : Image Nat} {r : Nat} {delta : Int}
    (hw : im.w < 2 ^ 31) (hh : im.h < 2 ^ 31) (hn : im.w * im.h < 2 ^ 32) (hr' : r < 2 ^ 31)
    (hp : ∀ x y, im.px x y ≤ 255) (hd : 255 - 2 ^ 31 < delta) (hd' : delta < 2 ^ 31)
    (iw : I.w = im.w + 1) (ih : I.h = im.h + 1)
    (ip : ∀ x y, x ≤ im.w → y ≤ im.h → I.px x y = R dbg (2 ^ 32) (prefixSum im (fun v => v) x y))
    (hfit : dbg = true → ∀ x y, x < im.w → y < im.h →
      prefixSum im (fun v => v) (min (im.w - 1) (x + r) + 1) (min (im.h - 1) (y + r) + 1) +
        prefixSum im (fun v => v) (x - r) (y - r) < 2 ^ 32)
    (x y : Nat) (hx : x < im.w) (hy : y < im.h) (out : Image Nat) :
    ((im.get x y).bind fun cur =>
      (mi32 dbg (asI32 y - asI32 r)).bind fun yl =>
      (subM dbg (2 ^ 32) im.h 1).bind fun h1 => (red dbg (2 ^ 32) (y + r)).bind fun yr =>
      let yLow := castU32 (max 0 yl)
      let yHigh := min h1 yr
      (mi32 dbg (asI32 x - asI32 r)).bind fun xl =>
      (subM dbg (2 ^ 32) im.w 1).bind fun w1 => (red dbg (2 ^ 32) (x + r)).bind fun xr =>
      let xLow := castU32 (max 0 xl)
      let xHigh := min w1 xr
      (subM dbg (2 ^ 32) yHigh yLow).bind fun dh => (red dbg (2 ^ 32) (dh + 1)).bind fun dh =>
      (subM dbg (2 ^ 32) xHigh xLow).bind fun dw => (red dbg (2 ^ 32) (dw + 1)).bind fun dw =>
      (red dbg (2 ^ 32) (dh * dw)).bind fun w =>
      (sumImagePixelsM dbg (2 ^ 32) I xLow yLow xHigh yHigh).bind fun sum =>
      if w = 0 then none else
      (mi32 dbg (asI32 (sum / w) - delta)).bind fun t =>
      if (cur : Int) ≥ t then out.put x y 255 else some out) =
    if (((R dbg (2 ^ 32) (∑ p ∈ block im x y r, im.px p.1 p.2) / (block im x y r).card : Nat)) : Int)
      ≤ (im.px x y : Int) + delta then out.put x y 255 else some out := by
  have low : ∀ {a : Nat}, a < 2 ^ 31 → castU32 (max 0 (asI32 a - asI32 r)) = a - r := by
    intro a ha
    rw [asI32_small ha, asI32_small hr']
    unfold castU32
    rw [Int.emod_eq_of_lt (by omega) (by omega)]
    omega
  have mi : ∀ {a : Nat}, a < 2 ^ 31 → mi32 dbg (asI32 a - asI32 r) = some (asI32 a - asI32 r) := by
    intro a ha
    rw [asI32_small ha, asI32_small hr']
    exact mi32_ok (by omega) (by omega)
  have hcard : (block im x y r).card =
      (min (im.h - 1) (y + r) - (y - r) + 1) * (min (im.w - 1) (x + r) - (x - r) + 1) := by
    rw [block_eq im x y r hx hy, card_product, Nat.card_Icc, Nat.card_Icc, Nat.mul_comm]
    congr 1 <;> omega
  have hsum : rectSum im (fun v => v) (x - r) (y - r) (min (im.w - 1) (x + r)) (min (im.h - 1) (y + r)) =
      ∑ p ∈ block im x y r, im.px p.1 p.2 := by
    rw [block_eq im x y r hx hy, sum_product_right]
    unfold rectSum
    rw [show (max 0 ((x : Int) - r)).toNat = x - r by omega, show (max 0 ((y : Int) - r)).toNat = y - r by omega]
  have hc1 : (min (im.h - 1) (y + r) - (y - r) + 1) * (min (im.w - 1) (x + r) - (x - r) + 1) ≤ im.h * im.w :=
    Nat.mul_le_mul (by omega) (by omega)
  have hc2 : 0 < (min (im.h - 1) (y + r) - (y - r) + 1) * (min (im.w - 1) (x + r) - (x - r) + 1) :=
    Nat.mul_pos (by omega) (by omega)
  rw [Nat.mul_comm] at hn
  rw [Image.get_of_inB hx hy, Option.bind_some, mi (by omega), Option.bind_some, sub32 (by omega) (by omega),
    Option.bind_some, red32 (by omega), Option.bind_some]
  dsimp only
  rw [mi (by omega), Option.bind_some, sub32 (by omega) (by omega), Option.bind_some, red32 (by omega), Option.bind_some,
    low (by omega), low (by omega), sub32 (by omega) (by omega), Option.bind_some, red32 (by omega), Option.bind_some,
    sub32 (by omega) (by omega), Option.bind_some, red32 (by omega), Option.bind_some, red32 (by omega), Option.bind_some,
    sumM_spec (by norm_num) im (fun v => v) I iw ih ip (by omega) (by omega) (by omega) (by omega)
      (fun hd => hfit hd x y hx hy), Option.bind_some, if_neg (by omega), hsum, ← hcard]
  have hmean : R dbg (2 ^ 32) (∑ p ∈ block im x y r, im.px p.1 p.2) / (block im x y r).card ≤ 255 := by
    have h1 : ∑ p ∈ block im x y r, im.px p.1 p.2 ≤ (block im x y r).card * 255 := by
      have := sum_le_card_nsmul (block im x y r) (fun p => im.px p.1 p.2) 255 (fun p _ => hp p.1 p.2)
      simpa using this
    have h2 : R dbg (2 ^ 32) (∑ p ∈ block im x y r, im.px p.1 p.2) ≤ ∑ p ∈ block im x y r, im.px p.1 p.2 := by
      cases dbg
      · exact Nat.mod_le _ _
      · exact le_rfl
    exact Nat.div_le_of_le_mul (h2.trans h1)
  generalize R dbg (2 ^ 32) (∑ p ∈ block im x y r, im.px p.1 p.2) / (block im x y r).card = mean at *
  rw [asI32_small (by omega), mi32_ok (by omega) (by omega), Option.bind_some]
  by_cases hc : (mean : Int) ≤ im.px x y + delta
  · rw [if_pos hc, if_pos (by omega)]
  · rw [if_neg hc, if_neg (by omega)]

/-- The scan, given the effect on every pixel. -/
theorem threshold_scan {im : Image Nat} {f : Nat → Nat → Image Nat → Option (Image Nat)} {c : Nat → Nat → Prop}
    [∀ x y, Decidable (c x y)]
    (hf : ∀ x y out, x < im.w → y < im.h → f x y out = if c x y then out.put x y 255 else some out) :
    ∃ out, forYX 0 im.h 0 im.w (Image.new im.w im.h 0) f = some out ∧ out.w = im.w ∧ out.h = im.h ∧
      ∀ x y, x < im.w → y < im.h → out.px x y = if c x y then 255 else 0 := by
  refine raster_post (fun S out => out.w = im.w ∧ out.h = im.h ∧
    ∀ x y, out.px x y = if (x, y) ∈ S ∧ c x y then 255 else 0) (by simp [Image.new]) ?_ ?_
  · rintro x y S out hx hy hn ⟨h1, h2, h3⟩
    rw [hf x y out hx hy]
    by_cases hc : c x y
    · rw [if_pos hc, Image.put_of_inB _ (by omega) (by omega)]
      refine ⟨_, rfl, h1, h2, ?_⟩
      intro a b
      dsimp only
      by_cases hab : a = x ∧ b = y
      · obtain ⟨rfl, rfl⟩ := hab
        rw [if_pos ⟨rfl, rfl⟩, if_pos ⟨mem_insert_self _ _, hc⟩]
      · rw [if_neg hab, h3]
        simp only [mem_insert, Prod.mk.injEq, hab, false_or]
    · rw [if_neg hc]
      refine ⟨_, rfl, h1, h2, ?_⟩
      intro a b
      by_cases hab : a = x ∧ b = y
      · obtain ⟨rfl, rfl⟩ := hab
        rw [h3, if_neg (fun h => hc h.2), if_neg (fun h => hc h.2)]
      · rw [h3]
        simp only [mem_insert, Prod.mk.injEq, hab, false_or]
  · rintro out ⟨h1, h2, h3⟩
    refine ⟨h1, h2, ?_⟩
    intro x y hx hy
    simp [h3, hx, hy]

/-- C157: what `adaptive_threshold` computes without overflow checks: the block sums enter modulo `2 ^ 32`. -/
theorem C157_release (im : Image Nat) (r : Nat) (delta : Int) (hr : 0 < r) (hr' : r < 2 ^ 31)
    (hw : im.w < 2 ^ 31) (hh : im.h < 2 ^ 31) (hn : im.w * im.h < 2 ^ 32)
    (hp : ∀ x y, im.px x y ≤ 255) (hd : 255 - 2 ^ 31 < delta) (hd' : delta < 2 ^ 31) :
    ∃ out, adaptiveThresholdM false im r delta = some out ∧ out.w = im.w ∧ out.h = im.h ∧
      ∀ x y, x < im.w → y < im.h → out.px x y =
        if (((∑ p ∈ block im x y r, im.px p.1 p.2) % 2 ^ 32 / (block im x y r).card : Nat) : Int)
          ≤ (im.px x y : Int) + delta then 255 else 0 := by
  obtain ⟨I, eI, iw, ih, ip⟩ := integralImageM_spec (dbg := false) (bound := 2 ^ 32) im (fun v => v) (by simp)
  unfold adaptiveThresholdM
  rw [if_pos hr, eI, Option.bind_some]
  exact threshold_scan fun x y out hx hy =>
    threshold_pixel hw hh hn hr' hp hd hd' iw ih ip (by simp) x y hx hy out

theorem block_sum_le (im : Image Nat) (x y r : Nat) (hx : x < im.w) (hy : y < im.h) (hp : ∀ x y, im.px x y ≤ 255) :
    ∑ p ∈ block im x y r, im.px p.1 p.2 ≤ (2 * r + 1) * (2 * r + 1) * 255 := by
  have h1 := sum_le_card_nsmul (block im x y r) (fun p => im.px p.1 p.2) 255 (fun p _ => hp p.1 p.2)
  rw [smul_eq_mul] at h1
  refine h1.trans (Nat.mul_le_mul_right _ ?_)
  rw [block_eq im x y r hx hy, card_product, Nat.card_Icc, Nat.card_Icc]
  exact Nat.mul_le_mul (by omega) (by omega)

/-- C157: release builds are exact for radii up to 2051, whatever the size of the image. -/
theorem C157_release_exact (im : Image Nat) (r : Nat) (delta : Int) (hr : 0 < r) (hr' : r ≤ 2051)
    (hw : im.w < 2 ^ 31) (hh : im.h < 2 ^ 31) (hn : im.w * im.h < 2 ^ 32)
    (hp : ∀ x y, im.px x y ≤ 255) (hd : 255 - 2 ^ 31 < delta) (hd' : delta < 2 ^ 31) :
    ∃ out, adaptiveThresholdM false im r delta = some out ∧ out.w = im.w ∧ out.h = im.h ∧
      ∀ x y, x < im.w → y < im.h → out.px x y =
        if (((∑ p ∈ block im x y r, im.px p.1 p.2) / (block im x y r).card : Nat) : Int)
          ≤ (im.px x y : Int) + delta then 255 else 0 := by
  obtain ⟨out, e, h1, h2, h3⟩ := C157_release im r delta hr (by omega) hw hh hn hp hd hd'
  refine ⟨out, e, h1, h2, ?_⟩
  intro x y hx hy
  have hs := block_sum_le im x y r hx hy hp
  have : (2 * r + 1) * (2 * r + 1) ≤ 4103 * 4103 := Nat.mul_le_mul (by omega) (by omega)
  rw [h3 x y hx hy, Nat.mod_eq_of_lt (by omega)]

/-- C157: debug builds are exact as long as twice the sum of the image fits 32 bits. -/
theorem C157_debug (im : Image Nat) (r : Nat) (delta : Int) (hr : 0 < r) (hr' : r < 2 ^ 31)
    (hw : im.w < 2 ^ 31) (hh : im.h < 2 ^ 31) (hn : im.w * im.h < 2 ^ 32)
    (hp : ∀ x y, im.px x y ≤ 255) (hd : 255 - 2 ^ 31 < delta) (hd' : delta < 2 ^ 31)
    (hfit : 2 * (∑ j ∈ range im.h, ∑ i ∈ range im.w, im.px i j) < 2 ^ 32) :
    ∃ out, adaptiveThresholdM true im r delta = some out ∧ out.w = im.w ∧ out.h = im.h ∧
      ∀ x y, x < im.w → y < im.h → out.px x y =
        if (((∑ p ∈ block im x y r, im.px p.1 p.2) / (block im x y r).card : Nat) : Int)
          ≤ (im.px x y : Int) + delta then 255 else 0 := by
  have hfit' : 2 * prefixSum im (fun v => v) im.w im.h < 2 ^ 32 := hfit
  obtain ⟨I, eI, iw, ih, ip⟩ := integralImageM_spec (dbg := true) (bound := 2 ^ 32) im (fun v => v) (fun _ => by omega)
  unfold adaptiveThresholdM
  rw [if_pos hr, eI, Option.bind_some]
  refine threshold_scan fun x y out hx hy =>
    threshold_pixel hw hh hn hr' hp hd hd' iw ih ip ?_ x y hx hy out
  intro _ x y hx hy
  have m1 := prefixSum_mono im (fun v => v) (x := min (im.w - 1) (x + r) + 1) (x' := im.w)
    (y := min (im.h - 1) (y + r) + 1) (y' := im.h) (by omega) (by omega)
  have m2 := prefixSum_mono im (fun v => v) (x := x - r) (x' := im.w) (y := y - r) (y' := im.h) (by omega) (by omega)
  omega

/-- C157: debug builds panic on images whose sum, together with the sum of the part above and left of the
last block, exceeds 32 bits. -/
theorem C157_panics (im : Image Nat) (r : Nat) (delta : Int) (hw : im.w < 2 ^ 31) (hh : im.h < 2 ^ 31) (hr' : r < 2 ^ 31)
    (hw0 : 0 < im.w) (hh0 : 0 < im.h)
    (h : 2 ^ 32 ≤ (∑ j ∈ range im.h, ∑ i ∈ range im.w, im.px i j) +
      ∑ j ∈ range (im.h - 1 - r), ∑ i ∈ range (im.w - 1 - r), im.px i j) :
    adaptiveThresholdM true im r delta = none := by
  unfold adaptiveThresholdM
  by_cases hr : 0 < r
  · rw [if_pos hr]
    cases eI : integralImageM true (2 ^ 32) im fun v => v with
    | none => rfl
    | some I =>
      obtain ⟨iw, ih, ip⟩ := (C157_build (2 ^ 32) (by norm_num) im fun v => v).2 I eI
      rw [Option.bind_some]
      refine forYX_fail (x₀ := im.w - 1) (y₀ := im.h - 1) (by omega) (by omega) ?_
      intro out
      have low : ∀ {a : Nat}, a < 2 ^ 31 → castU32 (max 0 (asI32 a - asI32 r)) = a - r := by
        intro a ha
        rw [asI32_small ha, asI32_small hr']
        unfold castU32
        rw [Int.emod_eq_of_lt (by omega) (by omega)]
        omega
      have mi : ∀ {a : Nat}, a < 2 ^ 31 → mi32 true (asI32 a - asI32 r) = some (asI32 a - asI32 r) := by
        intro a ha
        rw [asI32_small ha, asI32_small hr']
        exact mi32_ok (by omega) (by omega)
      rw [Image.get_of_inB (by omega) (by omega), Option.bind_some, mi (by omega), Option.bind_some,
        sub32 (by omega) (by omega), Option.bind_some, red32 (by omega), Option.bind_some]
      dsimp only
      rw [mi (by omega), Option.bind_some, sub32 (by omega) (by omega), Option.bind_some, red32 (by omega),
        Option.bind_some, low (by omega), low (by omega), show min (im.h - 1) (im.h - 1 + r) = im.h - 1 by omega,
        show min (im.w - 1) (im.w - 1 + r) = im.w - 1 by omega]
      have hs : sumImagePixelsM true (2 ^ 32) I (im.w - 1 - r) (im.h - 1 - r) (im.w - 1) (im.h - 1) = none := by
        unfold sumImagePixelsM
        rw [Image.get_of_inB (by omega) (by omega), Image.get_of_inB (by omega) (by omega),
          Image.get_of_inB (by omega) (by omega), Image.get_of_inB (by omega) (by omega)]
        simp only [Option.bind_some]
        rw [show im.w - 1 + 1 = im.w by omega, show im.h - 1 + 1 = im.h by omega, ip im.w im.h le_rfl le_rfl,
          ip (im.w - 1 - r) (im.h - 1 - r) (by omega) (by omega)]
        unfold red
        rw [if_pos rfl, if_neg (by omega)]
        rfl
      rw [hs]
      simp
  · rw [if_neg hr]

theorem sum_hole (s : Finset (Nat × Nat)) (u v : Nat) (h : (u, v) ∈ s) :
    (∑ p ∈ s, if p.1 = u ∧ p.2 = v then 0 else 255) + 255 = s.card * 255 := by
  have : ∀ p ∈ s, (if p.1 = u ∧ p.2 = v then 0 else 255) + (if p = (u, v) then 255 else 0) = 255 := by
    rintro ⟨a, b⟩ _
    simp only [Prod.mk.injEq]
    split <;> rfl
  have e := sum_congr (rfl : s = s) this
  rwa [sum_add_distrib, sum_ite_eq', if_pos h, sum_const, smul_eq_mul] at e

theorem hole_large (im : Image Nat) (hw : im.w = 4105) (hh : im.h = 4105)
    (hp : ∀ x y, im.px x y = if x = 2052 ∧ y = 2052 then 0 else 255) :
    ∃ out, adaptiveThresholdM false im 2052 0 = some out ∧ out.px 2052 2052 = 255 := by
  obtain ⟨out, e, -, -, h⟩ := C157_release im 2052 0 (by norm_num) (by norm_num) (by rw [hw]; norm_num)
    (by rw [hh]; norm_num) (by rw [hw, hh]; norm_num) (by intro x y; rw [hp]; split <;> norm_num) (by norm_num) (by norm_num)
  refine ⟨out, e, ?_⟩
  have hx : 2052 < im.w := by rw [hw]; norm_num
  have hy : 2052 < im.h := by rw [hh]; norm_num
  rw [h 2052 2052 hx hy]
  have hc : (block im 2052 2052 2052).card = 16851025 := by
    rw [block_eq _ _ _ _ hx hy, card_product, Nat.card_Icc, Nat.card_Icc, hw, hh]
    norm_num
  have hm : (2052, 2052) ∈ block im 2052 2052 2052 := by
    rw [block_eq _ _ _ _ hx hy, mem_product, mem_Icc, mem_Icc, hw, hh]
    norm_num
  generalize block im 2052 2052 2052 = s at hc hm ⊢
  have es : ∑ p ∈ s, im.px p.1 p.2 = 4297011120 := by
    have e := sum_hole s 2052 2052 hm
    rw [hc] at e
    rw [sum_congr rfl fun p _ => hp p.1 p.2]
    omega
  rw [es, hc, hp 2052 2052]
  norm_num

/-- C157 (false in general): on a white image of 3000 by 3000 pixels debug builds panic; on a white image of 4105 by 4105 pixels with a
black pixel in the middle, release builds with radius 2052 mark the black pixel as brighter than its surroundings. -/
theorem C157_negation :
    adaptiveThresholdM true (Image.new 3000 3000 255) 1 0 = none ∧
    ∃ out, adaptiveThresholdM false ⟨4105, 4105, fun x y => if x = 2052 ∧ y = 2052 then 0 else 255⟩ 2052 0 = some out ∧
      out.px 2052 2052 = 255 := by
  constructor
  · refine C157_panics _ 1 0 ?_ ?_ ?_ ?_ ?_ ?_
    · simp [Image.new]
    · simp [Image.new]
    · norm_num
    · simp [Image.new]
    · simp [Image.new]
    · simp [Image.new]
  · exact hole_large _ rfl rfl fun _ _ => rfl

example : (adaptiveThresholdM true (Image.ofRows 0 [[1, 9, 2], [8, 5, 7], [0, 3, 4]]) 1 0).map
    Image.rows = some [[0, 255, 0], [255, 255, 255], [0, 0, 255]] := by decide +kernel

end Verif.Machine
