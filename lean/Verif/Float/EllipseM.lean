import Verif.Float.Ellipse
import Verif.Float.Circle
/-
Property C161: the ellipse functions of src/drawing/conics.rs with any radii, in `i32` and `f32` arithmetic and both build profiles: `dbg = true`
checks for overflow (`none` is the panic), `dbg = false` wraps.
-/
namespace Verif.Float
open Verif.Drawing

/-- The loop over the top and bottom regions, conics.rs:138-150.  Returns `x`, `y`, `px`, `py`. -/
def ellipseTopM {σ : Type _} (dbg : Bool) (draw : Int → Int → σ → Option σ) (w2 h2 : ℚ) :
    Nat → Int → Int → ℚ → ℚ → ℚ → σ → Option (Int × Int × ℚ × ℚ × σ)
  | 0, x, y, px, py, _, s => if px < py then none else some (x, y, px, py, s)
  | n + 1, x, y, px, py, p, s =>
    if px < py then
      (mi32 dbg (x + 1)).bind fun x =>
      let px := rnd32 (px + rnd32 (2 * h2))
      if p < 0 then
        (draw x y s).bind fun s => ellipseTopM dbg draw w2 h2 n x y px py (rnd32 (p + rnd32 (h2 + px))) s
      else
        (mi32 dbg (y - 1)).bind fun y =>
        let py := rnd32 (py + rnd32 (-2 * w2))
        (draw x y s).bind fun s =>
          ellipseTopM dbg draw w2 h2 n x y px py (rnd32 (p + rnd32 (rnd32 (h2 + px) - py))) s
    else some (x, y, px, py, s)

/-- The loop over the left and right regions, conics.rs:154-166. -/
def ellipseSideM {σ : Type _} (dbg : Bool) (draw : Int → Int → σ → Option σ) (w2 h2 : ℚ) :
    Nat → Int → Int → ℚ → ℚ → ℚ → σ → Option σ
  | 0, _, y, _, _, _, s => if y > 0 then none else some s
  | n + 1, x, y, px, py, p, s =>
    if y > 0 then
      (mi32 dbg (y - 1)).bind fun y =>
      let py := rnd32 (py + rnd32 (-2 * w2))
      if p > 0 then
        (draw x y s).bind fun s => ellipseSideM dbg draw w2 h2 n x y px py (rnd32 (p + rnd32 (w2 - py))) s
      else
        (mi32 dbg (x + 1)).bind fun x =>
        let px := rnd32 (px + rnd32 (2 * h2))
        (draw x y s).bind fun s =>
          ellipseSideM dbg draw w2 h2 n x y px py (rnd32 (p + rnd32 (rnd32 (w2 - py) + px))) s
    else some s

/-- `draw_ellipse`, conics.rs:122-167; the squares are `i32` products. -/
def drawEllipseM {σ : Type _} (dbg : Bool) (draw : Int → Int → σ → Option σ) (a b : Int) (s : σ) : Option σ :=
  (mi32 dbg (a * a)).bind fun aa =>
  (mi32 dbg (b * b)).bind fun bb =>
  let w2 : ℚ := rnd32 (aa : ℚ)
  let h2 : ℚ := rnd32 (bb : ℚ)
  (draw 0 b s).bind fun s =>
  (ellipseTopM dbg draw w2 h2 (a.natAbs + 1) 0 b 0 (rnd32 (rnd32 (2 * w2) * rnd32 (b : ℚ)))
    (rnd32 (rnd32 (h2 - rnd32 (w2 * rnd32 (b : ℚ))) + rnd32 (1 / 4 * w2))) s).bind
    fun (x, y, px, py, s) =>
  (mi32 dbg (y - 1)).bind fun y1 =>
  (mi32 dbg (y1 ^ 2)).bind fun yy =>
  let t := rnd32 (rnd32 (x : ℚ) + 1 / 2)
  ellipseSideM dbg draw w2 h2 y.toNat x y px py
    (rnd32 (rnd32 (rnd32 (h2 * rnd32 (t * t)) + rnd32 (w2 * rnd32 (yy : ℚ))) - rnd32 (w2 * h2))) s

/-- `draw_hollow_ellipse_mut`, conics.rs:34-59. -/
def drawHollowEllipseM {α : Type _} (dbg : Bool) (op : α → α → α) (im : Image α) (center : Int × Int)
    (a b : Int) (c : α) : Option (Image α) :=
  if a = b then drawHollowCircle32 dbg op im center a c
  else
    let x0 := center.1
    let y0 := center.2
    drawEllipseM dbg (fun x y im =>
      (plotCirc32 dbg op im (x0 + x) (y0 + y) c).bind fun im =>
      (plotCirc32 dbg op im (x0 - x) (y0 + y) c).bind fun im =>
      (plotCirc32 dbg op im (x0 + x) (y0 - y) c).bind fun im =>
      plotCirc32 dbg op im (x0 - x) (y0 - y) c) a b im

/-- `draw_filled_ellipse_mut`, conics.rs:86-116. -/
def drawFilledEllipseM {α : Type _} (dbg : Bool) (op : α → α → α) (im : Image α) (center : Int × Int)
    (a b : Int) (c : α) : Option (Image α) :=
  if a = b then drawFilledCircle32 dbg op im center a c
  else
    let x0 := center.1
    let y0 := center.2
    drawEllipseM dbg (fun x y im =>
      (drawLineI32 dbg op im (x0 - x) (y0 + y) (x0 + x) (y0 + y) c).bind fun im =>
      drawLineI32 dbg op im (x0 - x) (y0 - y) (x0 + x) (y0 - y) c) a b im

/-! ### No overflow -/

theorem ellipseTopM_eq {σ : Type _} (dbg : Bool) {f g : Int → Int → σ → Option σ} {B : Int} (I : σ → Prop) (hB : B < 2 ^ 31) (w2 h2 : ℚ)
    (hf : ∀ x y s, |x| ≤ B → |y| ≤ B → I s → f x y s = g x y s) (hI : ∀ x y s s', I s → g x y s = some s' → I s') :
    ∀ (n : Nat) (x y : Int) (px py p : ℚ) (s : σ), |x| + n ≤ B → |y| + n ≤ B → I s →
      ellipseTopM dbg f w2 h2 n x y px py p s = ellipseTop32 g w2 h2 n x y px py p s ∧
      ∀ r, ellipseTop32 g w2 h2 n x y px py p s = some r → |r.1| ≤ |x| + n ∧ |r.2.1| ≤ |y| + n ∧ I r.2.2.2.2
  | 0, x, y, px, py, p, s, hx, hy, hs => by
    refine ⟨rfl, fun r h => ?_⟩
    unfold ellipseTop32 at h
    split at h
    · cases h
    · cases h; exact ⟨by simp, by simp, hs⟩
  | n + 1, x, y, px, py, p, s, hx, hy, hs => by
    have ax : |x + 1| ≤ |x| + 1 := abs_add_le x 1
    have ay : |y - 1| ≤ |y| + 1 := abs_sub y 1
    have lx := abs_le.1 (le_refl |x + 1|)
    have ly := abs_le.1 (le_refl |y - 1|)
    push_cast at hx hy
    unfold ellipseTopM ellipseTop32
    split
    · rw [mi32_some dbg (by omega) (by omega), Option.bind_some]
      dsimp only
      split
      · rw [hf (x + 1) y s (by omega) (by omega) hs]
        cases e : g (x + 1) y s with
        | none => exact ⟨rfl, fun r h => by cases h⟩
        | some s' =>
          obtain ⟨h1, h2⟩ := ellipseTopM_eq dbg I hB w2 h2 hf hI n (x + 1) y (rnd32 (px + rnd32 (2 * h2))) py
            (rnd32 (p + rnd32 (h2 + rnd32 (px + rnd32 (2 * h2))))) s' (by omega) (by omega) (hI _ _ _ _ hs e)
          refine ⟨h1, fun r h => ?_⟩
          obtain ⟨k1, k2, k3⟩ := h2 r h
          push_cast
          exact ⟨by omega, by omega, k3⟩
      · rw [mi32_some dbg (by omega) (by omega), Option.bind_some, hf (x + 1) (y - 1) s (by omega) (by omega) hs]
        cases e : g (x + 1) (y - 1) s with
        | none => exact ⟨rfl, fun r h => by cases h⟩
        | some s' =>
          obtain ⟨h1, h2⟩ := ellipseTopM_eq dbg I hB w2 h2 hf hI n (x + 1) (y - 1) (rnd32 (px + rnd32 (2 * h2))) (rnd32 (py + rnd32 (-2 * w2)))
            (rnd32 (p + rnd32 (rnd32 (h2 + rnd32 (px + rnd32 (2 * h2))) - rnd32 (py + rnd32 (-2 * w2))))) s' (by omega) (by omega) (hI _ _ _ _ hs e)
          refine ⟨h1, fun r h => ?_⟩
          obtain ⟨k1, k2, k3⟩ := h2 r h
          push_cast
          exact ⟨by omega, by omega, k3⟩
    · refine ⟨rfl, fun r h => ?_⟩
      cases h
      push_cast
      exact ⟨by omega, by omega, hs⟩

theorem ellipseSideM_eq {σ : Type _} (dbg : Bool) {f g : Int → Int → σ → Option σ} {B : Int} (I : σ → Prop) (hB : B < 2 ^ 31) (w2 h2 : ℚ)
    (hf : ∀ x y s, |x| ≤ B → |y| ≤ B → I s → f x y s = g x y s) (hI : ∀ x y s s', I s → g x y s = some s' → I s') :
    ∀ (n : Nat) (x y : Int) (px py p : ℚ) (s : σ), |x| + n ≤ B → |y| ≤ B → I s →
      ellipseSideM dbg f w2 h2 n x y px py p s = ellipseSide32 g w2 h2 n x y px py p s
  | 0, x, y, px, py, p, s, hx, hy, hs => rfl
  | n + 1, x, y, px, py, p, s, hx, hy, hs => by
    have ax : |x + 1| ≤ |x| + 1 := abs_add_le x 1
    have lx := abs_le.1 (le_refl |x + 1|)
    have ly := abs_le.1 hy
    push_cast at hx
    unfold ellipseSideM ellipseSide32
    split
    · next h0 =>
      have ly' : |y - 1| ≤ B := abs_le.2 ⟨by omega, by omega⟩
      rw [mi32_some dbg (by omega) (by omega), Option.bind_some]
      dsimp only
      split
      · rw [hf x (y - 1) s (by omega) ly' hs]
        cases e : g x (y - 1) s with
        | none => rfl
        | some s' => exact ellipseSideM_eq dbg I hB w2 h2 hf hI n _ _ _ _ _ _ (by omega) ly' (hI _ _ _ _ hs e)
      · rw [mi32_some dbg (by omega) (by omega), Option.bind_some, hf (x + 1) (y - 1) s (by omega) ly' hs]
        cases e : g (x + 1) (y - 1) s with
        | none => rfl
        | some s' => exact ellipseSideM_eq dbg I hB w2 h2 hf hI n _ _ _ _ _ _ (by omega) ly' (hI _ _ _ _ hs e)
    · rfl

theorem drawEllipseM_eq {σ : Type _} (dbg : Bool) {f g : Int → Int → σ → Option σ} {a b : Int} (I : σ → Prop) (hab : |a| + |b| ≤ 23000)
    (hf : ∀ x y s, |x| ≤ 2 * (|a| + |b| + 1) → |y| ≤ 2 * (|a| + |b| + 1) → I s → f x y s = g x y s)
    (hI : ∀ x y s s', I s → g x y s = some s' → I s') (s : σ) (hs : I s) :
    drawEllipseM dbg f a b s = drawEllipse32 g a b s := by
  have sq : ∀ {z : Int}, |z| ≤ 46340 → mi32 dbg (z * z) = some (z * z) := by
    intro z hz
    have h1 := mul_self_nonneg z
    have h2 : z * z ≤ 46340 * 46340 := by rw [← abs_mul_abs_self z]; exact mul_le_mul hz hz (abs_nonneg z) (by norm_num)
    exact mi32_some dbg (by omega) (by omega)
  have ha := abs_nonneg a
  have hb := abs_nonneg b
  have hna : ((a.natAbs : Nat) : Int) = |a| := Int.natCast_natAbs a
  unfold drawEllipseM drawEllipse32
  rw [sq (by omega), Option.bind_some, sq (by omega), Option.bind_some]
  dsimp only
  rw [hf 0 b s (by simp; omega) (by omega) hs]
  cases e : g 0 b s with
  | none => rfl
  | some s' =>
    have hs' := hI _ _ _ _ hs e
    rw [Option.bind_some, Option.bind_some]
    obtain ⟨h1, h2⟩ := ellipseTopM_eq dbg I (B := 2 * (|a| + |b| + 1)) (by omega) (rnd32 ((a * a : Int) : ℚ)) (rnd32 ((b * b : Int) : ℚ)) hf hI (a.natAbs + 1) 0 b 0
      (rnd32 (rnd32 (2 * rnd32 ((a * a : Int) : ℚ)) * rnd32 (b : ℚ)))
      (rnd32 (rnd32 (rnd32 ((b * b : Int) : ℚ) - rnd32 (rnd32 ((a * a : Int) : ℚ) * rnd32 (b : ℚ))) + rnd32 (1 / 4 * rnd32 ((a * a : Int) : ℚ)))) s'
      (by push_cast; rw [abs_zero]; omega) (by push_cast; omega) hs'
    rw [h1]
    cases e2 : ellipseTop32 g (rnd32 ((a * a : Int) : ℚ)) (rnd32 ((b * b : Int) : ℚ)) (a.natAbs + 1) 0 b 0
      (rnd32 (rnd32 (2 * rnd32 ((a * a : Int) : ℚ)) * rnd32 (b : ℚ)))
      (rnd32 (rnd32 (rnd32 ((b * b : Int) : ℚ) - rnd32 (rnd32 ((a * a : Int) : ℚ) * rnd32 (b : ℚ))) + rnd32 (1 / 4 * rnd32 ((a * a : Int) : ℚ)))) s' with
    | none => rfl
    | some r =>
      obtain ⟨k1, k2, k3⟩ := h2 r e2
      obtain ⟨x, y, px, py, s''⟩ := r
      dsimp only at k1 k2 k3
      push_cast at k1 k2
      rw [abs_zero] at k1
      have ly := abs_le.1 k2
      have hy1 : |y - 1| ≤ 46340 := abs_le.2 ⟨by omega, by omega⟩
      rw [Option.bind_some, Option.bind_some]
      dsimp only
      rw [mi32_some dbg (by omega) (by omega), Option.bind_some, pow_two, sq hy1, Option.bind_some]
      exact ellipseSideM_eq dbg I (B := 2 * (|a| + |b| + 1)) (by omega) _ _ hf hI _ _ _ _ _ _ _ (by omega) (by omega) k3

/-- C161: in both build profiles an outline whose radii have a sum of at most 23000, about a centre far enough from the limits of `i32`, is
that of the model of C143. -/
theorem C161_hollow {α : Type _} (dbg : Bool) (op : α → α → α) (im : Image α) (x0 y0 a b : Int) (c : α)
    (hw : im.w < 2 ^ 31) (hh : im.h < 2 ^ 31) (hne : a ≠ b) (hab : |a| + |b| ≤ 23000) (hx : |x0| ≤ 2 ^ 31 - 46003) (hy : |y0| ≤ 2 ^ 31 - 46003) :
    drawHollowEllipseM dbg op im (x0, y0) a b c = drawHollowEllipse32 op im (x0, y0) a b c := by
  unfold drawHollowEllipseM drawHollowEllipse32
  rw [if_neg hne, if_neg hne]
  dsimp only
  refine drawEllipseM_eq dbg (fun s => s.w = im.w ∧ s.h = im.h) hab ?_ ?_ im ⟨rfl, rfl⟩
  · intro x y s hx' hy' hs
    have a1 := abs_le.1 hx
    have a2 := abs_le.1 hy
    have a3 := abs_le.1 hx'
    have a4 := abs_le.1 hy'
    have st : ∀ {t : Image α} {a b : Int} {k k' : Image α → Option (Image α)}, t.w = im.w ∧ t.h = im.h →
        -2 ^ 31 ≤ a → a < 2 ^ 31 → -2 ^ 31 ≤ b → b < 2 ^ 31 →
        (∀ u : Image α, u.w = im.w ∧ u.h = im.h → k u = k' u) →
        (plotCirc32 dbg op t a b c).bind k = (drawIfInBounds op t a b c).bind k' := by
      intro t a b k k' ht a1 a2 b1 b2 hk
      rw [plotCirc32_eq dbg op c (by rw [ht.1]; exact hw) (by rw [ht.2]; exact hh) a1 a2 b1 b2]
      cases e : drawIfInBounds op t a b c with
      | none => rfl
      | some u =>
        have := drawIfInBounds_dims e
        exact hk u ⟨this.1.trans ht.1, this.2.trans ht.2⟩
    refine st hs (by omega) (by omega) (by omega) (by omega) fun u1 g1 => ?_
    refine st g1 (by omega) (by omega) (by omega) (by omega) fun u2 g2 => ?_
    refine st g2 (by omega) (by omega) (by omega) (by omega) fun u3 g3 => ?_
    exact plotCirc32_eq dbg op c (by rw [g3.1]; exact hw) (by rw [g3.2]; exact hh) (by omega) (by omega) (by omega) (by omega)
  · intro x y s s' hs e
    simp only [Option.bind_eq_some_iff] at e
    obtain ⟨u1, e1, u2, e2, u3, e3, e4⟩ := e
    have d1 := drawIfInBounds_dims e1
    have d2 := drawIfInBounds_dims e2
    have d3 := drawIfInBounds_dims e3
    have d4 := drawIfInBounds_dims e4
    omega

/-- C161: the same for filled ellipses, whose lines go through `f32`, about a centre with coordinates up to `2 ^ 21`. -/
theorem C161_filled {α : Type _} (dbg : Bool) (op : α → α → α) (im : Image α) (x0 y0 a b : Int) (c : α)
    (hne : a ≠ b) (hab : |a| + |b| ≤ 23000) (hx : |x0| ≤ 2 ^ 21) (hy : |y0| ≤ 2 ^ 21) :
    drawFilledEllipseM dbg op im (x0, y0) a b c = drawFilledEllipse32 op im (x0, y0) a b c := by
  unfold drawFilledEllipseM drawFilledEllipse32
  rw [if_neg hne, if_neg hne]
  dsimp only
  refine drawEllipseM_eq dbg (fun _ => True) hab ?_ (fun _ _ _ _ _ _ => trivial) im trivial
  intro x y s hx' hy' _
  have a1 := abs_le.1 hx
  have a2 := abs_le.1 hy
  have a3 := abs_le.1 hx'
  have a4 := abs_le.1 hy'
  have ln : ∀ (t : Image α) {a b a' b' : Int}, |a| ≤ 2 ^ 22 → |b| ≤ 2 ^ 22 → |a'| ≤ 2 ^ 22 → |b'| ≤ 2 ^ 22 →
      drawLineI32 dbg op t a b a' b' c = drawLineInt op t a b a' b' c := by
    intro t a b a' b' g1 g2 g3 g4
    have big : ∀ {z : Int}, |z| ≤ 2 ^ 22 → rnd32 (z : ℚ) = z := fun h => rnd32_intQ (h.trans (by norm_num))
    have sm : ∀ {z : Int}, |z| ≤ 2 ^ 22 → mi32 dbg z = some z := by
      intro z hz
      rw [abs_le] at hz
      exact mi32_some dbg (by omega) (by omega)
    unfold drawLineI32
    rw [sm g1, sm g2, sm g3, sm g4]
    simp only [Option.bind_some]
    rw [big g1, big g2, big g3, big g4]
    exact C118_draw op t c (a, b) (a', b') g1 g2 g3 g4
  have b : ∀ {z : Int}, -2 ^ 22 ≤ z → z ≤ 2 ^ 22 → |z| ≤ 2 ^ 22 := fun h1 h2 => abs_le.2 ⟨h1, h2⟩
  rw [ln s (b (by omega) (by omega)) (b (by omega) (by omega)) (b (by omega) (by omega)) (b (by omega) (by omega))]
  congr 1; funext s
  rw [ln s (b (by omega) (by omega)) (b (by omega) (by omega)) (b (by omega) (by omega)) (b (by omega) (by omega))]

/-- C161: with equal radii the outline is the circle of C45 and the filled ellipse the disc of C46. -/
theorem C161_circle {α : Type _} (dbg : Bool) (op : α → α → α) (im : Image α) (x0 y0 r : Int) (c : α)
    (hw : im.w < 2 ^ 31) (hh : im.h < 2 ^ 31) (hr : 0 ≤ r) :
    (r ≤ 2 ^ 30 - 4 → -2 ^ 31 ≤ x0 - r → x0 + r < 2 ^ 31 → -2 ^ 31 ≤ y0 - r → y0 + r < 2 ^ 31 →
      drawHollowEllipseM dbg op im (x0, y0) r r c = drawHollowCircle op im (x0, y0) r c) ∧
    (|x0| + r ≤ 2 ^ 22 → |y0| + r ≤ 2 ^ 22 →
      drawFilledEllipseM dbg op im (x0, y0) r r c = drawFilledCircle op im (x0, y0) r c) := by
  constructor
  · intro h0 h1 h2 h3 h4
    unfold drawHollowEllipseM
    rw [if_pos rfl]
    exact C156_hollow dbg op im x0 y0 r c hw hh hr h0 h1 h2 h3 h4
  · intro h1 h2
    unfold drawFilledEllipseM
    rw [if_pos rfl]
    exact C156_filled dbg op im x0 y0 r c hr h1 h2

/-- C161: debug builds panic when a radius is 46341 or more, or -46341 or less, even if the ellipse is far from the image. -/
theorem C161_panics {α : Type _} (op : α → α → α) (im : Image α) (x0 y0 a b : Int) (c : α) (hne : a ≠ b) (h : 46341 ≤ |a| ∨ 46341 ≤ |b|) :
    drawHollowEllipseM true op im (x0, y0) a b c = none ∧ drawFilledEllipseM true op im (x0, y0) a b c = none := by
  have sq : ∀ {z : Int}, 46341 ≤ |z| → mi32 true (z * z) = none := by
    intro z hz
    have h2 : 46341 * 46341 ≤ z * z := by rw [← abs_mul_abs_self z]; exact mul_le_mul hz hz (by norm_num) (abs_nonneg z)
    unfold mi32 chk32
    rw [if_pos rfl, if_neg (by omega)]
  have hd : ∀ f : Int → Int → Image α → Option (Image α), drawEllipseM true f a b im = none := by
    intro f
    unfold drawEllipseM
    rcases h with h | h
    · rw [sq h]; rfl
    · rw [sq h]
      cases mi32 true (a * a) <;> rfl
  unfold drawHollowEllipseM drawFilledEllipseM
  rw [if_neg hne, if_neg hne]
  exact ⟨hd _, hd _⟩

theorem rnd32_nonpos {x : ℚ} (h : x ≤ 0) : rnd32 x ≤ 0 := by
  have := rnd_mono (K := ℚ) (p := 24) (emin := -149) (by norm_num) h
  rwa [rnd_zero] at this

/-- C161: with a height radius that is zero or negative (and no overflow) only the topmost and the lowest point are drawn. -/
theorem C161_flat {σ : Type _} (dbg : Bool) (f : Int → Int → σ → Option σ) (a b : Int) (hb : b ≤ 0) (ha : |a| ≤ 46340) (hb' : -46339 ≤ b) (s : σ) :
    drawEllipseM dbg f a b s = f 0 b s := by
  have sq : ∀ {z : Int}, |z| ≤ 46340 → mi32 dbg (z * z) = some (z * z) := by
    intro z hz
    have h1 := mul_self_nonneg z
    have h2 : z * z ≤ 46340 * 46340 := by rw [← abs_mul_abs_self z]; exact mul_le_mul hz hz (abs_nonneg z) (by norm_num)
    exact mi32_some dbg (by omega) (by omega)
  unfold drawEllipseM
  rw [sq ha, Option.bind_some, sq (abs_le.2 ⟨by omega, by omega⟩), Option.bind_some]
  dsimp only
  cases f 0 b s with
  | none => rfl
  | some s' =>
    have hneg : rnd32 (rnd32 (2 * rnd32 ((a * a : Int) : ℚ)) * rnd32 (b : ℚ)) ≤ 0 := by
      have h1 : (0 : ℚ) ≤ rnd32 ((a * a : Int) : ℚ) := rnd_nonneg (by exact_mod_cast mul_self_nonneg a)
      have h2 : (0 : ℚ) ≤ rnd32 (2 * rnd32 ((a * a : Int) : ℚ)) := rnd_nonneg (by linarith)
      have h3 : rnd32 (b : ℚ) ≤ 0 := rnd32_nonpos (by exact_mod_cast hb)
      exact rnd32_nonpos (mul_nonpos_of_nonneg_of_nonpos h2 h3)
    rw [Option.bind_some]
    unfold ellipseTopM
    rw [if_neg (not_lt.2 hneg), Option.bind_some]
    dsimp only
    rw [mi32_some dbg (by omega) (by omega), Option.bind_some, pow_two, sq (abs_le.2 ⟨by omega, by omega⟩), Option.bind_some,
      show b.toNat = 0 by omega]
    unfold ellipseSideM
    rw [if_neg (by omega)]

theorem forList_congr_inv {σ β : Type _} {f g : β → σ → Option σ} (I : σ → Prop) : ∀ (l : List β) (s : σ), I s →
    (∀ b ∈ l, ∀ s, I s → f b s = g b s) → (∀ b s s', I s → g b s = some s' → I s') → forList l s f = forList l s g
  | [], _, _, _, _ => rfl
  | b :: l, s, hs, h, hI => by
    unfold forList
    rw [h b (by simp) s hs]
    cases e : g b s with
    | none => rfl
    | some s' => exact forList_congr_inv I l s' (hI _ _ _ hs e) (fun b' hb' => h b' (by simp [hb'])) hI

theorem side_zero {σ : Type _} (f : Int → Int → σ → Option σ) (h2 px : ℚ) :
    ∀ (n : Nat) (p : ℚ) (s : σ), n < 2 ^ 31 → 0 < p → rnd32 p = p →
      ellipseSideM false f 0 h2 n 0 n px 0 p s = forList ((List.range n).reverse.map fun i : Nat => ((0 : Int), (i : Int))) s fun q s => f q.1 q.2 s
  | 0, p, s, _, _, _ => rfl
  | n + 1, p, s, hn, hp, hr => by
    have z : rnd32 (0 : ℚ) = 0 := rnd_zero
    unfold ellipseSideM
    rw [if_pos (by omega), mi32_some false (by push_cast; omega) (by push_cast; omega), Option.bind_some]
    dsimp only
    rw [if_pos hp, List.range_succ, List.reverse_append, show (((n + 1 : Nat) : Int) - 1) = n by push_cast; omega]
    simp only [List.reverse_cons, List.reverse_nil, List.nil_append, List.cons_append, List.map_cons, forList]
    congr 1
    funext s
    rw [mul_zero, z, add_zero, z, sub_zero, z, add_zero, hr]
    exact side_zero f h2 px n p s (by omega) hp hr

/-- C161: in release builds a width radius that is a multiple of 65536 makes the ellipse a vertical segment: its square wraps to zero. -/
theorem C161_vertical {α : Type _} (im : Image α) (x0 y0 a b : Int) (c : α) (hw : im.w < 2 ^ 31) (hh : im.h < 2 ^ 31) (ha : 65536 ∣ a)
    (hb : 0 < b) (hb' : b ≤ 46340) (hne : a ≠ b) (hx : |x0| < 2 ^ 31) (hy : |y0| ≤ 2 ^ 31 - 46342) :
    ∃ out, drawHollowEllipseM false overwrite im (x0, y0) a b c = some out ∧ out.w = im.w ∧ out.h = im.h ∧
      ∀ x y : Nat, im.InB x y → out.px x y = if (x : Int) = x0 ∧ |(y : Int) - y0| ≤ b then c else im.px x y := by
  have z : rnd32 (0 : ℚ) = 0 := rnd_zero
  have aa : mi32 false (a * a) = some 0 := by
    obtain ⟨k, rfl⟩ := ha
    unfold mi32 wrap32
    rw [if_neg (by simp), show 65536 * k * (65536 * k) = (k * k) * (2 ^ 32 : Nat) by push_cast; ring]
    rw [Int.bmod_def, Int.mul_emod_left]
    rfl
  obtain ⟨n, rfl⟩ : ∃ n : Nat, b = n := ⟨b.toNat, by omega⟩
  have bb0 : ((n : Int) * n) ≤ 46340 * 46340 := mul_le_mul hb' hb' (by omega) (by norm_num)
  have bb1 : 1 ≤ ((n : Int) * n) := by nlinarith
  have bb : mi32 false ((n : Int) * n) = some ((n : Int) * n) := mi32_some false (by omega) (by omega)
  have y2 : mi32 false (((n : Int) - 1) ^ 2) = some (((n : Int) - 1) ^ 2) := by
    have h1 : (0 : Int) ≤ ((n : Int) - 1) ^ 2 := sq_nonneg _
    have h2 : ((n : Int) - 1) ^ 2 ≤ (n : Int) * n := by nlinarith
    exact mi32_some false (by omega) (by omega)
  have a1 := abs_lt.1 hx
  have a2 := abs_le.1 hy
  have key : ∀ f : Int → Int → Image α → Option (Image α), drawEllipseM false f a n im =
      forList ((List.range (n + 1)).reverse.map fun i : Nat => ((0 : Int), (i : Int))) im fun q s => f q.1 q.2 s := by
    intro f
    unfold drawEllipseM
    rw [aa, Option.bind_some, bb, Option.bind_some]
    dsimp only
    rw [List.range_succ, List.reverse_append]
    simp only [List.reverse_cons, List.reverse_nil, List.nil_append, List.cons_append, List.map_cons, forList]
    congr 1
    funext s
    rw [Int.cast_zero, z, mul_zero, z, zero_mul, z]
    unfold ellipseTopM
    rw [if_neg (lt_irrefl _), Option.bind_some]
    dsimp only
    rw [mi32_some false (by omega) (by omega), Option.bind_some, y2, Option.bind_some, Int.toNat_natCast, Int.cast_zero, z, zero_add, zero_mul, zero_mul, z, add_zero, sub_zero]
    refine side_zero f _ _ n _ s (by omega) ?_ (rnd_rnd (by norm_num) _)
    have h1 : rnd32 (1 / 2 : ℚ) = 1 / 2 := by decide +kernel
    have h2 : rnd32 (1 / 2 * (1 / 2) : ℚ) = 1 / 4 := by decide +kernel
    have r4 : Rep 24 (-149) (1 / 4 : ℚ) := by
      have := rep_rnd (K := ℚ) (p := 24) (emin := -149) (1 / 2 * (1 / 2))
      rwa [show rnd 24 (-149) (1 / 2 * (1 / 2) : ℚ) = 1 / 4 from h2] at this
    rw [h1, h2]
    have h3 : (1 : ℚ) ≤ rnd32 (((n : Int) * n : Int) : ℚ) := le_rnd (by norm_num) ⟨1, 0, by norm_num, by norm_num, by norm_num⟩ (by exact_mod_cast bb1)
    have h4 : (1 / 4 : ℚ) ≤ rnd32 (rnd32 (((n : Int) * n : Int) : ℚ) * (1 / 4)) := le_rnd (by norm_num) r4 (by linarith)
    have h5 : (1 / 4 : ℚ) ≤ rnd32 (rnd32 (rnd32 (((n : Int) * n : Int) : ℚ) * (1 / 4))) := le_rnd (by norm_num) r4 h4
    have h6 : (1 / 4 : ℚ) ≤ rnd32 (rnd32 (rnd32 (rnd32 (((n : Int) * n : Int) : ℚ) * (1 / 4)))) := le_rnd (by norm_num) r4 h5
    linarith
  obtain ⟨L, hL⟩ : ∃ L, L = (List.range (n + 1)).reverse.map fun i : Nat => ((0 : Int), (i : Int)) := ⟨_, rfl⟩
  have mL : ∀ q : Int × Int, q ∈ L ↔ q.1 = 0 ∧ 0 ≤ q.2 ∧ q.2 ≤ n := by
    rintro ⟨u, v⟩
    rw [hL]
    simp only [List.mem_map, List.mem_reverse, List.mem_range, Prod.mk.injEq]
    constructor
    · rintro ⟨i, h1, h2, h3⟩; omega
    · rintro ⟨h1, h2, h3⟩; exact ⟨v.toNat, by omega, by omega, by omega⟩
  obtain ⟨o, h1, h2, h3, h4⟩ := drawList_overwrite im c (quadPts x0 y0 L)
  have hbox : ∀ q ∈ L, 0 ≤ q.1 ∧ q.1 ≤ 0 ∧ 0 ≤ q.2 ∧ q.2 ≤ n := by
    intro q hq
    have := (mL q).1 hq
    omega
  refine ⟨o, ?_, h2, h3, fun x y hxy => ?_⟩
  · unfold drawHollowEllipseM
    rw [if_neg hne]
    dsimp only
    rw [key, ← hL, ← h1, quadPts, forList_flatMap]
    refine forList_congr_inv (fun s => s.w = im.w ∧ s.h = im.h) _ _ ⟨rfl, rfl⟩ ?_ ?_
    · intro q hq s hs
      have hq := (mL q).1 hq
      have st : ∀ {t : Image α} {a b : Int} {k k' : Image α → Option (Image α)}, t.w = im.w ∧ t.h = im.h →
          -2 ^ 31 ≤ a → a < 2 ^ 31 → -2 ^ 31 ≤ b → b < 2 ^ 31 →
          (∀ u : Image α, u.w = im.w ∧ u.h = im.h → k u = k' u) →
          (plotCirc32 false overwrite t a b c).bind k = (drawIfInBounds overwrite t a b c).bind k' := by
        intro t a b k k' ht a1 a2 b1 b2 hk
        rw [plotCirc32_eq false overwrite c (by rw [ht.1]; exact hw) (by rw [ht.2]; exact hh) a1 a2 b1 b2]
        cases e : drawIfInBounds overwrite t a b c with
        | none => rfl
        | some u =>
          have := drawIfInBounds_dims e
          exact hk u ⟨this.1.trans ht.1, this.2.trans ht.2⟩
      simp only [forList]
      refine st hs (by omega) (by omega) (by omega) (by omega) fun u1 g1 => ?_
      refine st g1 (by omega) (by omega) (by omega) (by omega) fun u2 g2 => ?_
      refine st g2 (by omega) (by omega) (by omega) (by omega) fun u3 g3 => ?_
      rw [plotCirc32_eq false overwrite c (by rw [g3.1]; exact hw) (by rw [g3.2]; exact hh) (by omega) (by omega) (by omega) (by omega)]
      cases drawIfInBounds overwrite u3 (x0 - q.1) (y0 - q.2) c <;> rfl
    · intro q s s' hs e
      simp only [forList, Option.bind_eq_some_iff] at e
      obtain ⟨u1, e1, u2, e2, u3, e3, u4, e4, e5⟩ := e
      have d1 := drawIfInBounds_dims e1
      have d2 := drawIfInBounds_dims e2
      have d3 := drawIfInBounds_dims e3
      have d4 := drawIfInBounds_dims e4
      cases e5
      omega
  · rw [h4 x y hxy]
    have : (((x : Int), (y : Int)) ∈ quadPts x0 y0 L) ↔ ((x : Int) = x0 ∧ |(y : Int) - y0| ≤ n) := by
      rw [quadPts_mem hbox, mL]
      dsimp only
      have := abs_nonneg ((y : Int) - y0)
      rw [abs_eq_zero]
      omega
    simp only [this]

/-- C161 (false in general): an ellipse of radii 65536 and 1 about a point of the image makes debug builds panic and is a segment of three pixels
in release builds; one of radii 2 and 0 is a single pixel. -/
theorem C161_negation :
    drawHollowEllipseM true overwrite (Image.new 3 3 0) (1, 1) 65536 1 9 = none ∧
    (drawHollowEllipseM false overwrite (Image.new 3 3 0) (1, 1) 65536 1 9).map Image.rows = some [[0, 9, 0], [0, 9, 0], [0, 9, 0]] ∧
    ∀ dbg, (drawHollowEllipseM dbg overwrite (Image.new 5 1 0) (2, 0) 2 0 9).map Image.rows = some [[0, 0, 9, 0, 0]] := by
  refine ⟨(C161_panics _ _ _ _ _ _ _ (by norm_num) (Or.inl (by norm_num))).1, ?_, ?_⟩
  · decide +kernel
  · intro dbg
    unfold drawHollowEllipseM
    rw [if_neg (by norm_num), C161_flat dbg _ 2 0 le_rfl (by norm_num) (by norm_num)]
    cases dbg <;> decide

/-- A wide ellipse in both build profiles. -/
example (dbg : Bool) : (drawHollowEllipseM dbg overwrite (Image.new 5 3 0) (2, 1) 2 1 9).map Image.rows =
    some [[0, 9, 9, 9, 0], [9, 0, 0, 0, 9], [0, 9, 9, 9, 0]] := by
  cases dbg <;> decide +kernel

end Verif.Float
