import Verif.Float.Rect
import Verif.Drawing.CircleProps
/-
Property C156: circles (src/drawing/conics.rs:188-281) in machine arithmetic: `i32` with overflow checks (`dbg = true`) or
wrapping (`dbg = false`), lines of filled circles in `f32`.
-/
namespace Verif.Float
open Verif.Drawing

/-- The loop shared by `draw_hollow_circle_mut` and `draw_filled_circle_mut`, conics.rs:198-215 and
247-280, with the drawing statements as a parameter. -/
def circleLoop32 {σ : Type _} (dbg : Bool) (draw : Int → Int → σ → Option σ) :
    Nat → Int → Int → Int → σ → Option σ
  | 0, x, y, _, s => if x ≤ y then none else some s
  | n + 1, x, y, p, s =>
    if x ≤ y then
      (draw x y s).bind fun s =>
      (mi32 dbg (x + 1)).bind fun x =>
      if p < 0 then
        (mi32 dbg (2 * x)).bind fun d => (mi32 dbg (d + 1)).bind fun d => (mi32 dbg (p + d)).bind fun p =>
        circleLoop32 dbg draw n x y p s
      else
        (mi32 dbg (y - 1)).bind fun y =>
        (mi32 dbg (x - y)).bind fun d => (mi32 dbg (2 * d)).bind fun d => (mi32 dbg (d + 1)).bind fun d =>
        (mi32 dbg (p + d)).bind fun p =>
        circleLoop32 dbg draw n x y p s
    else some s

/-- `draw_if_in_bounds`, drawing/mod.rs:43-50. -/
def drawIfInBounds32 {α : Type _} (op : α → α → α) (im : Image α) (x y : Int) (c : α) : Option (Image α) :=
  if x ≥ 0 ∧ x < asI32 im.w ∧ y ≥ 0 ∧ y < asI32 im.h then drawPixel op im (castU32 x) (castU32 y) c else some im

/-- A call of `draw_if_in_bounds` with sums as arguments. -/
def plotCirc32 {α : Type _} (dbg : Bool) (op : α → α → α) (im : Image α) (x y : Int) (c : α) : Option (Image α) :=
  (mi32 dbg x).bind fun x => (mi32 dbg y).bind fun y => drawIfInBounds32 op im x y c

/-- `draw_hollow_circle_mut`, conics.rs:188-216. -/
def drawHollowCircle32 {α : Type _} (dbg : Bool) (op : α → α → α) (im : Image α) (center : Int × Int)
    (radius : Int) (c : α) : Option (Image α) :=
  (mi32 dbg (1 - radius)).bind fun p =>
  let x0 := center.1
  let y0 := center.2
  circleLoop32 dbg (fun x y im =>
    (plotCirc32 dbg op im (x0 + x) (y0 + y) c).bind fun im =>
    (plotCirc32 dbg op im (x0 + y) (y0 + x) c).bind fun im =>
    (plotCirc32 dbg op im (x0 - y) (y0 + x) c).bind fun im =>
    (plotCirc32 dbg op im (x0 - x) (y0 + y) c).bind fun im =>
    (plotCirc32 dbg op im (x0 - x) (y0 - y) c).bind fun im =>
    (plotCirc32 dbg op im (x0 - y) (y0 - x) c).bind fun im =>
    (plotCirc32 dbg op im (x0 + y) (y0 - x) c).bind fun im =>
    plotCirc32 dbg op im (x0 + x) (y0 - y) c) (radius + 1).toNat 0 radius p im

/-- A call of `draw_line_segment_mut` with `i32` sums cast to `f32`. -/
def drawLineI32 {α : Type _} (dbg : Bool) (op : α → α → α) (im : Image α) (sx sy ex ey : Int) (c : α) :
    Option (Image α) :=
  (mi32 dbg sx).bind fun sx => (mi32 dbg sy).bind fun sy => (mi32 dbg ex).bind fun ex => (mi32 dbg ey).bind fun ey =>
  drawLine32 op im (rnd32 (sx : ℚ), rnd32 (sy : ℚ)) (rnd32 (ex : ℚ), rnd32 (ey : ℚ)) c

/-- `draw_filled_circle_mut`, conics.rs:237-281. -/
def drawFilledCircle32 {α : Type _} (dbg : Bool) (op : α → α → α) (im : Image α) (center : Int × Int)
    (radius : Int) (c : α) : Option (Image α) :=
  (mi32 dbg (1 - radius)).bind fun p =>
  let x0 := center.1
  let y0 := center.2
  circleLoop32 dbg (fun x y im =>
    (drawLineI32 dbg op im (x0 - x) (y0 + y) (x0 + x) (y0 + y) c).bind fun im =>
    (drawLineI32 dbg op im (x0 - y) (y0 + x) (x0 + y) (y0 + x) c).bind fun im =>
    (drawLineI32 dbg op im (x0 - x) (y0 - y) (x0 + x) (y0 - y) c).bind fun im =>
    drawLineI32 dbg op im (x0 - y) (y0 - x) (x0 + y) (y0 - x) c)
    (radius + 1).toNat 0 radius p im

theorem mi32_some (dbg : Bool) {z : Int} (h1 : -2 ^ 31 ≤ z) (h2 : z < 2 ^ 31) : mi32 dbg z = some z := by
  cases dbg
  · exact exact_wrap z h1 h2
  · exact exact_chk z h1 h2

/-- The error term stays between `1 - 2 * y` and `2 * x + 1`. -/
theorem circleLoop32_eq {σ : Type _} (dbg : Bool) {f g : Int → Int → σ → Option σ} {R : Int} (I : σ → Prop)
    (hR : R ≤ 2 ^ 30 - 4) (hf : ∀ x y s, 0 ≤ x → x ≤ y → y ≤ R → I s → f x y s = g x y s)
    (hI : ∀ x y s s', I s → g x y s = some s' → I s') :
    ∀ (n : Nat) (x y p : Int) (s : σ), 0 ≤ x → y ≤ R → (x ≤ y → 1 - 2 * y ≤ p ∧ p ≤ 2 * x + 1) → I s →
      circleLoop32 dbg f n x y p s = circleLoop g n x y p s
  | 0, x, y, p, s, _, _, _, _ => rfl
  | n + 1, x, y, p, s, hx, hy, hp, hs => by
    unfold circleLoop32 circleLoop
    split
    · next h =>
      have hp := hp h
      rw [hf x y s hx h hy hs]
      cases e : g x y s with
      | none => rfl
      | some s' =>
        have hs' := hI x y s s' hs e
        rw [Option.bind_some, Option.bind_some, mi32_some dbg (by omega) (by omega), Option.bind_some]
        split
        · next hneg =>
          rw [mi32_some dbg (by omega) (by omega), Option.bind_some, mi32_some dbg (by omega) (by omega),
            Option.bind_some, mi32_some dbg (by omega) (by omega), Option.bind_some]
          exact circleLoop32_eq dbg I hR hf hI n _ _ _ s' (by omega) hy (by omega) hs'
        · rw [mi32_some dbg (by omega) (by omega), Option.bind_some, mi32_some dbg (by omega) (by omega),
            Option.bind_some, mi32_some dbg (by omega) (by omega), Option.bind_some,
            mi32_some dbg (by omega) (by omega), Option.bind_some, mi32_some dbg (by omega) (by omega), Option.bind_some]
          exact circleLoop32_eq dbg I hR hf hI n _ _ _ s' (by omega) (by omega) (by omega) hs'
    · rfl

theorem plotCirc32_eq {α : Type _} (dbg : Bool) (op : α → α → α) {im : Image α} {x y : Int} (c : α)
    (hw : im.w < 2 ^ 31) (hh : im.h < 2 ^ 31)
    (h1 : -2 ^ 31 ≤ x) (h2 : x < 2 ^ 31) (h3 : -2 ^ 31 ≤ y) (h4 : y < 2 ^ 31) :
    plotCirc32 dbg op im x y c = drawIfInBounds op im x y c := by
  unfold plotCirc32 drawIfInBounds32 drawIfInBounds
  rw [mi32_some dbg h1 h2, Option.bind_some, mi32_some dbg h3 h4, Option.bind_some, asI32_small hw, asI32_small hh]
  split
  · next h =>
    unfold castU32
    rw [Int.emod_eq_of_lt h.1 (by omega), Int.emod_eq_of_lt h.2.2.1 (by omega)]
  · rfl

theorem drawIfInBounds_dims {α : Type _} {op : α → α → α} {im out : Image α} {x y : Int} {c : α}
    (h : drawIfInBounds op im x y c = some out) : out.w = im.w ∧ out.h = im.h := by
  unfold drawIfInBounds at h
  split at h
  · exact drawPixel_dims h
  · cases h; exact ⟨rfl, rfl⟩

/-- C156: an outline with `i32` coordinates throughout and radius below `2 ^ 30 - 3` is exact (C45) in both build profiles. -/
theorem C156_hollow {α : Type _} (dbg : Bool) (op : α → α → α) (im : Image α) (x0 y0 r : Int) (c : α)
    (hw : im.w < 2 ^ 31) (hh : im.h < 2 ^ 31) (hr : 0 ≤ r) (hr' : r ≤ 2 ^ 30 - 4)
    (h1 : -2 ^ 31 ≤ x0 - r) (h2 : x0 + r < 2 ^ 31) (h3 : -2 ^ 31 ≤ y0 - r) (h4 : y0 + r < 2 ^ 31) :
    drawHollowCircle32 dbg op im (x0, y0) r c = drawHollowCircle op im (x0, y0) r c := by
  unfold drawHollowCircle32 drawHollowCircle
  rw [mi32_some dbg (by omega) (by omega), Option.bind_some]
  dsimp only
  refine circleLoop32_eq dbg (R := r) (fun s => s.w = im.w ∧ s.h = im.h) hr' ?_ ?_ _ _ _ _ _ le_rfl le_rfl (by omega)
    ⟨rfl, rfl⟩
  · intro x y s hx hy hyr hs
    have st : ∀ {t : Image α} {a b : Int} {k k' : Image α → Option (Image α)}, t.w = im.w ∧ t.h = im.h →
        -2 ^ 31 ≤ a → a < 2 ^ 31 → -2 ^ 31 ≤ b → b < 2 ^ 31 →
        (∀ u : Image α, u.w = im.w ∧ u.h = im.h → k u = k' u) →
        (plotCirc32 dbg op t a b c).bind k = (drawIfInBounds op t a b c).bind k' := by
      intro t a b k k' ht a1 a2 b1 b2 hk
      rw [plotCirc32_eq dbg op c (by rw [ht.1]; exact hw) (by rw [ht.2]; exact hh) a1 a2 b1 b2]
      cases e : drawIfInBounds op t a b c with
      | none => rfl
      | some u =>
        have := drawIfInBounds_dims e
        exact hk u ⟨this.1.trans ht.1, this.2.trans ht.2⟩
    refine st hs (by omega) (by omega) (by omega) (by omega) fun u1 g1 => ?_
    refine st g1 (by omega) (by omega) (by omega) (by omega) fun u2 g2 => ?_
    refine st g2 (by omega) (by omega) (by omega) (by omega) fun u3 g3 => ?_
    refine st g3 (by omega) (by omega) (by omega) (by omega) fun u4 g4 => ?_
    refine st g4 (by omega) (by omega) (by omega) (by omega) fun u5 g5 => ?_
    refine st g5 (by omega) (by omega) (by omega) (by omega) fun u6 g6 => ?_
    refine st g6 (by omega) (by omega) (by omega) (by omega) fun u7 g7 => ?_
    exact plotCirc32_eq dbg op c (by rw [g7.1]; exact hw) (by rw [g7.2]; exact hh) (by omega) (by omega) (by omega) (by omega)
  · intro x y s s' hs e
    simp only [Option.bind_eq_some_iff] at e
    obtain ⟨u1, e1, u2, e2, u3, e3, u4, e4, u5, e5, u6, e6, u7, e7, e8⟩ := e
    have d1 := drawIfInBounds_dims e1
    have d2 := drawIfInBounds_dims e2
    have d3 := drawIfInBounds_dims e3
    have d4 := drawIfInBounds_dims e4
    have d5 := drawIfInBounds_dims e5
    have d6 := drawIfInBounds_dims e6
    have d7 := drawIfInBounds_dims e7
    have d8 := drawIfInBounds_dims e8
    omega

theorem bind_none_of {β γ : Type _} {o : Option β} {k : β → Option γ} (h : ∀ b, k b = none) : o.bind k = none := by
  cases o <;> simp [h]

/-- C156: debug builds panic as soon as one of the four extreme points of the outline leaves the `i32` range. -/
theorem C156_panics {α : Type _} (op : α → α → α) (im : Image α) (x0 y0 r : Int) (c : α) (hr : 0 ≤ r)
    (h : ¬(-2 ^ 31 ≤ x0 - r ∧ x0 + r < 2 ^ 31 ∧ -2 ^ 31 ≤ y0 - r ∧ y0 + r < 2 ^ 31)) :
    drawHollowCircle32 true op im (x0, y0) r c = none := by
  unfold drawHollowCircle32
  cases mi32 true (1 - r) with
  | none => rfl
  | some p =>
    rw [Option.bind_some]
    obtain ⟨n, hn⟩ : ∃ n, (r + 1).toNat = n + 1 := ⟨r.toNat, by omega⟩
    rw [hn]
    dsimp only
    unfold circleLoop32
    rw [if_pos hr]
    have fail : ∀ {z : Int}, ¬(-2 ^ 31 ≤ z ∧ z < 2 ^ 31) → mi32 true z = none := fun h => if_neg h
    have p1 : ∀ (t : Image α) {a b : Int}, ¬(-2 ^ 31 ≤ a ∧ a < 2 ^ 31) → plotCirc32 true op t a b c = none := by
      intro t a b ha; unfold plotCirc32; rw [fail ha]; rfl
    have p2 : ∀ (t : Image α) {a b : Int}, ¬(-2 ^ 31 ≤ b ∧ b < 2 ^ 31) → plotCirc32 true op t a b c = none := by
      intro t a b hb; unfold plotCirc32; rw [fail hb]; exact bind_none_of fun _ => rfl
    refine Option.bind_eq_none_iff.2 ?_
    intro s hs
    exfalso
    refine Option.some_ne_none s (hs.symm.trans ?_)
    by_cases q1 : -2 ^ 31 ≤ y0 + r ∧ y0 + r < 2 ^ 31
    swap; · rw [p2 im q1]; rfl
    refine bind_none_of fun u1 => ?_
    by_cases q2 : -2 ^ 31 ≤ x0 + r ∧ x0 + r < 2 ^ 31
    swap; · rw [p1 u1 q2]; rfl
    refine bind_none_of fun u2 => ?_
    by_cases q3 : -2 ^ 31 ≤ x0 - r ∧ x0 - r < 2 ^ 31
    swap; · rw [p1 u2 q3]; rfl
    refine bind_none_of fun u3 => ?_
    refine bind_none_of fun u4 => ?_
    rw [p2 u4 (a := x0 - 0) (b := y0 - r) (by omega)]
    rfl

/-- C156: a disc with coordinates up to `2 ^ 22` is exact (C46) in both build profiles. -/
theorem C156_filled {α : Type _} (dbg : Bool) (op : α → α → α) (im : Image α) (x0 y0 r : Int) (c : α) (hr : 0 ≤ r)
    (h1 : |x0| + r ≤ 2 ^ 22) (h2 : |y0| + r ≤ 2 ^ 22) :
    drawFilledCircle32 dbg op im (x0, y0) r c = drawFilledCircle op im (x0, y0) r c := by
  have a1 := neg_abs_le x0
  have a2 := le_abs_self x0
  have a3 := neg_abs_le y0
  have a4 := le_abs_self y0
  unfold drawFilledCircle32 drawFilledCircle
  rw [mi32_some dbg (by omega) (by omega), Option.bind_some]
  dsimp only
  refine circleLoop32_eq dbg (R := r) (fun _ => True) (by omega) ?_ (fun _ _ _ _ _ _ => trivial) _ _ _ _ _ le_rfl le_rfl
    (by omega) trivial
  intro x y s hx hy hyr _
  have ln : ∀ (t : Image α) {a b a' b' : Int}, |a| ≤ 2 ^ 22 → |b| ≤ 2 ^ 22 → |a'| ≤ 2 ^ 22 → |b'| ≤ 2 ^ 22 →
      drawLineI32 dbg op t a b a' b' c = drawLineInt op t a b a' b' c := by
    intro t a b a' b' g1 g2 g3 g4
    have big : ∀ {z : Int}, |z| ≤ 2 ^ 22 → rnd32 (z : ℚ) = z := fun h => rnd32_intQ (h.trans (by norm_num))
    have sm : ∀ {z : Int}, |z| ≤ 2 ^ 22 → mi32 dbg z = some z := by
      intro z hz
      rw [abs_le] at hz
      exact mi32_some dbg (by omega) (by omega)
    unfold drawLineI32
    rw [sm g1, sm g2, sm g3, sm g4]
    simp only [Option.bind_some]
    rw [big g1, big g2, big g3, big g4]
    exact C118_draw op t c (a, b) (a', b') g1 g2 g3 g4
  have b : ∀ {z : Int}, -2 ^ 22 ≤ z → z ≤ 2 ^ 22 → |z| ≤ 2 ^ 22 := fun h1 h2 => abs_le.2 ⟨h1, h2⟩
  rw [ln s (b (by omega) (by omega)) (b (by omega) (by omega)) (b (by omega) (by omega)) (b (by omega) (by omega))]
  congr 1; funext s
  rw [ln s (b (by omega) (by omega)) (b (by omega) (by omega)) (b (by omega) (by omega)) (b (by omega) (by omega))]
  congr 1; funext s
  rw [ln s (b (by omega) (by omega)) (b (by omega) (by omega)) (b (by omega) (by omega)) (b (by omega) (by omega))]
  congr 1; funext s
  rw [ln s (b (by omega) (by omega)) (b (by omega) (by omega)) (b (by omega) (by omega)) (b (by omega) (by omega))]

/-- C156 (false in general): a circle of radius 1 about the last `i32` pixel makes debug builds panic although no image
shows it; the smallest radius makes them panic although nothing is to be drawn; and a disc far from the origin is shifted, since its
lines are cut to `f32`: the single pixel (16777217, 0) becomes (16777216, 0). -/
theorem C156_negation :
    drawHollowCircle32 true overwrite (Image.new 2 2 0) (2147483647, 0) 1 9 = none ∧
    (drawHollowCircle32 false overwrite (Image.new 2 2 0) (2147483647, 0) 1 9).map Image.rows = some [[0, 0], [0, 0]] ∧
    drawHollowCircle32 true overwrite (Image.new 2 2 0) (0, 0) (-2147483648) 9 = none ∧
    (drawHollowCircle overwrite (Image.new 2 2 0) (0, 0) (-2147483648) 9).map Image.rows = some [[0, 0], [0, 0]] ∧
    bresenham32 (rnd32 16777217, 0) (rnd32 16777217, 0) = [(16777216, 0)] := by
  refine ⟨C156_panics _ _ _ _ _ _ (by norm_num) (by norm_num), by decide, by decide, by decide, by decide +kernel⟩

example : (drawHollowCircle32 true overwrite (Image.new 3 3 0) (1, 1) 1 9).map Image.rows =
    some [[0, 9, 0], [9, 0, 9], [0, 9, 0]] := by decide

end Verif.Float
