import Verif.Relations.Moves
import Verif.Seam.Remove
import Verif.Compose.Props
/-
C187: work done in steps, repeated or in another order gives the same result.
-/
namespace Verif.Relations
open Verif.Drawing Verif.Float Verif.Definitions

universe u

/-! ### Drawing several shapes in one colour -/

/-- Specification: a call of one of the drawing functions. -/
inductive Shape
  | line (s e : Int × Int)
  | hollowCircle (x y r : Int)
  | filledCircle (x y r : Int)
  | hollowEllipse (x y a b : Int)
  | filledEllipse (x y a b : Int)
  | hollowRect (r : Rect)
  | filledRect (r : Rect)
  | cross (x y : Int)
  | polygon (poly : List (Int × Int))

/-- Specification: the parameters the call accepts (`Rect` values are never empty). -/
def Shape.Ok : Shape → Prop
  | .hollowEllipse _ _ a b => 0 ≤ a ∧ 0 ≤ b
  | .filledEllipse _ _ a b => 0 ≤ a ∧ 0 ≤ b
  | .hollowRect r => 0 < r.width ∧ 0 < r.height
  | _ => True

/-- Specification: the call. -/
def Shape.draw {α : Type u} (c : α) (im : Image α) : Shape → Option (Image α)
  | .line s e => drawLine overwrite im ((s.1 : ℚ), (s.2 : ℚ)) ((e.1 : ℚ), (e.2 : ℚ)) c
  | .hollowCircle x y r => drawHollowCircle overwrite im (x, y) r c
  | .filledCircle x y r => drawFilledCircle overwrite im (x, y) r c
  | .hollowEllipse x y a b => drawHollowEllipse overwrite im (x, y) a b c
  | .filledEllipse x y a b => drawFilledEllipse overwrite im (x, y) a b c
  | .hollowRect r => drawHollowRect overwrite im r c
  | .filledRect r => drawFilledRect overwrite im r c
  | .cross x y => drawCross overwrite im c x y
  | .polygon poly => drawPolygon overwrite im poly c

variable {α : Type u}

theorem paints_ellipse (x0 y0 a b : Int) (ha : 0 ≤ a) (hb : 0 ≤ b) :
    (∃ S : Int → Int → Prop, ∀ (α : Type u) (c : α) (im : Image α),
      Paints c im (drawHollowEllipse overwrite im (x0, y0) a b c) S) ∧
    ∃ S : Int → Int → Prop, ∀ (α : Type u) (c : α) (im : Image α),
      Paints c im (drawFilledEllipse overwrite im (x0, y0) a b c) S := by
  by_cases hne : a = b
  · subst hne
    refine ⟨⟨fun p q => OnCircle a (p - x0) (q - y0), fun _ c im => ?_⟩,
      ⟨fun p q => InDisc a (p - x0) (q - y0), fun _ c im => ?_⟩⟩
    · rw [C97_circle]; exact C45_hollow im x0 y0 a c
    · rw [C98_circle]; exact C46_filled im x0 y0 a c
  obtain ⟨L, hL, e⟩ := drawEllipse_spec.{u} a b ha hb hne
  refine ⟨⟨fun x y => (|x - x0|, |y - y0|) ∈ L, fun _ c im => ?_⟩,
    ⟨fun x y => ∃ X, (X, |y - y0|) ∈ L ∧ |x - x0| ≤ X, fun _ c im => ?_⟩⟩
  · obtain ⟨o, h1, h2, h3, h4⟩ := drawList_overwrite im c (quadPts x0 y0 L)
    refine ⟨o, ?_, h2, h3, fun x y hxy => ⟨fun h => ?_, fun h => ?_⟩⟩
    · unfold drawHollowEllipse
      rw [if_neg hne]
      dsimp only
      rw [e, ← h1, quadPts, forList_flatMap]
      congr 1
      funext q im
      simp only [forList]
      cases h : drawIfInBounds overwrite im (x0 + q.1) (y0 + q.2) c <;> simp
    · rw [h4 x y hxy, if_pos ((quadPts_mem hL.box x0 y0 _).2 h)]
    · rw [h4 x y hxy, if_neg (fun h' => h ((quadPts_mem hL.box x0 y0 _).1 h'))]
  · obtain ⟨o, h1, h2, h3, h4⟩ := drawList_overwrite im c (spanPts x0 y0 L)
    refine ⟨o, ?_, h2, h3, fun x y hxy => ⟨fun h => ?_, fun h => ?_⟩⟩
    · unfold drawFilledEllipse
      rw [if_neg hne]
      dsimp only
      rw [e, ← h1, spanPts, forList_flatMap]
      congr 1
      funext q im
      simp only [forList_append, drawLineInt_eq, hline]
    · rw [h4 x y hxy, if_pos ((spanPts_mem hL.box x0 y0 _).2 h)]
    · rw [h4 x y hxy, if_neg (fun h' => h ((spanPts_mem hL.box x0 y0 _).1 h'))]

/-- Every call paints a set of positions that does not depend on the image, the colour or the pixel type. -/
theorem paints_shape (s : Shape) (hs : s.Ok) : ∃ S : Int → Int → Prop, ∀ (α : Type u) (c : α) (im : Image α), 0 < im.w → 0 < im.h →
    Paints c im (s.draw c im) S := by
  cases s with
  | line s e => exact ⟨_, fun _ c im _ _ => paints_line im s e c⟩
  | hollowCircle x y r => exact ⟨fun a b => OnCircle r (a - x) (b - y), fun _ c im _ _ => C45_hollow im x y r c⟩
  | filledCircle x y r => exact ⟨fun a b => InDisc r (a - x) (b - y), fun _ c im _ _ => C46_filled im x y r c⟩
  | hollowEllipse x y a b =>
    obtain ⟨⟨S, h⟩, -⟩ := paints_ellipse.{u} x y a b hs.1 hs.2
    exact ⟨S, fun _ c im _ _ => h _ c im⟩
  | filledEllipse x y a b =>
    obtain ⟨-, S, h⟩ := paints_ellipse.{u} x y a b hs.1 hs.2
    exact ⟨S, fun _ c im _ _ => h _ c im⟩
  | hollowRect r =>
    exact ⟨fun x y => (r.left ≤ x ∧ x < r.left + r.width ∧ r.top ≤ y ∧ y < r.top + r.height) ∧
      (x = r.left ∨ x = r.left + r.width - 1 ∨ y = r.top ∨ y = r.top + r.height - 1),
      fun _ c im _ _ => C99_hollow_rect im r hs.1 hs.2 c⟩
  | filledRect r =>
    refine ⟨InRect r, fun _ c im h1 h2 => ?_⟩
    obtain ⟨o, g1, g2, g3, g4, g5⟩ := C08_filled_rect overwrite im r c h1 h2
    exact ⟨o, g1, g2, g3, fun a b hab => ⟨fun h => g4 a b hab.1 hab.2 h, fun h => g5 a b h⟩⟩
  | cross x y =>
    refine ⟨fun a b => (a - x).natAbs + (b - y).natAbs ≤ 1, fun _ c im _ _ => ?_⟩
    obtain ⟨o, g1, g2, g3, g4⟩ := C49_cross overwrite im c x y
    refine ⟨o, g1, g2, g3, fun a b hab => ⟨fun h => ?_, fun h => ?_⟩⟩
    · rw [g4 a b hab.1 hab.2, if_pos h]; rfl
    · rw [g4 a b hab.1 hab.2, if_neg h]
  | polygon poly => exact ⟨_, fun _ c im _ h => C47_fill_overwrite im h poly c⟩

/-- **C187.** Drawing shapes in one colour: the picture depends only on which shapes are drawn, not on
their order and not on how often each is drawn. -/
theorem C187_drawing (im : Image α) (hw : 0 < im.w) (hh : 0 < im.h) (c : α) (l l' : List Shape)
    (hl : ∀ s ∈ l, s.Ok) (hset : ∀ s, s ∈ l ↔ s ∈ l') :
    ∃ o o', forList l im (fun s im => s.draw c im) = some o ∧ forList l' im (fun s im => s.draw c im) = some o' ∧
      o.w = im.w ∧ o.h = im.h ∧ o'.w = im.w ∧ o'.h = im.h ∧ ∀ a b, im.InB a b → o'.px a b = o.px a b := by
  have hex : ∀ s : Shape, ∃ S : Int → Int → Prop, s.Ok → ∀ (c : α) (im : Image α), 0 < im.w → 0 < im.h →
      Paints c im (s.draw c im) S := by
    intro s
    by_cases h : s.Ok
    · obtain ⟨S, hS⟩ := paints_shape.{u} s h
      exact ⟨S, fun _ => hS α⟩
    · exact ⟨fun _ _ => True, fun h' => absurd h' h⟩
  choose S hS using hex
  have all : ∀ (l : List Shape), (∀ s ∈ l, s.Ok) → ∀ im : Image α, 0 < im.w → 0 < im.h →
      Paints c im (forList l im (fun s im => s.draw c im)) fun a b => ∃ s ∈ l, S s a b := by
    intro l
    induction l with
    | nil =>
      intro _ im _ _
      exact ⟨im, rfl, rfl, rfl, fun a b _ => ⟨fun ⟨s, h, _⟩ => absurd h (by simp), fun _ => rfl⟩⟩
    | cons s l ih =>
      intro hl im hw hh
      obtain ⟨o, e, w, h, p⟩ := hS s (hl s (by simp)) c im hw hh
      obtain ⟨o', e', w', h', p'⟩ := ih (fun s hs => hl s (by simp [hs])) o (w ▸ hw) (h ▸ hh)
      refine ⟨o', ?_, w'.trans w, h'.trans h, fun a b hab => ?_⟩
      · show (s.draw c im).bind _ = _
        rw [e]
        exact e'
      · have hab' : o.InB a b := ⟨w ▸ hab.1, h ▸ hab.2⟩
        by_cases hr : ∃ s ∈ l, S s a b
        · refine ⟨fun _ => (p' a b hab').1 hr, fun hn => absurd ?_ hn⟩
          obtain ⟨t, ht, h⟩ := hr
          exact ⟨t, by simp [ht], h⟩
        · rw [(p' a b hab').2 hr]
          refine ⟨fun hx => (p a b hab).1 ?_, fun hn => (p a b hab).2 fun h => hn ⟨s, by simp, h⟩⟩
          obtain ⟨t, ht, h⟩ := hx
          rcases List.mem_cons.1 ht with rfl | ht
          · exact h
          · exact absurd ⟨t, ht, h⟩ hr
  obtain ⟨o, e, w, h, p⟩ := all l hl im hw hh
  obtain ⟨o', e', w', h', p'⟩ := all l' (fun s hs => hl s ((hset s).2 hs)) im hw hh
  refine ⟨o, o', e, e', w, h, w', h', fun a b hab => ?_⟩
  by_cases hr : ∃ s ∈ l, S s a b
  · rw [(p a b hab).1 hr, (p' a b hab).1]
    obtain ⟨t, ht, h⟩ := hr
    exact ⟨t, (hset t).1 ht, h⟩
  · rw [(p a b hab).2 hr, (p' a b hab).2]
    rintro ⟨t, ht, h⟩
    exact hr ⟨t, (hset t).2 ht, h⟩

/-- Non-trivial instance: overlapping shapes in two orders, one of them twice. -/
example : (forList [Shape.cross 0 1, .line (0, 0) (2, 2)] (Image.new 3 3 0) (fun s im => s.draw 1 im)).map Image.rows =
      some [[1, 0, 0], [1, 1, 0], [1, 0, 1]] ∧
    (forList [Shape.line (0, 0) (2, 2), .cross 0 1, .line (0, 0) (2, 2)] (Image.new 3 3 0)
      (fun s im => s.draw 1 im)).map Image.rows = some [[1, 0, 0], [1, 1, 0], [1, 0, 1]] := by
  decide +kernel

/-! ### Rectangles -/

/-- Proof helper: the rectangle with the given inclusive bounds, if not empty. -/
def boundsRect (l t r b : Int) : Option Rect :=
  if r < l ∨ b < t then none else some ⟨l, t, (r - l).toNat + 1, (b - t).toNat + 1⟩

theorem intersect_eq_bounds (r s : Rect) : r.intersect s =
    boundsRect (max r.left s.left) (max r.top s.top) (min r.right s.right) (min r.bottom s.bottom) := rfl

theorem boundsRect_bind (l t r b : Int) (s : Rect) : ((boundsRect l t r b).bind fun i => i.intersect s) =
    boundsRect (max l s.left) (max t s.top) (min r s.right) (min b s.bottom) := by
  by_cases h : r < l ∨ b < t
  · have h' : min r s.right < max l s.left ∨ min b s.bottom < max t s.top := by
      rcases h with h | h
      · left; omega
      · right; omega
    rw [boundsRect, if_pos h, boundsRect, if_pos h']
    rfl
  · rw [boundsRect, if_neg h, Option.bind_some, intersect_eq_bounds]
    rw [not_or] at h
    have e1 : Rect.right ⟨l, t, (r - l).toNat + 1, (b - t).toNat + 1⟩ = r := by
      unfold Rect.right; dsimp only; omega
    have e2 : Rect.bottom ⟨l, t, (r - l).toNat + 1, (b - t).toNat + 1⟩ = b := by
      unfold Rect.bottom; dsimp only; omega
    rw [e1, e2]

theorem intersect_comm (r s : Rect) : r.intersect s = s.intersect r := by
  rw [intersect_eq_bounds, intersect_eq_bounds, max_comm, max_comm r.top, min_comm, min_comm r.bottom]

/-- **C187.** Intersecting rectangles: commutative, associative, and a rectangle meets itself in itself. -/
theorem C187_intersect (r s t : Rect) (hw : 0 < r.width) (hh : 0 < r.height) :
    r.intersect s = s.intersect r ∧
    ((r.intersect s).bind fun i => i.intersect t) = ((s.intersect t).bind fun i => r.intersect i) ∧
    r.intersect r = some r := by
  refine ⟨intersect_comm r s, ?_, ?_⟩
  · rw [show (fun i => r.intersect i) = fun i : Rect => i.intersect r from funext fun i => intersect_comm r i,
      intersect_eq_bounds, intersect_eq_bounds, boundsRect_bind, boundsRect_bind]
    congr 1
    · rw [max_assoc, max_comm]
    · rw [max_assoc, max_comm]
    · rw [min_assoc, min_comm]
    · rw [min_assoc, min_comm]
  · obtain ⟨rl, rt, rw', rh⟩ := r
    dsimp only at hw hh
    unfold Rect.intersect Rect.right Rect.bottom
    dsimp only
    rw [max_self, max_self, min_self, min_self, if_neg (by omega)]
    congr 1
    rw [Rect.mk.injEq]
    omega

example : ((Rect.intersect ⟨0, 0, 4, 4⟩ ⟨2, 1, 5, 2⟩).bind fun i => i.intersect ⟨1, 2, 2, 9⟩) =
    some ⟨2, 2, 1, 1⟩ := by decide +kernel

/-! ### Translation -/

/-- **C187.** Translating by two shifts of the same direction is translating by their sum (shifts of
opposite directions lose what has left the image: see the example). -/
theorem C187_translate (z : α) (im : Image α) (hw : 0 < im.w) (sx sy tx ty : Int)
    (hx : 0 ≤ sx ∧ 0 ≤ tx ∨ sx ≤ 0 ∧ tx ≤ 0) (hy : 0 ≤ sy ∧ 0 ≤ ty ∨ sy ≤ 0 ∧ ty ≤ 0) :
    ∃ a b o, Compose.translate z im sx sy = some a ∧ Compose.translate z a tx ty = some b ∧
      Compose.translate z im (sx + tx) (sy + ty) = some o ∧
      ∀ x y, x < im.w → y < im.h → b.px x y = o.px x y := by
  obtain ⟨a, ea, wa, ha, pa⟩ := Compose.C24_translate z im sx sy hw
  obtain ⟨b, eb, wb, hb, pb⟩ := Compose.C24_translate z a tx ty (wa ▸ hw)
  obtain ⟨o, eo, wo, ho, po⟩ := Compose.C24_translate z im (sx + tx) (sy + ty) hw
  have key : ∀ (n x : Nat) (s t : Int), x < n → (0 ≤ s ∧ 0 ≤ t ∨ s ≤ 0 ∧ t ≤ 0) →
      clampTo n ((clampTo n ((x : Int) - t) : Int) - s) = clampTo n ((x : Int) - (s + t)) := by
    intro n x s t hx h
    unfold clampTo
    omega
  refine ⟨a, b, o, ea, eb, eo, fun x y hx' hy' => ?_⟩
  rw [pb x y (wa ▸ hx') (ha ▸ hy'), po x y hx' hy', wa, ha,
    pa _ _ (clampTo_lt hw _) (clampTo_lt (by omega) _), key _ _ _ _ hx' hx, key _ _ _ _ hy' hy]

example : ((Compose.translate 0 (Image.ofRows 0 [[1, 2, 3]]) 1 0).bind fun a =>
      Compose.translate 0 a 1 0).map Image.rows = some [[1, 1, 1]] ∧
    ((Compose.translate 0 (Image.ofRows 0 [[1, 2, 3]]) 1 0).bind fun a =>
      Compose.translate 0 a (-1) 0).map Image.rows = some [[1, 2, 2]] := by decide +kernel

/-! ### Seam carving -/

theorem forRange_const_add {σ : Type _} (g : σ → Option σ) (m k : Nat) (s : σ) :
    forRange 0 (m + k) s (fun _ s => g s) = (forRange 0 m s fun _ s => g s).bind fun s' => forRange 0 k s' fun _ s => g s := by
  induction k with
  | zero =>
    cases h : forRange 0 m s (fun _ s => g s) with
    | none => simp
    | some o => simp [forRange_empty]
  | succ k ih =>
    rw [← Nat.add_assoc, forRange_succ_last (Nat.zero_le _), ih]
    cases h : forRange 0 m s (fun _ s => g s) with
    | none => simp
    | some o => simp [forRange_succ_last (Nat.zero_le _)]

/-- **C187.** Shrinking an image in two steps is shrinking it at once. -/
theorem C187_shrink {n : Nat} (im : Image (Fin n → Nat)) (hu : Gradients.IsU8 im) (hh : 0 < im.h) (s t : Nat)
    (h1 : 1 ≤ t) (h2 : t ≤ s) (h3 : s ≤ im.w) :
    ∃ a o, Seam.shrinkWidth im s = some a ∧ Seam.shrinkWidth a t = some o ∧ Seam.shrinkWidth im t = some o := by
  obtain ⟨a, ea, wa, -, -⟩ := Seam.C60_shrink im hu hh s (by omega) h3
  obtain ⟨o, eo, -, -, -⟩ := Seam.C60_shrink im hu hh t h1 (by omega)
  refine ⟨a, o, ea, ?_, eo⟩
  unfold Seam.shrinkWidth at ea eo ⊢
  rw [if_pos h3] at ea
  rw [if_pos (by omega)] at eo
  rw [if_pos (by omega), ← eo, show im.w - t = (im.w - s) + (s - t) by omega, forRange_const_add
    (fun im => (Seam.findVerticalSeam im).bind fun seam => Seam.removeVerticalSeam (fun _ => 0) im seam), ea, wa]
  rfl

example : let im : Image (Fin 1 → Nat) := ⟨4, 2, fun x y _ => [[5, 5, 9, 200], [5, 5, 7, 200]].getD y [] |>.getD x 0⟩
    let show' := fun o : Image (Fin 1 → Nat) => (Image.mk o.w o.h fun x y => o.px x y 0).rows
    ((Seam.shrinkWidth im 3).bind fun a => Seam.shrinkWidth a 2).map show' = (Seam.shrinkWidth im 2).map show' ∧
      (Seam.shrinkWidth im 2).isSome = true := by decide +kernel

end Verif.Relations
