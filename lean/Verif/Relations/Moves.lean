import Verif.Relations.Drawing
import Verif.Drawing.EllipseProps
import Verif.Drawing.RectProps
/-
C185: drawing a shape moved by a whole number of pixels gives the moved picture.
-/
namespace Verif.Relations
open Verif.Drawing Verif.Float Verif.Definitions

universe u
variable {α : Type u}

/-- Specification: pixel `(a, b)` of `im` and pixel `(a + dx, b + dy)` of `im'` agree whenever both
exist. -/
def MovedBy (dx dy : Int) (im im' : Image α) : Prop :=
  ∀ a b a' b' : Nat, im.InB a b → im'.InB a' b' → (a' : Int) = a + dx → (b' : Int) = b + dy →
    im'.px a' b' = im.px a b

/-- Specification: both calls succeed and the results are moved against each other. -/
def MovedResult (dx dy : Int) (r r' : Option (Image α)) : Prop :=
  ∃ o o', r = some o ∧ r' = some o' ∧ MovedBy dx dy o o'

/-- What the call paints: exactly the image pixels in `S`. -/
def Paints (c : α) (im : Image α) (r : Option (Image α)) (S : Int → Int → Prop) : Prop :=
  ∃ o, r = some o ∧ o.w = im.w ∧ o.h = im.h ∧ ∀ a b : Nat, im.InB a b →
    (S a b → o.px a b = c) ∧ (¬ S a b → o.px a b = im.px a b)

theorem movedResult_of {c : α} {dx dy : Int} {im im' : Image α} {r r' : Option (Image α)} {S S' : Int → Int → Prop}
    (hp : Paints c im r S) (hp' : Paints c im' r' S') (hS : ∀ a b, S' (a + dx) (b + dy) ↔ S a b)
    (hm : MovedBy dx dy im im') : MovedResult dx dy r r' := by
  obtain ⟨o, e, w, h, hp⟩ := hp
  obtain ⟨o', e', w', h', hp'⟩ := hp'
  refine ⟨o, o', e, e', fun a b a' b' i1 i2 ha hb => ?_⟩
  have j1 : im.InB a b := ⟨w ▸ i1.1, h ▸ i1.2⟩
  have j2 : im'.InB a' b' := ⟨w' ▸ i2.1, h' ▸ i2.2⟩
  by_cases hs : S a b
  · have hs' : S' a' b' := by rw [ha, hb]; exact (hS _ _).2 hs
    rw [(hp a b j1).1 hs, (hp' a' b' j2).1 hs']
  · have hs' : ¬ S' a' b' := by rw [ha, hb]; exact fun h => hs ((hS _ _).1 h)
    rw [(hp a b j1).2 hs, (hp' a' b' j2).2 hs']
    exact hm a b a' b' j1 j2 ha hb

/-! ### Lines -/

/-- The iterator moved along its major and minor axis. -/
def shiftB (u v : Int) (b : Bres) : Bres := { b with x := b.x + u, y := b.y + v, endX := b.endX + u }

theorem step_shift (u v : Int) (b : Bres) : (shiftB u v b).step = shiftB u v b.step := by
  unfold Bres.step shiftB
  dsimp only
  split <;> simp only [Bres.mk.injEq, true_and, and_true] <;> first | (constructor <;> ring1) | ring1

theorem collect_shift (u v : Int) (n : Nat) (b : Bres) :
    (shiftB u v b).collect n =
      (b.collect n).map fun p => if b.steep then (p.1 + v, p.2 + u) else (p.1 + u, p.2 + v) := by
  induction n generalizing b with
  | zero => rfl
  | succ n ih =>
    unfold Bres.collect Bres.next
    have hc : ((shiftB u v b).x > (shiftB u v b).endX) ↔ b.x > b.endX := by unfold shiftB; dsimp only; omega
    by_cases h : b.x > b.endX
    · rw [if_pos (hc.2 h), if_pos h]; rfl
    · rw [if_neg (fun h' => h (hc.1 h')), if_neg h]
      dsimp only [Option.elim]
      rw [step_shift, ih, List.map_cons]
      have hs : b.step.steep = b.steep := by unfold Bres.step; dsimp only; split <;> rfl
      rw [hs]
      congr 1
      unfold Bres.pt shiftB
      dsimp only
      split <;> rfl

/-- Moving both end points moves all pixels of the line. -/
theorem bresenham_shift (s e : Int × Int) (dx dy : Int) :
    segPts (s.1 + dx, s.2 + dy) (e.1 + dx, e.2 + dy) = (segPts s e).map fun p => (p.1 + dx, p.2 + dy) := by
  have mk : ∀ (st : Bool) (x0 y0 x1 y1 u v : Int),
      Bres.mk' st ((x0 + u : Int) : ℚ) ((y0 + v : Int) : ℚ) ((x1 + u : Int) : ℚ) ((y1 + v : Int) : ℚ) =
        shiftB u v (Bres.mk' st (x0 : ℚ) y0 x1 y1) := by
    intro st x0 y0 x1 y1 u v
    unfold Bres.mk' shiftB
    simp only [truncQ_int, Int.cast_lt, add_lt_add_iff_right]
    push_cast
    simp only [add_sub_add_right_eq_sub]
  have ord : ∀ (st : Bool) (x0 y0 x1 y1 u v : Int),
      Bres.ordered st ((x0 + u : Int) : ℚ) ((y0 + v : Int) : ℚ) ((x1 + u : Int) : ℚ) ((y1 + v : Int) : ℚ) =
        shiftB u v (Bres.ordered st (x0 : ℚ) y0 x1 y1) ∧ (Bres.ordered st (x0 : ℚ) y0 x1 y1).steep = st := by
    intro st x0 y0 x1 y1 u v
    unfold Bres.ordered
    simp only [gt_iff_lt, Int.cast_lt, add_lt_add_iff_right, mk]
    split <;> exact ⟨rfl, rfl⟩
  have tol : ∀ (u v : Int) (b : Bres), (shiftB u v b).toList =
      b.toList.map fun p => if b.steep then (p.1 + v, p.2 + u) else (p.1 + u, p.2 + v) := by
    intro u v b
    unfold Bres.toList
    rw [collect_shift]
    congr 2
    unfold shiftB
    dsimp only
    omega
  unfold segPts bresenham Bres.new
  dsimp only
  have hc : (|((e.2 + dy : Int) : ℚ) - ((s.2 + dy : Int) : ℚ)| > |((e.1 + dx : Int) : ℚ) - ((s.1 + dx : Int) : ℚ)|) ↔
      |(e.2 : ℚ) - s.2| > |(e.1 : ℚ) - s.1| := by
    push_cast
    rw [add_sub_add_right_eq_sub, add_sub_add_right_eq_sub]
  by_cases h : |(e.2 : ℚ) - s.2| > |(e.1 : ℚ) - s.1|
  · rw [if_pos (hc.2 h), if_pos h, (ord _ _ _ _ _ _ _).1, tol, (ord _ _ _ _ _ 0 0).2]
    simp only [if_true]
  · rw [if_neg (fun h' => h (hc.1 h')), if_neg h, (ord _ _ _ _ _ _ _).1, tol, (ord _ _ _ _ _ 0 0).2]
    simp only [Bool.false_eq_true, if_false]

theorem mem_shift (s e : Int × Int) (dx dy a b : Int) :
    (a + dx, b + dy) ∈ segPts (s.1 + dx, s.2 + dy) (e.1 + dx, e.2 + dy) ↔ (a, b) ∈ segPts s e := by
  rw [bresenham_shift, List.mem_map]
  constructor
  · rintro ⟨p, hp, h⟩
    obtain ⟨h1, h2⟩ := Prod.mk.inj h
    rwa [show (a, b) = p from Prod.ext (by dsimp only; omega) (by dsimp only; omega)]
  · exact fun h => ⟨_, h, rfl⟩

theorem paints_line (im : Image α) (s e : Int × Int) (c : α) :
    Paints c im (drawLine overwrite im ((s.1 : ℚ), (s.2 : ℚ)) ((e.1 : ℚ), (e.2 : ℚ)) c)
      fun a b => (a, b) ∈ segPts s e := by
  obtain ⟨o, h1, h2, h3, h4⟩ := C43_draw overwrite im ((s.1 : ℚ), (s.2 : ℚ)) ((e.1 : ℚ), (e.2 : ℚ)) c
  refine ⟨o, h1, h2, h3, fun a b hab => ⟨fun h => ?_, fun h => ?_⟩⟩
  · rw [h4, if_pos ⟨hab, h⟩]; rfl
  · rw [h4, if_neg (fun h' => h h'.2)]

/-- **C185.** Lines between integer end points: moving the end points moves the line.  The same holds
in single precision for coordinates up to 2^22. -/
theorem C185_line {dx dy : Int} {im im' : Image α} (hm : MovedBy dx dy im im') (s e : Int × Int) (c : α) :
    let draw := fun (im : Image α) (s e : Int × Int) =>
      drawLine overwrite im ((s.1 : ℚ), (s.2 : ℚ)) ((e.1 : ℚ), (e.2 : ℚ)) c
    let draw32 := fun (im : Image α) (s e : Int × Int) =>
      drawLine32 overwrite im ((s.1 : ℚ), (s.2 : ℚ)) ((e.1 : ℚ), (e.2 : ℚ)) c
    MovedResult dx dy (draw im s e) (draw im' (s.1 + dx, s.2 + dy) (e.1 + dx, e.2 + dy)) ∧
    (|s.1| ≤ 2 ^ 22 → |s.2| ≤ 2 ^ 22 → |e.1| ≤ 2 ^ 22 → |e.2| ≤ 2 ^ 22 →
      |s.1 + dx| ≤ 2 ^ 22 → |s.2 + dy| ≤ 2 ^ 22 → |e.1 + dx| ≤ 2 ^ 22 → |e.2 + dy| ≤ 2 ^ 22 →
      MovedResult dx dy (draw32 im s e) (draw32 im' (s.1 + dx, s.2 + dy) (e.1 + dx, e.2 + dy))) := by
  intro draw draw32
  have main : MovedResult dx dy (draw im s e) (draw im' (s.1 + dx, s.2 + dy) (e.1 + dx, e.2 + dy)) :=
    movedResult_of (paints_line im s e c) (paints_line im' (s.1 + dx, s.2 + dy) (e.1 + dx, e.2 + dy) c)
      (fun a b => mem_shift s e dx dy a b) hm
  refine ⟨main, fun h1 h2 h3 h4 h5 h6 h7 h8 => ?_⟩
  have e1 : draw32 im s e = draw im s e := C118_draw overwrite im c s e h1 h2 h3 h4
  have e2 : draw32 im' (s.1 + dx, s.2 + dy) (e.1 + dx, e.2 + dy) =
      draw im' (s.1 + dx, s.2 + dy) (e.1 + dx, e.2 + dy) :=
    C118_draw overwrite im' c (s.1 + dx, s.2 + dy) (e.1 + dx, e.2 + dy) h5 h6 h7 h8
  rw [e1, e2]
  exact main

/-! ### Circles, ellipses, rectangles, crosses -/

/-- **C185.** Circles and ellipses, hollow and filled. -/
theorem C185_round {dx dy : Int} {im im' : Image α} (hm : MovedBy dx dy im im') (x0 y0 : Int) (c : α) :
    (∀ r, MovedResult dx dy (drawHollowCircle overwrite im (x0, y0) r c)
      (drawHollowCircle overwrite im' (x0 + dx, y0 + dy) r c)) ∧
    (∀ r, MovedResult dx dy (drawFilledCircle overwrite im (x0, y0) r c)
      (drawFilledCircle overwrite im' (x0 + dx, y0 + dy) r c)) ∧
    ∀ a b, 0 ≤ a → 0 ≤ b →
      MovedResult dx dy (drawHollowEllipse overwrite im (x0, y0) a b c)
        (drawHollowEllipse overwrite im' (x0 + dx, y0 + dy) a b c) ∧
      MovedResult dx dy (drawFilledEllipse overwrite im (x0, y0) a b c)
        (drawFilledEllipse overwrite im' (x0 + dx, y0 + dy) a b c) := by
  have hol : ∀ r, MovedResult dx dy (drawHollowCircle overwrite im (x0, y0) r c)
      (drawHollowCircle overwrite im' (x0 + dx, y0 + dy) r c) := fun r =>
    movedResult_of (S := fun a b => OnCircle r (a - x0) (b - y0))
      (S' := fun a b => OnCircle r (a - (x0 + dx)) (b - (y0 + dy))) (C45_hollow im x0 y0 r c)
      (C45_hollow im' (x0 + dx) (y0 + dy) r c) (fun a b => by rw [add_sub_add_right_eq_sub, add_sub_add_right_eq_sub]) hm
  have fil : ∀ r, MovedResult dx dy (drawFilledCircle overwrite im (x0, y0) r c)
      (drawFilledCircle overwrite im' (x0 + dx, y0 + dy) r c) := fun r =>
    movedResult_of (S := fun a b => InDisc r (a - x0) (b - y0))
      (S' := fun a b => InDisc r (a - (x0 + dx)) (b - (y0 + dy))) (C46_filled im x0 y0 r c)
      (C46_filled im' (x0 + dx) (y0 + dy) r c) (fun a b => by rw [add_sub_add_right_eq_sub, add_sub_add_right_eq_sub]) hm
  refine ⟨hol, fil, fun a b ha hb => ?_⟩
  by_cases hne : a = b
  · subst hne
    rw [C97_circle, C97_circle, C98_circle, C98_circle]
    exact ⟨hol a, fil a⟩
  obtain ⟨L, hL, e⟩ := drawEllipse_spec.{u} a b ha hb hne
  have hp : ∀ (im : Image α) (x0 y0 : Int), Paints c im (drawHollowEllipse overwrite im (x0, y0) a b c)
      fun x y => (|x - x0|, |y - y0|) ∈ L := by
    intro im x0 y0
    obtain ⟨o, h1, h2, h3, h4⟩ := drawList_overwrite im c (quadPts x0 y0 L)
    refine ⟨o, ?_, h2, h3, fun x y hxy => ⟨fun h => ?_, fun h => ?_⟩⟩
    · unfold drawHollowEllipse
      rw [if_neg hne]
      dsimp only
      rw [e, ← h1, quadPts, forList_flatMap]
      congr 1
      funext q im
      simp only [forList]
      cases h : drawIfInBounds overwrite im (x0 + q.1) (y0 + q.2) c <;> simp
    · rw [h4 x y hxy, if_pos ((quadPts_mem hL.box x0 y0 _).2 h)]
    · rw [h4 x y hxy, if_neg (fun h' => h ((quadPts_mem hL.box x0 y0 _).1 h'))]
  have hf : ∀ (im : Image α) (x0 y0 : Int), Paints c im (drawFilledEllipse overwrite im (x0, y0) a b c)
      fun x y => ∃ X, (X, |y - y0|) ∈ L ∧ |x - x0| ≤ X := by
    intro im x0 y0
    obtain ⟨o, h1, h2, h3, h4⟩ := drawList_overwrite im c (spanPts x0 y0 L)
    refine ⟨o, ?_, h2, h3, fun x y hxy => ⟨fun h => ?_, fun h => ?_⟩⟩
    · unfold drawFilledEllipse
      rw [if_neg hne]
      dsimp only
      rw [e, ← h1, spanPts, forList_flatMap]
      congr 1
      funext q im
      simp only [forList_append, drawLineInt_eq, hline]
    · rw [h4 x y hxy, if_pos ((spanPts_mem hL.box x0 y0 _).2 h)]
    · rw [h4 x y hxy, if_neg (fun h' => h ((spanPts_mem hL.box x0 y0 _).1 h'))]
  exact ⟨movedResult_of (hp im x0 y0) (hp im' (x0 + dx) (y0 + dy))
      (fun a b => by rw [add_sub_add_right_eq_sub, add_sub_add_right_eq_sub]) hm,
    movedResult_of (hf im x0 y0) (hf im' (x0 + dx) (y0 + dy))
      (fun a b => by simp only [add_sub_add_right_eq_sub]) hm⟩

/-- **C185.** Rectangles (filled ones on non-empty images) and crosses. -/
theorem C185_rect {dx dy : Int} {im im' : Image α} (hm : MovedBy dx dy im im') (c : α) :
    (∀ r : Rect, 0 < r.width → 0 < r.height →
      MovedResult dx dy (drawHollowRect overwrite im r c)
        (drawHollowRect overwrite im' { r with left := r.left + dx, top := r.top + dy } c)) ∧
    (∀ r : Rect, 0 < im.w → 0 < im.h → 0 < im'.w → 0 < im'.h →
      MovedResult dx dy (drawFilledRect overwrite im r c)
        (drawFilledRect overwrite im' { r with left := r.left + dx, top := r.top + dy } c)) ∧
    ∀ x y, MovedResult dx dy (drawCross overwrite im c x y) (drawCross overwrite im' c (x + dx) (y + dy)) := by
  refine ⟨fun r hw hh => ?_, fun r h1 h2 h3 h4 => ?_, fun x y => ?_⟩
  · let S : Rect → Int → Int → Prop := fun r x y =>
      (r.left ≤ x ∧ x < r.left + r.width ∧ r.top ≤ y ∧ y < r.top + r.height) ∧
        (x = r.left ∨ x = r.left + r.width - 1 ∨ y = r.top ∨ y = r.top + r.height - 1)
    refine movedResult_of (S := S r) (S' := S { r with left := r.left + dx, top := r.top + dy })
      (C99_hollow_rect im r hw hh c)
      (C99_hollow_rect im' { r with left := r.left + dx, top := r.top + dy } hw hh c) (fun a b => ?_) hm
    dsimp only [S]
    omega
  · have hp : ∀ (im : Image α) (r : Rect), 0 < im.w → 0 < im.h →
        Paints c im (drawFilledRect overwrite im r c) (InRect r) := by
      intro im r h1 h2
      obtain ⟨o, g1, g2, g3, g4, g5⟩ := C08_filled_rect overwrite im r c h1 h2
      exact ⟨o, g1, g2, g3, fun a b hab => ⟨fun h => g4 a b hab.1 hab.2 h, fun h => g5 a b h⟩⟩
    refine movedResult_of (hp im r h1 h2) (hp im' _ h3 h4) (fun a b => ?_) hm
    unfold InRect
    dsimp only
    omega
  · have hp : ∀ (im : Image α) (x y : Int), Paints c im (drawCross overwrite im c x y)
        (fun a b => (a - x).natAbs + (b - y).natAbs ≤ 1) := by
      intro im x y
      obtain ⟨o, g1, g2, g3, g4⟩ := C49_cross overwrite im c x y
      refine ⟨o, g1, g2, g3, fun a b hab => ⟨fun h => ?_, fun h => ?_⟩⟩
      · rw [g4 a b hab.1 hab.2, if_pos h]; rfl
      · rw [g4 a b hab.1 hab.2, if_neg h]
    refine movedResult_of (hp im x y) (hp im' _ _) (fun a b => ?_) hm
    rw [add_sub_add_right_eq_sub, add_sub_add_right_eq_sub]

/-! ### Polygons -/

/-- Specification: the vertices moved. -/
def movePoly (dx dy : Int) (poly : List (Int × Int)) : List (Int × Int) := poly.map fun p => (p.1 + dx, p.2 + dy)

theorem polyEdges_move (dx dy : Int) (poly : List (Int × Int)) : polyEdges (movePoly dx dy poly) =
    (polyEdges poly).map fun e => ((e.1.1 + dx, e.1.2 + dy), (e.2.1 + dx, e.2.2 + dy)) := by
  have inj : Function.Injective (fun p : Int × Int => (p.1 + dx, p.2 + dy)) := by
    intro p q h
    obtain ⟨h1, h2⟩ := Prod.mk.inj h
    exact Prod.ext (by omega) (by omega)
  have win : ∀ l : List (Int × Int), windows2 (l.map fun p => (p.1 + dx, p.2 + dy)) =
      (windows2 l).map fun e => ((e.1.1 + dx, e.1.2 + dy), (e.2.1 + dx, e.2.2 + dy)) := by
    intro l
    unfold windows2
    rw [← List.map_tail, List.zip_map]
    rfl
  cases poly with
  | nil => rfl
  | cons f rest =>
    unfold movePoly
    unfold polyEdges
    rw [List.head?_map, List.getLast?_map]
    rw [List.head?_cons, List.getLast?_eq_getLast_of_ne_nil (by simp : f :: rest ≠ [])]
    simp only [Option.map_some]
    generalize (f :: rest).getLast _ = l
    by_cases h : f = l
    · rw [if_pos h, if_pos (by rw [h]), ← win]
    · rw [if_neg h, if_neg (fun h' => h (inj h')), ← win, List.map_append]
      rfl

theorem roundQ_add_int {x : ℚ} {d : Int} (h : 0 ≤ x ∧ 0 ≤ x + d) : roundQ (x + d) = roundQ x + d := by
  unfold roundQ
  rw [if_pos h.1, if_pos h.2, add_right_comm, Int.floor_add_intCast]

/-- A position between two non-negative columns is non-negative. -/
theorem cross_nonneg (y : Int) (p q : Int × Int) (hne : p.2 ≠ q.2) (hl : min p.2 q.2 ≤ y) (hu : y < max p.2 q.2)
    {m : Int} (hp : m ≤ p.1) (hq : m ≤ q.1) :
    (m : ℚ) ≤ (p.1 : ℚ) + ((y - p.2 : Int) : ℚ) / ((q.2 - p.2 : Int) : ℚ) * ((q.1 - p.1 : Int) : ℚ) := by
  have hp' : (m : ℚ) ≤ p.1 := by exact_mod_cast hp
  have hq' : (m : ℚ) ≤ q.1 := by exact_mod_cast hq
  have ht : 0 ≤ ((y - p.2 : Int) : ℚ) / ((q.2 - p.2 : Int) : ℚ) ∧ ((y - p.2 : Int) : ℚ) / ((q.2 - p.2 : Int) : ℚ) ≤ 1 := by
    rcases lt_or_gt_of_ne hne with h | h
    · have hz : (0 : ℚ) < ((q.2 - p.2 : Int) : ℚ) := by exact_mod_cast (by omega : 0 < q.2 - p.2)
      have h1 : (0 : ℚ) ≤ ((y - p.2 : Int) : ℚ) := by exact_mod_cast (by omega : 0 ≤ y - p.2)
      have h2 : ((y - p.2 : Int) : ℚ) ≤ ((q.2 - p.2 : Int) : ℚ) := by exact_mod_cast (by omega : y - p.2 ≤ q.2 - p.2)
      exact ⟨div_nonneg h1 hz.le, (div_le_one hz).2 h2⟩
    · have hz : ((q.2 - p.2 : Int) : ℚ) < 0 := by exact_mod_cast (by omega : q.2 - p.2 < 0)
      have h1 : ((y - p.2 : Int) : ℚ) ≤ 0 := by exact_mod_cast (by omega : y - p.2 ≤ 0)
      have h2 : ((q.2 - p.2 : Int) : ℚ) ≤ ((y - p.2 : Int) : ℚ) := by exact_mod_cast (by omega : q.2 - p.2 ≤ y - p.2)
      exact ⟨div_nonneg_of_nonpos h1 hz.le, (div_le_one_of_neg hz).2 h2⟩
  generalize ((y - p.2 : Int) : ℚ) / ((q.2 - p.2 : Int) : ℚ) = t at ht
  push_cast
  nlinarith [mul_nonneg ht.1 (sub_nonneg.2 hq'), mul_nonneg (sub_nonneg.2 ht.2) (sub_nonneg.2 hp')]

/-- **C185, partial.** Filled polygons in exact arithmetic whose vertices have non-negative columns before and after the
move.  Missing: negative columns, where it can fail (`C185_negation`). -/
theorem C185_polygon_partial {dx dy : Int} {im im' : Image α} (hm : MovedBy dx dy im im') (hh : 0 < im.h)
    (hh' : 0 < im'.h) (poly : List (Int × Int)) (h0 : ∀ p ∈ poly, 0 ≤ p.1 ∧ 0 ≤ p.1 + dx) (c : α) :
    MovedResult dx dy (drawPolygon overwrite im poly c) (drawPolygon overwrite im' (movePoly dx dy poly) c) := by
  refine movedResult_of (C47_fill_overwrite im hh poly c) (C47_fill_overwrite im' hh' (movePoly dx dy poly) c)
    (fun a b => ?_) hm
  rw [inPolygon_painted, inPolygon_painted, polyEdges_move]
  unfold Painted
  refine or_congr ?_ ?_
  · simp only [List.mem_map]
    constructor
    · rintro ⟨e, ⟨e', he, rfl⟩, h⟩
      exact ⟨e', he, (mem_shift e'.1 e'.2 dx dy a b).1 h⟩
    · rintro ⟨e, he, h⟩
      exact ⟨_, ⟨e, he, rfl⟩, (mem_shift e.1 e.2 dx dy a b).2 h⟩
  · have hf : ((polyEdges poly).map fun e => ((e.1.1 + dx, e.1.2 + dy), (e.2.1 + dx, e.2.2 + dy))).flatMap
        (crossingsWith crossQ (b + dy)) = ((polyEdges poly).flatMap (crossingsWith crossQ b)).map (· + dx) := by
      rw [List.flatMap_map, List.map_flatMap]
      refine List.flatMap_congr fun e he => ?_
      obtain ⟨v1, v2⟩ := polyEdges_mem he
      obtain ⟨p, q⟩ := e
      dsimp only at v1 v2 ⊢
      have n1 := h0 _ v1
      have n2 := h0 _ v2
      unfold crossingsWith
      dsimp only
      by_cases h : p.2 = q.2
      · rw [if_pos (by omega), if_pos h]
        by_cases h' : p.2 = b
        · rw [if_pos (by omega), if_pos h']; rfl
        · rw [if_neg (by omega), if_neg h']; rfl
      · rw [if_neg (by omega), if_neg h]
        by_cases h' : min p.2 q.2 ≤ b ∧ b < max p.2 q.2
        · rw [if_pos (by omega), if_pos h', List.map_cons, List.map_nil]
          congr 1
          unfold crossQ
          dsimp only
          rw [show b + dy - (p.2 + dy) = b - p.2 by ring, show q.2 + dy - (p.2 + dy) = q.2 - p.2 by ring,
            show q.1 + dx - (p.1 + dx) = q.1 - p.1 by ring]
          have g1 := cross_nonneg b p q h h'.1 h'.2 n1.1 n2.1
          have g2 := cross_nonneg b p q h h'.1 h'.2 (m := -dx) (by omega) (by omega)
          rw [← roundQ_add_int ⟨by push_cast at g1; exact_mod_cast g1, by push_cast at g2 ⊢; linarith⟩]
          congr 1
          push_cast
          ring
        · rw [if_neg (by omega), if_neg h']; rfl
    unfold EvenOddWith
    rw [hf, List.countP_map, List.mem_map]
    refine or_congr ?_ ?_
    · constructor
      · rintro ⟨z, hz, h⟩
        rwa [show a = z by omega]
      · exact fun h => ⟨a, h, rfl⟩
    · have : ((fun x => decide (x < a + dx)) ∘ fun x => x + dx) = fun x => decide (x < a) := by
        funext x
        simp
      rw [this]

/-- **C185.** Negative columns: positions half-way between two columns are rounded away from zero, so
moving this triangle one pixel to the right paints a pixel whose counterpart was not painted
(exactly and in single precision). -/
theorem C185_negation :
    (drawPolygon overwrite (Image.new 3 3 0) [(-1, 0), (0, 2), (-3, 2)] 1).map (fun o => o.px 0 1) = some 0 ∧
    (drawPolygon overwrite (Image.new 3 3 0) [(0, 0), (1, 2), (-2, 2)] 1).map (fun o => o.px 1 1) = some 1 ∧
    (drawPolygon32 overwrite (Image.new 3 3 0) [(-1, 0), (0, 2), (-3, 2)] 1).map (fun o => o.px 0 1) = some 0 ∧
    (drawPolygon32 overwrite (Image.new 3 3 0) [(0, 0), (1, 2), (-2, 2)] 1).map (fun o => o.px 1 1) = some 1 := by
  decide +kernel

/-- Non-trivial instance: the line of the example of C42 drawn one pixel lower and partly outside. -/
example : MovedBy 2 (-1) (Image.new 5 4 0) (Image.new 3 9 0) ∧
    (drawLine overwrite (Image.new 5 4 0) (0, 2) (4, 1) 1).map Image.rows =
      some [[0, 0, 0, 0, 0], [0, 0, 0, 1, 1], [1, 1, 1, 0, 0], [0, 0, 0, 0, 0]] ∧
    (drawLine overwrite (Image.new 3 2 0) (2, 1) (6, 0) 1).map Image.rows = some [[0, 0, 0], [0, 0, 1]] :=
  ⟨fun _ _ _ _ _ _ _ _ => rfl, by decide +kernel, by decide +kernel⟩

end Verif.Relations
