import Verif.Drawing.RectModel
/- Property theorems C07, C08, C49 (rectangles and crosses). -/
namespace Verif.Drawing
variable {α : Type _}

/-- Specification: the set of integer points of a rectangle with top-left corner `(l, t)`
and the given size. -/
def InRect (r : Rect) (x y : Int) : Prop :=
  r.left ≤ x ∧ x < r.left + r.width ∧ r.top ≤ y ∧ y < r.top + r.height

instance (r : Rect) (x y : Int) : Decidable (InRect r x y) :=
  inferInstanceAs (Decidable (_ ∧ _ ∧ _ ∧ _))

/-- C07: `contains` is membership in the half-open box of the given size. -/
theorem C07_contains_iff (r : Rect) (x y : Int) : r.contains x y = true ↔ InRect r x y := by
  simp only [Rect.contains, Bool.and_eq_true, decide_eq_true_eq]
  simp only [Rect.right, Rect.bottom, InRect]
  omega

/-- C07: the intersection is the set intersection; it is `none` exactly for disjoint sets, and
a returned rectangle is non-empty. -/
theorem C07_intersect (r s : Rect) :
    (∀ i, r.intersect s = some i → 0 < i.width ∧ 0 < i.height ∧
      ∀ x y, i.contains x y = true ↔ r.contains x y = true ∧ s.contains x y = true) ∧
    (r.intersect s = none ↔ ¬ ∃ x y, r.contains x y = true ∧ s.contains x y = true) := by
  constructor
  · intro i h
    simp only [Rect.intersect] at h
    split at h
    · cases h
    · next hn =>
      cases h
      refine ⟨by simp, by simp, ?_⟩
      intro x y
      simp only [Rect.contains, Bool.and_eq_true, decide_eq_true_eq] at *
      simp only [Rect.right, Rect.bottom] at *
      omega
  · simp only [Rect.intersect]
    split
    · next hn =>
      refine ⟨fun _ => ?_, fun _ => rfl⟩
      rintro ⟨x, y, h⟩
      simp only [Rect.contains, Bool.and_eq_true, decide_eq_true_eq] at *
      simp only [Rect.right, Rect.bottom] at *
      omega
    · next hn =>
      refine ⟨(nomatch ·), fun h => ?_⟩
      exfalso
      refine h ⟨max r.left s.left, max r.top s.top, ?_⟩
      simp only [Rect.contains, Bool.and_eq_true, decide_eq_true_eq] at *
      simp only [Rect.right, Rect.bottom] at *
      omega

example : Rect.intersect ⟨0, 0, 5, 5⟩ ⟨1, 4, 10, 12⟩ = some ⟨1, 4, 4, 1⟩ := by decide
example : Rect.intersect ⟨0, 0, 5, 5⟩ ⟨5, 0, 1, 1⟩ = none := by decide

/-- C08: on a non-empty canvas, filling a rectangle draws exactly once on every canvas
pixel of the rectangle and nowhere else (in particular no panic), for overwriting and blending
canvases alike. -/
theorem C08_filled_rect (op : α → α → α) (im : Image α) (r : Rect) (c : α)
    (hw : 0 < im.w) (hh : 0 < im.h) :
    ∃ out, drawFilledRect op im r c = some out ∧ out.w = im.w ∧ out.h = im.h ∧
      (∀ x y : Nat, x < im.w → y < im.h → InRect r x y → out.px x y = op (im.px x y) c) ∧
      (∀ x y : Nat, ¬ InRect r x y → out.px x y = im.px x y) := by
  simp only [drawFilledRect, Rect.ofSize, hw, hh, and_self, if_true, Option.bind_some]
  cases hi : Rect.intersect ⟨0, 0, im.w, im.h⟩ r with
  | none =>
    refine ⟨im, rfl, rfl, rfl, ?_, fun _ _ _ => rfl⟩
    intro x y hx hy hr
    have := (C07_intersect ⟨0, 0, im.w, im.h⟩ r).2.1 hi
    exact absurd ⟨(x : Int), (y : Int), by
      rw [C07_contains_iff]; simp only [InRect]; omega, (C07_contains_iff _ _ _).2 hr⟩ this
  | some i =>
    obtain ⟨-, -, hc⟩ := (C07_intersect ⟨0, 0, im.w, im.h⟩ r).1 i hi
    simp only [C07_contains_iff] at hc
    have hl : 0 ≤ i.left ∧ 0 ≤ i.top := by
      simp only [Rect.intersect] at hi
      split at hi
      · cases hi
      · cases hi; simp only; omega
    dsimp only
    obtain ⟨out, e, h⟩ := forYX_spec
      (f := fun dx dy im => (asU32 i.left).bind fun l => (asU32 i.top).bind fun t =>
        drawPixel op im (l + dx) (t + dy) c)
      (fun x y (s : Image α) => s.w = im.w ∧ s.h = im.h ∧ ∀ a b : Nat,
        s.px a b = if InRect i a b ∧ ((b : Int) - i.top < y ∨
          ((b : Int) - i.top = y ∧ (a : Int) - i.left < x))
          then op (im.px a b) c else im.px a b)
      (y0 := 0) (y1 := i.height) (x0 := 0) (x1 := i.width) (s := im) (by omega) (by omega)
      ⟨rfl, rfl, by
        intro a b; rw [if_neg]; simp only [InRect]; omega⟩
      (by
        intro x y s _ hx _ hy ⟨sw, sh, hs⟩
        have hin : InRect i (i.left.toNat + x : Nat) (i.top.toNat + y : Nat) := by
          simp only [InRect]; omega
        have hcan := ((hc _ _).1 hin).1
        simp only [InRect] at hcan
        simp only [asU32, hl, if_true, Option.bind_some]
        rw [drawPixel_of_inB (by omega) (by omega)]
        refine ⟨_, rfl, sw, sh, ?_⟩
        intro a b
        dsimp only
        by_cases hab : a = i.left.toNat + x ∧ b = i.top.toNat + y
        · rw [if_pos hab, if_pos]
          · rw [hs, if_neg, hab.1, hab.2]
            simp only [InRect]; omega
          · rw [hab.1, hab.2]; refine ⟨hin, ?_⟩; omega
        · rw [if_neg hab, hs]
          have : (InRect i a b ∧ ((b : Int) - i.top < y ∨
              ((b : Int) - i.top = y ∧ (a : Int) - i.left < x))) ↔
              (InRect i a b ∧ ((b : Int) - i.top < y ∨
              ((b : Int) - i.top = y ∧ (a : Int) - i.left < (x + 1 : Nat)))) := by
            simp only [InRect]; omega
          simp only [this])
      (by
        intro y s _ hy ⟨sw, sh, hs⟩
        refine ⟨sw, sh, ?_⟩
        intro a b
        rw [hs]
        have : (InRect i a b ∧ ((b : Int) - i.top < y ∨
            ((b : Int) - i.top = y ∧ (a : Int) - i.left < i.width))) ↔
            (InRect i a b ∧ ((b : Int) - i.top < (y + 1 : Nat) ∨
            ((b : Int) - i.top = (y + 1 : Nat) ∧ (a : Int) - i.left < (0 : Nat)))) := by
          simp only [InRect]; omega
        simp only [this])
    refine ⟨out, e, h.1, h.2.1, ?_, ?_⟩
    · intro x y hx hy hr
      have hin := (hc x y).2 ⟨by simp only [InRect]; omega, hr⟩
      rw [h.2.2, if_pos]
      refine ⟨hin, ?_⟩
      simp only [InRect] at hin; omega
    · intro x y hr
      rw [h.2.2, if_neg]
      rintro ⟨h1, -⟩
      exact hr ((hc x y).1 h1).2

/-- C08, error branch: an empty canvas is rejected. -/
theorem C08_empty_canvas_panics (op : α → α → α) (im : Image α) (r : Rect) (c : α)
    (h : im.w = 0 ∨ im.h = 0) : drawFilledRect op im r c = none := by
  have : ¬ (0 < im.w ∧ 0 < im.h) := by omega
  simp [drawFilledRect, Rect.ofSize, this]

example : (drawFilledRect overwrite (Image.new 4 3 0) ⟨-1, 1, 3, 7⟩ 9).map Image.rows =
    some [[0, 0, 0, 0], [9, 9, 0, 0], [9, 9, 0, 0]] := by decide

/-- C49: a cross draws exactly once on each canvas pixel at L1-distance at most one from its
centre, and nowhere else. -/
theorem C49_cross (op : α → α → α) (im : Image α) (c : α) (x y : Int) :
    ∃ out, drawCross op im c x y = some out ∧ out.w = im.w ∧ out.h = im.h ∧
      ∀ a b : Nat, a < im.w → b < im.h → out.px a b =
        if ((a : Int) - x).natAbs + ((b : Int) - y).natAbs ≤ 1 then op (im.px a b) c
        else im.px a b := by
  -- one row of the stencil
  have row : ∀ (s : Image α) (sy : Int), (sy = -1 ∨ sy = 0 ∨ sy = 1) → s.w = im.w → s.h = im.h →
      ∃ s', (let iy := y + sy
        if iy < 0 ∨ iy ≥ s.h then some s
        else forList [-1, 0, 1] s fun (sx : Int) s =>
          let ix := x + sx
          if ix < 0 ∨ ix ≥ s.w then some s
          else
            (crossStencil[(3 * (sy + 1) + sx + 1).toNat]?).bind fun v =>
            if v = 1 then drawPixel op s ix.toNat iy.toNat c else some s) = some s' ∧
        s'.w = im.w ∧ s'.h = im.h ∧ ∀ a b : Nat, a < im.w → b < im.h → s'.px a b =
          if (b : Int) = y + sy ∧ ((a : Int) - x).natAbs + sy.natAbs ≤ 1 then op (s.px a b) c
          else s.px a b := by
    intro s sy hsy sw sh
    dsimp only
    by_cases hiy : y + sy < 0 ∨ y + sy ≥ s.h
    · rw [if_pos hiy]
      refine ⟨s, rfl, sw, sh, ?_⟩
      intro a b ha hb
      rw [if_neg]; omega
    · rw [if_neg hiy]
      -- one cell of the stencil
      have cell : ∀ (t : Image α) (sx : Int), (sx = -1 ∨ sx = 0 ∨ sx = 1) → t.w = im.w →
          t.h = im.h →
          ∃ t', (let ix := x + sx
            if ix < 0 ∨ ix ≥ t.w then some t
            else
              (crossStencil[(3 * (sy + 1) + sx + 1).toNat]?).bind fun v =>
              if v = 1 then drawPixel op t ix.toNat (y + sy).toNat c else some t) = some t' ∧
            t'.w = im.w ∧ t'.h = im.h ∧ ∀ a b : Nat, a < im.w → b < im.h → t'.px a b =
              if (b : Int) = y + sy ∧ (a : Int) = x + sx ∧ sx.natAbs + sy.natAbs ≤ 1 then
                op (t.px a b) c else t.px a b := by
        intro t sx hsx tw th
        dsimp only
        by_cases hix : x + sx < 0 ∨ x + sx ≥ t.w
        · rw [if_pos hix]
          refine ⟨t, rfl, tw, th, ?_⟩
          intro a b ha hb
          rw [if_neg]; omega
        · rw [if_neg hix]
          have hst : crossStencil[(3 * (sy + 1) + sx + 1).toNat]? =
              some (if sx.natAbs + sy.natAbs ≤ 1 then 1 else 0) := by
            rcases hsx with rfl | rfl | rfl <;> rcases hsy with rfl | rfl | rfl <;> decide
          rw [hst, Option.bind_some]
          by_cases hn : sx.natAbs + sy.natAbs ≤ 1
          · rw [if_pos hn, if_pos rfl, drawPixel_of_inB (by omega) (by omega)]
            refine ⟨_, rfl, tw, th, ?_⟩
            intro a b ha hb
            dsimp only
            by_cases hab : a = (x + sx).toNat ∧ b = (y + sy).toNat
            · rw [if_pos hab, if_pos (by omega), hab.1, hab.2]
            · rw [if_neg hab, if_neg (by omega)]
          · rw [if_neg hn]
            refine ⟨t, rfl, tw, th, ?_⟩
            intro a b ha hb
            rw [if_neg (by omega)]
      obtain ⟨t1, e1, w1, h1, p1⟩ := cell s (-1) (by omega) sw sh
      obtain ⟨t2, e2, w2, h2, p2⟩ := cell t1 0 (by omega) w1 h1
      obtain ⟨t3, e3, w3, h3, p3⟩ := cell t2 1 (by omega) w2 h2
      refine ⟨t3, ?_, w3, h3, ?_⟩
      · simp only [forList]
        dsimp only at e1 e2 e3
        rw [e1, Option.bind_some, e2, Option.bind_some, e3, Option.bind_some]
      · intro a b ha hb
        rw [p3 a b ha hb, p2 a b ha hb, p1 a b ha hb]
        split <;> split <;> split <;> split <;> first | rfl | omega
  obtain ⟨t1, e1, w1, h1, p1⟩ := row im (-1) (by omega) rfl rfl
  obtain ⟨t2, e2, w2, h2, p2⟩ := row t1 0 (by omega) w1 h1
  obtain ⟨t3, e3, w3, h3, p3⟩ := row t2 1 (by omega) w2 h2
  refine ⟨t3, ?_, w3, h3, ?_⟩
  · unfold drawCross
    simp only [forList] at e1 e2 e3 ⊢
    rw [e1, Option.bind_some, e2, Option.bind_some, e3, Option.bind_some]
  · intro a b ha hb
    rw [p3 a b ha hb, p2 a b ha hb, p1 a b ha hb]
    split <;> split <;> split <;> split <;> first | rfl | omega

example : (drawCross overwrite (Image.new 3 3 0) 7 0 1).map Image.rows =
    some [[7, 0, 0], [7, 7, 0], [7, 0, 0]] := by decide

end Verif.Drawing
