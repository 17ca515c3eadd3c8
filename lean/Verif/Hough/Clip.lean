import Verif.Hough.Model
import Mathlib.Algebra.Order.Field.Basic
import Mathlib.Tactic.Linarith
import Mathlib.Tactic.FieldSimp
import Mathlib.Tactic.Ring
import Mathlib.Analysis.SpecialFunctions.Trigonometric.Basic
/-
Property theorems C57 and C92: clipping a polar line to the image rectangle.
-/
namespace Verif.Hough
set_option linter.unusedSimpArgs false
set_option linter.unusedSectionVars false
variable {K : Type _} [Field K] [LinearOrder K] [IsStrictOrderedRing K]

/-- `p` lies on the line at signed distance `r` from the origin with unit normal `(cos, sin)`. -/
def OnLine (sin cos r : K) (p : K × K) : Prop := p.1 * cos + p.2 * sin = r

/-- `p` lies in the closed image rectangle. -/
def InRect (w h : K) (p : K × K) : Prop := 0 ≤ p.1 ∧ p.1 ≤ w ∧ 0 ≤ p.2 ∧ p.2 ≤ h

/-- `p` lies on the boundary of the image rectangle. -/
def OnBoundary (w h : K) (p : K × K) : Prop :=
  InRect w h p ∧ (p.1 = 0 ∨ p.1 = w ∨ p.2 = 0 ∨ p.2 = h)

/-- The angle `m` (in degrees) is consistent with the sine and cosine supplied: exact values at 0
and 90 degrees, both non-zero elsewhere. -/
def Consistent (sin cos : K) (m : Nat) : Prop :=
  (m = 0 ∧ sin = 0 ∧ cos = 1) ∨ (m = 90 ∧ sin = 1 ∧ cos = 0) ∨
  (m ≠ 0 ∧ m ≠ 90 ∧ sin ≠ 0 ∧ cos ≠ 0)

/-- What the oblique case returns: two points on different sides. -/
theorem oblique {sin cos r w h : K} {m : Nat} (hw : 0 ≤ w) (hh : 0 ≤ h) (h0 : m ≠ 0) (h90 : m ≠ 90)
    {p q : K × K} (e : intersectionPoints sin cos r m w h = some (p, q)) :
    InRect w h p ∧ InRect w h q ∧
    ((p = (w, (cos * (-w) + r) / sin) ∧ q = (0, r / sin)) ∨
     (p = (0, r / sin) ∧ q = ((sin * (-h) + r) / cos, h)) ∨
     (p = (w, (cos * (-w) + r) / sin) ∧ q = ((sin * (-h) + r) / cos, h)) ∨
     (p = (0, r / sin) ∧ q = (r / cos, 0)) ∨
     (p = (w, (cos * (-w) + r) / sin) ∧ q = (r / cos, 0)) ∨
     (p = ((sin * (-h) + r) / cos, h) ∧ q = (r / cos, 0))) := by
  unfold intersectionPoints at e
  rw [if_neg h0, if_neg h90] at e
  dsimp only at e
  generalize (cos * (-w) + r) / sin = ry at *
  generalize r / sin = ly at *
  generalize (sin * (-h) + r) / cos = bx at *
  generalize r / cos = tx at *
  unfold InRect
  by_cases hR : ry ≥ 0 ∧ ry ≤ h <;> by_cases hL : ly ≥ 0 ∧ ly ≤ h <;>
    by_cases hB : bx ≥ 0 ∧ bx ≤ w <;> by_cases hT : tx ≥ 0 ∧ tx ≤ w <;>
    simp only [hR, hL, hB, hT, if_true, if_false, Option.isSome_some, Option.isSome_none,
      Option.some.injEq, Prod.mk.injEq, reduceCtorEq, Bool.false_eq_true, and_self, if_pos,
      false_and, and_false] at e <;>
    (obtain ⟨rfl, rfl⟩ := e; simp_all)

/-- If two of the four sides are hit, two points are returned. -/
theorem oblique_some {sin cos r w h : K} {m : Nat} (h0 : m ≠ 0) (h90 : m ≠ 90)
    (hit : (0 ≤ (cos * (-w) + r) / sin ∧ (cos * (-w) + r) / sin ≤ h ∧
          (0 ≤ r / cos ∧ r / cos ≤ w ∨
           0 ≤ (sin * (-h) + r) / cos ∧ (sin * (-h) + r) / cos ≤ w ∨
           0 ≤ r / sin ∧ r / sin ≤ h)) ∨
        (0 ≤ r / sin ∧ r / sin ≤ h ∧
          (0 ≤ r / cos ∧ r / cos ≤ w ∨
           0 ≤ (sin * (-h) + r) / cos ∧ (sin * (-h) + r) / cos ≤ w)) ∨
        ((0 ≤ r / cos ∧ r / cos ≤ w) ∧
           0 ≤ (sin * (-h) + r) / cos ∧ (sin * (-h) + r) / cos ≤ w)) :
    ∃ p q, intersectionPoints sin cos r m w h = some (p, q) := by
  unfold intersectionPoints
  rw [if_neg h0, if_neg h90]
  dsimp only
  generalize (cos * (-w) + r) / sin = ry at *
  generalize r / sin = ly at *
  generalize (sin * (-h) + r) / cos = bx at *
  generalize r / cos = tx at *
  by_cases hR : ry ≥ 0 ∧ ry ≤ h <;> by_cases hL : ly ≥ 0 ∧ ly ≤ h <;>
    by_cases hB : bx ≥ 0 ∧ bx ≤ w <;> by_cases hT : tx ≥ 0 ∧ tx ≤ w <;>
    simp only [hR, hL, hB, hT, if_true, if_false, Option.isSome_some, Option.isSome_none,
      Option.some.injEq, Prod.mk.injEq, reduceCtorEq, Bool.false_eq_true, and_self, if_pos,
      false_and, and_false] <;>
    first
      | exact ⟨_, _, rfl, rfl⟩
      | (exfalso
         simp only [ge_iff_le] at hR hL hB hT
         tauto)

section points
variable {sin cos r w h : K}

theorem onLine_right (hs : sin ≠ 0) : OnLine sin cos r (w, (cos * (-w) + r) / sin) := by
  unfold OnLine; field_simp; ring

theorem onLine_left (hs : sin ≠ 0) : OnLine sin cos r (0, r / sin) := by
  unfold OnLine; field_simp; ring

theorem onLine_bottom (hc : cos ≠ 0) : OnLine sin cos r ((sin * (-h) + r) / cos, h) := by
  unfold OnLine; field_simp; ring

theorem onLine_top (hc : cos ≠ 0) : OnLine sin cos r (r / cos, 0) := by
  unfold OnLine; field_simp; ring
end points

/-- C57: returned points lie on the line and on the boundary of the rectangle. -/
theorem C57_points {sin cos r w h : K} {m : Nat} (hm : Consistent sin cos m) (hw : 0 ≤ w)
    (hh : 0 ≤ h) {p q : K × K} (e : intersectionPoints sin cos r m w h = some (p, q)) :
    OnLine sin cos r p ∧ OnLine sin cos r q ∧ OnBoundary w h p ∧ OnBoundary w h q := by
  rcases hm with ⟨rfl, rfl, rfl⟩ | ⟨rfl, rfl, rfl⟩ | ⟨h0, h90, hs, hc⟩
  · unfold intersectionPoints at e
    rw [if_pos rfl] at e
    split at e
    · rename_i hr
      simp only [Option.some.injEq, Prod.mk.injEq] at e
      obtain ⟨rfl, rfl⟩ := e
      simp [OnLine, OnBoundary, InRect, hw, hh, hr.1, hr.2]
    · simp at e
  · unfold intersectionPoints at e
    rw [if_neg (by decide), if_pos rfl] at e
    split at e
    · rename_i hr
      simp only [Option.some.injEq, Prod.mk.injEq] at e
      obtain ⟨rfl, rfl⟩ := e
      simp [OnLine, OnBoundary, InRect, hw, hh, hr.1, hr.2]
    · simp at e
  · obtain ⟨h1, h2, h3⟩ := oblique hw hh h0 h90 e
    unfold OnBoundary
    rcases h3 with ⟨rfl, rfl⟩ | ⟨rfl, rfl⟩ | ⟨rfl, rfl⟩ | ⟨rfl, rfl⟩ | ⟨rfl, rfl⟩ | ⟨rfl, rfl⟩ <;>
      refine ⟨?_, ?_, ⟨h1, ?_⟩, ⟨h2, ?_⟩⟩ <;>
      first
        | exact onLine_right hs
        | exact onLine_left hs
        | exact onLine_bottom hc
        | exact onLine_top hc
        | simp

/-- C57: points are returned whenever the line meets the rectangle. -/
theorem C57_complete {sin cos r w h : K} {m : Nat} (hm : Consistent sin cos m)
    {z : K × K} (hz : OnLine sin cos r z) (hr : InRect w h z) :
    ∃ p q, intersectionPoints sin cos r m w h = some (p, q) := by
  obtain ⟨x, y⟩ := z
  obtain ⟨hx0, hxw, hy0, hyh⟩ := hr
  unfold OnLine at hz
  dsimp only at *
  rcases hm with ⟨rfl, rfl, rfl⟩ | ⟨rfl, rfl, rfl⟩ | ⟨h0, h90, hs, hc⟩
  · have : x = r := by simpa using hz
    subst this
    unfold intersectionPoints
    rw [if_pos rfl, if_pos ⟨hx0, hxw⟩]
    exact ⟨_, _, rfl⟩
  · have : y = r := by simpa using hz
    subst this
    unfold intersectionPoints
    rw [if_neg (by decide), if_pos rfl, if_pos ⟨hy0, hyh⟩]
    exact ⟨_, _, rfl⟩
  · have e1 : (cos * (-w) + r) / sin = y - (cos / sin) * (w - x) := by
      rw [← hz]; field_simp; ring
    have e2 : r / sin = y + (cos / sin) * x := by rw [← hz]; field_simp; ring
    have e3 : (sin * (-h) + r) / cos = x - (cos / sin)⁻¹ * (h - y) := by
      rw [← hz]; field_simp; ring
    have e4 : r / cos = x + (cos / sin)⁻¹ * y := by rw [← hz]; field_simp
    apply oblique_some h0 h90
    rw [e1, e2, e3, e4]
    have hk0 : cos / sin ≠ 0 := div_ne_zero hc hs
    generalize cos / sin = k at *
    have hki : k * k⁻¹ = 1 := mul_inv_cancel₀ hk0
    rcases lt_or_gt_of_ne hk0 with hk | hk
    · have hk' : k⁻¹ < 0 := inv_neg''.mpr hk
      generalize k⁻¹ = j at *
      have a1 : y + k * x ≤ h := by nlinarith
      have a2 : 0 ≤ y - k * (w - x) := by nlinarith
      have a3 : 0 ≤ y + k * x ∨ (0 ≤ x + j * y ∧ x + j * y ≤ w) := by
        rcases le_or_gt 0 (y + k * x) with h | h
        · exact Or.inl h
        · right
          constructor
          · have : j * (y + k * x) ≥ 0 := by nlinarith
            nlinarith
          · nlinarith
      have a4 : y - k * (w - x) ≤ h ∨ (0 ≤ x - j * (h - y) ∧ x - j * (h - y) ≤ w) := by
        rcases le_or_gt (y - k * (w - x)) h with h' | h'
        · exact Or.inl h'
        · right
          constructor
          · nlinarith
          · have : j * (y - k * (w - x) - h) ≤ 0 := by nlinarith
            nlinarith
      rcases a3 with l | t
      · rcases a4 with g | b
        · exact Or.inl ⟨a2, g, Or.inr (Or.inr ⟨l, a1⟩)⟩
        · exact Or.inr (Or.inl ⟨l, a1, Or.inr b⟩)
      · rcases a4 with g | b
        · exact Or.inl ⟨a2, g, Or.inl t⟩
        · exact Or.inr (Or.inr ⟨t, b⟩)
    · have hk' : 0 < k⁻¹ := inv_pos.mpr hk
      generalize k⁻¹ = j at *
      have a1 : 0 ≤ y + k * x := by nlinarith
      have a2 : y - k * (w - x) ≤ h := by nlinarith
      have a3 : y + k * x ≤ h ∨ (0 ≤ x - j * (h - y) ∧ x - j * (h - y) ≤ w) := by
        rcases le_or_gt (y + k * x) h with h' | h'
        · exact Or.inl h'
        · right
          constructor
          · have : j * (y + k * x - h) ≥ 0 := by nlinarith
            nlinarith
          · nlinarith
      have a4 : 0 ≤ y - k * (w - x) ∨ (0 ≤ x + j * y ∧ x + j * y ≤ w) := by
        rcases le_or_gt 0 (y - k * (w - x)) with h' | h'
        · exact Or.inl h'
        · right
          constructor
          · nlinarith
          · have : j * (y - k * (w - x)) ≤ 0 := by nlinarith
            nlinarith
      rcases a3 with l | b
      · rcases a4 with g | t
        · exact Or.inl ⟨g, a2, Or.inr (Or.inr ⟨a1, l⟩)⟩
        · exact Or.inr (Or.inl ⟨a1, l, Or.inl t⟩)
      · rcases a4 with g | t
        · exact Or.inl ⟨g, a2, Or.inr (Or.inl b)⟩
        · exact Or.inr (Or.inr ⟨t, b⟩)

/-- C57: `None` is returned exactly when the line misses the rectangle. -/
theorem C57_none_iff {sin cos r w h : K} {m : Nat} (hm : Consistent sin cos m) (hw : 0 ≤ w)
    (hh : 0 ≤ h) : intersectionPoints sin cos r m w h = none ↔
      ¬ ∃ z, OnLine sin cos r z ∧ InRect w h z := by
  constructor
  · rintro e ⟨z, h1, h2⟩
    obtain ⟨p, q, e'⟩ := C57_complete hm h1 h2
    rw [e] at e'
    simp at e'
  · intro hn
    cases e : intersectionPoints sin cos r m w h with
    | none => rfl
    | some pq =>
      obtain ⟨p, q⟩ := pq
      obtain ⟨h1, _, h2, _⟩ := C57_points hm hw hh e
      exact absurd ⟨p, h1, h2.1⟩ hn

/-- A point of the line strictly between two points of the rectangle is interior. -/
theorem between_interior {sin cos r w h : K} (hs : sin ≠ 0) (hc : cos ≠ 0) {a b c : K × K}
    (la : OnLine sin cos r a) (lb : OnLine sin cos r b) (lc : OnLine sin cos r c)
    (ra : InRect w h a) (rc : InRect w h c) (h1 : a.1 < b.1) (h2 : b.1 < c.1) :
    ¬ OnBoundary w h b := by
  unfold OnLine at *
  obtain ⟨ra1, ra2, ra3, ra4⟩ := ra
  obtain ⟨rc1, rc2, rc3, rc4⟩ := rc
  have e1 : b.2 = a.2 - (cos / sin) * (b.1 - a.1) := by
    have : b.2 * sin = (a.2 - (cos / sin) * (b.1 - a.1)) * sin := by
      field_simp; linarith
    exact mul_right_cancel₀ hs this
  have e2 : c.2 = b.2 - (cos / sin) * (c.1 - b.1) := by
    have : c.2 * sin = (b.2 - (cos / sin) * (c.1 - b.1)) * sin := by
      field_simp; linarith
    exact mul_right_cancel₀ hs this
  have hk0 : cos / sin ≠ 0 := div_ne_zero hc hs
  generalize cos / sin = k at *
  rintro ⟨_, h | h | h | h⟩
  · linarith
  · linarith
  · rcases lt_or_gt_of_ne hk0 with hk | hk <;> nlinarith
  · rcases lt_or_gt_of_ne hk0 with hk | hk <;> nlinarith

/-- C92: if the two returned points differ (for the vertical and horizontal angles: always), they
are the ends of the visible part of the line: every point of the line in the rectangle lies between
them. -/
theorem C92_chord_partial {sin cos r w h : K} {m : Nat} (hm : Consistent sin cos m) (hw : 0 ≤ w)
    (hh : 0 ≤ h) {p q : K × K} (e : intersectionPoints sin cos r m w h = some (p, q))
    (hpq : m = 0 ∨ m = 90 ∨ p ≠ q) {z : K × K} (hz : OnLine sin cos r z) (hr : InRect w h z) :
    min p.1 q.1 ≤ z.1 ∧ z.1 ≤ max p.1 q.1 ∧ min p.2 q.2 ≤ z.2 ∧ z.2 ≤ max p.2 q.2 := by
  obtain ⟨lp, lq, bp, bq⟩ := C57_points hm hw hh e
  rcases hm with ⟨rfl, rfl, rfl⟩ | ⟨rfl, rfl, rfl⟩ | ⟨h0, h90, hs, hc⟩
  · unfold intersectionPoints at e
    rw [if_pos rfl] at e
    split at e
    · simp only [Option.some.injEq, Prod.mk.injEq] at e
      obtain ⟨rfl, rfl⟩ := e
      unfold OnLine at hz
      obtain ⟨z1, z2⟩ := z
      obtain ⟨g1, g2, g3, g4⟩ := hr
      simp only [mul_one, mul_zero, add_zero] at hz
      subst hz
      simp [min_def, max_def, hh, g3, g4]
    · simp at e
  · unfold intersectionPoints at e
    rw [if_neg (by decide), if_pos rfl] at e
    split at e
    · simp only [Option.some.injEq, Prod.mk.injEq] at e
      obtain ⟨rfl, rfl⟩ := e
      unfold OnLine at hz
      obtain ⟨z1, z2⟩ := z
      obtain ⟨g1, g2, g3, g4⟩ := hr
      simp only [mul_one, mul_zero, zero_add] at hz
      subst hz
      simp [min_def, max_def, hw, g1, g2]
    · simp at e
  · have hne : p ≠ q := by
      rcases hpq with h | h | h
      · exact absurd h h0
      · exact absurd h h90
      · exact h
    have hy : ∀ a b : K × K, OnLine sin cos r a → OnLine sin cos r b →
        b.2 = a.2 - (cos / sin) * (b.1 - a.1) := by
      intro a b ha hb
      unfold OnLine at ha hb
      have : b.2 * sin = (a.2 - (cos / sin) * (b.1 - a.1)) * sin := by
        field_simp; linarith
      exact mul_right_cancel₀ hs this
    have hx : p.1 ≠ q.1 := by
      intro hx
      apply hne
      have := hy p q lp lq
      rw [hx] at this
      exact Prod.ext hx (by rw [this]; ring)
    have hmid : min p.1 q.1 ≤ z.1 ∧ z.1 ≤ max p.1 q.1 := by
      rcases lt_or_gt_of_ne hx with hlt | hlt
      · rw [min_eq_left hlt.le, max_eq_right hlt.le]
        constructor
        · by_contra hc'
          exact between_interior hs hc hz lp lq hr bq.1 (not_le.mp hc') hlt bp
        · by_contra hc'
          exact between_interior hs hc lp lq hz bp.1 hr hlt (not_le.mp hc') bq
      · rw [min_eq_right hlt.le, max_eq_left hlt.le]
        constructor
        · by_contra hc'
          exact between_interior hs hc hz lq lp hr bp.1 (not_le.mp hc') hlt bq
        · by_contra hc'
          exact between_interior hs hc lq lp hz bq.1 hr hlt (not_le.mp hc') bp
    refine ⟨hmid.1, hmid.2, ?_⟩
    have y1 := hy p z lp hz
    have y2 := hy q z lq hz
    have hk0 : cos / sin ≠ 0 := div_ne_zero hc hs
    generalize cos / sin = k at *
    rw [min_le_iff, le_max_iff] at hmid ⊢
    obtain ⟨m1, m2⟩ := hmid
    rcases lt_or_gt_of_ne hk0 with hk | hk
    · constructor
      · rcases m1 with g | g
        · left; nlinarith
        · right; nlinarith
      · rcases m2 with g | g
        · left; nlinarith
        · right; nlinarith
    · constructor
      · rcases m2 with g | g
        · left; nlinarith
        · right; nlinarith
      · rcases m1 with g | g
        · left; nlinarith
        · right; nlinarith

/-- C92: the two points coincide only at a corner of the rectangle. -/
theorem C92_degenerate_only_at_corner {sin cos r w h : K} {m : Nat} (hm : Consistent sin cos m)
    (hw : 0 < w) (hh : 0 < h) {p : K × K}
    (e : intersectionPoints sin cos r m w h = some (p, p)) :
    (p.1 = 0 ∨ p.1 = w) ∧ (p.2 = 0 ∨ p.2 = h) := by
  rcases hm with ⟨rfl, rfl, rfl⟩ | ⟨rfl, rfl, rfl⟩ | ⟨h0, h90, hs, hc⟩
  · unfold intersectionPoints at e
    rw [if_pos rfl] at e
    split at e
    · simp only [Option.some.injEq, Prod.mk.injEq] at e
      obtain ⟨h1, h2⟩ := e
      rw [← h2] at h1
      simp only [Prod.mk.injEq] at h1
      exact absurd h1.2.symm hh.ne'
    · simp at e
  · unfold intersectionPoints at e
    rw [if_neg (by decide), if_pos rfl] at e
    split at e
    · simp only [Option.some.injEq, Prod.mk.injEq] at e
      obtain ⟨h1, h2⟩ := e
      rw [← h2] at h1
      simp only [Prod.mk.injEq] at h1
      exact absurd h1.1.symm hw.ne'
    · simp at e
  · obtain ⟨_, _, h3⟩ := oblique hw.le hh.le h0 h90 e
    rcases h3 with ⟨h1, h2⟩ | ⟨h1, h2⟩ | ⟨h1, h2⟩ | ⟨h1, h2⟩ | ⟨h1, h2⟩ | ⟨h1, h2⟩ <;>
      (have a1 := congrArg Prod.fst h1
       have a2 := congrArg Prod.snd h1
       have b1 := congrArg Prod.fst h2
       have b2 := congrArg Prod.snd h2
       dsimp only at a1 a2 b1 b2)
    · exact absurd (a1.symm.trans b1) hw.ne'
    · exact ⟨Or.inl a1, Or.inr b2⟩
    · exact ⟨Or.inr a1, Or.inr b2⟩
    · exact ⟨Or.inl a1, Or.inl b2⟩
    · exact ⟨Or.inr a1, Or.inl b2⟩
    · exact absurd (a2.symm.trans b2) hh.ne'

/-- C92 fails: a line from the top edge into the bottom left corner is cut down to that corner,
although its visible part is a whole chord (the left edge is tried first, then the bottom edge,
and both are hit in the same point). -/
theorem C92_negation :
    intersectionPoints (3 / 5 : ℚ) (4 / 5) (12 / 5) 37 10 4 = some ((0, 4), (0, 4)) ∧
    OnLine (3 / 5 : ℚ) (4 / 5) (12 / 5) (3, 0) ∧ InRect (10 : ℚ) 4 (3, 0) := by
  refine ⟨by decide +kernel, ?_, ?_⟩
  · unfold OnLine; norm_num
  · unfold InRect; norm_num

/-- The consistency hypothesis holds of the real sine and cosine for every angle in range. -/
theorem C57_consistent_real (m : Nat) (hm : m < 180) :
    Consistent (Real.sin (m * Real.pi / 180)) (Real.cos (m * Real.pi / 180)) m := by
  have hpi := Real.pi_pos
  by_cases h0 : m = 0
  · left; subst h0; simp
  by_cases h90 : m = 90
  · right; left; subst h90
    have : ((90 : Nat) : ℝ) * Real.pi / 180 = Real.pi / 2 := by push_cast; ring
    rw [this]
    simp
  · right; right
    refine ⟨h0, h90, ?_, ?_⟩
    · apply ne_of_gt
      apply Real.sin_pos_of_pos_of_lt_pi
      · have : (0 : ℝ) < m := by exact_mod_cast Nat.pos_of_ne_zero h0
        positivity
      · have : (m : ℝ) < 180 := by exact_mod_cast hm
        rw [div_lt_iff₀ (by norm_num)]
        nlinarith
    · have hm0 : (0 : ℝ) < m := by exact_mod_cast Nat.pos_of_ne_zero h0
      rcases Nat.lt_or_gt_of_ne h90 with hlt | hlt
      · apply ne_of_gt
        have : (m : ℝ) < 90 := by exact_mod_cast hlt
        apply Real.cos_pos_of_mem_Ioo
        constructor
        · have : 0 < (m : ℝ) * Real.pi / 180 := by positivity
          linarith
        · rw [div_lt_div_iff₀ (by norm_num) (by norm_num)]
          nlinarith
      · apply ne_of_lt
        have h1 : (90 : ℝ) < m := by exact_mod_cast hlt
        have h2 : (m : ℝ) < 180 := by exact_mod_cast hm
        apply Real.cos_neg_of_pi_div_two_lt_of_lt
        · rw [div_lt_div_iff₀ (by norm_num) (by norm_num)]
          nlinarith
        · have : (m : ℝ) * Real.pi / 180 < Real.pi := by
            rw [div_lt_iff₀ (by norm_num)]
            nlinarith
          linarith

-- a proper chord
example : intersectionPoints (3 / 5 : ℚ) (4 / 5) 3 37 10 4 = some ((3 / 4, 4), (15 / 4, 0)) := by
  decide +kernel

end Verif.Hough
