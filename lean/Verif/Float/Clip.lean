import Verif.Float.Rotate
import Verif.Hough.Clip
/-
Property C152: `intersection_points` (src/hough.rs:130-197) in `f32`.  The sine and cosine computed
for the angle are parameters; `mul_add` rounds once.  Overflow is not modelled: the theorems
assume a sine and cosine of at least 2^-20 in absolute value.
-/
namespace Verif.Float
open Verif.Hough

/-- The choice of two of the four points (src/hough.rs:166-196). -/
def pickPoints {K : Type _} [Field K] [LinearOrder K] (w h rightY leftY bottomX topX : K) : Option ((K × K) × (K × K)) :=
  let start : Option (K × K) := if rightY ≥ 0 ∧ rightY ≤ h then some (w, rightY) else none
  let left : Option (K × K) := if leftY ≥ 0 ∧ leftY ≤ h then some (0, leftY) else none
  match start, left with
  | some s, some l => some (s, l)
  | _, _ =>
    let start := if left.isSome then left else start
    let bottom : Option (K × K) := if bottomX ≥ 0 ∧ bottomX ≤ w then some (bottomX, h) else none
    match start, bottom with
    | some s, some b => some (s, b)
    | _, _ =>
      let start := if bottom.isSome then bottom else start
      let top : Option (K × K) := if topX ≥ 0 ∧ topX ≤ w then some (topX, 0) else none
      match start, top with
      | some s, some t => some (s, t)
      | _, _ => none

/-- `intersection_points` (src/hough.rs:130-197) in `f32`. -/
def intersectionPoints32 (sin cos r : ℚ) (m : Nat) (width height : Nat) :
    Option ((ℚ × ℚ) × (ℚ × ℚ)) :=
  let w := rnd32 (width : ℚ)
  let h := rnd32 (height : ℚ)
  if m = 0 then
    if r ≥ 0 ∧ r ≤ w then some ((r, 0), (r, h)) else none
  else if m = 90 then
    if r ≥ 0 ∧ r ≤ h then some ((0, r), (w, r)) else none
  else pickPoints w h (rnd32 (rnd32 (cos * (-w) + r) / sin)) (rnd32 (r / sin))
    (rnd32 (rnd32 (sin * (-h) + r) / cos)) (rnd32 (r / cos))

theorem pick_eq {sin cos r w h : ℚ} {m : Nat} (h0 : m ≠ 0) (h90 : m ≠ 90) :
    intersectionPoints sin cos r m w h =
      pickPoints w h ((cos * (-w) + r) / sin) (r / sin) ((sin * (-h) + r) / cos) (r / cos) := by
  unfold intersectionPoints
  rw [if_neg h0, if_neg h90]
  rfl

/-- The points chosen are among the four. -/
theorem pick_cases {w h ry ly bx tx : ℚ} (hw : 0 ≤ w) (hh : 0 ≤ h) {p q : ℚ × ℚ}
    (e : pickPoints w h ry ly bx tx = some (p, q)) : ∀ z, z = p ∨ z = q → InRect w h z ∧
      (z = (w, ry) ∨ z = (0, ly) ∨ z = (bx, h) ∨ z = (tx, 0)) := by
  unfold pickPoints at e
  dsimp only at e
  unfold InRect
  by_cases hR : ry ≥ 0 ∧ ry ≤ h <;> by_cases hL : ly ≥ 0 ∧ ly ≤ h <;>
    by_cases hB : bx ≥ 0 ∧ bx ≤ w <;> by_cases hT : tx ≥ 0 ∧ tx ≤ w <;>
    simp only [hR, hL, hB, hT, if_false, Option.isSome_some, Option.isSome_none,
      Option.some.injEq, Prod.mk.injEq, reduceCtorEq, Bool.false_eq_true, and_self, if_pos] at e <;>
    (obtain ⟨rfl, rfl⟩ := e; rintro z (rfl | rfl) <;> simp_all)

/-- Two points agree up to `e`. -/
def NearPt (e : ℚ) (p q : ℚ × ℚ) : Prop := |p.1 - q.1| ≤ e ∧ |p.2 - q.2| ≤ e

/-- If the four tests have the same outcomes, the same points are chosen. -/
theorem pick_near {w h ry ly bx tx ry' ly' bx' tx' e : ℚ} (he : 0 ≤ e)
    (h1 : (ry' ≥ 0 ∧ ry' ≤ h) ↔ (ry ≥ 0 ∧ ry ≤ h)) (h2 : (ly' ≥ 0 ∧ ly' ≤ h) ↔ (ly ≥ 0 ∧ ly ≤ h))
    (h3 : (bx' ≥ 0 ∧ bx' ≤ w) ↔ (bx ≥ 0 ∧ bx ≤ w)) (h4 : (tx' ≥ 0 ∧ tx' ≤ w) ↔ (tx ≥ 0 ∧ tx ≤ w))
    (k1 : (ry ≥ 0 ∧ ry ≤ h) → |ry' - ry| ≤ e) (k2 : (ly ≥ 0 ∧ ly ≤ h) → |ly' - ly| ≤ e)
    (k3 : (bx ≥ 0 ∧ bx ≤ w) → |bx' - bx| ≤ e) (k4 : (tx ≥ 0 ∧ tx ≤ w) → |tx' - tx| ≤ e) :
    (pickPoints w h ry' ly' bx' tx' = none ↔ pickPoints w h ry ly bx tx = none) ∧
    ∀ p q, pickPoints w h ry ly bx tx = some (p, q) →
      ∃ p' q', pickPoints w h ry' ly' bx' tx' = some (p', q') ∧ NearPt e p' p ∧ NearPt e q' q := by
  unfold pickPoints NearPt
  simp only [h1, h2, h3, h4]
  by_cases hR : ry ≥ 0 ∧ ry ≤ h <;> by_cases hL : ly ≥ 0 ∧ ly ≤ h <;>
    by_cases hB : bx ≥ 0 ∧ bx ≤ w <;> by_cases hT : tx ≥ 0 ∧ tx ≤ w <;>
    simp only [hR, hL, hB, hT, if_false, Option.isSome_some, Option.isSome_none,
      Option.some.injEq, Prod.mk.injEq, reduceCtorEq, Bool.false_eq_true, and_self, if_pos,
      false_and, true_and, iff_self, IsEmpty.forall_iff,
      implies_true] <;>
    (rintro p q ⟨rfl, rfl⟩
     refine ⟨_, _, ⟨rfl, rfl⟩, ?_⟩
     simp only [sub_self, abs_zero, he, true_and, and_true]
     first
       | exact ⟨k1 hR, k2 hL⟩
       | exact ⟨k2 hL, k3 hB⟩
       | exact ⟨k1 hR, k3 hB⟩
       | exact ⟨k2 hL, k4 hT⟩
       | exact ⟨k1 hR, k4 hT⟩
       | exact ⟨k3 hB, k4 hT⟩)

/-- Error of a coordinate: `z / s` with both operations rounded. -/
theorem coord_rel {z z' s : ℚ} (hz : 1 / 2 ^ 21 ≤ |z|) (hz' : |z' - z| ≤ |z| / 2 ^ 24)
    (hs : 1 / 2 ^ 20 ≤ |s|) (hs1 : |s| ≤ 1) :
    |rnd32 (z' / s) - z / s| ≤ |z / s| * (1 / 2 ^ 22 - 1 / 2 ^ 40) := by
  have sp : 0 < |s| := lt_of_lt_of_le (by norm_num) hs
  have e1 : |z' / s - z / s| ≤ |z / s| / 2 ^ 24 := by
    rw [← sub_div, abs_div, abs_div, div_right_comm]
    exact div_le_div_of_nonneg_right hz' sp.le
  have big : 1 / 2 ^ 21 ≤ |z / s| := by
    rw [abs_div, le_div_iff₀ sp]
    refine le_trans ?_ hz
    exact mul_le_of_le_one_right (by norm_num) hs1
  have e2 : |z' / s| ≤ |z / s| * (1 + 1 / 2 ^ 24) := by
    have := abs_add_le (z' / s - z / s) (z / s)
    rw [sub_add_cancel] at this
    linarith
  have e3 := rnd32_err e2
  have e4 := abs_add_le (rnd32 (z' / s) - z' / s) (z' / s - z / s)
  rw [sub_add_sub_cancel] at e4
  norm_num at e1 e3 big ⊢
  linarith

/-- One of the tests has the same outcome as in exact arithmetic if the line keeps away from
both corners of the side. -/
theorem test_same {v v' n m : ℚ} (hn : 0 < n) (hm : n / 2 ^ 21 ≤ m) (h : |v' - v| ≤ |v| * (1 / 2 ^ 22 - 1 / 2 ^ 40))
    (h1 : m < |v - n|) : ((v' ≥ 0 ∧ v' ≤ n) ↔ (v ≥ 0 ∧ v ≤ n)) ∧
      ((v ≥ 0 ∧ v ≤ n) → |v' - v| ≤ n / 2 ^ 22) := by
  rcases le_or_gt 0 v with hv | hv
  · rw [abs_of_nonneg hv] at h
    have h' := h
    rw [abs_le] at h
    constructor
    · constructor
      · rintro ⟨a, b⟩
        refine ⟨hv, ?_⟩
        by_contra hc
        rw [abs_of_pos (by linarith)] at h1
        norm_num at h h1 hm
        linarith [h.1]
      · rintro ⟨a, b⟩
        rw [abs_of_nonpos (by linarith)] at h1
        norm_num at h h1 hm
        constructor <;> linarith [h.1, h.2]
    · rintro ⟨a, b⟩
      refine h'.trans ?_
      norm_num
      linarith
  · rw [abs_of_neg hv, abs_le] at h
    have neg : v' < 0 := by
      norm_num at h
      linarith [h.2]
    constructor
    · constructor
      · rintro ⟨a, b⟩; linarith
      · rintro ⟨a, b⟩; linarith
    · rintro ⟨a, b⟩; linarith

/-- C152 (lines away from the corners): if no corner of the image is within `(w + h) / 2^21` of the
line with normal `(cos, sin)` at distance `r`, a segment is returned exactly when the line meets the
image, and its end points are within `max(w, h) / 2^22` of those of exact arithmetic (C57, C92). -/
theorem C152_clear_partial {sin cos r : ℚ} {m : Nat} {w h : Nat} (hw : 0 < w) (hh : 0 < h)
    (hw' : w ≤ 2 ^ 24) (hh' : h ≤ 2 ^ 24)
    (hs : m ≠ 0 → m ≠ 90 → 1 / 2 ^ 20 ≤ |sin| ∧ |sin| ≤ 1 ∧ 1 / 2 ^ 20 ≤ |cos| ∧ |cos| ≤ 1)
    (c0 : ((w : ℚ) + h) / 2 ^ 21 < |r|) (c1 : ((w : ℚ) + h) / 2 ^ 21 < |w * cos - r|)
    (c2 : ((w : ℚ) + h) / 2 ^ 21 < |h * sin - r|) (c3 : ((w : ℚ) + h) / 2 ^ 21 < |w * cos + h * sin - r|) :
    (intersectionPoints32 sin cos r m w h = none ↔ intersectionPoints sin cos r m (w : ℚ) h = none) ∧
    ∀ p q, intersectionPoints sin cos r m (w : ℚ) h = some (p, q) →
      ∃ p' q', intersectionPoints32 sin cos r m w h = some (p', q') ∧
        NearPt (max (w : ℚ) h / 2 ^ 22) p' p ∧ NearPt (max (w : ℚ) h / 2 ^ 22) q' q := by
  have w1 : (1 : ℚ) ≤ w := by exact_mod_cast hw
  have h1 : (1 : ℚ) ≤ h := by exact_mod_cast hh
  have e0 : (0 : ℚ) ≤ max (w : ℚ) h / 2 ^ 22 := by positivity
  unfold intersectionPoints32
  dsimp only
  rw [rnd32_natQ hw', rnd32_natQ hh']
  by_cases m0 : m = 0
  · unfold intersectionPoints
    rw [if_pos m0, if_pos m0]
    refine ⟨Iff.rfl, fun p q h => ⟨p, q, h, ?_⟩⟩
    unfold NearPt
    simp [e0]
  by_cases m90 : m = 90
  · unfold intersectionPoints
    rw [if_neg m0, if_pos m90, if_neg m0, if_pos m90]
    refine ⟨Iff.rfl, fun p q h => ⟨p, q, h, ?_⟩⟩
    unfold NearPt
    simp [e0]
  rw [if_neg m0, if_neg m90, pick_eq m0 m90]
  obtain ⟨s1, s2, s3, s4⟩ := hs m0 m90
  have sp : 0 < |sin| := lt_of_lt_of_le (by norm_num) s1
  have cp : 0 < |cos| := lt_of_lt_of_le (by norm_num) s3
  have s0 : sin ≠ 0 := abs_pos.1 sp
  have k0 : cos ≠ 0 := abs_pos.1 cp
  obtain ⟨μ, hμ⟩ : ∃ μ : ℚ, μ = ((w : ℚ) + h) / 2 ^ 21 := ⟨_, rfl⟩
  rw [← hμ] at c0 c1 c2 c3
  have μ1 : 1 / 2 ^ 20 ≤ μ := by rw [hμ]; norm_num; linarith
  have μw : (w : ℚ) / 2 ^ 21 ≤ μ := by rw [hμ]; norm_num; linarith
  have μh : (h : ℚ) / 2 ^ 21 ≤ μ := by rw [hμ]; norm_num; linarith
  -- a distance divided by the sine or cosine
  have far : ∀ {a b s n : ℚ}, s ≠ 0 → 0 < |s| → |s| ≤ 1 → μ < |a| → a = (b - s * n) → μ < |b / s - n| := by
    intro a b s n hs0 hsp hs1 ha e
    rw [show b / s - n = a / s by rw [e]; field_simp, abs_div, lt_div_iff₀ hsp]
    refine lt_of_le_of_lt ?_ ha
    exact mul_le_of_le_one_right (le_trans (by norm_num) μ1) hs1
  have rz : ∀ {z : ℚ}, μ < |z| → |rnd32 z - z| ≤ |z| / 2 ^ 24 := by
    intro z hz
    have := rnd_error_rel (p := 24) (emin := -149) (x := z) (le_trans (by norm_num) (le_trans μ1 hz.le))
    refine this.trans (le_of_eq ?_)
    rw [zpow_neg, div_eq_mul_inv]; rfl
  have b20 : ∀ {z : ℚ}, μ < |z| → 1 / 2 ^ 21 ≤ |z| := by
    intro z hz; norm_num at μ1 ⊢; linarith
  have zz : ∀ {z : ℚ}, |z - z| ≤ |z| / 2 ^ 24 := by
    intro z; rw [sub_self, abs_zero]; positivity
  have zr : μ < |cos * (-(w : ℚ)) + r| := by
    rw [← abs_neg]; convert c1 using 2; ring
  have zb : μ < |sin * (-(h : ℚ)) + r| := by
    rw [← abs_neg]; convert c2 using 2; ring
  have t1 := test_same (by linarith : (0 : ℚ) < h) μh (coord_rel (b20 zr) (rz zr) s1 s2)
    (far (a := -(w * cos + h * sin - r)) s0 sp s2 (by rwa [abs_neg]) (by ring))
  have t2 := test_same (by linarith : (0 : ℚ) < h) μh (coord_rel (b20 c0) zz s1 s2)
    (far (a := -(h * sin - r)) s0 sp s2 (by rwa [abs_neg]) (by ring))
  have t3 := test_same (by linarith : (0 : ℚ) < w) μw (coord_rel (b20 zb) (rz zb) s3 s4)
    (far (a := -(w * cos + h * sin - r)) k0 cp s4 (by rwa [abs_neg]) (by ring))
  have t4 := test_same (by linarith : (0 : ℚ) < w) μw (coord_rel (b20 c0) zz s3 s4)
    (far (a := -(w * cos - r)) k0 cp s4 (by rwa [abs_neg]) (by ring))
  have mw : (w : ℚ) / 2 ^ 22 ≤ max (w : ℚ) h / 2 ^ 22 := div_le_div_of_nonneg_right (le_max_left _ _) (by norm_num)
  have mh : (h : ℚ) / 2 ^ 22 ≤ max (w : ℚ) h / 2 ^ 22 := div_le_div_of_nonneg_right (le_max_right _ _) (by norm_num)
  exact pick_near e0 t1.1 t2.1 t3.1 t4.1 (fun k => (t1.2 k).trans mh) (fun k => (t2.2 k).trans mh)
    (fun k => (t3.2 k).trans mw) (fun k => (t4.2 k).trans mw)

/-- C152 (points): for every line, the points returned lie on the boundary of the image and within
`max(w, h) / 2^22` of the line. -/
theorem C152_points {sin cos r : ℚ} {m : Nat} {w h : Nat} (hw : 0 < w) (hh : 0 < h)
    (hw' : w ≤ 2 ^ 24) (hh' : h ≤ 2 ^ 24)
    (hs : m = 0 ∧ sin = 0 ∧ cos = 1 ∨ m = 90 ∧ sin = 1 ∧ cos = 0 ∨
      m ≠ 0 ∧ m ≠ 90 ∧ 1 / 2 ^ 20 ≤ |sin| ∧ |sin| ≤ 1 ∧ 1 / 2 ^ 20 ≤ |cos| ∧ |cos| ≤ 1)
    {p q z : ℚ × ℚ} (e : intersectionPoints32 sin cos r m w h = some (p, q)) (hz : z = p ∨ z = q) :
    OnBoundary (w : ℚ) h z ∧ |z.1 * cos + z.2 * sin - r| ≤ max (w : ℚ) h / 2 ^ 22 := by
  have w1 : (1 : ℚ) ≤ w := by exact_mod_cast hw
  have h1 : (1 : ℚ) ≤ h := by exact_mod_cast hh
  have mw := le_max_left (w : ℚ) h
  have mh := le_max_right (w : ℚ) h
  obtain ⟨M, hM⟩ : ∃ M, M = max (w : ℚ) h := ⟨_, rfl⟩
  rw [← hM] at mw mh ⊢
  unfold intersectionPoints32 at e
  dsimp only at e
  rw [rnd32_natQ hw', rnd32_natQ hh'] at e
  rcases hs with ⟨rfl, rfl, rfl⟩ | ⟨rfl, rfl, rfl⟩ | ⟨m0, m90, s1, s2, s3, s4⟩
  · rw [if_pos rfl] at e
    split at e
    · rename_i hr
      simp only [Option.some.injEq, Prod.mk.injEq] at e
      obtain ⟨rfl, rfl⟩ := e
      have M0 : (0 : ℚ) ≤ M / 2 ^ 22 := div_nonneg (by linarith) (by norm_num)
      rcases hz with rfl | rfl <;>
        simp [OnBoundary, InRect, hr.1, hr.2, M0]
    · simp at e
  · rw [if_neg (by norm_num), if_pos rfl] at e
    split at e
    · rename_i hr
      simp only [Option.some.injEq, Prod.mk.injEq] at e
      obtain ⟨rfl, rfl⟩ := e
      have M0 : (0 : ℚ) ≤ M / 2 ^ 22 := div_nonneg (by linarith) (by norm_num)
      rcases hz with rfl | rfl <;>
        simp [OnBoundary, InRect, hr.1, hr.2, M0]
    · simp at e
  rw [if_neg m0, if_neg m90] at e
  obtain ⟨hr, hc⟩ := pick_cases (by linarith) (by linarith) e z hz
  have sp : 0 < |sin| := lt_of_lt_of_le (by norm_num) s1
  have cp : 0 < |cos| := lt_of_lt_of_le (by norm_num) s3
  -- one coordinate
  have key : ∀ {b b' s v n : ℚ}, 0 < |s| → |s| ≤ 1 → |b' - b| ≤ |b| / 2 ^ 24 + 1 / 2 ^ 150 → v = rnd32 (b' / s) →
      0 ≤ v → v ≤ n → 1 ≤ n → n ≤ M → |v * s - b| ≤ M / 2 ^ 22 := by
    intro b b' s v n hsp hs1 hb hv v0 vn n1 nM
    have s0 : s ≠ 0 := abs_pos.1 hsp
    have x1 := rnd32_err (le_refl |b' / s|)
    rw [← hv] at x1
    have x2 : |b' / s| ≤ 2 * M := by
      have := abs_sub_abs_le_abs_sub (b' / s) v
      rw [abs_sub_comm, abs_of_nonneg v0] at this
      norm_num at x1
      linarith
    have x3 : |v * s - b'| ≤ M * (2 / 2 ^ 24) + 1 / 2 ^ 150 := by
      rw [show v * s - b' = (v - b' / s) * s by field_simp, abs_mul]
      have : |v - b' / s| * |s| ≤ |v - b' / s| * 1 := mul_le_mul_of_nonneg_left hs1 (abs_nonneg _)
      norm_num at x1 this ⊢
      linarith
    have x4 : |v * s| ≤ M := by
      rw [abs_mul, abs_of_nonneg v0]
      calc v * |s| ≤ v * 1 := mul_le_mul_of_nonneg_left hs1 v0
        _ ≤ M := by linarith
    have x5 : |b'| ≤ M * (1 + 2 / 2 ^ 24) + 1 / 2 ^ 150 := by
      have := abs_sub_abs_le_abs_sub b' (v * s)
      rw [abs_sub_comm] at this
      linarith
    have x6 : |b| ≤ M * (1 + 1 / 2 ^ 20) := by
      have := abs_sub_abs_le_abs_sub b b'
      rw [abs_sub_comm] at this
      norm_num at hb x5 ⊢
      linarith
    have x7 := abs_add_le (v * s - b') (b' - b)
    rw [sub_add_sub_cancel] at x7
    norm_num at hb x3 x6 ⊢
    linarith
  have zz : ∀ z : ℚ, |z - z| ≤ |z| / 2 ^ 24 + 1 / 2 ^ 150 := by
    intro z; rw [sub_self, abs_zero]; positivity
  unfold OnBoundary
  refine ⟨⟨hr, ?_⟩, ?_⟩
  · rcases hc with rfl | rfl | rfl | rfl <;> simp
  · obtain ⟨g1, g2, g3, g4⟩ := hr
    rcases hc with rfl | rfl | rfl | rfl <;> dsimp only at g1 g2 g3 g4 ⊢
    · have := key sp s2 (rnd32_err (le_refl |cos * (-(w : ℚ)) + r|)) rfl g3 g4 h1 mh
      convert this using 2; ring
    · have := key sp s2 (zz r) rfl g3 g4 h1 mh
      convert this using 2; ring
    · have := key cp s4 (rnd32_err (le_refl |sin * (-(h : ℚ)) + r|)) rfl g1 g2 w1 mw
      convert this using 2; ring
    · have := key cp s4 (zz r) rfl g1 g2 w1 mw
      convert this using 2; ring

/-- C152 (negation): 3776 by 604 pixels, 123 degrees, distance -1550.  The line enters the image at the
top (x = 2845.9) and leaves it at the bottom right corner, up to 0.00005 pixels; no
segment is returned.  The main diagonal of 102 by 102 pixels, 135 degrees at distance
0, is reduced to one point. -/
theorem C152_negation :
    (intersectionPoints32 (14070557 / 16777216) (-9137527 / 16777216) (-1550) 123 3776 604 = none ∧
      ∃ p q, intersectionPoints (14070557 / 16777216 : ℚ) (-9137527 / 16777216) (-1550) 123 3776 604 = some (p, q) ∧
        930 < |p.1 - q.1| ∧ 603 < |p.2 - q.2|) ∧
    intersectionPoints32 (11863283 / 16777216) (-11863283 / 16777216) 0 135 102 102 = some ((0, 0), (0, 0)) ∧
    OnLine (11863283 / 16777216 : ℚ) (-11863283 / 16777216) 0 (102, 102) := by
  refine ⟨⟨?_, ?_⟩, ?_, ?_⟩
  · decide +kernel
  · refine ⟨(34503301228 / 9137527, 604), (26004684800 / 9137527, 0), ?_, ?_, ?_⟩
    · unfold intersectionPoints; norm_num
    · norm_num [abs_of_pos]
    · norm_num [abs_of_pos]
  · decide +kernel
  · unfold OnLine; norm_num

/-- 45 degrees in an image of 100 by 60 pixels, distance 50. -/
example : intersectionPoints32 (11863283 / 16777216) (11863283 / 16777216) 50 45 100 60 =
    some ((5615481 / 524288, 60), (4634095 / 65536, 0)) := by decide +kernel

end Verif.Float
