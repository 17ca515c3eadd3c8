import Verif.Hough.Clip
import Verif.Drawing.LineReal
/-
Model and properties of `draw_polar_lines` (src/hough.rs:96-125) (C113).  Sine and cosine of the whole
degrees are a parameter (rational approximations); `f32` values are rational numbers.
-/
namespace Verif.Hough
open Verif.Drawing Verif.Definitions
variable {α : Type _}

/-- A `PolarLine`, hough.rs:12-19: signed distance from the origin and angle in degrees. -/
structure PolarLine where
  r : ℚ
  angle : Nat

/-- `intersection_points` of a line with an image (hough.rs:130-197); `trig m` is `(sin, cos)` of `m`
degrees. -/
def lineEnds (trig : Nat → ℚ × ℚ) (l : PolarLine) (w h : Nat) : Option ((ℚ × ℚ) × (ℚ × ℚ)) :=
  intersectionPoints (trig l.angle).1 (trig l.angle).2 l.r l.angle w h

/-- `draw_polar_line`, hough.rs:118-125. -/
def drawPolarLine (trig : Nat → ℚ × ℚ) (im : Image α) (l : PolarLine) (color : α) : Option (Image α) :=
  match lineEnds trig l im.w im.h with
  | some (s, e) => drawLine overwrite im s e color
  | none => some im

/-- `draw_polar_lines_mut`, hough.rs:109-116 (`draw_polar_lines` works on a copy). -/
def drawPolarLines (trig : Nat → ℚ × ℚ) (im : Image α) (ls : List PolarLine) (color : α) :
    Option (Image α) :=
  forList ls im fun l im => drawPolarLine trig im l color

/-- A pixel on the drawn course of a line. -/
def Drawn (trig : Nat → ℚ × ℚ) (w h : Nat) (l : PolarLine) (p : Int × Int) : Prop :=
  ∃ s e, lineEnds trig l w h = some (s, e) ∧ p ∈ bresenham s e

open Classical in
/-- **C113.** Drawing any list of lines never panics and keeps the size; a pixel gets the colour iff it
lies on the course between the two clipped end points of some line, otherwise it is unchanged.  So order and
repetition of the lines do not matter. -/
theorem C113_pixels (trig : Nat → ℚ × ℚ) (im : Image α) (ls : List PolarLine) (color : α) :
    ∃ out, drawPolarLines trig im ls color = some out ∧ out.w = im.w ∧ out.h = im.h ∧
      ∀ a b, out.px a b = if im.InB a b ∧ ∃ l ∈ ls, Drawn trig im.w im.h l ((a : Int), (b : Int))
        then color else im.px a b := by
  refine forList_spec (fun done (o : Image α) => o.w = im.w ∧ o.h = im.h ∧
    ∀ a b, o.px a b = if im.InB a b ∧ ∃ l ∈ done, Drawn trig im.w im.h l ((a : Int), (b : Int))
      then color else im.px a b) ls [] im ⟨rfl, rfl, fun a b => by simp⟩ ?_
  rintro done l rest o - ⟨hw, hh, hpx⟩
  unfold drawPolarLine
  have hiff : ∀ a b : Nat, (∃ l' ∈ done ++ [l], Drawn trig im.w im.h l' ((a : Int), (b : Int))) ↔
      (∃ l' ∈ done, Drawn trig im.w im.h l' ((a : Int), (b : Int))) ∨
      Drawn trig im.w im.h l ((a : Int), (b : Int)) := by
    intro a b
    simp only [List.mem_append, List.mem_singleton]
    constructor
    · rintro ⟨l', h | rfl, h'⟩
      · exact Or.inl ⟨l', h, h'⟩
      · exact Or.inr h'
    · rintro (⟨l', h, h'⟩ | h)
      · exact ⟨l', Or.inl h, h'⟩
      · exact ⟨l, Or.inr rfl, h⟩
  rw [hw, hh]
  rcases he : lineEnds trig l im.w im.h with _ | ⟨s, e⟩
  · refine ⟨o, rfl, hw, hh, fun a b => ?_⟩
    rw [hpx]
    refine if_congr ?_ rfl rfl
    rw [hiff]
    have : ¬ Drawn trig im.w im.h l ((a : Int), (b : Int)) := by
      rintro ⟨s, e, h, -⟩
      rw [he] at h
      cases h
    simp [this]
  · obtain ⟨o', h1, h2, h3, h4⟩ := C43_draw overwrite o s e color
    refine ⟨o', h1, by rw [h2, hw], by rw [h3, hh], fun a b => ?_⟩
    rw [h4, hpx]
    have hd : Drawn trig im.w im.h l ((a : Int), (b : Int)) ↔ ((a : Int), (b : Int)) ∈ bresenham s e := by
      constructor
      · rintro ⟨s', e', h, h'⟩
        rw [he] at h
        cases h
        exact h'
      · intro h
        exact ⟨s, e, he, h⟩
    have hb : o.InB a b ↔ im.InB a b := by
      unfold Image.InB
      rw [hw, hh]
    simp only [hiff, hd, hb]
    by_cases hin : im.InB a b
    · by_cases hbr : ((a : Int), (b : Int)) ∈ bresenham s e
      · simp [hin, hbr, overwrite]
      · simp [hin, hbr]
    · simp [hin]

/-- **C113.** Every drawn pixel is within 5/2 pixels of the line: its distance from the line (for a unit normal
`(cos, sin)`) is at most `5/2 max(|sin|, |cos|)`. -/
theorem C113_near (trig : Nat → ℚ × ℚ) (w h : Nat) (l : PolarLine)
    (hc : Consistent (trig l.angle).1 (trig l.angle).2 l.angle) (p : Int × Int)
    (hp : Drawn trig w h l p) :
    |(p.1 : ℚ) * (trig l.angle).2 + p.2 * (trig l.angle).1 - l.r| ≤
      5 / 2 * max |(trig l.angle).1| |(trig l.angle).2| := by
  obtain ⟨s, e, hl, hm⟩ := hp
  unfold lineEnds at hl
  obtain ⟨l1, l2, -, -⟩ := C57_points hc (by positivity) (by positivity) hl
  unfold OnLine at l1 l2
  have hN := C42_real s e
  generalize (trig l.angle).1 = sin at *
  generalize (trig l.angle).2 = cos at *
  have hne : sin ≠ 0 ∨ cos ≠ 0 := by
    rcases hc with ⟨-, -, h⟩ | ⟨-, h, -⟩ | ⟨-, -, h, -⟩
    · right; rw [h]; norm_num
    · left; rw [h]; norm_num
    · left; exact h
  have hM : 0 < max |sin| |cos| := by
    rcases hne with h | h
    · exact lt_max_of_lt_left (abs_pos.2 h)
    · exact lt_max_of_lt_right (abs_pos.2 h)
  by_cases hse : s = e
  · have := hN.point hse p hm
    rw [this]
    have t1 := truncQ_near s.1
    have t2 := truncQ_near s.2
    have e1 : ((truncQ s.1 : Int) : ℚ) * cos + (truncQ s.2 : Int) * sin - l.r =
        -((s.1 - truncQ s.1) * cos + (s.2 - truncQ s.2) * sin) := by rw [← l1]; ring
    dsimp only
    rw [e1, abs_neg]
    refine (abs_add_le _ _).trans ?_
    rw [abs_mul, abs_mul]
    have m1 := le_max_left |sin| |cos|
    have m2 := le_max_right |sin| |cos|
    have n1 := abs_nonneg (s.1 - truncQ s.1)
    have n2 := abs_nonneg (s.2 - truncQ s.2)
    nlinarith
  · -- the direction is a multiple of `(-sin, cos)`
    obtain ⟨t, ht1, ht2⟩ : ∃ t, e.1 - s.1 = -t * sin ∧ e.2 - s.2 = t * cos := by
      have hlin : (e.1 - s.1) * cos + (e.2 - s.2) * sin = 0 := by linear_combination l2 - l1
      rcases hne with h | h
      · refine ⟨-(e.1 - s.1) / sin, by field_simp, ?_⟩
        field_simp
        linear_combination hlin
      · refine ⟨(e.2 - s.2) / cos, ?_, by field_simp⟩
        field_simp
        linear_combination hlin
    have hn := hN.near p hm
    rw [ht1, ht2] at hn
    have e1 : ((p.2 : ℚ) - s.2) * (-t * sin) - (p.1 - s.1) * (t * cos) =
        -(t * (p.1 * cos + p.2 * sin - l.r)) := by rw [← l1]; ring
    rw [e1, abs_neg, abs_mul] at hn
    have e2 : max |-t * sin| |t * cos| = |t| * max |sin| |cos| := by
      rw [abs_mul, abs_mul, abs_neg, mul_max_of_nonneg _ _ (abs_nonneg t)]
    rw [e2] at hn
    have ht : 0 < |t| := by
      rw [abs_pos]
      rintro rfl
      apply hse
      exact Prod.ext (by linarith) (by linarith)
    have : |t| * (2 * |(p.1 : ℚ) * cos + p.2 * sin - l.r|) ≤ |t| * (5 * max |sin| |cos|) := by linarith
    have := le_of_mul_le_mul_left this ht
    linarith

/-- **C113** (partial: except for the lines that C92 says are cut down to a corner).  If a point of the line lies in the
image rectangle, then the course of the line has a pixel in the column (for flat lines) or the row (for steep
lines) of that point. -/
theorem C113_cover_partial (trig : Nat → ℚ × ℚ) (w h : Nat) (l : PolarLine)
    (hc : Consistent (trig l.angle).1 (trig l.angle).2 l.angle) (z : ℚ × ℚ)
    (hz : OnLine (trig l.angle).1 (trig l.angle).2 l.r z) (hr : InRect (w : ℚ) h z)
    (hd : ∀ p, lineEnds trig l w h ≠ some (p, p)) :
    (∃ b : Int, Drawn trig w h l (⌊z.1⌋, b)) ∨ ∃ a : Int, Drawn trig w h l (a, ⌊z.2⌋) := by
  obtain ⟨s, e, hl⟩ := C57_complete hc hz hr
  have hse : s ≠ e := by
    rintro rfl
    exact hd s hl
  obtain ⟨-, -, bs, be⟩ := C57_points hc (by positivity) (by positivity) hl
  have ch := C92_chord_partial hc (by positivity) (by positivity) hl (Or.inr (Or.inr hse)) hz hr
  have hN := C42_real s e
  have htr : ∀ x : ℚ, 0 ≤ x → truncQ x = ⌊x⌋ := by
    intro x hx
    unfold truncQ
    rw [if_pos hx]
  have mid : ∀ a b c : ℚ, 0 ≤ a → 0 ≤ b → min a b ≤ c → c ≤ max a b →
      min (truncQ a) (truncQ b) ≤ ⌊c⌋ ∧ ⌊c⌋ ≤ max (truncQ a) (truncQ b) := by
    intro a b c ha hb h1 h2
    rw [htr a ha, htr b hb]
    rcases min_le_iff.1 h1 with g | g <;> rcases le_max_iff.1 h2 with g' | g'
    · exact ⟨(min_le_left _ _).trans (Int.floor_mono g), (Int.floor_mono g').trans (le_max_left _ _)⟩
    · exact ⟨(min_le_left _ _).trans (Int.floor_mono g), (Int.floor_mono g').trans (le_max_right _ _)⟩
    · exact ⟨(min_le_right _ _).trans (Int.floor_mono g), (Int.floor_mono g').trans (le_max_left _ _)⟩
    · exact ⟨(min_le_right _ _).trans (Int.floor_mono g), (Int.floor_mono g').trans (le_max_right _ _)⟩
  rcases le_or_gt |e.2 - s.2| |e.1 - s.1| with hf | hf
  · left
    obtain ⟨b, hb⟩ := (hN.flat hf ⌊z.1⌋).2 (mid _ _ _ bs.1.1 be.1.1 ch.1 ch.2.1)
    exact ⟨b, s, e, hl, hb⟩
  · right
    obtain ⟨a, ha⟩ := (hN.steep hf ⌊z.2⌋).2 (mid _ _ _ bs.1.2.2.1 be.1.2.2.1 ch.2.2.1 ch.2.2.2)
    exact ⟨a, s, e, hl, ha⟩

/-- The normal `(4/5, 3/5)` at every oblique angle. -/
def trig345 (m : Nat) : ℚ × ℚ := if m = 0 then (0, 1) else if m = 90 then (1, 0) else (3 / 5, 4 / 5)

/-- C113 fails without the exception: a line whose visible part is a chord from the top edge to the bottom left
corner, for which no pixel is painted. -/
theorem C113_negation :
    OnLine (trig345 37).1 (trig345 37).2 (12 / 5) (3 / 2, 2) ∧ InRect (10 : ℚ) 4 (3 / 2, 2) ∧
    (drawPolarLines trig345 (Image.ofFn 10 4 fun _ _ => 0) [⟨12 / 5, 37⟩] 1).map Image.rows =
      some (Image.ofFn 10 4 fun _ _ => 0).rows := by
  refine ⟨?_, ?_, by decide +kernel⟩
  · unfold OnLine trig345; norm_num
  · unfold InRect; norm_num

-- An oblique line across a small image.
example : (drawPolarLines trig345 (Image.ofFn 6 4 fun _ _ => 0) [⟨2, 37⟩, ⟨5, 0⟩] 1).map Image.rows =
    some [[0, 0, 1, 0, 0, 1], [0, 1, 0, 0, 0, 1], [0, 1, 0, 0, 0, 1], [1, 0, 0, 0, 0, 1]] := by
  decide +kernel

end Verif.Hough
