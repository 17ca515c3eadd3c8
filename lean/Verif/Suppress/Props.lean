import Verif.Suppress.Model
import Verif.Basic.Raster
import Mathlib.Tactic.Linarith
import Mathlib.Tactic.Ring
/- Property theorem C29 (non-maximum suppression of images). -/
namespace Verif.Suppress
variable {α : Type _} [LinearOrder α]

/-- Pixel `(a, b)` beats pixel `(c, d)`: greater value, or equal value and lexicographically
smaller coordinates. -/
def Beats (im : Image α) (a b c d : Nat) : Prop :=
  im.px c d < im.px a b ∨ im.px a b = im.px c d ∧ (a < c ∨ a = c ∧ b < d)

/-- `(x, y)` is the maximum of its window clipped to the image. -/
def WindowMax (im : Image α) (r x y : Nat) : Prop :=
  ∀ a b, a < im.w → b < im.h → a ≤ x + r → x ≤ a + r → b ≤ y + r → y ≤ b + r →
    ¬ Beats im a b x y

theorem beats_trans {im : Image α} {a b c d e f : Nat} (h1 : Beats im a b c d)
    (h2 : Beats im c d e f) : Beats im a b e f := by
  unfold Beats at *
  rcases h1 with h1 | ⟨h1, h1'⟩ <;> rcases h2 with h2 | ⟨h2, h2'⟩
  · exact Or.inl (lt_trans h2 h1)
  · exact Or.inl (h2 ▸ h1)
  · exact Or.inl (h1 ▸ h2)
  · exact Or.inr ⟨h1.trans h2, by omega⟩

theorem beats_total {im : Image α} {a b c d : Nat} (h : ¬ (a = c ∧ b = d)) :
    Beats im a b c d ∨ Beats im c d a b := by
  unfold Beats
  rcases lt_trichotomy (im.px a b) (im.px c d) with h1 | h1 | h1
  · exact Or.inr (Or.inl h1)
  · rcases (by omega : (a < c ∨ a = c ∧ b < d) ∨ (c < a ∨ c = a ∧ d < b)) with h2 | h2
    · exact Or.inl (Or.inr ⟨h1, h2⟩)
    · exact Or.inr (Or.inr ⟨h1.symm, h2⟩)
  · exact Or.inl (Or.inl h1)

theorem not_beats_self {im : Image α} {a b : Nat} : ¬ Beats im a b a b := by
  unfold Beats
  rintro (h | ⟨_, h⟩)
  · exact lt_irrefl _ h
  · omega

theorem lexLt_iff {a b c d : Nat} : lexLt a b c d = true ↔ (a < c ∨ a = c ∧ b < d) := by
  simp [lexLt]

theorem step_iff {im : Image α} {a b x y : Nat} :
    (¬ im.px a b < im.px x y ∧ (im.px a b > im.px x y || lexLt a b x y) = true) ↔
      Beats im a b x y := by
  unfold Beats
  simp only [Bool.or_eq_true, decide_eq_true_eq, lexLt_iff, gt_iff_lt]
  constructor
  · rintro ⟨h1, h2 | h2⟩
    · exact Or.inl h2
    · rcases lt_or_eq_of_le (not_lt.1 h1) with h | h
      · exact Or.inl h
      · exact Or.inr ⟨h.symm, h2⟩
  · rintro (h | ⟨h1, h2⟩)
    · exact ⟨not_lt.2 h.le, Or.inl h⟩
    · exact ⟨by rw [h1]; exact lt_irrefl _, Or.inr h2⟩

/-- The block search finds the unique pixel of the block beaten by none in it. -/
theorem blockMax_spec (im : Image α) (x y r : Nat) (hx : x < im.w) (hy : y < im.h) :
    ∃ b, blockMax im x y r = some b ∧ b.v = im.px b.x b.y ∧
      (x ≤ b.x ∧ b.x < min im.w (x + r + 1)) ∧ (y ≤ b.y ∧ b.y < min im.h (y + r + 1)) ∧
      ∀ cx cy, x ≤ cx → cx < min im.w (x + r + 1) → y ≤ cy → cy < min im.h (y + r + 1) →
        ¬ Beats im cx cy b.x b.y := by
  unfold blockMax
  rw [Image.get_of_inB hx hy, Option.bind_some]
  generalize hX : min im.w (x + r + 1) = X
  generalize hY : min im.h (y + r + 1) = Y
  obtain ⟨b, e, h1, h2, h3, h4⟩ := forYX_spec
    (f := fun cx cy (b : Best α) => (im.get cx cy).bind fun ci =>
      if ci < b.v then some b
      else if ci > b.v || lexLt cx cy b.x b.y then some ⟨cx, cy, ci⟩
      else some b)
    (fun u v (b : Best α) => b.v = im.px b.x b.y ∧ (x ≤ b.x ∧ b.x < X) ∧ (y ≤ b.y ∧ b.y < Y) ∧
      ∀ cx cy, x ≤ cx → cx < X → y ≤ cy → cy < Y → (cy < v ∨ cy = v ∧ cx < u) →
        ¬ Beats im cx cy b.x b.y)
    (y0 := y) (y1 := Y) (x0 := x) (x1 := X) (s := ⟨x, y, im.px x y⟩) (by omega) (by omega)
    ⟨rfl, ⟨by simp, by dsimp only; omega⟩, ⟨by simp, by dsimp only; omega⟩, by omega⟩
    (by
      rintro u v b hu1 hu2 hv1 hv2 ⟨h1, h2, h3, h4⟩
      rw [Image.get_of_inB (by omega) (by omega), Option.bind_some, h1]
      have hcase : ∀ b' : Best α, (b'.v = im.px b'.x b'.y) → (x ≤ b'.x ∧ b'.x < X) →
          (y ≤ b'.y ∧ b'.y < Y) → (¬ Beats im u v b'.x b'.y) →
          (b' = b ∨ Beats im b'.x b'.y b.x b.y) →
          (b'.v = im.px b'.x b'.y ∧ (x ≤ b'.x ∧ b'.x < X) ∧ (y ≤ b'.y ∧ b'.y < Y) ∧
            ∀ cx cy, x ≤ cx → cx < X → y ≤ cy → cy < Y → (cy < v ∨ cy = v ∧ cx < u + 1) →
              ¬ Beats im cx cy b'.x b'.y) := by
        intro b' k1 k2 k3 k4 k5
        refine ⟨k1, k2, k3, ?_⟩
        intro cx cy a1 a2 a3 a4 a5 hbeat
        by_cases hc : cx = u ∧ cy = v
        · rw [hc.1, hc.2] at hbeat; exact k4 hbeat
        · have := h4 cx cy a1 a2 a3 a4 (by omega)
          rcases k5 with k5 | k5
          · rw [k5] at hbeat; exact this hbeat
          · exact this (beats_trans hbeat k5)
      by_cases hB : Beats im u v b.x b.y
      · obtain ⟨q1, q2⟩ := step_iff.2 hB
        rw [if_neg q1, if_pos q2]
        exact ⟨_, rfl, hcase ⟨u, v, im.px u v⟩ rfl ⟨hu1, hu2⟩ ⟨hv1, hv2⟩ not_beats_self (Or.inr hB)⟩
      · by_cases q1 : im.px u v < im.px b.x b.y
        · rw [if_pos q1]
          exact ⟨_, rfl, hcase b h1 h2 h3 hB (Or.inl rfl)⟩
        · rw [if_neg q1, if_neg (fun q2 => hB (step_iff.1 ⟨q1, q2⟩))]
          exact ⟨_, rfl, hcase b h1 h2 h3 hB (Or.inl rfl)⟩)
    (by
      rintro v b hv1 hv2 ⟨h1, h2, h3, h4⟩
      exact ⟨h1, h2, h3, fun cx cy a1 a2 a3 a4 a5 => h4 cx cy a1 a2 a3 a4 (by omega)⟩)
  exact ⟨b, e, h1, h2, h3, fun cx cy a1 a2 a3 a4 => h4 cx cy a1 a2 a3 a4 (by omega)⟩

/-- `contains_greater_value` is total on in-bounds regions and detects beating pixels. -/
theorem contains_spec (im : Image α) (x y yl yu xl xu : Nat) (hxu : xu ≤ im.w) (hyu : yu ≤ im.h) :
    ∃ f, containsGreaterValue im x y (im.px x y) yl yu xl xu = some f ∧
      (f = true ↔ ∃ cx cy, xl ≤ cx ∧ cx < xu ∧ yl ≤ cy ∧ cy < yu ∧ Beats im cx cy x y) := by
  unfold containsGreaterValue
  by_cases hy : yl ≤ yu
  swap
  · refine ⟨false, ?_, ?_⟩
    · unfold forYX; rw [forRange_empty (by omega)]
    · simp only [Bool.false_eq_true, false_iff]; rintro ⟨cx, cy, _, _, _, _, _⟩; omega
  by_cases hx : xl ≤ xu
  swap
  · obtain ⟨f, e, h⟩ := forRange_spec
      (f := fun cy (found : Bool) => forRange xl xu found fun cx found =>
        if found then some true
        else (im.get cx cy).bind fun ci =>
          if ci < im.px x y then some false
          else if ci > im.px x y || lexLt cx cy x y then some true
          else some false)
      (fun _ (found : Bool) => found = false) hy rfl
      (by intro i s _ _ h; exact ⟨s, forRange_empty (by omega), h⟩)
    refine ⟨f, e, ?_⟩
    rw [h]
    simp only [Bool.false_eq_true, false_iff]; rintro ⟨cx, cy, _, _, _, _, _⟩; omega
  obtain ⟨f, e, h⟩ := forYX_spec
    (f := fun cx cy (found : Bool) =>
      if found then some true
      else (im.get cx cy).bind fun ci =>
        if ci < im.px x y then some false
        else if ci > im.px x y || lexLt cx cy x y then some true
        else some false)
    (fun u v (found : Bool) => (found = true ↔ ∃ cx cy, xl ≤ cx ∧ cx < xu ∧ yl ≤ cy ∧ cy < yu ∧
      (cy < v ∨ cy = v ∧ cx < u) ∧ Beats im cx cy x y))
    (y0 := yl) (y1 := yu) (x0 := xl) (x1 := xu) (s := false) hy hx
    (by
      simp only [Bool.false_eq_true, false_iff]
      rintro ⟨cx, cy, _, _, _, _, _, _⟩; omega)
    (by
      rintro u v found hu1 hu2 hv1 hv2 hI
      have hB : ∀ c : Bool, (c = true ↔ found = true ∨ Beats im u v x y) →
          (c = true ↔ ∃ cx cy, xl ≤ cx ∧ cx < xu ∧ yl ≤ cy ∧ cy < yu ∧
            (cy < v ∨ cy = v ∧ cx < u + 1) ∧ Beats im cx cy x y) := by
        intro c hc
        rw [hc, hI]
        constructor
        · rintro (⟨cx, cy, a1, a2, a3, a4, a5, a6⟩ | hb)
          · exact ⟨cx, cy, a1, a2, a3, a4, by omega, a6⟩
          · exact ⟨u, v, hu1, hu2, hv1, hv2, by omega, hb⟩
        · rintro ⟨cx, cy, a1, a2, a3, a4, a5, a6⟩
          by_cases hc : cx = u ∧ cy = v
          · rw [hc.1, hc.2] at a6; exact Or.inr a6
          · exact Or.inl ⟨cx, cy, a1, a2, a3, a4, by omega, a6⟩
      cases found with
      | true => exact ⟨true, rfl, hB true (by simp)⟩
      | false =>
        simp only [Bool.false_eq_true, if_false]
        rw [Image.get_of_inB (by omega) (by omega), Option.bind_some]
        by_cases hb : Beats im u v x y
        · obtain ⟨q1, q2⟩ := step_iff.2 hb
          rw [if_neg q1, if_pos q2]
          exact ⟨true, rfl, hB true (by simp [hb])⟩
        · by_cases q1 : im.px u v < im.px x y
          · rw [if_pos q1]; exact ⟨false, rfl, hB false (by simp [hb])⟩
          · rw [if_neg q1, if_neg (fun q2 => hb (step_iff.1 ⟨q1, q2⟩))]
            exact ⟨false, rfl, hB false (by simp [hb])⟩)
    (by
      rintro v found _ hv hI
      rw [hI]
      constructor
      · rintro ⟨cx, cy, a1, a2, a3, a4, a5, a6⟩; exact ⟨cx, cy, a1, a2, a3, a4, by omega, a6⟩
      · rintro ⟨cx, cy, a1, a2, a3, a4, a5, a6⟩; exact ⟨cx, cy, a1, a2, a3, a4, by omega, a6⟩)
  refine ⟨f, e, h.trans ?_⟩
  constructor
  · rintro ⟨cx, cy, a1, a2, a3, a4, a5, a6⟩; exact ⟨cx, cy, a1, a2, a3, a4, a6⟩
  · rintro ⟨cx, cy, a1, a2, a3, a4, a6⟩; exact ⟨cx, cy, a1, a2, a3, a4, by omega, a6⟩

open Classical in
/-- C29: suppression never fails, keeps the size, and the result is the input at exactly the
window maxima (ties to the lexicographically smallest coordinates) and zero elsewhere. -/
theorem C29_suppress_non_maximum (im : Image α) (zero : α) (r : Nat) :
    ∃ out, suppressNonMaximum im zero r = some out ∧ out.w = im.w ∧ out.h = im.h ∧
      ∀ x y, x < im.w → y < im.h →
        out.px x y = if WindowMax im r x y then im.px x y else zero := by
  unfold suppressNonMaximum
  dsimp only
  by_cases h0 : im.w = 0 ∨ im.h = 0
  · rw [if_pos h0]
    exact ⟨_, rfl, rfl, rfl, by intro x y hx hy; omega⟩
  rw [if_neg h0]
  have hR : 0 < r + 1 := by omega
  refine raster_post (fun S (out : Image α) => out.w = im.w ∧ out.h = im.h ∧
      ∀ x y, x < im.w → y < im.h → out.px x y =
        if (x / (r + 1), y / (r + 1)) ∈ S ∧ WindowMax im r x y then im.px x y else zero)
    ⟨rfl, rfl, ?_⟩ ?_ ?_
  · intro x y _ _; simp [Image.new]
  · rintro kx ky S out hkx hky hnS ⟨h1, h2, h3⟩
    have hxw : kx * (r + 1) < im.w := by
      have := (Nat.lt_div_iff_mul_lt hR).1 hkx
      omega
    have hyh : ky * (r + 1) < im.h := by
      have := (Nat.lt_div_iff_mul_lt hR).1 hky
      omega
    obtain ⟨b, e, hv, hbx, hby, hmax⟩ := blockMax_spec im (kx * (r + 1)) (ky * (r + 1)) r hxw hyh
    rw [e, Option.bind_some, hv]
    -- blocks
    have hblk : ∀ (k a n : Nat), (k * (r + 1) ≤ a ∧ a < min n (k * (r + 1) + r + 1)) ↔
        (a < n ∧ a / (r + 1) = k) := by
      intro k a n
      rw [Nat.div_eq_iff hR]
      have : (k + 1) * (r + 1) = k * (r + 1) + (r + 1) := Nat.succ_mul _ _
      constructor
      · rintro ⟨a1, a2⟩; refine ⟨by omega, by omega, ?_⟩; simp; omega
      · rintro ⟨a1, a2, a3⟩; simp at a3; omega
    have hbx' := (hblk kx b.x im.w).1 hbx
    have hby' := (hblk ky b.y im.h).1 hby
    generalize hX : kx * (r + 1) = X at *
    generalize hY : ky * (r + 1) = Y at *
    obtain ⟨f1, e1, i1⟩ := contains_spec im b.x b.y (b.y - r) Y (b.x - r)
      (min im.w (b.x + r + 1)) (Nat.min_le_left _ _) hyh.le
    obtain ⟨f2, e2, i2⟩ := contains_spec im b.x b.y Y (min im.h (Y + r + 1)) (b.x - r) X
      hxw.le (Nat.min_le_left _ _)
    obtain ⟨f3, e3, i3⟩ := contains_spec im b.x b.y Y (min im.h (Y + r + 1))
      (min im.w (X + r + 1)) (min im.w (b.x + r + 1)) (Nat.min_le_left _ _) (Nat.min_le_left _ _)
    obtain ⟨f4, e4, i4⟩ := contains_spec im b.x b.y (min im.h (Y + r + 1))
      (min im.h (b.y + r + 1)) (b.x - r) (min im.w (b.x + r + 1))
      (Nat.min_le_left _ _) (Nat.min_le_left _ _)
    rw [e1, Option.bind_some, e2, Option.bind_some, e3, Option.bind_some, e4, Option.bind_some]
    have hwin : (!(f1 || f2 || f3 || f4)) = true ↔ WindowMax im r b.x b.y := by
      rw [Bool.not_eq_true', Bool.or_eq_false_iff, Bool.or_eq_false_iff, Bool.or_eq_false_iff,
        ← Bool.not_eq_true, ← Bool.not_eq_true, ← Bool.not_eq_true, ← Bool.not_eq_true,
        i1, i2, i3, i4]
      clear i1 i2 i3 i4
      constructor
      · rintro ⟨⟨⟨n1, n2⟩, n3⟩, n4⟩ a c ha hc w1 w2 w3 w4 hbeat
        by_cases c1 : c < Y
        · exact n1 ⟨a, c, by omega, by omega, by omega, by omega, hbeat⟩
        by_cases c2 : min im.h (Y + r + 1) ≤ c
        · exact n4 ⟨a, c, by omega, by omega, by omega, by omega, hbeat⟩
        by_cases c3 : a < X
        · exact n2 ⟨a, c, by omega, by omega, by omega, by omega, hbeat⟩
        by_cases c4 : min im.w (X + r + 1) ≤ a
        · exact n3 ⟨a, c, by omega, by omega, by omega, by omega, hbeat⟩
        exact hmax a c (by omega) (by omega) (by omega) (by omega) hbeat
      · intro hW
        refine ⟨⟨⟨?_, ?_⟩, ?_⟩, ?_⟩ <;>
        · rintro ⟨a, c, a1, a2, a3, a4, hbeat⟩
          exact hW a c (by omega) (by omega) (by omega) (by omega) (by omega) (by omega) hbeat
    clear i1 i2 i3 i4
    -- pixels of the block other than the best one are not window maxima
    have hother : ∀ a c, a < im.w → c < im.h → a / (r + 1) = kx → c / (r + 1) = ky →
        ¬ (a = b.x ∧ c = b.y) → ¬ WindowMax im r a c := by
      intro a c ha hc qa qc hne hW
      have ra := (hblk kx a im.w).2 ⟨ha, qa⟩
      have rc := (hblk ky c im.h).2 ⟨hc, qc⟩
      rw [hX] at ra
      rw [hY] at rc
      rcases beats_total (im := im) hne with h | h
      · exact hmax a c ra.1 ra.2 rc.1 rc.2 h
      · exact hW b.x b.y (by omega) (by omega) (by omega) (by omega) (by omega) (by omega) h
    by_cases hW : WindowMax im r b.x b.y
    · rw [if_pos (hwin.2 hW), Image.put_of_inB _ (by omega) (by omega)]
      refine ⟨_, rfl, h1, h2, ?_⟩
      intro x y hx hy
      dsimp only
      by_cases hxy : x = b.x ∧ y = b.y
      · rw [if_pos hxy, hxy.1, hxy.2, if_pos]
        refine ⟨?_, hW⟩
        rw [hbx'.2, hby'.2]; exact Finset.mem_insert_self _ _
      · rw [if_neg hxy, h3 x y hx hy]
        by_cases hk : x / (r + 1) = kx ∧ y / (r + 1) = ky
        · have := hother x y hx hy hk.1 hk.2 hxy
          simp [this]
        · simp [hk]
    · rw [if_neg (fun h => hW (hwin.1 h))]
      refine ⟨_, rfl, h1, h2, ?_⟩
      intro x y hx hy
      rw [h3 x y hx hy]
      by_cases hk : x / (r + 1) = kx ∧ y / (r + 1) = ky
      · by_cases hxy : x = b.x ∧ y = b.y
        · rw [hxy.1, hxy.2]; simp [hW]
        · have := hother x y hx hy hk.1 hk.2 hxy
          simp [this]
      · simp [hk]
  · rintro out ⟨h1, h2, h3⟩
    refine ⟨h1, h2, ?_⟩
    intro x y hx hy
    rw [h3 x y hx hy]
    have hm : (x / (r + 1), y / (r + 1)) ∈
        allPx ((im.w + r) / (r + 1)) ((im.h + r) / (r + 1)) := by
      have hlt : ∀ a n, a < n → a / (r + 1) < (n + r) / (r + 1) := by
        intro a n han
        rw [Nat.lt_div_iff_mul_lt hR]
        have := Nat.div_mul_le_self a (r + 1)
        omega
      rw [mem_allPx]
      exact ⟨hlt x im.w hx, hlt y im.h hy⟩
    simp [hm]

example : (suppressNonMaximum (Image.ofRows 0 [[5, 1, 1, 4], [1, 2, 5, 1]]) 0 1).map Image.rows =
    some [[5, 0, 0, 0], [0, 0, 5, 0]] := by decide
-- ties go to the lexicographically smallest (x, y)
example : (suppressNonMaximum (Image.ofRows 0 [[1, 3], [3, 1]]) 0 1).map Image.rows =
    some [[0, 0], [3, 0]] := by decide

end Verif.Suppress
