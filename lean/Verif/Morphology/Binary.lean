import Verif.Morphology.Model
import Verif.Distance.Sweeps
import Verif.Distance.Euclid
import Mathlib.Algebra.Order.Floor.Semiring
import Mathlib.Tactic.Positivity
/- C33: binary dilation, erosion, opening and closing. -/
namespace Verif.Morphology
open Distance

/-! ### Specification -/

/-- `(a, b)` lies within distance `k` of `(x, y)`. -/
def Within (norm : Norm) (k x y a b : Nat) : Prop :=
  match norm with
  | .L1 => ((x : Int) - a).natAbs + ((y : Int) - b).natAbs ≤ k
  | .LInf => ((x : Int) - a).natAbs ≤ k ∧ ((y : Int) - b).natAbs ≤ k
  | .L2 => ((x : Int) - a) ^ 2 + ((y : Int) - b) ^ 2 ≤ (k : Int) ^ 2

theorem within_comm {norm : Norm} {k x y a b : Nat} :
    Within norm k x y a b ↔ Within norm k a b x y := by
  cases norm
  · simp only [Within]; omega
  · simp only [Within]
    rw [show ((x : Int) - a) ^ 2 + ((y : Int) - b) ^ 2 = ((a : Int) - x) ^ 2 + ((b : Int) - y) ^ 2 by
      ring]
  · simp only [Within]; omega

/-- A foreground pixel. -/
def Fg (im : Image Nat) (a b : Nat) : Prop := a < im.w ∧ b < im.h ∧ im.px a b ≠ 0

/-- A background pixel. -/
def Bg (im : Image Nat) (a b : Nat) : Prop := a < im.w ∧ b < im.h ∧ im.px a b = 0

/-! ### Distances against thresholds -/

theorem sqrtCeil_le {m : ℚ} {k : Nat} (hk : k < 255) :
    sqrtCeil (some m) ≤ k ↔ (m : ℝ) ≤ (k : ℝ) ^ 2 := by
  change ⌈min (max (Real.sqrt (m : ℝ)) 0) 255⌉₊ % 256 ≤ k ↔ _
  have hs : (0 : ℝ) ≤ Real.sqrt (m : ℝ) := Real.sqrt_nonneg _
  rw [max_eq_left hs]
  have hle : ⌈min (Real.sqrt (m : ℝ)) 255⌉₊ ≤ 255 := by
    rw [Nat.ceil_le]; push_cast; exact min_le_right _ _
  rw [Nat.mod_eq_of_lt (by omega), Nat.ceil_le, min_le_iff]
  have h255 : ¬ (255 : ℝ) ≤ (k : ℝ) := by
    rw [not_le]; exact_mod_cast hk
  rw [or_iff_left h255, Real.sqrt_le_left (by positivity)]

theorem sqrtCeil_le_255 (v : Option ℚ) : sqrtCeil v ≤ 255 := by
  cases v with
  | none => exact le_refl _
  | some v =>
    unfold sqrtCeil
    exact Nat.lt_succ_iff.1 (Nat.mod_lt _ (by norm_num))

/-- The exact condition under which a distance value is at most `k`. -/
def Hit (norm : Norm) (d : From) (im : Image Nat) (k x y : Nat) : Prop :=
  (∃ a b, Src d im a b ∧ Within norm k x y a b) ∨ k = 255 ∨
    ((¬ ∃ a b, Src d im a b) ∧ norm ≠ .L2 ∧ im.w + im.h ≤ k)

theorem src_flip (im : Image Nat) (a b : Nat) :
    Src .foreground (mapPx (fun p => if p = 0 then 1 else 0) im) a b ↔ Src .background im a b := by
  simp only [Src, mapPx]
  by_cases h : im.px a b = 0 <;> simp [h]

theorem sqDist_within {im : Image Nat} {x y k : Nat} {v : Option ℚ} (hk : k < 255)
    (h : IsSqDist im x y v) :
    sqrtCeil v ≤ k ↔ ∃ a b, Src .foreground im a b ∧ Within .L2 k x y a b := by
  cases v with
  | none =>
    constructor
    · intro h'
      exact absurd h' (by show ¬ 255 ≤ k; omega)
    · rintro ⟨a, b, ⟨ha, hb, hab⟩, -⟩
      exact absurd (h a b ha hb) hab
  | some m =>
    rw [sqrtCeil_le hk]
    obtain ⟨⟨a, b, ha, hb, hab, hm⟩, hmin⟩ := h
    have cast : ∀ c e : Nat, (((((x : ℚ) - c) ^ 2 + ((y : ℚ) - e) ^ 2 : ℚ) : ℝ) ≤ (k : ℝ) ^ 2) ↔
        Within .L2 k x y c e := by
      intro c e
      simp only [Within]
      rw [← @Int.cast_le ℝ]
      push_cast
      rfl
    constructor
    · intro h'
      refine ⟨a, b, ⟨ha, hb, hab⟩, ?_⟩
      rw [← cast, ← hm]; exact h'
    · rintro ⟨c, e, ⟨hc, he, hce⟩, hw⟩
      have h1 := hmin c e hc he hce
      have h2 := (cast c e).2 hw
      have h3 : (m : ℝ) ≤ ((((x : ℚ) - c) ^ 2 + ((y : ℚ) - e) ^ 2 : ℚ) : ℝ) := by exact_mod_cast h1
      exact le_trans h3 h2

theorem distImpl_spec (norm : Norm) (d : From) (im : Image Nat) :
    ∃ r, distImpl norm d im = some r ∧ r.w = im.w ∧ r.h = im.h ∧
      ∀ k x y, k ≤ 255 → x < im.w → y < im.h → (r.px x y ≤ k ↔ Hit norm d im k x y) := by
  have sw : ∀ linf : Bool, ∃ r, sweeps linf d im = some r ∧ r.w = im.w ∧ r.h = im.h ∧
      ∀ k x y, k ≤ 255 → x < im.w → y < im.h → (r.px x y ≤ k ↔
        Hit (if linf then .LInf else .L1) d im k x y) := by
    intro linf
    obtain ⟨r, e, h1, h2, h3, h4⟩ := sweeps_spec linf d im
    refine ⟨r, e, h1, h2, ?_⟩
    intro k x y hk hx hy
    have hdist : ∀ a b, dist linf x y a b ≤ k ↔ Within (if linf then .LInf else .L1) k x y a b := by
      intro a b
      cases linf
      · rfl
      · exact max_le_iff
    have hL2 : (if linf then Norm.LInf else Norm.L1) ≠ Norm.L2 := by cases linf <;> simp
    by_cases hsrc : ∃ a b, Src d im a b
    · obtain ⟨v, ⟨⟨a, b, hs, hd⟩, hmin⟩, hv⟩ := h3 hsrc x y hx hy
      rw [hv]
      constructor
      · intro h
        by_cases hv' : v ≤ k
        · left; exact ⟨a, b, hs, (hdist a b).1 (by rw [hd]; exact hv')⟩
        · right; left; omega
      · rintro (⟨c, e, hs, hw⟩ | h | ⟨h, -⟩)
        · have := hmin c e hs
          have := (hdist c e).2 hw
          omega
        · omega
        · exact absurd hsrc h
    · rw [h4 hsrc x y hx hy]
      constructor
      · intro h
        by_cases hk' : k = 255
        · right; left; exact hk'
        · right; right; exact ⟨hsrc, hL2, by omega⟩
      · rintro (⟨c, e, hs, hw⟩ | h | ⟨-, -, h⟩)
        · exact absurd ⟨c, e, hs⟩ hsrc
        · omega
        · omega
  have l2 : ∀ im : Image Nat, ∃ f, euclideanSquared im = some f ∧
      ∀ k x y, k ≤ 255 → x < im.w → y < im.h → (sqrtCeil (f.px x y) ≤ k ↔
        Hit .L2 .foreground im k x y) := by
    intro im
    obtain ⟨f, e, h1, h2, h3⟩ := C32_exact im
    refine ⟨f, e, ?_⟩
    intro k x y hk hx hy
    by_cases hk' : k = 255
    · have := sqrtCeil_le_255 (f.px x y)
      exact ⟨fun _ => Or.inr (Or.inl hk'), fun _ => by omega⟩
    · rw [sqDist_within (by omega) (h3 x y hx hy)]
      constructor
      · exact Or.inl
      · rintro (h | h | ⟨-, h, -⟩)
        · exact h
        · exact absurd h hk'
        · exact absurd rfl h
  cases norm with
  | L1 => exact sw false
  | LInf => exact sw true
  | L2 =>
    cases d with
    | foreground =>
      obtain ⟨f, e, h⟩ := l2 im
      refine ⟨{ im with px := fun x y => sqrtCeil (f.px x y) }, ?_, rfl, rfl, h⟩
      simp only [distImpl, e]; rfl
    | background =>
      obtain ⟨f, e, h⟩ := l2 (mapPx (fun p => if p = 0 then 1 else 0) im)
      refine ⟨{ im with px := fun x y => sqrtCeil (f.px x y) }, ?_, rfl, rfl, ?_⟩
      · simp only [distImpl, e]; rfl
      · intro k x y hk hx hy
        have := h k x y hk hx hy
        simp only [Hit, src_flip] at this
        exact this

/-! ### C33 -/

/-- C33, exact behaviour of `dilate`: a pixel becomes 255 exactly when a foreground pixel is within
distance `k`, or `k = 255`, or the image has no foreground, the norm is L1 or LInf and
`w + h ≤ k`; all other pixels become 0. -/
theorem C33_dilate_characterised (norm : Norm) (im : Image Nat) (k : Nat) (hk : k ≤ 255) :
    ∃ r, dilate norm k im = some r ∧ r.w = im.w ∧ r.h = im.h ∧
      ∀ x y, x < im.w → y < im.h →
        (r.px x y = 255 ∨ r.px x y = 0) ∧
        (r.px x y = 255 ↔ (∃ a b, Fg im a b ∧ Within norm k x y a b) ∨ k = 255 ∨
          ((¬ ∃ a b, Fg im a b) ∧ norm ≠ .L2 ∧ im.w + im.h ≤ k)) := by
  obtain ⟨r, e, h1, h2, h3⟩ := distImpl_spec norm .foreground im
  refine ⟨mapPx (fun p => if p ≤ k then 255 else 0) r, ?_, h1, h2, ?_⟩
  · unfold dilate; rw [e]; rfl
  · intro x y hx hy
    have := h3 k x y hk hx hy
    change _ ↔ (∃ a b, Fg im a b ∧ Within norm k x y a b) ∨ k = 255 ∨
      ((¬ ∃ a b, Fg im a b) ∧ norm ≠ .L2 ∧ im.w + im.h ≤ k) at this
    rw [← this]
    simp only [mapPx]
    split <;> simp_all

/-- C33, exact behaviour of `erode`. -/
theorem C33_erode_characterised (norm : Norm) (im : Image Nat) (k : Nat) (hk : k ≤ 255) :
    ∃ r, erode norm k im = some r ∧ r.w = im.w ∧ r.h = im.h ∧
      ∀ x y, x < im.w → y < im.h →
        (r.px x y = 255 ∨ r.px x y = 0) ∧
        (r.px x y = 0 ↔ (∃ a b, Bg im a b ∧ Within norm k x y a b) ∨ k = 255 ∨
          ((¬ ∃ a b, Bg im a b) ∧ norm ≠ .L2 ∧ im.w + im.h ≤ k)) := by
  obtain ⟨r, e, h1, h2, h3⟩ := distImpl_spec norm .background im
  refine ⟨mapPx (fun p => if p ≤ k then 0 else 255) r, ?_, h1, h2, ?_⟩
  · unfold erode; rw [e]; rfl
  · intro x y hx hy
    have := h3 k x y hk hx hy
    change _ ↔ (∃ a b, Bg im a b ∧ Within norm k x y a b) ∨ k = 255 ∨
      ((¬ ∃ a b, Bg im a b) ∧ norm ≠ .L2 ∧ im.w + im.h ≤ k) at this
    rw [← this]
    simp only [mapPx]
    split <;> simp_all

/-- The radius is small enough for the documented behaviour. -/
def SmallRadius (norm : Norm) (im : Image Nat) (k : Nat) : Prop :=
  k < 255 ∧ (norm = .L2 ∨ k < im.w + im.h)

/-- C33 for all radii below 255 that are (for L1 and LInf) below `w + h`: `dilate` whitens exactly
the pixels within distance `k` of a foreground pixel.  What is missing from the full claim is false,
see `C33_negation`. -/
theorem C33_dilate_partial (norm : Norm) (im : Image Nat) (k : Nat) (hk : SmallRadius norm im k) :
    ∃ r, dilate norm k im = some r ∧ r.w = im.w ∧ r.h = im.h ∧
      ∀ x y, x < im.w → y < im.h →
        ((∃ a b, Fg im a b ∧ Within norm k x y a b) → r.px x y = 255) ∧
        ((¬ ∃ a b, Fg im a b ∧ Within norm k x y a b) → r.px x y = 0) := by
  obtain ⟨r, e, h1, h2, h3⟩ := C33_dilate_characterised norm im k (by have := hk.1; omega)
  refine ⟨r, e, h1, h2, fun x y hx hy => ?_⟩
  obtain ⟨h4, h5⟩ := h3 x y hx hy
  refine ⟨fun h => h5.2 (Or.inl h), fun h => h4.resolve_left fun h' => ?_⟩
  obtain ⟨hk1, hk2⟩ := hk
  rcases h5.1 h' with h6 | h6 | ⟨-, h6, h7⟩
  · exact h h6
  · omega
  · rcases hk2 with hk2 | hk2
    · exact h6 hk2
    · omega

/-- C33 for all radii below 255 that are (for L1 and LInf) below `w + h`: `erode` blackens exactly
the pixels within distance `k` of a background pixel. -/
theorem C33_erode_partial (norm : Norm) (im : Image Nat) (k : Nat) (hk : SmallRadius norm im k) :
    ∃ r, erode norm k im = some r ∧ r.w = im.w ∧ r.h = im.h ∧
      ∀ x y, x < im.w → y < im.h →
        ((∃ a b, Bg im a b ∧ Within norm k x y a b) → r.px x y = 0) ∧
        ((¬ ∃ a b, Bg im a b ∧ Within norm k x y a b) → r.px x y = 255) := by
  obtain ⟨r, e, h1, h2, h3⟩ := C33_erode_characterised norm im k (by have := hk.1; omega)
  refine ⟨r, e, h1, h2, fun x y hx hy => ?_⟩
  obtain ⟨h4, h5⟩ := h3 x y hx hy
  refine ⟨fun h => h5.2 (Or.inl h), fun h => h4.resolve_right fun h' => ?_⟩
  obtain ⟨hk1, hk2⟩ := hk
  rcases h5.1 h' with h6 | h6 | ⟨-, h6, h7⟩
  · exact h h6
  · omega
  · rcases hk2 with hk2 | hk2
    · exact h6 hk2
    · omega

/-- C33 fails: dilating an all-black 1x1 image with radius 2 in the L1 norm turns it white, although
there is no foreground pixel at all; and eroding a white one turns it black. -/
theorem C33_negation :
    (∃ r, dilate .L1 2 (Image.ofRows 0 [[0]]) = some r ∧ r.px 0 0 = 255 ∧
      ¬ ∃ a b, Fg (Image.ofRows 0 [[0]]) a b ∧ Within .L1 2 0 0 a b) ∧
    (∃ r, erode .LInf 2 (Image.ofRows 0 [[255]]) = some r ∧ r.px 0 0 = 0 ∧
      ¬ ∃ a b, Bg (Image.ofRows 0 [[255]]) a b ∧ Within .LInf 2 0 0 a b) := by
  have no1 : ¬ ∃ a b, Fg (Image.ofRows 0 [[0]]) a b := by
    rintro ⟨a, b, ha, hb, h⟩
    have ha' : a < 1 := ha
    have hb' : b < 1 := hb
    obtain rfl : a = 0 := by omega
    obtain rfl : b = 0 := by omega
    exact h rfl
  have no2 : ¬ ∃ a b, Bg (Image.ofRows 0 [[255]]) a b := by
    rintro ⟨a, b, ha, hb, h⟩
    have ha' : a < 1 := ha
    have hb' : b < 1 := hb
    obtain rfl : a = 0 := by omega
    obtain rfl : b = 0 := by omega
    exact absurd h (by decide)
  constructor
  · obtain ⟨r, e, h1, h2, h3⟩ := C33_dilate_characterised .L1 (Image.ofRows 0 [[0]]) 2 (by omega)
    refine ⟨r, e, ?_, fun ⟨a, b, h, _⟩ => no1 ⟨a, b, h⟩⟩
    exact (h3 0 0 (by decide) (by decide)).2.2
      (Or.inr (Or.inr ⟨no1, by decide, by decide⟩))
  · obtain ⟨r, e, h1, h2, h3⟩ := C33_erode_characterised .LInf (Image.ofRows 0 [[255]]) 2 (by omega)
    refine ⟨r, e, ?_, fun ⟨a, b, h, _⟩ => no2 ⟨a, b, h⟩⟩
    exact (h3 0 0 (by decide) (by decide)).2.2
      (Or.inr (Or.inr ⟨no2, by decide, by decide⟩))

/-- C33 fails at `k = 255` in every norm: any dilation by 255 whitens every pixel, however far. -/
theorem C33_radius_255 (norm : Norm) (im : Image Nat) :
    (∃ r, dilate norm 255 im = some r ∧ ∀ x y, x < im.w → y < im.h → r.px x y = 255) ∧
    (∃ r, erode norm 255 im = some r ∧ ∀ x y, x < im.w → y < im.h → r.px x y = 0) := by
  constructor
  · obtain ⟨r, e, h1, h2, h3⟩ := C33_dilate_characterised norm im 255 (le_refl _)
    exact ⟨r, e, fun x y hx hy => (h3 x y hx hy).2.2 (Or.inr (Or.inl rfl))⟩
  · obtain ⟨r, e, h1, h2, h3⟩ := C33_erode_characterised norm im 255 (le_refl _)
    exact ⟨r, e, fun x y hx hy => (h3 x y hx hy).2.2 (Or.inr (Or.inl rfl))⟩

/-- A concrete use: radius 1 around a single foreground pixel of a 3x1 image. -/
example : ∃ r, dilate .L2 1 (Image.ofRows 0 [[9, 0, 0]]) = some r ∧ r.px 1 0 = 255 ∧
    r.px 2 0 = 0 := by
  obtain ⟨r, e, -, -, h⟩ := C33_dilate_partial .L2 (Image.ofRows 0 [[9, 0, 0]]) 1
    ⟨by omega, Or.inl rfl⟩
  refine ⟨r, e, (h 1 0 (by decide) (by decide)).1 ⟨0, 0, ⟨by decide, by decide, by decide⟩,
    by simp [Within]⟩, (h 2 0 (by decide) (by decide)).2 ?_⟩
  rintro ⟨a, b, ⟨ha, hb, hab⟩, hw⟩
  have ha' : a < 3 := ha
  have hb' : b < 1 := hb
  obtain rfl : b = 0 := by omega
  have : a = 0 ∨ a = 1 ∨ a = 2 := by omega
  rcases this with rfl | rfl | rfl
  · simp [Within] at hw
  · exact hab rfl
  · exact hab rfl

/-- C85: thresholding the L2 distance transform at `k < 255` selects exactly the pixels within
Euclidean distance `k` of a foreground pixel; every value is a byte. -/
theorem C85_l2_threshold (im : Image Nat) :
    ∃ r, distImpl .L2 .foreground im = some r ∧ r.w = im.w ∧ r.h = im.h ∧
      ∀ x y, x < im.w → y < im.h → r.px x y ≤ 255 ∧
        ∀ k, k < 255 → (r.px x y ≤ k ↔
          ∃ a b, Fg im a b ∧ ((x : Int) - a) ^ 2 + ((y : Int) - b) ^ 2 ≤ (k : Int) ^ 2) := by
  obtain ⟨r, e, h1, h2, h3⟩ := distImpl_spec .L2 .foreground im
  refine ⟨r, e, h1, h2, fun x y hx hy => ⟨?_, fun k hk => ?_⟩⟩
  · exact (h3 255 x y (le_refl _) hx hy).2 (Or.inr (Or.inl rfl))
  · rw [h3 k x y (by omega) hx hy]
    constructor
    · rintro (h | h | ⟨-, h, -⟩)
      · exact h
      · omega
      · exact absurd rfl h
    · exact Or.inl

/-! ### C86: opening and closing -/

/-- C86: opening is anti-extensive: a white output pixel was foreground. -/
theorem C86_open_subset (norm : Norm) (im : Image Nat) (k : Nat) (hk : SmallRadius norm im k) :
    ∃ r, openBin norm k im = some r ∧ r.w = im.w ∧ r.h = im.h ∧
      ∀ x y, x < im.w → y < im.h → r.px x y ≠ 0 → im.px x y ≠ 0 := by
  obtain ⟨e, he, e1, e2, e3⟩ := C33_erode_partial norm im k hk
  obtain ⟨r, hr, r1, r2, r3⟩ := C33_dilate_partial norm e k (by
    unfold SmallRadius at hk ⊢; rw [e1, e2]; exact hk)
  refine ⟨r, by unfold openBin; rw [he]; exact hr, r1.trans e1, r2.trans e2, ?_⟩
  intro x y hx hy hne h0
  by_cases h : ∃ a b, Fg e a b ∧ Within norm k x y a b
  · obtain ⟨a, b, ⟨ha, hb, hab⟩, hw⟩ := h
    rw [e1] at ha; rw [e2] at hb
    exact hab ((e3 a b ha hb).1 ⟨x, y, ⟨hx, hy, h0⟩, within_comm.1 hw⟩)
  · exact hne ((r3 x y (by omega) (by omega)).2 h)

/-- C86: closing is extensive: a foreground pixel stays white. -/
theorem C86_close_superset (norm : Norm) (im : Image Nat) (k : Nat) (hk : SmallRadius norm im k) :
    ∃ r, closeBin norm k im = some r ∧ r.w = im.w ∧ r.h = im.h ∧
      ∀ x y, x < im.w → y < im.h → im.px x y ≠ 0 → r.px x y = 255 := by
  obtain ⟨e, he, e1, e2, e3⟩ := C33_dilate_partial norm im k hk
  obtain ⟨r, hr, r1, r2, r3⟩ := C33_erode_partial norm e k (by
    unfold SmallRadius at hk ⊢; rw [e1, e2]; exact hk)
  refine ⟨r, by unfold closeBin; rw [he]; exact hr, r1.trans e1, r2.trans e2, ?_⟩
  intro x y hx hy hne
  refine (r3 x y (by omega) (by omega)).2 ?_
  rintro ⟨a, b, ⟨ha, hb, hab⟩, hw⟩
  rw [e1] at ha; rw [e2] at hb
  have := (e3 a b ha hb).1 ⟨x, y, ⟨hx, hy, hne⟩, within_comm.1 hw⟩
  omega

/-- Pixel sets of the results, in terms of foreground sets only. -/
theorem dilate_fg {norm : Norm} {im : Image Nat} {k : Nat} (hk : SmallRadius norm im k) :
    ∃ r, dilate norm k im = some r ∧ r.w = im.w ∧ r.h = im.h ∧
      (∀ x y, x < im.w → y < im.h → (r.px x y = 255 ∨ r.px x y = 0)) ∧
      ∀ x y, Fg r x y ↔ (x < im.w ∧ y < im.h) ∧ ∃ a b, Fg im a b ∧ Within norm k x y a b := by
  obtain ⟨r, e, h1, h2, h3⟩ := C33_dilate_partial norm im k hk
  refine ⟨r, e, h1, h2, ?_, ?_⟩
  · intro x y hx hy
    by_cases h : ∃ a b, Fg im a b ∧ Within norm k x y a b
    · exact Or.inl ((h3 x y hx hy).1 h)
    · exact Or.inr ((h3 x y hx hy).2 h)
  · intro x y
    unfold Fg
    rw [h1, h2]
    constructor
    · rintro ⟨hx, hy, h⟩
      refine ⟨⟨hx, hy⟩, ?_⟩
      by_contra hc
      exact h ((h3 x y hx hy).2 hc)
    · rintro ⟨⟨hx, hy⟩, h⟩
      refine ⟨hx, hy, ?_⟩
      rw [(h3 x y hx hy).1 h]; decide

theorem erode_fg {norm : Norm} {im : Image Nat} {k : Nat} (hk : SmallRadius norm im k) :
    ∃ r, erode norm k im = some r ∧ r.w = im.w ∧ r.h = im.h ∧
      (∀ x y, x < im.w → y < im.h → (r.px x y = 255 ∨ r.px x y = 0)) ∧
      ∀ x y, Fg r x y ↔ (x < im.w ∧ y < im.h) ∧ ∀ a b, a < im.w → b < im.h →
        Within norm k x y a b → Fg im a b := by
  obtain ⟨r, e, h1, h2, h3⟩ := C33_erode_partial norm im k hk
  refine ⟨r, e, h1, h2, ?_, ?_⟩
  · intro x y hx hy
    by_cases h : ∃ a b, Bg im a b ∧ Within norm k x y a b
    · exact Or.inr ((h3 x y hx hy).1 h)
    · exact Or.inl ((h3 x y hx hy).2 h)
  · intro x y
    unfold Fg
    rw [h1, h2]
    constructor
    · rintro ⟨hx, hy, h⟩
      refine ⟨⟨hx, hy⟩, fun a b ha hb hw => ⟨ha, hb, fun h0 => ?_⟩⟩
      exact h ((h3 x y hx hy).1 ⟨a, b, ⟨ha, hb, h0⟩, hw⟩)
    · rintro ⟨⟨hx, hy⟩, h⟩
      refine ⟨hx, hy, ?_⟩
      rw [(h3 x y hx hy).2]
      · decide
      · rintro ⟨a, b, ⟨ha, hb, h0⟩, hw⟩
        exact (h a b ha hb hw).2.2 h0

theorem same_of_fg {a b : Image Nat} (hw : a.w = b.w) (hh : a.h = b.h)
    (ha : ∀ x y, x < a.w → y < a.h → (a.px x y = 255 ∨ a.px x y = 0))
    (hb : ∀ x y, x < a.w → y < a.h → (b.px x y = 255 ∨ b.px x y = 0))
    (h : ∀ x y, Fg a x y ↔ Fg b x y) : Image.Same a b := by
  refine ⟨hw, hh, fun x y hx hy => ?_⟩
  have h' := h x y
  unfold Fg at h'
  have hx' : x < b.w := hw ▸ hx
  have hy' : y < b.h := hh ▸ hy
  simp only [hx, hy, hx', hy', true_and] at h'
  rcases ha x y hx hy with h1 | h1 <;> rcases hb x y hx hy with h2 | h2 <;> rw [h1, h2] at h' ⊢ <;>
    simp at h'

/-- C86, exact result of the opening: a pixel is white exactly when it lies in a ball of radius `k`
(cut off at the image border) that contains foreground only. -/
theorem C86_open_exact (norm : Norm) (im : Image Nat) (k : Nat) (hk : SmallRadius norm im k) :
    ∃ r, openBin norm k im = some r ∧ r.w = im.w ∧ r.h = im.h ∧
      ∀ x y, x < im.w → y < im.h →
        (r.px x y = 255 ∨ r.px x y = 0) ∧
        (r.px x y = 255 ↔ ∃ a b, a < im.w ∧ b < im.h ∧ Within norm k x y a b ∧
          ∀ c d, c < im.w → d < im.h → Within norm k a b c d → im.px c d ≠ 0) := by
  have hk' : ∀ o : Image Nat, o.w = im.w → o.h = im.h → SmallRadius norm o k := by
    intro o h1 h2; unfold SmallRadius; rw [h1, h2]; exact hk
  obtain ⟨e, he, e1, e2, -, e3⟩ := erode_fg hk
  obtain ⟨r, hr, r1, r2, r0, r3⟩ := dilate_fg (hk' e e1 e2)
  refine ⟨r, by unfold openBin; rw [he]; exact hr, r1.trans e1, r2.trans e2, ?_⟩
  intro x y hx hy
  have h0 := r0 x y (by omega) (by omega)
  refine ⟨h0, ?_⟩
  have h3 := r3 x y
  constructor
  · intro h
    obtain ⟨-, a, b, hab, hw⟩ := h3.1 ⟨by omega, by omega, by omega⟩
    obtain ⟨⟨ha, hb⟩, hin⟩ := (e3 a b).1 hab
    exact ⟨a, b, ha, hb, hw, fun c d hc hd hcd => (hin c d hc hd hcd).2.2⟩
  · rintro ⟨a, b, ha, hb, hw, hin⟩
    have hab : Fg e a b := (e3 a b).2 ⟨⟨ha, hb⟩, fun c d hc hd hcd => ⟨hc, hd, hin c d hc hd hcd⟩⟩
    have := (h3.2 ⟨⟨by omega, by omega⟩, a, b, hab, hw⟩).2.2
    omega

/-- C86, exact result of the closing: a pixel is black exactly when it lies in a ball of radius `k`
(cut off at the image border) that contains background only. -/
theorem C86_close_exact (norm : Norm) (im : Image Nat) (k : Nat) (hk : SmallRadius norm im k) :
    ∃ r, closeBin norm k im = some r ∧ r.w = im.w ∧ r.h = im.h ∧
      ∀ x y, x < im.w → y < im.h →
        (r.px x y = 255 ∨ r.px x y = 0) ∧
        (r.px x y = 0 ↔ ∃ a b, a < im.w ∧ b < im.h ∧ Within norm k x y a b ∧
          ∀ c d, c < im.w → d < im.h → Within norm k a b c d → im.px c d = 0) := by
  have hk' : ∀ o : Image Nat, o.w = im.w → o.h = im.h → SmallRadius norm o k := by
    intro o h1 h2; unfold SmallRadius; rw [h1, h2]; exact hk
  obtain ⟨e, he, e1, e2, -, e3⟩ := dilate_fg hk
  obtain ⟨r, hr, r1, r2, r0, r3⟩ := erode_fg (hk' e e1 e2)
  refine ⟨r, by unfold closeBin; rw [he]; exact hr, r1.trans e1, r2.trans e2, ?_⟩
  intro x y hx hy
  refine ⟨r0 x y (by omega) (by omega), ?_⟩
  have h3 := r3 x y
  constructor
  · intro h
    have : ¬ Fg r x y := fun hf => hf.2.2 h
    rw [h3] at this
    push Not at this
    obtain ⟨a, b, ha, hb, hw, hn⟩ := this ⟨by omega, by omega⟩
    refine ⟨a, b, by omega, by omega, hw, fun c d hc hd hcd => ?_⟩
    by_contra hne
    exact hn ((e3 a b).2 ⟨⟨by omega, by omega⟩, c, d, ⟨hc, hd, hne⟩, hcd⟩)
  · rintro ⟨a, b, ha, hb, hw, hin⟩
    by_contra hne
    have hf := (h3.1 ⟨by omega, by omega, hne⟩).2 a b (by omega) (by omega) hw
    obtain ⟨-, c, d, hcd, hw'⟩ := (e3 a b).1 hf
    exact hcd.2.2 (hin c d hcd.1 hcd.2.1 hw')

example : ((openBin .LInf 1 (Image.ofRows 0 [[0, 7, 7, 7], [0, 7, 7, 7], [0, 7, 7, 7], [9, 0, 0, 0]])).map
    Image.rows) = some [[0, 255, 255, 255], [0, 255, 255, 255], [0, 255, 255, 255], [0, 0, 0, 0]] := by
  decide +kernel

/-- C86: opening twice is opening once. -/
theorem C86_open_idempotent (norm : Norm) (im : Image Nat) (k : Nat) (hk : SmallRadius norm im k) :
    ∃ r s, openBin norm k im = some r ∧ openBin norm k r = some s ∧ Image.Same s r := by
  have hk' : ∀ o : Image Nat, o.w = im.w → o.h = im.h → SmallRadius norm o k := by
    intro o h1 h2; unfold SmallRadius; rw [h1, h2]; exact hk
  obtain ⟨e, he, e1, e2, -, e3⟩ := erode_fg hk
  obtain ⟨r, hr, r1, r2, r0, r3⟩ := dilate_fg (hk' e e1 e2)
  obtain ⟨f, hf, f1, f2, -, f3⟩ := erode_fg (hk' r (r1.trans e1) (r2.trans e2))
  obtain ⟨s, hs, s1, s2, s0, s3⟩ := dilate_fg (hk' f (f1.trans (r1.trans e1))
    (f2.trans (r2.trans e2)))
  refine ⟨r, s, by unfold openBin; rw [he]; exact hr, by unfold openBin; rw [hf]; exact hs, ?_⟩
  refine same_of_fg (s1.trans f1) (s2.trans f2) (fun x y hx hy => s0 x y (s1 ▸ hx) (s2 ▸ hy))
    (fun x y hx hy => r0 x y (by omega) (by omega)) ?_
  intro x y
  rw [s3]
  constructor
  · rintro ⟨⟨hx, hy⟩, a, b, hab, hw⟩
    rw [f3] at hab
    exact hab.2 x y (by omega) (by omega) (within_comm.1 hw)
  · intro h
    have h' := h
    rw [r3] at h
    obtain ⟨⟨hx, hy⟩, a, b, hab, hw⟩ := h
    refine ⟨⟨by omega, by omega⟩, a, b, ?_, hw⟩
    rw [f3]
    refine ⟨⟨by have := hab.1; omega, by have := hab.2.1; omega⟩, ?_⟩
    intro c d hc hd hcd
    rw [r3]
    exact ⟨⟨by omega, by omega⟩, a, b, hab, within_comm.1 hcd⟩

/-- C86: closing twice is closing once. -/
theorem C86_close_idempotent (norm : Norm) (im : Image Nat) (k : Nat)
    (hk : SmallRadius norm im k) :
    ∃ r s, closeBin norm k im = some r ∧ closeBin norm k r = some s ∧ Image.Same s r := by
  have hk' : ∀ o : Image Nat, o.w = im.w → o.h = im.h → SmallRadius norm o k := by
    intro o h1 h2; unfold SmallRadius; rw [h1, h2]; exact hk
  obtain ⟨e, he, e1, e2, -, e3⟩ := dilate_fg hk
  obtain ⟨r, hr, r1, r2, r0, r3⟩ := erode_fg (hk' e e1 e2)
  obtain ⟨f, hf, f1, f2, -, f3⟩ := dilate_fg (hk' r (r1.trans e1) (r2.trans e2))
  obtain ⟨s, hs, s1, s2, s0, s3⟩ := erode_fg (hk' f (f1.trans (r1.trans e1))
    (f2.trans (r2.trans e2)))
  refine ⟨r, s, by unfold closeBin; rw [he]; exact hr, by unfold closeBin; rw [hf]; exact hs, ?_⟩
  refine same_of_fg (s1.trans f1) (s2.trans f2) (fun x y hx hy => s0 x y (s1 ▸ hx) (s2 ▸ hy))
    (fun x y hx hy => r0 x y (by omega) (by omega)) ?_
  intro x y
  rw [s3]
  constructor
  · rintro ⟨⟨hx, hy⟩, h⟩
    rw [r3]
    refine ⟨⟨by omega, by omega⟩, ?_⟩
    intro a b ha hb hw
    have := h a b (by omega) (by omega) hw
    rw [f3] at this
    obtain ⟨-, c, d, hcd, hw'⟩ := this
    rw [r3] at hcd
    exact hcd.2 a b ha hb (within_comm.1 hw')
  · intro h
    refine ⟨⟨by have := h.1; omega, by have := h.2.1; omega⟩, ?_⟩
    intro a b ha hb hw
    rw [f3]
    exact ⟨⟨by omega, by omega⟩, x, y, h, within_comm.1 hw⟩

end Verif.Morphology
