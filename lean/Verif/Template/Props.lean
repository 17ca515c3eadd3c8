import Verif.Template.Model
import Verif.Basic.Raster
import Mathlib.Algebra.Order.BigOperators.Ring.Finset
import Mathlib.Algebra.Order.Ring.Int
import Mathlib.Tactic.Ring
import Mathlib.Tactic.FieldSimp
import Mathlib.Tactic.Linarith
import Mathlib.Tactic.Positivity
/-
Property theorem C67: template matching scores.
-/
namespace Verif.Template
open Finset

/-! ### Specification: sums over the template window -/

section Spec
variable {R : Type _} [CommRing R] (im tpl mask : Image Nat) (x y : Nat)

/-- Sum over all template positions of a term depending on the image, template and mask value. -/
def window (g : R → R → R → R) : R :=
  ∑ dy ∈ range tpl.h, ∑ dx ∈ range tpl.w,
    g (im.px (x + dx) (y + dy)) (tpl.px dx dy) (mask.px dx dy)

end Spec

/-- The image with every pixel equal to one. -/
def ones (w h : Nat) : Image Nat := ⟨w, h, fun _ _ => 1⟩

/-- The documented normalised score: `num / sqrt (a * b)`, or `num` when the root vanishes. -/
noncomputable def quotient (num a b : ℝ) : ℝ := if 0 < a * b then num / Real.sqrt (a * b) else num

/-- The documented score of a method, with a mask. -/
noncomputable def score (m : Method) (im tpl mask : Image Nat) (x y : Nat) : ℝ :=
  let sse := window im tpl mask x y fun i t m => ((t - i) * m) ^ 2
  let cc := window im tpl mask x y fun i t m => t * i * m ^ 2
  let tt := window im tpl mask x y fun _ t m => (t * m) ^ 2
  let ii := window im tpl mask x y fun i _ m => (i * m) ^ 2
  match m with
  | .sse => sse
  | .sseNorm => quotient sse tt ii
  | .ccorr => cc
  | .ccorrNorm => quotient cc tt ii

/-- The image patch under the template equals the template. -/
def Matches (im tpl : Image Nat) (x y : Nat) : Prop :=
  ∀ dx dy, dx < tpl.w → dy < tpl.h → im.px (x + dx) (y + dy) = tpl.px dx dy

/-! ### Loops -/

section Ring
variable {R : Type _} [CommRing R]

theorem slide_spec {M : Type _} [AddCommMonoid M] {im tpl : Image Nat} {x y : Nat}
    {f : Nat → Nat → M → M} (g : Nat → Nat → M) (hf : ∀ i t s, f i t s = s + g i t)
    (hw : 0 < tpl.w) (hh : 0 < tpl.h) (hx : x + tpl.w ≤ im.w) (hy : y + tpl.h ≤ im.h) :
    slide im tpl x y 0 f =
      some (∑ dy ∈ range tpl.h, ∑ dx ∈ range tpl.w, g (im.px (x + dx) (y + dy)) (tpl.px dx dy)) := by
  unfold slide
  rw [csub_of_le (by omega), Option.bind_some, csub_of_le (by omega), Option.bind_some,
    if_pos (by omega), raster_sum (fun dx dy => g (im.px (x + dx) (y + dy)) (tpl.px dx dy)) 0
      (by
        intro dx dy s h1 h2
        rw [Image.get_of_inB (by omega) (by omega), Image.get_of_inB h1 h2, Option.bind_some,
          Option.bind_some, hf]),
    zero_add, sum_allPx tpl.w tpl.h fun dx dy => g (im.px (x + dx) (y + dy)) (tpl.px dx dy)]

theorem slideMask_spec {M : Type _} [AddCommMonoid M] {im tpl mask : Image Nat} {x y : Nat}
    {f : Nat → Nat → Nat → M → M} (g : Nat → Nat → Nat → M) (hf : ∀ i t m s, f i t m s = s + g i t m)
    (hw : 0 < tpl.w) (hh : 0 < tpl.h) (hx : x + tpl.w ≤ im.w) (hy : y + tpl.h ≤ im.h)
    (hm : tpl.w = mask.w) (hm' : tpl.h = mask.h) :
    slideMask im tpl mask x y 0 f =
      some (∑ dy ∈ range tpl.h, ∑ dx ∈ range tpl.w,
        g (im.px (x + dx) (y + dy)) (tpl.px dx dy) (mask.px dx dy)) := by
  unfold slideMask
  rw [csub_of_le (by omega), Option.bind_some, csub_of_le (by omega), Option.bind_some,
    if_pos (by omega), raster_sum
      (fun dx dy => g (im.px (x + dx) (y + dy)) (tpl.px dx dy) (mask.px dx dy)) 0
      (by
        intro dx dy s h1 h2
        rw [Image.get_of_inB (by omega) (by omega), Image.get_of_inB h1 h2,
          Image.get_of_inB (by omega) (by omega), Option.bind_some, Option.bind_some,
          Option.bind_some, hf]),
    zero_add, sum_allPx tpl.w tpl.h
      fun dx dy => g (im.px (x + dx) (y + dy)) (tpl.px dx dy) (mask.px dx dy)]

theorem squareSum_spec (im : Image Nat) :
    squareSum (R := R) im = some (∑ y ∈ range im.h, ∑ x ∈ range im.w, (im.px x y : R) * im.px x y) := by
  unfold squareSum
  rw [raster_sum (fun x y => (im.px x y : R) * im.px x y) 0 (by
      intro x y s hx hy
      rw [Image.get_of_inB hx hy, Option.bind_some]),
    zero_add, sum_allPx im.w im.h fun x y => (im.px x y : R) * im.px x y]

theorem multSquareSum_spec (a b : Image Nat) (hw : a.w = b.w) (hh : a.h = b.h) :
    multSquareSum (R := R) a b =
      some (∑ y ∈ range a.h, ∑ x ∈ range a.w, ((a.px x y : R) * b.px x y) ^ 2) := by
  unfold multSquareSum
  rw [raster_sum (fun x y => ((a.px x y : R) * b.px x y) ^ 2) 0 (by
      intro x y s hx hy
      rw [Image.get_of_inB hx hy, Image.get_of_inB (by omega) (by omega), Option.bind_some,
        Option.bind_some]),
    zero_add, sum_allPx a.w a.h fun x y => ((a.px x y : R) * b.px x y) ^ 2]

/-- **C67.** The plain scores, in any commutative ring: sum of squared differences and sum of
products over the template window. -/
theorem C67_plain (im tpl : Image Nat) (x y : Nat) (hw : 0 < tpl.w) (hh : 0 < tpl.h)
    (hx : x + tpl.w ≤ im.w) (hy : y + tpl.h ≤ im.h) :
    sseAt (R := R) im tpl x y = some (∑ dy ∈ range tpl.h, ∑ dx ∈ range tpl.w,
      ((tpl.px dx dy : R) - im.px (x + dx) (y + dy)) ^ 2) ∧
    ccorrAt (R := R) im tpl x y = some (∑ dy ∈ range tpl.h, ∑ dx ∈ range tpl.w,
      (im.px (x + dx) (y + dy) : R) * tpl.px dx dy) :=
  ⟨slide_spec (fun i t => ((t : R) - i) ^ 2) (fun _ _ _ => rfl) hw hh hx hy,
   slide_spec (fun i t => (i : R) * t) (fun _ _ _ => rfl) hw hh hx hy⟩

end Ring

theorem normalise_eq (num a b : ℝ) : normalise num (a * b) = quotient num a b := by
  unfold normalise quotient
  exact if_congr Real.sqrt_pos rfl rfl

theorem sum2_fst {h w : Nat} (f g : Nat → Nat → ℝ) :
    ∑ y ∈ range h, ∑ x ∈ range w, (f x y, g x y) =
      (∑ y ∈ range h, ∑ x ∈ range w, f x y, ∑ y ∈ range h, ∑ x ∈ range w, g x y) := by
  simp only [Prod.ext_iff, Prod.fst_sum, Prod.snd_sum, and_self]

theorem scoreImage_spec {R : Type _} [Inhabited R] {im tpl : Image Nat}
    {sc : Nat → Nat → Option R} {g : Nat → Nat → R} (hw : tpl.w ≤ im.w) (hh : tpl.h ≤ im.h)
    (hs : ∀ x y, x + tpl.w ≤ im.w → y + tpl.h ≤ im.h → sc x y = some (g x y)) :
    ∃ out, scoreImage im tpl sc = some out ∧ out.w = im.w - tpl.w + 1 ∧ out.h = im.h - tpl.h + 1 ∧
      ∀ x y, x < out.w → y < out.h → out.px x y = g x y := by
  unfold scoreImage
  rw [if_pos ⟨hw, hh⟩, csub_of_le hw, Option.bind_some, csub_of_le hh, Option.bind_some]
  obtain ⟨out, h1, h2, h3, h4⟩ := Image.fromFn_of_some (w := im.w - tpl.w + 1) (h := im.h - tpl.h + 1)
    (f := sc) (g := g) fun x y hx hy => hs x y (by omega) (by omega)
  exact ⟨out, h1, h2, h3, fun x y hx hy => h4 x y (by omega) (by omega)⟩

/-- **C67.** Masked matching never fails on a non-empty template fitting in the image, has
dimensions image minus template plus one, and computes the documented score at each position. -/
theorem C67_masked (im tpl mask : Image Nat) (m : Method) (hw : 0 < tpl.w) (hh : 0 < tpl.h)
    (hiw : tpl.w ≤ im.w) (hih : tpl.h ≤ im.h) (hm : tpl.w = mask.w) (hm' : tpl.h = mask.h) :
    ∃ out, matchTemplateMask im tpl mask m = some out ∧
      out.w = im.w - tpl.w + 1 ∧ out.h = im.h - tpl.h + 1 ∧
      ∀ x y, x < out.w → y < out.h → out.px x y = score m im tpl mask x y := by
  unfold matchTemplateMask
  rw [if_pos ⟨hm, hm'⟩]
  cases m with
  | sse =>
    refine scoreImage_spec hiw hih fun x y hx hy => ?_
    exact slideMask_spec (fun i t m => (((t : ℝ) - i) * m) ^ 2) (fun _ _ _ _ => rfl) hw hh hx hy hm hm'
  | ccorr =>
    refine scoreImage_spec hiw hih fun x y hx hy => ?_
    exact slideMask_spec (fun i t m => (t : ℝ) * i * (m : ℝ) ^ 2) (fun _ _ _ _ => by ring)
      hw hh hx hy hm hm'
  | sseNorm =>
    dsimp only
    rw [multSquareSum_spec tpl mask hm hm', Option.bind_some]
    refine scoreImage_spec hiw hih fun x y hx hy => ?_
    unfold sseNormMaskAt
    rw [show ((0 : ℝ), (0 : ℝ)) = 0 from rfl,
      slideMask_spec (f := fun i t m (s : ℝ × ℝ) =>
          (s.1 + (((t : ℝ) - i) * m) ^ 2, s.2 + ((i : ℝ) * m) ^ 2))
        (fun i t m => ((((t : ℝ) - i) * m) ^ 2, ((i : ℝ) * m) ^ 2)) (fun _ _ _ _ => rfl)
        hw hh hx hy hm hm', Option.map_some]
    rw [sum2_fst (fun dx dy => (((tpl.px dx dy : ℝ) - im.px (x + dx) (y + dy)) * mask.px dx dy) ^ 2)
      (fun dx dy => ((im.px (x + dx) (y + dy) : ℝ) * mask.px dx dy) ^ 2), normalise_eq]
    rfl
  | ccorrNorm =>
    dsimp only
    rw [multSquareSum_spec tpl mask hm hm', Option.bind_some]
    refine scoreImage_spec hiw hih fun x y hx hy => ?_
    unfold ccorrNormMaskAt
    rw [show ((0 : ℝ), (0 : ℝ)) = 0 from rfl,
      slideMask_spec (fun i t m => ((t : ℝ) * i * (m : ℝ) ^ 2, ((i : ℝ) * m) ^ 2))
        (fun _ _ _ _ => by
          refine Prod.ext ?_ rfl
          dsimp only [Prod.fst_add]; ring)
        hw hh hx hy hm hm', Option.map_some]
    rw [sum2_fst (fun dx dy => (tpl.px dx dy : ℝ) * im.px (x + dx) (y + dy) * (mask.px dx dy : ℝ) ^ 2)
      (fun dx dy => ((im.px (x + dx) (y + dy) : ℝ) * mask.px dx dy) ^ 2), normalise_eq]
    rfl

theorem quotient_comm (n a b : ℝ) : quotient n a b = quotient n b a := by
  unfold quotient; rw [mul_comm]

/-- **C67.** Matching without a mask computes the documented scores, which are those of the
all-one mask. -/
theorem C67_unmasked (im tpl : Image Nat) (m : Method) (hw : 0 < tpl.w) (hh : 0 < tpl.h)
    (hiw : tpl.w ≤ im.w) (hih : tpl.h ≤ im.h) :
    ∃ out, matchTemplate im tpl m = some out ∧
      out.w = im.w - tpl.w + 1 ∧ out.h = im.h - tpl.h + 1 ∧
      ∀ x y, x < out.w → y < out.h → out.px x y = score m im tpl (ones tpl.w tpl.h) x y := by
  unfold matchTemplate
  cases m with
  | sse =>
    refine scoreImage_spec hiw hih fun x y hx hy => ?_
    rw [(C67_plain im tpl x y hw hh hx hy).1]
    simp [score, window, ones]
  | ccorr =>
    refine scoreImage_spec hiw hih fun x y hx hy => ?_
    rw [(C67_plain im tpl x y hw hh hx hy).2]
    simp [score, window, ones, mul_comm]
  | sseNorm =>
    dsimp only
    rw [squareSum_spec, Option.bind_some]
    refine scoreImage_spec hiw hih fun x y hx hy => ?_
    unfold sseNormAt
    rw [show ((0 : ℝ), (0 : ℝ)) = 0 from rfl,
      slide_spec (f := fun i t (s : ℝ × ℝ) => (s.1 + ((t : ℝ) - i) ^ 2, s.2 + (i : ℝ) * i))
        (fun i t => ((((t : ℝ) - i)) ^ 2, (i : ℝ) * i)) (fun _ _ _ => rfl)
        hw hh hx hy, Option.map_some]
    rw [sum2_fst (fun dx dy => ((tpl.px dx dy : ℝ) - im.px (x + dx) (y + dy)) ^ 2)
      (fun dx dy => (im.px (x + dx) (y + dy) : ℝ) * im.px (x + dx) (y + dy)), normalise_eq]
    rw [quotient_comm]
    simp [score, window, ones, pow_two]
  | ccorrNorm =>
    dsimp only
    rw [squareSum_spec, Option.bind_some]
    refine scoreImage_spec hiw hih fun x y hx hy => ?_
    unfold ccorrNormAt
    rw [show ((0 : ℝ), (0 : ℝ)) = 0 from rfl,
      slide_spec (f := fun i t (s : ℝ × ℝ) => (s.1 + (i : ℝ) * t, s.2 + (i : ℝ) * i))
        (fun i t => ((i : ℝ) * t, (i : ℝ) * i)) (fun _ _ _ => rfl)
        hw hh hx hy, Option.map_some]
    rw [sum2_fst (fun dx dy => (im.px (x + dx) (y + dy) : ℝ) * tpl.px dx dy)
      (fun dx dy => (im.px (x + dx) (y + dy) : ℝ) * im.px (x + dx) (y + dy)), normalise_eq]
    rw [quotient_comm]
    simp [score, window, ones, pow_two, mul_comm]

/-! ### Parallel variants -/

theorem mapM_range_some {β : Type _} {f : Nat → Option β} {g : Nat → β} (n : Nat)
    (h : ∀ i, i < n → f i = some (g i)) : (List.range n).mapM f = some ((List.range n).map g) := by
  have : ∀ l : List Nat, (∀ i ∈ l, i < n) → l.mapM f = some (l.map g) := by
    intro l
    induction l with
    | nil => intro _; rfl
    | cons a l ih =>
      intro hl
      rw [List.mapM_cons, h a (hl a (by simp)), ih fun i hi => hl i (by simp [hi])]
      rfl
  exact this _ fun i hi => List.mem_range.1 hi

theorem scoreImageParallel_eq {R : Type _} [Inhabited R] {im tpl : Image Nat}
    {sc : Nat → Nat → Option R} {g : Nat → Nat → R} (hw : tpl.w ≤ im.w) (hh : tpl.h ≤ im.h)
    (hs : ∀ x y, x + tpl.w ≤ im.w → y + tpl.h ≤ im.h → sc x y = some (g x y)) :
    ∃ out, scoreImageParallel im tpl sc = some out ∧ out.w = im.w - tpl.w + 1 ∧
      out.h = im.h - tpl.h + 1 ∧ ∀ x y, x < out.w → y < out.h → out.px x y = g x y := by
  unfold scoreImageParallel
  rw [if_pos ⟨hw, hh⟩, csub_of_le hw, Option.bind_some, csub_of_le hh, Option.bind_some]
  rw [mapM_range_some (g := fun y => (List.range (im.w - tpl.w + 1)).map fun x => g x y) _ (by
    intro y hy
    exact mapM_range_some _ fun x hx => hs x y (by omega) (by omega)), Option.bind_some]
  obtain ⟨out, h1, h2, h3, h4⟩ := Image.fromFn_of_some (w := im.w - tpl.w + 1) (h := im.h - tpl.h + 1)
    (f := fun x y => ((List.range (im.h - tpl.h + 1)).map fun y =>
      (List.range (im.w - tpl.w + 1)).map fun x => g x y)[y]?.bind fun r => r[x]?) (g := g)
    (fun x y hx hy => by
      rw [List.getElem?_map, List.getElem?_range hy, Option.map_some, Option.bind_some,
        List.getElem?_map, List.getElem?_range hx, Option.map_some])
  exact ⟨out, h1, h2, h3, fun x y hx hy => h4 x y (by omega) (by omega)⟩

theorem parallel_same {R : Type _} [Inhabited R] {im tpl : Image Nat} {sc : Nat → Nat → Option R}
    {out : Image R} (hw : tpl.w ≤ im.w) (hh : tpl.h ≤ im.h)
    (hs : ∀ x y, x + tpl.w ≤ im.w → y + tpl.h ≤ im.h → ∃ v, sc x y = some v)
    (h : scoreImage im tpl sc = some out) :
    ∃ out', scoreImageParallel im tpl sc = some out' ∧ Image.Same out' out := by
  classical
  have hs' : ∀ x y, x + tpl.w ≤ im.w → y + tpl.h ≤ im.h →
      sc x y = some ((sc x y).getD default) := by
    intro x y hx hy
    obtain ⟨v, hv⟩ := hs x y hx hy
    rw [hv]; rfl
  obtain ⟨o, a1, a2, a3, a4⟩ := scoreImage_spec (g := fun x y => (sc x y).getD default) hw hh hs'
  obtain ⟨o', b1, b2, b3, b4⟩ := scoreImageParallel_eq (g := fun x y => (sc x y).getD default) hw hh hs'
  rw [h] at a1; cases a1
  exact ⟨o', b1, by omega, by omega, fun x y hx hy => by
    rw [b4 x y hx hy, a4 x y (by omega) (by omega)]⟩

/-- **C67.** The parallel versions compute the same images. -/
theorem C67_parallel (im tpl : Image Nat) (m : Method) (hw : 0 < tpl.w) (hh : 0 < tpl.h)
    (hiw : tpl.w ≤ im.w) (hih : tpl.h ≤ im.h) :
    ∃ a b, matchTemplate im tpl m = some a ∧ matchTemplateParallel im tpl m = some b ∧
      Image.Same b a := by
  obtain ⟨out, h1, -⟩ := C67_unmasked im tpl m hw hh hiw hih
  have hsl : ∀ {σ : Type} (s : σ) (f : Nat → Nat → σ → σ) (x y : Nat), x + tpl.w ≤ im.w →
      y + tpl.h ≤ im.h → ∃ v, slide im tpl x y s f = some v := by
    intro σ s f x y hx hy
    unfold slide
    rw [csub_of_le (by omega), Option.bind_some, csub_of_le (by omega), Option.bind_some,
      if_pos (by omega)]
    obtain ⟨v, e, -⟩ := raster_spec (w := tpl.w) (h := tpl.h) (s := s)
      (f := fun dx dy s => (im.get (x + dx) (y + dy)).bind fun i => (tpl.get dx dy).bind fun t =>
        some (f i t s)) (fun _ _ => True) trivial
      (by
        intro dx dy S s h1 h2 _ _
        rw [Image.get_of_inB (by omega) (by omega), Image.get_of_inB h1 h2, Option.bind_some,
          Option.bind_some]
        exact ⟨_, rfl, trivial⟩)
    exact ⟨v, e⟩
  refine ⟨out, ?_⟩
  cases m with
  | sse =>
    obtain ⟨b, e, hb⟩ := parallel_same hiw hih (fun x y hx hy => hsl _ _ x y hx hy) h1
    exact ⟨b, h1, e, hb⟩
  | ccorr =>
    obtain ⟨b, e, hb⟩ := parallel_same hiw hih (fun x y hx hy => hsl _ _ x y hx hy) h1
    exact ⟨b, h1, e, hb⟩
  | sseNorm =>
    have h2 := h1
    unfold matchTemplate at h2
    dsimp only at h2
    rw [squareSum_spec, Option.bind_some] at h2
    obtain ⟨b, e, hb⟩ := parallel_same hiw hih (fun x y hx hy => by
      unfold sseNormAt
      obtain ⟨v, hv⟩ := hsl ((0 : ℝ), (0 : ℝ)) (fun i t s =>
        (s.1 + ((t : ℝ) - i) ^ 2, s.2 + (i : ℝ) * i)) x y hx hy
      rw [hv]; exact ⟨_, rfl⟩) h2
    refine ⟨b, h1, ?_, hb⟩
    unfold matchTemplateParallel
    dsimp only
    rw [squareSum_spec, Option.bind_some]
    exact e
  | ccorrNorm =>
    have h2 := h1
    unfold matchTemplate at h2
    dsimp only at h2
    rw [squareSum_spec, Option.bind_some] at h2
    obtain ⟨b, e, hb⟩ := parallel_same hiw hih (fun x y hx hy => by
      unfold ccorrNormAt
      obtain ⟨v, hv⟩ := hsl ((0 : ℝ), (0 : ℝ)) (fun i t s =>
        (s.1 + (i : ℝ) * t, s.2 + (i : ℝ) * i)) x y hx hy
      rw [hv]; exact ⟨_, rfl⟩) h2
    refine ⟨b, h1, ?_, hb⟩
    unfold matchTemplateParallel
    dsimp only
    rw [squareSum_spec, Option.bind_some]
    exact e

/-- **C67.** The parallel versions with a mask compute the same scores. -/
theorem C67_parallel_masked (im tpl mask : Image Nat) (m : Method) (hw : 0 < tpl.w) (hh : 0 < tpl.h)
    (hiw : tpl.w ≤ im.w) (hih : tpl.h ≤ im.h) (hm : tpl.w = mask.w) (hm' : tpl.h = mask.h) :
    ∃ out, matchTemplateMaskParallel im tpl mask m = some out ∧
      out.w = im.w - tpl.w + 1 ∧ out.h = im.h - tpl.h + 1 ∧
      ∀ x y, x < out.w → y < out.h → out.px x y = score m im tpl mask x y := by
  unfold matchTemplateMaskParallel
  rw [if_pos ⟨hm, hm'⟩]
  cases m with
  | sse =>
    refine scoreImageParallel_eq hiw hih fun x y hx hy => ?_
    exact slideMask_spec (fun i t m => (((t : ℝ) - i) * m) ^ 2) (fun _ _ _ _ => rfl) hw hh hx hy hm hm'
  | ccorr =>
    refine scoreImageParallel_eq hiw hih fun x y hx hy => ?_
    exact slideMask_spec (fun i t m => (t : ℝ) * i * (m : ℝ) ^ 2) (fun _ _ _ _ => by ring)
      hw hh hx hy hm hm'
  | sseNorm =>
    dsimp only
    rw [multSquareSum_spec tpl mask hm hm', Option.bind_some]
    refine scoreImageParallel_eq hiw hih fun x y hx hy => ?_
    unfold sseNormMaskAt
    rw [show ((0 : ℝ), (0 : ℝ)) = 0 from rfl,
      slideMask_spec (f := fun i t m (s : ℝ × ℝ) =>
          (s.1 + (((t : ℝ) - i) * m) ^ 2, s.2 + ((i : ℝ) * m) ^ 2))
        (fun i t m => ((((t : ℝ) - i) * m) ^ 2, ((i : ℝ) * m) ^ 2)) (fun _ _ _ _ => rfl)
        hw hh hx hy hm hm', Option.map_some]
    rw [sum2_fst (fun dx dy => (((tpl.px dx dy : ℝ) - im.px (x + dx) (y + dy)) * mask.px dx dy) ^ 2)
      (fun dx dy => ((im.px (x + dx) (y + dy) : ℝ) * mask.px dx dy) ^ 2), normalise_eq]
    rfl
  | ccorrNorm =>
    dsimp only
    rw [multSquareSum_spec tpl mask hm hm', Option.bind_some]
    refine scoreImageParallel_eq hiw hih fun x y hx hy => ?_
    unfold ccorrNormMaskAt
    rw [show ((0 : ℝ), (0 : ℝ)) = 0 from rfl,
      slideMask_spec (fun i t m => ((t : ℝ) * i * (m : ℝ) ^ 2, ((i : ℝ) * m) ^ 2))
        (fun _ _ _ _ => by
          refine Prod.ext ?_ rfl
          dsimp only [Prod.fst_add]; ring)
        hw hh hx hy hm hm', Option.map_some]
    rw [sum2_fst (fun dx dy => (tpl.px dx dy : ℝ) * im.px (x + dx) (y + dy) * (mask.px dx dy : ℝ) ^ 2)
      (fun dx dy => ((im.px (x + dx) (y + dy) : ℝ) * mask.px dx dy) ^ 2), normalise_eq]
    rfl

/-! ### Consequences -/

theorem sum2_eq_zero {h w : Nat} (f : Nat → Nat → ℝ) (hf : ∀ x y, 0 ≤ f x y) :
    ∑ y ∈ range h, ∑ x ∈ range w, f x y = 0 ↔ ∀ x y, x < w → y < h → f x y = 0 := by
  rw [sum_eq_zero_iff_of_nonneg fun y _ => sum_nonneg fun x _ => hf x y]
  constructor
  · intro k x y hx hy
    have := k y (mem_range.2 hy)
    rw [sum_eq_zero_iff_of_nonneg fun x _ => hf x y] at this
    exact this x (mem_range.2 hx)
  · intro k y hy
    exact sum_eq_zero fun x hx => k x y (mem_range.1 hx) (mem_range.1 hy)

theorem quotient_eq_zero (n a b : ℝ) : quotient n a b = 0 ↔ n = 0 := by
  unfold quotient
  split
  · rename_i h
    rw [div_eq_zero_iff]
    have : Real.sqrt (a * b) ≠ 0 := (Real.sqrt_pos.2 h).ne'
    simp [this]
  · rfl

/-- **C67.** The masked squared-error scores (plain and normalised) are zero exactly when the
image agrees with the template wherever the mask is not zero. -/
theorem C67_zero_masked (im tpl mask : Image Nat) (x y : Nat) :
    (score .sse im tpl mask x y = 0 ↔ ∀ dx dy, dx < tpl.w → dy < tpl.h → mask.px dx dy ≠ 0 →
      im.px (x + dx) (y + dy) = tpl.px dx dy) ∧
    (score .sseNorm im tpl mask x y = 0 ↔ ∀ dx dy, dx < tpl.w → dy < tpl.h → mask.px dx dy ≠ 0 →
      im.px (x + dx) (y + dy) = tpl.px dx dy) := by
  have key : window im tpl mask x y (fun i t m => ((t - i) * m) ^ 2 : ℝ → ℝ → ℝ → ℝ) = 0 ↔
      ∀ dx dy, dx < tpl.w → dy < tpl.h → mask.px dx dy ≠ 0 →
      im.px (x + dx) (y + dy) = tpl.px dx dy := by
    unfold window
    rw [sum2_eq_zero _ fun x y => sq_nonneg _]
    refine forall_congr' fun dx => forall_congr' fun dy => forall_congr' fun _ =>
      forall_congr' fun _ => ?_
    rw [pow_eq_zero_iff (by decide), mul_eq_zero, sub_eq_zero, Nat.cast_inj, Nat.cast_eq_zero]
    constructor
    · rintro (h | h) hm
      · exact h.symm
      · exact absurd h hm
    · intro h
      by_cases hm : mask.px dx dy = 0
      · exact Or.inr hm
      · exact Or.inl (h hm).symm
  refine ⟨key, ?_⟩
  unfold score
  dsimp only
  rw [quotient_eq_zero]
  exact key

/-- **C67.** Without a mask the squared-error scores are zero exactly at the exact matches. -/
theorem C67_zero (im tpl : Image Nat) (x y : Nat) :
    (score .sse im tpl (ones tpl.w tpl.h) x y = 0 ↔ Matches im tpl x y) ∧
    (score .sseNorm im tpl (ones tpl.w tpl.h) x y = 0 ↔ Matches im tpl x y) := by
  have h := C67_zero_masked im tpl (ones tpl.w tpl.h) x y
  simpa [ones, Matches] using h

/-- **C67.** All four scores are non-negative. -/
theorem C67_nonneg (m : Method) (im tpl mask : Image Nat) (x y : Nat) :
    0 ≤ score m im tpl mask x y := by
  have h1 : 0 ≤ window im tpl mask x y (fun i t m => ((t - i) * m) ^ 2 : ℝ → ℝ → ℝ → ℝ) :=
    sum_nonneg fun _ _ => sum_nonneg fun _ _ => sq_nonneg _
  have h2 : 0 ≤ window im tpl mask x y (fun i t m => t * i * m ^ 2 : ℝ → ℝ → ℝ → ℝ) :=
    sum_nonneg fun _ _ => sum_nonneg fun _ _ => by positivity
  have hq : ∀ n a b : ℝ, 0 ≤ n → 0 ≤ quotient n a b := by
    intro n a b hn
    unfold quotient
    split
    · exact div_nonneg hn (Real.sqrt_nonneg _)
    · exact hn
  cases m with
  | sse => exact h1
  | ccorr => exact h2
  | sseNorm => exact hq _ _ _ h1
  | ccorrNorm => exact hq _ _ _ h2

theorem sum2_prod {h w : Nat} (f : Nat → Nat → ℝ) :
    ∑ y ∈ range h, ∑ x ∈ range w, f x y = ∑ p ∈ allPx w h, f p.1 p.2 := (sum_allPx w h f).symm

theorem window_cauchy (im tpl mask : Image Nat) (x y : Nat) :
    (window im tpl mask x y (fun i t m => t * i * m ^ 2 : ℝ → ℝ → ℝ → ℝ)) ^ 2 ≤
      window im tpl mask x y (fun _ t m => (t * m) ^ 2 : ℝ → ℝ → ℝ → ℝ) *
        window im tpl mask x y (fun i _ m => (i * m) ^ 2 : ℝ → ℝ → ℝ → ℝ) := by
  unfold window
  rw [sum2_prod (fun dx dy => (tpl.px dx dy : ℝ) * im.px (x + dx) (y + dy) * (mask.px dx dy : ℝ) ^ 2),
    sum2_prod (fun dx dy => ((tpl.px dx dy : ℝ) * mask.px dx dy) ^ 2),
    sum2_prod (fun dx dy => ((im.px (x + dx) (y + dy) : ℝ) * mask.px dx dy) ^ 2)]
  refine le_trans (le_of_eq ?_) (sum_mul_sq_le_sq_mul_sq (allPx tpl.w tpl.h)
    (fun p => (tpl.px p.1 p.2 : ℝ) * mask.px p.1 p.2)
    (fun p => (im.px (x + p.1) (y + p.2) : ℝ) * mask.px p.1 p.2))
  congr 1
  exact sum_congr rfl fun p _ => by ring

/-- **C67.** The normalised cross-correlation lies between zero and one. -/
theorem C67_bound (im tpl mask : Image Nat) (x y : Nat) :
    0 ≤ score .ccorrNorm im tpl mask x y ∧ score .ccorrNorm im tpl mask x y ≤ 1 := by
  refine ⟨C67_nonneg _ _ _ _ _ _, ?_⟩
  have hc := window_cauchy im tpl mask x y
  unfold score
  dsimp only
  generalize window im tpl mask x y (fun i t m => t * i * m ^ 2 : ℝ → ℝ → ℝ → ℝ) = n at *
  generalize window im tpl mask x y (fun _ t m => (t * m) ^ 2 : ℝ → ℝ → ℝ → ℝ) = a at *
  generalize window im tpl mask x y (fun i _ m => (i * m) ^ 2 : ℝ → ℝ → ℝ → ℝ) = b at *
  unfold quotient
  split
  · rename_i h
    rw [div_le_one (Real.sqrt_pos.2 h)]
    exact Real.le_sqrt_of_sq_le hc
  · nlinarith

/-- **C67.** The normalised cross-correlation is one exactly when, on the mask, the image patch
is a positive multiple of the template and neither vanishes there. -/
theorem C67_one (im tpl mask : Image Nat) (x y : Nat) :
    score .ccorrNorm im tpl mask x y = 1 ↔
      ∃ c : ℝ, 0 < c ∧ (∀ dx dy, dx < tpl.w → dy < tpl.h → mask.px dx dy ≠ 0 →
        (im.px (x + dx) (y + dy) : ℝ) = c * tpl.px dx dy) ∧
        ∃ dx dy, dx < tpl.w ∧ dy < tpl.h ∧ mask.px dx dy ≠ 0 ∧ tpl.px dx dy ≠ 0 := by
  have hc := window_cauchy im tpl mask x y
  have hn0 : 0 ≤ window im tpl mask x y (fun i t m => t * i * m ^ 2 : ℝ → ℝ → ℝ → ℝ) :=
    sum_nonneg fun _ _ => sum_nonneg fun _ _ => by positivity
  have ha0 : 0 ≤ window im tpl mask x y (fun _ t m => (t * m) ^ 2 : ℝ → ℝ → ℝ → ℝ) :=
    sum_nonneg fun _ _ => sum_nonneg fun _ _ => by positivity
  have hb0 : 0 ≤ window im tpl mask x y (fun i _ m => (i * m) ^ 2 : ℝ → ℝ → ℝ → ℝ) :=
    sum_nonneg fun _ _ => sum_nonneg fun _ _ => by positivity
  -- the polynomial identity behind the equality case
  have hid : ∀ p q : ℝ, ∑ dy ∈ range tpl.h, ∑ dx ∈ range tpl.w,
      ((im.px (x + dx) (y + dy) : ℝ) * mask.px dx dy * p - (tpl.px dx dy : ℝ) * mask.px dx dy * q) ^ 2 =
      p ^ 2 * window im tpl mask x y (fun i _ m => (i * m) ^ 2 : ℝ → ℝ → ℝ → ℝ) -
      2 * (p * q) * window im tpl mask x y (fun i t m => t * i * m ^ 2 : ℝ → ℝ → ℝ → ℝ) +
      q ^ 2 * window im tpl mask x y (fun _ t m => (t * m) ^ 2 : ℝ → ℝ → ℝ → ℝ) := by
    intro p q
    unfold window
    simp only [mul_sum, ← sum_sub_distrib, ← sum_add_distrib]
    exact sum_congr rfl fun dy _ => sum_congr rfl fun dx _ => by ring
  constructor
  · intro h
    unfold score at h
    dsimp only at h
    set n := window im tpl mask x y (fun i t m => t * i * m ^ 2 : ℝ → ℝ → ℝ → ℝ) with hn
    set a := window im tpl mask x y (fun _ t m => (t * m) ^ 2 : ℝ → ℝ → ℝ → ℝ) with ha
    set b := window im tpl mask x y (fun i _ m => (i * m) ^ 2 : ℝ → ℝ → ℝ → ℝ) with hb
    unfold quotient at h
    by_cases hab : 0 < a * b
    · rw [if_pos hab, div_eq_one_iff_eq (Real.sqrt_pos.2 hab).ne'] at h
      have hnn : n ^ 2 = a * b := by rw [h, Real.sq_sqrt hab.le]
      have hap : 0 < a := by
        rcases ha0.lt_or_eq with h' | h'
        · exact h'
        · rw [← h', zero_mul] at hab; exact absurd hab (lt_irrefl _)
      have hnp : 0 < n := by
        rcases hn0.lt_or_eq with h' | h'
        · exact h'
        · rw [← h', pow_two, zero_mul] at hnn; rw [← hnn] at hab; exact absurd hab (lt_irrefl _)
      have hz := hid a n
      have hz0 : a ^ 2 * b - 2 * (a * n) * n + n ^ 2 * a = 0 := by
        have : a ^ 2 * b = a * n ^ 2 := by rw [hnn]; ring
        rw [this]; ring
      rw [hz0, sum2_eq_zero _ fun _ _ => sq_nonneg _] at hz
      refine ⟨n / a, div_pos hnp hap, fun dx dy h1 h2 hm => ?_, ?_⟩
      · have := hz dx dy h1 h2
        rw [pow_eq_zero_iff (by decide), sub_eq_zero] at this
        have hm' : (mask.px dx dy : ℝ) ≠ 0 := by exact_mod_cast hm
        have h3 : (im.px (x + dx) (y + dy) : ℝ) * a = tpl.px dx dy * n := by
          have h4 : (mask.px dx dy : ℝ) * ((im.px (x + dx) (y + dy) : ℝ) * a) =
              mask.px dx dy * (tpl.px dx dy * n) := by linarith
          exact mul_left_cancel₀ hm' h4
        rw [div_mul_eq_mul_div, eq_div_iff hap.ne', h3]; ring
      · by_contra hcon
        push Not at hcon
        have : a = 0 := by
          rw [ha]
          unfold window
          rw [sum2_eq_zero _ fun _ _ => sq_nonneg _]
          intro dx dy h1 h2
          by_cases hm : mask.px dx dy = 0
          · simp [hm]
          · simp [hcon dx dy h1 h2 hm]
        exact hap.ne' this
    · rw [if_neg hab] at h
      have : a * b ≤ 0 := not_lt.1 hab
      rw [h] at hc
      linarith
  · rintro ⟨c, hcp, hmul, dx0, dy0, h1, h2, h3, h4⟩
    have e1 : window im tpl mask x y (fun i t m => t * i * m ^ 2 : ℝ → ℝ → ℝ → ℝ) =
        c * window im tpl mask x y (fun _ t m => (t * m) ^ 2 : ℝ → ℝ → ℝ → ℝ) := by
      unfold window
      rw [mul_sum]
      refine sum_congr rfl fun dy hy => ?_
      rw [mul_sum]
      refine sum_congr rfl fun dx hx => ?_
      by_cases hm : mask.px dx dy = 0
      · simp [hm]
      · rw [hmul dx dy (mem_range.1 hx) (mem_range.1 hy) hm]; ring
    have e2 : window im tpl mask x y (fun i _ m => (i * m) ^ 2 : ℝ → ℝ → ℝ → ℝ) =
        c ^ 2 * window im tpl mask x y (fun _ t m => (t * m) ^ 2 : ℝ → ℝ → ℝ → ℝ) := by
      unfold window
      rw [mul_sum]
      refine sum_congr rfl fun dy hy => ?_
      rw [mul_sum]
      refine sum_congr rfl fun dx hx => ?_
      by_cases hm : mask.px dx dy = 0
      · simp [hm]
      · rw [hmul dx dy (mem_range.1 hx) (mem_range.1 hy) hm]; ring
    have hap : 0 < window im tpl mask x y (fun _ t m => (t * m) ^ 2 : ℝ → ℝ → ℝ → ℝ) := by
      rcases ha0.lt_or_eq with h' | h'
      · exact h'
      · have hz := h'.symm
        unfold window at hz
        rw [sum2_eq_zero _ fun _ _ => sq_nonneg _] at hz
        have := hz dx0 dy0 h1 h2
        rw [pow_eq_zero_iff (by decide), mul_eq_zero, Nat.cast_eq_zero, Nat.cast_eq_zero] at this
        exact absurd this (by tauto)
    unfold score
    dsimp only
    rw [e1, e2]
    generalize window im tpl mask x y (fun _ t m => (t * m) ^ 2 : ℝ → ℝ → ℝ → ℝ) = a at *
    unfold quotient
    rw [if_pos (by positivity), show a * (c ^ 2 * a) = (c * a) ^ 2 by ring,
      Real.sqrt_sq (by positivity), div_self (by positivity)]

/-- **C67.** A template larger than the image, or a mask of other dimensions than the template,
is rejected. -/
theorem C67_reject (im tpl mask : Image Nat) (m : Method) :
    (im.w < tpl.w ∨ im.h < tpl.h → matchTemplate im tpl m = none ∧ matchTemplateMask im tpl mask m = none) ∧
    (tpl.w ≠ mask.w ∨ tpl.h ≠ mask.h → matchTemplateMask im tpl mask m = none) := by
  have hs : ∀ {R : Type} [Inhabited R] (sc : Nat → Nat → Option R), im.w < tpl.w ∨ im.h < tpl.h →
      scoreImage im tpl sc = none := by
    intro R _ sc h
    unfold scoreImage
    rw [if_neg (by omega)]
  constructor
  · intro h
    constructor
    · unfold matchTemplate
      cases m <;> dsimp only <;> simp only [hs _ h, Option.bind_fun_none]
    · unfold matchTemplateMask
      split
      · cases m <;> dsimp only <;> simp only [hs _ h, Option.bind_fun_none]
      · rfl
  · intro h
    unfold matchTemplateMask
    rw [if_neg (by omega)]

/-- **C67.** An empty template is not supported: the window computation underflows. -/
theorem C67_empty (im tpl : Image Nat) (h : tpl.w = 0) : sseAt (R := ℤ) im tpl 0 0 = none := by
  unfold sseAt slide
  rw [h]; rfl

example : (scoreImage (Image.ofRows 0 [[1, 4, 2], [2, 1, 3], [3, 3, 4]]) (Image.ofRows 0 [[1, 4], [2, 1]])
    (sseAt (R := ℤ) (Image.ofRows 0 [[1, 4, 2], [2, 1, 3], [3, 3, 4]])
      (Image.ofRows 0 [[1, 4], [2, 1]]))).map Image.rows = some [[0, 18], [15, 11]] := by
  decide +kernel

example : score .ccorrNorm (Image.ofRows 0 [[2, 4], [6, 2]]) (Image.ofRows 0 [[1, 2], [3, 1]])
    (ones 2 2) 0 0 = 1 := by
  rw [C67_one]
  refine ⟨2, by norm_num, ?_, 0, 0, by decide, by decide, by decide, by decide⟩
  intro dx dy h1 h2 _
  have h1 : dx < 2 := h1
  have h2 : dy < 2 := h2
  have : (Image.ofRows 0 [[2, 4], [6, 2]]).px (0 + dx) (0 + dy) =
      2 * (Image.ofRows 0 [[1, 2], [3, 1]]).px dx dy := by
    rcases (by omega : dx = 0 ∨ dx = 1) with rfl | rfl <;>
      rcases (by omega : dy = 0 ∨ dy = 1) with rfl | rfl <;> rfl
  rw [this]; push_cast; ring

end Verif.Template
