import Verif.Basic.Image
import Mathlib.Analysis.Real.Sqrt
/-
Model of `/repo/src/template_matching.rs`.  Pixels are natural numbers (`u8`); scores are exact:
elements of a commutative ring for the plain methods, real numbers for the normalised ones (the
code computes in `f32`).  `x + template.width() - 1` in the debug assertions is a checked
subtraction.
-/
namespace Verif.Template

/-- `ImageTemplate::slide_window_at`, template_matching.rs:421-433 (`for_each` is `f`, the
captured accumulator is `s`; an unchecked access outside the image is `none`). -/
def slide {σ : Type _} (im tpl : Image Nat) (x y : Nat) (s : σ) (f : Nat → Nat → σ → σ) : Option σ :=
  (csub (x + tpl.w) 1).bind fun a => (csub (y + tpl.h) 1).bind fun b =>
  if a < im.w ∧ b < im.h then
    forYX 0 tpl.h 0 tpl.w s fun dx dy s =>
      (im.get (x + dx) (y + dy)).bind fun i => (tpl.get dx dy).bind fun t => some (f i t s)
  else none

/-- `ImageTemplateMask::slide_window_at`, template_matching.rs:457-471. -/
def slideMask {σ : Type _} (im tpl mask : Image Nat) (x y : Nat) (s : σ)
    (f : Nat → Nat → Nat → σ → σ) : Option σ :=
  (csub (x + tpl.w) 1).bind fun a => (csub (y + tpl.h) 1).bind fun b =>
  if a < im.w ∧ b < im.h then
    forYX 0 tpl.h 0 tpl.w s fun dx dy s =>
      (im.get (x + dx) (y + dy)).bind fun i => (tpl.get dx dy).bind fun t =>
      (mask.get dx dy).bind fun m => some (f i t m s)
  else none

section Ring
variable {R : Type _} [CommRing R]

/-- `Sse::score_at`, template_matching.rs:219-227. -/
def sseAt (im tpl : Image Nat) (x y : Nat) : Option R :=
  slide im tpl x y 0 fun i t s => s + ((t : R) - i) ^ 2

/-- `Ccorr::score_at`, template_matching.rs:264-272. -/
def ccorrAt (im tpl : Image Nat) (x y : Nat) : Option R :=
  slide im tpl x y 0 fun i t s => s + (i : R) * t

/-- `SseWithMask::score_at`, template_matching.rs:309-317. -/
def sseMaskAt (im tpl mask : Image Nat) (x y : Nat) : Option R :=
  slideMask im tpl mask x y 0 fun i t m s => s + (((t : R) - i) * m) ^ 2

/-- `CcorrWithMask::score_at`, template_matching.rs:354-362. -/
def ccorrMaskAt (im tpl mask : Image Nat) (x y : Nat) : Option R :=
  slideMask im tpl mask x y 0 fun i t m s => s + (t : R) * i * m * m

/-- `square_sum`, template_matching.rs:394-396, as a raster loop. -/
def squareSum (im : Image Nat) : Option R :=
  forYX 0 im.h 0 im.w 0 fun x y s => (im.get x y).bind fun v => some (s + (v : R) * v)

/-- `mult_square_sum`, template_matching.rs:397-402, for images of equal dimensions. -/
def multSquareSum (a b : Image Nat) : Option R :=
  forYX 0 a.h 0 a.w 0 fun x y s =>
    (a.get x y).bind fun v => (b.get x y).bind fun u => some (s + ((v : R) * u) ^ 2)

end Ring

/-- The division by the norm shared by the normalised methods, template_matching.rs:249-254,
294-299, 340-345, 385-390. -/
noncomputable def normalise (score n : ℝ) : ℝ :=
  if Real.sqrt n > 0 then score / Real.sqrt n else score

/-- `SseNormalized`, template_matching.rs:230-256; `tss` is the value computed by `init`. -/
noncomputable def sseNormAt (tss : ℝ) (im tpl : Image Nat) (x y : Nat) : Option ℝ :=
  (slide im tpl x y ((0 : ℝ), (0 : ℝ)) fun i t s =>
    (s.1 + ((t : ℝ) - i) ^ 2, s.2 + (i : ℝ) * i)).map fun s => normalise s.1 (s.2 * tss)

/-- `CcorrNormalized`, template_matching.rs:275-301. -/
noncomputable def ccorrNormAt (tss : ℝ) (im tpl : Image Nat) (x y : Nat) : Option ℝ :=
  (slide im tpl x y ((0 : ℝ), (0 : ℝ)) fun i t s =>
    (s.1 + (i : ℝ) * t, s.2 + (i : ℝ) * i)).map fun s => normalise s.1 (s.2 * tss)

/-- `SseNormalizedWithMask`, template_matching.rs:320-347. -/
noncomputable def sseNormMaskAt (tss : ℝ) (im tpl mask : Image Nat) (x y : Nat) : Option ℝ :=
  (slideMask im tpl mask x y ((0 : ℝ), (0 : ℝ)) fun i t m s =>
    (s.1 + (((t : ℝ) - i) * m) ^ 2, s.2 + ((i : ℝ) * m) ^ 2)).map fun s => normalise s.1 (tss * s.2)

/-- `CcorrNormalizedWithMask`, template_matching.rs:365-392. -/
noncomputable def ccorrNormMaskAt (tss : ℝ) (im tpl mask : Image Nat) (x y : Nat) : Option ℝ :=
  (slideMask im tpl mask x y ((0 : ℝ), (0 : ℝ)) fun i t m s =>
    (s.1 + (t : ℝ) * i * m * m, s.2 + ((i : ℝ) * m) ^ 2)).map fun s => normalise s.1 (tss * s.2)

/-- `MatchTemplateMethod`, template_matching.rs:8-64. -/
inductive Method | sse | sseNorm | ccorr | ccorrNorm

/-- The assertions of `ImageTemplate::new` (template_matching.rs:410-420), `output_dims`
(:436-440) and the loop of `MatchTemplate::match_template` (:174-182). -/
def scoreImage {R : Type _} [Inhabited R] (im tpl : Image Nat) (score : Nat → Nat → Option R) :
    Option (Image R) :=
  if im.w ≥ tpl.w ∧ im.h ≥ tpl.h then
    (csub im.w tpl.w).bind fun w => (csub im.h tpl.h).bind fun h =>
    Image.fromFn (w + 1) (h + 1) score
  else none

/-- `MatchTemplate::match_template_parallel`, template_matching.rs:184-203. -/
def scoreImageParallel {R : Type _} [Inhabited R] (im tpl : Image Nat)
    (score : Nat → Nat → Option R) : Option (Image R) :=
  if im.w ≥ tpl.w ∧ im.h ≥ tpl.h then
    (csub im.w tpl.w).bind fun w => (csub im.h tpl.h).bind fun h =>
    ((List.range (h + 1)).mapM fun y => (List.range (w + 1)).mapM fun x => score x y).bind fun rows =>
    Image.fromFn (w + 1) (h + 1) fun x y => rows[y]?.bind fun r => r[x]?
  else none

/-- `match_template`, template_matching.rs:78-92. -/
noncomputable def matchTemplate (im tpl : Image Nat) (m : Method) : Option (Image ℝ) :=
  match m with
  | .sse => scoreImage im tpl (sseAt im tpl)
  | .sseNorm => (squareSum tpl).bind fun t => scoreImage im tpl (sseNormAt t im tpl)
  | .ccorr => scoreImage im tpl (ccorrAt im tpl)
  | .ccorrNorm => (squareSum tpl).bind fun t => scoreImage im tpl (ccorrNormAt t im tpl)

/-- `match_template_parallel`, template_matching.rs:96-110. -/
noncomputable def matchTemplateParallel (im tpl : Image Nat) (m : Method) : Option (Image ℝ) :=
  match m with
  | .sse => scoreImageParallel im tpl (sseAt im tpl)
  | .sseNorm => (squareSum tpl).bind fun t => scoreImageParallel im tpl (sseNormAt t im tpl)
  | .ccorr => scoreImageParallel im tpl (ccorrAt im tpl)
  | .ccorrNorm => (squareSum tpl).bind fun t => scoreImageParallel im tpl (ccorrNormAt t im tpl)

/-- `match_template_with_mask`, template_matching.rs:125-140 with the assertion of
`ImageTemplateMask::new` (:448-456). -/
noncomputable def matchTemplateMask (im tpl mask : Image Nat) (m : Method) : Option (Image ℝ) :=
  if tpl.w = mask.w ∧ tpl.h = mask.h then
    match m with
    | .sse => scoreImage im tpl (sseMaskAt im tpl mask)
    | .sseNorm => (multSquareSum tpl mask).bind fun t => scoreImage im tpl (sseNormMaskAt t im tpl mask)
    | .ccorr => scoreImage im tpl (ccorrMaskAt im tpl mask)
    | .ccorrNorm =>
      (multSquareSum tpl mask).bind fun t => scoreImage im tpl (ccorrNormMaskAt t im tpl mask)
  else none

/-- `match_template_with_mask_parallel`, template_matching.rs:144-163. -/
noncomputable def matchTemplateMaskParallel (im tpl mask : Image Nat) (m : Method) : Option (Image ℝ) :=
  if tpl.w = mask.w ∧ tpl.h = mask.h then
    match m with
    | .sse => scoreImageParallel im tpl (sseMaskAt im tpl mask)
    | .sseNorm =>
      (multSquareSum tpl mask).bind fun t => scoreImageParallel im tpl (sseNormMaskAt t im tpl mask)
    | .ccorr => scoreImageParallel im tpl (ccorrMaskAt im tpl mask)
    | .ccorrNorm =>
      (multSquareSum tpl mask).bind fun t => scoreImageParallel im tpl (ccorrNormMaskAt t im tpl mask)
  else none

/-- `Extremes`, template_matching.rs:482-491. -/
structure Extremes (T : Type _) where
  maxValue : T
  minValue : T
  maxLoc : Nat × Nat
  minLoc : Nat × Nat
deriving DecidableEq

/-- `find_extremes`, template_matching.rs:495-527. -/
def findExtremes {T : Type _} [LT T] [DecidableLT T] (im : Image T) : Option (Extremes T) :=
  if 0 < im.w ∧ 0 < im.h then
    (im.get 0 0).bind fun v =>
    forYX 0 im.h 0 im.w (⟨v, v, (0, 0), (0, 0)⟩ : Extremes T) fun x y e =>
      (im.get x y).bind fun p =>
      let e := if p < e.minValue then { e with minValue := p, minLoc := (x, y) } else e
      let e := if e.maxValue < p then { e with maxValue := p, maxLoc := (x, y) } else e
      some e
  else none

end Verif.Template
