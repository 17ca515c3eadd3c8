import Verif.Float.Sum
import Verif.Template.Props
/-
Template matching in single precision, src/template_matching.rs: every sum, product, root and quotient
is rounded.
-/
namespace Verif.Float
open Verif.Template Finset

/-! ### Model -/

section Plain
variable {K : Type _} [Field K] [LinearOrder K] [IsStrictOrderedRing K] [FloorRing K]

/-- `(t - i).powi(2)`, src/template_matching.rs:223, 245. -/
def sqDiff32 (i t : Nat) : K := rnd32 (rnd32 ((t : K) - i) * rnd32 ((t : K) - i))
/-- `i * t` and `i * i`, src/template_matching.rs:268, 289-290. -/
def prod32 (i t : Nat) : K := rnd32 ((i : K) * t)
/-- `((t - i) * m).powi(2)`, src/template_matching.rs:313, 336. -/
def sqDiffMask32 (i t m : Nat) : K :=
  rnd32 (rnd32 (rnd32 ((t : K) - i) * m) * rnd32 (rnd32 ((t : K) - i) * m))
/-- `t * i * m * m`, src/template_matching.rs:358, 381. -/
def prodMask32 (i t m : Nat) : K := rnd32 (rnd32 (rnd32 ((t : K) * i) * m) * m)
/-- `(i * m).powi(2)`, src/template_matching.rs:337, 382, 401. -/
def sqMask32 (i m : Nat) : K := rnd32 (rnd32 ((i : K) * m) * rnd32 ((i : K) * m))

/-- `Sse::score_at`, src/template_matching.rs:219-227. -/
def sse32At (im tpl : Image Nat) (x y : Nat) : Option K :=
  slide im tpl x y 0 fun i t s => rnd32 (s + sqDiff32 i t)
/-- `Ccorr::score_at`, src/template_matching.rs:264-272. -/
def ccorr32At (im tpl : Image Nat) (x y : Nat) : Option K :=
  slide im tpl x y 0 fun i t s => rnd32 (s + prod32 i t)
/-- `SseWithMask::score_at`, src/template_matching.rs:309-317. -/
def sseMask32At (im tpl mask : Image Nat) (x y : Nat) : Option K :=
  slideMask im tpl mask x y 0 fun i t m s => rnd32 (s + sqDiffMask32 i t m)
/-- `CcorrWithMask::score_at`, src/template_matching.rs:354-362. -/
def ccorrMask32At (im tpl mask : Image Nat) (x y : Nat) : Option K :=
  slideMask im tpl mask x y 0 fun i t m s => rnd32 (s + prodMask32 i t m)
/-- `square_sum`, src/template_matching.rs:394-396. -/
def squareSum32 (im : Image Nat) : Option K :=
  forYX 0 im.h 0 im.w 0 fun x y s => (im.get x y).bind fun v => some (rnd32 (s + prod32 v v))
/-- `mult_square_sum`, src/template_matching.rs:397-402, for images of equal dimensions. -/
def multSquareSum32 (a b : Image Nat) : Option K :=
  forYX 0 a.h 0 a.w 0 fun x y s =>
    (a.get x y).bind fun v => (b.get x y).bind fun u => some (rnd32 (s + sqMask32 v u))

end Plain

/-- The division by the norm, src/template_matching.rs:249-254, 294-299, 340-345, 385-390. -/
noncomputable def normalise32 (score a b : ℝ) : ℝ :=
  if 0 < rnd32 (Real.sqrt (rnd32 (a * b))) then rnd32 (score / rnd32 (Real.sqrt (rnd32 (a * b))))
  else score

/-- `SseNormalized::score_at`, src/template_matching.rs:239-255; `tss` is computed by `init`. -/
noncomputable def sseNorm32At (tss : ℝ) (im tpl : Image Nat) (x y : Nat) : Option ℝ :=
  (slide im tpl x y ((0 : ℝ), (0 : ℝ)) fun i t s =>
    (rnd32 (s.1 + sqDiff32 i t), rnd32 (s.2 + prod32 i i))).map fun s => normalise32 s.1 s.2 tss
/-- `CcorrNormalized::score_at`, src/template_matching.rs:284-300. -/
noncomputable def ccorrNorm32At (tss : ℝ) (im tpl : Image Nat) (x y : Nat) : Option ℝ :=
  (slide im tpl x y ((0 : ℝ), (0 : ℝ)) fun i t s =>
    (rnd32 (s.1 + prod32 i t), rnd32 (s.2 + prod32 i i))).map fun s => normalise32 s.1 s.2 tss
/-- `SseNormalizedWithMask::score_at`, src/template_matching.rs:331-346. -/
noncomputable def sseNormMask32At (tss : ℝ) (im tpl mask : Image Nat) (x y : Nat) : Option ℝ :=
  (slideMask im tpl mask x y ((0 : ℝ), (0 : ℝ)) fun i t m s =>
    (rnd32 (s.1 + sqDiffMask32 i t m), rnd32 (s.2 + sqMask32 i m))).map
    fun s => normalise32 s.1 tss s.2
/-- `CcorrNormalizedWithMask::score_at`, src/template_matching.rs:376-391. -/
noncomputable def ccorrNormMask32At (tss : ℝ) (im tpl mask : Image Nat) (x y : Nat) : Option ℝ :=
  (slideMask im tpl mask x y ((0 : ℝ), (0 : ℝ)) fun i t m s =>
    (rnd32 (s.1 + prodMask32 i t m), rnd32 (s.2 + sqMask32 i m))).map
    fun s => normalise32 s.1 tss s.2

/-- The scoring function selected by `match_template`, src/template_matching.rs:78-92. -/
noncomputable def scorer32 (im tpl : Image Nat) : Method → Option (Nat → Nat → Option ℝ)
  | .sse => some (sse32At im tpl)
  | .sseNorm => (squareSum32 tpl).map fun t => sseNorm32At t im tpl
  | .ccorr => some (ccorr32At im tpl)
  | .ccorrNorm => (squareSum32 tpl).map fun t => ccorrNorm32At t im tpl

/-- The scoring function selected by `match_template_with_mask`, src/template_matching.rs:125-140. -/
noncomputable def scorerMask32 (im tpl mask : Image Nat) : Method → Option (Nat → Nat → Option ℝ)
  | .sse => some (sseMask32At im tpl mask)
  | .sseNorm => (multSquareSum32 tpl mask).map fun t => sseNormMask32At t im tpl mask
  | .ccorr => some (ccorrMask32At im tpl mask)
  | .ccorrNorm => (multSquareSum32 tpl mask).map fun t => ccorrNormMask32At t im tpl mask

/-- `match_template`, src/template_matching.rs:78-92. -/
noncomputable def matchTemplate32 (im tpl : Image Nat) (m : Method) : Option (Image ℝ) :=
  (scorer32 im tpl m).bind fun sc => scoreImage im tpl sc
/-- `match_template_parallel`, src/template_matching.rs:96-110. -/
noncomputable def matchTemplateParallel32 (im tpl : Image Nat) (m : Method) : Option (Image ℝ) :=
  (scorer32 im tpl m).bind fun sc => scoreImageParallel im tpl sc
/-- `match_template_with_mask`, src/template_matching.rs:125-140, 448-456. -/
noncomputable def matchTemplateMask32 (im tpl mask : Image Nat) (m : Method) : Option (Image ℝ) :=
  if tpl.w = mask.w ∧ tpl.h = mask.h then
    (scorerMask32 im tpl mask m).bind fun sc => scoreImage im tpl sc
  else none
/-- `match_template_with_mask_parallel`, src/template_matching.rs:144-163. -/
noncomputable def matchTemplateMaskParallel32 (im tpl mask : Image Nat) (m : Method) :
    Option (Image ℝ) :=
  if tpl.w = mask.w ∧ tpl.h = mask.h then
    (scorerMask32 im tpl mask m).bind fun sc => scoreImageParallel im tpl sc
  else none

/-! ### The computed score in closed form -/

/-- Running sum over the window of rounded terms. -/
noncomputable def win32 (im tpl mask : Image Nat) (x y : Nat) (g : Nat → Nat → Nat → Nat) : ℝ :=
  fsum ((cells tpl.w tpl.h).map fun p =>
    rnd32 (g (im.px (x + p.1) (y + p.2)) (tpl.px p.1 p.2) (mask.px p.1 p.2) : ℝ))

/-- Squared masked difference. -/
def gSse (i t m : Nat) : Nat := (((t : Int) - i).natAbs * m) ^ 2
/-- Masked product. -/
def gCc (i t m : Nat) : Nat := t * i * m ^ 2
/-- Masked square of the template. -/
def gTt (_ t m : Nat) : Nat := (t * m) ^ 2
/-- Masked square of the image. -/
def gIi (i _ m : Nat) : Nat := (i * m) ^ 2

/-- The score computed in single precision. -/
noncomputable def score32 (m : Method) (im tpl mask : Image Nat) (x y : Nat) : ℝ :=
  match m with
  | .sse => win32 im tpl mask x y gSse
  | .sseNorm => normalise32 (win32 im tpl mask x y gSse) (win32 im tpl mask x y gTt)
      (win32 im tpl mask x y gIi)
  | .ccorr => win32 im tpl mask x y gCc
  | .ccorrNorm => normalise32 (win32 im tpl mask x y gCc) (win32 im tpl mask x y gTt)
      (win32 im tpl mask x y gIi)

theorem rnd32_intCast {n : Int} (h : |n| ≤ 2 ^ 24) : rnd32 (n : ℝ) = n :=
  rnd_int (by norm_num) (by norm_num) h

theorem byte_sub {i t : Nat} (hi : i < 256) (ht : t < 256) :
    rnd32 ((t : ℝ) - i) = (((t : Int) - i : Int) : ℝ) := by
  rw [← rnd32_intCast (n := (t : Int) - i) (by rw [abs_le]; constructor <;> omega)]
  push_cast
  rfl

theorem rnd32_nat {n : Nat} (h : n ≤ 2 ^ 24) : rnd32 (n : ℝ) = n := by
  have := rnd32_intCast (n := (n : Int)) (by rw [abs_of_nonneg (by positivity)]; exact_mod_cast h)
  exact_mod_cast this

theorem natAbs_sq_cast (d : Int) (m : Nat) : (((d.natAbs * m) ^ 2 : Nat) : ℝ) = (d * m) * (d * m) := by
  have : (((d.natAbs * m) ^ 2 : Nat) : Int) = (d * m) * (d * m) := by
    push_cast
    rw [mul_pow, sq_abs]
    ring
  have h2 : (((((d.natAbs * m) ^ 2 : Nat) : Int)) : ℝ) = (((d * m) * (d * m) : Int) : ℝ) := by rw [this]
  rw [Int.cast_natCast] at h2
  rw [h2]
  push_cast
  rfl

theorem byte_mul {a b : Nat} (ha : a < 256) (hb : b < 256) : a * b ≤ 65025 := by
  calc a * b ≤ 255 * 255 := Nat.mul_le_mul (by omega) (by omega)
    _ = 65025 := rfl

theorem sqDiffMask32_eq {i t m : Nat} (hi : i < 256) (ht : t < 256) (hm : m < 256) :
    sqDiffMask32 (K := ℝ) i t m = rnd32 (gSse i t m : ℝ) := by
  unfold sqDiffMask32 gSse
  rw [byte_sub hi ht]
  have h : rnd32 ((((t : Int) - i : Int) : ℝ) * m) = (((t : Int) - i) * m : Int) := by
    rw [← rnd32_intCast (n := ((t : Int) - i) * m) ?_]
    · push_cast; rfl
    · rw [abs_mul]
      have h1 : |(t : Int) - i| ≤ 255 := by rw [abs_le]; constructor <;> omega
      have h2 : |(m : Int)| ≤ 255 := by rw [abs_le]; constructor <;> omega
      calc _ ≤ (255 : Int) * 255 := mul_le_mul h1 h2 (abs_nonneg _) (by norm_num)
        _ ≤ _ := by norm_num
  rw [h, natAbs_sq_cast]
  push_cast
  rfl

theorem prodMask32_eq {i t m : Nat} (hi : i < 256) (ht : t < 256) (hm : m < 256) :
    prodMask32 (K := ℝ) i t m = rnd32 (gCc i t m : ℝ) := by
  unfold prodMask32 gCc
  have h1 := byte_mul ht hi
  have h2 : t * i * m ≤ 16581375 := by
    calc t * i * m ≤ 65025 * 255 := Nat.mul_le_mul h1 (by omega)
      _ = _ := rfl
  have e1 : rnd32 ((t : ℝ) * i) = ((t * i : Nat) : ℝ) := by
    rw [← rnd32_nat (n := t * i) (by omega)]; push_cast; rfl
  have e2 : rnd32 (((t * i : Nat) : ℝ) * m) = ((t * i * m : Nat) : ℝ) := by
    rw [← rnd32_nat (n := t * i * m) (by omega)]; push_cast; rfl
  rw [e1, e2]
  push_cast
  rw [mul_assoc _ (m : ℝ) (m : ℝ), pow_two]

theorem sqMask32_eq {i m : Nat} (hi : i < 256) (hm : m < 256) :
    sqMask32 (K := ℝ) i m = rnd32 (((i * m) ^ 2 : Nat) : ℝ) := by
  unfold sqMask32
  have h1 := byte_mul hi hm
  have e1 : rnd32 ((i : ℝ) * m) = ((i * m : Nat) : ℝ) := by
    rw [← rnd32_nat (n := i * m) (by omega)]; push_cast; rfl
  rw [e1]
  push_cast
  rw [pow_two]

theorem sqDiff32_eq {i t : Nat} (hi : i < 256) (ht : t < 256) :
    sqDiff32 (K := ℝ) i t = rnd32 (gSse i t 1 : ℝ) := by
  unfold sqDiff32 gSse
  rw [byte_sub hi ht, natAbs_sq_cast]
  push_cast
  rw [mul_one]

theorem prod32_eq (i t : Nat) : prod32 (K := ℝ) i t = rnd32 (gCc i t 1 : ℝ) := by
  unfold prod32 gCc
  push_cast
  rw [mul_one, mul_comm]

theorem square32_eq (i : Nat) : prod32 (K := ℝ) i i = rnd32 (((i * 1) ^ 2 : Nat) : ℝ) := by
  unfold prod32
  push_cast
  rw [mul_one, pow_two]

/-- Every pixel fits in 8 bits. -/
def Bytes (im : Image Nat) : Prop := ∀ x y, x < im.w → y < im.h → im.px x y < 256

theorem slide_fold {σ : Type _} {im tpl : Image Nat} {x y : Nat} (s : σ) (f : Nat → Nat → σ → σ)
    (hw : 0 < tpl.w) (hh : 0 < tpl.h) (hx : x + tpl.w ≤ im.w) (hy : y + tpl.h ≤ im.h) :
    slide im tpl x y s f = some ((cells tpl.w tpl.h).foldl
      (fun s p => f (im.px (x + p.1) (y + p.2)) (tpl.px p.1 p.2) s) s) := by
  unfold slide
  rw [csub_of_le (by omega), Option.bind_some, csub_of_le (by omega), Option.bind_some,
    if_pos (by omega)]
  exact forYX_fold (g := fun dx dy s => f (im.px (x + dx) (y + dy)) (tpl.px dx dy) s) (by
    intro dx dy s h1 h2
    rw [Image.get_of_inB (by omega) (by omega), Image.get_of_inB h1 h2, Option.bind_some,
      Option.bind_some]) s

theorem slideMask_fold {σ : Type _} {im tpl mask : Image Nat} {x y : Nat} (s : σ)
    (f : Nat → Nat → Nat → σ → σ)
    (hw : 0 < tpl.w) (hh : 0 < tpl.h) (hx : x + tpl.w ≤ im.w) (hy : y + tpl.h ≤ im.h)
    (hm : tpl.w = mask.w ∧ tpl.h = mask.h) :
    slideMask im tpl mask x y s f = some ((cells tpl.w tpl.h).foldl
      (fun s p => f (im.px (x + p.1) (y + p.2)) (tpl.px p.1 p.2) (mask.px p.1 p.2) s) s) := by
  unfold slideMask
  rw [csub_of_le (by omega), Option.bind_some, csub_of_le (by omega), Option.bind_some,
    if_pos (by omega)]
  exact forYX_fold
    (g := fun dx dy s => f (im.px (x + dx) (y + dy)) (tpl.px dx dy) (mask.px dx dy) s) (by
    intro dx dy s h1 h2
    rw [Image.get_of_inB (by omega) (by omega), Image.get_of_inB h1 h2,
      Image.get_of_inB (by omega) (by omega), Option.bind_some,
      Option.bind_some, Option.bind_some]) s

/-- A fold of rounded additions is a running sum. -/
theorem fold_fsum {β : Type _} (l : List β) (f g : β → ℝ) (h : ∀ b ∈ l, f b = g b) :
    l.foldl (fun s b => rnd32 (s + f b)) 0 = fsum (l.map g) := by
  unfold fsum
  rw [List.foldl_map]
  exact List.foldl_ext _ _ _ fun a b hb => by rw [h b hb]

/-- Two sums computed by one loop. -/
theorem fold_pair {β : Type _} (l : List β) (f g : β → ℝ) (a b : ℝ) :
    l.foldl (fun s p => (rnd32 (s.1 + f p), rnd32 (s.2 + g p))) (a, b) =
      (l.foldl (fun s p => rnd32 (s + f p)) a, l.foldl (fun s p => rnd32 (s + g p)) b) := by
  induction l generalizing a b with
  | nil => rfl
  | cons p l ih => exact ih _ _

theorem normalise32_comm (s a b : ℝ) : normalise32 s a b = normalise32 s b a := by
  unfold normalise32
  rw [mul_comm]

/-- What the masked scoring functions compute. -/
theorem scorerMask32_spec (im tpl mask : Image Nat) (m : Method) (hb : Bytes im) (htb : Bytes tpl)
    (hmb : Bytes mask) (hw : 0 < tpl.w) (hh : 0 < tpl.h) (hm : tpl.w = mask.w ∧ tpl.h = mask.h) :
    ∃ sc, scorerMask32 im tpl mask m = some sc ∧
      ∀ x y, x + tpl.w ≤ im.w → y + tpl.h ≤ im.h → sc x y = some (score32 m im tpl mask x y) := by
  have key : ∀ x y, x + tpl.w ≤ im.w → y + tpl.h ≤ im.h → ∀ p ∈ cells tpl.w tpl.h,
      im.px (x + p.1) (y + p.2) < 256 ∧ tpl.px p.1 p.2 < 256 ∧ mask.px p.1 p.2 < 256 := by
    intro x y hx hy p hp
    obtain ⟨h1, h2⟩ := mem_cells.1 hp
    exact ⟨hb _ _ (by omega) (by omega), htb _ _ h1 h2, hmb _ _ (by omega) (by omega)⟩
  have sse : ∀ x y, x + tpl.w ≤ im.w → y + tpl.h ≤ im.h →
      (cells tpl.w tpl.h).foldl (fun s p => rnd32 (s +
        sqDiffMask32 (im.px (x + p.1) (y + p.2)) (tpl.px p.1 p.2) (mask.px p.1 p.2))) (0 : ℝ) =
      win32 im tpl mask x y gSse := by
    intro x y hx hy
    refine fold_fsum _ _ _ fun p hp => ?_
    obtain ⟨h1, h2, h3⟩ := key x y hx hy p hp
    exact sqDiffMask32_eq h1 h2 h3
  have cc : ∀ x y, x + tpl.w ≤ im.w → y + tpl.h ≤ im.h →
      (cells tpl.w tpl.h).foldl (fun s p => rnd32 (s +
        prodMask32 (im.px (x + p.1) (y + p.2)) (tpl.px p.1 p.2) (mask.px p.1 p.2))) (0 : ℝ) =
      win32 im tpl mask x y gCc := by
    intro x y hx hy
    refine fold_fsum _ _ _ fun p hp => ?_
    obtain ⟨h1, h2, h3⟩ := key x y hx hy p hp
    exact prodMask32_eq h1 h2 h3
  have ii : ∀ x y, x + tpl.w ≤ im.w → y + tpl.h ≤ im.h →
      (cells tpl.w tpl.h).foldl (fun s p => rnd32 (s +
        sqMask32 (im.px (x + p.1) (y + p.2)) (mask.px p.1 p.2))) (0 : ℝ) =
      win32 im tpl mask x y gIi := by
    intro x y hx hy
    refine fold_fsum _ _ _ fun p hp => ?_
    obtain ⟨h1, h2, h3⟩ := key x y hx hy p hp
    exact sqMask32_eq h1 h3
  have tt : ∀ x y, multSquareSum32 tpl mask = some (win32 im tpl mask x y gTt) := by
    intro x y
    unfold multSquareSum32
    rw [forYX_fold (g := fun x y s => rnd32 (s + sqMask32 (tpl.px x y) (mask.px x y))) (by
      intro a b s h1 h2
      rw [Image.get_of_inB h1 h2, Image.get_of_inB (by omega) (by omega), Option.bind_some,
        Option.bind_some])]
    refine congrArg some (fold_fsum _ _ _ fun p hp => ?_)
    obtain ⟨h1, h2⟩ := mem_cells.1 hp
    exact sqMask32_eq (htb _ _ h1 h2) (hmb _ _ (by omega) (by omega))
  cases m
  · refine ⟨_, rfl, fun x y hx hy => ?_⟩
    unfold sseMask32At
    rw [slideMask_fold _ _ hw hh hx hy hm, sse x y hx hy]
    rfl
  · refine ⟨_, by unfold scorerMask32; rw [tt 0 0]; rfl, fun x y hx hy => ?_⟩
    unfold sseNormMask32At
    dsimp only
    rw [slideMask_fold _ _ hw hh hx hy hm, fold_pair, sse x y hx hy, ii x y hx hy]
    have : win32 im tpl mask 0 0 gTt = win32 im tpl mask x y gTt := rfl
    rw [this]
    rfl
  · refine ⟨_, rfl, fun x y hx hy => ?_⟩
    unfold ccorrMask32At
    rw [slideMask_fold _ _ hw hh hx hy hm, cc x y hx hy]
    rfl
  · refine ⟨_, by unfold scorerMask32; rw [tt 0 0]; rfl, fun x y hx hy => ?_⟩
    unfold ccorrNormMask32At
    dsimp only
    rw [slideMask_fold _ _ hw hh hx hy hm, fold_pair, cc x y hx hy, ii x y hx hy]
    have : win32 im tpl mask 0 0 gTt = win32 im tpl mask x y gTt := rfl
    rw [this]
    rfl

/-- What the unmasked scoring functions compute: the same with a mask of ones. -/
theorem scorer32_spec (im tpl : Image Nat) (m : Method) (hb : Bytes im) (htb : Bytes tpl)
    (hw : 0 < tpl.w) (hh : 0 < tpl.h) :
    ∃ sc, scorer32 im tpl m = some sc ∧ ∀ x y, x + tpl.w ≤ im.w → y + tpl.h ≤ im.h →
      sc x y = some (score32 m im tpl (ones tpl.w tpl.h) x y) := by
  have key : ∀ x y, x + tpl.w ≤ im.w → y + tpl.h ≤ im.h → ∀ p ∈ cells tpl.w tpl.h,
      im.px (x + p.1) (y + p.2) < 256 ∧ tpl.px p.1 p.2 < 256 := by
    intro x y hx hy p hp
    obtain ⟨h1, h2⟩ := mem_cells.1 hp
    exact ⟨hb _ _ (by omega) (by omega), htb _ _ h1 h2⟩
  have sse : ∀ x y, x + tpl.w ≤ im.w → y + tpl.h ≤ im.h →
      (cells tpl.w tpl.h).foldl (fun s p => rnd32 (s +
        sqDiff32 (im.px (x + p.1) (y + p.2)) (tpl.px p.1 p.2))) (0 : ℝ) =
      win32 im tpl (ones tpl.w tpl.h) x y gSse := by
    intro x y hx hy
    refine fold_fsum _ _ _ fun p hp => ?_
    obtain ⟨h1, h2⟩ := key x y hx hy p hp
    exact sqDiff32_eq h1 h2
  have cc : ∀ x y, (cells tpl.w tpl.h).foldl (fun s p => rnd32 (s +
        prod32 (im.px (x + p.1) (y + p.2)) (tpl.px p.1 p.2))) (0 : ℝ) =
      win32 im tpl (ones tpl.w tpl.h) x y gCc := by
    intro x y
    exact fold_fsum _ _ _ fun p hp => prod32_eq _ _
  have ii : ∀ x y, (cells tpl.w tpl.h).foldl (fun s p => rnd32 (s +
        prod32 (im.px (x + p.1) (y + p.2)) (im.px (x + p.1) (y + p.2)))) (0 : ℝ) =
      win32 im tpl (ones tpl.w tpl.h) x y gIi := by
    intro x y
    exact fold_fsum _ _ _ fun p hp => square32_eq _
  have tt : ∀ x y, squareSum32 tpl = some (win32 im tpl (ones tpl.w tpl.h) x y gTt) := by
    intro x y
    unfold squareSum32
    rw [forYX_fold (g := fun x y s => rnd32 (s + prod32 (tpl.px x y) (tpl.px x y))) (by
      intro a b s h1 h2
      rw [Image.get_of_inB h1 h2, Option.bind_some])]
    exact congrArg some (fold_fsum _ _ _ fun p hp => square32_eq _)
  cases m
  · refine ⟨_, rfl, fun x y hx hy => ?_⟩
    unfold sse32At
    rw [slide_fold _ _ hw hh hx hy, sse x y hx hy]
    rfl
  · refine ⟨_, by unfold scorer32; rw [tt 0 0]; rfl, fun x y hx hy => ?_⟩
    unfold sseNorm32At
    dsimp only
    rw [slide_fold _ _ hw hh hx hy, fold_pair, sse x y hx hy, ii x y, Option.map_some,
      normalise32_comm]
    rfl
  · refine ⟨_, rfl, fun x y hx hy => ?_⟩
    unfold ccorr32At
    rw [slide_fold _ _ hw hh hx hy, cc x y]
    rfl
  · refine ⟨_, by unfold scorer32; rw [tt 0 0]; rfl, fun x y hx hy => ?_⟩
    unfold ccorrNorm32At
    dsimp only
    rw [slide_fold _ _ hw hh hx hy, fold_pair, cc x y, ii x y, Option.map_some, normalise32_comm]
    rfl

/-! ### Comparison with exact arithmetic -/

theorem window_nat (im tpl mask : Image Nat) (x y : Nat) (g : Nat → Nat → Nat → Nat)
    (g' : ℝ → ℝ → ℝ → ℝ) (h : ∀ i t m : Nat, (g i t m : ℝ) = g' i t m) :
    window im tpl mask x y g' = ((cells tpl.w tpl.h).map fun p =>
      (g (im.px (x + p.1) (y + p.2)) (tpl.px p.1 p.2) (mask.px p.1 p.2) : ℝ)).sum := by
  rw [sum_cells]
  unfold window
  simp only [h]

theorem gSse_cast (i t m : Nat) : (gSse i t m : ℝ) = (((t : ℝ) - i) * m) ^ 2 := by
  unfold gSse
  rw [natAbs_sq_cast]
  push_cast
  ring
theorem gCc_cast (i t m : Nat) : (gCc i t m : ℝ) = t * i * m ^ 2 := by unfold gCc; push_cast; rfl
theorem gTt_cast (i t m : Nat) : (gTt i t m : ℝ) = ((t : ℝ) * m) ^ 2 := by unfold gTt; push_cast; rfl
theorem gIi_cast (i t m : Nat) : (gIi i t m : ℝ) = ((i : ℝ) * m) ^ 2 := by unfold gIi; push_cast; rfl

theorem win32_rel (im tpl mask : Image Nat) (x y : Nat) (g : Nat → Nat → Nat → Nat)
    (g' : ℝ → ℝ → ℝ → ℝ) (h : ∀ i t m : Nat, (g i t m : ℝ) = g' i t m) :
    Rel (tpl.w * tpl.h + 1) (win32 im tpl mask x y g) (window im tpl mask x y g') ∧
      Rep 24 (-149) (win32 im tpl mask x y g) := by
  rw [window_nat im tpl mask x y g g' h]
  have hl : ∀ v ∈ (cells tpl.w tpl.h).map (fun p =>
      rnd32 (g (im.px (x + p.1) (y + p.2)) (tpl.px p.1 p.2) (mask.px p.1 p.2) : ℝ)),
      0 ≤ v ∧ Rep 24 (-149) v := by
    intro v hv
    obtain ⟨p, -, rfl⟩ := List.mem_map.1 hv
    exact ⟨rnd_nonneg (by positivity), rep_rnd _⟩
  have a := rel_fsum _ hl
  rw [List.length_map, length_cells] at a
  refine ⟨a.trans (Rel.sum _ _ _ fun p _ => rel_rnd_nat _), (fsum_bounds _ hl).1⟩

theorem win32_exact (im tpl mask : Image Nat) (x y : Nat) (g : Nat → Nat → Nat → Nat)
    (g' : ℝ → ℝ → ℝ → ℝ) (h : ∀ i t m : Nat, (g i t m : ℝ) = g' i t m)
    (hle : window im tpl mask x y g' ≤ 2 ^ 24) :
    win32 im tpl mask x y g = window im tpl mask x y g' ∧
      ∃ n : Nat, window im tpl mask x y g' = n ∧ n ≤ 2 ^ 24 := by
  rw [window_nat im tpl mask x y g g' h] at hle ⊢
  set G : Nat × Nat → Nat := fun p => g (im.px (x + p.1) (y + p.2)) (tpl.px p.1 p.2) (mask.px p.1 p.2)
  have hs : ((cells tpl.w tpl.h).map fun p => (G p : ℝ)).sum = (((cells tpl.w tpl.h).map G).sum : Nat) := by
    rw [Nat.cast_list_sum, List.map_map]
    rfl
  change ((cells tpl.w tpl.h).map fun p => (G p : ℝ)).sum ≤ 2 ^ 24 at hle
  rw [hs] at hle
  have hn : ((cells tpl.w tpl.h).map G).sum ≤ 2 ^ 24 := by exact_mod_cast hle
  refine ⟨?_, _, hs, hn⟩
  rw [hs, ← fsum_exact _ hn, List.map_map]
  unfold win32
  congr 1
  refine List.map_congr_left fun p hp => ?_
  have : G p ≤ ((cells tpl.w tpl.h).map G).sum := List.single_le_sum (by simp) _ (List.mem_map_of_mem hp)
  exact rnd32_nat (n := G p) (by omega)

theorem Rel.half {k : Nat} {r e : ℝ} (h : Rel k r e) (hk : (1 / 2 : ℝ) ≤ (1 - u32) ^ k) :
    e / 2 ≤ r ∧ r ≤ 2 * e := by
  obtain ⟨a, b, c, d⟩ := h
  generalize (1 - u32 : ℝ) ^ k = P at *
  have c' := mul_le_mul_of_nonneg_right hk b
  have d' := mul_le_mul_of_nonneg_right hk a
  constructor <;> linarith

theorem normalise32_rel {n : Nat} {s a b S A B : ℝ} (hs : Rel (n + 1) s S) (ha : Rel (n + 1) a A)
    (hb : Rel (n + 1) b B) (hA : A = 0 ∨ 1 ≤ A) (hB : B = 0 ∨ 1 ≤ B) (hS : S = 0 ∨ 1 ≤ S)
    (hA' : A ≤ 2 ^ 60) (hB' : B ≤ 2 ^ 60) (hn : n ≤ 2 ^ 20) :
    Rel (2 * n + 5) (normalise32 s a b) (quotient S A B) := by
  have small : (1 / 2 : ℝ) ≤ (1 - u32) ^ (n + 1) := by
    have hu : (u32 : ℝ) = 1 / 2 ^ 24 := by norm_num [u32, zpow_neg]
    have bern := one_add_mul_le_pow (show (-2 : ℝ) ≤ -u32 by rw [hu]; norm_num) (n + 1)
    rw [← sub_eq_add_neg, hu] at bern
    rw [hu]
    refine le_trans ?_ bern
    have h20 : (n : ℝ) ≤ 1048576 := by exact_mod_cast hn
    clear bern
    push_cast
    linarith
  have hab := ha.mul hb
  rcases (show A * B = 0 ∨ 1 ≤ A * B by
    rcases hA with h | h
    · left; rw [h, zero_mul]
    · rcases hB with h' | h'
      · left; rw [h', mul_zero]
      · right; nlinarith) with h0 | h0
  · have hz : a * b = 0 := by
      obtain ⟨p, q, r, t⟩ := hab
      rw [h0] at t
      have := pow_pos base_pos (n + 1 + (n + 1))
      nlinarith
    have z : rnd32 (Real.sqrt (rnd32 (a * b))) = 0 := by
      have z1 : rnd32 (0 : ℝ) = 0 := rnd_zero
      rw [hz, z1, Real.sqrt_zero, z1]
    unfold normalise32 quotient
    rw [z, if_neg (lt_irrefl _), h0, if_neg (lt_irrefl _)]
    exact hs.mono (by omega)
  · have ha1 : 1 / 2 ≤ a := by
      rcases hA with h | h
      · rw [h, zero_mul] at h0; norm_num at h0
      · have := (ha.half small).1; linarith
    have hb1 : 1 / 2 ≤ b := by
      rcases hB with h | h
      · rw [h, mul_zero] at h0; norm_num at h0
      · have := (hb.half small).1; linarith
    have hab1 : 1 / 4 ≤ a * b := by nlinarith
    have r1 : Rel (2 * (n + 2)) (rnd32 (a * b)) (A * B) :=
      ((rel_rnd (Or.inr (le_trans (by norm_num) hab1))).trans hab).mono (by omega)
    have q1 : 1 / 4 ≤ rnd32 (a * b) :=
      le_rnd (by norm_num) ⟨1, -2, by norm_num, by norm_num, by norm_num [zpow_neg]⟩ hab1
    have q2 : 1 / 2 ≤ Real.sqrt (rnd32 (a * b)) :=
      Real.le_sqrt_of_sq_le (le_trans (by norm_num) q1)
    have r2 : Rel (n + 3) (rnd32 (Real.sqrt (rnd32 (a * b)))) (Real.sqrt (A * B)) :=
      ((rel_rnd (Or.inr (le_trans (by norm_num) q2))).trans r1.sqrt).mono (by omega)
    have q3 : 1 / 2 ≤ rnd32 (Real.sqrt (rnd32 (a * b))) :=
      le_rnd (by norm_num) ⟨1, -1, by norm_num, by norm_num, by norm_num [zpow_neg]⟩ q2
    unfold normalise32 quotient
    rw [if_pos (by linarith), if_pos (by linarith)]
    have r3 := hs.div r2
    have sq0 : 0 < Real.sqrt (A * B) := Real.sqrt_pos.2 (by linarith)
    have big : rnd32 (Real.sqrt (rnd32 (a * b))) ≤ 2 ^ 62 := by
      have ua : a ≤ 2 ^ 61 := by have := (ha.half small).2; norm_num at *; linarith
      have ub : b ≤ 2 ^ 61 := by have := (hb.half small).2; norm_num at *; linarith
      have uab : a * b ≤ 2 ^ 61 * 2 ^ 61 := mul_le_mul ua ub (by linarith) (by norm_num)
      have u1 : rnd32 (a * b) ≤ 2 ^ 122 := by
        refine rnd_le (by norm_num) ⟨1, 122, by norm_num, by norm_num, by norm_num⟩ (le_trans uab ?_)
        norm_num
      have u2 : Real.sqrt (rnd32 (a * b)) ≤ 2 ^ 61 := by
        rw [show (2 : ℝ) ^ 61 = Real.sqrt (2 ^ 122) by
          rw [show (2 : ℝ) ^ 122 = (2 ^ 61) ^ 2 by norm_num, Real.sqrt_sq (by norm_num)]]
        exact Real.sqrt_le_sqrt u1
      exact rnd_le (by norm_num) ⟨1, 62, by norm_num, by norm_num, by norm_num⟩
        (le_trans u2 (by norm_num))
    refine Rel.mono ((rel_rnd ?_).trans r3) (by omega)
    rcases hS with h | h
    · left
      have : s = 0 := by
        obtain ⟨p, q, r, t⟩ := hs
        rw [h] at t
        have := pow_pos base_pos (n + 1)
        nlinarith
      rw [this, zero_div]
    · right
      have s1 : 1 / 2 ≤ s := by have := (hs.half small).1; linarith
      rw [le_div_iff₀ (by linarith)]
      refine le_trans ?_ s1
      calc (1 / 2 ^ 126 : ℝ) * _ ≤ 1 / 2 ^ 126 * 2 ^ 62 := mul_le_mul_of_nonneg_left big (by norm_num)
        _ ≤ 1 / 2 := by norm_num

/-! ### Theorems -/

theorem window_int (im tpl mask : Image Nat) (x y : Nat) (g : Nat → Nat → Nat → Nat)
    (g' : ℝ → ℝ → ℝ → ℝ) (h : ∀ i t m : Nat, (g i t m : ℝ) = g' i t m) :
    window im tpl mask x y g' = 0 ∨ 1 ≤ window im tpl mask x y g' := by
  rw [window_nat im tpl mask x y g g' h]
  have hs : ((cells tpl.w tpl.h).map fun p =>
      (g (im.px (x + p.1) (y + p.2)) (tpl.px p.1 p.2) (mask.px p.1 p.2) : ℝ)).sum =
      (((cells tpl.w tpl.h).map fun p =>
        g (im.px (x + p.1) (y + p.2)) (tpl.px p.1 p.2) (mask.px p.1 p.2)).sum : Nat) := by
    rw [Nat.cast_list_sum, List.map_map]
    rfl
  rw [hs]
  rcases Nat.eq_zero_or_pos ((cells tpl.w tpl.h).map fun p =>
        g (im.px (x + p.1) (y + p.2)) (tpl.px p.1 p.2) (mask.px p.1 p.2)).sum with h0 | h0
  · left; rw [h0]; simp
  · right; exact_mod_cast h0

theorem window_le (im tpl mask : Image Nat) (x y : Nat) (g' : ℝ → ℝ → ℝ → ℝ)
    (hn : tpl.w * tpl.h ≤ 2 ^ 20)
    (h : ∀ dx dy, dx < tpl.w → dy < tpl.h →
      g' (im.px (x + dx) (y + dy)) (tpl.px dx dy) (mask.px dx dy) ≤ 2 ^ 32) :
    window im tpl mask x y g' ≤ 2 ^ 60 := by
  unfold window
  have : ∑ dy ∈ range tpl.h, ∑ dx ∈ range tpl.w,
      g' (im.px (x + dx) (y + dy)) (tpl.px dx dy) (mask.px dx dy) ≤
      ∑ dy ∈ range tpl.h, ∑ dx ∈ range tpl.w, (2 ^ 32 : ℝ) :=
    sum_le_sum fun dy hy => sum_le_sum fun dx hx => h dx dy (mem_range.1 hx) (mem_range.1 hy)
  refine le_trans this ?_
  simp only [sum_const, card_range, nsmul_eq_mul]
  have hn' : (tpl.w : ℝ) * tpl.h ≤ 2 ^ 20 := by exact_mod_cast hn
  have := mul_le_mul_of_nonneg_right hn' (show (0 : ℝ) ≤ 2 ^ 32 by norm_num)
  norm_num at *
  linarith

theorem score32_rel (im tpl mask : Image Nat) (m : Method) (x y : Nat) (hb : Bytes im)
    (htb : Bytes tpl) (hmb : Bytes mask) (hm : tpl.w = mask.w ∧ tpl.h = mask.h)
    (hn : tpl.w * tpl.h ≤ 2 ^ 20) (hx : x + tpl.w ≤ im.w) (hy : y + tpl.h ≤ im.h) :
    Rel (2 * (tpl.w * tpl.h) + 5) (score32 m im tpl mask x y) (score m im tpl mask x y) := by
  have s1 := (win32_rel im tpl mask x y gSse (fun i t m => ((t - i) * m) ^ 2) gSse_cast).1
  have c1 := (win32_rel im tpl mask x y gCc (fun i t m => t * i * m ^ 2) gCc_cast).1
  have t1 := (win32_rel im tpl mask x y gTt (fun _ t m => (t * m) ^ 2) gTt_cast).1
  have i1 := (win32_rel im tpl mask x y gIi (fun i _ m => (i * m) ^ 2) gIi_cast).1
  have s2 := window_int im tpl mask x y gSse (fun i t m => ((t - i) * m) ^ 2) gSse_cast
  have c2 := window_int im tpl mask x y gCc (fun i t m => t * i * m ^ 2) gCc_cast
  have t2 := window_int im tpl mask x y gTt (fun _ t m => (t * m) ^ 2) gTt_cast
  have i2 := window_int im tpl mask x y gIi (fun i _ m => (i * m) ^ 2) gIi_cast
  have sq : ∀ a b : Nat, a < 256 → b < 256 → ((a : ℝ) * b) ^ 2 ≤ 2 ^ 32 := by
    intro a b ha hb
    have : (a * b) ^ 2 ≤ 65025 ^ 2 := Nat.pow_le_pow_left (byte_mul ha hb) 2
    have : (((a * b) ^ 2 : Nat) : ℝ) ≤ ((65025 ^ 2 : Nat) : ℝ) := by exact_mod_cast this
    push_cast at this
    norm_num at *
    linarith
  have t3 := window_le im tpl mask x y (fun _ t m => (t * m) ^ 2) hn
    (fun dx dy h1 h2 => sq _ _ (htb _ _ h1 h2) (hmb _ _ (by omega) (by omega)))
  have i3 := window_le im tpl mask x y (fun i _ m => (i * m) ^ 2) hn
    (fun dx dy h1 h2 => sq _ _ (hb _ _ (by omega) (by omega)) (hmb _ _ (by omega) (by omega)))
  cases m
  · exact s1.mono (by omega)
  · exact normalise32_rel s1 t1 i1 t2 i2 s2 t3 i3 hn
  · exact c1.mono (by omega)
  · exact normalise32_rel c1 t1 i1 t2 i2 c2 t3 i3 hn

/-- **C122.** Masked template matching in single precision never fails when the template fits, and for
templates of `n ≤ 2^20` pixels every score is within a relative error of `(2 n + 5) / 2^23` of the
documented formula. -/
theorem C122_masked_accuracy (im tpl mask : Image Nat) (m : Method) (hb : Bytes im)
    (htb : Bytes tpl) (hmb : Bytes mask) (hw : 0 < tpl.w) (hh : 0 < tpl.h)
    (hiw : tpl.w ≤ im.w) (hih : tpl.h ≤ im.h) (hm : tpl.w = mask.w ∧ tpl.h = mask.h) :
    ∃ out, matchTemplateMask32 im tpl mask m = some out ∧ out.w = im.w - tpl.w + 1 ∧
      out.h = im.h - tpl.h + 1 ∧ ∀ x y, x < out.w → y < out.h →
        out.px x y = score32 m im tpl mask x y ∧
        (tpl.w * tpl.h ≤ 2 ^ 20 → |out.px x y - score m im tpl mask x y| ≤
          (2 * (tpl.w * tpl.h : Nat) + 5) / 2 ^ 23 * score m im tpl mask x y) := by
  obtain ⟨sc, e, hsc⟩ := scorerMask32_spec im tpl mask m hb htb hmb hw hh hm
  obtain ⟨out, o1, o2, o3, o4⟩ := scoreImage_spec (g := score32 m im tpl mask) hiw hih hsc
  refine ⟨out, ?_, o2, o3, fun x y hx hy => ⟨o4 x y hx hy, fun hn => ?_⟩⟩
  · unfold matchTemplateMask32
    rw [if_pos hm, e]
    exact o1
  · rw [o4 x y hx hy]
    have := (score32_rel im tpl mask m x y hb htb hmb hm hn (by omega) (by omega)).error (by omega)
    push_cast at this ⊢
    exact this

/-- **C122.** The same without a mask. -/
theorem C122_accuracy (im tpl : Image Nat) (m : Method) (hb : Bytes im)
    (htb : Bytes tpl) (hw : 0 < tpl.w) (hh : 0 < tpl.h) (hiw : tpl.w ≤ im.w) (hih : tpl.h ≤ im.h) :
    ∃ out, matchTemplate32 im tpl m = some out ∧ out.w = im.w - tpl.w + 1 ∧
      out.h = im.h - tpl.h + 1 ∧ ∀ x y, x < out.w → y < out.h →
        out.px x y = score32 m im tpl (ones tpl.w tpl.h) x y ∧
        (tpl.w * tpl.h ≤ 2 ^ 20 → |out.px x y - score m im tpl (ones tpl.w tpl.h) x y| ≤
          (2 * (tpl.w * tpl.h : Nat) + 5) / 2 ^ 23 * score m im tpl (ones tpl.w tpl.h) x y) := by
  obtain ⟨sc, e, hsc⟩ := scorer32_spec im tpl m hb htb hw hh
  obtain ⟨out, o1, o2, o3, o4⟩ := scoreImage_spec (g := score32 m im tpl (ones tpl.w tpl.h)) hiw hih hsc
  refine ⟨out, ?_, o2, o3, fun x y hx hy => ⟨o4 x y hx hy, fun hn => ?_⟩⟩
  · unfold matchTemplate32
    rw [e]
    exact o1
  · rw [o4 x y hx hy]
    have := (score32_rel im tpl (ones tpl.w tpl.h) m x y hb htb
      (fun _ _ _ _ => by show 1 < 256; norm_num) ⟨rfl, rfl⟩ hn (by omega) (by omega)).error (by omega)
    push_cast at this ⊢
    exact this

/-- **C122.** The parallel versions give the same bits as the sequential ones. -/
theorem C122_parallel (im tpl mask : Image Nat) (m : Method) (hb : Bytes im)
    (htb : Bytes tpl) (hmb : Bytes mask) (hw : 0 < tpl.w) (hh : 0 < tpl.h)
    (hiw : tpl.w ≤ im.w) (hih : tpl.h ≤ im.h) (hm : tpl.w = mask.w ∧ tpl.h = mask.h) :
    (∃ a b, matchTemplate32 im tpl m = some a ∧ matchTemplateParallel32 im tpl m = some b ∧
      Image.Same b a) ∧
    ∃ a b, matchTemplateMask32 im tpl mask m = some a ∧
      matchTemplateMaskParallel32 im tpl mask m = some b ∧ Image.Same b a := by
  constructor
  · obtain ⟨sc, e, hsc⟩ := scorer32_spec im tpl m hb htb hw hh
    obtain ⟨a, a1, -⟩ := scoreImage_spec hiw hih hsc
    obtain ⟨b, b1, b2⟩ := parallel_same hiw hih (fun x y hx hy => ⟨_, hsc x y hx hy⟩) a1
    exact ⟨a, b, by unfold matchTemplate32; rw [e]; exact a1,
      by unfold matchTemplateParallel32; rw [e]; exact b1, b2⟩
  · obtain ⟨sc, e, hsc⟩ := scorerMask32_spec im tpl mask m hb htb hmb hw hh hm
    obtain ⟨a, a1, -⟩ := scoreImage_spec hiw hih hsc
    obtain ⟨b, b1, b2⟩ := parallel_same hiw hih (fun x y hx hy => ⟨_, hsc x y hx hy⟩) a1
    exact ⟨a, b, by unfold matchTemplateMask32; rw [if_pos hm, e]; exact a1,
      by unfold matchTemplateMaskParallel32; rw [if_pos hm, e]; exact b1, b2⟩

/-- **C122.** The two unnormalised scores are exact as long as they do not exceed `2^24`. -/
theorem C122_exact (im tpl mask : Image Nat) (x y : Nat) :
    (score .sse im tpl mask x y ≤ 2 ^ 24 →
      score32 .sse im tpl mask x y = score .sse im tpl mask x y) ∧
    (score .ccorr im tpl mask x y ≤ 2 ^ 24 →
      score32 .ccorr im tpl mask x y = score .ccorr im tpl mask x y) :=
  ⟨fun h => (win32_exact im tpl mask x y gSse (fun i t m => ((t - i) * m) ^ 2) gSse_cast h).1,
   fun h => (win32_exact im tpl mask x y gCc (fun i t m => t * i * m ^ 2) gCc_cast h).1⟩

/-- **C122.** A score of zero of the squared differences, normalised or not, means a perfect match on
the mask, despite rounding. -/
theorem C122_zero (im tpl mask : Image Nat) (x y : Nat) (hb : Bytes im)
    (htb : Bytes tpl) (hmb : Bytes mask) (hm : tpl.w = mask.w ∧ tpl.h = mask.h)
    (hn : tpl.w * tpl.h ≤ 2 ^ 20) (hx : x + tpl.w ≤ im.w) (hy : y + tpl.h ≤ im.h) (m : Method)
    (hms : m = .sse ∨ m = .sseNorm) :
    score32 m im tpl mask x y = 0 ↔ ∀ dx dy, dx < tpl.w → dy < tpl.h → mask.px dx dy ≠ 0 →
      im.px (x + dx) (y + dy) = tpl.px dx dy := by
  have r := score32_rel im tpl mask m x y hb htb hmb hm hn hx hy
  have e : score32 m im tpl mask x y = 0 ↔ score m im tpl mask x y = 0 := by
    obtain ⟨a, b, c, d⟩ := r
    have p := pow_pos base_pos (2 * (tpl.w * tpl.h) + 5)
    constructor
    · intro h
      rw [h] at c
      nlinarith
    · intro h
      rw [h] at d
      nlinarith
  rw [e]
  have z := C67_zero_masked im tpl mask x y
  rcases hms with rfl | rfl
  · exact z.1
  · exact z.2

/-- **C122.** A patch that is nowhere farther from the template never scores a larger squared
difference. -/
theorem C122_monotone (im im' tpl mask : Image Nat) (x y x' y' : Nat)
    (h : ∀ dx dy, dx < tpl.w → dy < tpl.h → mask.px dx dy ≠ 0 →
      |(tpl.px dx dy : Int) - im.px (x + dx) (y + dy)| ≤
      |(tpl.px dx dy : Int) - im'.px (x' + dx) (y' + dy)|) :
    score32 .sse im tpl mask x y ≤ score32 .sse im' tpl mask x' y' := by
  refine fsum_mono _ _ _ fun p hp => rnd_mono (by norm_num) ?_
  obtain ⟨h1, h2⟩ := mem_cells.1 hp
  rcases Nat.eq_zero_or_pos (mask.px p.1 p.2) with h0 | h0
  · rw [h0]; simp [gSse]
  · have := h p.1 p.2 h1 h2 (by omega)
    have hle : gSse (im.px (x + p.1) (y + p.2)) (tpl.px p.1 p.2) (mask.px p.1 p.2) ≤
        gSse (im'.px (x' + p.1) (y' + p.2)) (tpl.px p.1 p.2) (mask.px p.1 p.2) := by
      unfold gSse
      refine Nat.pow_le_pow_left (Nat.mul_le_mul_right _ ?_) 2
      rw [Int.abs_eq_natAbs, Int.abs_eq_natAbs] at this
      exact_mod_cast this
    exact_mod_cast hle

/-- **C122.** A perfect match scores exactly one in normalised cross-correlation, at any size and in
spite of all roundings, unless the template is black on the mask. -/
theorem C122_perfect (im tpl mask : Image Nat) (x y : Nat)
    (h : ∀ dx dy, dx < tpl.w → dy < tpl.h → mask.px dx dy ≠ 0 →
      im.px (x + dx) (y + dy) = tpl.px dx dy)
    (hne : ∃ dx dy, dx < tpl.w ∧ dy < tpl.h ∧ mask.px dx dy ≠ 0 ∧ tpl.px dx dy ≠ 0) :
    score32 .ccorrNorm im tpl mask x y = 1 := by
  have e1 : win32 im tpl mask x y gCc = win32 im tpl mask x y gTt := by
    unfold win32
    congr 1
    refine List.map_congr_left fun p hp => ?_
    obtain ⟨h1, h2⟩ := mem_cells.1 hp
    congr 2
    unfold gCc gTt
    rcases Nat.eq_zero_or_pos (mask.px p.1 p.2) with h0 | h0
    · rw [h0]; ring
    · rw [h _ _ h1 h2 (by omega)]; ring
  have e2 : win32 im tpl mask x y gIi = win32 im tpl mask x y gTt := by
    unfold win32
    congr 1
    refine List.map_congr_left fun p hp => ?_
    obtain ⟨h1, h2⟩ := mem_cells.1 hp
    congr 2
    unfold gIi gTt
    rcases Nat.eq_zero_or_pos (mask.px p.1 p.2) with h0 | h0
    · rw [h0]; ring
    · rw [h _ _ h1 h2 (by omega)]
  have hr := (win32_rel im tpl mask x y gTt (fun _ t m => (t * m) ^ 2) gTt_cast).2
  have h1 : 1 ≤ win32 im tpl mask x y gTt := by
    obtain ⟨dx, dy, a, b, c, d⟩ := hne
    refine one_le_fsum _ ?_ (List.mem_map_of_mem (a := (dx, dy)) (mem_cells.2 ⟨a, b⟩)) ?_
    · intro v hv
      obtain ⟨p, -, rfl⟩ := List.mem_map.1 hv
      exact rnd_nonneg (by positivity)
    · refine le_rnd (by norm_num) rep_one_sum ?_
      have : 1 ≤ (tpl.px dx dy * mask.px dx dy) ^ 2 :=
        Nat.one_le_pow _ _ (Nat.mul_pos (by omega) (by omega))
      exact_mod_cast this
  show normalise32 _ _ _ = 1
  rw [e1, e2]
  generalize win32 im tpl mask x y gTt = S at *
  unfold normalise32
  rw [sqrt_sq_exact hr h1, if_pos (by linarith), div_self (by linarith)]
  exact rnd_of_rep (by norm_num) rep_one_sum

/-- **C122.** Normalised cross-correlation stays between zero and one, and so never exceeds the score
of a perfect match, when the sums of squares of the patch and of the template are at most `2^24`
(always the case for 258 pixels or fewer without a mask).  Part of the full claim, which would be for
all sizes: see `C122_negation`. -/
theorem C122_bound_partial (im tpl mask : Image Nat) (x y : Nat)
    (ht : window im tpl mask x y (fun _ t m => (t * m) ^ 2 : ℝ → ℝ → ℝ → ℝ) ≤ 2 ^ 24)
    (hi : window im tpl mask x y (fun i _ m => (i * m) ^ 2 : ℝ → ℝ → ℝ → ℝ) ≤ 2 ^ 24) :
    0 ≤ score32 .ccorrNorm im tpl mask x y ∧ score32 .ccorrNorm im tpl mask x y ≤ 1 := by
  have hc := window_cauchy im tpl mask x y
  have t0 : 0 ≤ window im tpl mask x y (fun _ t m => (t * m) ^ 2 : ℝ → ℝ → ℝ → ℝ) :=
    sum_nonneg fun _ _ => sum_nonneg fun _ _ => by positivity
  have i0 : 0 ≤ window im tpl mask x y (fun i _ m => (i * m) ^ 2 : ℝ → ℝ → ℝ → ℝ) :=
    sum_nonneg fun _ _ => sum_nonneg fun _ _ => by positivity
  have c0 : 0 ≤ window im tpl mask x y (fun i t m => t * i * m ^ 2 : ℝ → ℝ → ℝ → ℝ) :=
    sum_nonneg fun _ _ => sum_nonneg fun _ _ => by positivity
  have hcle : window im tpl mask x y (fun i t m => t * i * m ^ 2 : ℝ → ℝ → ℝ → ℝ) ≤ 2 ^ 24 := by
    refine abs_le_of_sq_le_sq' ?_ (by norm_num) |>.2
    refine le_trans hc ?_
    calc _ ≤ (2 : ℝ) ^ 24 * 2 ^ 24 := mul_le_mul ht hi i0 (by norm_num)
      _ = _ := by norm_num
  obtain ⟨et, -⟩ := win32_exact im tpl mask x y gTt (fun _ t m => (t * m) ^ 2) gTt_cast ht
  obtain ⟨ei, -⟩ := win32_exact im tpl mask x y gIi (fun i _ m => (i * m) ^ 2) gIi_cast hi
  obtain ⟨ec, n, hn, hn24⟩ := win32_exact im tpl mask x y gCc (fun i t m => t * i * m ^ 2) gCc_cast hcle
  show 0 ≤ normalise32 _ _ _ ∧ normalise32 _ _ _ ≤ 1
  rw [et, ei, ec]
  rw [hn] at hc ⊢
  generalize window im tpl mask x y (fun _ t m => (t * m) ^ 2 : ℝ → ℝ → ℝ → ℝ) = a at *
  generalize window im tpl mask x y (fun i _ m => (i * m) ^ 2 : ℝ → ℝ → ℝ → ℝ) = b at *
  have key : (n : ℝ) ≤ rnd32 (Real.sqrt (rnd32 (a * b))) := by
    rcases Nat.eq_zero_or_pos n with h0 | h0
    · rw [h0, Nat.cast_zero]
      exact rnd_nonneg (Real.sqrt_nonneg _)
    · have hrep : Rep 24 (-149) (n : ℝ) := by
        rw [← rnd32_nat hn24]; exact rep_rnd _
      rw [← sqrt_sq_exact hrep (by exact_mod_cast h0)]
      refine rnd_mono (by norm_num) (Real.sqrt_le_sqrt (rnd_mono (by norm_num) ?_))
      rw [← pow_two]
      exact hc
  unfold normalise32
  split_ifs with hp
  · constructor
    · exact rnd_nonneg (div_nonneg (by positivity) hp.le)
    · refine rnd_le (by norm_num) rep_one_sum ?_
      rw [div_le_one hp]
      exact key
  · constructor
    · positivity
    · linarith

/-- **C122.** For templates of at most 258 pixels a perfect match has a best score, one, in normalised
cross-correlation.  (Full claim: for every template; `C122_negation` has 264 pixels.) -/
theorem C122_best_partial (im tpl : Image Nat) (hb : Bytes im) (htb : Bytes tpl)
    (hw : 0 < tpl.w) (hh : 0 < tpl.h) (hiw : tpl.w ≤ im.w) (hih : tpl.h ≤ im.h)
    (hn : tpl.w * tpl.h ≤ 258) (hne : ∃ dx dy, dx < tpl.w ∧ dy < tpl.h ∧ tpl.px dx dy ≠ 0) :
    ∃ out, matchTemplate32 im tpl .ccorrNorm = some out ∧ ∀ x y, x < out.w → y < out.h →
      0 ≤ out.px x y ∧ out.px x y ≤ 1 ∧ (Matches im tpl x y → out.px x y = 1) := by
  obtain ⟨out, e, h1, h2, h3⟩ := C122_accuracy im tpl .ccorrNorm hb htb hw hh hiw hih
  refine ⟨out, e, fun x y hx hy => ?_⟩
  rw [(h3 x y hx hy).1]
  have bnd : ∀ g' : ℝ → ℝ → ℝ → ℝ, (∀ dx dy, dx < tpl.w → dy < tpl.h →
      g' (im.px (x + dx) (y + dy)) (tpl.px dx dy) ((ones tpl.w tpl.h).px dx dy) ≤ 65025) →
      window im tpl (ones tpl.w tpl.h) x y g' ≤ 2 ^ 24 := by
    intro g' hg
    unfold window
    refine le_trans (sum_le_sum fun dy hy => sum_le_sum fun dx hx =>
      hg dx dy (mem_range.1 hx) (mem_range.1 hy)) ?_
    simp only [sum_const, card_range, nsmul_eq_mul]
    have hn' : (tpl.w : ℝ) * tpl.h ≤ 258 := by exact_mod_cast hn
    norm_num
    linarith
  have sq : ∀ a : Nat, a < 256 → ((a : ℝ) * ((1 : Nat) : ℝ)) ^ 2 ≤ 65025 := by
    intro a ha
    have : (a * 1) ^ 2 ≤ 255 ^ 2 := Nat.pow_le_pow_left (by omega) 2
    have : (((a * 1) ^ 2 : Nat) : ℝ) ≤ ((255 ^ 2 : Nat) : ℝ) := by exact_mod_cast this
    push_cast at this ⊢
    norm_num at this ⊢
    linarith
  obtain ⟨b1, b2⟩ := C122_bound_partial im tpl (ones tpl.w tpl.h) x y
    (bnd _ fun dx dy h h' => sq _ (htb _ _ h h'))
    (bnd _ fun dx dy h h' => sq _ (hb _ _ (by omega) (by omega)))
  refine ⟨b1, b2, fun hm => C122_perfect _ _ _ _ _ (fun dx dy h h' _ => hm dx dy h h') ?_⟩
  obtain ⟨dx, dy, a, b, c⟩ := hne
  exact ⟨dx, dy, a, b, Nat.one_ne_zero, c⟩

/-! ### Where rounding changes the ranking -/

/-- A window of exactly the size of the template. -/
theorem win32_rat (im tpl mask : Image Nat) (x y : Nat) (g : Nat → Nat → Nat → Nat) :
    win32 im tpl mask x y g = ((fsum ((cells tpl.w tpl.h).map fun p =>
      rnd32 (g (im.px (x + p.1) (y + p.2)) (tpl.px p.1 p.2) (mask.px p.1 p.2) : ℚ)) : ℚ) : ℝ) := by
  unfold win32
  rw [← fsum_cast, List.map_map]
  congr 1
  refine List.map_congr_left fun p _ => ?_
  show rnd32 _ = ((rnd32 _ : ℚ) : ℝ)
  have := rnd_cast (K := ℝ) (p := 24) (emin := -149)
    (g (im.px (x + p.1) (y + p.2)) (tpl.px p.1 p.2) (mask.px p.1 p.2) : ℚ)
  rw [Rat.cast_natCast] at this
  exact this

/-- A white template of 264 pixels. -/
def whiteTpl : Image Nat := ⟨264, 1, fun _ _ => 255⟩
/-- First row: all white, a perfect match.  Second row: 263 pixels of value 254 and a white one. -/
def nearWhite : Image Nat := ⟨264, 2, fun x y => if y = 0 then 255 else if x < 263 then 254 else 255⟩

theorem nearWhite_sums :
    win32 nearWhite whiteTpl (ones 264 1) 0 1 gCc = 17099536 ∧
    win32 nearWhite whiteTpl (ones 264 1) 0 1 gTt = 17166596 ∧
    win32 nearWhite whiteTpl (ones 264 1) 0 1 gIi = 17032732 := by
  rw [win32_rat, win32_rat, win32_rat]
  refine ⟨?_, ?_, ?_⟩ <;> norm_cast <;> decide +kernel

theorem rnd32_ratCast (q r : ℚ) (h : rnd32 q = r) : rnd32 (q : ℝ) = r := by
  rw [← h]
  exact rnd_cast q

theorem nearWhite_score : score32 .ccorrNorm nearWhite whiteTpl (ones 264 1) 0 1 = 1 + 1 / 2 ^ 22 := by
  obtain ⟨h1, h2, h3⟩ := nearWhite_sums
  show normalise32 _ _ _ = _
  rw [h1, h2, h3]
  have p1 : rnd32 ((17166596 : ℝ) * 17032732) = 292394025091072 := by
    have := rnd32_ratCast (17166596 * 17032732) 292394025091072 (by decide +kernel)
    push_cast at this
    exact this
  have lo : (17099532 : ℝ) - 1 < Real.sqrt 292394025091072 := Real.lt_sqrt_of_sq_lt (by norm_num)
  have hi : Real.sqrt 292394025091072 < (17099532 : ℝ) + 1 := by
    rw [Real.sqrt_lt' (by norm_num)]
    norm_num
  have p2 : rnd32 (Real.sqrt 292394025091072) = 17099532 := by
    have hp : 0 ≤ Real.sqrt 292394025091072 := Real.sqrt_nonneg _
    have := rnd_eval (p := 24) (emin := -149) (x := Real.sqrt 292394025091072) 24 (17099532 / 2)
      (by rw [abs_of_nonneg hp]; norm_num at *; linarith)
      (by rw [abs_of_nonneg hp]; norm_num at *; linarith)
      (roundEven_near (by
        rw [show max (24 + 1 - ((24 : Nat) : Int)) (-149) = 1 by norm_num, abs_lt]
        norm_num at *
        constructor <;> linarith))
    rw [show rnd32 (Real.sqrt 292394025091072) = _ from this]
    norm_num
  unfold normalise32
  rw [p1, p2, if_pos (by norm_num)]
  have := rnd32_ratCast (17099536 / 17099532) (1 + 1 / 2 ^ 22) (by decide +kernel)
  push_cast at this
  exact this

/-- **C122, negation** of the claim that a perfect match has the best score: with normalised
cross-correlation, a white template of 264 pixels scores 1 where it matches exactly and
`1 + 2^-22` on a patch that differs from it in 263 pixels and is not proportional to it. -/
theorem C122_negation :
    ∃ out, matchTemplate32 nearWhite whiteTpl .ccorrNorm = some out ∧
      Matches nearWhite whiteTpl 0 0 ∧ ¬ Matches nearWhite whiteTpl 0 1 ∧
      score .ccorrNorm nearWhite whiteTpl (ones 264 1) 0 1 < 1 ∧
      out.w = 1 ∧ out.h = 2 ∧ out.px 0 0 = 1 ∧ out.px 0 1 = 1 + 1 / 2 ^ 22 := by
  obtain ⟨out, e, h1, h2, h3⟩ := C122_accuracy nearWhite whiteTpl .ccorrNorm
    (by
      intro x y _ _
      show (if y = 0 then 255 else if x < 263 then 254 else 255) < 256
      split_ifs <;> norm_num)
    (by intro x y _ _; show 255 < 256; norm_num)
    (by show 0 < 264; norm_num) (by show 0 < 1; norm_num) (le_refl _) (by show 1 ≤ 2; norm_num)
  have h1 : out.w = 1 := h1
  have h2 : out.h = 2 := h2
  have mt : Matches nearWhite whiteTpl 0 0 := by
    intro dx dy _ hdy
    have hdy : dy < 1 := hdy
    show (if 0 + dy = 0 then 255 else _) = 255
    rw [if_pos (by omega)]
  refine ⟨out, e, mt, ?_, ?_, h1, h2, ?_, ?_⟩
  · intro h
    exact absurd (h 0 0 (by show 0 < 264; norm_num) (by show 0 < 1; norm_num)) (by decide)
  · refine lt_of_le_of_ne (C67_bound _ _ _ _ _).2 fun h => ?_
    obtain ⟨c, -, hc, -⟩ := (C67_one _ _ _ _ _).1 h
    have a := hc 0 0 (by show 0 < 264; norm_num) (by show 0 < 1; norm_num) (by decide)
    have b := hc 263 0 (by show 263 < 264; norm_num) (by show 0 < 1; norm_num) (by decide)
    have a : ((254 : Nat) : ℝ) = c * (255 : Nat) := a
    have b : ((255 : Nat) : ℝ) = c * (255 : Nat) := b
    rw [← a] at b
    norm_num at b
  · rw [(h3 0 0 (by omega) (by omega)).1]
    exact C122_perfect _ _ _ _ _ (fun dx dy h h' _ => mt dx dy h h')
      ⟨0, 0, by show 0 < 264; norm_num, by show 0 < 1; norm_num, by decide, by decide⟩
  · rw [(h3 0 1 (by omega) (by omega)).1]
    exact nearWhite_score

/-- A black template of 278 pixels. -/
def blackTpl : Image Nat := ⟨278, 1, fun _ _ => 0⟩
/-- Two rows starting with 259 white pixels.  First row: then 19 pixels of value 1.  Second row: then
one pixel of value 2 and black ones. -/
def twoRows : Image Nat := ⟨278, 2, fun x y =>
  if x < 259 then 255 else if y = 0 then 1 else if x = 259 then 2 else 0⟩

theorem twoRows_sums :
    win32 twoRows blackTpl (ones 278 1) 0 0 gSse = 16841476 ∧
    win32 twoRows blackTpl (ones 278 1) 0 1 gSse = 16841480 := by
  rw [win32_rat, win32_rat]
  refine ⟨?_, ?_⟩ <;> norm_cast <;> decide +kernel

/-- **C122, negation** of the claim that the sum of squared differences ranks patches correctly: the
first patch is farther from the template (by 15) but scores lower (by 4). -/
theorem C122_negation_order :
    score .sse twoRows blackTpl (ones 278 1) 0 0 = 16841494 ∧
    score .sse twoRows blackTpl (ones 278 1) 0 1 = 16841479 ∧
    ∃ out, matchTemplate32 twoRows blackTpl .sse = some out ∧ out.w = 1 ∧ out.h = 2 ∧
      out.px 0 0 = 16841476 ∧ out.px 0 1 = 16841480 := by
  refine ⟨?_, ?_, ?_⟩
  · show window (R := ℝ) twoRows blackTpl (ones 278 1) 0 0 (fun i t m => ((t - i) * m) ^ 2) = _
    rw [window_nat _ _ _ _ _ gSse _ gSse_cast]
    have : ((cells blackTpl.w blackTpl.h).map fun p => gSse (twoRows.px (0 + p.1) (0 + p.2))
        (blackTpl.px p.1 p.2) ((ones 278 1).px p.1 p.2)).sum = 16841494 := by decide +kernel
    have h : ((((cells blackTpl.w blackTpl.h).map fun p => gSse (twoRows.px (0 + p.1) (0 + p.2))
        (blackTpl.px p.1 p.2) ((ones 278 1).px p.1 p.2)).sum : Nat) : ℝ) = ((16841494 : Nat) : ℝ) := by
      rw [this]
    rw [Nat.cast_list_sum, List.map_map] at h
    exact h
  · show window (R := ℝ) twoRows blackTpl (ones 278 1) 0 1 (fun i t m => ((t - i) * m) ^ 2) = _
    rw [window_nat _ _ _ _ _ gSse _ gSse_cast]
    have : ((cells blackTpl.w blackTpl.h).map fun p => gSse (twoRows.px (0 + p.1) (1 + p.2))
        (blackTpl.px p.1 p.2) ((ones 278 1).px p.1 p.2)).sum = 16841479 := by decide +kernel
    have h : ((((cells blackTpl.w blackTpl.h).map fun p => gSse (twoRows.px (0 + p.1) (1 + p.2))
        (blackTpl.px p.1 p.2) ((ones 278 1).px p.1 p.2)).sum : Nat) : ℝ) = ((16841479 : Nat) : ℝ) := by
      rw [this]
    rw [Nat.cast_list_sum, List.map_map] at h
    exact h
  · obtain ⟨out, e, h1, h2, h3⟩ := C122_accuracy twoRows blackTpl .sse
      (by
        intro x y _ _
        show (if x < 259 then 255 else if y = 0 then 1 else if x = 259 then 2 else 0) < 256
        split_ifs <;> norm_num)
      (by intro x y _ _; show 0 < 256; norm_num)
      (by show 0 < 278; norm_num) (by show 0 < 1; norm_num) (le_refl _) (by show 1 ≤ 2; norm_num)
    have h1 : out.w = 1 := h1
    have h2 : out.h = 2 := h2
    refine ⟨out, e, h1, h2, ?_, ?_⟩
    · rw [(h3 0 0 (by omega) (by omega)).1]
      exact twoRows_sums.1
    · rw [(h3 0 1 (by omega) (by omega)).1]
      exact twoRows_sums.2

example : fsum ([3, 4, 16777216, 1].map (Nat.cast : Nat → ℚ)) = 16777224 := by decide +kernel

example : (scoreImage (Image.ofRows 0 [[1, 4, 2], [2, 1, 3], [3, 3, 4]]) (Image.ofRows 0 [[1, 4], [2, 1]])
    (sse32At (K := ℚ) (Image.ofRows 0 [[1, 4, 2], [2, 1, 3], [3, 3, 4]])
      (Image.ofRows 0 [[1, 4], [2, 1]]))).map Image.rows = some [[0, 18], [15, 11]] := by
  decide +kernel

end Verif.Float
