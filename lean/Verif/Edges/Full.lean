import Verif.Edges.Direction
import Verif.Filter.Separable
import Verif.Gradients.Props
import Mathlib.Analysis.SpecialFunctions.Exp
/-
The complete edge detector `canny`, `/repo/src/edges.rs:30-53`, from the input image on, over the
real numbers: Gaussian blur, Sobel filters, strength, suppression and hysteresis.  The rounding of
`f32` arithmetic is not modelled.  Property theorem C115.
-/
namespace Verif.Edges
open Real Verif.Filter Verif.Gradients

/-- `gaussian_pdf`, filter/mod.rs:128-131. -/
noncomputable def gaussianPdf (x sigma : ℝ) : ℝ :=
  (sigma * √(2 * π))⁻¹ * exp (-x ^ 2 / (2 * sigma ^ 2))

/-- `Clamp<f32> for u8`, definitions.rs:89-103, 122. -/
noncomputable def clampU8 (v : ℝ) : Nat := if v < 255 then if v > 0 then ⌊v⌋₊ else 0 else 255

/-- `gaussian_blur_f32` of an 8-bit image, filter/mod.rs:158-166 with `gaussian_kernel_f32`
(135-147); a non-positive `sigma` panics (163). -/
noncomputable def gaussianBlur {ι : Type _} (im : Image (ι → Nat)) (sigma : ℝ) :
    Option (Image (ι → Nat)) :=
  if sigma > 0 then
    (gaussianKernel (fun i => gaussianPdf i sigma) ⌈2 * sigma⌉₊).bind fun ker =>
      separableFilter (fun v : Nat => (v : ℝ)) clampU8 0 im ker ker
  else none

/-- `canny`, edges.rs:30-53; the grayscale image has the single channel `()`. -/
noncomputable def cannyImage (im : Image (Unit → Nat)) (lo hi : ℝ) : Option (Image Nat) :=
  if hi ≥ lo then
    (gaussianBlur im 1.4).bind fun blurred =>
    (horizontalSobel blurred).bind fun gx =>
    (verticalSobel blurred).bind fun gy =>
    canny sectorOf (fun h v => √((h : ℝ) ^ 2 + (v : ℝ) ^ 2)) ⟨gx.w, gx.h, fun x y => gx.px x y ()⟩
      ⟨gy.w, gy.h, fun x y => gy.px x y ()⟩ lo hi
  else none

/-! ### Specification -/

/-- Edge strength: length of the Sobel gradient. -/
noncomputable def strength (im : Image (Unit → Nat)) (x y : Nat) : ℝ :=
  √((hDiff 1 2 im () x y : ℝ) ^ 2 + (vDiff 1 2 im () x y : ℝ) ^ 2)

/-- An interior pixel of strength at least `v` and at least that of its two neighbours along the
gradient. -/
def Edge (im : Image (Unit → Nat)) (v : ℝ) (p : Nat × Nat) : Prop :=
  1 ≤ p.1 ∧ p.1 + 1 < im.w ∧ 1 ≤ p.2 ∧ p.2 + 1 < im.h ∧ v ≤ strength im p.1 p.2 ∧
  let n := along p.1 p.2 (sectorOf (hDiff 1 2 im () p.1 p.2) (vDiff 1 2 im () p.1 p.2))
  strength im n.1.1 n.1.2 ≤ strength im p.1 p.2 ∧ strength im n.2.1 n.2.2 ≤ strength im p.1 p.2

/-! ### Proofs -/

/-- C89: the detector's exact result: a pixel is an edge exactly when it is reached from a local
maximum of strength at least `high` by steps to the right, down, down-right, left, up-left and
down-left through local maxima of strength at least `low`. -/
theorem C89_exact {α β : Type _} [LinearOrder α] [Zero α] (sector : β → β → Sector) (mag : β → β → α)
    (gx gy : Image β) (lo hi : α) (h0 : 0 < lo) (hlh : lo ≤ hi) (hw : 0 < gx.w) (hh : 0 < gx.h)
    (hyw : gy.w = gx.w) (hyh : gy.h = gx.h) :
    let g : Image α := ⟨gx.w, gx.h, fun x y => mag (gx.px x y) (gy.px x y)⟩
    let peak : α → Nat × Nat → Prop := fun v p =>
      LocalMax sector g gx gy p.1 p.2 ∧ v ≤ mag (gx.px p.1 p.2) (gy.px p.1 p.2)
    ∃ out, canny sector mag gx gy lo hi = some out ∧ out.w = gx.w ∧ out.h = gx.h ∧
      ∀ a b, a < gx.w → b < gx.h → (out.px a b = 0 ∨ out.px a b = 255) ∧
        (out.px a b = 255 ↔ ∃ s, peak hi s ∧
          Relation.ReflTransGen (fun p q => Nbr6 p q ∧ peak lo q) s (a, b)) := by
  intro g peak
  unfold canny
  rw [if_pos hlh]
  obtain ⟨th, e, t1, t2, t3⟩ := C89_suppression sector g gx gy hw hh rfl rfl hyw hyh
  rw [show (⟨gx.w, gx.h, fun x y => mag (gx.px x y) (gy.px x y)⟩ : Image α) = g from rfl, e,
    Option.bind_some]
  have t1' : th.w = gx.w := t1
  have t2' : th.h = gx.h := t2
  have hpeak : ∀ v, lo ≤ v → ∀ p, AtLeast th v p ↔ peak v p := by
    intro v hv p
    constructor
    · rintro ⟨h1, h2, h3⟩
      rw [t1'] at h1
      rw [t2'] at h2
      by_cases hl : LocalMax sector g gx gy p.1 p.2
      · rw [(t3 p.1 p.2 h1 h2).1 hl] at h3
        exact ⟨hl, h3⟩
      · rw [(t3 p.1 p.2 h1 h2).2 hl] at h3
        exact absurd (lt_of_lt_of_le h0 (le_trans hv h3)) (lt_irrefl _)
    · rintro ⟨hl, h⟩
      have hl' := hl
      obtain ⟨h1, h2, h3, h4, -⟩ := hl'
      have h2' : p.1 < gx.w := by have : p.1 + 1 < gx.w := h2; omega
      have h4' : p.2 < gx.h := by have : p.2 + 1 < gx.h := h4; omega
      refine ⟨by omega, by omega, ?_⟩
      rw [(t3 p.1 p.2 h2' h4').1 hl]
      exact h
  have hb : BorderClear th lo := by
    intro p hp
    obtain ⟨⟨h1, h2, h3, h4, -⟩, -⟩ := (hpeak lo (le_refl _) p).1 hp
    rw [t1', t2']
    exact ⟨h1, h2, h3, h4⟩
  obtain ⟨out, o1, ow, oh, o2⟩ := C50_exact th lo hi hb hlh (by omega) (by omega)
  refine ⟨out, o1, ow.trans t1', oh.trans t2', fun a b ha hb' => ?_⟩
  obtain ⟨p1, p2⟩ := o2 a b (by omega) (by omega)
  have hk : Kept Nbr6 th lo hi (a, b) ↔ ∃ s, peak hi s ∧
      Relation.ReflTransGen (fun p q => Nbr6 p q ∧ peak lo q) s (a, b) := by
    have : (fun p q => Nbr6 p q ∧ AtLeast th lo q) = fun p q => Nbr6 p q ∧ peak lo q := by
      funext p q
      rw [hpeak lo (le_refl _) q]
    unfold Kept Joined
    rw [this]
    simp only [hpeak hi hlh]
  rw [← hk]
  by_cases h : Kept Nbr6 th lo hi (a, b)
  · exact ⟨Or.inr (p1 h), fun _ => h, p1⟩
  · refine ⟨Or.inl (p2 h), fun h' => ?_, fun h' => absurd h' h⟩
    rw [p2 h] at h'
    cases h'

theorem clampU8_bounds : (∀ (a : Nat) (v : ℝ), (a : ℝ) ≤ v → a ≤ 255 → (a : ℝ) ≤ clampU8 v) ∧
    (∀ (b : Nat) (v : ℝ), v ≤ b → (clampU8 v : ℝ) ≤ b) ∧ ∀ v, clampU8 v ≤ 255 := by
  unfold clampU8
  refine ⟨fun a v h ha => ?_, fun b v h => ?_, fun v => ?_⟩
  · split_ifs with h1 h2
    · exact_mod_cast (Nat.le_floor h)
    · have : (a : ℝ) ≤ 0 := by linarith
      exact_mod_cast this
    · exact_mod_cast ha
  · split_ifs with h1 h2
    · exact le_trans (Nat.floor_le h2.le) h
    · exact_mod_cast Nat.zero_le b
    · have : (255 : ℝ) ≤ b := by linarith
      exact_mod_cast this
  · split_ifs with h1 h2
    · have : ⌊v⌋₊ < 255 := by rw [Nat.floor_lt h2.le]; exact_mod_cast h1
      omega
    · omega
    · omega

theorem gaussianPdf_pos {sigma : ℝ} (h : 0 < sigma) (x : ℝ) : 0 < gaussianPdf x sigma := by
  unfold gaussianPdf
  have := pi_pos
  positivity

/-- **C88.** `gaussian_blur_f32` with a positive `sigma` returns, for every 8-bit image, an 8-bit
image of the same size; bounds on the values of a channel carry over. -/
theorem C88_gaussian {ι : Type _} (im : Image (ι → Nat)) (hu : IsU8 im) (sigma : ℝ) (hs : 0 < sigma) :
    ∃ out, gaussianBlur im sigma = some out ∧ out.w = im.w ∧ out.h = im.h ∧ IsU8 out ∧
      ∀ c a b, (∀ x y, x < im.w → y < im.h → a ≤ im.px x y c ∧ im.px x y c ≤ b) →
        ∀ x y, x < im.w → y < im.h → a ≤ out.px x y c ∧ out.px x y c ≤ b := by
  obtain ⟨out, e, o1, o2, o3⟩ := C88_blur_range (fun v : Nat => (v : ℝ)) clampU8 0
    (fun i => gaussianPdf i sigma) ⌈2 * sigma⌉₊ (gaussianPdf_pos hs _)
    (fun i => (gaussianPdf_pos hs _).le) im hu.1 hu.2.1
  obtain ⟨b1, b2, b3⟩ := clampU8_bounds
  have range : ∀ c a b, (∀ x y, x < im.w → y < im.h → a ≤ im.px x y c ∧ im.px x y c ≤ b) →
        ∀ x y, x < im.w → y < im.h → a ≤ out.px x y c ∧ out.px x y c ≤ b := by
    intro c a b hab x y hx hy
    have ha : a ≤ 255 := le_trans (hab x y hx hy).1 (hu.2.2 x y c hx hy)
    have := o3 c a b (fun v h => b1 a v h ha) (fun v h => b2 b v h)
      (fun x y hx hy => by exact_mod_cast hab x y hx hy) x y hx hy
    exact_mod_cast this
  refine ⟨out, by unfold gaussianBlur; rw [if_pos hs, e], o1, o2, ⟨by rw [o1]; exact hu.1,
    by rw [o2]; exact hu.2.1, fun x y c hx hy => ?_⟩, range⟩
  rw [o1] at hx
  rw [o2] at hy
  exact (range c 0 255 (fun x y hx hy => ⟨Nat.zero_le _, hu.2.2 x y c hx hy⟩) x y hx hy).2

/-- **C88.** The weights of `gaussian_blur_f32`: with `r` the rounded up double of `sigma`, the image is
replaced first along rows, then along columns, by the means weighted with
`exp (-d² / (2 sigma²))`, `-r ≤ d ≤ r`, divided by their sum; both times the value is rounded down. -/
theorem C88_gaussian_weights {ι : Type _} (im : Image (ι → Nat)) (hu : IsU8 im) (sigma : ℝ)
    (hs : 0 < sigma) (r : Nat) (hr : r = ⌈2 * sigma⌉₊) :
    let g : Nat → ℝ := fun j => exp (-(j - r : ℝ) ^ 2 / (2 * sigma ^ 2)) /
      ∑ i ∈ Finset.range (2 * r + 1), exp (-(i - r : ℝ) ^ 2 / (2 * sigma ^ 2))
    ∃ mid out : Image (ι → Nat), gaussianBlur im sigma = some out ∧
      mid.w = im.w ∧ mid.h = im.h ∧ out.w = im.w ∧ out.h = im.h ∧
      ∀ x y c, x < im.w → y < im.h →
        mid.px x y c = ⌊∑ j ∈ Finset.range (2 * r + 1),
          g j * im.px (clampTo im.w ((x : Int) + j - r)) y c⌋₊ ∧
        out.px x y c = ⌊∑ j ∈ Finset.range (2 * r + 1),
          g j * mid.px x (clampTo im.h ((y : Int) + j - r)) c⌋₊ := by
  intro g
  obtain ⟨ker, k1, k2, k3⟩ := C88_kernel (fun i => gaussianPdf i sigma) r
  obtain ⟨ker', k1', -, k4, k5⟩ := C88_kernel_normalised (fun i => gaussianPdf i sigma) r
    (gaussianPdf_pos hs _) (fun i => (gaussianPdf_pos hs _).le)
  rw [k1, Option.some.injEq] at k1'
  subst k1'
  have hg : ∀ j, j < 2 * r + 1 → ker.getD j 0 = g j := by
    intro j hj
    rw [k3 j hj]
    have hpdf : ∀ i : Nat, gaussianPdf (((i : Int) - r).natAbs : ℝ) sigma =
        (sigma * √(2 * π))⁻¹ * exp (-(i - r : ℝ) ^ 2 / (2 * sigma ^ 2)) := by
      intro i
      unfold gaussianPdf
      rw [show ((((i : Int) - r).natAbs : ℝ)) = |((i : ℝ) - r)| by
        rw [Nat.cast_natAbs]; push_cast; rfl, sq_abs]
    simp only [hpdf]
    rw [← Finset.mul_sum, mul_div_mul_left _ _ (by have := pi_pos; positivity)]
  obtain ⟨out, e, o1, o2, o3⟩ := separable_spec (fun v : Nat => (v : ℝ)) clampU8 0 im ker ker rfl
    hu.1 hu.2.1
  -- rounding down is the only effect of clamping a weighted mean
  have hcl : ∀ v : Nat → Nat, (∀ j, v j ≤ 255) →
      clampU8 (∑ j ∈ Finset.range ker.length, ker.getD j 0 * (v j : ℝ)) =
        ⌊∑ j ∈ Finset.range (2 * r + 1), g j * (v j : ℝ)⌋₊ := by
    intro v hv
    have hb := mean_bounds ker.length (fun j => ker.getD j 0) (fun j => (v j : ℝ)) 0 255 k4 k5
      (fun j _ => ⟨by positivity, by exact_mod_cast hv j⟩)
    rw [show ∑ j ∈ Finset.range (2 * r + 1), g j * (v j : ℝ) =
        ∑ j ∈ Finset.range ker.length, ker.getD j 0 * (v j : ℝ) by
      rw [k2]
      exact Finset.sum_congr rfl fun j hj => by rw [hg j (Finset.mem_range.1 hj)]]
    generalize ∑ j ∈ Finset.range ker.length, ker.getD j 0 * (v j : ℝ) = t at hb
    unfold clampU8
    split_ifs with h1 h2
    · rfl
    · rw [show t = 0 by linarith [hb.1]]; simp
    · rw [show t = 255 by linarith [hb.2]]; norm_num
  have hlen2 : (ker.length : Int) / 2 = r := by omega
  refine ⟨⟨im.w, im.h, fun x y c => clampU8 (corr (fun v : Nat => (v : ℝ)) im ker.length 1
    (weights ker ker.length) x y c)⟩, out, by unfold gaussianBlur; rw [if_pos hs, ← hr, k1, Option.bind_some, e],
    rfl, rfl, o1, o2, fun x y c hx hy => ⟨?_, ?_⟩⟩
  · dsimp only
    rw [corr_eq_sum, Finset.sum_range_one]
    simp only [weights, Nat.zero_mul, Nat.zero_add, hlen2]
    have hy0 : clampTo im.h ((y : Int) + ((0 : Nat) : Int) - ((1 : Nat) : Int) / 2) = y := by
      rw [show ((y : Int) + ((0 : Nat) : Int) - ((1 : Nat) : Int) / 2) = y by omega, clampTo_of_mem hy]
    rw [hy0]
    exact hcl (fun j => im.px (clampTo im.w ((x : Int) + j - r)) y c)
      (fun j => hu.2.2 _ _ _ (clampTo_lt (by omega) _) hy)
  · rw [o3 x y hx hy, corr_eq_sum]
    simp only [Finset.sum_range_one, weights, Nat.mul_one, Nat.add_zero, hlen2]
    have hx0 : clampTo im.w ((x : Int) + ((0 : Nat) : Int) - ((1 : Nat) : Int) / 2) = x := by
      rw [show ((x : Int) + ((0 : Nat) : Int) - ((1 : Nat) : Int) / 2) = x by omega, clampTo_of_mem hx]
    rw [hx0]
    exact hcl (fun j => clampU8 (corr (fun v : Nat => (v : ℝ)) im ker.length 1
      (weights ker ker.length) x (clampTo im.h ((y : Int) + j - r)) c)) (fun j => clampU8_bounds.2.2 _)

/-- **C115.** For every non-empty 8-bit image and thresholds `0 < low ≤ high`, `canny` returns a
binary image of the same size: a pixel is white exactly when it is reached, by steps to the right,
down, down-right, left, up-left and down-left through pixels that are edges of strength at least
`low` in the blurred image, from an edge of strength at least `high`. -/
theorem C115_canny (im : Image (Unit → Nat)) (hu : IsU8 im) (hw : 0 < im.w) (hh : 0 < im.h)
    (lo hi : ℝ) (h0 : 0 < lo) (hlh : lo ≤ hi) :
    ∃ blurred out, gaussianBlur im 1.4 = some blurred ∧ IsU8 blurred ∧ blurred.w = im.w ∧
      blurred.h = im.h ∧ cannyImage im lo hi = some out ∧ out.w = im.w ∧ out.h = im.h ∧
      ∀ a b, a < im.w → b < im.h → (out.px a b = 0 ∨ out.px a b = 255) ∧
        (out.px a b = 255 ↔ ∃ s, Edge blurred hi s ∧
          Relation.ReflTransGen (fun p q => Nbr6 p q ∧ Edge blurred lo q) s (a, b)) := by
  obtain ⟨bl, b1, b2, b3, b4, -⟩ := C88_gaussian im hu 1.4 (by norm_num)
  obtain ⟨⟨gx, x1, x2, x3, x4⟩, ⟨gy, y1, y2, y3, y4⟩, -⟩ := C76_values bl b4
  obtain ⟨out, o1, o2, o3, o4⟩ := C89_exact sectorOf (fun h v => √((h : ℝ) ^ 2 + (v : ℝ) ^ 2))
    ⟨gx.w, gx.h, fun x y => gx.px x y ()⟩ ⟨gy.w, gy.h, fun x y => gy.px x y ()⟩ lo hi h0 hlh
    (by dsimp only; omega) (by dsimp only; omega) (by dsimp only; omega) (by dsimp only; omega)
  dsimp only at o2 o3 o4
  refine ⟨bl, out, b1, b4, b2, b3, ?_, by omega, by omega, fun a b ha hb => ?_⟩
  · unfold cannyImage
    rw [if_pos hlh, b1, Option.bind_some, x1, Option.bind_some, y1, Option.bind_some, o1]
  · obtain ⟨p1, p2⟩ := o4 a b (by omega) (by omega)
    refine ⟨p1, p2.trans ?_⟩
    have str : ∀ x y, x < bl.w → y < bl.h →
        √((gx.px x y () : ℝ) ^ 2 + (gy.px x y () : ℝ) ^ 2) = strength bl x y := by
      intro x y hx hy
      rw [x4 x y hx hy, y4 x y hx hy]
      rfl
    have key : ∀ v p, (LocalMax sectorOf ⟨gx.w, gx.h, fun x y => √((gx.px x y () : ℝ) ^ 2 +
        (gy.px x y () : ℝ) ^ 2)⟩ ⟨gx.w, gx.h, fun x y => gx.px x y ()⟩
        ⟨gy.w, gy.h, fun x y => gy.px x y ()⟩ p.1 p.2 ∧
        v ≤ √((gx.px p.1 p.2 () : ℝ) ^ 2 + (gy.px p.1 p.2 () : ℝ) ^ 2)) ↔ Edge bl v p := by
      rintro v ⟨x, y⟩
      unfold LocalMax Edge
      dsimp only
      rw [x2, x3]
      by_cases hin : 1 ≤ x ∧ x + 1 < bl.w ∧ 1 ≤ y ∧ y + 1 < bl.h
      · obtain ⟨i1, i2, i3, i4⟩ := hin
        rw [str x y (by omega) (by omega), x4 x y (by omega) (by omega), y4 x y (by omega) (by omega)]
        have hn : ∀ d, (along x y d).1.1 < bl.w ∧ (along x y d).1.2 < bl.h ∧
            (along x y d).2.1 < bl.w ∧ (along x y d).2.2 < bl.h := by
          intro d
          cases d <;> simp only [along] <;> omega
        obtain ⟨n1, n2, n3, n4⟩ := hn (sectorOf (hDiff 1 2 bl () x y) (vDiff 1 2 bl () x y))
        rw [str _ _ n1 n2, str _ _ n3 n4]
        tauto
      · tauto
    simp only [key]

/-- **C115.** The largest edge strength an 8-bit image can have is `2 * sqrt 5 * 255`. -/
theorem C115_strength (im : Image (Unit → Nat)) (hu : IsU8 im) (x y : Nat) (hx : x < im.w)
    (hy : y < im.h) : strength im x y ≤ √5 * 2 * 255 := by
  have r := fun dx dy => at_range hu () hx hy dx dy
  unfold strength
  have hX : |hDiff 1 2 im () x y| ≤ 1020 ∧ |vDiff 1 2 im () x y| ≤ 1020 ∧
      |hDiff 1 2 im () x y| + |vDiff 1 2 im () x y| ≤ 1530 := by
    unfold hDiff vDiff
    have := r (-1) (-1)
    have := r (-1) 0
    have := r (-1) 1
    have := r 0 (-1)
    have := r 0 1
    have := r 1 (-1)
    have := r 1 0
    have := r 1 1
    refine ⟨?_, ?_, ?_⟩
    · rw [abs_le]; constructor <;> linarith
    · rw [abs_le]; constructor <;> linarith
    · have key : ∀ a b : Int, a + b ≤ 1530 → a - b ≤ 1530 → -a + b ≤ 1530 → -a - b ≤ 1530 →
          |a| + |b| ≤ 1530 := by
        intro a b h1 h2 h3 h4
        rcases abs_cases a with ⟨e, _⟩ | ⟨e, _⟩ <;> rcases abs_cases b with ⟨e', _⟩ | ⟨e', _⟩ <;>
          rw [e, e'] <;> linarith
      apply key <;> linarith
  have hsq : hDiff 1 2 im () x y ^ 2 + vDiff 1 2 im () x y ^ 2 ≤ 1300500 := by
    rw [← sq_abs (hDiff 1 2 im () x y), ← sq_abs (vDiff 1 2 im () x y)]
    obtain ⟨h1, h2, h3⟩ := hX
    have a0 := abs_nonneg (hDiff 1 2 im () x y)
    have b0 := abs_nonneg (vDiff 1 2 im () x y)
    generalize |hDiff 1 2 im () x y| = a at *
    generalize |vDiff 1 2 im () x y| = b at *
    rcases le_total a b with h | h
    · by_cases hb : b ≤ 765
      · nlinarith
      · nlinarith [mul_nonneg (by omega : (0 : Int) ≤ 1020 - b) (by omega : (0 : Int) ≤ b - 510),
          mul_nonneg a0 (by omega : (0 : Int) ≤ 1530 - b - a), mul_nonneg b0 (by omega : (0 : Int) ≤ 1530 - b - a)]
    · by_cases hb : a ≤ 765
      · nlinarith
      · nlinarith [mul_nonneg (by omega : (0 : Int) ≤ 1020 - a) (by omega : (0 : Int) ≤ a - 510),
          mul_nonneg a0 (by omega : (0 : Int) ≤ 1530 - b - a), mul_nonneg b0 (by omega : (0 : Int) ≤ 1530 - b - a)]
  rw [Real.sqrt_le_left (by positivity)]
  have h5 : √5 ^ 2 = 5 := sq_sqrt (by norm_num)
  have : (√5 * 2 * 255) ^ 2 = 1300500 := by rw [mul_pow, mul_pow, h5]; norm_num
  rw [this]
  exact_mod_cast hsq

/-- The bound is attained. -/
example : strength (⟨3, 3, fun x y _ => if 2 ≤ x + y ∧ (x, y) ≠ (0, 2) ∧ (x, y) ≠ (1, 1) then 255 else 0⟩) 1 1 =
    √5 * 2 * 255 := by
  unfold strength
  rw [show hDiff 1 2 ⟨3, 3, fun x y (_ : Unit) => if 2 ≤ x + y ∧ (x, y) ≠ (0, 2) ∧ (x, y) ≠ (1, 1) then 255 else 0⟩ () 1 1 = 1020
    by decide +kernel,
    show vDiff 1 2 ⟨3, 3, fun x y (_ : Unit) => if 2 ≤ x + y ∧ (x, y) ≠ (0, 2) ∧ (x, y) ≠ (1, 1) then 255 else 0⟩ () 1 1 = 510
    by decide +kernel]
  have h5 : √5 ^ 2 = 5 := sq_sqrt (by norm_num)
  rw [Real.sqrt_eq_iff_mul_self_eq (by positivity) (by positivity)]
  push_cast
  nlinarith

/-- **C115.** A high threshold above `2 * sqrt 5 * 255` gives an image without edges, and so does an
image of a single colour. -/
theorem C115_none (im : Image (Unit → Nat)) (hu : IsU8 im) (hw : 0 < im.w) (hh : 0 < im.h)
    (lo hi : ℝ) (h0 : 0 < lo) (hlh : lo ≤ hi)
    (h : √5 * 2 * 255 < hi ∨ ∃ v, ∀ x y, x < im.w → y < im.h → im.px x y () = v) :
    ∃ out, cannyImage im lo hi = some out ∧ ∀ a b, a < im.w → b < im.h → out.px a b = 0 := by
  obtain ⟨bl, out, e1, e2, e3, e4, e5, -, -, e6⟩ := C115_canny im hu hw hh lo hi h0 hlh
  refine ⟨out, e5, fun a b ha hb => ?_⟩
  rcases (e6 a b ha hb).1 with h' | h'
  · exact h'
  exfalso
  obtain ⟨⟨x, y⟩, ⟨s1, s2, s3, s4, s5, -⟩, -⟩ := (e6 a b ha hb).2.1 h'
  dsimp only at s1 s2 s3 s4 s5
  rcases h with h | ⟨v, hv⟩
  · linarith [C115_strength bl e2 x y (by omega) (by omega)]
  · obtain ⟨bl', f1, f2, f3, -, f5⟩ := C88_gaussian im hu 1.4 (by norm_num)
    rw [e1, Option.some.injEq] at f1
    subst f1
    have hc : ∀ x y, x < bl.w → y < bl.h → bl.px x y () = v := by
      intro x y hx hy
      have := f5 () v v (fun x y hx hy => by rw [hv x y hx hy]; exact ⟨le_refl _, le_refl _⟩) x y
        (by omega) (by omega)
      omega
    have := (C76_constant bl () x y v (fun dx dy _ _ _ _ => by
      unfold at'
      rw [hc _ _ (clampTo_lt (by omega) _) (clampTo_lt (by omega) _)])).1 1 2
    unfold strength at s5
    rw [this.1, this.2] at s5
    norm_num at s5
    linarith

end Verif.Edges
