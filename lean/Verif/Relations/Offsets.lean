import Verif.Relations.Gradients
import Verif.Seam.Remove
import Verif.Edges.Full
import Verif.Float.Hog
import Verif.Suppress.Machine
/-
C183: a constant added to every pixel (without saturation) is ignored by everything that works on
gradients: gradient images, seam carving, HOG descriptors, and (exact arithmetic) the Canny
detector.
-/
namespace Verif.Relations
open Verif.Filter Verif.Compose Verif.Gradients Verif.Float Verif.Seam Verif.Edges Finset

variable {ι β : Type _}

/-- Specification: the same size, and every subpixel larger by `d`. -/
structure Raised (d : Nat) (im im' : Image (ι → Nat)) : Prop where
  w : im'.w = im.w
  h : im'.h = im.h
  px : ∀ x y, x < im.w → y < im.h → ∀ c, im'.px x y c = im.px x y c + d

/-! ### Loops that agree on reachable states -/

theorem forRange_congr_inv {σ : Type _} (P : σ → Prop) {f g : Nat → σ → Option σ} {lo hi : Nat} {s : σ}
    (hs : P s) (h : ∀ i s, lo ≤ i → i < hi → P s → f i s = g i s ∧ ∀ s', f i s = some s' → P s') :
    forRange lo hi s f = forRange lo hi s g ∧ ∀ s', forRange lo hi s f = some s' → P s' := by
  by_cases hle : lo ≤ hi
  · induction hi, hle using Nat.le_induction with
    | base =>
      rw [forRange_empty le_rfl, forRange_empty le_rfl]
      exact ⟨rfl, fun s' e => Option.some.inj e ▸ hs⟩
    | succ n hn ih =>
      obtain ⟨e, hP⟩ := ih fun i s h1 h2 => h i s h1 (by omega)
      rw [forRange_succ_last hn, forRange_succ_last hn, ← e]
      cases hf : forRange lo n s f with
      | none => exact ⟨rfl, fun s' e => by cases e⟩
      | some u =>
        rw [Option.bind_some, Option.bind_some]
        exact h n u hn (by omega) (hP u hf)
  · rw [forRange_empty (by omega), forRange_empty (by omega)]
    exact ⟨rfl, fun s' e => Option.some.inj e ▸ hs⟩

/-! ### Filters -/

/-- Two images of the same size with the same weighted sums have the same filtered image. -/
theorem filter_congr {K σ τ : Type _} [Zero K] [Add K] [Mul K] (into : σ → K) (zt : τ)
    (im im' : Image (ι → σ)) (ew : im'.w = im.w) (eh : im'.h = im.h) {data : List K} {kw kh : Nat}
    {k : Kernel K} (hk : Kernel.new data kw kh = some k) (f : K → τ)
    (hw : im.w < 2147483648) (hh : im.h < 2147483648)
    (h : ∀ x y c, x < im.w → y < im.h →
      corr into im' kw kh (weights data kw) x y c = corr into im kw kh (weights data kw) x y c) :
    filter into zt im' k f = filter into zt im k f := by
  unfold Filter.filter forYX
  rw [ew, eh]
  congr 1
  refine (forRange_congr_inv (fun st => st.2 = fun _ => 0) rfl fun y st _ hy hst => ?_).1
  refine forRange_congr_inv (fun st : Image (ι → τ) × (ι → K) => st.2 = fun _ => 0) hst fun x st _ hx hst => ?_
  beta_reduce
  rw [hst, kernelLoops_spec into im hk hw hh hx hy,
    kernelLoops_spec into im' hk (by omega) (by omega) (by omega) (by omega)]
  simp only [Option.bind_some]
  constructor
  · congr 2
    funext c
    rw [h x y c hx hy]
  · intro s' e
    obtain ⟨o, -, rfl⟩ := Option.map_eq_some_iff.mp e
    rfl

/-- With weights of sum zero the constant drops out. -/
theorem filter_brighter {τ : Type _} {d : Nat} {im im' : Image (ι → Nat)} (b : Raised d im im') (zt : τ)
    (f : Int → τ) {data : List Int} {kw kh : Nat} {k : Kernel Int} (hk : Kernel.new data kw kh = some k)
    (h0 : data.sum = 0) (hw : im.w < 2147483648) (hh : im.h < 2147483648) :
    filter (fun v : Nat => (v : Int)) zt im' k f = filter (fun v : Nat => (v : Int)) zt im k f := by
  refine filter_congr _ zt im im' b.w b.h hk f hw hh fun x y c hx hy => ?_
  have hlen : kw * kh = data.length := by
    unfold Kernel.new at hk
    split at hk
    · split at hk
      · assumption
      · cases hk
    · cases hk
  have tot : ∑ j ∈ range kh, ∑ i ∈ range kw, data.getD (j * kw + i) 0 = 0 := by
    have e := list_sum_getD data
    rw [← hlen, Nat.mul_comm kw kh, sum_rows, h0] at e
    exact e.symm
  rw [corr_eq_sum, corr_eq_sum, ← sub_eq_zero, ← sum_sub_distrib]
  have : ∀ j ∈ range kh, (∑ i ∈ range kw, weights data kw i j *
        ((im'.px (clampTo im'.w ((x : Int) + i - (kw : Int) / 2))
          (clampTo im'.h ((y : Int) + j - (kh : Int) / 2)) c : Nat) : Int)) -
      (∑ i ∈ range kw, weights data kw i j *
        ((im.px (clampTo im.w ((x : Int) + i - (kw : Int) / 2))
          (clampTo im.h ((y : Int) + j - (kh : Int) / 2)) c : Nat) : Int)) =
      (∑ i ∈ range kw, data.getD (j * kw + i) 0) * d := by
    intro j _
    rw [← sum_sub_distrib, sum_mul]
    refine sum_congr rfl fun i _ => ?_
    rw [b.w, b.h, b.px _ _ (clampTo_lt (by omega) _) (clampTo_lt (by omega) _)]
    unfold weights
    push_cast
    ring
  rw [sum_congr rfl this, ← sum_mul, tot, zero_mul]

/-- The library's gradient kernels. -/
def gradientKernels : List (Kernel Int) :=
  [sobelH, sobelV, scharrH, scharrV, prewittH, prewittV, robertsH, robertsV, laplace4, laplace8]

theorem gradientKernels_sum {k : Kernel Int} (hk : k ∈ gradientKernels) :
    Kernel.new k.data k.w k.h = some k ∧ k.data.sum = 0 := by
  simp only [gradientKernels, List.mem_cons, List.not_mem_nil, or_false] at hk
  rcases hk with rfl | rfl | rfl | rfl | rfl | rfl | rfl | rfl | rfl | rfl <;> exact ⟨rfl, by decide⟩

/-- **C183.** Filtering with any integer kernel of total weight zero ignores a constant added to the
image; in particular with each of the library's gradient kernels. -/
theorem C183_filter {d : Nat} {im im' : Image (ι → Nat)} (b : Raised d im im')
    (hw : im.w < 2147483648) (hh : im.h < 2147483648) :
    (∀ (data : List Int) (kw kh : Nat) (k : Kernel Int), Kernel.new data kw kh = some k → data.sum = 0 →
      filterI16 im' k = filterI16 im k) ∧
    ∀ k ∈ gradientKernels, filterI16 im' k = filterI16 im k :=
  ⟨fun _ _ _ _ hk h0 => filter_brighter b _ _ hk h0 hw hh,
   fun _ hk => filter_brighter b _ _ (gradientKernels_sum hk).1 (gradientKernels_sum hk).2 hw hh⟩

/-- **C183.** Gradient images, in single precision as computed, do not change. -/
theorem C183_gradients {d : Nat} {im im' : Image (ι → Nat)} (b : Raised d im im')
    (hw : im.w < 2147483648) (hh : im.h < 2147483648) (z : β) (f : (ι → Nat) → β) :
    ∀ hk ∈ gradientKernels, ∀ vk ∈ gradientKernels,
      gradients32 z im' hk vk f = gradients32 z im hk vk f := by
  intro hk h1 vk h2
  unfold gradients32
  rw [(C183_filter b hw hh).2 hk h1, (C183_filter b hw hh).2 vk h2, b.w, b.h]

/-- **C183.** The seam found in a brighter image is the same seam. -/
theorem C183_seam {n d : Nat} {im im' : Image (Fin n → Nat)} (b : Raised d im im')
    (hw : im.w < 2147483648) (hh : im.h < 2147483648) :
    findVerticalSeam im' = findVerticalSeam im := by
  unfold findVerticalSeam gradients
  rw [(C183_filter b hw hh).2 sobelH (by simp [gradientKernels]),
    (C183_filter b hw hh).2 sobelV (by simp [gradientKernels]), b.w, b.h]

/-- **C183.** Shrinking a brighter 8-bit image gives the brighter version of the shrunk image. -/
theorem C183_shrink {n d : Nat} {im im' : Image (Fin n → Nat)} (b : Raised d im im') (hu : IsU8 im')
    (hh : 0 < im.h) (t : Nat) (ht1 : 1 ≤ t) (ht : t ≤ im.w) :
    ∃ out out', shrinkWidth im t = some out ∧ shrinkWidth im' t = some out' ∧ Raised d out out' := by
  obtain ⟨k, hk⟩ : ∃ k, im.w - t = k := ⟨_, rfl⟩
  have hu0 : IsU8 im := ⟨by have := hu.1; rw [b.w] at this; exact this,
    by have := hu.2.1; rw [b.h] at this; exact this, fun x y c hx hy => by
      have := hu.2.2 x y c (by rw [b.w]; exact hx) (by rw [b.h]; exact hy)
      rw [b.px x y hx hy] at this
      omega⟩
  unfold shrinkWidth
  rw [if_pos ht, b.w, if_pos ht, hk]
  have step : ∀ k, k + t ≤ im.w → ∃ o o',
      forRange 0 k im (fun _ im => (findVerticalSeam im).bind fun seam => removeVerticalSeam (fun _ => 0) im seam) = some o ∧
      forRange 0 k im' (fun _ im => (findVerticalSeam im).bind fun seam => removeVerticalSeam (fun _ => 0) im seam) = some o' ∧
      Raised d o o' ∧ IsU8 o ∧ o.w = im.w - k ∧ o.h = im.h := by
    intro k hk
    induction k with
    | zero => exact ⟨im, im', forRange_empty le_rfl, forRange_empty le_rfl, b, hu0, by omega, rfl⟩
    | succ k ih =>
      obtain ⟨o, o', e, e', bo, uo, wo, ho⟩ := ih (by omega)
      rw [forRange_succ_last (Nat.zero_le _), forRange_succ_last (Nat.zero_le _), e, e', Option.bind_some,
        Option.bind_some]
      have hs := C183_seam bo uo.1 uo.2.1
      obtain ⟨g, seam, -, -, -, s1, -, s2, s3⟩ := C59_find o uo (by omega) (by omega)
      have hm := mem_of_path s2 s3
      obtain ⟨p, p1, p2, p3, p4⟩ := remove_px (fun _ => 0) o seam s2 (by omega) hm
      obtain ⟨q, q1, q2, q3, q4⟩ := remove_px (fun _ => 0) o' seam (by rw [bo.h]; exact s2)
        (by rw [bo.w]; omega) (by rw [bo.w]; exact hm)
      rw [hs, s1, Option.bind_some, Option.bind_some]
      rw [bo.w] at q2 q4
      rw [bo.h] at q3 q4
      refine ⟨p, q, p1, q1, ⟨by omega, by omega, fun x y hx hy c => ?_⟩, ⟨?_, ?_, fun x y c hx hy => ?_⟩,
        by omega, by omega⟩
      · rw [p4 x y (by omega) (by omega), q4 x y (by omega) (by omega), bo.px _ _ (by split <;> omega) (by omega)]
      · have := uo.1; omega
      · have := uo.2.1; omega
      · rw [p4 x y (by omega) (by omega)]
        exact uo.2.2 _ _ _ (by split <;> omega) (by omega)
  obtain ⟨o, o', e, e', bo, -⟩ := step k (by omega)
  exact ⟨o, o', e, e', bo⟩

/-- **C183.** The HOG descriptor, in single precision with any `atan2`, does not change. -/
theorem C183_hog {d : Nat} {im im' : Image (Unit → Nat)} (b : Raised d im im')
    (hw : im.w < 2147483648) (hh : im.h < 2147483648) (atan2 : Int → Int → F32 ℝ) (o : Hog.Options) :
    hog32 atan2 im' o = hog32 atan2 im o := by
  have e : ∀ k ∈ gradientKernels, filterI32 im' k = filterI32 im k := fun k hk =>
    filter_brighter b _ _ (gradientKernels_sum hk).1 (gradientKernels_sum hk).2 hw hh
  unfold hog32
  rw [b.w, b.h, e sobelH (by simp [gradientKernels]), e sobelV (by simp [gradientKernels])]

/-- **C183.** In exact arithmetic a Gaussian blur of the brighter 8-bit image is the brighter version of the
blurred image. -/
theorem C183_gaussian {d : Nat} {im im' : Image (ι → Nat)} (b : Raised d im im') (hu : IsU8 im')
    (sigma : ℝ) (hs : 0 < sigma) :
    ∃ out out', gaussianBlur im sigma = some out ∧ gaussianBlur im' sigma = some out' ∧
      Raised d out out' := by
  have hu0 : IsU8 im := ⟨by have := hu.1; rw [b.w] at this; exact this,
    by have := hu.2.1; rw [b.h] at this; exact this, fun x y c hx hy => by
      have := hu.2.2 x y c (by rw [b.w]; exact hx) (by rw [b.h]; exact hy)
      rw [b.px x y hx hy] at this
      omega⟩
  obtain ⟨mid, out, e, m1, m2, o1, o2, o3⟩ := C88_gaussian_weights im hu0 sigma hs _ rfl
  obtain ⟨mid', out', e', m1', m2', o1', o2', o3'⟩ := C88_gaussian_weights im' hu sigma hs _ rfl
  generalize hr : ⌈2 * sigma⌉₊ = r at *
  have hpos : 0 < ∑ i ∈ Finset.range (2 * r + 1), Real.exp (-(i - r : ℝ) ^ 2 / (2 * sigma ^ 2)) :=
    Finset.sum_pos (fun i _ => Real.exp_pos _) ⟨0, by simp⟩
  -- the weights add up to one, so the constant passes through the mean and the rounding
  have key : ∀ v v' : Nat → Nat, (∀ j, v' j = v j + d) →
      ⌊∑ j ∈ Finset.range (2 * r + 1), Real.exp (-(j - r : ℝ) ^ 2 / (2 * sigma ^ 2)) /
        (∑ i ∈ Finset.range (2 * r + 1), Real.exp (-(i - r : ℝ) ^ 2 / (2 * sigma ^ 2))) * (v' j : ℝ)⌋₊ =
      ⌊∑ j ∈ Finset.range (2 * r + 1), Real.exp (-(j - r : ℝ) ^ 2 / (2 * sigma ^ 2)) /
        (∑ i ∈ Finset.range (2 * r + 1), Real.exp (-(i - r : ℝ) ^ 2 / (2 * sigma ^ 2))) * (v j : ℝ)⌋₊ + d := by
    intro v v' hv
    rw [← Nat.floor_add_natCast (Finset.sum_nonneg fun j _ => by positivity)]
    congr 1
    simp only [hv, Nat.cast_add, mul_add, Finset.sum_add_distrib]
    congr 1
    rw [← Finset.sum_mul, ← Finset.sum_div, div_self hpos.ne', one_mul]
  have mm : ∀ x y c, x < im.w → y < im.h → mid'.px x y c = mid.px x y c + d := by
    intro x y c hx hy
    rw [(o3' x y c (by rw [b.w]; exact hx) (by rw [b.h]; exact hy)).1, (o3 x y c hx hy).1]
    refine key (fun j => im.px (clampTo im.w ((x : Int) + j - r)) y c)
      (fun j => im'.px (clampTo im'.w ((x : Int) + j - r)) y c) fun j => ?_
    rw [b.w]
    exact b.px _ _ (clampTo_lt (by omega) _) hy c
  refine ⟨out, out', e, e', by rw [o1', o1, b.w], by rw [o2', o2, b.h], fun x y hx hy c => ?_⟩
  rw [o1] at hx
  rw [o2] at hy
  rw [(o3' x y c (by rw [b.w]; exact hx) (by rw [b.h]; exact hy)).2, (o3 x y c hx hy).2]
  refine key (fun j => mid.px x (clampTo im.h ((y : Int) + j - r)) c)
    (fun j => mid'.px x (clampTo im'.h ((y : Int) + j - r)) c) fun j => ?_
  rw [b.h]
  exact mm _ _ _ hx (clampTo_lt (by omega) _)

/-- **C183.** In exact arithmetic the Canny edges of a brighter 8-bit image are the same. -/
theorem C183_canny {d : Nat} {im im' : Image (Unit → Nat)} (b : Raised d im im') (hu : IsU8 im')
    (lo hi : ℝ) : cannyImage im' lo hi = cannyImage im lo hi := by
  obtain ⟨o, o', e, e', bo⟩ := C183_gaussian b hu 1.4 (by norm_num)
  unfold cannyImage
  rw [e, e', Option.bind_some, Option.bind_some]
  have hw : o.w < 2147483648 ∧ o.h < 2147483648 := by
    obtain ⟨mid, out, e2, -, -, h1, h2, -⟩ := C88_gaussian_weights im' hu 1.4 (by norm_num) _ rfl
    rw [e'] at e2
    obtain rfl := Option.some.inj e2
    rw [← bo.w, ← bo.h, h1, h2]
    exact ⟨hu.1, hu.2.1⟩
  unfold horizontalSobel verticalSobel
  rw [(C183_filter bo hw.1 hw.2).2 sobelH (by simp [gradientKernels]),
    (C183_filter bo hw.1 hw.2).2 sobelV (by simp [gradientKernels])]

/-- Non-trivial instance: 100 added to a 4 by 3 image; its gradients are not zero. -/
example :
    let im : Image (Fin 1 → Nat) := ⟨4, 3, fun x y _ => if x = y then 90 else 10 * x⟩
    let im' : Image (Fin 1 → Nat) := ⟨4, 3, fun x y _ => (if x = y then 90 else 10 * x) + 100⟩
    Raised 100 im im' ∧ (filterI16 im sobelH).map (fun o => o.px 2 1 0) = some (-80) ∧
      (filterI16 im' sobelH).map (fun o => o.px 2 1 0) = some (-80) :=
  ⟨⟨rfl, rfl, fun _ _ _ _ _ => rfl⟩, by decide +kernel, by decide +kernel⟩

end Verif.Relations
