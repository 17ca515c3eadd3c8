import Verif.Relations.Steps
import Verif.Relations.Pieces
import Verif.Geom.WarpProps
import Verif.Stats.Props
/-
C189: functions that only move pixels never look at their values, and functions that compute with
pixels treat every channel on its own.
-/
namespace Verif.Relations
open Finset Verif.Filter Verif.Compose

universe u v
variable {α : Type u} {β : Type v}

/-- Specification: images of the same size with related pixels. -/
def Related (R : α → β → Prop) (im : Image α) (im' : Image β) : Prop :=
  im'.w = im.w ∧ im'.h = im.h ∧ ∀ x y, x < im.w → y < im.h → R (im.px x y) (im'.px x y)

/-- Specification: both calls succeed, with related images. -/
def RelatedResults (R : α → β → Prop) (r : Option (Image α)) (r' : Option (Image β)) : Prop :=
  ∃ o o', r = some o ∧ r' = some o' ∧ Related R o o'

/-- **C189.** Flips and turns keep any relation between pixels. -/
theorem C189_turns {R : α → β → Prop} {im : Image α} {im' : Image β} (h : Related R im im') (z : α) (z' : β) :
    RelatedResults R (flipHorizontal im) (flipHorizontal im') ∧ RelatedResults R (flipVertical im) (flipVertical im') ∧
    RelatedResults R (rotate180 im) (rotate180 im') ∧ RelatedResults R (rotate90 z im) (rotate90 z' im') ∧
    RelatedResults R (rotate270 z im) (rotate270 z' im') := by
  obtain ⟨hw, hh, hp⟩ := h
  refine ⟨?_, ?_, ?_, ?_, ?_⟩
  · obtain ⟨o, e, h1, h2, h3⟩ := C21_flip_horizontal im
    obtain ⟨o', e', h1', h2', h3'⟩ := C21_flip_horizontal im'
    refine ⟨o, o', e, e', by omega, by omega, fun x y hx hy => ?_⟩
    rw [h3 x y (by omega) (by omega), h3' x y (by omega) (by omega), hw]
    exact hp _ _ (by omega) (by omega)
  · obtain ⟨o, e, h1, h2, h3⟩ := C21_flip_vertical im
    obtain ⟨o', e', h1', h2', h3'⟩ := C21_flip_vertical im'
    refine ⟨o, o', e, e', by omega, by omega, fun x y hx hy => ?_⟩
    rw [h3 x y (by omega) (by omega), h3' x y (by omega) (by omega), hh]
    exact hp _ _ (by omega) (by omega)
  · obtain ⟨o, e, h1, h2, h3⟩ := C21_rotate180 im
    obtain ⟨o', e', h1', h2', h3'⟩ := C21_rotate180 im'
    refine ⟨o, o', e, e', by omega, by omega, fun x y hx hy => ?_⟩
    rw [h3 x y (by omega) (by omega), h3' x y (by omega) (by omega), hw, hh]
    exact hp _ _ (by omega) (by omega)
  · obtain ⟨o, e, h1, h2, h3⟩ := C21_rotate90 z im
    obtain ⟨o', e', h1', h2', h3'⟩ := C21_rotate90 z' im'
    refine ⟨o, o', e, e', by omega, by omega, fun x y hx hy => ?_⟩
    have a := h3 y (im.h - 1 - x) (by omega) (by omega)
    have b := h3' y (im.h - 1 - x) (by omega) (by omega)
    rw [hh] at b
    rw [show im.h - 1 - (im.h - 1 - x) = x by omega] at a b
    rw [a, b]
    exact hp _ _ (by omega) (by omega)
  · obtain ⟨o, e, h1, h2, h3⟩ := C21_rotate270 z im
    obtain ⟨o', e', h1', h2', h3'⟩ := C21_rotate270 z' im'
    refine ⟨o, o', e, e', by omega, by omega, fun x y hx hy => ?_⟩
    have a := h3 (im.w - 1 - y) x (by omega) (by omega)
    have b := h3' (im.w - 1 - y) x (by omega) (by omega)
    rw [hw] at b
    rw [show im.w - 1 - (im.w - 1 - y) = y by omega] at a b
    rw [a, b]
    exact hp _ _ (by omega) (by omega)

/-- **C189.** So do cropping, replacing and translating. -/
theorem C189_moves {R : α → β → Prop} [Inhabited α] [Inhabited β] {im : Image α} {im' : Image β}
    (h : Related R im im') :
    (∀ x y w h, x + w ≤ im.w → y + h ≤ im.h → RelatedResults R (crop im x y w h) (crop im' x y w h)) ∧
    (∀ (top : Image α) (top' : Image β) x y, Related R top top' → x < im.w → y < im.h →
      RelatedResults R (replace im top x y) (replace im' top' x y)) ∧
    (∀ (z : α) (z' : β) tx ty, 0 < im.w → RelatedResults R (translate z im tx ty) (translate z' im' tx ty)) := by
  obtain ⟨hw, hh, hp⟩ := h
  refine ⟨fun X Y w h h1 h2 => ?_, fun top top' X Y ht h1 h2 => ?_, fun z z' tx ty h0 => ?_⟩
  · obtain ⟨o, e, a1, a2, a3⟩ := C20_crop im X Y w h h1 h2
    obtain ⟨o', e', b1, b2, b3⟩ := C20_crop im' X Y w h (by omega) (by omega)
    refine ⟨o, o', e, e', by omega, by omega, fun x y hx hy => ?_⟩
    rw [a3 x y (by omega) (by omega), b3 x y (by omega) (by omega)]
    exact hp _ _ (by omega) (by omega)
  · obtain ⟨o, e, a1, a2, a3⟩ := C22_replace_exact im top X Y h1 h2
    obtain ⟨o', e', b1, b2, b3⟩ := C22_replace_exact im' top' X Y (by omega) (by omega)
    obtain ⟨tw, th, tp⟩ := ht
    refine ⟨o, o', e, e', by omega, by omega, fun x y hx hy => ?_⟩
    rw [a3 x y (by omega) (by omega), b3 x y (by omega) (by omega), tw, th, hw, hh]
    split
    · exact tp _ _ (by omega) (by omega)
    · exact hp _ _ (by omega) (by omega)
  · obtain ⟨o, e, a1, a2, a3⟩ := C24_translate z im tx ty h0
    obtain ⟨o', e', b1, b2, b3⟩ := C24_translate z' im' tx ty (by omega)
    refine ⟨o, o', e, e', by omega, by omega, fun x y hx hy => ?_⟩
    rw [a3 x y (by omega) (by omega), b3 x y (by omega) (by omega), hw, hh]
    exact hp _ _ (clampTo_lt h0 _) (clampTo_lt (by omega) _)

/-- **C189.** So does drawing: it never looks at what is there. -/
theorem C189_drawing {α β : Type u} {R : α → β → Prop} {im : Image α} {im' : Image β} (h : Related R im im')
    (hw : 0 < im.w) (hh : 0 < im.h) {c : α} {c' : β} (hc : R c c') (s : Shape) (hs : s.Ok) :
    RelatedResults R (s.draw c im) (s.draw c' im') := by
  obtain ⟨S, hS⟩ := paints_shape.{u} s hs
  obtain ⟨ew, eh, hp⟩ := h
  obtain ⟨o, e, a1, a2, a3⟩ := hS α c im hw hh
  obtain ⟨o', e', b1, b2, b3⟩ := hS β c' im' (by omega) (by omega)
  refine ⟨o, o', e, e', by omega, by omega, fun x y hx hy => ?_⟩
  have hin : im.InB x y := ⟨by omega, by omega⟩
  have hin' : im'.InB x y := ⟨by omega, by omega⟩
  by_cases hs : S x y
  · rw [(a3 x y hin).1 hs, (b3 x y hin').1 hs]
    exact hc
  · rw [(a3 x y hin).2 hs, (b3 x y hin').2 hs]
    exact hp _ _ (by omega) (by omega)

/-! ### Channels -/

/-- Specification: channel `c` of `im` is channel `c'` of `im'`. -/
def SameChannel {ι κ σ : Type _} (c : ι) (c' : κ) (im : Image (ι → σ)) (im' : Image (κ → σ)) : Prop :=
  Related (fun p q => q c' = p c) im im'

section Channels
variable {ι κ σ τ K : Type _} {c : ι} {c' : κ}

theorem SameChannel.corr [Zero K] [Add K] [Mul K] {im : Image (ι → σ)} {im' : Image (κ → σ)} (h : SameChannel c c' im im')
    (into : σ → K) (kw kh : Nat) (wt : Nat → Nat → K) {x y : Nat} (hx : x < im.w) (hy : y < im.h) :
    Filter.corr into im' kw kh wt x y c' = Filter.corr into im kw kh wt x y c := by
  unfold Filter.corr
  refine List.foldl_ext _ _ _ fun a q hq => ?_
  rw [h.1, h.2.1, h.2.2 _ _ (clampTo_lt (by omega) _) (clampTo_lt (by omega) _)]

/-- **C189.** Filtering with a kernel. -/
theorem C189_filter [Zero K] [Add K] [Mul K] {im : Image (ι → σ)} {im' : Image (κ → σ)} (h : SameChannel c c' im im')
    (into : σ → K) (zt : τ) {data : List K} {kw kh : Nat} {k : Kernel K} (hk : Kernel.new data kw kh = some k) (f : K → τ)
    (hw : im.w < 2147483648) (hh : im.h < 2147483648) :
    ∃ o o', Filter.filter into zt im k f = some o ∧ Filter.filter into zt im' k f = some o' ∧ SameChannel c c' o o' := by
  have ew := h.1; have eh := h.2.1
  obtain ⟨o, e, a1, a2, a3⟩ := C37_filter into zt im hk f hw hh
  obtain ⟨o', e', b1, b2, b3⟩ := C37_filter into zt im' hk f (by omega) (by omega)
  refine ⟨o, o', e, e', by omega, by omega, fun x y hx hy => ?_⟩
  show o'.px x y c' = o.px x y c
  rw [a3 x y (by omega) (by omega), b3 x y (by omega) (by omega), h.corr into _ _ _ (by omega) (by omega)]

/-- **C189.** Filtering rows, columns and both. -/
theorem C189_separable [Zero K] [Add K] [Mul K] {im : Image (ι → σ)} {im' : Image (κ → σ)} (h : SameChannel c c' im im')
    (into : σ → K) (clamp : K → σ) (zt : σ) (hk vk : List K) (hw : im.w < 2147483648) (hh : im.h < 2147483648) :
    (∃ o o', horizontalFilter into clamp zt im hk = some o ∧ horizontalFilter into clamp zt im' hk = some o' ∧
      SameChannel c c' o o') ∧
    (∃ o o', verticalFilter into clamp zt im vk = some o ∧ verticalFilter into clamp zt im' vk = some o' ∧
      SameChannel c c' o o') ∧
    (hk.length = vk.length → ∃ o o', separableFilter into clamp zt im hk vk = some o ∧
      separableFilter into clamp zt im' hk vk = some o' ∧ SameChannel c c' o o') := by
  have hor : ∀ {im : Image (ι → σ)} {im' : Image (κ → σ)}, SameChannel c c' im im' → im.w < 2147483648 →
      ∃ o o', horizontalFilter into clamp zt im hk = some o ∧ horizontalFilter into clamp zt im' hk = some o' ∧
        SameChannel c c' o o' := by
    intro im im' h hw
    have ew := h.1; have eh := h.2.1
    obtain ⟨o, e, a1, a2, a3⟩ := C38_horizontal into clamp zt im hk hw
    obtain ⟨o', e', b1, b2, b3⟩ := C38_horizontal into clamp zt im' hk (by omega)
    refine ⟨o, o', e, e', by omega, by omega, fun x y hx hy => ?_⟩
    show o'.px x y c' = o.px x y c
    rw [a3 x y (by omega) (by omega), b3 x y (by omega) (by omega), h.corr into _ _ _ (by omega) (by omega)]
  have ver : ∀ {im : Image (ι → σ)} {im' : Image (κ → σ)}, SameChannel c c' im im' → im.h < 2147483648 →
      ∃ o o', verticalFilter into clamp zt im vk = some o ∧ verticalFilter into clamp zt im' vk = some o' ∧
        o.w = im.w ∧ SameChannel c c' o o' := by
    intro im im' h hw
    have ew := h.1; have eh := h.2.1
    obtain ⟨o, e, a1, a2, a3⟩ := C38_vertical into clamp zt im vk hw
    obtain ⟨o', e', b1, b2, b3⟩ := C38_vertical into clamp zt im' vk (by omega)
    refine ⟨o, o', e, e', a1, by omega, by omega, fun x y hx hy => ?_⟩
    show o'.px x y c' = o.px x y c
    rw [a3 x y (by omega) (by omega), b3 x y (by omega) (by omega), h.corr into _ _ _ (by omega) (by omega)]
  refine ⟨hor h hw, ?_, fun hl => ?_⟩
  · obtain ⟨o, o', e, e', -, s⟩ := ver h hh
    exact ⟨o, o', e, e', s⟩
  · obtain ⟨o, o', e, e', s⟩ := hor h hw
    have : o.h = im.h := by
      obtain ⟨p, f, -, q, -⟩ := C38_horizontal into clamp zt im hk hw
      rw [e] at f
      obtain rfl := Option.some.inj f
      exact q
    obtain ⟨p, p', f, f', -, s'⟩ := ver s (by omega)
    refine ⟨p, p', ?_, ?_, s'⟩
    · unfold separableFilter; rw [if_pos hl, e, Option.bind_some, f]
    · unfold separableFilter; rw [if_pos hl, e', Option.bind_some, f']

/-- **C189.** Gaussian blur in single precision. -/
theorem C189_gaussian {im : Image (ι → Nat)} {im' : Image (κ → Nat)} (h : SameChannel c c' im im') (expf : ℝ → ℝ)
    (sigma : ℝ) (hs : 0 < sigma) (hw : im.w < 2147483648) (hh : im.h < 2147483648) :
    ∃ o o', Float.gaussianBlur32 expf im sigma = some o ∧ Float.gaussianBlur32 expf im' sigma = some o' ∧
      SameChannel c c' o o' := by
  have h2 := Float.kernel_spec (fun i => (⟨Float.gaussianPdf32 expf (Float.rnd32 (i : ℝ)) sigma⟩ : Float.F32 ℝ))
    ⌈Float.rnd32 (2 * sigma)⌉₊
  dsimp only at h2
  unfold Float.gaussianBlur32
  rw [if_pos hs, if_pos hs, h2, Option.bind_some, Option.bind_some]
  exact (C189_separable h _ _ 0 _ _ hw hh).2.2 rfl

/-- **C189.** Median filter. -/
theorem C189_median {n m : Nat} {c : Fin n} {c' : Fin m} {im : Image (Fin n → Nat)} {im' : Image (Fin m → Nat)}
    (h : SameChannel c c' im im') (hu : Median.U8 im) (hu' : Median.U8 im') (rx ry : Nat)
    (hw : im.w + rx ≤ 2147483647) (hh : im.h + ry ≤ 2147483647) (hE : (2 * rx + 1) * (2 * ry + 1) < 2147483648) :
    ∃ o o', Median.medianFilter im rx ry = some o ∧ Median.medianFilter im' rx ry = some o' ∧ SameChannel c c' o o' := by
  have ew := h.1; have eh := h.2.1
  obtain ⟨o, e, a1, a2, a3⟩ := Median.C39_median_filter im hu rx ry hw hh hE
  obtain ⟨o', e', b1, b2, b3⟩ := Median.C39_median_filter im' hu' rx ry (by omega) (by omega) hE
  refine ⟨o, o', e, e', by omega, by omega, fun x y hx hy => ?_⟩
  show o'.px x y c' = o.px x y c
  have a := a3 x y (by omega) (by omega) c
  have b := b3 x y (by omega) (by omega) c'
  have ew : Median.windowValues im' rx ry x y c' = Median.windowValues im rx ry x y c := by
    unfold Median.windowValues
    refine List.flatMap_congr fun j hj => List.map_congr_left fun i hi => ?_
    rw [h.1, h.2.1, h.2.2 _ _ (clampTo_lt (by omega) _) (clampTo_lt (by omega) _)]
  rw [ew] at b
  exact Median.IsMedian.unique b a

open Verif.Geom in
/-- **C189.** Warping with any interpolation, for the same channel of the default colours. -/
theorem C189_warp {c c' : Nat} {im im' : Image Px} (h : SameChannel c c' im im') (mx : Nat) (mapping : ℚ → ℚ → ℚ × ℚ)
    (i : Interpolation) {dflt dflt' : Px} (hd : dflt' c' = dflt c) (hw : 0 < im.w) :
    ∃ o o', warpWith mx im mapping i dflt = some o ∧ warpWith mx im' mapping i dflt' = some o' ∧ SameChannel c c' o o' := by
  obtain ⟨ew, eh, hp⟩ := h
  cases i with
  | nearest =>
    obtain ⟨o, e, a1, a2, a3⟩ := C27_nearest mx im mapping dflt hw
    obtain ⟨o', e', b1, b2, b3⟩ := C27_nearest mx im' mapping dflt' (by omega)
    refine ⟨o, o', e, e', by omega, by omega, fun x y hx hy => ?_⟩
    show o'.px x y c' = o.px x y c
    rw [a3 x y (by omega) (by omega), b3 x y (by omega) (by omega), ew, eh]
    dsimp only
    split
    · rename_i hin
      obtain ⟨q1, q2, q3, q4⟩ := hin
      have f1 : ⌊(mapping x y).1 + 1 / 2⌋ < im.w := Int.floor_lt.2 (by push_cast; linarith)
      have f2 : ⌊(mapping x y).2 + 1 / 2⌋ < im.h := Int.floor_lt.2 (by push_cast; linarith)
      exact hp _ _ (by omega) (by omega)
    · exact hd
  | bilinear =>
    obtain ⟨o, e, a1, a2, a3⟩ := C27_bilinear mx im mapping dflt hw
    obtain ⟨o', e', b1, b2, b3⟩ := C27_bilinear mx im' mapping dflt' (by omega)
    refine ⟨o, o', e, e', by omega, by omega, fun x y hx hy => ?_⟩
    show o'.px x y c' = o.px x y c
    have hi : BilinearInside im' (mapping x y).1 (mapping x y).2 ↔ BilinearInside im (mapping x y).1 (mapping x y).2 := by
      unfold BilinearInside; rw [ew, eh]
    rw [a3 x y (by omega) (by omega), b3 x y (by omega) (by omega)]
    by_cases hin : BilinearInside im (mapping x y).1 (mapping x y).2
    · rw [if_pos hin, if_pos (hi.2 hin)]
      obtain ⟨q1, q2, q3, q4⟩ := hin
      have f1 := inside_nat q1 q2
      have f2 := inside_nat q3 q4
      unfold bilinearVal blendBilinear
      dsimp only
      rw [hp _ _ (by omega) (by omega), hp _ _ (by omega) (by omega), hp _ _ (by omega) (by omega),
        hp _ _ (by omega) (by omega)]
    · rw [if_neg hin, if_neg fun h => hin (hi.1 h)]
      exact hd
  | bicubic =>
    obtain ⟨o, e, a1, a2, a3⟩ := C27_bicubic mx im mapping dflt hw
    obtain ⟨o', e', b1, b2, b3⟩ := C27_bicubic mx im' mapping dflt' (by omega)
    refine ⟨o, o', e, e', by omega, by omega, fun x y hx hy => ?_⟩
    show o'.px x y c' = o.px x y c
    have hi : BicubicInside im' (mapping x y).1 (mapping x y).2 ↔ BicubicInside im (mapping x y).1 (mapping x y).2 := by
      unfold BicubicInside; rw [ew, eh]
    rw [a3 x y (by omega) (by omega), b3 x y (by omega) (by omega)]
    by_cases hin : BicubicInside im (mapping x y).1 (mapping x y).2
    · rw [if_pos hin, if_pos (hi.2 hin)]
      obtain ⟨q1, q2, q3, q4⟩ := hin
      have f1 := inside3_nat q1 q2
      have f2 := inside3_nat q3 q4
      have row : ∀ r, r < im.h → bicubicRow mx im' (mapping x y).1 r c' = bicubicRow mx im (mapping x y).1 r c := by
        intro r hr
        unfold bicubicRow blendCubic
        rw [hp _ _ (by omega) (by omega), hp _ _ (by omega) (by omega), hp _ _ (by omega) (by omega),
          hp _ _ (by omega) (by omega)]
      unfold bicubicVal
      unfold blendCubic
      rw [row _ (by omega), row _ (by omega), row _ (by omega), row _ (by omega)]
    · rw [if_neg hin, if_neg fun h => hin (hi.1 h)]
      exact hd

open Verif.Stats in
/-- **C189.** Histograms, cumulative histograms and extremes. -/
theorem C189_statistics {n m c c' : Nat} (hc : c < n) (hc' : c' < m) :
    (∀ {im im' : Image (Nat → Nat)}, SameChannel c c' im im' → Is8c n im → Is8c m im' →
      ∃ h h' g g', histogram n im = some h ∧ histogram m im' = some h' ∧ cumulativeHistogram n im = some g ∧
        cumulativeHistogram m im' = some g' ∧ ∀ v, v < 256 → h' c' v = h c v ∧ g' c' v = g c v) ∧
    (∀ {im im' : Image (Nat → Int)}, SameChannel c c' im im' → 0 < im.w → 0 < im.h →
      ∃ r r', minMax n im = some r ∧ minMax m im' = some r' ∧ r' c' = r c) := by
  constructor
  · intro im im' h h8 h8'
    obtain ⟨hi, e1, p1⟩ := C12_histogram n im h8
    obtain ⟨hi', e2, p2⟩ := C12_histogram m im' h8'
    obtain ⟨g, e3, p3⟩ := C12_cumulative_histogram n im h8
    obtain ⟨g', e4, p4⟩ := C12_cumulative_histogram m im' h8'
    refine ⟨hi, hi', g, g', e1, e2, e3, e4, fun v hv => ?_⟩
    have key : ∀ P : Nat → Prop, [DecidablePred P] → countPx im' (fun p => P (p c')) = countPx im (fun p => P (p c)) := by
      intro P _
      unfold countPx
      rw [h.1, h.2.1]
      congr 1
      refine filter_congr fun q hq => ?_
      rw [mem_allPx] at hq
      show P (im'.px q.1 q.2 c') ↔ P (im.px q.1 q.2 c)
      rw [h.2.2 _ _ hq.1 hq.2]
    rw [p1 c v hc, p2 c' v hc', p3 c v hc hv, p4 c' v hc' hv]
    exact ⟨key (· = v), key (· ≤ v)⟩
  · intro im im' h hw hh
    have ew := h.1; have eh := h.2.1
    obtain ⟨r, e, p⟩ := C80_min_max n im hw hh
    obtain ⟨r', e', p'⟩ := C80_min_max m im' (by omega) (by omega)
    refine ⟨r, r', e, e', ?_⟩
    obtain ⟨lo, hi, e1, b, ⟨x1, y1, q1, q2, q3⟩, x2, y2, q4, q5, q6⟩ := p c hc
    obtain ⟨lo', hi', e1', b', ⟨x1', y1', q1', q2', q3'⟩, x2', y2', q4', q5', q6'⟩ := p' c' hc'
    have k := h.2.2
    have a1 := b x1' y1' (by omega) (by omega)
    have a2 := b x2' y2' (by omega) (by omega)
    have a3 := b' x1 y1 (by omega) (by omega)
    have a4 := b' x2 y2 (by omega) (by omega)
    rw [← k _ _ (by omega) (by omega)] at a1 a2
    rw [k _ _ (by omega) (by omega)] at a3 a4
    rw [e1, e1']
    have h1 : lo' = lo := by omega
    have h2 : hi' = hi := by omega
    rw [h1, h2]

end Channels

/-- Non-trivial instance: the second channel of a two-channel image and the image of that channel. -/
example : (Median.medianFilter (n := 2) ⟨3, 1, fun x _ c => if c = 0 then 9 - x else [5, 1, 7].getD x 0⟩ 1 0).map
      (fun o => (Image.mk o.w o.h fun x y => o.px x y 1).rows) = some [[5, 5, 7]] ∧
    (Median.medianFilter (n := 1) ⟨3, 1, fun x _ _ => [5, 1, 7].getD x 0⟩ 1 0).map
      (fun o => (Image.mk o.w o.h fun x y => o.px x y 0).rows) = some [[5, 5, 7]] := by decide +kernel

end Verif.Relations
