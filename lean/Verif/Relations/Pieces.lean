import Verif.Relations.Corners
import Verif.Filter.Separable
import Verif.Filter.Bilateral
import Verif.Suppress.Props
import Verif.Contrast.Threshold
import Verif.Lbp.Props
import Verif.Template.Props
import Verif.Morphology.Grayscale
import Verif.Float.Blur
/-
C188: an image may be processed piece by piece.  Every function that looks at a window around a pixel
gives, on a piece cut out of an image, what it gives on the whole image, except near those sides of the
piece that are not sides of the image.
-/
namespace Verif.Relations
open Finset Verif.Filter Verif.Compose Verif.Gradients

/-- Specification: `t` is the piece of `im` whose top left pixel is `(X, Y)`. -/
structure PieceOf {α : Type _} (X Y : Nat) (im t : Image α) : Prop where
  w : X + t.w ≤ im.w
  h : Y + t.h ≤ im.h
  px : ∀ x y, x < t.w → y < t.h → t.px x y = im.px (X + x) (Y + y)

/-- Specification: position `x` of a piece `X .. X+n-1` of `0 .. N-1` is at least `l` away from the lower
end and `u` away from the upper end, or that end of the piece is an end of the whole. -/
def Settled (X n N l u x : Nat) : Prop := x < n ∧ (X = 0 ∨ l ≤ x) ∧ (X + n = N ∨ x + u < n)

/-- Specification: in both directions. -/
def Clear {α : Type _} (X Y : Nat) (im t : Image α) (lx ux ly uy x y : Nat) : Prop :=
  Settled X t.w im.w lx ux x ∧ Settled Y t.h im.h ly uy y

/-- Specification: the result for the piece is the piece of the result, where it is clear. -/
def SameInside {α β : Type _} (X Y : Nat) (im t : Image α) (lx ux ly uy : Nat) (r r' : Option (Image β)) : Prop :=
  ∃ o o', r = some o ∧ r' = some o' ∧ ∀ x y, Clear X Y im t lx ux ly uy x y → o'.px x y = o.px (X + x) (Y + y)

/-- The library function that cuts pieces. -/
theorem pieceOf_crop {α : Type _} [Inhabited α] (im : Image α) (X Y w h : Nat) (hw : X + w ≤ im.w) (hh : Y + h ≤ im.h) :
    ∃ t, crop im X Y w h = some t ∧ t.w = w ∧ t.h = h ∧ PieceOf X Y im t := by
  obtain ⟨t, e, h1, h2, h3⟩ := C20_crop im X Y w h hw hh
  exact ⟨t, e, h1, h2, ⟨h1 ▸ hw, h2 ▸ hh, fun x y hx hy => h3 x y (h1 ▸ hx) (h2 ▸ hy)⟩⟩

variable {α : Type _} {X Y : Nat}

theorem Settled.clamp {n N l u x : Nat} (s : Settled X n N l u x) (hN : X + n ≤ N) {i : Int} (h1 : -(l : Int) ≤ i)
    (h2 : i ≤ u) : clampTo N (((X + x : Nat) : Int) + i) = X + clampTo n ((x : Int) + i) := by
  obtain ⟨s1, s2, s3⟩ := s
  unfold clampTo
  omega

theorem Clear.in {im t : Image α} {lx ux ly uy x y : Nat} (c : Clear X Y im t lx ux ly uy x y) : x < t.w ∧ y < t.h :=
  ⟨c.1.1, c.2.1⟩

theorem PieceOf.in {im t : Image α} (p : PieceOf X Y im t) {x y : Nat} (hx : x < t.w) (hy : y < t.h) :
    X + x < im.w ∧ Y + y < im.h := by
  have := p.w; have := p.h; omega

/-- Clamped reads agree. -/
theorem PieceOf.read {im t : Image α} (p : PieceOf X Y im t) {lx ux ly uy x y : Nat}
    (c : Clear X Y im t lx ux ly uy x y) {i j : Int} (h1 : -(lx : Int) ≤ i) (h2 : i ≤ ux) (h3 : -(ly : Int) ≤ j)
    (h4 : j ≤ uy) :
    t.px (clampTo t.w ((x : Int) + i)) (clampTo t.h ((y : Int) + j)) =
      im.px (clampTo im.w (((X + x : Nat) : Int) + i)) (clampTo im.h (((Y + y : Nat) : Int) + j)) := by
  have hx := c.in.1
  have hy := c.in.2
  rw [c.1.clamp p.w h1 h2, c.2.clamp p.h h3 h4, p.px _ _ (clampTo_lt (by omega) _) (clampTo_lt (by omega) _)]

/-- The window around a clear pixel lies in the piece. -/
theorem Settled.back {n N l u x a : Nat} (s : Settled X n N l u x) (ha : a < N) (h1 : X + x ≤ a + l)
    (h2 : a ≤ X + x + u) : ∃ a', a = X + a' ∧ a' < n := by
  obtain ⟨s1, s2, s3⟩ := s
  exact ⟨a - X, by omega, by omega⟩

/-! ### Filters -/

theorem kpos_mem {w h : Nat} {p : Nat × Nat} : p ∈ kpos w h ↔ p.1 < w ∧ p.2 < h := by
  obtain ⟨a, b⟩ := p
  simp only [kpos, List.mem_flatMap, List.mem_map, List.mem_range, Prod.mk.injEq]
  constructor
  · rintro ⟨ky, h1, kx, h2, rfl, rfl⟩; exact ⟨h2, h1⟩
  · rintro ⟨h1, h2⟩; exact ⟨b, h2, a, h1, rfl, rfl⟩

theorem corr_congr {ι σ K : Type _} [Zero K] [Add K] [Mul K] (into : σ → K) (im t : Image (ι → σ)) (kw kh : Nat)
    (wt : Nat → Nat → K) (x y x' y' : Nat) (c : ι)
    (h : ∀ kx ky : Nat, kx < kw → ky < kh →
      t.px (clampTo t.w ((x : Int) + kx - (kw : Int) / 2)) (clampTo t.h ((y : Int) + ky - (kh : Int) / 2)) c =
      im.px (clampTo im.w ((x' : Int) + kx - (kw : Int) / 2)) (clampTo im.h ((y' : Int) + ky - (kh : Int) / 2)) c) :
    corr into t kw kh wt x y c = corr into im kw kh wt x' y' c := by
  unfold corr
  refine List.foldl_ext _ _ _ fun a q hq => ?_
  obtain ⟨h1, h2⟩ := kpos_mem.1 hq
  rw [h _ _ h1 h2]

/-- Specification: how far a kernel of length `k` reaches down and up from its centre. -/
def reachDown (k : Nat) : Nat := k / 2
/-- See `reachDown`. -/
def reachUp (k : Nat) : Nat := k - 1 - k / 2

theorem corr_piece {ι σ K : Type _} [Zero K] [Add K] [Mul K] (into : σ → K) {im t : Image (ι → σ)} (p : PieceOf X Y im t)
    (kw kh : Nat) (wt : Nat → Nat → K) {x y : Nat}
    (cl : Clear X Y im t (reachDown kw) (reachUp kw) (reachDown kh) (reachUp kh) x y) (c : ι) :
    corr into t kw kh wt x y c = corr into im kw kh wt (X + x) (Y + y) c := by
  refine corr_congr _ _ _ _ _ _ _ _ _ _ _ fun kx ky h1 h2 => ?_
  have e := p.read cl (i := (kx : Int) - (kw : Int) / 2) (j := (ky : Int) - (kh : Int) / 2)
    (by unfold reachDown; omega) (by unfold reachUp; omega) (by unfold reachDown; omega) (by unfold reachUp; omega)
  simp only [← Int.add_sub_assoc] at e
  rw [e]

/-- **C188.** Filtering with a kernel. -/
theorem C188_filter {ι σ τ K : Type _} [Zero K] [Add K] [Mul K] (into : σ → K) (zt : τ) {im t : Image (ι → σ)}
    (p : PieceOf X Y im t) {data : List K} {kw kh : Nat} {k : Kernel K} (hk : Kernel.new data kw kh = some k) (f : K → τ)
    (hw : im.w < 2147483648) (hh : im.h < 2147483648) :
    SameInside X Y im t (reachDown kw) (reachUp kw) (reachDown kh) (reachUp kh)
      (Filter.filter into zt im k f) (Filter.filter into zt t k f) := by
  have := p.w; have := p.h
  obtain ⟨o, e, h1, h2, h3⟩ := C37_filter into zt im hk f hw hh
  obtain ⟨o', e', h1', h2', h3'⟩ := C37_filter into zt t hk f (by omega) (by omega)
  refine ⟨o, o', e, e', fun x y c => ?_⟩
  funext ch
  rw [h3' x y c.in.1 c.in.2, h3 _ _ (p.in c.in.1 c.in.2).1 (p.in c.in.1 c.in.2).2, corr_piece into p kw kh _ c]

/-- **C188.** Separable filtering (and with it Gaussian blur). -/
theorem C188_separable {ι σ K : Type _} [Zero K] [Add K] [Mul K] (into : σ → K) (clamp : K → σ) (zt : σ)
    {im t : Image (ι → σ)} (p : PieceOf X Y im t) (hk vk : List K) (hl : hk.length = vk.length)
    (hw : im.w < 2147483648) (hh : im.h < 2147483648) :
    SameInside X Y im t (reachDown hk.length) (reachUp hk.length) (reachDown vk.length) (reachUp vk.length)
      (separableFilter into clamp zt im hk vk) (separableFilter into clamp zt t hk vk) := by
  have := p.w; have := p.h
  obtain ⟨o, e, h1, h2, h3⟩ := separable_spec into clamp zt im hk vk hl hw hh
  obtain ⟨o', e', h1', h2', h3'⟩ := separable_spec into clamp zt t hk vk hl (by omega) (by omega)
  refine ⟨o, o', e, e', fun x y c => ?_⟩
  funext ch
  have hin := p.in c.in.1 c.in.2
  rw [h3' x y c.in.1 c.in.2, h3 _ _ hin.1 hin.2]
  congr 1
  refine corr_congr _ _ _ _ _ _ _ _ _ _ _ fun kx ky k1 k2 => ?_
  dsimp only
  congr 1
  refine corr_congr _ _ _ _ _ _ _ _ _ _ _ fun lx ly l1 l2 => ?_
  have hx := c.in.1
  have hy := c.in.2
  have e := p.read c (i := (lx : Int) - (hk.length : Int) / 2) (j := (ky : Int) - (vk.length : Int) / 2)
    (by unfold reachDown; omega) (by unfold reachUp; omega) (by unfold reachDown; omega) (by unfold reachUp; omega)
  simp only [← Int.add_sub_assoc] at e
  have a1 : ∀ n x : Nat, x < n → clampTo n ((x : Int) + kx - ((1 : Nat) : Int) / 2) = x := by
    intro n x hx; unfold clampTo; omega
  have a2 : ∀ (n : Nat) (i : Int), 0 < n → clampTo n ((clampTo n i : Int) + ly - ((1 : Nat) : Int) / 2) = clampTo n i := by
    intro n i hn; unfold clampTo; omega
  rw [a1 t.w x hx, a1 im.w (X + x) hin.1, a2 _ _ (by omega), a2 _ _ (by omega), e]

/-- **C188.** Gaussian blur in single precision, whatever exponential function is used. -/
theorem C188_gaussian {ι : Type _} (expf : ℝ → ℝ) {im t : Image (ι → Nat)} (p : PieceOf X Y im t) (sigma : ℝ)
    (hs : 0 < sigma) (hw : im.w < 2147483648) (hh : im.h < 2147483648) (r : Nat) (hr : r = ⌈Float.rnd32 (2 * sigma)⌉₊) :
    SameInside X Y im t r r r r (Float.gaussianBlur32 expf im sigma) (Float.gaussianBlur32 expf t sigma) := by
  have h2 := Float.kernel_spec (fun i => (⟨Float.gaussianPdf32 expf (Float.rnd32 (i : ℝ)) sigma⟩ : Float.F32 ℝ)) r
  dsimp only at h2
  unfold Float.gaussianBlur32
  rw [if_pos hs, if_pos hs, ← hr, h2, Option.bind_some, Option.bind_some]
  refine (C188_separable _ _ 0 p _ _ rfl hw hh).imp fun o => Exists.imp fun o' h => ⟨h.1, h.2.1, fun x y c => h.2.2 x y ?_⟩
  have e1 : reachDown (2 * r + 1) = r := by unfold reachDown; omega
  have e2 : reachUp (2 * r + 1) = r := by unfold reachUp; omega
  simp only [List.length_map, List.length_range, e1, e2]
  exact c

theorem mean_congr (n n' r : Nat) (f f' : Nat → Nat) (x x' : Nat)
    (h : ∀ i : Nat, i < 2 * r + 1 → f (clampTo n ((x : Int) + i - r)) = f' (clampTo n' ((x' : Int) + i - r))) :
    Box.meanOf n r f x = Box.meanOf n' r f' x' := by
  unfold Box.meanOf
  congr 1
  exact sum_congr rfl fun i hi => h i (mem_range.1 hi)

/-- **C188.** Box filter. -/
theorem C188_box {im t : Image Nat} (p : PieceOf X Y im t) (rx ry : Nat)
    (hu : ∀ x y, x < im.w → y < im.h → im.px x y < 256) :
    SameInside X Y im t rx rx ry ry (Box.boxFilter im rx ry) (Box.boxFilter t rx ry) := by
  obtain ⟨o, e, h1, h2, h3⟩ := Box.C40_box_filter im rx ry hu
  obtain ⟨o', e', h1', h2', h3'⟩ := Box.C40_box_filter t rx ry fun x y hx hy => by
    rw [p.px x y hx hy]; exact hu _ _ (p.in hx hy).1 (p.in hx hy).2
  refine ⟨o, o', e, e', fun x y c => ?_⟩
  rw [h3' x y c.in.1 c.in.2, h3 _ _ (p.in c.in.1 c.in.2).1 (p.in c.in.1 c.in.2).2]
  unfold Box.boxSpec
  refine mean_congr _ _ _ _ _ _ _ fun j hj => mean_congr _ _ _ _ _ _ _ fun i hi => ?_
  have e := p.read c (i := (i : Int) - rx) (j := (j : Int) - ry) (by omega) (by omega) (by omega) (by omega)
  simp only [← Int.add_sub_assoc] at e
  exact e

/-- **C188.** Median filter. -/
theorem C188_median {n : Nat} {im t : Image (Fin n → Nat)} (p : PieceOf X Y im t) (hu : Median.U8 im) (rx ry : Nat)
    (hw : im.w + rx ≤ 2147483647) (hh : im.h + ry ≤ 2147483647) (hE : (2 * rx + 1) * (2 * ry + 1) < 2147483648) :
    SameInside X Y im t rx rx ry ry (Median.medianFilter im rx ry) (Median.medianFilter t rx ry) := by
  have := p.w; have := p.h
  obtain ⟨o, e, h1, h2, h3⟩ := Median.C39_median_filter im hu rx ry hw hh hE
  obtain ⟨o', e', h1', h2', h3'⟩ := Median.C39_median_filter t (fun x y c hx hy => by
    rw [p.px x y hx hy]; exact hu _ _ c (p.in hx hy).1 (p.in hx hy).2) rx ry (by omega) (by omega) hE
  refine ⟨o, o', e, e', fun x y c => ?_⟩
  funext ch
  have hin := p.in c.in.1 c.in.2
  have a := h3' x y c.in.1 c.in.2 ch
  have b := h3 _ _ hin.1 hin.2 ch
  have ew : Median.windowValues t rx ry x y ch = Median.windowValues im rx ry (X + x) (Y + y) ch := by
    unfold Median.windowValues
    refine List.flatMap_congr fun j hj => List.map_congr_left fun i hi => ?_
    rw [List.mem_range] at hi hj
    have e := p.read c (i := (i : Int) - rx) (j := (j : Int) - ry) (by omega) (by omega) (by omega) (by omega)
    simp only [← Int.add_sub_assoc] at e
    rw [e]
  rw [ew] at a
  exact Median.IsMedian.unique a b

/-- **C188.** Bilateral filter. -/
theorem C188_bilateral {ι σ K : Type _} [Field K] [Inhabited σ] (into : σ → K) (cast : K → σ)
    (spatial : Int → Int → K) (color : (ι → σ) → (ι → σ) → K) {im t : Image (ι → σ)} (p : PieceOf X Y im t) (r : Nat)
    (ht : 0 < t.w ∧ 0 < t.h) (hw : im.w < 2147483648) (hh : im.h < 2147483648) (hr : r ≤ 90) :
    SameInside X Y im t r r r r (Bilateral.bilateralFilter into cast spatial color im r)
      (Bilateral.bilateralFilter into cast spatial color t r) := by
  have := p.w; have := p.h
  obtain ⟨o, e, h1, h2, h3⟩ := Bilateral.C41_formula into cast spatial color im r (by omega) hw (by omega) hh hr
  obtain ⟨o', e', h1', h2', h3'⟩ := Bilateral.C41_formula into cast spatial color t r ht.1 (by omega) ht.2 (by omega) hr
  refine ⟨o, o', e, e', fun x y c => ?_⟩
  funext ch
  have hin := p.in c.in.1 c.in.2
  have ew : ∀ i j, i ∈ range (2 * r + 1) → j ∈ range (2 * r + 1) →
      Bilateral.win t r x y i j = Bilateral.win im r (X + x) (Y + y) i j := by
    intro i j hi hj
    rw [mem_range] at hi hj
    have e := p.read c (i := (i : Int) - r) (j := (j : Int) - r) (by omega) (by omega) (by omega) (by omega)
    simp only [← Int.add_sub_assoc] at e
    exact e
  rw [h3' x y c.in.1 c.in.2, h3 _ _ hin.1 hin.2]
  congr 2
  · refine sum_congr rfl fun j hj => sum_congr rfl fun i hi => ?_
    rw [Bilateral.wt, Bilateral.wt, ew i j hi hj, p.px x y c.in.1 c.in.2]
  · refine sum_congr rfl fun j hj => sum_congr rfl fun i hi => ?_
    rw [Bilateral.wt, Bilateral.wt, ew i j hi hj, p.px x y c.in.1 c.in.2]

/-! ### Gradients -/

/-- **C188.** Gradient images (single precision), with the three by three and the two by two operators. -/
theorem C188_gradients {ι β : Type _} (z : β) (f : (ι → Nat) → β) {im t : Image (ι → Nat)} (p : PieceOf X Y im t)
    (h : IsU8 im) :
    ∀ ks ∈ [(sobelH, sobelV), (scharrH, scharrV), (prewittH, prewittV), (robertsH, robertsV)],
      SameInside X Y im t 1 1 1 1 (Float.gradients32 z im ks.1 ks.2 f) (Float.gradients32 z t ks.1 ks.2 f) := by
  have := p.w; have := p.h
  have h' : IsU8 t := ⟨by have := h.1; omega, by have := h.2.1; omega, fun x y c hx hy => by
    rw [p.px x y hx hy]; exact h.2.2 _ _ c (p.in hx hy).1 (p.in hx hy).2⟩
  have rd : ∀ x y, Clear X Y im t 1 1 1 1 x y → ∀ (c : ι) (i j : Int), -1 ≤ i → i ≤ 1 → -1 ≤ j → j ≤ 1 →
      at' t c x y i j = at' im c (X + x) (Y + y) i j := by
    intro x y cl c i j a1 a2 a3 a4
    unfold at'
    rw [p.read cl a1 a2 a3 a4]
  have key : ∀ (gh gv gh' gv' : ι → Nat → Nat → Int) (hk vk : Kernel Int), Computes (filterI16 im hk) im gh →
      Computes (filterI16 im vk) im gv → Computes (filterI16 t hk) t gh' → Computes (filterI16 t vk) t gv' →
      (∀ x y, Clear X Y im t 1 1 1 1 x y → ∀ c, gh' c x y = gh c (X + x) (Y + y) ∧ gv' c x y = gv c (X + x) (Y + y)) →
      SameInside X Y im t 1 1 1 1 (Float.gradients32 z im hk vk f) (Float.gradients32 z t hk vk f) := by
    intro gh gv gh' gv' hk vk c1 c2 c3 c4 hg
    obtain ⟨o, e, o1, o2, o3⟩ := Float.gradients32_eq z im hk vk f _ _ c1 c2
    obtain ⟨o', e', o1', o2', o3'⟩ := Float.gradients32_eq z t hk vk f _ _ c3 c4
    refine ⟨o, o', e, e', fun x y cl => ?_⟩
    rw [o3' x y cl.in.1 cl.in.2, o3 _ _ (p.in cl.in.1 cl.in.2).1 (p.in cl.in.1 cl.in.2).2]
    congr 1
    funext c
    rw [(hg x y cl c).1, (hg x y cl c).2]
  have hd : ∀ a b x y, Clear X Y im t 1 1 1 1 x y → ∀ c, hDiff a b t c x y = hDiff a b im c (X + x) (Y + y) ∧
      vDiff a b t c x y = vDiff a b im c (X + x) (Y + y) := by
    intro a b x y cl c
    have q := rd x y cl c
    unfold hDiff vDiff
    rw [q 1 (-1), q (-1) (-1), q 1 0, q (-1) 0, q 1 1, q (-1) 1, q 0 1, q 0 (-1)]
    · exact ⟨rfl, rfl⟩
    all_goals decide
  obtain ⟨a1, a2, a3, a4, a5, a6⟩ := C76_values im h
  obtain ⟨b1, b2, b3, b4, b5, b6⟩ := C76_values t h'
  obtain ⟨a7, a8⟩ := C76_roberts im h
  obtain ⟨b7, b8⟩ := C76_roberts t h'
  intro ks hks
  simp only [List.mem_cons, List.not_mem_nil, or_false] at hks
  rcases hks with rfl | rfl | rfl | rfl
  · exact key _ _ _ _ _ _ a1 a2 b1 b2 (hd 1 2)
  · exact key _ _ _ _ _ _ a3 a4 b3 b4 (hd 3 10)
  · exact key _ _ _ _ _ _ a5 a6 b5 b6 (hd 1 1)
  · refine key _ _ _ _ _ _ a7 a8 b7 b8 fun x y cl c => ?_
    have q := rd x y cl c
    rw [q (-1) (-1), q 0 0, q 0 (-1), q (-1) 0]
    · exact ⟨rfl, rfl⟩
    all_goals decide

/-! ### Suppression, thresholds and morphology -/

/-- **C188.** Non-maximum suppression. -/
theorem C188_suppress [LinearOrder α] {im t : Image α} (p : PieceOf X Y im t) (zero : α) (r : Nat) :
    SameInside X Y im t r r r r (Suppress.suppressNonMaximum im zero r) (Suppress.suppressNonMaximum t zero r) := by
  classical
  obtain ⟨o, e, h1, h2, h3⟩ := Suppress.C29_suppress_non_maximum im zero r
  obtain ⟨o', e', h1', h2', h3'⟩ := Suppress.C29_suppress_non_maximum t zero r
  refine ⟨o, o', e, e', fun x y c => ?_⟩
  have hin := p.in c.in.1 c.in.2
  rw [h3' x y c.in.1 c.in.2, h3 _ _ hin.1 hin.2, p.px x y c.in.1 c.in.2]
  have : Suppress.WindowMax t r x y ↔ Suppress.WindowMax im r (X + x) (Y + y) := by
    constructor
    · intro hm a b ha hb q1 q2 q3 q4
      obtain ⟨a', rfl, ha'⟩ := c.1.back ha q2 q1
      obtain ⟨b', rfl, hb'⟩ := c.2.back hb q4 q3
      have := hm a' b' ha' hb' (by omega) (by omega) (by omega) (by omega)
      unfold Suppress.Beats at this ⊢
      rw [p.px _ _ ha' hb', p.px _ _ c.in.1 c.in.2] at this
      intro hb
      refine this (hb.imp_right fun h => ⟨h.1, ?_⟩)
      omega
    · intro hm a b ha hb q1 q2 q3 q4
      have q := p.in ha hb
      have := hm (X + a) (Y + b) q.1 q.2 (by omega) (by omega) (by omega) (by omega)
      unfold Suppress.Beats at this ⊢
      rw [p.px _ _ ha hb, p.px _ _ c.in.1 c.in.2]
      intro hb
      refine this (hb.imp_right fun h => ⟨h.1, ?_⟩)
      omega
  simp only [this]

theorem block_piece {im t : Image α} (p : PieceOf X Y im t) {x y r : Nat} (c : Clear X Y im t r r r r x y) :
    Contrast.block im (X + x) (Y + y) r = (Contrast.block t x y r).image fun q => (X + q.1, Y + q.2) := by
  ext ⟨a, b⟩
  simp only [Contrast.block, mem_filter, mem_allPx, mem_image, Prod.exists, Prod.mk.injEq]
  constructor
  · rintro ⟨⟨h1, h2⟩, h3, h4⟩
    obtain ⟨a', rfl, ha'⟩ := c.1.back h1 (by omega) (by omega)
    obtain ⟨b', rfl, hb'⟩ := c.2.back h2 (by omega) (by omega)
    exact ⟨a', b', ⟨⟨ha', hb'⟩, by omega, by omega⟩, rfl, rfl⟩
  · rintro ⟨a', b', ⟨⟨h1, h2⟩, h3, h4⟩, rfl, rfl⟩
    exact ⟨p.in h1 h2, by omega, by omega⟩

/-- **C188.** Adaptive threshold. -/
theorem C188_adaptive {im t : Image Nat} (p : PieceOf X Y im t) (r : Nat) (delta : Int) (hr : 0 < r)
    (hfit : 2 * (∑ j ∈ range im.h, ∑ i ∈ range im.w, im.px i j) < 2 ^ 32) :
    SameInside X Y im t r r r r (Contrast.adaptiveThreshold im r delta) (Contrast.adaptiveThreshold t r delta) := by
  have hfit' : 2 * (∑ j ∈ range t.h, ∑ i ∈ range t.w, t.px i j) < 2 ^ 32 := by
    have inj : Set.InjOn (fun q : Nat × Nat => (X + q.1, Y + q.2)) (allPx t.w t.h) := by
      rintro ⟨a, b⟩ _ ⟨c, d⟩ _ h
      obtain ⟨h1, h2⟩ := Prod.mk.inj h
      dsimp only at h1 h2
      exact Prod.ext (by dsimp only; omega) (by dsimp only; omega)
    have : ∑ j ∈ range t.h, ∑ i ∈ range t.w, t.px i j ≤ ∑ j ∈ range im.h, ∑ i ∈ range im.w, im.px i j := by
      rw [← sum_allPx, ← sum_allPx]
      calc ∑ q ∈ allPx t.w t.h, t.px q.1 q.2
          = ∑ q ∈ (allPx t.w t.h).image (fun q => (X + q.1, Y + q.2)), im.px q.1 q.2 := by
            rw [sum_image inj]
            refine sum_congr rfl fun q hq => ?_
            rw [mem_allPx] at hq
            exact p.px _ _ hq.1 hq.2
        _ ≤ _ := by
            refine sum_le_sum_of_subset fun q hq => ?_
            obtain ⟨q', h1, rfl⟩ := mem_image.1 hq
            rw [mem_allPx] at h1 ⊢
            exact p.in h1.1 h1.2
    omega
  obtain ⟨o, e, h1, h2, h3⟩ := Contrast.C14_adaptive_threshold im r delta hr hfit
  obtain ⟨o', e', h1', h2', h3'⟩ := Contrast.C14_adaptive_threshold t r delta hr hfit'
  refine ⟨o, o', e, e', fun x y c => ?_⟩
  have hin := p.in c.in.1 c.in.2
  have inj : Set.InjOn (fun q : Nat × Nat => (X + q.1, Y + q.2)) (Contrast.block t x y r) := by
    rintro ⟨a, b⟩ _ ⟨c, d⟩ _ h
    obtain ⟨h1, h2⟩ := Prod.mk.inj h
    dsimp only at h1 h2
    exact Prod.ext (by dsimp only; omega) (by dsimp only; omega)
  rw [h3' x y c.in.1 c.in.2, h3 _ _ hin.1 hin.2, block_piece p c, card_image_of_injOn inj, sum_image inj,
    p.px x y c.in.1 c.in.2]
  have : ∑ q ∈ Contrast.block t x y r, t.px q.1 q.2 = ∑ q ∈ Contrast.block t x y r, im.px (X + q.1) (Y + q.2) := by
    refine sum_congr rfl fun q hq => ?_
    simp only [Contrast.block, mem_filter, mem_allPx] at hq
    exact p.px _ _ hq.1.1 hq.1.2
  rw [this]

/-- **C188.** Grayscale dilation and erosion with a mask whose offsets are at most `l`, `u` (left, right)
and `d`, `e` (up, down). -/
theorem C188_grayscale {im t : Image Nat} (p : PieceOf X Y im t) (mask : List Morphology.Off) (l u d e : Nat)
    (hm : ∀ o ∈ mask, -(l : Int) ≤ o.1 ∧ o.1 ≤ u ∧ -(d : Int) ≤ o.2 ∧ o.2 ≤ e) (ht : 0 < t.w)
    (hb : ∀ x y, x < im.w → y < im.h → im.px x y ≤ 255) :
    SameInside X Y im t l u d e (Morphology.grayDilate im mask) (Morphology.grayDilate t mask) ∧
    SameInside X Y im t l u d e (Morphology.grayErode im mask) (Morphology.grayErode t mask) := by
  have := p.w
  have at1 : ∀ x y, Clear X Y im t l u d e x y → ∀ o ∈ mask, ∀ a b, Morphology.AtOff im (X + x) (Y + y) o a b →
      ∃ a' b', Morphology.AtOff t x y o a' b' ∧ t.px a' b' = im.px a b := by
    rintro x y c o ho a b ⟨h1, h2, h3, h4⟩
    obtain ⟨m1, m2, m3, m4⟩ := hm o ho
    push_cast at h1 h2
    obtain ⟨a', rfl, ha'⟩ := c.1.back h3 (by omega) (by omega)
    obtain ⟨b', rfl, hb'⟩ := c.2.back h4 (by omega) (by omega)
    push_cast at h1 h2
    exact ⟨a', b', ⟨by omega, by omega, ha', hb'⟩, p.px _ _ ha' hb'⟩
  have at2 : ∀ x y, ∀ o ∈ mask, ∀ a b, Morphology.AtOff t x y o a b →
      Morphology.AtOff im (X + x) (Y + y) o (X + a) (Y + b) ∧ t.px a b = im.px (X + a) (Y + b) := by
    rintro x y o ho a b ⟨h1, h2, h3, h4⟩
    refine ⟨⟨?_, ?_, p.in h3 h4⟩, p.px _ _ h3 h4⟩
    · push_cast; omega
    · push_cast; omega
  constructor
  · obtain ⟨o, e1, w1, h1, p1⟩ := Morphology.C34_dilate im mask (by omega)
    obtain ⟨o', e2, w2, h2, p2⟩ := Morphology.C34_dilate t mask ht
    refine ⟨o, o', e1, e2, fun x y c => ?_⟩
    obtain ⟨q1, q2, q3⟩ := p1 (X + x) (Y + y) (p.in c.in.1 c.in.2).1 (p.in c.in.1 c.in.2).2
    obtain ⟨s1, s2, s3⟩ := p2 x y c.in.1 c.in.2
    by_cases hex : ∃ o ∈ mask, ∃ a b, Morphology.AtOff t x y o a b
    · obtain ⟨m, hm1, a, b, hab, ev⟩ := s2 hex
      obtain ⟨k1, k2⟩ := at2 x y m hm1 a b hab
      obtain ⟨m', hm2, a', b', hab', ev'⟩ := q2 ⟨m, hm1, _, _, k1⟩
      obtain ⟨a'', b'', k3, k4⟩ := at1 x y c m' hm2 a' b' hab'
      have := q1 m hm1 _ _ k1
      have := s1 m' hm2 _ _ k3
      omega
    · rw [s3 hex, q3]
      rintro ⟨m, hm1, a, b, hab⟩
      obtain ⟨a'', b'', k3, -⟩ := at1 x y c m hm1 a b hab
      exact hex ⟨m, hm1, _, _, k3⟩
  · obtain ⟨o, e1, w1, h1, p1⟩ := Morphology.C34_erode im mask (by omega) hb
    obtain ⟨o', e2, w2, h2, p2⟩ := Morphology.C34_erode t mask ht fun x y hx hy => by
      rw [p.px x y hx hy]; exact hb _ _ (p.in hx hy).1 (p.in hx hy).2
    refine ⟨o, o', e1, e2, fun x y c => ?_⟩
    obtain ⟨q1, q2, q3⟩ := p1 (X + x) (Y + y) (p.in c.in.1 c.in.2).1 (p.in c.in.1 c.in.2).2
    obtain ⟨s1, s2, s3⟩ := p2 x y c.in.1 c.in.2
    by_cases hex : ∃ o ∈ mask, ∃ a b, Morphology.AtOff t x y o a b
    · obtain ⟨m, hm1, a, b, hab, ev⟩ := s2 hex
      obtain ⟨k1, k2⟩ := at2 x y m hm1 a b hab
      obtain ⟨m', hm2, a', b', hab', ev'⟩ := q2 ⟨m, hm1, _, _, k1⟩
      obtain ⟨a'', b'', k3, k4⟩ := at1 x y c m' hm2 a' b' hab'
      have := q1 m hm1 _ _ k1
      have := s1 m' hm2 _ _ k3
      omega
    · rw [s3 hex, q3]
      rintro ⟨m, hm1, a, b, hab⟩
      obtain ⟨a'', b'', k3, -⟩ := at1 x y c m hm1 a b hab
      exact hex ⟨m, hm1, _, _, k3⟩

/-- **C188.** Binary dilation and erosion with any norm (radii the functions handle as documented for both
images, see C33). -/
theorem C188_binary {im t : Image Nat} (p : PieceOf X Y im t) (norm : Morphology.Norm) (k : Nat)
    (hk : Morphology.SmallRadius norm im k) (hk' : Morphology.SmallRadius norm t k) :
    SameInside X Y im t k k k k (Morphology.dilate norm k im) (Morphology.dilate norm k t) ∧
    SameInside X Y im t k k k k (Morphology.erode norm k im) (Morphology.erode norm k t) := by
  have box : ∀ x y a b, Morphology.Within norm k x y a b → ((x : Int) - a).natAbs ≤ k ∧ ((y : Int) - b).natAbs ≤ k := by
    intro x y a b h
    cases norm with
    | L1 => have h : ((x : Int) - a).natAbs + ((y : Int) - b).natAbs ≤ k := h; omega
    | LInf => exact h
    | L2 =>
      have h : ((x : Int) - a) ^ 2 + ((y : Int) - b) ^ 2 ≤ (k : Int) ^ 2 := h
      constructor
      · have := abs_le_of_sq_le_sq (a := (x : Int) - a) (b := k) (by nlinarith [sq_nonneg ((y : Int) - b)]) (by omega)
        rw [abs_le] at this; omega
      · have := abs_le_of_sq_le_sq (a := (y : Int) - b) (b := k) (by nlinarith [sq_nonneg ((x : Int) - a)]) (by omega)
        rw [abs_le] at this; omega
  have shift : ∀ x y a b, Morphology.Within norm k (X + x) (Y + y) (X + a) (Y + b) ↔ Morphology.Within norm k x y a b := by
    intro x y a b
    have e1 : ((X + x : Nat) : Int) - ((X + a : Nat) : Int) = (x : Int) - a := by push_cast; omega
    have e2 : ((Y + y : Nat) : Int) - ((Y + b : Nat) : Int) = (y : Int) - b := by push_cast; omega
    unfold Morphology.Within
    rw [e1, e2]
  have near : ∀ (Q : Nat → Prop) x y, Clear X Y im t k k k k x y →
      ((∃ a b, (a < im.w ∧ b < im.h ∧ Q (im.px a b)) ∧ Morphology.Within norm k (X + x) (Y + y) a b) ↔
        ∃ a b, (a < t.w ∧ b < t.h ∧ Q (t.px a b)) ∧ Morphology.Within norm k x y a b) := by
    intro Q x y c
    constructor
    · rintro ⟨a, b, ⟨h1, h2, h3⟩, h4⟩
      have q := box _ _ _ _ h4
      obtain ⟨a', rfl, ha'⟩ := c.1.back h1 (by omega) (by omega)
      obtain ⟨b', rfl, hb'⟩ := c.2.back h2 (by omega) (by omega)
      exact ⟨a', b', ⟨ha', hb', by rw [p.px _ _ ha' hb']; exact h3⟩, (shift ..).1 h4⟩
    · rintro ⟨a, b, ⟨h1, h2, h3⟩, h4⟩
      exact ⟨X + a, Y + b, ⟨(p.in h1 h2).1, (p.in h1 h2).2, by rw [← p.px _ _ h1 h2]; exact h3⟩, (shift ..).2 h4⟩
  constructor
  · obtain ⟨o, e1, w1, h1, p1⟩ := Morphology.C33_dilate_partial norm im k hk
    obtain ⟨o', e2, w2, h2, p2⟩ := Morphology.C33_dilate_partial norm t k hk'
    refine ⟨o, o', e1, e2, fun x y c => ?_⟩
    obtain ⟨q1, q2⟩ := p1 (X + x) (Y + y) (p.in c.in.1 c.in.2).1 (p.in c.in.1 c.in.2).2
    obtain ⟨s1, s2⟩ := p2 x y c.in.1 c.in.2
    by_cases hex : ∃ a b, Morphology.Fg t a b ∧ Morphology.Within norm k x y a b
    · rw [s1 hex, q1 ((near (· ≠ 0) x y c).2 hex)]
    · rw [s2 hex, q2 fun h => hex ((near (· ≠ 0) x y c).1 h)]
  · obtain ⟨o, e1, w1, h1, p1⟩ := Morphology.C33_erode_partial norm im k hk
    obtain ⟨o', e2, w2, h2, p2⟩ := Morphology.C33_erode_partial norm t k hk'
    refine ⟨o, o', e1, e2, fun x y c => ?_⟩
    obtain ⟨q1, q2⟩ := p1 (X + x) (Y + y) (p.in c.in.1 c.in.2).1 (p.in c.in.1 c.in.2).2
    obtain ⟨s1, s2⟩ := p2 x y c.in.1 c.in.2
    by_cases hex : ∃ a b, Morphology.Bg t a b ∧ Morphology.Within norm k x y a b
    · rw [s1 hex, q1 ((near (· = 0) x y c).2 hex)]
    · rw [s2 hex, q2 fun h => hex ((near (· = 0) x y c).1 h)]

/-! ### Patterns, corners and templates -/

/-- **C188.** Local binary patterns. -/
theorem C188_lbp {im t : Image Nat} (p : PieceOf X Y im t) (x y : Nat) (c : Clear X Y im t 1 1 1 1 x y) :
    Lbp.localBinaryPattern t x y = Lbp.localBinaryPattern im (X + x) (Y + y) := by
  obtain ⟨⟨c1, c2, c3⟩, c4, c5, c6⟩ := c
  have := p.w; have := p.h
  by_cases hb : x = 0 ∨ t.w ≤ x + 1 ∨ y = 0 ∨ t.h ≤ y + 1
  · rw [Lbp.C62_border t x y hb, Lbp.C62_border im _ _ (by omega)]
  · obtain ⟨q, e, h⟩ := Lbp.C62_pattern_partial t x y (by omega) (by omega) (by omega) (by omega)
    obtain ⟨q', e', h'⟩ := Lbp.C62_pattern_partial im (X + x) (Y + y) (by omega) (by omega) (by omega) (by omega)
    rw [e, e']
    congr 2
    refine BitVec.eq_of_getLsbD_eq fun i hi => ?_
    rw [Bool.eq_iff_iff, h i hi, h' i hi, p.px x y c1 c4]
    have ho : -1 ≤ (Lbp.offset i).1 ∧ (Lbp.offset i).1 ≤ 1 ∧ -1 ≤ (Lbp.offset i).2 ∧ (Lbp.offset i).2 ≤ 1 := by
      interval_cases i <;> decide
    rw [p.px _ _ (by omega) (by omega)]
    have e1 : X + ((x : Int) + (Lbp.offset i).1).toNat = (((X + x : Nat) : Int) + (Lbp.offset i).1).toNat := by
      push_cast; omega
    have e2 : Y + ((y : Int) + (Lbp.offset i).2).toNat = (((Y + y : Nat) : Int) + (Lbp.offset i).2).toNat := by
      push_cast; omega
    rw [e1, e2]

open Verif.Corners in
/-- **C188.** FAST corners and their scores. -/
theorem C188_fast (v : Fast) {im t : Image Nat} (p : PieceOf X Y im t) (hw : im.w < 2 ^ 32) (hh : im.h < 2 ^ 32)
    {thr : Nat} (ht : thr ≤ 255) :
    ∃ l l', corners v im thr = some l ∧ corners v t thr = some l' ∧
      ∀ x y sc, Clear X Y im t 3 3 3 3 x y → ((x, y, sc) ∈ l' ↔ (X + x, Y + y, sc) ∈ l) := by
  have := p.w; have := p.h
  obtain ⟨l, el, l1, -⟩ := C65_list v im hw hh ht
  obtain ⟨l', el', l1', -⟩ := C65_list v t (by omega) (by omega) ht
  refine ⟨l, l', el, el', fun x y sc c => ?_⟩
  have hin : Inside t x y ↔ Inside im (X + x) (Y + y) := by
    obtain ⟨⟨c1, c2, c3⟩, c4, c5, c6⟩ := c
    unfold Inside
    omega
  have dt : ∀ u, Detected v t u x y ↔ Detected v im u (X + x) (Y + y) := by
    intro u
    by_cases hi : Inside t x y
    · have hat : ∀ o : Int × Int, o.1.natAbs ≤ 3 → o.2.natAbs ≤ 3 → at_ t x y o = at_ im (X + x) (Y + y) o := by
        intro o h1 h2
        obtain ⟨i1, i2, i3, i4⟩ := hi
        unfold at_
        rw [p.px _ _ (by omega) (by omega)]
        have e1 : X + ((x : Int) + o.1).toNat = (((X + x : Nat) : Int) + o.1).toNat := by push_cast; omega
        have e2 : Y + ((y : Int) + o.2).toNat = (((Y + y : Nat) : Int) + o.2).toNat := by push_cast; omega
        rw [e1, e2]
      have hc := hat (0, 0) (by decide) (by decide)
      have br : ∀ n, Bright n t u x y ↔ Bright n im u (X + x) (Y + y) := by
        intro n
        unfold Bright
        rw [List.map_congr_left fun o ho => by rw [hat o (ring_small o ho).1 (ring_small o ho).2, hc]]
      have dk : ∀ n, Dark n t u x y ↔ Dark n im u (X + x) (Y + y) := by
        intro n
        unfold Dark
        rw [List.map_congr_left fun o ho => by rw [hat o (ring_small o ho).1 (ring_small o ho).2, hc]]
      cases v
      · show FastCorner 9 t u x y ↔ FastCorner 9 im u (X + x) (Y + y)
        unfold FastCorner
        rw [hin, br, dk]
      · show Corner12 t u x y ↔ Corner12 im u (X + x) (Y + y)
        unfold Corner12
        rw [hin, br, dk, hc, hat (0, -3) (by decide) (by decide), hat (0, 3) (by decide) (by decide)]
    · have hi' : ¬ Inside im (X + x) (Y + y) := fun h => hi (hin.2 h)
      constructor
      · intro h; exact absurd (by cases v <;> exact h.1) hi
      · intro h; exact absurd (by cases v <;> exact h.1) hi'
  have es : score v t thr x y = score v im thr (X + x) (Y + y) := by
    unfold score
    congr 1
    funext u
    obtain ⟨b, e, hb⟩ := isCorner_spec v im hw hh u (X + x) (Y + y)
    obtain ⟨b', e', hb'⟩ := isCorner_spec v t (by omega) (by omega) u x y
    rw [e, e']
    congr 1
    rw [Bool.eq_iff_iff, hb, hb', dt]
  rw [l1, l1', dt, es]

/-- **C188.** Template matching scores: at every position of the piece where the template fits. -/
theorem C188_template {im t : Image Nat} (p : PieceOf X Y im t) (tpl : Image Nat) (m : Template.Method)
    (hw : 0 < tpl.w) (hh : 0 < tpl.h) (htw : tpl.w ≤ t.w) (hth : tpl.h ≤ t.h) :
    ∃ o o', Template.matchTemplate im tpl m = some o ∧ Template.matchTemplate t tpl m = some o' ∧
      ∀ x y, x < o'.w → y < o'.h → o'.px x y = o.px (X + x) (Y + y) := by
  have := p.w; have := p.h
  obtain ⟨o, e, h1, h2, h3⟩ := Template.C67_unmasked im tpl m hw hh (by omega) (by omega)
  obtain ⟨o', e', h1', h2', h3'⟩ := Template.C67_unmasked t tpl m hw hh htw hth
  refine ⟨o, o', e, e', fun x y hx hy => ?_⟩
  rw [h3' x y hx hy, h3 _ _ (by omega) (by omega)]
  have win : ∀ g : ℝ → ℝ → ℝ → ℝ, Template.window t tpl (Template.ones tpl.w tpl.h) x y g =
      Template.window im tpl (Template.ones tpl.w tpl.h) (X + x) (Y + y) g := by
    intro g
    unfold Template.window
    refine sum_congr rfl fun dy hdy => sum_congr rfl fun dx hdx => ?_
    rw [mem_range] at hdx hdy
    rw [p.px _ _ (by omega) (by omega), Nat.add_assoc, Nat.add_assoc]
  unfold Template.score
  simp only [win]

/-- Non-trivial instance: the right part of an image; only its first column differs. -/
example : ((crop (Image.ofRows 0 [[9, 1, 5, 7]]) 1 0 3 1).bind fun t => Box.boxFilter t 1 0).map Image.rows =
      some [[2, 4, 6]] ∧
    (Box.boxFilter (Image.ofRows 0 [[9, 1, 5, 7]]) 1 0).map Image.rows = some [[6, 5, 4, 6]] := by decide +kernel

end Verif.Relations
