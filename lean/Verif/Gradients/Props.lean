import Verif.Gradients.Model
import Verif.Filter.Props
import Verif.Basic.Raster
import Mathlib.Tactic.Linarith
import Mathlib.Tactic.Ring
/-
Property theorem C76: built-in gradient operators.
-/
namespace Verif.Gradients
open Verif.Filter

variable {ι : Type _}

/-! ### Specification -/

/-- The input subpixel at offset `(dx, dy)` from `(x, y)`, the image continued beyond its border by
its nearest pixel. -/
def at' (im : Image (ι → Nat)) (c : ι) (x y : Nat) (dx dy : Int) : Int :=
  im.px (clampTo im.w (x + dx)) (clampTo im.h (y + dy)) c

/-- Right column minus left column, rows weighted `a, b, a`. -/
def hDiff (a b : Int) (im : Image (ι → Nat)) (c : ι) (x y : Nat) : Int :=
  a * (at' im c x y 1 (-1) - at' im c x y (-1) (-1)) + b * (at' im c x y 1 0 - at' im c x y (-1) 0) +
    a * (at' im c x y 1 1 - at' im c x y (-1) 1)

/-- Lower row minus upper row, columns weighted `a, b, a`. -/
def vDiff (a b : Int) (im : Image (ι → Nat)) (c : ι) (x y : Nat) : Int :=
  a * (at' im c x y (-1) 1 - at' im c x y (-1) (-1)) + b * (at' im c x y 0 1 - at' im c x y 0 (-1)) +
    a * (at' im c x y 1 1 - at' im c x y 1 (-1))

/-- 8-bit contents and a size below 2^31. -/
def IsU8 (im : Image (ι → Nat)) : Prop :=
  im.w < 2147483648 ∧ im.h < 2147483648 ∧ ∀ x y c, x < im.w → y < im.h → im.px x y c ≤ 255

/-- The image result has the size of `im` and the subpixels `g`. -/
def Computes (r : Option (Image (ι → Int))) (im : Image (ι → Nat)) (g : ι → Nat → Nat → Int) : Prop :=
  ∃ out, r = some out ∧ out.w = im.w ∧ out.h = im.h ∧
    ∀ x y, x < im.w → y < im.h → ∀ c, out.px x y c = g c x y

/-! ### Lemmas -/

theorem at_range {im : Image (ι → Nat)} (h : IsU8 im) (c : ι) {x y : Nat} (hx : x < im.w)
    (hy : y < im.h) (dx dy : Int) : 0 ≤ at' im c x y dx dy ∧ at' im c x y dx dy ≤ 255 := by
  unfold at'
  have := h.2.2 (clampTo im.w (x + dx)) (clampTo im.h (y + dy)) c (clampTo_lt (by omega) _)
    (clampTo_lt (by omega) _)
  omega

theorem clampInt_id {v : Int} (h1 : -32768 ≤ v) (h2 : v ≤ 32767) :
    Definitions.clampInt (-32768) 32767 v = v := by
  unfold Definitions.clampInt
  split
  · split
    · rfl
    · omega
  · omega

theorem filter3 (im : Image (ι → Nat)) (h : IsU8 im) (k0 k1 k2 k3 k4 k5 k6 k7 k8 : Int)
    (g : ι → Nat → Nat → Int)
    (hg : ∀ c x y, x < im.w → y < im.h → g c x y =
      k0 * at' im c x y (-1) (-1) + k1 * at' im c x y 0 (-1) + k2 * at' im c x y 1 (-1) +
      k3 * at' im c x y (-1) 0 + k4 * at' im c x y 0 0 + k5 * at' im c x y 1 0 +
      k6 * at' im c x y (-1) 1 + k7 * at' im c x y 0 1 + k8 * at' im c x y 1 1)
    (hr : ∀ c x y, x < im.w → y < im.h → -32768 ≤ g c x y ∧ g c x y ≤ 32767) :
    Computes (filterI16 im ⟨[k0, k1, k2, k3, k4, k5, k6, k7, k8], 3, 3⟩) im g := by
  obtain ⟨out, e, h1, h2, h3⟩ := C37_filter_sum (fun v : Nat => (v : Int)) (0 : Int) im
    (data := [k0, k1, k2, k3, k4, k5, k6, k7, k8]) (kw := 3) (kh := 3) rfl
    (Definitions.clampInt (-32768) 32767) h.1 h.2.1
  refine ⟨out, e, h1, h2, fun x y hx hy c => ?_⟩
  rw [h3 x y hx hy c]
  obtain ⟨r1, r2⟩ := hr c x y hx hy
  rw [← clampInt_id r1 r2, hg c x y hx hy]
  congr 1
  simp only [Finset.sum_range_succ, Finset.sum_range_zero, at']
  norm_num
  simp only [add_sub_assoc]
  norm_num
  ring_nf

theorem hDiff_bound {a b : Int} (ha : 0 ≤ a) (hb : 0 ≤ b) (hab : 2 * a + b ≤ 16)
    {im : Image (ι → Nat)} (h : IsU8 im) (c : ι) {x y : Nat} (hx : x < im.w) (hy : y < im.h) :
    -32768 ≤ hDiff a b im c x y ∧ hDiff a b im c x y ≤ 32767 := by
  have key : ∀ dx dy dx' dy' : Int, -255 ≤ at' im c x y dx dy - at' im c x y dx' dy' ∧
      at' im c x y dx dy - at' im c x y dx' dy' ≤ 255 := fun dx dy dx' dy' => by
    have := at_range h c hx hy dx dy
    have := at_range h c hx hy dx' dy'
    omega
  have m : ∀ (u v : Int), 0 ≤ u → -255 ≤ v ∧ v ≤ 255 → -255 * u ≤ u * v ∧ u * v ≤ 255 * u :=
    fun u v hu hv => ⟨by nlinarith, by nlinarith⟩
  have m1 := m a _ ha (key 1 (-1) (-1) (-1))
  have m2 := m b _ hb (key 1 0 (-1) 0)
  have m3 := m a _ ha (key 1 1 (-1) 1)
  unfold hDiff
  constructor <;> linarith [m1.1, m1.2, m2.1, m2.2, m3.1, m3.2]

theorem vDiff_bound {a b : Int} (ha : 0 ≤ a) (hb : 0 ≤ b) (hab : 2 * a + b ≤ 16)
    {im : Image (ι → Nat)} (h : IsU8 im) (c : ι) {x y : Nat} (hx : x < im.w) (hy : y < im.h) :
    -32768 ≤ vDiff a b im c x y ∧ vDiff a b im c x y ≤ 32767 := by
  have key : ∀ dx dy dx' dy' : Int, -255 ≤ at' im c x y dx dy - at' im c x y dx' dy' ∧
      at' im c x y dx dy - at' im c x y dx' dy' ≤ 255 := fun dx dy dx' dy' => by
    have := at_range h c hx hy dx dy
    have := at_range h c hx hy dx' dy'
    omega
  have m : ∀ (u v : Int), 0 ≤ u → -255 ≤ v ∧ v ≤ 255 → -255 * u ≤ u * v ∧ u * v ≤ 255 * u :=
    fun u v hu hv => ⟨by nlinarith, by nlinarith⟩
  have m1 := m a _ ha (key (-1) 1 (-1) (-1))
  have m2 := m b _ hb (key 0 1 0 (-1))
  have m3 := m a _ ha (key 1 1 1 (-1))
  unfold vDiff
  constructor <;> linarith [m1.1, m1.2, m2.1, m2.2, m3.1, m3.2]

/-! ### C76 -/

/-- **C76.** The Sobel, Scharr and Prewitt filters return, for every 8-bit image, exactly the
weighted differences of columns (rows); in particular the 16-bit conversion never clamps. -/
theorem C76_values (im : Image (ι → Nat)) (h : IsU8 im) :
    Computes (horizontalSobel im) im (hDiff 1 2 im) ∧ Computes (verticalSobel im) im (vDiff 1 2 im) ∧
    Computes (horizontalScharr im) im (hDiff 3 10 im) ∧
    Computes (verticalScharr im) im (vDiff 3 10 im) ∧
    Computes (horizontalPrewitt im) im (hDiff 1 1 im) ∧
    Computes (verticalPrewitt im) im (vDiff 1 1 im) := by
  refine ⟨?_, ?_, ?_, ?_, ?_, ?_⟩
  · exact filter3 im h _ _ _ _ _ _ _ _ _ _ (fun c x y _ _ => by unfold hDiff; ring)
      fun c x y hx hy => hDiff_bound (by decide) (by decide) (by decide) h c hx hy
  · exact filter3 im h _ _ _ _ _ _ _ _ _ _ (fun c x y _ _ => by unfold vDiff; ring)
      fun c x y hx hy => vDiff_bound (by decide) (by decide) (by decide) h c hx hy
  · exact filter3 im h _ _ _ _ _ _ _ _ _ _ (fun c x y _ _ => by unfold hDiff; ring)
      fun c x y hx hy => hDiff_bound (by decide) (by decide) (by decide) h c hx hy
  · exact filter3 im h _ _ _ _ _ _ _ _ _ _ (fun c x y _ _ => by unfold vDiff; ring)
      fun c x y hx hy => vDiff_bound (by decide) (by decide) (by decide) h c hx hy
  · exact filter3 im h _ _ _ _ _ _ _ _ _ _ (fun c x y _ _ => by unfold hDiff; ring)
      fun c x y hx hy => hDiff_bound (by decide) (by decide) (by decide) h c hx hy
  · exact filter3 im h _ _ _ _ _ _ _ _ _ _ (fun c x y _ _ => by unfold vDiff; ring)
      fun c x y hx hy => vDiff_bound (by decide) (by decide) (by decide) h c hx hy

/-- **C76.** The Roberts kernels return the differences across the two diagonals of the two by two
block ending at the pixel. -/
theorem C76_roberts (im : Image (ι → Nat)) (h : IsU8 im) :
    Computes (filterI16 im robertsH) im
      (fun c x y => at' im c x y (-1) (-1) - at' im c x y 0 0) ∧
    Computes (filterI16 im robertsV) im
      (fun c x y => at' im c x y 0 (-1) - at' im c x y (-1) 0) := by
  have key : ∀ c x y, x < im.w → y < im.h → ∀ dx dy dx' dy' : Int,
      Definitions.clampInt (-32768) 32767 (at' im c x y dx dy - at' im c x y dx' dy') =
      at' im c x y dx dy - at' im c x y dx' dy' := fun c x y hx hy dx dy dx' dy' => by
    have := at_range h c hx hy dx dy
    have := at_range h c hx hy dx' dy'
    exact clampInt_id (by omega) (by omega)
  constructor
  · obtain ⟨out, e, h1, h2, h3⟩ := C37_filter_sum (fun v : Nat => (v : Int)) (0 : Int) im
      (data := [1, 0, 0, -1]) (kw := 2) (kh := 2) rfl
      (Definitions.clampInt (-32768) 32767) h.1 h.2.1
    refine ⟨out, e, h1, h2, fun x y hx hy c => ?_⟩
    rw [h3 x y hx hy c]; dsimp only; rw [← key c x y hx hy]
    congr 1
    simp only [Finset.sum_range_succ, Finset.sum_range_zero, at']
    norm_num
    rfl
  · obtain ⟨out, e, h1, h2, h3⟩ := C37_filter_sum (fun v : Nat => (v : Int)) (0 : Int) im
      (data := [0, 1, -1, -0]) (kw := 2) (kh := 2) rfl
      (Definitions.clampInt (-32768) 32767) h.1 h.2.1
    refine ⟨out, e, h1, h2, fun x y hx hy c => ?_⟩
    rw [h3 x y hx hy c]; dsimp only; rw [← key c x y hx hy]
    congr 1
    simp only [Finset.sum_range_succ, Finset.sum_range_zero, at']
    norm_num
    rfl

/-- **C76.** The Laplacian filter returns the sum of the four neighbours minus four times the
pixel; the eight-neighbour kernel likewise. -/
theorem C76_laplacian (im : Image (ι → Nat)) (h : IsU8 im) :
    Computes (laplacianFilter im) im (fun c x y => at' im c x y 0 (-1) + at' im c x y (-1) 0 +
      at' im c x y 1 0 + at' im c x y 0 1 - 4 * at' im c x y 0 0) ∧
    Computes (filterI16 im laplace8) im (fun c x y => at' im c x y (-1) (-1) + at' im c x y 0 (-1) +
      at' im c x y 1 (-1) + at' im c x y (-1) 0 + at' im c x y 1 0 + at' im c x y (-1) 1 +
      at' im c x y 0 1 + at' im c x y 1 1 - 8 * at' im c x y 0 0) := by
  constructor
  · refine filter3 im h _ _ _ _ _ _ _ _ _ _ (fun c x y _ _ => by ring) fun c x y hx hy => ?_
    have := at_range h c hx hy 0 (-1)
    have := at_range h c hx hy (-1) 0
    have := at_range h c hx hy 1 0
    have := at_range h c hx hy 0 1
    have := at_range h c hx hy 0 0
    omega
  · refine filter3 im h _ _ _ _ _ _ _ _ _ _ (fun c x y _ _ => by ring) fun c x y hx hy => ?_
    have := at_range h c hx hy 0 (-1)
    have := at_range h c hx hy (-1) 0
    have := at_range h c hx hy 1 0
    have := at_range h c hx hy 0 1
    have := at_range h c hx hy 0 0
    have := at_range h c hx hy (-1) (-1)
    have := at_range h c hx hy 1 (-1)
    have := at_range h c hx hy (-1) 1
    have := at_range h c hx hy 1 1
    omega

/-- **C76.** On a constant neighbourhood every operator above is zero. -/
theorem C76_constant (im : Image (ι → Nat)) (c : ι) (x y : Nat) (v : Int)
    (hv : ∀ dx dy : Int, -1 ≤ dx → dx ≤ 1 → -1 ≤ dy → dy ≤ 1 → at' im c x y dx dy = v) :
    (∀ a b, hDiff a b im c x y = 0 ∧ vDiff a b im c x y = 0) ∧
    at' im c x y (-1) (-1) - at' im c x y 0 0 = 0 ∧ at' im c x y 0 (-1) - at' im c x y (-1) 0 = 0 ∧
    at' im c x y 0 (-1) + at' im c x y (-1) 0 + at' im c x y 1 0 + at' im c x y 0 1 -
      4 * at' im c x y 0 0 = 0 := by
  have e := fun dx dy h1 h2 h3 h4 => hv dx dy h1 h2 h3 h4
  unfold hDiff vDiff
  rw [e 1 (-1) (by decide) (by decide) (by decide) (by decide),
    e (-1) (-1) (by decide) (by decide) (by decide) (by decide),
    e 1 0 (by decide) (by decide) (by decide) (by decide),
    e (-1) 0 (by decide) (by decide) (by decide) (by decide),
    e 1 1 (by decide) (by decide) (by decide) (by decide),
    e (-1) 1 (by decide) (by decide) (by decide) (by decide),
    e 0 1 (by decide) (by decide) (by decide) (by decide),
    e 0 (-1) (by decide) (by decide) (by decide) (by decide),
    e 0 0 (by decide) (by decide) (by decide) (by decide)]
  refine ⟨fun a b => ⟨by ring, by ring⟩, by ring, by ring, by ring⟩

/-- The image mirrored left to right, top to bottom, and transposed. -/
def mirrorX (im : Image (ι → Nat)) : Image (ι → Nat) := ⟨im.w, im.h, fun x y => im.px (im.w - 1 - x) y⟩
def mirrorY (im : Image (ι → Nat)) : Image (ι → Nat) := ⟨im.w, im.h, fun x y => im.px x (im.h - 1 - y)⟩
def transposed (im : Image (ι → Nat)) : Image (ι → Nat) := ⟨im.h, im.w, fun x y => im.px y x⟩

theorem clampTo_mirror {n x : Nat} (hx : x < n) (d : Int) :
    n - 1 - clampTo n (((n - 1 - x : Nat) : Int) + d) = clampTo n ((x : Int) + -d) := by
  unfold clampTo; omega

theorem at_mirrorX (im : Image (ι → Nat)) (c : ι) {x : Nat} (y : Nat) (hx : x < im.w) (dx dy : Int) :
    at' (mirrorX im) c (im.w - 1 - x) y dx dy = at' im c x y (-dx) dy := by
  unfold at' mirrorX
  dsimp only
  rw [clampTo_mirror hx]

theorem at_mirrorY (im : Image (ι → Nat)) (c : ι) (x : Nat) {y : Nat} (hy : y < im.h) (dx dy : Int) :
    at' (mirrorY im) c x (im.h - 1 - y) dx dy = at' im c x y dx (-dy) := by
  unfold at' mirrorY
  dsimp only
  rw [clampTo_mirror hy]

/-- **C76.** Mirroring the image left to right negates the horizontal operator (at the mirrored
pixel) and preserves the vertical one; mirroring top to bottom does the opposite; transposing the
image exchanges the two. -/
theorem C76_mirror (im : Image (ι → Nat)) (c : ι) (a b : Int) {x y : Nat} (hx : x < im.w)
    (hy : y < im.h) :
    hDiff a b (mirrorX im) c (im.w - 1 - x) y = -hDiff a b im c x y ∧
    vDiff a b (mirrorX im) c (im.w - 1 - x) y = vDiff a b im c x y ∧
    hDiff a b (mirrorY im) c x (im.h - 1 - y) = hDiff a b im c x y ∧
    vDiff a b (mirrorY im) c x (im.h - 1 - y) = -vDiff a b im c x y ∧
    hDiff a b (transposed im) c y x = vDiff a b im c x y := by
  refine ⟨?_, ?_, ?_, ?_, ?_⟩
  · unfold hDiff; simp only [at_mirrorX im c y hx]; ring_nf
  · unfold vDiff; simp only [at_mirrorX im c y hx]; ring_nf
  · unfold hDiff; simp only [at_mirrorY im c x hy]; ring_nf
  · unfold vDiff; simp only [at_mirrorY im c x hy]; ring_nf
  · rfl

/-- **C76.** The two by two Roberts operators change sign when the image is rotated by 180 degrees,
at the pixel whose block is the rotated block. -/
theorem C76_roberts_mirror (im : Image (ι → Nat)) (c : ι) {x y : Nat} (hx0 : 0 < x) (hy0 : 0 < y)
    (hx : x < im.w) (hy : y < im.h) :
    (at' (mirrorX (mirrorY im)) c (im.w - x) (im.h - y) (-1) (-1) -
        at' (mirrorX (mirrorY im)) c (im.w - x) (im.h - y) 0 0 =
      -(at' im c x y (-1) (-1) - at' im c x y 0 0)) ∧
    (at' (mirrorX (mirrorY im)) c (im.w - x) (im.h - y) 0 (-1) -
        at' (mirrorX (mirrorY im)) c (im.w - x) (im.h - y) (-1) 0 =
      -(at' im c x y 0 (-1) - at' im c x y (-1) 0)) := by
  have e : ∀ (n t : Nat), 0 < t → t < n →
      n - 1 - clampTo n (((n - t : Nat) : Int) + -1) = clampTo n ((t : Int) + 0) ∧
      n - 1 - clampTo n (((n - t : Nat) : Int) + 0) = clampTo n ((t : Int) + -1) := by
    intro n t h1 h2
    unfold clampTo; omega
  obtain ⟨a1, a2⟩ := e im.w x hx0 hx
  obtain ⟨b1, b2⟩ := e im.h y hy0 hy
  unfold at' mirrorX mirrorY
  dsimp only
  rw [a1, a2, b1, b2]
  constructor <;> ring

/-- **C76.** `gradients` applies its pixel map to the integer parts of the Euclidean lengths of the
pairs of filter responses: for operators computing `gh` and `gv`, the magnitude `m` of a channel
satisfies `m² ≤ gh² + gv² < (m+1)²`. -/
theorem C76_gradients {β : Type _} (z : β) (im : Image (ι → Nat)) (hk vk : Kernel Int)
    (f : (ι → Nat) → β) (gh gv : ι → Nat → Nat → Int)
    (hh : Computes (filterI16 im hk) im gh) (hv : Computes (filterI16 im vk) im gv) :
    ∃ out, gradients z im hk vk f = some out ∧ out.w = im.w ∧ out.h = im.h ∧
      ∀ x y, x < im.w → y < im.h → ∃ m : ι → Nat, out.px x y = f m ∧
        ∀ c, (m c : Int) ^ 2 ≤ gh c x y ^ 2 + gv c x y ^ 2 ∧
          gh c x y ^ 2 + gv c x y ^ 2 < ((m c : Int) + 1) ^ 2 := by
  obtain ⟨oh, eh, wh, hh', ph⟩ := hh
  obtain ⟨ov, ev, wv, hv', pv⟩ := hv
  unfold gradients
  rw [eh, Option.bind_some, ev, Option.bind_some]
  obtain ⟨out, e, h1, h2, h3⟩ := raster_put (w := im.w) (h := im.h) (s := Image.new im.w im.h z)
    (f := fun x y out => (oh.get x y).bind fun h => (ov.get x y).bind fun v =>
      out.put x y (f fun c => gradientMagnitude (h c) (v c)))
    (fun x y => f fun c => gradientMagnitude (oh.px x y c) (ov.px x y c)) rfl rfl
    (fun x y out hx hy _ _ _ _ => by
      rw [Image.get_of_inB (by omega) (by omega), Option.bind_some,
        Image.get_of_inB (by omega) (by omega), Option.bind_some])
  refine ⟨out, e, h1, h2, fun x y hx hy => ⟨_, h3 x y hx hy, fun c => ?_⟩⟩
  rw [ph x y hx hy c, pv x y hx hy c]
  generalize gh c x y = p
  generalize gv c x y = q
  unfold gradientMagnitude
  have k1 := Nat.sqrt_le' (p.natAbs ^ 2 + q.natAbs ^ 2)
  have k2 := Nat.lt_succ_sqrt' (p.natAbs ^ 2 + q.natAbs ^ 2)
  have hp : p ^ 2 + q ^ 2 = ((p.natAbs ^ 2 + q.natAbs ^ 2 : Nat) : Int) := by
    push_cast; rw [sq_abs, sq_abs]
  rw [hp]
  constructor
  · exact_mod_cast k1
  · exact_mod_cast k2

/-- The documented example of `gradients` (red channel, gradients.rs:46-57). -/
example : (sobelGradientMap 0 (⟨3, 3, fun x _ _ => x⟩ : Image (Unit → Nat)) (fun p => p ())).map
    Image.rows = some [[4, 8, 4], [4, 8, 4], [4, 8, 4]] := by decide +kernel

example : IsU8 (⟨3, 3, fun x y _ => 100 * x + y⟩ : Image (Unit → Nat)) ∧
    hDiff 3 10 (⟨3, 3, fun x y _ => 100 * x + y⟩ : Image (Unit → Nat)) () 1 1 = 3200 :=
  ⟨⟨by decide, by decide, fun x y _ hx hy => by dsimp only at *; omega⟩, by decide⟩

end Verif.Gradients
