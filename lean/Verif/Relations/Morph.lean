import Verif.Morphology.Grayscale
import Verif.Morphology.Binary
import Verif.Filter.Median
/-
Relations between the morphological functions and brightness maps: C169 (order-preserving maps of the
brightness commute with grayscale morphology and with the median filter), C170 (inverting the image
exchanges dilation and erosion), C171 (grayscale morphology on black-and-white images is binary
morphology).
-/
namespace Verif.Morphology
open Distance

/-! ### C169: brightness maps -/

/-- `f` is increasing on brightness values and gives brightness values. -/
def Increasing (f : Nat → Nat) : Prop :=
  (∀ a b, a ≤ b → b ≤ 255 → f a ≤ f b) ∧ ∀ a, a ≤ 255 → f a ≤ 255

theorem mapPx_bytes {f : Nat → Nat} (hf : Increasing f) {im : Image Nat} (hb : Bytes im) :
    Bytes (mapPx f im) := fun x y hx hy => hf.2 _ (hb x y hx hy)

theorem atOff_self {im : Image Nat} {x y : Nat} (hx : x < im.w) (hy : y < im.h) :
    AtOff im x y (0, 0) x y := ⟨by simp, by simp, hx, hy⟩

theorem Le.antisymm {a b : Image Nat} (h : Le a b) (k : Le b a) : Image.Same a b :=
  ⟨h.1, h.2.1, fun x y hx hy => le_antisymm (h.2.2 x y hx hy)
    (k.2.2 x y (h.1 ▸ hx) (h.2.1 ▸ hy))⟩

theorem Same.le {a b : Image Nat} (h : Image.Same a b) : Le a b :=
  ⟨h.1, h.2.1, fun x y hx hy => le_of_eq (h.2.2 x y hx hy)⟩

theorem dilate_same {a b : Image Nat} {mask : List Off} (hw : 0 < a.w) (h : Image.Same a b) :
    ∃ r s, grayDilate a mask = some r ∧ grayDilate b mask = some s ∧ Image.Same r s := by
  obtain ⟨r, s, er, es, h1⟩ := dilate_mono (mask := mask) hw (Same.le h)
  obtain ⟨s', r', es', er', h2⟩ := dilate_mono (mask := mask) (h.1 ▸ hw) (Same.le h.symm)
  rw [er] at er'; rw [es] at es'
  obtain rfl := Option.some.inj er'
  obtain rfl := Option.some.inj es'
  exact ⟨r, s, er, es, Le.antisymm h1 h2⟩

theorem erode_same {a b : Image Nat} {mask : List Off} (hw : 0 < a.w) (h : Image.Same a b) :
    ∃ r s, grayErode a mask = some r ∧ grayErode b mask = some s ∧ Image.Same r s := by
  obtain ⟨r, s, er, es, h1⟩ := erode_mono (mask := mask) hw (Same.le h)
  obtain ⟨s', r', es', er', h2⟩ := erode_mono (mask := mask) (h.1 ▸ hw) (Same.le h.symm)
  rw [er] at er'; rw [es] at es'
  obtain rfl := Option.some.inj er'
  obtain rfl := Option.some.inj es'
  exact ⟨r, s, er, es, Le.antisymm h1 h2⟩

/-- Dilating after changing the brightness is changing the brightness after dilating. -/
theorem C169_dilate {f : Nat → Nat} (hf : Increasing f) (im : Image Nat) (mask : List Off)
    (hw : 0 < im.w) (hb : Bytes im) (hm : (0, 0) ∈ mask ∨ f 0 = 0) :
    ∃ r r', grayDilate im mask = some r ∧ grayDilate (mapPx f im) mask = some r' ∧
      Image.Same r' (mapPx f r) := by
  obtain ⟨r, er, r1, r2, r3⟩ := C34_dilate im mask hw
  obtain ⟨r', er', s1, s2, s3⟩ := C34_dilate (mapPx f im) mask hw
  refine ⟨r, r', er, er', s1.trans r1.symm, s2.trans r2.symm, fun x y hx hy => ?_⟩
  rw [s1] at hx; rw [s2] at hy
  obtain ⟨a1, a2, a3⟩ := r3 x y hx hy
  obtain ⟨b1, b2, b3⟩ := s3 x y hx hy
  show r'.px x y = f (r.px x y)
  by_cases h : ∃ o ∈ mask, ∃ a b, AtOff im x y o a b
  · obtain ⟨o, ho, a, b, hab, e⟩ := a2 h
    obtain ⟨o', ho', a', b', hab', e'⟩ := b2 h
    have hr : r.px x y ≤ 255 := by rw [← e]; exact hb a b hab.2.2.1 hab.2.2.2
    apply le_antisymm
    · rw [← e']
      exact hf.1 _ _ (a1 o' ho' a' b' hab') hr
    · rw [← e]
      exact b1 o ho a b hab
  · rw [a3 h, b3 h]
    rcases hm with hm | hm
    · exact (h ⟨_, hm, x, y, atOff_self hx hy⟩).elim
    · exact hm.symm

/-- Eroding after changing the brightness is changing the brightness after eroding. -/
theorem C169_erode {f : Nat → Nat} (hf : Increasing f) (im : Image Nat) (mask : List Off)
    (hw : 0 < im.w) (hb : Bytes im) (hm : (0, 0) ∈ mask ∨ f 255 = 255) :
    ∃ r r', grayErode im mask = some r ∧ grayErode (mapPx f im) mask = some r' ∧
      Image.Same r' (mapPx f r) := by
  obtain ⟨r, er, r1, r2, r3⟩ := C34_erode im mask hw hb
  obtain ⟨r', er', s1, s2, s3⟩ := C34_erode (mapPx f im) mask hw (mapPx_bytes hf hb)
  refine ⟨r, r', er, er', s1.trans r1.symm, s2.trans r2.symm, fun x y hx hy => ?_⟩
  rw [s1] at hx; rw [s2] at hy
  obtain ⟨a1, a2, a3⟩ := r3 x y hx hy
  obtain ⟨b1, b2, b3⟩ := s3 x y hx hy
  show r'.px x y = f (r.px x y)
  by_cases h : ∃ o ∈ mask, ∃ a b, AtOff im x y o a b
  · obtain ⟨o, ho, a, b, hab, e⟩ := a2 h
    obtain ⟨o', ho', a', b', hab', e'⟩ := b2 h
    apply le_antisymm
    · rw [← e]
      exact b1 o ho a b hab
    · rw [← e']
      exact hf.1 _ _ (a1 o' ho' a' b' hab') (hb a' b' hab'.2.2.1 hab'.2.2.2)
  · rw [a3 h, b3 h]
    rcases hm with hm | hm
    · exact (h ⟨_, hm, x, y, atOff_self hx hy⟩).elim
    · exact hm.symm

/-- The same for opening and closing. -/
theorem C169_open_close {f : Nat → Nat} (hf : Increasing f) (im : Image Nat) (mask : List Off)
    (hw : 0 < im.w) (hb : Bytes im) (hm : (0, 0) ∈ mask ∨ f 0 = 0 ∧ f 255 = 255) :
    (∃ r r', grayOpen im mask = some r ∧ grayOpen (mapPx f im) mask = some r' ∧
      Image.Same r' (mapPx f r)) ∧
    ∃ r r', grayClose im mask = some r ∧ grayClose (mapPx f im) mask = some r' ∧
      Image.Same r' (mapPx f r) := by
  constructor
  · obtain ⟨e, e', h1, h2, h3⟩ := C169_erode hf im mask hw hb (hm.imp_right And.right)
    obtain ⟨be, e1, -⟩ := erode_bytes hw h1
    obtain ⟨-, e1', -⟩ := erode_bytes (g := mapPx f im) hw h2
    have hwe : 0 < e.w := by rw [e1]; exact hw
    have hwe' : 0 < e'.w := by rw [e1']; exact hw
    obtain ⟨r, r', k1, k2, k3⟩ := C169_dilate hf e mask hwe be (hm.imp_right And.left)
    obtain ⟨s, s', m1, m2, m3⟩ := dilate_same (mask := mask) hwe' h3
    rw [k2] at m2
    obtain rfl := Option.some.inj m2
    exact ⟨r, s, by unfold grayOpen; rw [h1]; exact k1, by unfold grayOpen; rw [h2]; exact m1,
      m3.trans k3⟩
  · obtain ⟨e, e', h1, h2, h3⟩ := C169_dilate hf im mask hw hb (hm.imp_right And.left)
    obtain ⟨be, e1, -⟩ := dilate_bytes hw hb h1
    obtain ⟨-, e1', -⟩ := dilate_bytes (g := mapPx f im) hw (mapPx_bytes hf hb) h2
    have hwe : 0 < e.w := by rw [e1]; exact hw
    have hwe' : 0 < e'.w := by rw [e1']; exact hw
    obtain ⟨r, r', k1, k2, k3⟩ := C169_erode hf e mask hwe be (hm.imp_right And.right)
    obtain ⟨s, s', m1, m2, m3⟩ := erode_same (mask := mask) hwe' h3
    rw [k2] at m2
    obtain rfl := Option.some.inj m2
    exact ⟨r, s, by unfold grayClose; rw [h1]; exact k1, by unfold grayClose; rw [h2]; exact m1,
      m3.trans k3⟩

theorem IsMedian.unique {l : List Nat} {a b : Nat} (ha : Verif.Filter.Median.IsMedian l a)
    (hb : Verif.Filter.Median.IsMedian l b) : a = b := by
  obtain ⟨s, s1, s2, s3⟩ := ha
  obtain ⟨u, u1, u2, u3⟩ := hb
  have e : s = u := List.Perm.eq_of_pairwise (le := (· ≤ ·)) (fun _ _ _ _ h1 h2 => le_antisymm h1 h2)
    s2 u2 (s1.trans u1.symm)
  rw [e, u3] at s3
  exact (Option.some.inj s3).symm

/-- The median filter commutes with a change of brightness, in every channel. -/
theorem C169_median {n : Nat} {f : Nat → Nat} (hf : Increasing f) (im : Image (Fin n → Nat))
    (hu : Verif.Filter.Median.U8 im) (rx ry : Nat) (hw : im.w + rx ≤ 2147483647) (hh : im.h + ry ≤ 2147483647)
    (hE : (2 * rx + 1) * (2 * ry + 1) < 2147483648) :
    ∃ r r', Verif.Filter.Median.medianFilter im rx ry = some r ∧
      Verif.Filter.Median.medianFilter { im with px := fun x y c => f (im.px x y c) } rx ry = some r' ∧
      Image.Same r' { r with px := fun x y c => f (r.px x y c) } := by
  obtain ⟨r, er, r1, r2, r3⟩ := Verif.Filter.Median.C39_median_filter im hu rx ry hw hh hE
  obtain ⟨r', er', s1, s2, s3⟩ := Verif.Filter.Median.C39_median_filter
    { im with px := fun x y c => f (im.px x y c) }
    (fun x y c hx hy => by have := hf.2 _ (Nat.le_of_lt_succ (hu x y c hx hy)); dsimp only; omega)
    rx ry hw hh hE
  refine ⟨r, r', er, er', s1.trans r1.symm, s2.trans r2.symm, fun x y hx hy => ?_⟩
  rw [s1] at hx; rw [s2] at hy
  funext c
  refine IsMedian.unique (s3 x y hx hy c) ?_
  obtain ⟨s, k1, k2, k3⟩ := r3 x y hx hy c
  have hmap : Verif.Filter.Median.windowValues { im with px := fun x y c => f (im.px x y c) } rx ry x y c =
      (Verif.Filter.Median.windowValues im rx ry x y c).map f := by
    unfold Verif.Filter.Median.windowValues
    rw [List.map_flatMap]
    simp only [List.map_map]
    rfl
  have hle : ∀ v ∈ s, v ≤ 255 := by
    intro v hv
    rw [k1.mem_iff] at hv
    unfold Verif.Filter.Median.windowValues at hv
    rw [List.mem_flatMap] at hv
    obtain ⟨j, _, hv⟩ := hv
    obtain ⟨i, _, rfl⟩ := List.mem_map.mp hv
    have h0 : 0 < im.w := by dsimp only at hx; omega
    have h0' : 0 < im.h := by dsimp only at hy; omega
    have := hu _ _ c (clampTo_lt h0 ((x : Int) + i - rx)) (clampTo_lt h0' ((y : Int) + j - ry))
    omega
  refine ⟨s.map f, by rw [hmap]; exact k1.map f, ?_, ?_⟩
  · rw [List.pairwise_map]
    refine k2.imp_of_mem ?_
    intro a b _ hb hab
    exact hf.1 a b hab (hle b hb)
  · rw [hmap, List.length_map, List.getElem?_map, k3]
    rfl

/-- Thresholding is such a change of brightness: it can be done before or after. -/
theorem increasing_threshold (t : Nat) : Increasing fun p => if p > t then 255 else 0 :=
  ⟨fun a b h _ => by dsimp only; split <;> split <;> omega, fun a _ => by dsimp only; split <;> omega⟩

example : ((grayDilate (mapPx (fun p => if p > 4 then 255 else 0) (Image.ofRows 0 [[1, 5, 2, 3]]))
    [(-1, 0), (0, 0)]).map Image.rows) = some [[0, 255, 255, 0]] ∧
    ((grayDilate (Image.ofRows 0 [[1, 5, 2, 3]]) [(-1, 0), (0, 0)]).map Image.rows) =
      some [[1, 5, 5, 3]] := by decide

/-- The condition on the mask is needed: without the origin, pixels that see nothing become 0. -/
example : ((grayDilate (mapPx (fun p => p + 1) (Image.ofRows 0 [[1, 5]])) [(-1, 0)]).map Image.rows) =
    some [[0, 2]] := by decide

/-! ### C170: duality -/

/-- `invert`: every brightness `p` becomes `255 - p`. -/
def inv (im : Image Nat) : Image Nat := mapPx (fun p => 255 - p) im

theorem inv_bytes (im : Image Nat) : Bytes (inv im) := fun x y _ _ => Nat.sub_le 255 (im.px x y)

/-- Eroding the inverted image is inverting the dilated image, and conversely. -/
theorem C170_gray (im : Image Nat) (mask : List Off) (hw : 0 < im.w) (hb : Bytes im) :
    (∃ r r', grayDilate im mask = some r ∧ grayErode (inv im) mask = some r' ∧
      Image.Same r' (inv r)) ∧
    ∃ r r', grayErode im mask = some r ∧ grayDilate (inv im) mask = some r' ∧
      Image.Same r' (inv r) := by
  constructor
  · obtain ⟨r, er, r1, r2, r3⟩ := grayDilate_le im mask hw
    obtain ⟨r', er', s1, s2, s3⟩ := grayErode_ge (inv im) mask hw
    refine ⟨r, r', er, er', s1.trans r1.symm, s2.trans r2.symm, fun x y hx hy => ?_⟩
    rw [s1] at hx; rw [s2] at hy
    show r'.px x y = 255 - r.px x y
    have hbr := (dilate_bytes hw hb er).1 x y (r1 ▸ hx) (r2 ▸ hy)
    have key : ∀ t, t ≤ 255 → (t ≤ r'.px x y ↔ r.px x y ≤ 255 - t) := by
      intro t ht
      rw [s3 x y t hx hy, r3 x y _ hx hy]
      constructor
      · rintro ⟨_, h⟩ o ho a b hab
        have : t ≤ 255 - im.px a b := h o ho a b hab
        have := hb a b hab.2.2.1 hab.2.2.2
        omega
      · intro h
        refine ⟨ht, fun o ho a b hab => ?_⟩
        have h1 := h o ho a b hab
        have := hb a b hab.2.2.1 hab.2.2.2
        show t ≤ 255 - im.px a b
        omega
    have h255 : r'.px x y ≤ 255 := ((s3 x y _ hx hy).mp le_rfl).1
    have h1 := (key (r'.px x y) h255).mp le_rfl
    have h2 := (key (255 - r.px x y) (by omega)).mpr (by omega)
    omega
  · obtain ⟨r, er, r1, r2, r3⟩ := grayErode_ge im mask hw
    obtain ⟨r', er', s1, s2, s3⟩ := grayDilate_le (inv im) mask hw
    refine ⟨r, r', er, er', s1.trans r1.symm, s2.trans r2.symm, fun x y hx hy => ?_⟩
    rw [s1] at hx; rw [s2] at hy
    show r'.px x y = 255 - r.px x y
    have hbr := (dilate_bytes (g := inv im) hw (inv_bytes im) er').1 x y (s1 ▸ hx) (s2 ▸ hy)
    have key : ∀ t, t ≤ 255 → (r'.px x y ≤ 255 - t ↔ t ≤ r.px x y) := by
      intro t ht
      rw [s3 x y _ hx hy, r3 x y t hx hy]
      constructor
      · intro h
        refine ⟨ht, fun o ho a b hab => ?_⟩
        have : 255 - im.px a b ≤ 255 - t := h o ho a b hab
        have := hb a b hab.2.2.1 hab.2.2.2
        omega
      · rintro ⟨_, h⟩ o ho a b hab
        have := h o ho a b hab
        show 255 - im.px a b ≤ 255 - t
        omega
    have h255 : r.px x y ≤ 255 := ((r3 x y _ hx hy).mp le_rfl).1
    have h1 := (key (r.px x y) h255).mpr le_rfl
    have h2 := (key (255 - r'.px x y) (by omega)).mp (by omega)
    omega

/-- Opening the inverted image is inverting the closed image, and conversely. -/
theorem C170_open_close (im : Image Nat) (mask : List Off) (hw : 0 < im.w) (hb : Bytes im) :
    (∃ r r', grayClose im mask = some r ∧ grayOpen (inv im) mask = some r' ∧
      Image.Same r' (inv r)) ∧
    ∃ r r', grayOpen im mask = some r ∧ grayClose (inv im) mask = some r' ∧
      Image.Same r' (inv r) := by
  constructor
  · obtain ⟨e, e', h1, h2, h3⟩ := (C170_gray im mask hw hb).1
    obtain ⟨be, e1, -⟩ := dilate_bytes hw hb h1
    obtain ⟨-, e1', -⟩ := erode_bytes (g := inv im) hw h2
    have hwe : 0 < e.w := by rw [e1]; exact hw
    have hwe' : 0 < e'.w := by rw [e1']; exact hw
    obtain ⟨r, r', k1, k2, k3⟩ := (C170_gray e mask hwe be).2
    obtain ⟨s, s', m1, m2, m3⟩ := dilate_same (mask := mask) hwe' h3
    rw [k2] at m2
    obtain rfl := Option.some.inj m2
    exact ⟨r, s, by unfold grayClose; rw [h1]; exact k1, by unfold grayOpen; rw [h2]; exact m1,
      m3.trans k3⟩
  · obtain ⟨e, e', h1, h2, h3⟩ := (C170_gray im mask hw hb).2
    obtain ⟨be, e1, -⟩ := erode_bytes hw h1
    obtain ⟨-, e1', -⟩ := dilate_bytes (g := inv im) hw (inv_bytes im) h2
    have hwe : 0 < e.w := by rw [e1]; exact hw
    have hwe' : 0 < e'.w := by rw [e1']; exact hw
    obtain ⟨r, r', k1, k2, k3⟩ := (C170_gray e mask hwe be).1
    obtain ⟨s, s', m1, m2, m3⟩ := erode_same (mask := mask) hwe' h3
    rw [k2] at m2
    obtain rfl := Option.some.inj m2
    exact ⟨r, s, by unfold grayOpen; rw [h1]; exact k1, by unfold grayClose; rw [h2]; exact m1,
      m3.trans k3⟩

/-- `b` has its foreground exactly where `a` has background. -/
def Opposite (a b : Image Nat) : Prop :=
  b.w = a.w ∧ b.h = a.h ∧ ∀ x y, x < a.w → y < a.h → (b.px x y = 0 ↔ a.px x y ≠ 0)

theorem Opposite.symm {a b : Image Nat} (h : Opposite a b) : Opposite b a :=
  ⟨h.1.symm, h.2.1.symm, fun x y hx hy => by
    have := h.2.2 x y (h.1 ▸ hx) (h.2.1 ▸ hy)
    tauto⟩

theorem Opposite.bg {a b : Image Nat} (h : Opposite a b) (x y : Nat) : Bg b x y ↔ Fg a x y := by
  unfold Bg Fg
  rw [h.1, h.2.1]
  constructor
  · rintro ⟨h1, h2, h3⟩; exact ⟨h1, h2, (h.2.2 x y h1 h2).mp h3⟩
  · rintro ⟨h1, h2, h3⟩; exact ⟨h1, h2, (h.2.2 x y h1 h2).mpr h3⟩

theorem opposite_inv {a b : Image Nat} (hw : b.w = a.w) (hh : b.h = a.h)
    (h : ∀ x y, x < a.w → y < a.h → b.px x y = 255 - a.px x y)
    (h2 : ∀ x y, x < a.w → y < a.h → a.px x y = 255 ∨ a.px x y = 0) : Opposite a b := by
  refine ⟨hw, hh, fun x y hx hy => ?_⟩
  rw [h x y hx hy]
  rcases h2 x y hx hy with e | e <;> rw [e] <;> simp

/-- For every norm and radius, eroding an image with foreground and background exchanged is inverting
the dilated image, and conversely. -/
theorem C170_binary (norm : Norm) (k : Nat) (hk : k ≤ 255) {im im' : Image Nat}
    (h : Opposite im im') :
    (∃ r r', dilate norm k im = some r ∧ erode norm k im' = some r' ∧ Image.Same r' (inv r)) ∧
    ∃ r r', erode norm k im = some r ∧ dilate norm k im' = some r' ∧ Image.Same r' (inv r) := by
  have key : ∀ {im im' : Image Nat}, Opposite im im' →
      ∃ r r', dilate norm k im = some r ∧ erode norm k im' = some r' ∧ Image.Same r' (inv r) ∧
        Image.Same r (inv r') := by
    intro im im' h
    obtain ⟨r, er, r1, r2, r3⟩ := C33_dilate_characterised norm im k hk
    obtain ⟨r', er', s1, s2, s3⟩ := C33_erode_characterised norm im' k hk
    have hpx : ∀ x y, x < im.w → y < im.h → r'.px x y + r.px x y = 255 := by
      intro x y hx hy
      obtain ⟨a1, a2⟩ := r3 x y hx hy
      obtain ⟨b1, b2⟩ := s3 x y (h.1 ▸ hx) (h.2.1 ▸ hy)
      have e : r'.px x y = 0 ↔ r.px x y = 255 := by
        rw [a2, b2]
        simp only [h.bg, h.1, h.2.1]
      rcases a1 with a1 | a1
      · rw [e.mpr a1, a1]
      · rcases b1 with b1 | b1
        · rw [a1, b1]
        · have := e.mp b1
          omega
    refine ⟨r, r', er, er', ⟨s1.trans (h.1.trans r1.symm), s2.trans (h.2.1.trans r2.symm), ?_⟩,
      ⟨r1.trans (h.1.symm.trans s1.symm), r2.trans (h.2.1.symm.trans s2.symm), ?_⟩⟩
    · intro x y hx hy
      have := hpx x y (by rw [s1, h.1] at hx; exact hx) (by rw [s2, h.2.1] at hy; exact hy)
      show r'.px x y = 255 - r.px x y
      omega
    · intro x y hx hy
      have := hpx x y (r1 ▸ hx) (r2 ▸ hy)
      show r.px x y = 255 - r'.px x y
      omega
  constructor
  · obtain ⟨r, r', h1, h2, h3, _⟩ := key h
    exact ⟨r, r', h1, h2, h3⟩
  · obtain ⟨r, r', h1, h2, _, h4⟩ := key h.symm
    exact ⟨r', r, h2, h1, h4⟩

/-- The same for binary opening and closing. -/
theorem C170_binary_open_close (norm : Norm) (k : Nat) (hk : k ≤ 255) {im im' : Image Nat}
    (h : Opposite im im') :
    (∃ r r', closeBin norm k im = some r ∧ openBin norm k im' = some r' ∧ Image.Same r' (inv r)) ∧
    ∃ r r', openBin norm k im = some r ∧ closeBin norm k im' = some r' ∧ Image.Same r' (inv r) := by
  obtain ⟨⟨e, e', h1, h2, h3⟩, ⟨d, d', g1, g2, g3⟩⟩ := C170_binary norm k hk h
  have hop : ∀ {a b : Image Nat}, Image.Same b (inv a) →
      (∀ x y, x < a.w → y < a.h → a.px x y = 255 ∨ a.px x y = 0) → Opposite a b := by
    intro a b hs h2
    exact opposite_inv hs.1 hs.2.1 (fun x y hx hy => hs.2.2 x y (hs.1 ▸ hx) (hs.2.1 ▸ hy)) h2
  constructor
  · obtain ⟨r0, er, r1, r2, r3⟩ := C33_dilate_characterised norm im k hk
    rw [h1] at er
    obtain rfl := Option.some.inj er
    obtain ⟨r, r', k1, k2, k3⟩ := (C170_binary norm k hk (hop h3 fun x y hx hy =>
      (r3 x y (r1 ▸ hx) (r2 ▸ hy)).1)).2
    exact ⟨r, r', by unfold closeBin; rw [h1]; exact k1, by unfold openBin; rw [h2]; exact k2, k3⟩
  · obtain ⟨r0, er, r1, r2, r3⟩ := C33_erode_characterised norm im k hk
    rw [g1] at er
    obtain rfl := Option.some.inj er
    obtain ⟨r, r', k1, k2, k3⟩ := (C170_binary norm k hk (hop g3 fun x y hx hy =>
      (r3 x y (r1 ▸ hx) (r2 ▸ hy)).1)).1
    exact ⟨r, r', by unfold openBin; rw [g1]; exact k1, by unfold closeBin; rw [g2]; exact k2, k3⟩

example : Opposite (Image.ofRows 0 [[0, 255, 0], [0, 0, 255]])
    (inv (Image.ofRows 0 [[0, 255, 0], [0, 0, 255]])) := by
  refine opposite_inv rfl rfl (fun _ _ _ _ => rfl) ?_
  have : ∀ y, y < 2 → ∀ x, x < 3 → (Image.ofRows 0 [[0, 255, 0], [0, 0, 255]]).px x y = 255 ∨
    (Image.ofRows 0 [[0, 255, 0], [0, 0, 255]]).px x y = 0 := by decide
  exact fun x y hx hy => this y hy x hx

/-! ### C171: grayscale morphology of black-and-white images -/

/-- The mask with the shape of the ball of a norm: `Mask::diamond`, `Mask::disk`, `Mask::square`. -/
def ball (norm : Norm) (k : Nat) : Option (List Off) :=
  match norm with
  | .L1 => diamond k
  | .L2 => disk k
  | .LInf => square k

theorem ball_spec (norm : Norm) (k : Nat) (hk : k ≤ 255) :
    ∃ m, ball norm k = some m ∧ ∀ (im : Image Nat) (x y : Nat), ∀ a b : Nat,
      (∃ o ∈ m, AtOff im x y o a b) ↔ Within norm k x y a b ∧ a < im.w ∧ b < im.h := by
  have gen : ∀ (m : List Off) (P : Int → Int → Prop), (∀ x y : Int, (x, y) ∈ m ↔ P x y) →
      ∀ (im : Image Nat) (x y a b : Nat), (∃ o ∈ m, AtOff im x y o a b) ↔
        P ((a : Int) - x) ((b : Int) - y) ∧ a < im.w ∧ b < im.h := by
    intro m P hm im x y a b
    constructor
    · rintro ⟨⟨u, v⟩, ho, h1, h2, h3, h4⟩
      refine ⟨?_, h3, h4⟩
      dsimp only at h1 h2
      rw [show (a : Int) - x = u by omega, show (b : Int) - y = v by omega]
      exact (hm u v).mp ho
    · rintro ⟨h1, h2, h3⟩
      exact ⟨_, (hm _ _).mpr h1, by dsimp only; omega, by dsimp only; omega, h2, h3⟩
  cases norm
  · obtain ⟨m, e, _, hm⟩ := C36_diamond k hk
    refine ⟨m, e, fun im x y a b => ?_⟩
    rw [gen m _ hm]
    unfold Within
    dsimp only
    omega
  · obtain ⟨m, e, _, hm⟩ := C36_disk k hk
    refine ⟨m, e, fun im x y a b => ?_⟩
    rw [gen m _ hm]
    unfold Within
    dsimp only
    rw [show ((a : Int) - x) ^ 2 + ((b : Int) - y) ^ 2 = ((x : Int) - a) ^ 2 + ((y : Int) - b) ^ 2 by
      ring]
  · obtain ⟨m, e, _, hm⟩ := C36_square k hk
    refine ⟨m, e, fun im x y a b => ?_⟩
    rw [gen m _ hm]
    unfold Within
    dsimp only
    omega

/-- Black and white. -/
def BW (im : Image Nat) : Prop := ∀ x y, x < im.w → y < im.h → im.px x y = 255 ∨ im.px x y = 0

theorem within_self (norm : Norm) (k x y : Nat) : Within norm k x y x y := by
  cases norm <;> simp [Within]

/-- For a black-and-white image, dilation with radius `k` in a norm is grayscale dilation with the
mask of that shape and radius, as long as the radius is less than 255 and (for `L1` and `LInf`) less
than width plus height. -/
theorem C171_dilate_partial (norm : Norm) (k : Nat) (im : Image Nat) (hk : SmallRadius norm im k)
    (hw : 0 < im.w) (hbw : BW im) :
    ∃ m r r', ball norm k = some m ∧ dilate norm k im = some r ∧ grayDilate im m = some r' ∧
      Image.Same r r' := by
  obtain ⟨m, em, hm⟩ := ball_spec norm k (by have := hk.1; omega)
  obtain ⟨r, er, r1, r2, r3⟩ := C33_dilate_partial norm im k hk
  obtain ⟨r', er', s1, s2, s3⟩ := C34_dilate im m hw
  refine ⟨m, r, r', em, er, er', r1.trans s1.symm, r2.trans s2.symm, fun x y hx hy => ?_⟩
  rw [r1] at hx; rw [r2] at hy
  obtain ⟨a1, a2⟩ := r3 x y hx hy
  obtain ⟨b1, b2, _⟩ := s3 x y hx hy
  obtain ⟨o, ho, a, b, hab, e⟩ := b2 (by
    obtain ⟨o, ho, h⟩ := (hm im x y x y).mpr ⟨within_self norm k x y, hx, hy⟩
    exact ⟨o, ho, x, y, h⟩)
  have hr' : r'.px x y = 255 ∨ r'.px x y = 0 := by
    rw [← e]; exact hbw a b hab.2.2.1 hab.2.2.2
  by_cases h : ∃ a b, Fg im a b ∧ Within norm k x y a b
  · rw [a1 h]
    obtain ⟨c, d, hcd, hwi⟩ := h
    obtain ⟨o', ho', h'⟩ := (hm im x y c d).mpr ⟨hwi, hcd.1, hcd.2.1⟩
    have hle := b1 o' ho' c d h'
    have hne := hcd.2.2
    rcases hr' with h1 | h1
    · exact h1.symm
    · omega
  · rw [a2 h]
    rcases hr' with h1 | h1
    · exfalso
      refine h ⟨a, b, ⟨hab.2.2.1, hab.2.2.2, by omega⟩, ?_⟩
      exact ((hm im x y a b).mp ⟨o, ho, hab⟩).1
    · exact h1.symm

/-- The same for erosion. -/
theorem C171_erode_partial (norm : Norm) (k : Nat) (im : Image Nat) (hk : SmallRadius norm im k)
    (hw : 0 < im.w) (hbw : BW im) :
    ∃ m r r', ball norm k = some m ∧ erode norm k im = some r ∧ grayErode im m = some r' ∧
      Image.Same r r' := by
  have hb : Bytes im := fun x y hx hy => by rcases hbw x y hx hy with h | h <;> omega
  obtain ⟨m, em, hm⟩ := ball_spec norm k (by have := hk.1; omega)
  obtain ⟨r, er, r1, r2, r3⟩ := C33_erode_partial norm im k hk
  obtain ⟨r', er', s1, s2, s3⟩ := C34_erode im m hw hb
  refine ⟨m, r, r', em, er, er', r1.trans s1.symm, r2.trans s2.symm, fun x y hx hy => ?_⟩
  rw [r1] at hx; rw [r2] at hy
  obtain ⟨a1, a2⟩ := r3 x y hx hy
  obtain ⟨b1, b2, _⟩ := s3 x y hx hy
  obtain ⟨o, ho, a, b, hab, e⟩ := b2 (by
    obtain ⟨o, ho, h⟩ := (hm im x y x y).mpr ⟨within_self norm k x y, hx, hy⟩
    exact ⟨o, ho, x, y, h⟩)
  have hr' : r'.px x y = 255 ∨ r'.px x y = 0 := by
    rw [← e]; exact hbw a b hab.2.2.1 hab.2.2.2
  by_cases h : ∃ a b, Bg im a b ∧ Within norm k x y a b
  · rw [a1 h]
    obtain ⟨c, d, hcd, hwi⟩ := h
    obtain ⟨o', ho', h'⟩ := (hm im x y c d).mpr ⟨hwi, hcd.1, hcd.2.1⟩
    have hle := b1 o' ho' c d h'
    have hz := hcd.2.2
    omega
  · rw [a2 h]
    rcases hr' with h1 | h1
    · exact h1.symm
    · exfalso
      refine h ⟨a, b, ⟨hab.2.2.1, hab.2.2.2, by omega⟩, ?_⟩
      exact ((hm im x y a b).mp ⟨o, ho, hab⟩).1

/-- As stated the property is false: with radius 255, dilating a black image gives a white one, while
grayscale dilation with any mask leaves it black. -/
theorem C171_negation (norm : Norm) :
    ∃ (im : Image Nat) (m : List Off) (r r' : Image Nat), BW im ∧ ball norm 255 = some m ∧
      dilate norm 255 im = some r ∧ grayDilate im m = some r' ∧ r.px 0 0 = 255 ∧ r'.px 0 0 = 0 := by
  obtain ⟨m, em, _⟩ := ball_spec norm 255 le_rfl
  obtain ⟨r, er, _, _, r3⟩ := C33_dilate_characterised norm ⟨1, 1, fun _ _ => 0⟩ 255 le_rfl
  obtain ⟨r', er', _, _, s3⟩ := grayDilate_le ⟨1, 1, fun _ _ => 0⟩ m (by decide)
  refine ⟨⟨1, 1, fun _ _ => 0⟩, m, r, r', fun _ _ _ _ => Or.inr rfl, em, er, er', ?_, ?_⟩
  · exact (r3 0 0 (by decide) (by decide)).2.mpr (Or.inr (Or.inl rfl))
  · have := (s3 0 0 0 (by decide) (by decide)).mpr (fun _ _ _ _ _ => le_rfl)
    omega

example : SmallRadius .L2 (Image.ofRows 0 [[0, 255, 0], [0, 0, 255]]) 1 ∧
    (((ball .L2 1).bind (grayDilate (Image.ofRows 0 [[0, 255, 0], [0, 0, 255]]))).map Image.rows) =
      some [[255, 255, 255], [0, 255, 255]] := by
  refine ⟨⟨by decide, Or.inl rfl⟩, by decide⟩

end Verif.Morphology
