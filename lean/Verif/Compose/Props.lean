import Verif.Compose.Model
import Verif.Basic.Clamp
import Verif.Basic.Raster
import Mathlib.Tactic.SplitIfs
/- Property theorems C20-C24. -/
namespace Verif.Compose
variable {α : Type _}

/-- C20: cropping to an in-bounds rectangle copies exactly that rectangle. -/
theorem C20_crop [Inhabited α] (im : Image α) (rx ry rw rh : Nat) (hw : rx + rw ≤ im.w)
    (hh : ry + rh ≤ im.h) :
    ∃ out, crop im rx ry rw rh = some out ∧ out.w = rw ∧ out.h = rh ∧
      ∀ x y, x < rw → y < rh → out.px x y = im.px (rx + x) (ry + y) := by
  unfold crop
  rw [if_pos ⟨hw, hh⟩]
  exact Image.fromFn_of_some fun x y hx hy => Image.get_of_inB (by omega) (by omega)

/-- C20: every other rectangle is rejected. -/
theorem C20_rejects [Inhabited α] (im : Image α) (rx ry rw rh : Nat)
    (h : im.w < rx + rw ∨ im.h < ry + rh) : crop im rx ry rw rh = none := by
  unfold crop; rw [if_neg (by omega)]

/-- C20: cropping a crop is cropping once at the composed offset. -/
theorem C20_crop_crop [Inhabited α] (im a b : Image α) (x y w h x' y' w' h' : Nat)
    (ha : crop im x y w h = some a) (hb : crop a x' y' w' h' = some b) :
    ∃ c, crop im (x + x') (y + y') w' h' = some c ∧ Image.Same b c := by
  have h1 : x + w ≤ im.w ∧ y + h ≤ im.h := by
    by_contra hc; rw [crop, if_neg hc] at ha; cases ha
  obtain ⟨a', ea, aw, ah, ap⟩ := C20_crop im x y w h h1.1 h1.2
  rw [ha] at ea; cases ea
  have h2 : x' + w' ≤ a.w ∧ y' + h' ≤ a.h := by
    by_contra hc; rw [crop, if_neg hc] at hb; cases hb
  obtain ⟨b', eb, bw, bh, bp⟩ := C20_crop a x' y' w' h' h2.1 h2.2
  rw [hb] at eb; cases eb
  obtain ⟨c, ec, cw, ch, cp⟩ := C20_crop im (x + x') (y + y') w' h' (by omega) (by omega)
  refine ⟨c, ec, by omega, by omega, ?_⟩
  intro i j hi hj
  rw [bp i j (by omega) (by omega), ap _ _ (by omega) (by omega), cp i j (by omega) (by omega)]
  congr 1 <;> omega

example : (crop (Image.ofRows 0 [[1, 2, 3], [4, 5, 6], [7, 8, 9]]) 1 1 2 2).map Image.rows =
    some [[5, 6], [8, 9]] := by decide

theorem swapPx_of_inB {im : Image α} {x y x' y' : Nat} (hx : x < im.w) (hy : y < im.h)
    (hx' : x' < im.w) (hy' : y' < im.h) :
    swapPx im x y x' y' = some { im with px := fun a b =>
      if a = x' ∧ b = y' then (im.px x y) else
        if a = x ∧ b = y then (im.px x' y') else im.px a b } := by
  unfold swapPx
  rw [Image.get_of_inB hx hy, Image.get_of_inB hx' hy']
  simp only [Option.bind_some]
  rw [Image.put_of_inB _ hx hy]
  exact Image.put_of_inB _ (show x' < _ from hx') (show y' < _ from hy')

/-- C21: horizontal flip, for every size. -/
theorem C21_flip_horizontal (im : Image α) :
    ∃ out, flipHorizontal im = some out ∧ out.w = im.w ∧ out.h = im.h ∧
      ∀ x y, x < im.w → y < im.h → out.px x y = im.px (im.w - 1 - x) y := by
  unfold flipHorizontal
  obtain ⟨out, e, h1, h2, h3⟩ := forYX_spec (y0 := 0) (y1 := im.h) (x0 := 0) (x1 := im.w / 2)
    (s := im) (f := fun x y im =>
      (csub im.w x).bind fun t => (csub t 1).bind fun fx => swapPx im x y fx y)
    (fun x y out => out.w = im.w ∧ out.h = im.h ∧ ∀ a b, a < im.w → out.px a b =
      if b < y ∨ (b = y ∧ (a < x ∨ im.w - 1 - x < a)) then im.px (im.w - 1 - a) b else im.px a b)
    (by omega) (by omega)
    ⟨rfl, rfl, fun a b ha => by rw [if_neg (by omega)]⟩
    (by
      rintro x y out _ hx _ hy ⟨h1, h2, h3⟩
      rw [csub_of_le (by omega), Option.bind_some, csub_of_le (by omega), Option.bind_some,
        swapPx_of_inB (by omega) (by omega) (by omega) (by omega)]
      refine ⟨_, rfl, h1, h2, ?_⟩
      intro a b ha
      dsimp only
      rw [h1, h3 x y (by omega), h3 _ y (show im.w - x - 1 < im.w by omega), h3 a b ha]
      by_cases c1 : a = im.w - x - 1 ∧ b = y
      · obtain ⟨rfl, rfl⟩ := c1
        rw [if_pos ⟨rfl, rfl⟩, if_neg (by omega), if_pos (by omega)]
        congr 1; omega
      · rw [if_neg c1]
        by_cases c2 : a = x ∧ b = y
        · obtain ⟨rfl, rfl⟩ := c2
          rw [if_pos ⟨rfl, rfl⟩, if_neg (by omega), if_pos (by omega)]
          congr 1; omega
        · rw [if_neg c2]
          by_cases c3 : b < y ∨ (b = y ∧ (a < x ∨ im.w - 1 - x < a))
          · rw [if_pos c3, if_pos (by omega)]
          · rw [if_neg c3, if_neg (by omega)])
    (by
      rintro y out _ hy ⟨h1, h2, h3⟩
      refine ⟨h1, h2, ?_⟩
      intro a b ha
      rw [h3 a b ha]
      by_cases c1 : b = y ∧ a = im.w / 2 ∧ im.w - 1 - a = a
      · rw [if_neg (by omega), if_pos (by omega), c1.2.2]
      · by_cases c2 : b < y + 1 ∨ (b = y + 1 ∧ (a < 0 ∨ im.w - 1 - 0 < a))
        · rw [if_pos c2, if_pos (by omega)]
        · rw [if_neg c2, if_neg (by omega)])
  refine ⟨out, e, h1, h2, ?_⟩
  intro x y hx hy
  rw [h3 x y hx, if_pos (by omega)]

/-- C21: vertical flip, for every size. -/
theorem C21_flip_vertical (im : Image α) :
    ∃ out, flipVertical im = some out ∧ out.w = im.w ∧ out.h = im.h ∧
      ∀ x y, x < im.w → y < im.h → out.px x y = im.px x (im.h - 1 - y) := by
  unfold flipVertical
  obtain ⟨out, e, h1, h2, h3⟩ := forYX_spec (y0 := 0) (y1 := im.h / 2) (x0 := 0) (x1 := im.w)
    (s := im) (f := fun x y im =>
      (csub im.h y).bind fun t => (csub t 1).bind fun fy => swapPx im x y x fy)
    (fun x y out => out.w = im.w ∧ out.h = im.h ∧ ∀ a b, a < im.w → b < im.h → out.px a b =
      if b < y ∨ im.h - 1 - y < b ∨ ((b = y ∨ b = im.h - 1 - y) ∧ a < x)
      then im.px a (im.h - 1 - b) else im.px a b)
    (by omega) (by omega)
    ⟨rfl, rfl, fun a b ha hb => by rw [if_neg (by omega)]⟩
    (by
      rintro x y out _ hx _ hy ⟨h1, h2, h3⟩
      rw [csub_of_le (by omega), Option.bind_some, csub_of_le (by omega), Option.bind_some,
        swapPx_of_inB (by omega) (by omega) (by omega) (by omega)]
      refine ⟨_, rfl, h1, h2, ?_⟩
      intro a b ha hb
      dsimp only
      rw [h2, h3 x y (by omega) (by omega), h3 x _ (by omega) (show im.h - y - 1 < im.h by omega),
        h3 a b ha hb]
      by_cases c1 : a = x ∧ b = im.h - y - 1
      · obtain ⟨rfl, rfl⟩ := c1
        rw [if_pos ⟨rfl, rfl⟩, if_neg (by omega), if_pos (by omega)]
        congr 1; omega
      · rw [if_neg c1]
        by_cases c2 : a = x ∧ b = y
        · obtain ⟨rfl, rfl⟩ := c2
          rw [if_pos ⟨rfl, rfl⟩, if_neg (by omega), if_pos (by omega)]
          congr 1; omega
        · rw [if_neg c2]
          by_cases c3 : b < y ∨ im.h - 1 - y < b ∨ ((b = y ∨ b = im.h - 1 - y) ∧ a < x)
          · rw [if_pos c3, if_pos (by omega)]
          · rw [if_neg c3, if_neg (by omega)])
    (by
      rintro y out _ hy ⟨h1, h2, h3⟩
      refine ⟨h1, h2, ?_⟩
      intro a b ha hb
      rw [h3 a b ha hb]
      by_cases c2 : b < y + 1 ∨ im.h - 1 - (y + 1) < b ∨
          ((b = y + 1 ∨ b = im.h - 1 - (y + 1)) ∧ a < 0)
      · rw [if_pos c2, if_pos (by omega)]
      · rw [if_neg c2, if_neg (by omega)])
  refine ⟨out, e, h1, h2, ?_⟩
  intro x y hx hy
  rw [h3 x y hx hy]
  by_cases c : y < im.h / 2 ∨ im.h - 1 - im.h / 2 < y
  · rw [if_pos (by omega)]
  · rw [if_neg (by omega)]
    congr 1; omega

/-- C21: half turn, for every size. -/
theorem C21_rotate180 (im : Image α) :
    ∃ out, rotate180 im = some out ∧ out.w = im.w ∧ out.h = im.h ∧
      ∀ x y, x < im.w → y < im.h → out.px x y = im.px (im.w - 1 - x) (im.h - 1 - y) := by
  unfold rotate180
  obtain ⟨out, e, h1, h2, h3⟩ := forYX_spec (y0 := 0) (y1 := im.h / 2) (x0 := 0) (x1 := im.w)
    (s := im) (f := fun x y out =>
      (csub im.w x).bind fun t => (csub t 1).bind fun x180 =>
      (csub im.h y).bind fun t => (csub t 1).bind fun y180 => swapPx out x y x180 y180)
    (fun x y out => out.w = im.w ∧ out.h = im.h ∧ ∀ a b, a < im.w → b < im.h → out.px a b =
      if b < y ∨ im.h - 1 - y < b ∨ (b = y ∧ a < x) ∨ (b = im.h - 1 - y ∧ im.w ≤ a + x)
      then im.px (im.w - 1 - a) (im.h - 1 - b) else im.px a b)
    (by omega) (by omega)
    ⟨rfl, rfl, fun a b ha hb => by rw [if_neg (by omega)]⟩
    (by
      rintro x y out _ hx _ hy ⟨h1, h2, h3⟩
      rw [csub_of_le (by omega), Option.bind_some, csub_of_le (by omega), Option.bind_some,
        csub_of_le (by omega), Option.bind_some, csub_of_le (by omega), Option.bind_some,
        swapPx_of_inB (by omega) (by omega) (by omega) (by omega)]
      refine ⟨_, rfl, h1, h2, ?_⟩
      intro a b ha hb
      dsimp only
      rw [h3 x y (by omega) (by omega), h3 _ _ (show im.w - x - 1 < im.w by omega)
        (show im.h - y - 1 < im.h by omega), h3 a b ha hb]
      by_cases c1 : a = im.w - x - 1 ∧ b = im.h - y - 1
      · obtain ⟨rfl, rfl⟩ := c1
        rw [if_pos ⟨rfl, rfl⟩, if_neg (by omega), if_pos (by omega)]
        congr 1 <;> omega
      · rw [if_neg c1]
        by_cases c2 : a = x ∧ b = y
        · obtain ⟨rfl, rfl⟩ := c2
          rw [if_pos ⟨rfl, rfl⟩, if_neg (by omega), if_pos (by omega)]
          congr 1 <;> omega
        · rw [if_neg c2]
          by_cases c3 : b < y ∨ im.h - 1 - y < b ∨ (b = y ∧ a < x) ∨
              (b = im.h - 1 - y ∧ im.w ≤ a + x)
          · rw [if_pos c3, if_pos (by omega)]
          · rw [if_neg c3, if_neg (by omega)])
    (by
      rintro y out _ hy ⟨h1, h2, h3⟩
      refine ⟨h1, h2, ?_⟩
      intro a b ha hb
      rw [h3 a b ha hb]
      by_cases c2 : b < y + 1 ∨ im.h - 1 - (y + 1) < b ∨ (b = y + 1 ∧ a < 0) ∨
          (b = im.h - 1 - (y + 1) ∧ im.w ≤ a + 0)
      · rw [if_pos c2, if_pos (by omega)]
      · rw [if_neg c2, if_neg (by omega)])
  rw [e, Option.bind_some]
  by_cases hodd : im.h % 2 ≠ 0
  · rw [if_pos hodd]
    obtain ⟨out2, e2, k1, k2, k3⟩ := forRange_spec (lo := 0) (hi := im.w / 2) (s := out)
      (f := fun x out =>
        (csub im.w x).bind fun t => (csub t 1).bind fun x180 =>
        swapPx out x (im.h / 2) x180 (im.h / 2))
      (fun x out => out.w = im.w ∧ out.h = im.h ∧ ∀ a b, a < im.w → b < im.h → out.px a b =
        if b ≠ im.h / 2 ∨ a < x ∨ im.w - 1 - x < a
        then im.px (im.w - 1 - a) (im.h - 1 - b) else im.px a b)
      (by omega)
      ⟨h1, h2, fun a b ha hb => by
        rw [h3 a b ha hb]
        by_cases c : b = im.h / 2
        · rw [if_neg (by omega), if_neg (by omega)]
        · rw [if_pos (by omega), if_pos (by omega)]⟩
      (by
        rintro x out _ hx ⟨h1, h2, h3⟩
        rw [csub_of_le (by omega), Option.bind_some, csub_of_le (by omega), Option.bind_some,
          swapPx_of_inB (by omega) (by omega) (by omega) (by omega)]
        refine ⟨_, rfl, h1, h2, ?_⟩
        intro a b ha hb
        dsimp only
        rw [h3 x _ (by omega) (show im.h / 2 < im.h by omega),
          h3 _ _ (show im.w - x - 1 < im.w by omega) (show im.h / 2 < im.h by omega), h3 a b ha hb]
        by_cases c1 : a = im.w - x - 1 ∧ b = im.h / 2
        · obtain ⟨rfl, rfl⟩ := c1
          rw [if_pos ⟨rfl, rfl⟩, if_neg (by omega), if_pos (by omega)]
          congr 1 <;> omega
        · rw [if_neg c1]
          by_cases c2 : a = x ∧ b = im.h / 2
          · obtain ⟨rfl, rfl⟩ := c2
            rw [if_pos ⟨rfl, rfl⟩, if_neg (by omega), if_pos (by omega)]
            congr 1 <;> omega
          · rw [if_neg c2]
            by_cases c3 : b ≠ im.h / 2 ∨ a < x ∨ im.w - 1 - x < a
            · rw [if_pos c3, if_pos (by omega)]
            · rw [if_neg c3, if_neg (by omega)])
    refine ⟨out2, e2, k1, k2, ?_⟩
    intro x y hx hy
    rw [k3 x y hx hy]
    by_cases c : y ≠ im.h / 2 ∨ x < im.w / 2 ∨ im.w - 1 - im.w / 2 < x
    · rw [if_pos c]
    · rw [if_neg c]
      congr 1 <;> omega
  · rw [if_neg hodd]
    refine ⟨out, rfl, h1, h2, ?_⟩
    intro x y hx hy
    rw [h3 x y hx hy, if_pos (by omega)]

/-- C21: clockwise quarter turn: pixel `(x, y)` moves to `(h - 1 - y, x)`. -/
theorem C21_rotate90 (z : α) (im : Image α) :
    ∃ out, rotate90 z im = some out ∧ out.w = im.h ∧ out.h = im.w ∧
      ∀ x y, x < im.w → y < im.h → out.px (im.h - 1 - y) x = im.px x y := by
  unfold rotate90
  refine raster_post (fun S out => out.w = im.h ∧ out.h = im.w ∧
    ∀ x y, y < im.h → (x, y) ∈ S → out.px (im.h - 1 - y) x = im.px x y) ?_ ?_ ?_
  · simp [Image.new]
  · rintro x y S out hx hy _ ⟨h1, h2, h3⟩
    rw [csub_of_le (by omega), Option.bind_some, csub_of_le (by omega), Option.bind_some,
      Image.get_of_inB hx hy, Option.bind_some, Image.put_of_inB _ (by omega) (by omega)]
    refine ⟨_, rfl, h1, h2, ?_⟩
    intro a b hb hab
    dsimp only
    by_cases c : a = x ∧ b = y
    · rw [c.1, c.2, if_pos (by omega)]
    · rw [if_neg (by omega)]
      apply h3 a b hb
      rcases Finset.mem_insert.1 hab with h | h
      · cases h; omega
      · exact h
  · rintro out ⟨h1, h2, h3⟩
    exact ⟨h1, h2, fun x y hx hy => h3 x y hy (mem_allPx.2 ⟨hx, hy⟩)⟩

/-- C21: anticlockwise quarter turn: pixel `(x, y)` moves to `(y, w - 1 - x)`. -/
theorem C21_rotate270 (z : α) (im : Image α) :
    ∃ out, rotate270 z im = some out ∧ out.w = im.h ∧ out.h = im.w ∧
      ∀ x y, x < im.w → y < im.h → out.px y (im.w - 1 - x) = im.px x y := by
  unfold rotate270
  refine raster_post (fun S out => out.w = im.h ∧ out.h = im.w ∧
    ∀ x y, x < im.w → (x, y) ∈ S → out.px y (im.w - 1 - x) = im.px x y) ?_ ?_ ?_
  · simp [Image.new]
  · rintro x y S out hx hy _ ⟨h1, h2, h3⟩
    rw [csub_of_le (by omega), Option.bind_some, csub_of_le (by omega), Option.bind_some,
      Image.get_of_inB hx hy, Option.bind_some, Image.put_of_inB _ (by omega) (by omega)]
    refine ⟨_, rfl, h1, h2, ?_⟩
    intro a b ha hab
    dsimp only
    by_cases c : a = x ∧ b = y
    · rw [c.1, c.2, if_pos (by omega)]
    · rw [if_neg (by omega)]
      apply h3 a b ha
      rcases Finset.mem_insert.1 hab with h | h
      · cases h; omega
      · exact h
  · rintro out ⟨h1, h2, h3⟩
    exact ⟨h1, h2, fun x y hx hy => h3 x y hx (mem_allPx.2 ⟨hx, hy⟩)⟩

/-- C21: both flips are involutions. -/
theorem C21_flips_involutive (im : Image α) :
    (∃ a b, flipHorizontal im = some a ∧ flipHorizontal a = some b ∧ Image.Same b im) ∧
    (∃ a b, flipVertical im = some a ∧ flipVertical a = some b ∧ Image.Same b im) := by
  constructor
  · obtain ⟨a, ea, aw, ah, ap⟩ := C21_flip_horizontal im
    obtain ⟨b, eb, bw, bh, bp⟩ := C21_flip_horizontal a
    refine ⟨a, b, ea, eb, by omega, by omega, ?_⟩
    intro x y hx hy
    rw [bp x y (by omega) (by omega), ap _ _ (by omega) (by omega)]
    congr 1; omega
  · obtain ⟨a, ea, aw, ah, ap⟩ := C21_flip_vertical im
    obtain ⟨b, eb, bw, bh, bp⟩ := C21_flip_vertical a
    refine ⟨a, b, ea, eb, by omega, by omega, ?_⟩
    intro x y hx hy
    rw [bp x y (by omega) (by omega), ap _ _ (by omega) (by omega)]
    congr 1; omega

/-- C21: the half turn is the composition of the two flips. -/
theorem C21_rotate180_eq_flips (im : Image α) :
    ∃ r a b, rotate180 im = some r ∧ flipHorizontal im = some a ∧ flipVertical a = some b ∧
      Image.Same r b := by
  obtain ⟨r, er, rw', rh, rp⟩ := C21_rotate180 im
  obtain ⟨a, ea, aw, ah, ap⟩ := C21_flip_horizontal im
  obtain ⟨b, eb, bw, bh, bp⟩ := C21_flip_vertical a
  refine ⟨r, a, b, er, ea, eb, by omega, by omega, ?_⟩
  intro x y hx hy
  rw [rp x y (by omega) (by omega), bp x y (by omega) (by omega), ap _ _ (by omega) (by omega), ah]

/-- C21: the two quarter turns are mutually inverse. -/
theorem C21_rotate270_inverts (z : α) (im : Image α) :
    (∃ a b, rotate90 z im = some a ∧ rotate270 z a = some b ∧ Image.Same b im) ∧
    (∃ a b, rotate270 z im = some a ∧ rotate90 z a = some b ∧ Image.Same b im) := by
  constructor
  · obtain ⟨a, ea, aw, ah, ap⟩ := C21_rotate90 z im
    obtain ⟨b, eb, bw, bh, bp⟩ := C21_rotate270 z a
    refine ⟨a, b, ea, eb, by omega, by omega, ?_⟩
    intro x y hx hy
    have h1 := bp (im.h - 1 - y) x (by omega) (by omega)
    rw [ap x y (by omega) (by omega), show a.w - 1 - (im.h - 1 - y) = y by omega] at h1
    exact h1
  · obtain ⟨a, ea, aw, ah, ap⟩ := C21_rotate270 z im
    obtain ⟨b, eb, bw, bh, bp⟩ := C21_rotate90 z a
    refine ⟨a, b, ea, eb, by omega, by omega, ?_⟩
    intro x y hx hy
    have h1 := bp y (im.w - 1 - x) (by omega) (by omega)
    rw [ap x y (by omega) (by omega), show a.h - 1 - (im.w - 1 - x) = x by omega] at h1
    exact h1

/-- C21: two quarter turns are a half turn, hence four are the identity. -/
theorem C21_quarter_turns (z : α) (im : Image α) :
    ∃ a b c d r, rotate90 z im = some a ∧ rotate90 z a = some b ∧ rotate90 z b = some c ∧
      rotate90 z c = some d ∧ rotate180 im = some r ∧ Image.Same b r ∧ Image.Same d im := by
  obtain ⟨a, ea, aw, ah, ap⟩ := C21_rotate90 z im
  obtain ⟨b, eb, bw, bh, bp⟩ := C21_rotate90 z a
  obtain ⟨c, ec, cw, ch, cp⟩ := C21_rotate90 z b
  obtain ⟨d, ed, dw, dh, dp⟩ := C21_rotate90 z c
  obtain ⟨r, er, rw', rh, rp⟩ := C21_rotate180 im
  refine ⟨a, b, c, d, r, ea, eb, ec, ed, er, ⟨by omega, by omega, ?_⟩, ⟨by omega, by omega, ?_⟩⟩
  · intro x y hx hy
    rw [rp x y (by omega) (by omega)]
    have h1 := ap (im.w - 1 - x) (im.h - 1 - y) (by omega) (by omega)
    have h2 := bp (im.h - 1 - (im.h - 1 - y)) (im.w - 1 - x) (by omega) (by omega)
    rw [h1, show a.h - 1 - (im.w - 1 - x) = x by omega,
      show im.h - 1 - (im.h - 1 - y) = y by omega] at h2
    exact h2
  · intro x y hx hy
    have h1 := ap x y (by omega) (by omega)
    have h2 := bp (im.h - 1 - y) x (by omega) (by omega)
    have h3 := cp (a.h - 1 - x) (im.h - 1 - y) (by omega) (by omega)
    have h4 := dp (b.h - 1 - (im.h - 1 - y)) (a.h - 1 - x) (by omega) (by omega)
    rw [h3, h2, h1, show c.h - 1 - (a.h - 1 - x) = x by omega,
      show b.h - 1 - (im.h - 1 - y) = y by omega] at h4
    exact h4

example : (rotate90 0 (Image.ofRows 0 [[1, 2, 3], [4, 5, 6]])).map Image.rows =
    some [[4, 1], [5, 2], [6, 3]] := by decide
example : (rotate270 0 (Image.ofRows 0 [[1, 2, 3], [4, 5, 6]])).map Image.rows =
    some [[3, 6], [2, 5], [1, 4]] := by decide
example : (rotate180 (Image.ofRows 0 [[1, 2, 3], [4, 5, 6], [7, 8, 9]])).map Image.rows =
    some [[9, 8, 7], [6, 5, 4], [3, 2, 1]] := by decide

/-- C22 (what `replace` does): exactly the covered pixels outside the last column and the last
row of the bottom image receive the top pixel. -/
theorem C22_replace_exact (bottom top : Image α) (x y : Nat) (hx : x < bottom.w)
    (hy : y < bottom.h) :
    ∃ out, replace bottom top x y = some out ∧ out.w = bottom.w ∧ out.h = bottom.h ∧
      ∀ a b, a < bottom.w → b < bottom.h → out.px a b =
        if x ≤ a ∧ a < x + top.w ∧ y ≤ b ∧ b < y + top.h ∧ a + 1 < bottom.w ∧ b + 1 < bottom.h
        then top.px (a - x) (b - y) else bottom.px a b := by
  unfold replace
  rw [if_pos ⟨hx, hy⟩, csub_of_le (by omega), Option.bind_some, csub_of_le (by omega),
    Option.bind_some]
  dsimp only
  obtain ⟨out, e, h1, h2, h3⟩ := forYX_spec (y0 := y) (y1 := min (bottom.h - 1) (y + top.h))
    (x0 := x) (x1 := min (bottom.w - 1) (x + top.w)) (s := bottom)
    (f := fun a b bottom =>
      (csub a x).bind fun ta => (csub b y).bind fun tb =>
      (top.get ta tb).bind fun v => bottom.put a b v)
    (fun c d out => out.w = bottom.w ∧ out.h = bottom.h ∧ ∀ a b, out.px a b =
      if x ≤ a ∧ a < min (bottom.w - 1) (x + top.w) ∧ y ≤ b ∧ (b < d ∨ b = d ∧ a < c) then
        top.px (a - x) (b - y) else bottom.px a b)
    (by omega) (by omega)
    ⟨rfl, rfl, fun a b => by rw [if_neg (by omega)]⟩
    (by
      rintro c d out hc1 hc2 hd1 hd2 ⟨h1, h2, h3⟩
      rw [csub_of_le hc1, Option.bind_some, csub_of_le hd1, Option.bind_some,
        Image.get_of_inB (by omega) (by omega), Option.bind_some,
        Image.put_of_inB _ (by omega) (by omega)]
      refine ⟨_, rfl, h1, h2, ?_⟩
      intro a b
      dsimp only
      by_cases c1 : a = c ∧ b = d
      · rw [if_pos c1, c1.1, c1.2, if_pos (by omega)]
      · rw [if_neg c1, h3]
        by_cases c3 : x ≤ a ∧ a < min (bottom.w - 1) (x + top.w) ∧ y ≤ b ∧ (b < d ∨ b = d ∧ a < c)
        · rw [if_pos c3, if_pos (by omega)]
        · rw [if_neg c3, if_neg (by omega)])
    (by
      rintro d out hd1 hd2 ⟨h1, h2, h3⟩
      refine ⟨h1, h2, ?_⟩
      intro a b
      rw [h3]
      by_cases c3 : x ≤ a ∧ a < min (bottom.w - 1) (x + top.w) ∧ y ≤ b ∧
          (b < d ∨ b = d ∧ a < min (bottom.w - 1) (x + top.w))
      · rw [if_pos c3, if_pos (by omega)]
      · rw [if_neg c3, if_neg (by omega)])
  refine ⟨out, e, h1, h2, ?_⟩
  intro a b ha hb
  rw [h3]
  by_cases c : x ≤ a ∧ a < x + top.w ∧ y ≤ b ∧ b < y + top.h ∧ a + 1 < bottom.w ∧ b + 1 < bottom.h
  · rw [if_pos c, if_pos (by omega)]
  · rw [if_neg c, if_neg (by omega)]

/-- C22 (partial: the top image must not reach the last column or row of the bottom image, see
`C22_negation`): every covered pixel becomes the corresponding top pixel, the others stay. -/
theorem C22_replace_partial (bottom top : Image α) (x y : Nat) (hx : x < bottom.w)
    (hy : y < bottom.h) (hw : x + top.w < bottom.w) (hh : y + top.h < bottom.h) :
    ∃ out, replace bottom top x y = some out ∧ out.w = bottom.w ∧ out.h = bottom.h ∧
      ∀ a b, a < bottom.w → b < bottom.h → out.px a b =
        if x ≤ a ∧ a < x + top.w ∧ y ≤ b ∧ b < y + top.h
        then top.px (a - x) (b - y) else bottom.px a b := by
  obtain ⟨out, e, h1, h2, h3⟩ := C22_replace_exact bottom top x y hx hy
  refine ⟨out, e, h1, h2, ?_⟩
  intro a b ha hb
  rw [h3 a b ha hb]
  by_cases c : x ≤ a ∧ a < x + top.w ∧ y ≤ b ∧ b < y + top.h
  · rw [if_pos c, if_pos (by omega)]
  · rw [if_neg c, if_neg (by omega)]

/-- C22 is false of the code: a 1x1 image pasted on a 1x1 image at (0, 0) is not written. -/
theorem C22_negation :
    ¬ ∀ (bottom top : Image Nat) (x y : Nat), x < bottom.w → y < bottom.h →
      ∃ out, replace bottom top x y = some out ∧
      ∀ a b, a < bottom.w → b < bottom.h → out.px a b =
        if x ≤ a ∧ a < x + top.w ∧ y ≤ b ∧ b < y + top.h
        then top.px (a - x) (b - y) else bottom.px a b := by
  intro h
  obtain ⟨out, e, hp⟩ := h (Image.ofRows 0 [[1]]) (Image.ofRows 0 [[2]]) 0 0 (by decide) (by decide)
  have h0 := hp 0 0 (by decide) (by decide)
  have : (replace (Image.ofRows 0 [[1]]) (Image.ofRows 0 [[2]]) 0 0).map (fun o => o.px 0 0) =
      some 1 := by decide
  rw [e, Option.map_some, h0] at this
  revert this
  decide

/-- C22: positions outside the bottom image are rejected. -/
theorem C22_rejects (bottom top : Image α) (x y : Nat) (h : bottom.w ≤ x ∨ bottom.h ≤ y) :
    replace bottom top x y = none := by
  unfold replace; rw [if_neg (by omega)]

example : (replace (Image.ofRows 0 [[0, 0, 0], [0, 0, 0], [0, 0, 0]])
    (Image.ofRows 0 [[1, 2, 3], [4, 5, 6]]) 1 0).map Image.rows =
    some [[0, 1, 0], [0, 4, 0], [0, 0, 0]] := by decide

/-- C23 (what `overlay` does): covered pixels outside the last column and row are blended with
the *result* pixel at the position shifted back by the offset (with themselves for offset (0,0));
the others stay. -/
theorem C23_overlay_exact (blend : α → α → α) (bottom top : Image α) (x y : Nat)
    (hx : x < bottom.w) (hy : y < bottom.h) :
    ∃ out, overlay blend bottom top x y = some out ∧ out.w = bottom.w ∧ out.h = bottom.h ∧
      ∀ a b, out.px a b =
        if x ≤ a ∧ a < x + top.w ∧ y ≤ b ∧ b < y + top.h ∧ a + 1 < bottom.w ∧ b + 1 < bottom.h
        then blend (bottom.px a b)
          (if x = 0 ∧ y = 0 then bottom.px a b else out.px (a - x) (b - y))
        else bottom.px a b := by
  unfold overlay
  rw [if_pos ⟨hx, hy⟩, csub_of_le (by omega), Option.bind_some, csub_of_le (by omega),
    Option.bind_some]
  dsimp only
  obtain ⟨out, e, h1, h2, h3⟩ := forYX_spec (y0 := y) (y1 := min (bottom.h - 1) (y + top.h))
    (x0 := x) (x1 := min (bottom.w - 1) (x + top.w)) (s := bottom)
    (f := fun a b bottom =>
      (bottom.get a b).bind fun bp =>
      (csub a x).bind fun ta => (csub b y).bind fun tb =>
      (bottom.get ta tb).bind fun tp => bottom.put a b (blend bp tp))
    (fun c d out => out.w = bottom.w ∧ out.h = bottom.h ∧ ∀ a b, out.px a b =
      if x ≤ a ∧ a < min (bottom.w - 1) (x + top.w) ∧ y ≤ b ∧ (b < d ∨ b = d ∧ a < c) then
        blend (bottom.px a b)
          (if x = 0 ∧ y = 0 then bottom.px a b else out.px (a - x) (b - y))
      else bottom.px a b)
    (by omega) (by omega)
    ⟨rfl, rfl, fun a b => by rw [if_neg (by omega)]⟩
    (by
      rintro c d out hc1 hc2 hd1 hd2 ⟨h1, h2, h3⟩
      rw [Image.get_of_inB (by omega) (by omega), Option.bind_some,
        csub_of_le hc1, Option.bind_some, csub_of_le hd1, Option.bind_some,
        Image.get_of_inB (by omega) (by omega), Option.bind_some,
        Image.put_of_inB _ (by omega) (by omega)]
      refine ⟨_, rfl, h1, h2, ?_⟩
      have hcur : out.px c d = bottom.px c d := by rw [h3 c d, if_neg (by omega)]
      intro a b
      dsimp only
      by_cases c1 : a = c ∧ b = d
      · obtain ⟨rfl, rfl⟩ := c1
        rw [if_pos ⟨rfl, rfl⟩, if_pos (by omega), hcur]
        by_cases c0 : x = 0 ∧ y = 0
        · rw [if_pos c0, c0.1, c0.2, Nat.sub_zero, Nat.sub_zero, hcur]
        · rw [if_neg c0, if_neg (by omega)]
      · rw [if_neg c1, h3 a b]
        by_cases c3 : x ≤ a ∧ a < min (bottom.w - 1) (x + top.w) ∧ y ≤ b ∧ (b < d ∨ b = d ∧ a < c)
        · rw [if_pos c3, if_neg (show ¬ (a - x = c ∧ b - y = d) by omega), if_pos (show
            x ≤ a ∧ a < min (bottom.w - 1) (x + top.w) ∧ y ≤ b ∧ (b < d ∨ b = d ∧ a < c + 1) by
              omega)]
        · rw [if_neg c3, if_neg (by omega)])
    (by
      rintro d out hd1 hd2 ⟨h1, h2, h3⟩
      refine ⟨h1, h2, ?_⟩
      intro a b
      rw [h3 a b]
      exact if_congr (by omega) rfl rfl)
  refine ⟨out, e, h1, h2, ?_⟩
  intro a b
  rw [h3 a b]
  exact if_congr (by omega) rfl rfl

/-- C23 (partial: only the pixels not covered by the top image): they are left unchanged and the
size is kept. -/
theorem C23_uncovered_partial (blend : α → α → α) (bottom top : Image α) (x y : Nat)
    (hx : x < bottom.w) (hy : y < bottom.h) :
    ∃ out, overlay blend bottom top x y = some out ∧ out.w = bottom.w ∧ out.h = bottom.h ∧
      ∀ a b, ¬ (x ≤ a ∧ a < x + top.w ∧ y ≤ b ∧ b < y + top.h) → out.px a b = bottom.px a b := by
  obtain ⟨out, e, h1, h2, h3⟩ := C23_overlay_exact blend bottom top x y hx hy
  exact ⟨out, e, h1, h2, fun a b h => by rw [h3 a b, if_neg (by omega)]⟩

/-- C23: the contents of the top image are never used, only its size. -/
theorem C23_ignores_top (blend : α → α → α) (bottom top top' : Image α) (x y : Nat)
    (hw : top.w = top'.w) (hh : top.h = top'.h) :
    overlay blend bottom top x y = overlay blend bottom top' x y := by
  unfold overlay; rw [hw, hh]

/-- C23 is false of the code: overlaying an opaque image (blend keeps the upper pixel) on a 2x2
image does not show the top image. -/
theorem C23_negation :
    ¬ ∀ (blend : Nat → Nat → Nat) (bottom top : Image Nat) (x y : Nat),
      x < bottom.w → y < bottom.h →
      ∃ out, overlay blend bottom top x y = some out ∧
      ∀ a b, a < bottom.w → b < bottom.h → out.px a b =
        if x ≤ a ∧ a < x + top.w ∧ y ≤ b ∧ b < y + top.h
        then blend (bottom.px a b) (top.px (a - x) (b - y)) else bottom.px a b := by
  intro h
  obtain ⟨out, e, hp⟩ := h (fun _ u => u) (Image.ofRows 0 [[1, 1], [1, 1]])
    (Image.ofRows 0 [[2]]) 0 0 (by decide) (by decide)
  have h0 := hp 0 0 (by decide) (by decide)
  have : (overlay (fun _ u => u) (Image.ofRows 0 [[1, 1], [1, 1]]) (Image.ofRows 0 [[2]]) 0 0).map
      (fun o => o.px 0 0) = some 1 := by decide
  rw [e, Option.map_some, h0] at this
  revert this
  decide

theorem putRow (out : Image α) (y lo hi : Nat) (v : α) (hy : y < out.h) (hle : lo ≤ hi)
    (hhi : hi ≤ out.w) :
    (forRange lo hi out fun x out => out.put x y v) = some { out with
      px := fun a b => if b = y ∧ lo ≤ a ∧ a < hi then v else out.px a b } := by
  obtain ⟨o, e, h⟩ := forRange_spec (lo := lo) (hi := hi) (s := out)
    (f := fun x out => out.put x y v)
    (fun k o => o = { out with
      px := fun a b => if b = y ∧ lo ≤ a ∧ a < k then v else out.px a b }) hle
    (by
      cases out
      congr 1
      funext a b
      rw [if_neg (by omega)])
    (by
      intro i s h1 h2 hs
      have hw' : s.w = out.w := by rw [hs]
      have hh' : s.h = out.h := by rw [hs]
      rw [Image.put_of_inB _ (by omega) (by omega)]
      refine ⟨_, rfl, ?_⟩
      subst hs
      dsimp only
      congr 1
      funext a b
      by_cases c : a = i ∧ b = y
      · rw [if_pos c, if_pos (by omega)]
      · rw [if_neg c]
        by_cases c2 : b = y ∧ lo ≤ a ∧ a < i
        · rw [if_pos c2, if_pos (by omega)]
        · rw [if_neg c2, if_neg (by omega)])
  rw [e, h]

/-- C24: translation by any `(tx, ty)` of a non-empty image: pixel `(x, y)` of the result is the
input at `(x - tx, y - ty)` clamped into the image. -/
theorem C24_translate (z : α) (im : Image α) (tx ty : Int) (hw : 0 < im.w) :
    ∃ out, translate z im tx ty = some out ∧ out.w = im.w ∧ out.h = im.h ∧
      ∀ x y, x < im.w → y < im.h → out.px x y =
        im.px (clampTo im.w ((x : Int) - tx)) (clampTo im.h ((y : Int) - ty)) := by
  unfold translate
  dsimp only
  have fin : ∀ out : Image α, (out.w = im.w ∧ out.h = im.h ∧ ∀ a b, a < im.w → b < im.h →
      b < im.h → out.px a b =
        im.px (clampTo im.w ((a : Int) - tx)) (clampTo im.h ((b : Int) - ty))) →
      (out.w = im.w ∧ out.h = im.h ∧ ∀ x y, x < im.w → y < im.h → out.px x y =
        im.px (clampTo im.w ((x : Int) - tx)) (clampTo im.h ((y : Int) - ty))) :=
    fun out h => ⟨h.1, h.2.1, fun a b ha hb => h.2.2 a b ha hb hb⟩
  refine (forRange_spec (lo := 0) (hi := im.h) (s := Image.new im.w im.h z)
    (fun y out => out.w = im.w ∧ out.h = im.h ∧ ∀ a b, a < im.w → b < im.h → b < y → out.px a b =
        im.px (clampTo im.w ((a : Int) - tx)) (clampTo im.h ((b : Int) - ty)))
    (by omega) ⟨rfl, rfl, by omega⟩ ?_).imp fun out h => ⟨h.1, fin out h.2⟩
  rintro y out _ hy ⟨h1, h2, h3⟩
  have hyin : (max 0 (min ((y : Int) - ty) ((im.h : Int) - 1))).toNat =
      clampTo im.h ((y : Int) - ty) := rfl
  have hlt := clampTo_lt (n := im.h) (by omega) ((y : Int) - ty)
  rw [hyin]
  by_cases ht : tx > 0
  · rw [if_pos ht, Image.get_of_inB hw hlt, Option.bind_some, putRow _ _ _ _ _ (by omega) (by omega)
      (by omega), Option.bind_some]
    by_cases htw : tx < im.w
    · rw [if_pos htw, copyRow, if_pos (by dsimp only; omega)]
      refine ⟨_, rfl, h1, h2, ?_⟩
      intro a b ha hb hby
      dsimp only
      by_cases hb' : b = y
      · subst hb'
        by_cases hat : (a : Int) < tx
        · rw [if_neg (by omega), if_pos (by omega)]
          congr 1
          unfold clampTo; omega
        · rw [if_pos (by omega)]
          congr 1
          unfold clampTo; omega
      · rw [if_neg (by omega), if_neg (by omega)]
        exact h3 a b ha hb (by omega)
    · rw [if_neg htw]
      refine ⟨_, rfl, h1, h2, ?_⟩
      intro a b ha hb hby
      dsimp only
      by_cases hb' : b = y
      · subst hb'
        rw [if_pos (by omega)]
        congr 1
        unfold clampTo; omega
      · rw [if_neg (by omega)]
        exact h3 a b ha hb (by omega)
  · rw [if_neg ht, csub_of_le (by omega), Option.bind_some, Image.get_of_inB (by omega) hlt,
      Option.bind_some, putRow _ _ _ _ _ (by omega) (by omega) (by omega), Option.bind_some]
    by_cases htw : (im.w : Int) + tx > 0
    · rw [if_pos htw, copyRow, if_pos (by dsimp only; omega)]
      refine ⟨_, rfl, h1, h2, ?_⟩
      intro a b ha hb hby
      dsimp only
      by_cases hb' : b = y
      · subst hb'
        by_cases hat : (a : Int) < im.w + tx
        · rw [if_pos (by omega)]
          congr 1
          unfold clampTo; omega
        · rw [if_neg (by omega), if_pos (by omega)]
          congr 1
          unfold clampTo; omega
      · rw [if_neg (by omega), if_neg (by omega)]
        exact h3 a b ha hb (by omega)
    · rw [if_neg htw]
      refine ⟨_, rfl, h1, h2, ?_⟩
      intro a b ha hb hby
      dsimp only
      by_cases hb' : b = y
      · subst hb'
        rw [if_pos (by omega)]
        congr 1
        unfold clampTo; omega
      · rw [if_neg (by omega)]
        exact h3 a b ha hb (by omega)

example : (translate 0 (Image.ofRows 0 [[1, 2, 3], [4, 5, 6]]) 1 (-1)).map Image.rows =
    some [[4, 4, 5], [4, 4, 5]] := by decide
example : (translate 0 (Image.ofRows 0 [[1, 2, 3], [4, 5, 6]]) (-7) 0).map Image.rows =
    some [[3, 3, 3], [6, 6, 6]] := by decide

end Verif.Compose
