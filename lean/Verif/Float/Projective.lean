import Verif.Float.Rotate
/-
Property C148: projective warps in `f32`: `warp` with a projection of any class
(src/geometric_transformations.rs:196-220, 517-568).  Overflow of a finite result to an infinity is
not modelled: it cannot happen for matrix entries up to 2^60 in absolute value, coordinates
up to 2^24 and a denominator of at least 2^-40, nor where the denominator is exactly zero.
-/
namespace Verif.Float
open Verif.Definitions Verif.Geom XF

/-- Division of `f32`.  A zero does not carry its sign in the model: `z` says whether a zero divisor
is negative. -/
def XF.div (z : Bool) : XF → XF → XF
  | fin a, fin b =>
    if b = 0 then (if a = 0 then nan else inf (z != decide (a < 0))) else fin (rnd32 (a / b))
  | inf s, fin b => inf (s != (if b = 0 then z else decide (b < 0)))
  | fin _, inf _ => fin 0
  | _, _ => nan

/-- `a * x + b * y + c` in `f32` (src/geometric_transformations.rs:200-203). -/
def lin32 (a b c : ℚ) (x y : XF) : XF := (((fin a).mul x).add ((fin b).mul y)).add (fin c)

/-- `map_projective` (src/geometric_transformations.rs:197-205) in `f32`. -/
def mapProjective32 (z : Bool) (t : M33 ℚ) (x y : XF) : XF × XF :=
  let d := lin32 t.m20 t.m21 t.m22 x y
  (XF.div z (lin32 t.m00 t.m01 t.m02 x y) d, XF.div z (lin32 t.m10 t.m11 t.m12 x y) d)

/-- The mapping chosen by `warp_into` by class (src/geometric_transformations.rs:533-568). -/
def mapping32 (z : Bool) (p : Projection ℚ) (x y : XF) : XF × XF :=
  match p.cls with
  | .translation => mapTranslation32 p.transform x y
  | .affine => mapAffine32 p.transform x y
  | .projection => mapProjective32 z p.transform x y

/-- `warp` (src/geometric_transformations.rs:517-568) in `f32`, all classes. -/
def warpAll32 (z : Bool) (mx : Nat) (im : Image Px) (p : Projection ℚ) (i : Interpolation) (dflt : Px) :
    Option (Image Px) :=
  warpWith32 mx im (mapping32 z p.invert) i dflt

/-- The value of `lin32`. -/
def linQ (a b c x y : ℚ) : ℚ := rnd32 (rnd32 (rnd32 (a * x) + rnd32 (b * y)) + c)

theorem lin32_fin (a b c x y : ℚ) : lin32 a b c (fin x) (fin y) = fin (linQ a b c x y) := rfl

/-- Translations and affine maps are the ones of `Verif.Float.Rotate`. -/
theorem warpAll32_eq (z : Bool) (mx : Nat) (im : Image Px) (p : Projection ℚ) (i : Interpolation)
    (dflt : Px) (h : p.cls ≠ .projection) : warpAll32 z mx im p i dflt = warp32 mx im p i dflt := by
  unfold warpAll32 warp32
  have e : p.invert.cls = p.cls := rfl
  cases hc : p.cls
  · have : mapping32 z p.invert = mapTranslation32 p.invert.transform := by
      funext x y; simp only [mapping32, e, hc]
    simp only [e, hc, this]
  · have : mapping32 z p.invert = mapAffine32 p.invert.transform := by
      funext x y; simp only [mapping32, e, hc]
    simp only [e, hc, this]
  · exact absurd hc h

/-- C148 (translations): warping by `Projection::translate(tx, ty)` is the shift that C129 is about. -/
theorem C148_translation (z : Bool) (mx : Nat) (im : Image Px) (tx ty : ℚ) (i : Interpolation) (dflt : Px) :
    warpAll32 z mx im (translateP tx ty) i dflt = warpTranslate32 mx im tx ty i dflt ∧
    warp32 mx im (translateP tx ty) i dflt = warpTranslate32 mx im tx ty i dflt := ⟨rfl, rfl⟩

/-- C148 (class): a translation gives the same image whether it is marked as a translation or as an
affine map, to the last bit. -/
theorem C148_translation_class (z : Bool) (mx : Nat) (im : Image Px) (tx ty : ℚ) (i : Interpolation)
    (dflt : Px) :
    warpAll32 z mx im { translateP tx ty with cls := .affine } i dflt =
      warpTranslate32 mx im tx ty i dflt := by
  unfold warpAll32 warpTranslate32 warpWith32 warpIntoWith32
  have e : ∀ x y : Nat, mapping32 z ({ translateP tx ty with cls := .affine } : Projection ℚ).invert (ofNat x)
      (ofNat y) = ((ofNat x).add (fin (-tx)), (ofNat y).add (fin (-ty))) := by
    intro x y
    show mapAffine32 (translateP tx ty).inverse _ _ = _
    unfold mapAffine32 XF.ofNat translateP
    simp only [XF.mul, XF.add, zero_mul, one_mul, rnd32_zeroQ, add_zero, zero_add, rnd_idem]
  simp only [e]

/-- C148 (class): a projection whose inverse has last row `0, 0, 1` gives the same image whether it is
marked as a projection or as an affine map, to the last bit. -/
theorem C148_affine (z : Bool) (mx : Nat) (im : Image Px) (p : Projection ℚ) (i : Interpolation) (dflt : Px)
    (h0 : p.inverse.m20 = 0) (h1 : p.inverse.m21 = 0) (h2 : p.inverse.m22 = 1) :
    warpAll32 z mx im { p with cls := .projection } i dflt =
      warpAll32 z mx im { p with cls := .affine } i dflt := by
  unfold warpAll32 warpWith32 warpIntoWith32
  have e : ∀ x y : Nat, mapping32 z ({ p with cls := .projection } : Projection ℚ).invert (ofNat x) (ofNat y) =
      mapping32 z ({ p with cls := .affine } : Projection ℚ).invert (ofNat x) (ofNat y) := by
    intro x y
    show mapProjective32 z p.inverse _ _ = mapAffine32 p.inverse _ _
    unfold mapProjective32 mapAffine32
    rw [h0, h1, h2]
    unfold XF.ofNat
    have d1 : linQ 0 0 1 (rnd32 (x : ℚ)) (rnd32 (y : ℚ)) = 1 := by
      unfold linQ
      rw [zero_mul, zero_mul, rnd32_zeroQ, add_zero, rnd32_zeroQ, zero_add, rnd32_oneQ]
    simp only [lin32_fin, d1, XF.div]
    rw [if_neg (by norm_num), if_neg (by norm_num), div_one, div_one]
    unfold linQ
    rw [rnd_idem, rnd_idem]
    rfl
  simp only [e]

/-- C148 (horizon): where the computed denominator is zero and the numerators are not both zero,
the output pixel is the default, for every interpolation. -/
theorem C148_horizon (z : Bool) (mx : Nat) (im : Image Px) (t : M33 ℚ) (i : Interpolation) (dflt : Px)
    (x y : ℚ) (hw : im.w ≤ 4294967295) (hh : im.h ≤ 4294967295) (hd : linQ t.m20 t.m21 t.m22 x y = 0)
    (hn : linQ t.m00 t.m01 t.m02 x y ≠ 0 ∨ linQ t.m10 t.m11 t.m12 x y ≠ 0) :
    interp32 mx i im dflt (mapProjective32 z t (fin x) (fin y)).1 (mapProjective32 z t (fin x) (fin y)).2 =
      some dflt := by
  unfold mapProjective32
  dsimp only
  rw [lin32_fin, lin32_fin, lin32_fin, hd]
  have key : ∀ a : ℚ, XF.div z (fin a) (fin 0) = if a = 0 then nan else inf (z != decide (a < 0)) := by
    intro a; simp [XF.div]
  rw [key, key]
  generalize linQ t.m00 t.m01 t.m02 x y = a at *
  generalize linQ t.m10 t.m11 t.m12 x y = b at *
  have nf : ∀ n : ℚ, (fin n).le (inf false) = true := fun _ => rfl
  have tf : (inf false).toU32 = 4294967295 := rfl
  rcases hn with hn | hn
  · rw [if_neg hn]
    cases (z != decide (a < 0))
    · cases i <;>
        simp [interp32, nearest32, bilinear32, bicubic32, bicubicWith, XF.floor, XF.add, XF.sub, XF.neg,
          XF.ofNat, nf, tf, hw, XF.lt]
    · cases i <;>
        simp [interp32, nearest32, bilinear32, bicubic32, bicubicWith, XF.floor, XF.add, XF.sub, XF.neg,
          XF.lt]
  · rw [if_neg hn]
    cases (z != decide (b < 0))
    · cases i <;>
        simp [interp32, nearest32, bilinear32, bicubic32, bicubicWith, XF.floor, XF.add, XF.sub, XF.neg,
          XF.ofNat, nf, tf, hh, XF.lt]
    · cases i <;>
        simp [interp32, nearest32, bilinear32, bicubic32, bicubicWith, XF.floor, XF.add, XF.sub, XF.neg,
          XF.lt]

/-- Rounding errors of `a x + b y + c`. -/
theorem linQ_error {a b c x y : ℚ} (hx : 0 ≤ x) (hy : 0 ≤ y) :
    |linQ a b c x y - (a * x + b * y + c)| ≤ (|a| * x + |b| * y + |c|) / 2 ^ 22 + 1 / 2 ^ 146 := by
  unfold linQ
  have a1 : |a * x| ≤ |a| * x := by rw [abs_mul, abs_of_nonneg hx]
  have a2 : |b * y| ≤ |b| * y := by rw [abs_mul, abs_of_nonneg hy]
  have n1 : 0 ≤ |a| * x := mul_nonneg (abs_nonneg _) hx
  have n2 : 0 ≤ |b| * y := mul_nonneg (abs_nonneg _) hy
  have n3 : 0 ≤ |c| := abs_nonneg c
  generalize a * x = p at *
  generalize b * y = q at *
  generalize |a| * x = P at *
  generalize |b| * y = Q at *
  generalize hR : |c| = R at n3
  have a3 := abs_le.1 hR.le
  have b1 := rnd32_err a1
  have b2 := rnd32_err a2
  generalize rnd32 p = r1 at *
  generalize rnd32 q = r2 at *
  rw [abs_le] at a1 a2 b1 b2
  have c1 := rnd32_err (z := r1 + r2) (B := (1 + 1 / 2 ^ 24) * (P + Q) + 1 / 2 ^ 149) (by
    rw [abs_le]; norm_num at *; constructor <;> linarith)
  generalize rnd32 (r1 + r2) = s at *
  rw [abs_le] at c1
  have d1 := rnd32_err (z := s + c) (B := (1 + 1 / 2 ^ 22) * (P + Q) + R + 1 / 2 ^ 148) (by
    rw [abs_le]; norm_num at *; constructor <;> linarith)
  generalize rnd32 (s + c) = m at *
  rw [abs_le] at d1 ⊢
  norm_num at *
  constructor <;> linarith

/-- Accuracy of a quotient of two computed values. -/
theorem quot_error {n N' d d' A B : ℚ} (hA : |n| ≤ A) (hB : |d| ≤ B)
    (hn : |N' - n| ≤ A / 2 ^ 22 + 1 / 2 ^ 146) (hd : |d' - d| ≤ B / 2 ^ 22 + 1 / 2 ^ 146)
    (h0 : 1 / 2 ^ 40 ≤ |d|) (hc : B ≤ 2 ^ 20 * |d|) :
    d' ≠ 0 ∧ |rnd32 (N' / d') - n / d| ≤ (A + |n / d| * B) / |d| / 2 ^ 20 + 1 / 2 ^ 60 := by
  have dp : 0 < |d| := lt_of_lt_of_le (by norm_num) h0
  have dn : d ≠ 0 := abs_pos.1 dp
  have A0 : 0 ≤ A := le_trans (abs_nonneg _) hA
  have d'l : |d| / 2 ≤ |d'| := by
    have := abs_sub_abs_le_abs_sub d d'
    rw [abs_sub_comm] at this
    norm_num at *
    linarith
  have d'p : 0 < |d'| := by linarith
  have d'n : d' ≠ 0 := abs_pos.1 d'p
  refine ⟨d'n, ?_⟩
  set q := n / d with hq
  have nq : n = q * d := by rw [hq]; field_simp
  have e1 : N' / d' - q = ((N' - n) - q * (d' - d)) / d' := by
    rw [nq]; field_simp; ring
  set E := (A + |q| * B) / |d| with hE
  have Ed : E * |d| = A + |q| * B := by rw [hE]; field_simp
  have q0 : 0 ≤ |q| := abs_nonneg q
  have qA : |q| * |d| ≤ A := by rw [← abs_mul, ← nq]; exact hA
  have qd : |q| * |d| ≤ |q| * B := mul_le_mul_of_nonneg_left hB q0
  have qE : |q| ≤ E := by
    rw [hE, le_div_iff₀ dp]
    nlinarith [mul_nonneg q0 (le_trans (abs_nonneg _) hB)]
  have f1 : |N' / d' - q| ≤ E / 2 ^ 21 + (1 + |q|) / 2 ^ 104 := by
    rw [e1, abs_div, div_le_iff₀ d'p]
    have t1 : |(N' - n) - q * (d' - d)| ≤ (A / 2 ^ 22 + 1 / 2 ^ 146) + |q| * (B / 2 ^ 22 + 1 / 2 ^ 146) := by
      refine (abs_sub _ _).trans ?_
      rw [abs_mul]
      exact add_le_add hn (mul_le_mul_of_nonneg_left hd q0)
    have t2 : (E / 2 ^ 21 + (1 + |q|) / 2 ^ 104) * (|d| / 2) ≤ (E / 2 ^ 21 + (1 + |q|) / 2 ^ 104) * |d'| :=
      mul_le_mul_of_nonneg_left d'l (by
        have : 0 ≤ E := le_trans q0 qE
        positivity)
    refine t1.trans (le_trans ?_ t2)
    have t3 : (1 + |q|) * (1 / 2 ^ 40) ≤ (1 + |q|) * |d| := mul_le_mul_of_nonneg_left h0 (by linarith)
    have t4 : (E / 2 ^ 21 + (1 + |q|) / 2 ^ 104) * (|d| / 2) = (A + |q| * B) / 2 ^ 22 +
        (1 + |q|) * |d| / 2 ^ 105 := by rw [← Ed]; ring
    rw [t4]
    norm_num at t3 ⊢
    linarith
  have f2 := rnd32_err (z := N' / d') (B := |q| + (E / 2 ^ 21 + (1 + |q|) / 2 ^ 104)) (by
    have := abs_add_le (N' / d' - q) q
    rw [sub_add_cancel] at this
    linarith)
  have f3 := abs_add_le (rnd32 (N' / d') - N' / d') (N' / d' - q)
  rw [sub_add_sub_cancel] at f3
  refine f3.trans ((add_le_add f2 f1).trans ?_)
  clear f1 f2 f3
  norm_num at qE ⊢
  linarith

/-- The condition of a pixel: how much the rounding errors of its position are magnified. -/
def spread (a b c : ℚ) (x y : ℚ) : ℚ := |a| * x + |b| * y + |c|

theorem abs_le_spread {a b c x y : ℚ} (hx : 0 ≤ x) (hy : 0 ≤ y) : |a * x + b * y + c| ≤ spread a b c x y := by
  unfold spread
  refine (abs_add_le _ _).trans (add_le_add ((abs_add_le _ _).trans ?_) le_rfl)
  rw [abs_mul, abs_mul, abs_of_nonneg hx, abs_of_nonneg hy]

/-- C148 (undefined position): where numerators and denominator are all computed as zero the position is NaN, and
bilinear interpolation gives the maximal value in every channel instead of the default colour. -/
theorem C148_undefined (z : Bool) (mx : Nat) (im : Image Px) (t : M33 ℚ) (dflt : Px) (x y : ℚ) (hw : 0 < im.w)
    (hh : 0 < im.h) (hd : linQ t.m20 t.m21 t.m22 x y = 0) (h1 : linQ t.m00 t.m01 t.m02 x y = 0)
    (h2 : linQ t.m10 t.m11 t.m12 x y = 0) :
    mapProjective32 z t (fin x) (fin y) = (nan, nan) ∧
    interp32 mx .bilinear im dflt (mapProjective32 z t (fin x) (fin y)).1 (mapProjective32 z t (fin x) (fin y)).2 =
      some fun _ => mx := by
  have e : mapProjective32 z t (fin x) (fin y) = (nan, nan) := by
    unfold mapProjective32
    rw [lin32_fin, lin32_fin, lin32_fin, hd, h1, h2]
    simp [XF.div]
  rw [e]
  exact ⟨rfl, C128_nan_white mx im dflt hw hh⟩

/-- C148 (position): the position computed for a pixel `(x, y)` under a projective map with matrix
`t` is the exact one up to `(A + |X| B) / |D| / 2^20`, where `D` is the exact denominator, `X` the
exact coordinate, and `A` and `B` are the sums of the absolute values of the terms of its
numerator and of the denominator. -/
theorem C148_position (z : Bool) (t : M33 ℚ) (x y : Nat) (hx : x ≤ 2 ^ 24) (hy : y ≤ 2 ^ 24)
    (h0 : 1 / 2 ^ 40 ≤ |t.m20 * x + t.m21 * y + t.m22|)
    (hc : |t.m20| * x + |t.m21| * y + |t.m22| ≤ 2 ^ 20 * |t.m20 * x + t.m21 * y + t.m22|) :
    ∃ u v : ℚ, mapProjective32 z t (ofNat x) (ofNat y) = (fin u, fin v) ∧
      ∀ D X Y : ℚ, D = t.m20 * x + t.m21 * y + t.m22 → X = (t.m00 * x + t.m01 * y + t.m02) / D →
        Y = (t.m10 * x + t.m11 * y + t.m12) / D →
        |u - X| ≤ ((|t.m00| * x + |t.m01| * y + |t.m02|) + |X| * (|t.m20| * x + |t.m21| * y + |t.m22|)) / |D| / 2 ^ 20
          + 1 / 2 ^ 60 ∧
        |v - Y| ≤ ((|t.m10| * x + |t.m11| * y + |t.m12|) + |Y| * (|t.m20| * x + |t.m21| * y + |t.m22|)) / |D| / 2 ^ 20
          + 1 / 2 ^ 60 := by
  have x0 : (0 : ℚ) ≤ x := by positivity
  have y0 : (0 : ℚ) ≤ y := by positivity
  obtain ⟨n1, e1⟩ := quot_error (abs_le_spread (a := t.m00) (b := t.m01) (c := t.m02) x0 y0)
    (abs_le_spread x0 y0) (linQ_error x0 y0) (linQ_error x0 y0) h0 hc
  obtain ⟨-, e2⟩ := quot_error (abs_le_spread (a := t.m10) (b := t.m11) (c := t.m12) x0 y0)
    (abs_le_spread x0 y0) (linQ_error x0 y0) (linQ_error x0 y0) h0 hc
  refine ⟨rnd32 (linQ t.m00 t.m01 t.m02 x y / linQ t.m20 t.m21 t.m22 x y),
    rnd32 (linQ t.m10 t.m11 t.m12 x y / linQ t.m20 t.m21 t.m22 x y), ?_, ?_⟩
  · rw [ofNat_int hx, ofNat_int hy]
    unfold mapProjective32
    simp only [lin32_fin, XF.div]
    rw [if_neg n1, if_neg n1]
  · rintro D X Y rfl rfl rfl
    exact ⟨e1, e2⟩

/-- C148 (nearest): with nearest-neighbour interpolation every output pixel whose exact pre-image is
further from the border between two pixels than `1/16` plus the error bound of its position is
exactly the input pixel that the pre-image falls into, or the default if there is none. -/
theorem C148_nearest (z : Bool) (mx : Nat) (im : Image Px) (p : Projection ℚ) (dflt : Px)
    (hp : p.cls = .projection) (hw : 0 < im.w) (hw' : im.w ≤ 65536) (hh' : im.h ≤ 65536) :
    ∃ r, warpAll32 z mx im p .nearest dflt = some r ∧ r.w = im.w ∧ r.h = im.h ∧
      ∀ x y : Nat, x < im.w → y < im.h → ∀ (D X Y A A' B : ℚ) (d e : Int),
        D = p.inverse.m20 * x + p.inverse.m21 * y + p.inverse.m22 →
        X = (p.inverse.m00 * x + p.inverse.m01 * y + p.inverse.m02) / D →
        Y = (p.inverse.m10 * x + p.inverse.m11 * y + p.inverse.m12) / D →
        A = |p.inverse.m00| * x + |p.inverse.m01| * y + |p.inverse.m02| →
        A' = |p.inverse.m10| * x + |p.inverse.m11| * y + |p.inverse.m12| →
        B = |p.inverse.m20| * x + |p.inverse.m21| * y + |p.inverse.m22| →
        1 / 2 ^ 40 ≤ |D| → B ≤ 2 ^ 20 * |D| →
        |X - d| ≤ 7 / 16 - ((A + |X| * B) / |D| / 2 ^ 20 + 1 / 2 ^ 60) →
        |Y - e| ≤ 7 / 16 - ((A' + |Y| * B) / |D| / 2 ^ 20 + 1 / 2 ^ 60) →
        r.px x y = if 0 ≤ d ∧ d < im.w ∧ 0 ≤ e ∧ e < im.h then im.px d.toNat e.toNat else dflt := by
  choose v hv using fun q : Nat × Nat => C128_nearest_safe im
    (mapping32 z p.invert (ofNat q.1) (ofNat q.2)).1 (mapping32 z p.invert (ofNat q.1) (ofNat q.2)).2 dflt
  obtain ⟨r, r1, r2, r3, r4⟩ := warpIntoWith32_spec mx im (mapping32 z p.invert) .nearest dflt
    (Image.new im.w im.h fun _ => 0) (fun x y => v (x, y)) hw (fun x y _ _ => (hv (x, y)).1)
  refine ⟨r, r1, r2, r3, ?_⟩
  intro x y hx hy D X Y A A' B d e hD hX hY hA hA' hB h0 hc hd he
  rw [r4 x y hx hy]
  have hz := (hv (x, y)).1
  have em : mapping32 z p.invert (ofNat x) (ofNat y) = mapProjective32 z p.inverse (ofNat x) (ofNat y) := by
    have : p.invert.cls = .projection := hp
    unfold mapping32
    rw [this]; rfl
  obtain ⟨u, w, e1, e2⟩ := C148_position z p.inverse x y (by omega) (by omega) (by rw [← hD]; exact h0)
    (by rw [← hD, ← hB]; exact hc)
  obtain ⟨E1, E2⟩ := e2 D X Y hD hX hY
  rw [← hA, ← hB] at E1
  rw [← hA', ← hB] at E2
  dsimp only at hz
  rw [em, e1] at hz
  have P : |u - d| ≤ 7 / 16 := by
    have := abs_add_le (u - X) (X - d)
    rw [sub_add_sub_cancel] at this
    linarith
  have Q : |w - e| ≤ 7 / 16 := by
    have := abs_add_le (w - Y) (Y - e)
    rw [sub_add_sub_cancel] at this
    linarith
  rw [nearest_near hw' hh' P Q dflt] at hz
  exact (Option.some.inj hz).symm

/-- A perspective warp: columns get closer together to the right. -/
def persp : Projection ℚ := ⟨⟨1, 0, 0, 0, 1, 0, -1 / 8, 0, 1⟩, ⟨1, 0, 0, 0, 1, 0, 1 / 8, 0, 1⟩, .projection⟩

example : (warpAll32 false 255 ⟨8, 1, fun x _ _ => 10 * x⟩ persp .nearest (fun _ => 99)).map
    (fun r => (List.range 8).map fun x => r.px x 0 0) = some [0, 10, 20, 20, 30, 30, 30, 40] := by
  decide +kernel

/-- Column 8 of the inverse is on the horizon. -/
example : (warpAll32 false 255 ⟨10, 1, fun x _ _ => 10 * x⟩ persp.invert .nearest (fun _ => 99)).map
    (fun r => (List.range 10).map fun x => r.px x 0 0) =
      some [0, 10, 30, 50, 80, 99, 99, 99, 99, 99] := by
  decide +kernel

end Verif.Float
