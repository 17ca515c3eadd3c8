import Verif.Morphology.Binary
import Mathlib.Tactic.IntervalCases
/-
C181: radii of binary morphology add up; the norms are nested; distance transforms are Lipschitz.
-/
namespace Verif.Morphology
open Verif.Distance

/-- Specification: the same pixels. -/
def SamePixels (r s : Image Nat) : Prop :=
  r.w = s.w ∧ r.h = s.h ∧ ∀ x y, x < r.w → y < r.h → r.px x y = s.px x y

/-- Specification: white wherever `r` is white. -/
def Covers (s r : Image Nat) : Prop :=
  s.w = r.w ∧ s.h = r.h ∧ ∀ x y, x < r.w → y < r.h → r.px x y = 255 → s.px x y = 255

/-- Between two pixels at distance at most `k + m` there is a pixel at distance at most `m` from the
first and at most `k` from the second. -/
theorem between {norm : Norm} (hn : norm ≠ .L2) {k m x y a b : Nat}
    (h : Within norm (k + m) x y a b) : ∃ u v, u ≤ max x a ∧ v ≤ max y b ∧ Within norm m x y u v ∧
      Within norm k u v a b := by
  have step : ∀ x a s : Nat, ∃ u, u ≤ max x a ∧ ((x : Int) - u).natAbs = min s ((x : Int) - a).natAbs ∧
      ((u : Int) - a).natAbs = ((x : Int) - a).natAbs - min s ((x : Int) - a).natAbs := by
    intro x a s
    rcases le_total x a with h | h
    · exact ⟨x + min s (a - x), by omega, by omega, by omega⟩
    · exact ⟨x - min s (x - a), by omega, by omega, by omega⟩
  cases norm
  · obtain ⟨u, hu, u1, u2⟩ := step x a m
    obtain ⟨v, hv, v1, v2⟩ := step y b (m - min m ((x : Int) - a).natAbs)
    unfold Within at h ⊢
    dsimp only at h ⊢
    exact ⟨u, v, hu, hv, by omega, by omega⟩
  · exact (hn rfl).elim
  · obtain ⟨u, hu, u1, u2⟩ := step x a m
    obtain ⟨v, hv, v1, v2⟩ := step y b m
    unfold Within at h ⊢
    dsimp only at h ⊢
    exact ⟨u, v, hu, hv, by omega, by omega⟩

theorem triangle {norm : Norm} {k m x y u v a b : Nat} (h1 : Within norm m x y u v)
    (h2 : Within norm k u v a b) : Within norm (k + m) x y a b := by
  cases norm
  · unfold Within at *; dsimp only at *; omega
  · unfold Within at *
    dsimp only at *
    push_cast
    obtain ⟨p, hp⟩ : ∃ p : Int, p = (x : Int) - u := ⟨_, rfl⟩
    obtain ⟨q, hq⟩ : ∃ q : Int, q = (y : Int) - v := ⟨_, rfl⟩
    obtain ⟨r, hr⟩ : ∃ r : Int, r = (u : Int) - a := ⟨_, rfl⟩
    obtain ⟨s, hs⟩ : ∃ s : Int, s = (v : Int) - b := ⟨_, rfl⟩
    rw [show (x : Int) - a = p + r by omega, show (y : Int) - b = q + s by omega]
    rw [← hp, ← hq] at h1
    rw [← hr, ← hs] at h2
    have hk : (0 : Int) ≤ k := by omega
    have hm : (0 : Int) ≤ m := by omega
    have key : (p * r + q * s) ^ 2 ≤ ((k : Int) * m) ^ 2 := by
      have c1 : (p * r + q * s) ^ 2 ≤ (p ^ 2 + q ^ 2) * (r ^ 2 + s ^ 2) := by
        nlinarith [sq_nonneg (p * s - q * r)]
      have c2 : (p ^ 2 + q ^ 2) * (r ^ 2 + s ^ 2) ≤ (m : Int) ^ 2 * (k : Int) ^ 2 :=
        mul_le_mul h1 h2 (by positivity) (by positivity)
      calc _ ≤ _ := c1
        _ ≤ _ := c2
        _ = _ := by ring
    have : p * r + q * s ≤ (k : Int) * m := by
      have := abs_le_of_sq_le_sq' key (by positivity)
      exact this.2
    nlinarith
  · unfold Within at *; dsimp only at *; omega

theorem between_in {norm : Norm} (hn : norm ≠ .L2) {w h k m x y a b : Nat} (hx : x < w) (hy : y < h)
    (ha : a < w) (hb : b < h) (hw : Within norm (k + m) x y a b) :
    ∃ u v, u < w ∧ v < h ∧ Within norm m x y u v ∧ Within norm k u v a b := by
  obtain ⟨u, v, hu, hv, h1, h2⟩ := between hn hw
  exact ⟨u, v, by omega, by omega, h1, h2⟩

/-- **C181.** Dilating by `k` and then by `m` is dilating by `k + m`, for the norms `L1` and `LInf`
and every image with a foreground pixel. -/
theorem C181_dilate_partial (norm : Norm) (hn : norm ≠ .L2) (im : Image Nat) (hfg : ∃ a b, Fg im a b)
    (k m : Nat) (hkm : k + m < 255) :
    ∃ r s t, dilate norm k im = some r ∧ dilate norm m r = some s ∧ dilate norm (k + m) im = some t ∧
      SamePixels s t := by
  obtain ⟨r, er, r1, r2, r3⟩ := C33_dilate_characterised norm im k (by omega)
  obtain ⟨s, es, s1, s2, s3⟩ := C33_dilate_characterised norm r m (by omega)
  obtain ⟨t, et, t1, t2, t3⟩ := C33_dilate_characterised norm im (k + m) (by omega)
  refine ⟨r, s, t, er, es, et, by omega, by omega, fun x y hx hy => ?_⟩
  rw [s1] at hx; rw [s2] at hy
  obtain ⟨a1, a2⟩ := s3 x y hx hy
  obtain ⟨b1, b2⟩ := t3 x y (by omega) (by omega)
  have fr : ∀ u v, Fg r u v ↔ u < im.w ∧ v < im.h ∧ ∃ a b, Fg im a b ∧ Within norm k u v a b := by
    intro u v
    unfold Fg
    rw [r1, r2]
    constructor
    · rintro ⟨hu, hv, h⟩
      refine ⟨hu, hv, ?_⟩
      obtain ⟨c1, c2⟩ := r3 u v hu hv
      rcases c2.1 (c1.resolve_right h) with h' | h' | ⟨h', -⟩
      · exact h'
      · omega
      · exact (h' hfg).elim
    · rintro ⟨hu, hv, h⟩
      refine ⟨hu, hv, ?_⟩
      rw [(r3 u v hu hv).2.2 (Or.inl h)]; decide
  have e : s.px x y = 255 ↔ t.px x y = 255 := by
    rw [a2, b2]
    constructor
    · rintro (⟨u, v, hf, h⟩ | h | ⟨h, -, -⟩)
      · obtain ⟨hu, hv, a, b, hf', h'⟩ := (fr u v).mp hf
        exact Or.inl ⟨a, b, hf', triangle h h'⟩
      · omega
      · exfalso
        obtain ⟨a, b, ha, hb, hab⟩ := hfg
        refine h ⟨a, b, (fr a b).mpr ⟨ha, hb, a, b, ⟨ha, hb, hab⟩, ?_⟩⟩
        cases norm <;> unfold Within <;> simp
    · rintro (⟨a, b, ⟨ha, hb, hab⟩, h⟩ | h | ⟨h, -⟩)
      · obtain ⟨u, v, hu, hv, h1, h2⟩ := between_in hn (show x < im.w by omega) (show y < im.h by omega) ha hb h
        exact Or.inl ⟨u, v, (fr u v).mpr ⟨hu, hv, a, b, ⟨ha, hb, hab⟩, h2⟩, h1⟩
      · omega
      · exact (h hfg).elim
  omega

/-- **C181.** Eroding by `k` and then by `m` is eroding by `k + m`, for the norms `L1` and `LInf`
and every image with a background pixel. -/
theorem C181_erode_partial (norm : Norm) (hn : norm ≠ .L2) (im : Image Nat) (hbg : ∃ a b, Bg im a b)
    (k m : Nat) (hkm : k + m < 255) :
    ∃ r s t, erode norm k im = some r ∧ erode norm m r = some s ∧ erode norm (k + m) im = some t ∧
      SamePixels s t := by
  obtain ⟨r, er, r1, r2, r3⟩ := C33_erode_characterised norm im k (by omega)
  obtain ⟨s, es, s1, s2, s3⟩ := C33_erode_characterised norm r m (by omega)
  obtain ⟨t, et, t1, t2, t3⟩ := C33_erode_characterised norm im (k + m) (by omega)
  refine ⟨r, s, t, er, es, et, by omega, by omega, fun x y hx hy => ?_⟩
  rw [s1] at hx; rw [s2] at hy
  obtain ⟨a1, a2⟩ := s3 x y hx hy
  obtain ⟨b1, b2⟩ := t3 x y (by omega) (by omega)
  have fr : ∀ u v, Bg r u v ↔ u < im.w ∧ v < im.h ∧ ∃ a b, Bg im a b ∧ Within norm k u v a b := by
    intro u v
    unfold Bg
    rw [r1, r2]
    constructor
    · rintro ⟨hu, hv, h⟩
      refine ⟨hu, hv, ?_⟩
      obtain ⟨c1, c2⟩ := r3 u v hu hv
      rcases c2.1 h with h' | h' | ⟨h', -⟩
      · exact h'
      · omega
      · exact (h' hbg).elim
    · rintro ⟨hu, hv, h⟩
      exact ⟨hu, hv, (r3 u v hu hv).2.2 (Or.inl h)⟩
  have e : s.px x y = 0 ↔ t.px x y = 0 := by
    rw [a2, b2]
    constructor
    · rintro (⟨u, v, hf, h⟩ | h | ⟨h, -, -⟩)
      · obtain ⟨hu, hv, a, b, hf', h'⟩ := (fr u v).mp hf
        exact Or.inl ⟨a, b, hf', triangle h h'⟩
      · omega
      · exfalso
        obtain ⟨a, b, ha, hb, hab⟩ := hbg
        refine h ⟨a, b, (fr a b).mpr ⟨ha, hb, a, b, ⟨ha, hb, hab⟩, ?_⟩⟩
        cases norm <;> unfold Within <;> simp
    · rintro (⟨a, b, ⟨ha, hb, hab⟩, h⟩ | h | ⟨h, -⟩)
      · obtain ⟨u, v, hu, hv, h1, h2⟩ := between_in hn (show x < im.w by omega) (show y < im.h by omega) ha hb h
        exact Or.inl ⟨u, v, (fr u v).mpr ⟨hu, hv, a, b, ⟨ha, hb, hab⟩, h2⟩, h1⟩
      · omega
      · exact (h hbg).elim
  omega

/-- **C181.** For `L2` two dilations never reach further than one with the sum of the radii. -/
theorem C181_dilate_l2 (im : Image Nat) (k m : Nat) (hkm : k + m < 255) :
    ∃ r s t, dilate .L2 k im = some r ∧ dilate .L2 m r = some s ∧ dilate .L2 (k + m) im = some t ∧
      Covers t s := by
  obtain ⟨r, er, r1, r2, r3⟩ := C33_dilate_characterised .L2 im k (by omega)
  obtain ⟨s, es, s1, s2, s3⟩ := C33_dilate_characterised .L2 r m (by omega)
  obtain ⟨t, et, t1, t2, t3⟩ := C33_dilate_characterised .L2 im (k + m) (by omega)
  refine ⟨r, s, t, er, es, et, by omega, by omega, fun x y hx hy hs => ?_⟩
  rw [s1] at hx; rw [s2] at hy
  rw [(t3 x y (by omega) (by omega)).2]
  rcases (s3 x y hx hy).2.1 hs with ⟨u, v, ⟨hu, hv, huv⟩, h⟩ | h | ⟨-, h, -⟩
  · obtain ⟨c1, c2⟩ := r3 u v (by omega) (by omega)
    rcases c2.1 (c1.resolve_right huv) with ⟨a, b, hf, h'⟩ | h' | ⟨-, h', -⟩
    · exact Or.inl ⟨a, b, hf, triangle h h'⟩
    · omega
    · exact (h' rfl).elim
  · omega
  · exact (h rfl).elim

/-- **C181.** The radii do not add up for `L2` (a diagonal neighbour at distance 2√2 is within 3, but
is not reached by radius 1 after radius 2), nor on images without foreground, where a
radius of at least the sum of the sides whitens everything. -/
theorem C181_negation :
    (∃ r s t, dilate .L2 2 (Image.ofRows 0 [[1, 0, 0], [0, 0, 0], [0, 0, 0]]) = some r ∧
      dilate .L2 1 r = some s ∧
      dilate .L2 3 (Image.ofRows 0 [[1, 0, 0], [0, 0, 0], [0, 0, 0]]) = some t ∧
      s.px 2 2 = 0 ∧ t.px 2 2 = 255) ∧
    ∃ r s t, dilate .L1 1 (Image.ofRows 0 [[0]]) = some r ∧ dilate .L1 1 r = some s ∧
      dilate .L1 2 (Image.ofRows 0 [[0]]) = some t ∧ s.px 0 0 = 0 ∧ t.px 0 0 = 255 := by
  constructor
  · obtain ⟨r, er, r1, r2, r3⟩ := C33_dilate_characterised .L2
      (Image.ofRows 0 [[1, 0, 0], [0, 0, 0], [0, 0, 0]]) 2 (by omega)
    obtain ⟨s, es, s1, s2, s3⟩ := C33_dilate_characterised .L2 r 1 (by omega)
    obtain ⟨t, et, t1, t2, t3⟩ := C33_dilate_characterised .L2
      (Image.ofRows 0 [[1, 0, 0], [0, 0, 0], [0, 0, 0]]) 3 (by omega)
    have hw : (Image.ofRows 0 [[1, 0, 0], [0, 0, 0], [0, 0, 0]]).w = 3 := rfl
    have hh : (Image.ofRows 0 [[1, 0, 0], [0, 0, 0], [0, 0, 0]]).h = 3 := rfl
    rw [hw] at r1 t1; rw [hh] at r2 t2
    refine ⟨r, s, t, er, es, et, ?_, ?_⟩
    · obtain ⟨c1, c2⟩ := s3 2 2 (by omega) (by omega)
      refine c1.resolve_left fun h => ?_
      rcases c2.1 h with ⟨u, v, ⟨hu, hv, huv⟩, hwi⟩ | h | ⟨-, h, -⟩
      · obtain ⟨d1, d2⟩ := r3 u v (by omega) (by omega)
        rcases d2.1 (d1.resolve_right huv) with ⟨a, b, ⟨ha, hb, hab⟩, hwi'⟩ | h' | ⟨-, h', -⟩
        · rw [hw] at ha; rw [hh] at hb
          rw [r1] at hu; rw [r2] at hv
          unfold Within at hwi hwi'
          dsimp only at hwi hwi'
          have h00 : a = 0 ∧ b = 0 := by
            interval_cases a <;> interval_cases b <;> first | exact ⟨rfl, rfl⟩ | exact (hab rfl).elim
          obtain ⟨rfl, rfl⟩ := h00
          interval_cases u <;> interval_cases v <;> revert hwi hwi' <;> decide
        · omega
        · exact h' rfl
      · omega
      · exact h rfl
    · rw [(t3 2 2 (by decide) (by decide)).2]
      exact Or.inl ⟨0, 0, ⟨by decide, by decide, by decide⟩, by unfold Within; decide⟩
  · have e1 : ((dilate .L1 1 (Image.ofRows 0 [[0]])).bind fun r =>
      (dilate .L1 1 r).map fun s => s.px 0 0) = some 0 := by decide +kernel
    have e2 : ((dilate .L1 2 (Image.ofRows 0 [[0]])).map fun s => s.px 0 0) =
      some 255 := by decide +kernel
    obtain ⟨r, er, e1⟩ := Option.bind_eq_some_iff.mp e1
    obtain ⟨s, es, e1⟩ := Option.map_eq_some_iff.mp e1
    obtain ⟨t, et, e2⟩ := Option.map_eq_some_iff.mp e2
    exact ⟨r, s, t, er, es, et, e1, e2⟩

/-- **C181.** The norms are nested: what `L1` whitens `L2` whitens, what `L2` whitens `LInf` whitens,
and that is whitened by `L1` with twice the radius (images with foreground). -/
theorem C181_norms (im : Image Nat) (hfg : ∃ a b, Fg im a b) (k : Nat) (hk : 2 * k < 255) :
    ∃ r1 r2 r3 r4, dilate .L1 k im = some r1 ∧ dilate .L2 k im = some r2 ∧ dilate .LInf k im = some r3 ∧
      dilate .L1 (2 * k) im = some r4 ∧ Covers r2 r1 ∧ Covers r3 r2 ∧ Covers r4 r3 := by
  have cov : ∀ (n n' : Norm) (k k' : Nat), k < 255 → k' < 255 →
      (∀ x y a b, Within n k x y a b → Within n' k' x y a b) → ∀ r r', dilate n k im = some r →
      dilate n' k' im = some r' → Covers r' r := by
    intro n n' k k' hk hk' hw r r' er er'
    obtain ⟨r0, e0, p1, p2, p3⟩ := C33_dilate_characterised n im k (by omega)
    obtain ⟨s0, f0, q1, q2, q3⟩ := C33_dilate_characterised n' im k' (by omega)
    rw [e0] at er; rw [f0] at er'
    obtain rfl := Option.some.inj er
    obtain rfl := Option.some.inj er'
    refine ⟨by omega, by omega, fun x y hx hy h => ?_⟩
    rw [(q3 x y (by omega) (by omega)).2]
    rcases (p3 x y (by omega) (by omega)).2.1 h with ⟨a, b, hf, h⟩ | h | ⟨h, -⟩
    · exact Or.inl ⟨a, b, hf, hw _ _ _ _ h⟩
    · omega
    · exact (h hfg).elim
  obtain ⟨r1, e1, -⟩ := C33_dilate_characterised .L1 im k (by omega)
  obtain ⟨r2, e2, -⟩ := C33_dilate_characterised .L2 im k (by omega)
  obtain ⟨r3, e3, -⟩ := C33_dilate_characterised .LInf im k (by omega)
  obtain ⟨r4, e4, -⟩ := C33_dilate_characterised .L1 im (2 * k) (by omega)
  refine ⟨r1, r2, r3, r4, e1, e2, e3, e4, cov _ _ _ _ (by omega) (by omega) ?_ _ _ e1 e2,
    cov _ _ _ _ (by omega) (by omega) ?_ _ _ e2 e3, cov _ _ _ _ (by omega) (by omega) ?_ _ _ e3 e4⟩
  · intro x y a b h
    unfold Within at *
    dsimp only at *
    generalize (x : Int) - a = p at *
    generalize (y : Int) - b = q at *
    have hp := Int.natCast_natAbs p
    have hq := Int.natCast_natAbs q
    have h' : |p| + |q| ≤ (k : Int) := by omega
    rw [← sq_abs p, ← sq_abs q]
    have := abs_nonneg p
    have := abs_nonneg q
    nlinarith
  · intro x y a b h
    unfold Within at *
    dsimp only at *
    generalize (x : Int) - a = p at *
    generalize (y : Int) - b = q at *
    have hp := Int.natCast_natAbs p
    have hq := Int.natCast_natAbs q
    have h1 : |p| ≤ (k : Int) := abs_le_of_sq_le_sq (by nlinarith [sq_nonneg q]) (by omega)
    have h2 : |q| ≤ (k : Int) := abs_le_of_sq_le_sq (by nlinarith [sq_nonneg p]) (by omega)
    omega
  · intro x y a b h
    unfold Within at *
    dsimp only at *
    omega

theorem dist_triangles (x y u v a b : Nat) :
    distL1 x y a b ≤ distL1 u v a b + distL1 x y u v ∧
      distLInf x y a b ≤ distLInf u v a b + distLInf x y u v := by
  have h1 : absDiff x a ≤ absDiff u a + absDiff x u := by unfold absDiff; omega
  have h2 : absDiff y b ≤ absDiff v b + absDiff y v := by unfold absDiff; omega
  unfold distL1 distLInf
  omega

theorem dist_norms (x y a b : Nat) :
    distLInf x y a b ≤ distL1 x y a b ∧ distL1 x y a b ≤ 2 * distLInf x y a b := by
  unfold distL1 distLInf
  omega

/-- **C181.** The `L1` and `LInf` distance transforms change between two pixels by at most the distance
of the two pixels (by at most one between neighbours), and satisfy
`LInf ≤ L1 ≤ 2 LInf` up to saturation. -/
theorem C181_lipschitz (im : Image Nat) (hfg : ∃ a b, a < im.w ∧ b < im.h ∧ im.px a b ≠ 0) :
    ∃ r s, distanceTransform false im = some r ∧ distanceTransform true im = some s ∧
      (∀ x y u v, x < im.w → y < im.h → u < im.w → v < im.h →
        r.px x y ≤ r.px u v + distL1 x y u v ∧ s.px x y ≤ s.px u v + distLInf x y u v) ∧
      ∀ x y, x < im.w → y < im.h → s.px x y ≤ r.px x y ∧ r.px x y ≤ 2 * s.px x y := by
  obtain ⟨r, er, r1, r2, r3⟩ := C31_exact false im hfg
  obtain ⟨s, es, s1, s2, s3⟩ := C31_exact true im hfg
  simp only [Bool.false_eq_true, if_false, if_true] at r3 s3
  refine ⟨r, s, er, es, fun x y u v hx hy hu hv => ⟨?_, ?_⟩, fun x y hx hy => ⟨?_, ?_⟩⟩
  · obtain ⟨⟨a, b, ⟨ha, hb, hab⟩, e⟩, -⟩ := r3 u v hu hv
    obtain ⟨⟨a', b', -, e'⟩, h2⟩ := r3 x y hx hy
    have := h2 a b ha hb hab
    have := (dist_triangles x y u v a b).1
    omega
  · obtain ⟨⟨a, b, ⟨ha, hb, hab⟩, e⟩, -⟩ := s3 u v hu hv
    obtain ⟨⟨a', b', -, e'⟩, h2⟩ := s3 x y hx hy
    have := h2 a b ha hb hab
    have := (dist_triangles x y u v a b).2
    omega
  · obtain ⟨⟨a, b, ⟨ha, hb, hab⟩, e⟩, -⟩ := r3 x y hx hy
    obtain ⟨⟨a', b', -, e'⟩, h2⟩ := s3 x y hx hy
    have := h2 a b ha hb hab
    have := dist_norms x y a b
    omega
  · obtain ⟨⟨a, b, ⟨ha, hb, hab⟩, e⟩, -⟩ := s3 x y hx hy
    obtain ⟨⟨a', b', -, e'⟩, h2⟩ := r3 x y hx hy
    have := h2 a b ha hb hab
    have := dist_norms x y a b
    omega

example : ((dilate .L1 1 (Image.ofRows 0 [[1, 0, 0, 0, 0], [0, 0, 0, 0, 0]])).bind fun r =>
    (dilate .L1 2 r).map Image.rows) = some [[255, 255, 255, 255, 0], [255, 255, 255, 0, 0]] ∧
    (dilate .L1 3 (Image.ofRows 0 [[1, 0, 0, 0, 0], [0, 0, 0, 0, 0]])).map Image.rows =
      some [[255, 255, 255, 255, 0], [255, 255, 255, 0, 0]] := by decide +kernel

end Verif.Morphology
