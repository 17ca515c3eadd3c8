import Verif.Float.WarpShift
/-
Property C130: accuracy of bilinear and bicubic interpolation in `f32` on 8-bit channels.
-/
namespace Verif.Float
open Verif.Definitions Verif.Geom XF

theorem clamp_eq {mx : Nat} (hm : mx ≤ 65535) (z : ℚ) : clamp mx (fin z) = clampSub mx z := by
  unfold clamp clampSub clampQ
  rw [ofNat_int (by omega)]
  simp only [XF.lt, decide_eq_true_eq, Int.cast_natCast, Int.cast_zero, gt_iff_lt]
  by_cases h1 : z < mx
  · rw [if_pos h1, if_pos h1]
    by_cases h2 : 0 < z
    · rw [if_pos h2, if_pos h2]
      have := toU32_lt h2.le h1
      have h3 : min (truncQ z).toNat 4294967295 < mx := this
      show min _ _ = _
      omega
    · rw [if_neg h2, if_neg h2]; rfl
  · rw [if_neg h1, if_neg h1]; rfl

/-- Clamping to `0..=mx` is truncation cut off at both ends. -/
theorem clampSub_eq (mx : Nat) (z : ℚ) : (clampSub mx z : Int) = min (max ⌊z⌋ 0) mx := by
  unfold clampSub clampQ
  simp only [Int.cast_natCast, Int.cast_zero, gt_iff_lt]
  by_cases h1 : z < mx
  · rw [if_pos h1]
    have h3 : ⌊z⌋ < mx := Int.floor_lt.2 (by exact_mod_cast h1)
    by_cases h2 : 0 < z
    · rw [if_pos h2]
      unfold truncQ
      rw [if_pos h2.le]
      have : 0 ≤ ⌊z⌋ := Int.floor_nonneg.2 h2.le
      omega
    · rw [if_neg h2]
      have : ⌊z⌋ ≤ 0 := by
        have := Int.floor_le z
        have h4 : (⌊z⌋ : ℚ) ≤ ((0 : Int) : ℚ) := by push_cast; linarith
        exact_mod_cast h4
      omega
  · rw [if_neg h1]
    have : (mx : Int) ≤ ⌊z⌋ := Int.le_floor.2 (by push_cast; linarith)
    omega

/-- Values within `n` of each other differ by at most `n` levels more than their clamps. -/
theorem clampSub_close {mx n : Nat} {z z' : ℚ} (h : z < z' + n) : clampSub mx z ≤ clampSub mx z' + n := by
  have h1 := clampSub_eq mx z
  have h2 := clampSub_eq mx z'
  have h3 : ⌊z⌋ ≤ ⌊z'⌋ + n := by
    have a := Int.floor_le z
    have b := Int.lt_floor_add_one z'
    have : (⌊z⌋ : ℚ) < ((⌊z'⌋ + n + 1 : Int) : ℚ) := by push_cast; linarith
    have : ⌊z⌋ < ⌊z'⌋ + n + 1 := by exact_mod_cast this
    omega
  omega

theorem rep_fract {q : ℚ} (h : Rep 24 (-149) q) (h0 : 0 ≤ q) : Rep 24 (-149) (q - ⌊q⌋) := by
  obtain ⟨m, e, hm, he, rfl⟩ := h
  by_cases he0 : 0 ≤ e
  · obtain ⟨k, rfl⟩ := Int.eq_ofNat_of_zero_le he0
    have : (m : ℚ) * 2 ^ (k : Int) = ((m * 2 ^ k : Int) : ℚ) := by push_cast; rw [zpow_natCast]
    rw [this, Int.floor_intCast, sub_self]
    exact rep_zero
  · obtain ⟨k, rfl⟩ : ∃ k : Nat, e = -(k : Int) := ⟨(-e).toNat, by omega⟩
    have hp : (0 : ℚ) < 2 ^ (-(k : Int)) := two_zpow_pos ℚ _
    have hm0 : 0 ≤ m := by
      by_contra hc
      have : (m : ℚ) < 0 := by exact_mod_cast not_le.1 hc
      nlinarith
    have hf : ⌊(m : ℚ) * 2 ^ (-(k : Int))⌋ = m / 2 ^ k := by
      rw [zpow_neg, zpow_natCast, ← div_eq_mul_inv]
      have := Rat.floor_intCast_div_natCast m (2 ^ k)
      push_cast at this
      exact this
    have hmod := Int.emod_add_mul_ediv m (2 ^ k)
    refine ⟨m % 2 ^ k, -(k : Int), ?_, he, ?_⟩
    · have h1 := Int.emod_nonneg m (by positivity : (2 ^ k : Int) ≠ 0)
      have h2 : m % 2 ^ k ≤ m := by
        have : 0 ≤ 2 ^ k * (m / 2 ^ k) := by positivity
        omega
      rw [abs_of_nonneg h1]
      exact le_trans h2 (le_trans (le_abs_self m) hm)
    · rw [hf]
      have : (m : ℚ) = ((m % 2 ^ k : Int) : ℚ) + 2 ^ k * ((m / 2 ^ k : Int) : ℚ) := by
        exact_mod_cast hmod.symm
      have h2 : (2 : ℚ) ^ (-(k : Int)) * 2 ^ k = 1 := by
        rw [zpow_neg, zpow_natCast]
        exact inv_mul_cancel₀ (by positivity)
      calc (m : ℚ) * 2 ^ (-(k : Int)) - ((m / 2 ^ k : Int) : ℚ)
          = (((m % 2 ^ k : Int) : ℚ) + 2 ^ k * ((m / 2 ^ k : Int) : ℚ)) * 2 ^ (-(k : Int)) -
            ((m / 2 ^ k : Int) : ℚ) := by rw [← this]
        _ = ((m % 2 ^ k : Int) : ℚ) * 2 ^ (-(k : Int)) +
            ((m / 2 ^ k : Int) : ℚ) * (2 ^ (-(k : Int)) * 2 ^ k) - ((m / 2 ^ k : Int) : ℚ) := by ring
        _ = _ := by rw [h2]; ring

theorem floor_cases {q : ℚ} {n k : Nat} (hn : n ≤ 16777216) :
    ((n : ℚ) ≤ rnd32 ((⌊q⌋ : ℚ) + k) ↔ n ≤ ⌊q⌋ + k) := by
  constructor
  · intro h
    by_contra hc
    have : (⌊q⌋ : ℚ) + k < n := by exact_mod_cast not_le.1 hc
    by_cases h0 : 0 ≤ ⌊q⌋ + k
    · have e := rnd32_int (n := ⌊q⌋ + k) (by rw [abs_of_nonneg h0]; norm_num; omega)
      push_cast at e
      rw [e] at h
      linarith
    · have hq : (⌊q⌋ : ℚ) + k ≤ -1 := by exact_mod_cast (by omega : ⌊q⌋ + k ≤ -1)
      have : rnd32 ((⌊q⌋ : ℚ) + k) ≤ -1 := rnd_le (by norm_num)
        ⟨-1, 0, by norm_num, by norm_num, by norm_num⟩ hq
      have : (0 : ℚ) ≤ n := by positivity
      linarith
  · intro h
    exact le_rnd (by norm_num) (rep_natQ (by omega)) (by exact_mod_cast h)

/-- Rows or columns read by bilinear interpolation. -/
theorem axis_bilinear_fin {q : ℚ} (hq : Rep 24 (-149) q) {n : Nat} (hn : n ≤ 16777216) :
    (((fin q).floor.lt (fin 0) = false ∧ (ofNat n).le ((fin q).floor.add (fin 1)) = false) ↔
      0 ≤ q ∧ q < n - 1) ∧
    (0 ≤ q → q < n - 1 → (fin q).floor.toU32 = ⌊q⌋.toNat ∧
      ((fin q).floor.add (fin 1)).toU32 = ⌊q⌋.toNat + 1 ∧
      (fin q).sub (fin q).floor = fin (q - ⌊q⌋)) := by
  refine ⟨?_, ?_⟩
  · simp only [XF.floor, XF.lt, XF.add, ofNat, XF.le, decide_eq_false_iff_not, not_lt]
    rw [rnd32_natQ hn]
    have h := floor_cases (q := q) (n := n) (k := 1) hn
    rw [Nat.cast_one, Nat.cast_one] at h
    rw [h]
    have g := floor_nonneg_cast q 0
    simp only [Nat.cast_zero, sub_zero] at g
    have f := floor_bounds q n 1
    rw [Nat.cast_one] at f
    rw [g, ← f, not_le]
    refine and_congr_right fun _ => ?_
    constructor <;> intro h <;> exact_mod_cast h
  · intro h0 h1
    have e := inside_nat h0 h1
    have p : 0 ≤ ⌊q⌋ := Int.floor_nonneg.2 h0
    obtain ⟨k, hk⟩ := Int.eq_ofNat_of_zero_le p
    simp only [XF.floor, XF.add, XF.sub, XF.neg]
    have er : rnd32 (q - (⌊q⌋ : ℚ)) = q - (⌊q⌋ : ℚ) := rnd_of_rep (by norm_num) (rep_fract hq h0)
    rw [← sub_eq_add_neg, er, hk]
    simp only [Int.toNat_natCast, Int.cast_natCast]
    rw [hk, Int.toNat_natCast] at e
    rw [show (k : ℚ) + 1 = ((k + 1 : Nat) : ℚ) by push_cast; ring, rnd32_natQ (by omega),
      toU32_nat (by omega), toU32_nat (by omega)]
    exact ⟨rfl, rfl, trivial⟩

/-- Mixing two 8-bit values: at most `2 ^ -14` above and one level below the exact mixture. -/
theorem mix32_bounds {u v : Nat} (hu : u ≤ 255) (hv : v ≤ 255) {w : ℚ} (h0 : 0 ≤ w) (h1 : w ≤ 1) :
    ((mix32 255 u v (fin w) : Nat) : ℚ) ≤ (1 - w) * u + w * v + 1 / 16384 ∧
    (1 - w) * u + w * v - 1 - 1 / 16384 < (mix32 255 u v (fin w) : Nat) := by
  unfold mix32
  rw [ofNat_int (by omega), ofNat_int (by omega)]
  simp only [XF.sub, XF.neg, XF.add, XF.mul]
  have e := interpolate_error hv hu h0 h1
  rw [← sub_eq_add_neg, add_comm (rnd32 (rnd32 (1 - w) * (u : ℚ))), mul_comm w (v : ℚ),
    mul_comm (rnd32 (1 - w)), clamp_eq (by norm_num)]
  have hp : 0 ≤ rnd32 (rnd32 ((v : ℚ) * w) + rnd32 ((u : ℚ) * rnd32 (1 - w))) :=
    rnd_nonneg (add_nonneg (rnd_nonneg (by positivity))
      (rnd_nonneg (mul_nonneg (by positivity) (rnd_nonneg (by linarith)))))
  set z := rnd32 (rnd32 ((v : ℚ) * w) + rnd32 ((u : ℚ) * rnd32 (1 - w)))
  rw [abs_le] at e
  have hc := clampSub_eq 255 z
  have f1 := Int.floor_le z
  have f2 := Int.lt_floor_add_one z
  have f0 : 0 ≤ ⌊z⌋ := Int.floor_nonneg.2 hp
  have hu' : (u : ℚ) ≤ 255 := by exact_mod_cast hu
  have hv' : (v : ℚ) ≤ 255 := by exact_mod_cast hv
  have hE : (1 - w) * u + w * v ≤ 255 := by nlinarith
  have c1 : (clampSub 255 z : Int) ≤ ⌊z⌋ := by omega
  have c1' : ((clampSub 255 z : Nat) : ℚ) ≤ (⌊z⌋ : ℚ) := by exact_mod_cast c1
  constructor
  · linarith
  · by_cases hz : ⌊z⌋ ≤ 255
    · have c2 : (clampSub 255 z : Int) = ⌊z⌋ := by push_cast at hc; omega
      have c2' : ((clampSub 255 z : Nat) : ℚ) = (⌊z⌋ : ℚ) := by exact_mod_cast c2
      linarith
    · have c2 : clampSub 255 z = 255 := by push_cast at hc; omega
      rw [c2]; push_cast; linarith

/-- The bilinear mixture of the four pixels around a position, over exact numbers. -/
def bilinearExact (im : Image Px) (x y : ℚ) (c : Nat) : ℚ :=
  let l := ⌊x⌋.toNat
  let t := ⌊y⌋.toNat
  (1 - (y - ⌊y⌋)) * ((1 - (x - ⌊x⌋)) * im.px l t c + (x - ⌊x⌋) * im.px (l + 1) t c) +
    (y - ⌊y⌋) * ((1 - (x - ⌊x⌋)) * im.px l (t + 1) c + (x - ⌊x⌋) * im.px (l + 1) (t + 1) c)

theorem fract_bounds (z : ℚ) : 0 ≤ z - ⌊z⌋ ∧ z - ⌊z⌋ ≤ 1 :=
  ⟨by have := Int.floor_le z; linarith, by have := Int.lt_floor_add_one z; linarith⟩

/-- C130: bilinear interpolation in `f32` on 8-bit images of at most 16777216 columns and rows uses
the default colour exactly where exact arithmetic does, and elsewhere is less than 2.0002 levels below and
0.0002 levels above the exact mixture of the four surrounding pixels. -/
theorem C130_bilinear (im : Image Px) (x y : ℚ) (dflt : Px) (hx : Rep 24 (-149) x)
    (hy : Rep 24 (-149) y) (hw : im.w ≤ 16777216) (hh : im.h ≤ 16777216)
    (hpx : ∀ a b c, a < im.w → b < im.h → im.px a b c ≤ 255) :
    ∃ v, bilinear32 255 im (fin x) (fin y) dflt = some v ∧
      (¬ (0 ≤ x ∧ x < im.w - 1 ∧ 0 ≤ y ∧ y < im.h - 1) → v = dflt) ∧
      (0 ≤ x ∧ x < im.w - 1 ∧ 0 ≤ y ∧ y < im.h - 1 → ∀ c,
        bilinearExact im x y c - 2 - 1 / 8192 < v c ∧ (v c : ℚ) ≤ bilinearExact im x y c + 1 / 8192) := by
  unfold bilinear32
  dsimp only
  obtain ⟨a1, a2⟩ := axis_bilinear_fin hx hw
  obtain ⟨b1, b2⟩ := axis_bilinear_fin hy hh
  have hc := or4_iff a1 b1
  by_cases c : (0 ≤ x ∧ x < im.w - 1) ∧ 0 ≤ y ∧ y < im.h - 1
  · rw [if_neg (fun h => hc.1 h c)]
    obtain ⟨p1, p2, p3⟩ := a2 c.1.1 c.1.2
    obtain ⟨q1, q2, q3⟩ := b2 c.2.1 c.2.2
    have ex := inside_nat c.1.1 c.1.2
    have ey := inside_nat c.2.1 c.2.2
    rw [p1, p2, p3, q1, q2, q3, unsafeGet_inB (by omega) (by omega), Option.bind_some,
      unsafeGet_inB (by omega) (by omega), Option.bind_some, unsafeGet_inB (by omega) (by omega),
      Option.bind_some, unsafeGet_inB (by omega) (by omega), Option.bind_some]
    refine ⟨_, rfl, fun h => absurd ⟨c.1.1, c.1.2, c.2.1, c.2.2⟩ h, fun _ ch => ?_⟩
    unfold blendBilinear32 bilinearExact
    dsimp only
    obtain ⟨w0, w1⟩ := fract_bounds x
    obtain ⟨v0, v1⟩ := fract_bounds y
    have g1 := hpx ⌊x⌋.toNat ⌊y⌋.toNat ch (by omega) (by omega)
    have g2 := hpx (⌊x⌋.toNat + 1) ⌊y⌋.toNat ch (by omega) (by omega)
    have g3 := hpx ⌊x⌋.toNat (⌊y⌋.toNat + 1) ch (by omega) (by omega)
    have g4 := hpx (⌊x⌋.toNat + 1) (⌊y⌋.toNat + 1) ch (by omega) (by omega)
    generalize im.px ⌊x⌋.toNat ⌊y⌋.toNat ch = tl at *
    generalize im.px (⌊x⌋.toNat + 1) ⌊y⌋.toNat ch = tr at *
    generalize im.px ⌊x⌋.toNat (⌊y⌋.toNat + 1) ch = bl at *
    generalize im.px (⌊x⌋.toNat + 1) (⌊y⌋.toNat + 1) ch = br at *
    generalize x - (⌊x⌋ : ℚ) = u at *
    generalize y - (⌊y⌋ : ℚ) = v at *
    have t := mix32_bounds g1 g2 w0 w1
    have b := mix32_bounds g3 g4 w0 w1
    have m255 : ∀ a b w, mix32 255 a b w ≤ 255 := by
      intro a b w
      unfold mix32 clamp
      generalize (((fin 1).sub w).mul (ofNat a)).add (w.mul (ofNat b)) = z
      split
      · split
        · rename_i h1 h2
          match z with
          | nan => simp [XF.toU32]
          | inf true => simp [XF.toU32]
          | inf false => simp [XF.lt] at h1
          | fin q =>
            rw [ofNat_int (by norm_num)] at h1
            simp only [XF.lt, decide_eq_true_eq] at h1 h2
            exact (toU32_lt h2.le h1).le
        · omega
      · exact le_rfl
    have s := mix32_bounds (m255 tl tr (fin u)) (m255 bl br (fin u)) v0 v1
    generalize mix32 255 tl tr (fin u) = T at *
    generalize mix32 255 bl br (fin u) = B at *
    obtain ⟨t1, t2⟩ := t
    obtain ⟨b1', b2'⟩ := b
    obtain ⟨s1, s2⟩ := s
    generalize (1 - u) * (tl : ℚ) + u * tr = P at *
    generalize (1 - u) * (bl : ℚ) + u * br = R at *
    constructor
    · nlinarith
    · nlinarith
  · rw [if_pos (hc.2 c)]
    exact ⟨_, rfl, fun _ => rfl, fun h => absurd ⟨⟨h.1, h.2.1⟩, h.2.2⟩ c⟩

/-- C130 (partial: up to two levels below): the interpolated value is never above the largest of the
four surrounding pixels and at most two levels below the smallest. -/
theorem C130_bilinear_range_partial (im : Image Px) (x y : ℚ) (dflt : Px) (hx : Rep 24 (-149) x)
    (hy : Rep 24 (-149) y) (hw : im.w ≤ 16777216) (hh : im.h ≤ 16777216)
    (hpx : ∀ a b c, a < im.w → b < im.h → im.px a b c ≤ 255)
    (hin : 0 ≤ x ∧ x < im.w - 1 ∧ 0 ≤ y ∧ y < im.h - 1) (c lo hi : Nat)
    (hb : ∀ a b, a ≤ 1 → b ≤ 1 → lo ≤ im.px (⌊x⌋.toNat + a) (⌊y⌋.toNat + b) c ∧
      im.px (⌊x⌋.toNat + a) (⌊y⌋.toNat + b) c ≤ hi) :
    ∃ v, bilinear32 255 im (fin x) (fin y) dflt = some v ∧ lo ≤ v c + 2 ∧ v c ≤ hi := by
  obtain ⟨v, e, _, h⟩ := C130_bilinear im x y dflt hx hy hw hh hpx
  refine ⟨v, e, ?_⟩
  obtain ⟨h1, h2⟩ := h hin c
  obtain ⟨w0, w1⟩ := fract_bounds x
  obtain ⟨v0, v1⟩ := fract_bounds y
  have q00 := hb 0 0 (by omega) (by omega)
  have q10 := hb 1 0 (by omega) (by omega)
  have q01 := hb 0 1 (by omega) (by omega)
  have q11 := hb 1 1 (by omega) (by omega)
  simp only [Nat.add_zero] at q00 q10 q01
  unfold bilinearExact at h1 h2
  dsimp only at h1 h2
  generalize im.px ⌊x⌋.toNat ⌊y⌋.toNat c = tl at *
  generalize im.px (⌊x⌋.toNat + 1) ⌊y⌋.toNat c = tr at *
  generalize im.px ⌊x⌋.toNat (⌊y⌋.toNat + 1) c = bl at *
  generalize im.px (⌊x⌋.toNat + 1) (⌊y⌋.toNat + 1) c = br at *
  generalize x - (⌊x⌋ : ℚ) = u at *
  generalize y - (⌊y⌋ : ℚ) = s at *
  have k : ∀ a : Nat, lo ≤ a ∧ a ≤ hi → (lo : ℚ) ≤ a ∧ (a : ℚ) ≤ hi := fun a h =>
    ⟨by exact_mod_cast h.1, by exact_mod_cast h.2⟩
  obtain ⟨l1, u1⟩ := k _ q00
  obtain ⟨l2, u2⟩ := k _ q10
  obtain ⟨l3, u3⟩ := k _ q01
  obtain ⟨l4, u4⟩ := k _ q11
  have P1 : (lo : ℚ) ≤ (1 - u) * tl + u * tr := by nlinarith
  have P2 : (1 - u) * tl + u * tr ≤ (hi : ℚ) := by nlinarith
  have R1 : (lo : ℚ) ≤ (1 - u) * bl + u * br := by nlinarith
  have R2 : (1 - u) * bl + u * br ≤ (hi : ℚ) := by nlinarith
  generalize (1 - u) * (tl : ℚ) + u * tr = P at *
  generalize (1 - u) * (bl : ℚ) + u * br = R at *
  have S1 : (lo : ℚ) ≤ (1 - s) * P + s * R := by nlinarith
  have S2 : (1 - s) * P + s * R ≤ (hi : ℚ) := by nlinarith
  constructor
  · have : (lo : ℚ) < ((v c + 3 : Nat) : ℚ) := by push_cast; linarith
    have : lo < v c + 3 := by exact_mod_cast this
    omega
  · have : (v c : ℚ) < ((hi + 1 : Nat) : ℚ) := by push_cast; linarith
    have : v c < hi + 1 := by exact_mod_cast this
    omega

/-- C130 is false of the code with an exact range: interpolating between four pixels of value 7 can
give 5. -/
theorem C130_negation (im : Image Px) (dflt : Px) (hw : 2 < im.w) (hh : 2 < im.h)
    (h7 : ∀ a b c, im.px a b c = 7) :
    bilinear32 255 im (fin (3 / 33554432)) (fin (3 / 33554432)) dflt = some fun _ => 5 := by
  have w1 : (2 : ℚ) ≤ rnd32 (im.w : ℚ) :=
    le_rnd (by norm_num) ⟨2, 0, by norm_num, by norm_num, by norm_num⟩ (by exact_mod_cast hw.le)
  have w2 : (2 : ℚ) ≤ rnd32 (im.h : ℚ) :=
    le_rnd (by norm_num) ⟨2, 0, by norm_num, by norm_num, by norm_num⟩ (by exact_mod_cast hh.le)
  have f : (fin (3 / 33554432)).floor = fin 0 := by decide +kernel
  have g : (fin 0).add (fin 1) = fin 1 := by decide +kernel
  have s : (fin (3 / 33554432)).sub (fin 0) = fin (3 / 33554432) := by decide +kernel
  have t0 : (fin 0).toU32 = 0 := by decide +kernel
  have t1 : (fin 1).toU32 = 1 := by decide +kernel
  unfold bilinear32
  dsimp only
  rw [f, g, s, t0, t1, if_neg (by
    simp only [XF.lt, ofNat, XF.le, Bool.or_eq_true, decide_eq_true_eq, not_or, not_lt, not_le]
    exact ⟨⟨⟨le_refl _, by linarith⟩, le_refl _⟩, by linarith⟩),
    unsafeGet_inB (by omega) (by omega), Option.bind_some,
    unsafeGet_inB (by omega) (by omega), Option.bind_some, unsafeGet_inB (by omega) (by omega),
    Option.bind_some, unsafeGet_inB (by omega) (by omega), Option.bind_some]
  congr 1
  funext c
  unfold blendBilinear32
  dsimp only
  simp only [h7]
  decide +kernel

/-- The position in the example is a single precision number. -/
example : Rep 24 (-149) (3 / 33554432 : ℚ) := ⟨3, -25, by norm_num, by norm_num, by norm_num⟩

/-- Halfway between 10 and 20, and 20 and 40. -/
example : (bilinear32 255 ⟨3, 3, fun x y _ => 10 * (x + 1) * (y + 1)⟩ (fin (1 / 2)) (fin (1 / 2))
    (fun _ => 0)).map (· 0) = some 22 := by decide +kernel

/-! ### Bicubic -/

set_option maxHeartbeats 800000 in
/-- The cubic in `f32` is within `2 ^ -11` of the exact cubic. -/
theorem cubic32_error {p0 p1 p2 p3 : Nat} (h0 : p0 ≤ 255) (h1 : p1 ≤ 255) (h2 : p2 ≤ 255) (h3 : p3 ≤ 255)
    {x : ℚ} (hx0 : 0 ≤ x) (hx1 : x ≤ 1) :
    ∃ z, cubic32 (ofNat p0) (ofNat p1) (ofNat p2) (ofNat p3) (fin x) = fin z ∧
      |z - cubic p0 p1 p2 p3 x| ≤ 1 / 2048 := by
  unfold cubic32
  rw [ofNat_int (by omega), ofNat_int (by omega), ofNat_int (by omega), ofNat_int (by omega)]
  simp only [XF.sub, XF.neg, XF.add, XF.mul]
  refine ⟨_, rfl, ?_⟩
  have ri : ∀ (q : ℚ) (n : Int), q = n → n.natAbs ≤ 16777216 → rnd32 q = n := fun q n hq hn => by
    rw [hq]
    refine rnd32_int ?_
    have : |n| = (n.natAbs : Int) := Int.abs_eq_natAbs n
    rw [this]; norm_num; omega
  have k1 : rnd32 ((p1 : ℚ) + -(p2 : ℚ)) = ((p1 - p2 : Int) : ℚ) := ri _ _ (by push_cast; ring) (by omega)
  have k2 : rnd32 (3 * ((p1 - p2 : Int) : ℚ)) = ((3 * (p1 - p2) : Int) : ℚ) := ri _ _ (by push_cast; ring) (by omega)
  have k3 : rnd32 (((3 * (p1 - p2) : Int) : ℚ) + (p3 : ℚ)) = ((3 * (p1 - p2) + p3 : Int) : ℚ) := ri _ _ (by push_cast; ring) (by omega)
  have k4 : rnd32 (((3 * (p1 - p2) + p3 : Int) : ℚ) + -(p0 : ℚ)) = ((3 * (p1 - p2) + p3 - p0 : Int) : ℚ) := ri _ _ (by push_cast; ring) (by omega)
  have j1 : rnd32 (2 * (p0 : ℚ)) = ((2 * p0 : Int) : ℚ) := ri _ _ (by push_cast; ring) (by omega)
  have j2 : rnd32 (5 * (p1 : ℚ)) = ((5 * p1 : Int) : ℚ) := ri _ _ (by push_cast; ring) (by omega)
  have j3 : rnd32 (((2 * p0 : Int) : ℚ) + -((5 * p1 : Int) : ℚ)) = ((2 * p0 - 5 * p1 : Int) : ℚ) := ri _ _ (by push_cast; ring) (by omega)
  have j4 : rnd32 (4 * (p2 : ℚ)) = ((4 * p2 : Int) : ℚ) := ri _ _ (by push_cast; ring) (by omega)
  have j5 : rnd32 (((2 * p0 - 5 * p1 : Int) : ℚ) + ((4 * p2 : Int) : ℚ)) =
      ((2 * p0 - 5 * p1 + 4 * p2 : Int) : ℚ) := ri _ _ (by push_cast; ring) (by omega)
  have j6 : rnd32 (((2 * p0 - 5 * p1 + 4 * p2 : Int) : ℚ) + -(p3 : ℚ)) =
      ((2 * p0 - 5 * p1 + 4 * p2 - p3 : Int) : ℚ) := ri _ _ (by push_cast; ring) (by omega)
  have i1 : rnd32 ((p2 : ℚ) + -(p0 : ℚ)) = ((p2 - p0 : Int) : ℚ) := ri _ _ (by push_cast; ring) (by omega)
  rw [k1, k2, k3, k4, j1, j2, j3, j4, j5, j6, i1]
  have hex : cubic p0 p1 p2 p3 x = (p1 : ℚ) + 1 / 2 * x * (((p2 - p0 : Int) : ℚ) +
      x * (((2 * p0 - 5 * p1 + 4 * p2 - p3 : Int) : ℚ) + x * ((3 * (p1 - p2) + p3 - p0 : Int) : ℚ))) := by
    unfold cubic; push_cast; ring
  rw [hex]
  have bi : ∀ n b : Int, -b ≤ n → n ≤ b → |(n : ℚ)| ≤ b := fun n b l u =>
    abs_le.2 ⟨by exact_mod_cast l, by exact_mod_cast u⟩
  have K := bi (3 * (p1 - p2) + p3 - p0) 1020 (by omega) (by omega)
  have J := bi (2 * p0 - 5 * p1 + 4 * p2 - p3) 1530 (by omega) (by omega)
  have I := bi (p2 - p0) 255 (by omega) (by omega)
  have P : (p1 : ℚ) ≤ 255 := by exact_mod_cast h1
  have P0 : (0 : ℚ) ≤ p1 := by positivity
  generalize ((3 * (p1 - p2) + p3 - p0 : Int) : ℚ) = k at *
  generalize ((2 * p0 - 5 * p1 + 4 * p2 - p3 : Int) : ℚ) = j at *
  generalize ((p2 - p0 : Int) : ℚ) = i at *
  push_cast at K J I
  have err : ∀ (z : ℚ) (n : Nat) (b : ℚ), |z| ≤ b → b < 2 ^ (n : Int) →
      |rnd32 z - z| ≤ 2 ^ ((n : Int) - 24) / 2 := by
    intro z n b hz hb
    have := rnd_error_lt (K := ℚ) (p := 24) (emin := -149) (x := z) (k := n) (by push_cast; omega)
      (lt_of_le_of_lt hz hb)
    exact_mod_cast this
  have mulx : ∀ z b : ℚ, |z| ≤ b → |x * z| ≤ b := by
    intro z b hz
    rw [abs_mul, abs_of_nonneg hx0]
    exact le_trans (mul_le_mul_of_nonneg_right hx1 (abs_nonneg z)) (by rw [one_mul]; exact hz)
  have e1 := err (x * k) 10 1020 (mulx k 1020 K) (by norm_num)
  set a1 := rnd32 (x * k)
  have b1 := mulx k 1020 K
  norm_num at e1
  have m1 : |j + a1| ≤ 2551 := by
    have : j + a1 = j + x * k + (a1 - x * k) := by ring
    rw [this]
    exact le_trans (abs_add_le _ _) (by have := abs_add_le j (x * k); linarith)
  have e2 := err (j + a1) 12 2551 m1 (by norm_num)
  norm_num at e2
  set a2 := rnd32 (j + a1)
  have m2 : |a2| ≤ 2552 := by
    have : a2 = j + a1 + (a2 - (j + a1)) := by ring
    rw [this]
    exact le_trans (abs_add_le _ _) (by linarith)
  have e3 := err (x * a2) 12 2552 (mulx a2 2552 m2) (by norm_num)
  norm_num at e3
  set a3 := rnd32 (x * a2)
  have m3 : |i + a3| ≤ 2808 := by
    have : i + a3 = i + x * a2 + (a3 - x * a2) := by ring
    rw [this]
    have := mulx a2 2552 m2
    exact le_trans (abs_add_le _ _) (by have := abs_add_le i (x * a2); linarith)
  have e4 := err (i + a3) 12 2808 m3 (by norm_num)
  norm_num at e4
  set a4 := rnd32 (i + a3)
  have m4 : |a4| ≤ 2809 := by
    have : a4 = i + a3 + (a4 - (i + a3)) := by ring
    rw [this]
    exact le_trans (abs_add_le _ _) (by linarith)
  have hh := err (1 / 2 * x) 0 (1 / 2) (by rw [abs_of_nonneg (by linarith)]; linarith) (by norm_num)
  norm_num at hh
  have hh0 : 0 ≤ rnd32 (1 / 2 * x) := rnd_nonneg (by linarith)
  have hh1 : rnd32 (1 / 2 * x) ≤ 1 / 2 := rnd_le (by norm_num)
    ⟨1, -1, by norm_num, by norm_num, by norm_num⟩ (by linarith)
  set hx := rnd32 (1 / 2 * x)
  have m5 : |hx * a4| ≤ 1405 := by
    rw [abs_mul, abs_of_nonneg hh0]
    exact le_trans (mul_le_mul hh1 m4 (abs_nonneg _) (by norm_num)) (by norm_num)
  have e5 := err (hx * a4) 11 1405 m5 (by norm_num)
  norm_num at e5
  set a5 := rnd32 (hx * a4)
  have m6 : |(p1 : ℚ) + a5| ≤ 1661 := by
    have : (p1 : ℚ) + a5 = p1 + hx * a4 + (a5 - hx * a4) := by ring
    rw [this]
    have q : |(p1 : ℚ)| ≤ 255 := by rw [abs_of_nonneg P0]; exact P
    exact le_trans (abs_add_le _ _) (by have := abs_add_le (p1 : ℚ) (hx * a4); linarith)
  have e6 := err ((p1 : ℚ) + a5) 11 1661 m6 (by norm_num)
  norm_num at e6
  set a6 := rnd32 ((p1 : ℚ) + a5)
  -- collect
  have d1 : |a2 - (j + x * k)| ≤ 1 / 32768 + 1 / 8192 := by
    have : a2 - (j + x * k) = (a1 - x * k) + (a2 - (j + a1)) := by ring
    rw [this]
    exact le_trans (abs_add_le _ _) (by linarith)
  have d2 : |a4 - (i + x * (j + x * k))| ≤ 1 / 32768 + 3 / 8192 := by
    have : a4 - (i + x * (j + x * k)) = x * (a2 - (j + x * k)) + (a3 - x * a2) + (a4 - (i + a3)) := by ring
    rw [this]
    have := mulx _ _ d1
    have q := abs_add_le (x * (a2 - (j + x * k))) (a3 - x * a2)
    exact le_trans (abs_add_le _ _) (by linarith)
  have d3 : |hx * a4 - 1 / 2 * x * (i + x * (j + x * k))| ≤ 1 / 2 * (1 / 32768 + 3 / 8192) + 2809 * (1 / 33554432) := by
    have : hx * a4 - 1 / 2 * x * (i + x * (j + x * k)) =
      1 / 2 * (x * (a4 - (i + x * (j + x * k)))) + (hx - 1 / 2 * x) * a4 := by ring
    rw [this]
    have := mulx _ _ d2
    refine le_trans (abs_add_le _ _) ?_
    have t1 : |1 / 2 * (x * (a4 - (i + x * (j + x * k))))| ≤ 1 / 2 * (1 / 32768 + 3 / 8192) := by
      rw [abs_mul, abs_of_pos (by norm_num : (0 : ℚ) < 1 / 2)]
      linarith
    have t2 : |(hx - 1 / 2 * x) * a4| ≤ 2809 * (1 / 33554432) := by
      rw [abs_mul, mul_comm]
      exact mul_le_mul m4 hh (abs_nonneg _) (by norm_num)
    linarith
  have d4 : a6 - ((p1 : ℚ) + 1 / 2 * x * (i + x * (j + x * k))) =
      (hx * a4 - 1 / 2 * x * (i + x * (j + x * k))) + (a5 - hx * a4) + (a6 - (p1 + a5)) := by ring
  rw [d4]
  have q := abs_add_le (hx * a4 - 1 / 2 * x * (i + x * (j + x * k))) (a5 - hx * a4)
  exact le_trans (abs_add_le _ _) (by linarith)

/-- Changing the four samples by at most one changes the cubic by at most 5/4. -/
theorem cubic_close {p q : Nat → ℚ} (h : ∀ i, |p i - q i| ≤ 1) {x : ℚ} (h0 : 0 ≤ x) (h1 : x ≤ 1) :
    |cubic (p 0) (p 1) (p 2) (p 3) x - cubic (q 0) (q 1) (q 2) (q 3) x| ≤ 5 / 4 := by
  have e : cubic (p 0) (p 1) (p 2) (p 3) x - cubic (q 0) (q 1) (q 2) (q 3) x =
      -(x * (1 - x) ^ 2 / 2) * (p 0 - q 0) + ((1 - x) * (1 + x - 3 / 2 * x ^ 2)) * (p 1 - q 1) +
      (x * (1 / 2 + 2 * x - 3 / 2 * x ^ 2)) * (p 2 - q 2) + -(x ^ 2 * (1 - x) / 2) * (p 3 - q 3) := by
    unfold cubic; ring
  have a := abs_le.1 (h 0)
  have b := abs_le.1 (h 1)
  have c := abs_le.1 (h 2)
  have d := abs_le.1 (h 3)
  have w0 : 0 ≤ x * (1 - x) ^ 2 / 2 := by positivity
  have w1 : 0 ≤ (1 - x) * (1 + x - 3 / 2 * x ^ 2) := mul_nonneg (by linarith) (by nlinarith)
  have w2 : 0 ≤ x * (1 / 2 + 2 * x - 3 / 2 * x ^ 2) := mul_nonneg h0 (by nlinarith)
  have w3 : 0 ≤ x ^ 2 * (1 - x) / 2 := by
    have : 0 ≤ 1 - x := by linarith
    positivity
  have hs : x * (1 - x) ^ 2 / 2 + (1 - x) * (1 + x - 3 / 2 * x ^ 2) + x * (1 / 2 + 2 * x - 3 / 2 * x ^ 2) +
      x ^ 2 * (1 - x) / 2 = 1 + x * (1 - x) := by ring
  have hx : x * (1 - x) ≤ 1 / 4 := by nlinarith [sq_nonneg (x - 1 / 2)]
  rw [e, abs_le]
  generalize x * (1 - x) ^ 2 / 2 = A at *
  generalize (1 - x) * (1 + x - 3 / 2 * x ^ 2) = B at *
  generalize x * (1 / 2 + 2 * x - 3 / 2 * x ^ 2) = C at *
  generalize x ^ 2 * (1 - x) / 2 = D at *
  have a1 := mul_le_mul_of_nonneg_left a.1 w0
  have a2 := mul_le_mul_of_nonneg_left a.2 w0
  have b1 := mul_le_mul_of_nonneg_left b.1 w1
  have b2 := mul_le_mul_of_nonneg_left b.2 w1
  have c1 := mul_le_mul_of_nonneg_left c.1 w2
  have c2 := mul_le_mul_of_nonneg_left c.2 w2
  have d1 := mul_le_mul_of_nonneg_left d.1 w3
  have d2 := mul_le_mul_of_nonneg_left d.2 w3
  constructor <;> linarith

theorem clampSub_le (mx : Nat) (z : ℚ) : clampSub mx z ≤ mx := by
  have := clampSub_eq mx z
  omega

/-- One blending step in `f32` against the exact one on possibly different samples. -/
theorem blendCubic32_close {a b : Nat → Px} {c : Nat} (ha : ∀ i, a i c ≤ 255) {x : ℚ} (h0 : 0 ≤ x)
    (h1 : x ≤ 1) {n : Nat} (e : ℚ) (he : e + 1 / 2048 < n)
    (hab : |cubic (a 0 c) (a 1 c) (a 2 c) (a 3 c) x - cubic (b 0 c) (b 1 c) (b 2 c) (b 3 c) x| ≤ e) :
    blendCubic32 255 (a 0) (a 1) (a 2) (a 3) (fin x) c ≤
      blendCubic 255 (b 0) (b 1) (b 2) (b 3) x c + n ∧
    blendCubic 255 (b 0) (b 1) (b 2) (b 3) x c ≤
      blendCubic32 255 (a 0) (a 1) (a 2) (a 3) (fin x) c + n := by
  unfold blendCubic32 blendCubic
  obtain ⟨z, hz, hd⟩ := cubic32_error (ha 0) (ha 1) (ha 2) (ha 3) h0 h1
  rw [hz, clamp_eq (by norm_num)]
  rw [abs_le] at hd hab
  exact ⟨clampSub_close (by linarith), clampSub_close (by linarith)⟩

/-- Rows or columns read by bicubic interpolation. -/
theorem axis_bicubic_fin {q : ℚ} (hq : Rep 24 (-149) q) {n : Nat} (hn : n ≤ 16777216) :
    ((((fin q).floor.sub (fin 1)).lt (fin 0) = false ∧
      (ofNat n).le (((fin q).floor.sub (fin 1)).add (fin 4)) = false) ↔ 1 ≤ q ∧ q < n - 3) ∧
    (1 ≤ q → q < n - 3 → ((fin q).floor.sub (fin 1)).toU32 = ⌊q⌋.toNat - 1 ∧
      (((fin q).floor.sub (fin 1)).add (fin 4)).toU32 = ⌊q⌋.toNat - 1 + 4 ∧
      (fin q).sub (((fin q).floor.sub (fin 1)).add (fin 1)) = fin (q - ⌊q⌋)) := by
  have hin : ∀ k : Nat, ⌊q⌋ = ((k + 1 : Nat) : Int) → k + 4 ≤ 16777216 →
      (fin q).floor.sub (fin 1) = fin (k : ℚ) ∧ (fin (k : ℚ)).add (fin 4) = fin ((k + 4 : Nat) : ℚ) := by
    intro k hk hk'
    have := bicubic_rows (t := k) (by omega)
    refine ⟨?_, this.2⟩
    rw [← this.1]
    simp only [XF.floor]
    rw [hk, Int.floor_natCast]
  refine ⟨⟨?_, ?_⟩, ?_⟩
  · rintro ⟨h1, h2⟩
    by_cases hf : ⌊q⌋ ≤ 0
    · exfalso
      simp only [XF.floor, XF.lt, XF.sub, XF.neg, XF.add, decide_eq_false_iff_not, not_lt] at h1
      have : (⌊q⌋ : ℚ) ≤ 0 := by exact_mod_cast hf
      have : rnd32 ((⌊q⌋ : ℚ) + -1) ≤ -1 := rnd_le (by norm_num)
          ⟨-1, 0, by norm_num, by norm_num, by norm_num⟩ (by linarith)
      linarith
    · obtain ⟨k, hk⟩ : ∃ k : Nat, ⌊q⌋ = ((k + 1 : Nat) : Int) := ⟨(⌊q⌋ - 1).toNat, by omega⟩
      have hlow : 1 ≤ q := by
        have : (1 : Int) ≤ ⌊q⌋ := by omega
        simpa using Int.le_floor.1 this
      refine ⟨hlow, ?_⟩
      by_cases hk' : k + 4 ≤ 16777216
      · obtain ⟨e1, e2⟩ := hin k hk hk'
        rw [e1, e2] at h2
        simp only [ofNat, XF.le, decide_eq_false_iff_not, not_le] at h2
        rw [rnd32_natQ hn] at h2
        have h3 : k + 4 < n := by exact_mod_cast h2
        have : ⌊q⌋ < (n : Int) - 3 := by omega
        have := Int.floor_lt.1 this
        push_cast at this
        exact this
      · exfalso
        simp only [XF.floor, XF.sub, XF.neg, XF.add, ofNat, XF.le, decide_eq_false_iff_not, not_le] at h2
        rw [rnd32_natQ hn] at h2
        have f2 : ((16777214 : Int) : ℚ) ≤ (⌊q⌋ : ℚ) := by exact_mod_cast (by omega : (16777214 : Int) ≤ ⌊q⌋)
        push_cast at f2
        have f3 : ((16777213 : Nat) : ℚ) ≤ rnd32 ((⌊q⌋ : ℚ) + -1) :=
          le_rnd (by norm_num) (rep_natQ (by norm_num)) (by push_cast; linarith)
        push_cast at f3
        have hn' : (n : ℚ) ≤ 16777216 := by exact_mod_cast hn
        have : (n : ℚ) ≤ rnd32 (rnd32 ((⌊q⌋ : ℚ) + -1) + 4) :=
          le_rnd (by norm_num) (rep_natQ (by omega)) (by linarith)
        linarith
  · rintro ⟨h1, h2⟩
    obtain ⟨a, b⟩ := inside3_nat h1 h2
    obtain ⟨k, hk⟩ : ∃ k : Nat, ⌊q⌋ = ((k + 1 : Nat) : Int) := ⟨(⌊q⌋ - 1).toNat, by omega⟩
    obtain ⟨e1, e2⟩ := hin k hk (by omega)
    rw [e1, e2]
    simp only [XF.lt, ofNat, XF.le, decide_eq_false_iff_not, not_lt, not_le]
    rw [rnd32_natQ hn]
    exact ⟨by positivity, by exact_mod_cast (by omega)⟩
  · intro h1 h2
    obtain ⟨a, b⟩ := inside3_nat h1 h2
    obtain ⟨k, hk⟩ : ∃ k : Nat, ⌊q⌋ = ((k + 1 : Nat) : Int) := ⟨(⌊q⌋ - 1).toNat, by omega⟩
    obtain ⟨e1, e2⟩ := hin k hk (by omega)
    have e3 : (fin (k : ℚ)).add (fin 1) = fin (⌊q⌋ : ℚ) := by
      simp only [XF.add]
      rw [show (k : ℚ) + 1 = ((k + 1 : Nat) : ℚ) by push_cast; ring, rnd32_natQ (by omega), hk]
      norm_cast
    rw [e1, e2, e3, toU32_nat (by omega), toU32_nat (by omega)]
    refine ⟨by omega, by omega, ?_⟩
    simp only [XF.sub, XF.neg, XF.add]
    have er : rnd32 (q - (⌊q⌋ : ℚ)) = q - (⌊q⌋ : ℚ) :=
      rnd_of_rep (by norm_num) (rep_fract hq (by linarith))
    rw [← sub_eq_add_neg, er]

/-- C130: bicubic interpolation in `f32` on 8-bit images of at most 16777216 columns and rows is within
two levels of the same computation over exact numbers, and uses the default colour in exactly the same
places. -/
theorem C130_bicubic (im : Image Px) (x y : ℚ) (dflt : Px) (hx : Rep 24 (-149) x)
    (hy : Rep 24 (-149) y) (hw : im.w ≤ 16777216) (hh : im.h ≤ 16777216)
    (hpx : ∀ a b c, a < im.w → b < im.h → im.px a b c ≤ 255) :
    ∃ v e, bicubic32 255 im (fin x) (fin y) dflt = some v ∧
      interpolateBicubic 255 im x y dflt = some e ∧
      (¬ (1 ≤ x ∧ x < im.w - 3 ∧ 1 ≤ y ∧ y < im.h - 3) → v = dflt) ∧
      ∀ c, v c ≤ e c + 2 ∧ e c ≤ v c + 2 := by
  rw [bicubic_eq]
  unfold bicubic32 bicubicWith
  dsimp only
  obtain ⟨a1, a2⟩ := axis_bicubic_fin hx hw
  obtain ⟨b1, b2⟩ := axis_bicubic_fin hy hh
  have hc := or4_iff a1 b1
  by_cases c : (1 ≤ x ∧ x < im.w - 3) ∧ 1 ≤ y ∧ y < im.h - 3
  · rw [if_neg (fun h => hc.1 h c), if_pos (show BicubicInside im x y from ⟨c.1.1, c.1.2, c.2.1, c.2.2⟩)]
    obtain ⟨p1, p2, p3⟩ := a2 c.1.1 c.1.2
    obtain ⟨q1, q2, q3⟩ := b2 c.2.1 c.2.2
    obtain ⟨ex0, ex⟩ := inside3_nat c.1.1 c.1.2
    obtain ⟨ey0, ey⟩ := inside3_nat c.2.1 c.2.2
    rw [p1, p3, q1, q2, q3]
    generalize hl : ⌊x⌋.toNat - 1 = l
    generalize ht : ⌊y⌋.toNat - 1 = t
    obtain ⟨col, hcol, hI⟩ := forRange_spec
      (f := fun row (col : Nat → Px) =>
        (unsafeGet im l row).bind fun p0 =>
        (unsafeGet im (l + 1) row).bind fun p1 =>
        (unsafeGet im (l + 2) row).bind fun p2 =>
        (unsafeGet im (l + 3) row).bind fun p3 =>
        (csub row t).bind fun k =>
        if k < 4 then
          some (fun i => if i = k then blendCubic32 255 p0 p1 p2 p3 (fin (x - ⌊x⌋)) else col i)
        else none)
      (fun row (col : Nat → Px) => ∀ i, t + i < row → col i = blendCubic32 255 (im.px l (t + i))
        (im.px (l + 1) (t + i)) (im.px (l + 2) (t + i)) (im.px (l + 3) (t + i)) (fin (x - ⌊x⌋)))
      (lo := t) (hi := t + 4) (s := fun _ => dflt) (by omega) (by intro i hi; omega)
      (by
        intro row col hr1 hr2 hI
        rw [unsafeGet_inB (by omega) (by omega), Option.bind_some,
          unsafeGet_inB (by omega) (by omega), Option.bind_some,
          unsafeGet_inB (by omega) (by omega), Option.bind_some,
          unsafeGet_inB (by omega) (by omega), Option.bind_some,
          csub_of_le hr1, Option.bind_some, if_pos (by omega)]
        refine ⟨_, rfl, ?_⟩
        intro i hi
        by_cases hk : i = row - t
        · rw [if_pos hk, show t + i = row by omega]
        · rw [if_neg hk]
          exact hI i (by omega))
    rw [hcol, Option.bind_some]
    refine ⟨_, _, rfl, rfl, fun h => absurd ⟨c.1.1, c.1.2, c.2.1, c.2.2⟩ h, fun ch => ?_⟩
    obtain ⟨w0, w1⟩ := fract_bounds x
    obtain ⟨v0, v1⟩ := fract_bounds y
    -- the rows differ by at most one level
    have hrow : ∀ i, i < 4 → col i ch ≤ bicubicRow 255 im x (t + i) ch + 1 ∧
        bicubicRow 255 im x (t + i) ch ≤ col i ch + 1 := by
      intro i hi
      rw [hI i (by omega)]
      unfold bicubicRow
      rw [hl]
      refine blendCubic32_close (a := fun j => im.px (l + min j 3) (t + i))
        (b := fun j => im.px (l + min j 3) (t + i)) (fun j => hpx _ _ _ (by omega) (by omega)) w0 w1 0
        (by norm_num) (by rw [sub_self, abs_zero])
    have hcol255 : ∀ i, i < 4 → col i ch ≤ 255 := by
      intro i hi
      rw [hI i (by omega)]
      obtain ⟨z, hz, _⟩ := cubic32_error (hpx l (t + i) ch (by omega) (by omega))
        (hpx (l + 1) (t + i) ch (by omega) (by omega)) (hpx (l + 2) (t + i) ch (by omega) (by omega))
        (hpx (l + 3) (t + i) ch (by omega) (by omega)) w0 w1
      unfold blendCubic32
      rw [hz, clamp_eq (by norm_num)]
      exact clampSub_le _ _
    unfold bicubicVal
    rw [ht]
    refine blendCubic32_close (a := fun j => col (min j 3)) (b := fun j => bicubicRow 255 im x (t + min j 3))
      (fun j => hcol255 _ (by omega)) v0 v1 (5 / 4) (by norm_num) ?_
    refine cubic_close (p := fun j => (col (min j 3) ch : ℚ))
      (q := fun j => (bicubicRow 255 im x (t + min j 3) ch : ℚ)) (fun j => ?_) v0 v1
    obtain ⟨r1, r2⟩ := hrow (min j 3) (by omega)
    have r1' : (col (min j 3) ch : ℚ) ≤ bicubicRow 255 im x (t + min j 3) ch + 1 := by exact_mod_cast r1
    have r2' : (bicubicRow 255 im x (t + min j 3) ch : ℚ) ≤ col (min j 3) ch + 1 := by exact_mod_cast r2
    rw [abs_le]
    constructor <;> linarith
  · rw [if_pos (hc.2 c), if_neg (fun h : BicubicInside im x y => c ⟨⟨h.1, h.2.1⟩, h.2.2⟩)]
    exact ⟨_, _, rfl, rfl, fun _ => rfl, fun ch => ⟨by omega, by omega⟩⟩

/-- A position at which bicubic interpolation reads the image. -/
example : (bicubic32 255 ⟨6, 6, fun x y _ => 20 * x + y⟩ (fin (3 / 2)) (fin 1) (fun _ => 0)).map (· 0) =
    some 31 := by decide +kernel

end Verif.Float
