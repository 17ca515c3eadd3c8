import Verif.Float.WarpSafe
/-
Property C129: warping by a whole number of pixels in `f32`.
-/
namespace Verif.Float
open Verif.Definitions Verif.Geom XF

theorem rnd32_zeroQ : rnd32 (0 : ℚ) = 0 := rnd_zero

/-- A whole number rounded to `f32`. -/
theorem coord_cases (d : Int) :
    (d.natAbs ≤ 16777216 ∧ rnd32 (d : ℚ) = d) ∨ (16777216 < d ∧ 16777216 ≤ rnd32 (d : ℚ)) ∨
      (d < -16777216 ∧ rnd32 (d : ℚ) ≤ -16777216) := by
  by_cases h : d.natAbs ≤ 16777216
  · exact .inl ⟨h, rnd32_int (by have : |d| = (d.natAbs : Int) := Int.abs_eq_natAbs d; rw [this]; norm_num; omega)⟩
  · by_cases h0 : 0 < d
    · refine .inr (.inl ⟨by omega, ?_⟩)
      exact le_rnd (by norm_num) ⟨16777216, 0, by norm_num, by norm_num, by norm_num⟩
        (by exact_mod_cast (by omega : (16777216 : Int) ≤ d))
    · refine .inr (.inr ⟨by omega, ?_⟩)
      exact rnd_le (by norm_num) ⟨-16777216, 0, by norm_num, by norm_num, by norm_num⟩
        (by exact_mod_cast (by omega : d ≤ (-16777216 : Int)))

theorem rep_natQ {n : Nat} (h : n ≤ 2 ^ 24) : Rep (K := ℚ) 24 (-149) (n : ℚ) :=
  ⟨n, 0, by rw [abs_of_nonneg (by omega)]; exact_mod_cast h, by norm_num, by simp⟩

theorem le_trunc {q : ℚ} {n : Nat} (h : (n : ℚ) ≤ q) : n ≤ (truncQ q).toNat := by
  have h0 : 0 ≤ q := le_trans (by positivity) h
  unfold truncQ
  rw [if_pos h0]
  have : (n : Int) ≤ ⌊q⌋ := Int.le_floor.2 (by exact_mod_cast h)
  omega

theorem le_toU32 {q : ℚ} {n : Nat} (h : (n : ℚ) ≤ q) (hn : n ≤ 4294967295) : n ≤ (fin q).toU32 := by
  have := le_trunc h
  show n ≤ min _ _
  omega

/-- Position of the pixel read by nearest-neighbour interpolation, along one axis. -/
theorem axis_nearest (d : Int) {n : Nat} (hn : n ≤ 8388608) :
    (fin (rnd32 (d : ℚ))).lt (fin (-1 / 2)) = decide (d < 0) ∧
    (0 ≤ d → d < n → ((fin (rnd32 (d : ℚ))).add (fin (1 / 2))).toU32 = d.toNat) ∧
    (n ≤ d → n ≤ ((fin (rnd32 (d : ℚ))).add (fin (1 / 2))).toU32) := by
  simp only [XF.lt, XF.add]
  refine ⟨?_, ?_, ?_⟩
  · congr 1
    rw [eq_iff_iff]
    rcases coord_cases d with ⟨h, e⟩ | ⟨h, e⟩ | ⟨h, e⟩
    · rw [e]
      constructor
      · intro hc
        have : (d : ℚ) < ((0 : Int) : ℚ) := by push_cast; linarith
        exact_mod_cast this
      · intro hc
        have : (d : ℚ) ≤ ((-1 : Int) : ℚ) := by exact_mod_cast (by omega : d ≤ -1)
        push_cast at this
        linarith
    · constructor
      · intro hc; linarith
      · intro hc; omega
    · constructor
      · intro hc; omega
      · intro hc; linarith
  · intro h0 h1
    obtain ⟨k, rfl⟩ := Int.eq_ofNat_of_zero_le h0
    have hk : k < n := by omega
    rw [Int.cast_natCast, rnd32_natQ (by omega), Int.toNat_natCast]
    have e : rnd32 ((k : ℚ) + 1 / 2) = (k : ℚ) + 1 / 2 := by
      refine rnd_of_rep (by norm_num) ⟨2 * k + 1, -1, ?_, by norm_num, ?_⟩
      · rw [abs_of_nonneg (by omega)]; norm_num; omega
      · push_cast; ring
    rw [e]
    have t : (truncQ ((k : ℚ) + 1 / 2)).toNat = k := by
      unfold truncQ
      rw [if_pos (by positivity)]
      have : ⌊(k : ℚ) + 1 / 2⌋ = k := by
        rw [Int.floor_eq_iff]
        constructor <;> push_cast <;> linarith
      rw [this, Int.toNat_natCast]
    show min _ _ = k
    rw [t]
    omega
  · intro h
    have hc : (n : ℚ) ≤ rnd32 (d : ℚ) := le_rnd (by norm_num) (rep_natQ (by omega)) (by exact_mod_cast h)
    exact le_toU32 (le_rnd (by norm_num) (rep_natQ (by omega)) (by linarith)) (by omega)

/-- Rows or columns read by bilinear interpolation at a whole number. -/
theorem axis_bilinear_int (d : Int) {n : Nat} (hn : n ≤ 16777216) :
    (((fin (rnd32 (d : ℚ))).floor.lt (fin 0) = false ∧
      (ofNat n).le ((fin (rnd32 (d : ℚ))).floor.add (fin 1)) = false) ↔ 0 ≤ d ∧ d + 1 < n) ∧
    (0 ≤ d → d + 1 < n → (fin (rnd32 (d : ℚ))).floor.toU32 = d.toNat ∧
      ((fin (rnd32 (d : ℚ))).floor.add (fin 1)).toU32 = d.toNat + 1 ∧
      (fin (rnd32 (d : ℚ))).sub (fin (rnd32 (d : ℚ))).floor = fin 0) := by
  have hin : 0 ≤ d → d + 1 < n → (fin (rnd32 (d : ℚ))).floor = fin ((d.toNat : Nat) : ℚ) ∧
      (fin (rnd32 (d : ℚ))).floor.add (fin 1) = fin ((d.toNat + 1 : Nat) : ℚ) ∧
      (fin (rnd32 (d : ℚ))).sub (fin (rnd32 (d : ℚ))).floor = fin 0 := by
    intro h0 h1
    obtain ⟨k, rfl⟩ := Int.eq_ofNat_of_zero_le h0
    simp only [Int.cast_natCast, Int.toNat_natCast, XF.floor, XF.add, XF.sub, XF.neg]
    rw [rnd32_natQ (by omega), Int.floor_natCast, Int.cast_natCast, add_neg_cancel,
      rnd32_zeroQ, show (k : ℚ) + 1 = ((k + 1 : Nat) : ℚ) by push_cast; ring, rnd32_natQ (by omega)]
    exact ⟨rfl, rfl, rfl⟩
  refine ⟨⟨?_, ?_⟩, ?_⟩
  · rintro ⟨h1, h2⟩
    simp only [XF.floor, XF.lt, XF.add, ofNat, XF.le, decide_eq_false_iff_not, not_lt, not_le] at h1 h2
    rw [rnd32_natQ hn] at h2
    rcases coord_cases d with ⟨h, e⟩ | ⟨h, e⟩ | ⟨h, e⟩
    · rw [e, Int.floor_intCast] at h1 h2
      refine ⟨by exact_mod_cast h1, ?_⟩
      by_contra hc
      have : (n : ℚ) ≤ rnd32 ((d : ℚ) + 1) := le_rnd (by norm_num) (rep_natQ (by omega))
        (by exact_mod_cast (by omega : (n : Int) ≤ d + 1))
      linarith
    · exfalso
      have f1 : (16777216 : Int) ≤ ⌊rnd32 (d : ℚ)⌋ := Int.le_floor.2 (by exact_mod_cast e)
      have f2 : ((16777216 : Int) : ℚ) ≤ (⌊rnd32 (d : ℚ)⌋ : ℚ) := by exact_mod_cast f1
      have : (n : ℚ) ≤ rnd32 ((⌊rnd32 (d : ℚ)⌋ : ℚ) + 1) := le_rnd (by norm_num) (rep_natQ (by omega)) (by
          have : (n : ℚ) ≤ 16777216 := by exact_mod_cast hn
          push_cast at f2
          linarith)
      linarith
    · exfalso
      have := Int.floor_le (rnd32 (d : ℚ))
      linarith
  · rintro ⟨h1, h2⟩
    obtain ⟨e1, e2, _⟩ := hin h1 h2
    rw [e2, e1]
    simp only [XF.lt, ofNat, XF.le, decide_eq_false_iff_not, not_lt, not_le]
    rw [rnd32_natQ hn]
    exact ⟨by positivity, by exact_mod_cast (by omega)⟩
  · intro h1 h2
    obtain ⟨e1, e2, e3⟩ := hin h1 h2
    refine ⟨?_, ?_, e3⟩
    · rw [e1, toU32_nat (by omega)]
    · rw [e2, toU32_nat (by omega)]

/-- Rows or columns read by bicubic interpolation at a whole number. -/
theorem axis_bicubic_int (d : Int) {n : Nat} (hn : n ≤ 16777216) :
    ((((fin (rnd32 (d : ℚ))).floor.sub (fin 1)).lt (fin 0) = false ∧
      (ofNat n).le (((fin (rnd32 (d : ℚ))).floor.sub (fin 1)).add (fin 4)) = false) ↔
        1 ≤ d ∧ d + 3 < n) ∧
    (1 ≤ d → d + 3 < n → ((fin (rnd32 (d : ℚ))).floor.sub (fin 1)).toU32 = d.toNat - 1 ∧
      (((fin (rnd32 (d : ℚ))).floor.sub (fin 1)).add (fin 4)).toU32 = d.toNat - 1 + 4 ∧
      (fin (rnd32 (d : ℚ))).sub (((fin (rnd32 (d : ℚ))).floor.sub (fin 1)).add (fin 1)) = fin 0) := by
  have hin : 1 ≤ d → d + 3 < n → (fin (rnd32 (d : ℚ))).floor.sub (fin 1) = fin ((d.toNat - 1 : Nat) : ℚ) ∧
      ((fin (rnd32 (d : ℚ))).floor.sub (fin 1)).add (fin 4) = fin ((d.toNat - 1 + 4 : Nat) : ℚ) ∧
      (fin (rnd32 (d : ℚ))).sub (((fin (rnd32 (d : ℚ))).floor.sub (fin 1)).add (fin 1)) = fin 0 := by
    intro h0 h1
    obtain ⟨k, rfl⟩ : ∃ k : Nat, d = ((k + 1 : Nat) : Int) := ⟨(d - 1).toNat, by omega⟩
    have hk : (((k + 1 : Nat) : Int)).toNat - 1 = k := by omega
    rw [hk, Int.cast_natCast, rnd32_natQ (by omega)]
    obtain ⟨a, b⟩ := bicubic_rows (t := k) (by omega)
    rw [a, b]
    refine ⟨rfl, rfl, ?_⟩
    simp only [XF.add, XF.sub, XF.neg]
    rw [show (k : ℚ) + 1 = ((k + 1 : Nat) : ℚ) by push_cast; ring, rnd32_natQ (by omega), add_neg_cancel,
      rnd32_zeroQ]
  refine ⟨⟨?_, ?_⟩, ?_⟩
  · rintro ⟨h1, h2⟩
    simp only [XF.floor, XF.lt, XF.sub, XF.neg, XF.add, ofNat, XF.le, decide_eq_false_iff_not, not_lt,
      not_le] at h1 h2
    rw [rnd32_natQ hn] at h2
    have hn' : (n : ℚ) ≤ 16777216 := by exact_mod_cast hn
    rcases coord_cases d with ⟨h, e⟩ | ⟨h, e⟩ | ⟨h, e⟩
    · rw [e, Int.floor_intCast] at h1 h2
      have e1 : rnd32 ((d : ℚ) + -1) = ((d - 1 : Int) : ℚ) ∨ d = -16777216 := by
        by_cases hd : d = -16777216
        · exact .inr hd
        · left
          rw [show (d : ℚ) + -1 = ((d - 1 : Int) : ℚ) by push_cast; ring]
          exact rnd32_int (by have : |d - 1| = ((d - 1).natAbs : Int) := Int.abs_eq_natAbs _; rw [this]; norm_num; omega)
      rcases e1 with e1 | e1
      · rw [e1] at h1 h2
        have h1' : 0 ≤ d - 1 := by exact_mod_cast h1
        refine ⟨by omega, ?_⟩
        by_contra hc
        have : (n : ℚ) ≤ rnd32 (((d - 1 : Int) : ℚ) + 4) := le_rnd (by norm_num) (rep_natQ (by omega)) (by
          have : (n : Int) ≤ d - 1 + 4 := by omega
          exact_mod_cast this)
        linarith
      · exfalso
        have : rnd32 ((d : ℚ) + -1) ≤ -1 := rnd_le (by norm_num)
          ⟨-1, 0, by norm_num, by norm_num, by norm_num⟩ (by rw [e1]; norm_num)
        linarith
    · exfalso
      have f1 : (16777216 : Int) ≤ ⌊rnd32 (d : ℚ)⌋ := Int.le_floor.2 (by exact_mod_cast e)
      have f2 : ((16777216 : Int) : ℚ) ≤ (⌊rnd32 (d : ℚ)⌋ : ℚ) := by exact_mod_cast f1
      push_cast at f2
      have f3 : ((16777215 : Nat) : ℚ) ≤ rnd32 ((⌊rnd32 (d : ℚ)⌋ : ℚ) + -1) :=
        le_rnd (by norm_num) (rep_natQ (by norm_num)) (by push_cast; linarith)
      push_cast at f3
      have : (n : ℚ) ≤ rnd32 (rnd32 ((⌊rnd32 (d : ℚ)⌋ : ℚ) + -1) + 4) :=
        le_rnd (by norm_num) (rep_natQ (by omega)) (by linarith)
      linarith
    · exfalso
      have := Int.floor_le (rnd32 (d : ℚ))
      have : rnd32 ((⌊rnd32 (d : ℚ)⌋ : ℚ) + -1) ≤ -1 := rnd_le (by norm_num)
          ⟨-1, 0, by norm_num, by norm_num, by norm_num⟩ (by linarith)
      linarith
  · rintro ⟨h1, h2⟩
    obtain ⟨e1, e2, _⟩ := hin h1 h2
    rw [e2, e1]
    simp only [XF.lt, ofNat, XF.le, decide_eq_false_iff_not, not_lt, not_le]
    rw [rnd32_natQ hn]
    exact ⟨by positivity, by exact_mod_cast (by omega)⟩
  · intro h1 h2
    obtain ⟨e1, e2, e3⟩ := hin h1 h2
    refine ⟨?_, ?_, e3⟩
    · rw [e1, toU32_nat (by omega)]
    · rw [e2, toU32_nat (by omega)]

theorem clamp_nat {mx u : Nat} (h : u ≤ mx) (hm : mx ≤ 65535) : clamp mx (fin (u : ℚ)) = u := by
  unfold clamp
  rw [ofNat_int (by omega)]
  simp only [XF.lt, decide_eq_true_eq, Nat.cast_lt]
  by_cases h1 : u < mx
  · rw [if_pos h1]
    by_cases h2 : (0 : ℚ) < (u : ℚ)
    · rw [if_pos h2, toU32_nat (by omega)]
    · rw [if_neg h2]
      have : ¬ 0 < u := by exact_mod_cast h2
      omega
  · rw [if_neg h1]
    omega

theorem rnd32_oneQ : rnd32 (1 : ℚ) = 1 :=
  rnd_of_rep (by norm_num) ⟨1, 0, by norm_num, by norm_num, by norm_num⟩

theorem mix32_zero {mx u v : Nat} (h : u ≤ mx) (hv : v ≤ mx) (hm : mx ≤ 65535) :
    mix32 mx u v (fin 0) = u := by
  unfold mix32
  rw [ofNat_int (by omega), ofNat_int (by omega)]
  simp only [XF.sub, XF.neg, XF.add, XF.mul]
  rw [neg_zero, add_zero, rnd32_oneQ, one_mul, zero_mul, rnd32_zeroQ, rnd32_natQ (by omega), add_zero,
    rnd32_natQ (by omega), clamp_nat h hm]

theorem blendCubic32_zero {mx : Nat} (p0 p1 p2 p3 : Px) (c : Nat) (h0 : p0 c ≤ mx) (h : p1 c ≤ mx)
    (h2 : p2 c ≤ mx) (h3 : p3 c ≤ mx) (hm : mx ≤ 65535) :
    blendCubic32 mx p0 p1 p2 p3 (fin 0) c = p1 c := by
  unfold blendCubic32 cubic32
  rw [ofNat_int (by omega), ofNat_int (by omega), ofNat_int (by omega), ofNat_int (by omega)]
  simp only [XF.sub, XF.neg, XF.add, XF.mul]
  rw [mul_zero, rnd32_zeroQ, zero_mul, rnd32_zeroQ, add_zero, rnd32_natQ (by omega), clamp_nat h hm]

theorem warpIntoWith32_spec (mx : Nat) (im : Image Px) (mapping : XF → XF → XF × XF) (i : Interpolation)
    (dflt : Px) (out : Image Px) (val : Nat → Nat → Px) (hw : 0 < out.w)
    (hv : ∀ x y, x < out.w → y < out.h →
      interp32 mx i im dflt (mapping (ofNat x) (ofNat y)).1 (mapping (ofNat x) (ofNat y)).2 =
        some (val x y)) :
    ∃ r, warpIntoWith32 mx im mapping i dflt out = some r ∧ r.w = out.w ∧ r.h = out.h ∧
      ∀ x y : Nat, x < out.w → y < out.h → r.px x y = val x y := by
  unfold warpIntoWith32
  rw [if_neg (by omega)]
  refine raster_put val rfl rfl ?_
  intro x y o hx hy ho1 ho2 _ _
  rw [hv x y hx hy, Option.bind_some]

theorem shift_coord {x : Nat} (hx : x ≤ 2 ^ 24) (tx : Int) :
    (ofNat x).add (fin (-(tx : ℚ))) = fin (rnd32 (((x - tx : Int)) : ℚ)) := by
  rw [ofNat_int hx]
  simp only [XF.add]
  congr 2
  push_cast; ring

/-- C129: nearest-neighbour warping by a translation of whole pixels, however large, moves every
pixel of an image of at most 8388608 columns and rows exactly. -/
theorem C129_nearest_partial (mx : Nat) (im : Image Px) (tx ty : Int) (dflt : Px) (hw : 0 < im.w)
    (hw' : im.w ≤ 8388608) (hh' : im.h ≤ 8388608) :
    ∃ r, warpTranslate32 mx im tx ty .nearest dflt = some r ∧ r.w = im.w ∧ r.h = im.h ∧
      ∀ x y : Nat, x < im.w → y < im.h → r.px x y =
        if 0 ≤ (x : Int) - tx ∧ (x : Int) - tx < im.w ∧ 0 ≤ (y : Int) - ty ∧ (y : Int) - ty < im.h then
          im.px (x - tx).toNat (y - ty).toNat
        else dflt := by
  refine warpIntoWith32_spec mx im (fun x y => (x.add (fin (-(tx : ℚ))), y.add (fin (-(ty : ℚ))))) .nearest
    dflt (Image.new im.w im.h fun _ => 0)
    (fun x y => if 0 ≤ (x : Int) - tx ∧ (x : Int) - tx < im.w ∧ 0 ≤ (y : Int) - ty ∧ (y : Int) - ty < im.h then
      im.px ((x : Int) - tx).toNat ((y : Int) - ty).toNat else dflt) hw ?_
  intro x y hx hy
  have hx : x < im.w := hx
  have hy : y < im.h := hy
  dsimp only
  rw [shift_coord (by omega), shift_coord (by omega)]
  show nearest32 im _ _ dflt = _
  unfold nearest32
  obtain ⟨a1, a2, a3⟩ := axis_nearest (x - tx) hw'
  obtain ⟨b1, b2, b3⟩ := axis_nearest (y - ty) hh'
  rw [a1, b1]
  dsimp only
  simp only [Bool.or_eq_true, decide_eq_true_eq]
  generalize (x : Int) - tx = d at *
  generalize (y : Int) - ty = e at *
  by_cases c1 : d < 0 ∨ e < 0
  · rw [if_pos c1, if_neg (by omega)]
  · rw [if_neg c1]
    by_cases c2 : d < im.w ∧ e < im.h
    · rw [if_pos (by omega : 0 ≤ d ∧ d < im.w ∧ 0 ≤ e ∧ e < im.h), a2 (by omega) (by omega), b2 (by omega) (by omega), if_neg (by omega),
        unsafeGet_inB (by omega) (by omega)]
    · rw [if_neg (by omega : ¬ (0 ≤ d ∧ d < im.w ∧ 0 ≤ e ∧ e < im.h)), if_pos]
      by_cases c3 : d < im.w
      · exact .inr (b3 (by omega))
      · exact .inl (a3 (by omega))

theorem or4_iff {a b c d : Bool} {P Q : Prop} (h1 : (a = false ∧ b = false) ↔ P)
    (h2 : (c = false ∧ d = false) ↔ Q) : (a || b || c || d) = true ↔ ¬ (P ∧ Q) := by
  rw [← h1, ← h2]
  cases a <;> cases b <;> cases c <;> cases d <;> simp

/-- C129: bilinear warping by a translation of whole pixels copies every pixel exactly, except that
the last column and row are treated as outside (as in exact arithmetic, see C27). -/
theorem C129_bilinear_partial (mx : Nat) (im : Image Px) (tx ty : Int) (dflt : Px) (hw : 0 < im.w)
    (hw' : im.w ≤ 16777216) (hh' : im.h ≤ 16777216) (hm : mx ≤ 65535)
    (hpx : ∀ a b c, a < im.w → b < im.h → im.px a b c ≤ mx) :
    ∃ r, warpTranslate32 mx im tx ty .bilinear dflt = some r ∧ r.w = im.w ∧ r.h = im.h ∧
      ∀ x y : Nat, x < im.w → y < im.h → r.px x y =
        if (0 ≤ (x : Int) - tx ∧ (x : Int) - tx + 1 < im.w) ∧
            0 ≤ (y : Int) - ty ∧ (y : Int) - ty + 1 < im.h then
          im.px (x - tx).toNat (y - ty).toNat
        else dflt := by
  refine warpIntoWith32_spec mx im (fun x y => (x.add (fin (-(tx : ℚ))), y.add (fin (-(ty : ℚ))))) .bilinear
    dflt (Image.new im.w im.h fun _ => 0)
    (fun x y => if (0 ≤ (x : Int) - tx ∧ (x : Int) - tx + 1 < im.w) ∧
        0 ≤ (y : Int) - ty ∧ (y : Int) - ty + 1 < im.h then
      im.px ((x : Int) - tx).toNat ((y : Int) - ty).toNat else dflt) hw ?_
  intro x y hx hy
  have hx : x < im.w := hx
  have hy : y < im.h := hy
  dsimp only
  rw [shift_coord (by omega), shift_coord (by omega)]
  show bilinear32 mx im _ _ dflt = _
  unfold bilinear32
  dsimp only
  obtain ⟨a1, a2⟩ := axis_bilinear_int (x - tx) hw'
  obtain ⟨b1, b2⟩ := axis_bilinear_int (y - ty) hh'
  have hc := or4_iff a1 b1
  generalize (x : Int) - tx = d at *
  generalize (y : Int) - ty = e at *
  by_cases c : (0 ≤ d ∧ d + 1 < im.w) ∧ 0 ≤ e ∧ e + 1 < im.h
  · rw [if_neg (fun h => hc.1 h c), if_pos c]
    obtain ⟨p1, p2, p3⟩ := a2 c.1.1 c.1.2
    obtain ⟨q1, q2, q3⟩ := b2 c.2.1 c.2.2
    rw [p1, p2, p3, q1, q2, q3, unsafeGet_inB (by omega) (by omega), Option.bind_some,
      unsafeGet_inB (by omega) (by omega), Option.bind_some, unsafeGet_inB (by omega) (by omega),
      Option.bind_some, unsafeGet_inB (by omega) (by omega), Option.bind_some]
    congr 1
    funext ch
    unfold blendBilinear32
    dsimp only
    have g : ∀ a b, a < im.w → b < im.h → im.px a b ch ≤ mx := fun a b ha hb => hpx a b ch ha hb
    have g1 := g d.toNat e.toNat (by omega) (by omega)
    have g2 := g (d.toNat + 1) e.toNat (by omega) (by omega)
    have g3 := g d.toNat (e.toNat + 1) (by omega) (by omega)
    have g4 := g (d.toNat + 1) (e.toNat + 1) (by omega) (by omega)
    rw [mix32_zero g1 g2 hm, mix32_zero g3 g4 hm, mix32_zero g1 g3 hm]
  · rw [if_pos (hc.2 c), if_neg c]

/-- C129: bicubic warping by a translation of whole pixels copies every pixel exactly, except that
the first column and row and the last three are treated as outside (as in exact arithmetic, see C27). -/
theorem C129_bicubic_partial (mx : Nat) (im : Image Px) (tx ty : Int) (dflt : Px) (hw : 0 < im.w)
    (hw' : im.w ≤ 16777216) (hh' : im.h ≤ 16777216) (hm : mx ≤ 65535)
    (hpx : ∀ a b c, a < im.w → b < im.h → im.px a b c ≤ mx) :
    ∃ r, warpTranslate32 mx im tx ty .bicubic dflt = some r ∧ r.w = im.w ∧ r.h = im.h ∧
      ∀ x y : Nat, x < im.w → y < im.h → r.px x y =
        if (1 ≤ (x : Int) - tx ∧ (x : Int) - tx + 3 < im.w) ∧
            1 ≤ (y : Int) - ty ∧ (y : Int) - ty + 3 < im.h then
          im.px (x - tx).toNat (y - ty).toNat
        else dflt := by
  refine warpIntoWith32_spec mx im (fun x y => (x.add (fin (-(tx : ℚ))), y.add (fin (-(ty : ℚ))))) .bicubic
    dflt (Image.new im.w im.h fun _ => 0)
    (fun x y => if (1 ≤ (x : Int) - tx ∧ (x : Int) - tx + 3 < im.w) ∧
        1 ≤ (y : Int) - ty ∧ (y : Int) - ty + 3 < im.h then
      im.px ((x : Int) - tx).toNat ((y : Int) - ty).toNat else dflt) hw ?_
  intro x y hx hy
  have hx : x < im.w := hx
  have hy : y < im.h := hy
  dsimp only
  rw [shift_coord (by omega), shift_coord (by omega)]
  show bicubic32 mx im _ _ dflt = _
  unfold bicubic32 bicubicWith
  dsimp only
  obtain ⟨a1, a2⟩ := axis_bicubic_int (x - tx) hw'
  obtain ⟨b1, b2⟩ := axis_bicubic_int (y - ty) hh'
  have hc := or4_iff a1 b1
  generalize (x : Int) - tx = d at *
  generalize (y : Int) - ty = e at *
  by_cases c : (1 ≤ d ∧ d + 3 < im.w) ∧ 1 ≤ e ∧ e + 3 < im.h
  · rw [if_neg (fun h => hc.1 h c), if_pos c]
    obtain ⟨p1, p2, p3⟩ := a2 c.1.1 c.1.2
    obtain ⟨q1, q2, q3⟩ := b2 c.2.1 c.2.2
    rw [p1, p3, q1, q2, q3]
    have g : ∀ a b ch, a < im.w → b < im.h → im.px a b ch ≤ mx := hpx
    generalize hl : d.toNat - 1 = l
    generalize ht : e.toNat - 1 = t
    obtain ⟨col, hcol, hI⟩ := forRange_spec
      (f := fun row (col : Nat → Px) =>
        (unsafeGet im l row).bind fun p0 =>
        (unsafeGet im (l + 1) row).bind fun p1 =>
        (unsafeGet im (l + 2) row).bind fun p2 =>
        (unsafeGet im (l + 3) row).bind fun p3 =>
        (csub row t).bind fun k =>
        if k < 4 then some (fun i => if i = k then blendCubic32 mx p0 p1 p2 p3 (fin 0) else col i)
        else none)
      (fun row (col : Nat → Px) => ∀ i, t + i < row → col i = im.px (l + 1) (t + i))
      (lo := t) (hi := t + 4) (s := fun _ => dflt) (by omega) (by intro i hi; omega)
      (by
        intro row col hr1 hr2 hI
        rw [unsafeGet_inB (by omega) (by omega), Option.bind_some,
          unsafeGet_inB (by omega) (by omega), Option.bind_some,
          unsafeGet_inB (by omega) (by omega), Option.bind_some,
          unsafeGet_inB (by omega) (by omega), Option.bind_some,
          csub_of_le hr1, Option.bind_some, if_pos (by omega)]
        refine ⟨_, rfl, ?_⟩
        intro i hi
        by_cases hk : i = row - t
        · rw [if_pos hk, show t + i = row by omega]
          funext ch
          exact blendCubic32_zero _ _ _ _ ch (g _ _ _ (by omega) (by omega)) (g _ _ _ (by omega) (by omega))
            (g _ _ _ (by omega) (by omega)) (g _ _ _ (by omega) (by omega)) hm
        · rw [if_neg hk]
          exact hI i (by omega))
    rw [hcol, Option.bind_some, hI 0 (by omega), hI 1 (by omega), hI 2 (by omega), hI 3 (by omega)]
    congr 1
    funext ch
    rw [blendCubic32_zero _ _ _ _ ch (g _ _ _ (by omega) (by omega)) (g _ _ _ (by omega) (by omega))
            (g _ _ _ (by omega) (by omega)) (g _ _ _ (by omega) (by omega)) hm,
      show l + 1 = d.toNat by omega, show t + 1 = e.toNat by omega]
  · rw [if_pos (hc.2 c), if_neg c]

/-- C129 is false of the code for wider images: warping by the identity with nearest-neighbour
interpolation puts column 8388610 in place of column 8388609. -/
theorem C129_negation (mx : Nat) (im : Image Px) (dflt : Px) (hw : 8388610 < im.w) (hh : 0 < im.h)
    {r : Image Px} (hr : warpTranslate32 mx im 0 0 .nearest dflt = some r) :
    r.px 8388609 0 = im.px 8388610 0 := by
  have hs : ∀ x y, nearest32 im x y dflt = some ((nearest32 im x y dflt).getD dflt) := by
    intro x y
    obtain ⟨v, e, _⟩ := C128_nearest_safe im x y dflt
    rw [e]; rfl
  obtain ⟨r', h1, _, _, h2⟩ := warpIntoWith32_spec mx im (fun x y => (x.add (fin (-0)), y.add (fin (-0))))
    .nearest dflt (Image.new im.w im.h fun _ => 0) (fun x y => (nearest32 im ((ofNat x).add (fin (-0)))
      ((ofNat y).add (fin (-0))) dflt).getD dflt) (by show 0 < im.w; omega) (fun x y _ _ => hs _ _)
  have e : r = r' := Option.some.inj (hr.symm.trans h1)
  rw [e, h2 8388609 0 (by show _ < im.w; omega) hh]
  have e1 : (ofNat 8388609).add (fin (-0)) = fin 8388609 := by
    rw [ofNat_int (by norm_num)]
    simp only [XF.add]
    rw [neg_zero, add_zero, rnd32_natQ (by norm_num)]
    norm_num
  have e2 : (ofNat 0).add (fin (-0)) = fin 0 := by
    rw [ofNat_int (by norm_num)]
    simp only [XF.add]
    rw [neg_zero, add_zero, rnd32_natQ (by norm_num)]
    norm_num
  rw [e1, e2]
  unfold nearest32
  have t1 : ((fin 8388609).add (fin (1 / 2))).toU32 = 8388610 := by decide +kernel
  have t2 : ((fin 0).add (fin (1 / 2))).toU32 = 0 := by decide +kernel
  rw [if_neg (by decide +kernel)]
  dsimp only
  rw [t1, t2, if_neg (by omega), unsafeGet_inB hw hh]
  rfl

/-- A translation of a small image, all three modes. -/
example : (warpTranslate32 255 ⟨6, 1, fun x _ _ => 10 * x⟩ 2 0 .nearest (fun _ => 99)).map
    (fun r => (List.range 6).map fun x => r.px x 0 0) = some [99, 99, 0, 10, 20, 30] := by decide +kernel

example : (warpTranslate32 255 ⟨6, 6, fun x y _ => 10 * x + y⟩ (-1) 0 .bicubic (fun _ => 99)).map
    (fun r => (List.range 6).map fun x => r.px x 1 0) = some [11, 21, 99, 99, 99, 99] := by decide +kernel

end Verif.Float
