import Verif.Float.WarpModel
/-
Property C128: which pixels the interpolation functions read, in `f32` and for every coordinate
including NaN and the infinities.
-/
namespace Verif.Float
open Verif.Definitions Verif.Geom XF

theorem unsafeGet_inB {im : Image Px} {x y : Nat} (hx : x < im.w) (hy : y < im.h) :
    unsafeGet im x y = some (im.px x y) := by
  unfold unsafeGet
  have h1 : y * im.w + x < im.w * im.h := by nlinarith
  rw [if_pos h1]
  have h2 : (y * im.w + x) % im.w = x := by
    rw [Nat.mul_comm, Nat.mul_add_mod, Nat.mod_eq_of_lt hx]
  have h3 : (y * im.w + x) / im.w = y := by
    rw [Nat.mul_comm, Nat.mul_add_div (by omega), Nat.div_eq_of_lt hx, Nat.add_zero]
  rw [h2, h3]

theorem trunc_toNat_le {q : ℚ} (h : 0 ≤ q) : ((truncQ q).toNat : ℚ) ≤ q := by
  unfold truncQ
  rw [if_pos h]
  have h0 : 0 ≤ ⌊q⌋ := Int.floor_nonneg.2 h
  have : ((⌊q⌋.toNat : Int) : ℚ) = (⌊q⌋ : ℚ) := by rw [Int.toNat_of_nonneg h0]
  rw [← Int.cast_natCast, this]
  exact Int.floor_le q

theorem toU32_lt {q : ℚ} (h : 0 ≤ q) {n : Nat} (hn : q < n) : (fin q).toU32 < n := by
  have := trunc_toNat_le h
  have h2 : ((truncQ q).toNat : ℚ) < n := lt_of_le_of_lt this hn
  have h3 : (truncQ q).toNat < n := by exact_mod_cast h2
  show min _ _ < n
  omega

theorem rep_of_rnd (x : ℚ) : Rep 24 (-149) (rnd32 x) := rep_rnd x

/-- A rounded number below the rounding of `n` is below `n`. -/
theorem lt_of_rnd_lt {r : ℚ} (hr : Rep 24 (-149) r) {n : Nat} (h : r < rnd32 (n : ℚ)) : r < n := by
  by_contra hc
  have := rnd_le (p := 24) (emin := -149) (by norm_num) hr (not_lt.1 hc)
  exact absurd h (not_lt.2 this)

theorem lt_of_rnd_lt' {a : ℚ} {n : Nat} (h : rnd32 a < rnd32 (n : ℚ)) : a < n := by
  by_contra hc
  have := rnd_mono (p := 24) (emin := -149) (by norm_num) (not_lt.1 hc)
  exact absurd h (not_lt.2 this)

/-- The two columns (or rows) read by bilinear interpolation are inside. -/
theorem axis_bilinear (x : XF) {n : Nat} (hn : 0 < n) (h1 : x.floor.lt (fin 0) = false)
    (h2 : (ofNat n).le (x.floor.add (fin 1)) = false) :
    x.floor.toU32 < n ∧ (x.floor.add (fin 1)).toU32 < n := by
  match x with
  | nan => exact ⟨hn, hn⟩
  | inf true => simp [XF.floor, XF.lt] at h1
  | inf false => simp [XF.floor, XF.add, ofNat, XF.le] at h2
  | fin q =>
    simp only [XF.floor, XF.lt, XF.add, ofNat, XF.le, decide_eq_false_iff_not, not_lt, not_le] at h1 h2 ⊢
    have h3 := lt_of_rnd_lt (rep_of_rnd _) h2
    have h4 := lt_of_rnd_lt' h2
    exact ⟨toU32_lt h1 (by linarith), toU32_lt (rnd_nonneg (by linarith)) h3⟩

theorem or4 {a b c d : Bool} (h : ¬ (a || b || c || d) = true) :
    a = false ∧ b = false ∧ c = false ∧ d = false := by
  revert h; cases a <;> cases b <;> cases c <;> cases d <;> simp

/-- C128: nearest-neighbour interpolation reads a pixel of the image or returns the default, for
every coordinate, NaN and the infinities included. -/
theorem C128_nearest_safe (im : Image Px) (x y : XF) (dflt : Px) :
    ∃ v, nearest32 im x y dflt = some v ∧
      (v = dflt ∨ ∃ a b, a < im.w ∧ b < im.h ∧ v = im.px a b) := by
  unfold nearest32
  split
  · exact ⟨_, rfl, .inl rfl⟩
  · dsimp only
    split
    · exact ⟨_, rfl, .inl rfl⟩
    · rename_i h
      rw [not_or] at h
      exact ⟨_, unsafeGet_inB (by omega) (by omega), .inr ⟨_, _, by omega, by omega, rfl⟩⟩

/-- C128: bilinear interpolation of a non-empty image never reads outside the image, for every
coordinate, NaN and the infinities included. -/
theorem C128_bilinear_safe (mx : Nat) (im : Image Px) (x y : XF) (dflt : Px) (hw : 0 < im.w)
    (hh : 0 < im.h) :
    ∃ v, bilinear32 mx im x y dflt = some v ∧
      (v = dflt ∨ ∃ a a' b b' rw bw, a < im.w ∧ a' < im.w ∧ b < im.h ∧ b' < im.h ∧
        v = blendBilinear32 mx (im.px a b) (im.px a' b) (im.px a b') (im.px a' b') rw bw) := by
  unfold bilinear32
  dsimp only
  split
  · exact ⟨_, rfl, .inl rfl⟩
  · rename_i h
    obtain ⟨h1, h2, h3, h4⟩ := or4 h
    obtain ⟨x1, x2⟩ := axis_bilinear x hw h1 h2
    obtain ⟨y1, y2⟩ := axis_bilinear y hh h3 h4
    rw [unsafeGet_inB x1 y1, Option.bind_some, unsafeGet_inB x2 y1, Option.bind_some,
      unsafeGet_inB x1 y2, Option.bind_some, unsafeGet_inB x2 y2, Option.bind_some]
    exact ⟨_, rfl, .inr ⟨_, _, _, _, _, _, x1, x2, y1, y2, rfl⟩⟩

/-- The four columns read by bicubic interpolation are inside unless the coordinate is NaN. -/
theorem axis_bicubic (x : XF) {n : Nat} (hx : x ≠ nan)
    (h1 : (x.floor.sub (fin 1)).lt (fin 0) = false)
    (h2 : (ofNat n).le ((x.floor.sub (fin 1)).add (fin 4)) = false) :
    (x.floor.sub (fin 1)).toU32 + 3 < n := by
  match x with
  | nan => exact absurd rfl hx
  | inf true => simp [XF.floor, XF.lt, XF.sub, XF.add, XF.neg] at h1
  | inf false => simp [XF.floor, XF.add, ofNat, XF.le, XF.sub, XF.neg] at h2
  | fin q =>
    simp only [XF.floor, XF.lt, XF.add, XF.sub, XF.neg, ofNat, XF.le, decide_eq_false_iff_not, not_lt,
      not_le] at h1 h2 ⊢
    have h4 := lt_of_rnd_lt' h2
    have h5 := trunc_toNat_le h1
    have h6 : ((truncQ (rnd32 ((⌊q⌋ : ℚ) + -1))).toNat : ℚ) + 4 < n := by linarith
    have h7 : (truncQ (rnd32 ((⌊q⌋ : ℚ) + -1))).toNat + 4 < n := by exact_mod_cast h6
    show min _ _ + 3 < n
    omega

theorem truncQ_natCast (n : Nat) : (truncQ (n : ℚ)).toNat = n := by
  have := truncQ_int (n : Int)
  rw [Int.cast_natCast] at this
  rw [this, Int.toNat_natCast]

/-- A row visited by bicubic interpolation is not the last row. -/
theorem rows_bicubic (y : XF) {n row : Nat}
    (h2 : (ofNat n).le ((y.floor.sub (fin 1)).add (fin 4)) = false)
    (hr : row < ((y.floor.sub (fin 1)).add (fin 4)).toU32) : row + 1 < n := by
  match y with
  | nan => simp [XF.floor, XF.add, XF.sub, XF.neg, XF.toU32] at hr
  | inf true => simp [XF.floor, XF.add, XF.sub, XF.neg, XF.toU32] at hr
  | inf false => simp [XF.floor, XF.add, ofNat, XF.le, XF.sub, XF.neg] at h2
  | fin q =>
    simp only [XF.floor, XF.add, XF.sub, XF.neg, ofNat, XF.le, decide_eq_false_iff_not,
      not_le] at h2 hr
    have h3 := lt_of_rnd_lt (rep_of_rnd _) h2
    set b := rnd32 (rnd32 ((⌊q⌋ : ℚ) + -1) + 4)
    have hr' : row < min (truncQ b).toNat 4294967295 := hr
    have h0 : 0 ≤ b := by
      by_contra hc
      have : truncQ b ≤ 0 := by
        unfold truncQ
        rw [if_neg hc]
        exact Int.ceil_le.2 (by push_cast; linarith)
      omega
    have h4 := toU32_lt h0 h3
    have h5 : min (truncQ b).toNat 4294967295 < n := h4
    omega

theorem rnd32_16777217 : rnd32 (16777217 : ℚ) = 16777216 := by decide +kernel
theorem rnd32_16777219 : rnd32 (16777219 : ℚ) = 16777220 := by decide +kernel
theorem rnd32_16777221 : rnd32 (16777221 : ℚ) = 16777220 := by decide +kernel
theorem rnd32_16777220 : rnd32 (16777220 : ℚ) = 16777220 := by decide +kernel
theorem rnd32_16777222 : rnd32 (16777222 : ℚ) = 16777222 := by decide +kernel
theorem rnd32_16777218 : rnd32 (16777218 : ℚ) = 16777218 := by decide +kernel

/-- Bicubic interpolation visits at most four rows if the image has at most 16777221 rows. -/
theorem span_bicubic (y : XF) {n : Nat} (hn : n ≤ 16777221)
    (h1 : (y.floor.sub (fin 1)).lt (fin 0) = false)
    (h2 : (ofNat n).le ((y.floor.sub (fin 1)).add (fin 4)) = false) :
    ((y.floor.sub (fin 1)).add (fin 4)).toU32 ≤ (y.floor.sub (fin 1)).toU32 + 4 := by
  match y with
  | nan => simp [XF.floor, XF.add, XF.sub, XF.neg, XF.toU32]
  | inf true => simp [XF.floor, XF.add, XF.sub, XF.neg, XF.toU32]
  | inf false => simp [XF.floor, XF.add, ofNat, XF.le, XF.sub, XF.neg] at h2
  | fin q =>
    simp only [XF.floor, XF.add, XF.sub, XF.neg, ofNat, XF.le, XF.lt, decide_eq_false_iff_not,
      not_le, not_lt] at h1 h2 ⊢
    have hb : rnd32 (n : ℚ) ≤ 16777220 := by
      rw [← rnd32_16777221]
      exact rnd_mono (by norm_num) (by exact_mod_cast hn)
    by_cases hq : ⌊q⌋ - 1 ≤ 16777215
    · by_cases hq0 : ⌊q⌋ - 1 < 0
      · have : rnd32 ((⌊q⌋ : ℚ) + -1) ≤ -1 := by
          refine rnd_le (by norm_num) ⟨-1, 0, by norm_num, by norm_num, by norm_num⟩ ?_
          have : ((⌊q⌋ - 1 : Int) : ℚ) < ((0 : Int) : ℚ) := by exact_mod_cast hq0
          have : (⌊q⌋ - 1 : Int) ≤ -1 := by omega
          have : ((⌊q⌋ - 1 : Int) : ℚ) ≤ ((-1 : Int) : ℚ) := by exact_mod_cast this
          push_cast at this
          linarith
        linarith
      obtain ⟨t, ht⟩ := Int.eq_ofNat_of_zero_le (not_lt.1 hq0)
      have e : (⌊q⌋ : ℚ) + -1 = ((t : Int) : ℚ) := by
        rw [show ((t : Int) : ℚ) = ((⌊q⌋ - 1 : Int) : ℚ) by rw [ht]]
        push_cast; ring
      have ht' : t ≤ 16777215 := by omega
      have e1 : rnd32 ((⌊q⌋ : ℚ) + -1) = (t : ℚ) := by
        rw [e, rnd32_int (by rw [abs_of_nonneg (by omega)]; norm_num; omega)]
        rfl
      rw [e1] at h2 ⊢
      have key : rnd32 ((t : ℚ) + 4) ≤ ((t + 4 : Nat) : ℚ) := by
        by_cases c1 : t ≤ 16777212
        · have := rnd32_int (n := (t + 4 : Nat)) (by
            rw [abs_of_nonneg (by omega)]; push_cast; omega)
          push_cast at this ⊢
          rw [this]
        · have : t = 16777213 ∨ t = 16777214 ∨ t = 16777215 := by omega
          rcases this with rfl | rfl | rfl
          · have : rnd32 (((16777213 : Nat) : ℚ) + 4) = 16777216 := by
              rw [← rnd32_16777217]; norm_num
            rw [this]; norm_num
          · have : rnd32 (((16777214 : Nat) : ℚ) + 4) = 16777218 := by
              rw [← rnd32_16777218]; norm_num
            rw [this]; norm_num
          · have : rnd32 (((16777215 : Nat) : ℚ) + 4) = 16777220 := by
              rw [← rnd32_16777219]; norm_num
            rw [this] at h2
            linarith
      have k2 : ((truncQ (rnd32 ((t : ℚ) + 4))).toNat : ℚ) ≤ ((t + 4 : Nat) : ℚ) :=
        le_trans (trunc_toNat_le (rnd_nonneg (by positivity))) key
      have k3 : (truncQ (rnd32 ((t : ℚ) + 4))).toNat ≤ t + 4 := by exact_mod_cast k2
      show min _ _ ≤ min (truncQ (t : ℚ)).toNat 4294967295 + 4
      rw [truncQ_natCast]
      omega
    · exfalso
      have c1 : ((16777216 : Int) : ℚ) ≤ ((⌊q⌋ - 1 : Int) : ℚ) := by
        exact_mod_cast (by omega : (16777216 : Int) ≤ ⌊q⌋ - 1)
      push_cast at c1
      have c2 : (16777216 : ℚ) ≤ rnd32 ((⌊q⌋ : ℚ) + -1) :=
        le_rnd (by norm_num) ⟨16777216, 0, by norm_num, by norm_num, by norm_num⟩ (by linarith)
      have c3 : (16777220 : ℚ) ≤ rnd32 (rnd32 ((⌊q⌋ : ℚ) + -1) + 4) := by
        rw [← rnd32_16777220]
        exact rnd_mono (by norm_num) (by linarith)
      linarith

theorem unsafeGet_flat {im : Image Px} {x y : Nat} (h : y * im.w + x < im.w * im.h) :
    ∃ v, unsafeGet im x y = some v := ⟨_, if_pos h⟩

theorem forRange_congr {σ : Type _} {f g : Nat → σ → Option σ} {lo hi : Nat} (s : σ)
    (h : ∀ i s, lo ≤ i → i < hi → f i s = g i s) : forRange lo hi s f = forRange lo hi s g := by
  by_cases hle : lo ≤ hi
  · induction hi, hle using Nat.le_induction with
    | base => rw [forRange_empty le_rfl, forRange_empty le_rfl]
    | succ n hn ih =>
      rw [forRange_succ_last hn, forRange_succ_last hn, ih fun i s h1 h2 => h i s h1 (by omega)]
      congr 1
      funext s
      exact h n s hn (by omega)
  · rw [forRange_empty (by omega), forRange_empty (by omega)]

/-- C128: bicubic interpolation at a position that is not NaN never reads outside the image: checking
every access would change nothing, for images of every size. -/
theorem C128_bicubic_reads (mx : Nat) (im : Image Px) (x y : XF) (dflt : Px) (hx : x ≠ nan) :
    bicubic32 mx im x y dflt = bicubicWith im.get mx im.w im.h x y dflt := by
  unfold bicubic32 bicubicWith
  dsimp only
  split
  · rfl
  · rename_i h
    obtain ⟨h1, h2, h3, h4⟩ := or4 h
    have hc := axis_bicubic x hx h1 h2
    congr 1
    refine forRange_congr _ ?_
    intro row col r1 r2
    have hr := rows_bicubic y h4 r2
    have k : ∀ j, j ≤ 3 → unsafeGet im ((x.floor.sub (fin 1)).toU32 + j) row =
        im.get ((x.floor.sub (fin 1)).toU32 + j) row := by
      intro j hj
      rw [unsafeGet_inB (by omega) (by omega), Image.get_of_inB (by omega) (by omega)]
    have k0 := k 0 (by omega)
    rw [Nat.add_zero] at k0
    rw [k0, k 1 (by omega), k 2 (by omega), k 3 (by omega)]

/-- C128 (partial: at most 16777221 rows, and two columns if the position may be NaN): bicubic
interpolation neither reads outside the pixel buffer nor panics. -/
theorem C128_bicubic_safe_partial (mx : Nat) (im : Image Px) (x y : XF) (dflt : Px)
    (hw : 2 ≤ im.w ∨ x ≠ nan) (hh : im.h ≤ 16777221) : ∃ v, bicubic32 mx im x y dflt = some v := by
  unfold bicubic32 bicubicWith
  dsimp only
  split
  · exact ⟨_, rfl⟩
  · rename_i h
    obtain ⟨h1, h2, h3, h4⟩ := or4 h
    have hspan := span_bicubic y hh h3 h4
    have hrow : ∀ row, row < ((y.floor.sub (fin 1)).add (fin 4)).toU32 → row + 1 < im.h :=
      fun row hr => rows_bicubic y h4 hr
    have hcol : ∀ row, row + 1 < im.h → ∀ j, j ≤ 3 →
        ∃ v, unsafeGet im ((x.floor.sub (fin 1)).toU32 + j) row = some v := by
      intro row hr j hj
      by_cases hx : x = nan
      · subst hx
        refine unsafeGet_flat ?_
        simp only [XF.floor, XF.sub, XF.neg, XF.add, XF.toU32]
        have hw : 2 ≤ im.w := hw.resolve_right fun h => h rfl
        have : (row + 2) * im.w ≤ im.h * im.w := Nat.mul_le_mul_right _ (by omega)
        nlinarith
      · have := axis_bicubic x hx h1 h2
        exact ⟨_, unsafeGet_inB (by omega) (by omega)⟩
    generalize (x.floor.sub (fin 1)).toU32 = l at hcol
    generalize ((y.floor.sub (fin 1)).add (fin 4)).toU32 = b at hrow hspan
    generalize (y.floor.sub (fin 1)).toU32 = t at hspan
    by_cases hbt : b ≤ t
    · rw [forRange_empty hbt, Option.bind_some]
      exact ⟨_, rfl⟩
    · obtain ⟨col, e, _⟩ := forRange_spec (lo := t) (hi := b) (s := (fun _ => dflt : Nat → Px))
        (f := fun row col => (unsafeGet im l row).bind fun p0 =>
          (unsafeGet im (l + 1) row).bind fun p1 =>
          (unsafeGet im (l + 2) row).bind fun p2 =>
          (unsafeGet im (l + 3) row).bind fun p3 =>
          (csub row t).bind fun k =>
          if k < 4 then
            some (fun i => if i = k then blendCubic32 mx p0 p1 p2 p3
              (x.sub ((x.floor.sub (fin 1)).add (fin 1))) else col i)
          else none)
        (fun _ _ => True) (by omega) trivial (by
          intro row col r1 r2 _
          obtain ⟨p0, e0⟩ := hcol row (hrow row r2) 0 (by omega)
          obtain ⟨p1, e1⟩ := hcol row (hrow row r2) 1 (by omega)
          obtain ⟨p2, e2⟩ := hcol row (hrow row r2) 2 (by omega)
          obtain ⟨p3, e3⟩ := hcol row (hrow row r2) 3 (by omega)
          rw [Nat.add_zero] at e0
          rw [e0, Option.bind_some, e1, Option.bind_some, e2, Option.bind_some, e3, Option.bind_some,
            csub_of_le r1, Option.bind_some, if_pos (by omega)]
          exact ⟨_, rfl, trivial⟩)
      rw [e, Option.bind_some]
      exact ⟨_, rfl⟩

theorem forYX_fail {σ : Type _} {f : Nat → Nat → σ → Option σ} {w h x₀ y₀ : Nat} {s : σ}
    (hx : x₀ < w) (hy : y₀ < h) (hf : ∀ s, f x₀ y₀ s = none) : forYX 0 h 0 w s f = none := by
  by_contra hc
  obtain ⟨r, hr⟩ := Option.ne_none_iff_exists'.1 hc
  have := forYX_inv (f := f) (fun x y _ => ¬ (y₀ < y ∨ y = y₀ ∧ x₀ < x)) (Nat.zero_le h)
    (Nat.zero_le w) (by omega)
    (by
      intro x y s s' _ hx' _ hy' hI he hcon
      by_cases hxy : x = x₀ ∧ y = y₀
      · rw [hxy.1, hxy.2, hf] at he
        cases he
      · omega)
    (by intro y s _ hy' hI; omega) hr
  omega

theorem ofNat_int {n : Nat} (h : n ≤ 2 ^ 24) : ofNat n = fin (n : ℚ) := by
  unfold ofNat
  have := rnd32_int (n := (n : Int)) (by rw [abs_of_nonneg (by omega)]; exact_mod_cast h)
  rw [Int.cast_natCast] at this
  rw [this]

theorem rnd32_natQ {n : Nat} (h : n ≤ 2 ^ 24) : rnd32 (n : ℚ) = n := by
  have := rnd32_int (n := (n : Int)) (by rw [abs_of_nonneg (by omega)]; exact_mod_cast h)
  rwa [Int.cast_natCast] at this

theorem toU32_nat {n : Nat} (h : n ≤ 4294967295) : (fin (n : ℚ)).toU32 = n := by
  show min _ _ = n
  rw [truncQ_natCast]
  omega

/-- The rows visited around an integer row. -/
theorem bicubic_rows {t : Nat} (ht : t + 4 ≤ 2 ^ 24) :
    ((fin ((t + 1 : Nat) : ℚ)).floor.sub (fin 1)) = fin (t : ℚ) ∧
    (fin (t : ℚ)).add (fin 4) = fin ((t + 4 : Nat) : ℚ) := by
  constructor
  · simp only [XF.floor, XF.sub, XF.neg, XF.add, Int.floor_natCast]
    rw [show (((t + 1 : Nat) : Int) : ℚ) + -1 = (t : ℚ) by push_cast; ring, rnd32_natQ (by omega)]
  · simp only [XF.add]
    rw [show (t : ℚ) + 4 = ((t + 4 : Nat) : ℚ) by push_cast; ring, rnd32_natQ (by omega)]

/-- C128 is false of the code: if the mapping passed to `warp_with` returns a NaN x coordinate
(for example `((x - 5).sqrt(), y)`), bicubic warping of an image of one column with at least five rows
reads beyond the end of the pixel buffer. -/
theorem C128_negation_nan (mx : Nat) (im : Image Px) (dflt : Px) (hw : im.w = 1) (hh : 5 ≤ im.h)
    (hh' : im.h ≤ 2 ^ 24) (mapping : XF → XF → XF × XF)
    (hm : ∀ y : Nat, y < im.h → mapping (ofNat 0) (ofNat y) = (nan, ofNat y)) :
    warpWith32 mx im mapping .bicubic dflt = none := by
  unfold warpWith32 warpIntoWith32
  rw [if_neg (by show im.w ≠ 0; omega)]
  refine forYX_fail (x₀ := 0) (y₀ := im.h - 4) (by show 0 < im.w; omega)
    (by show im.h - 4 < im.h; omega) ?_
  intro s
  rw [hm _ (by omega)]
  obtain ⟨t, ht⟩ : ∃ t, im.h = t + 5 := ⟨im.h - 5, by omega⟩
  have hb : interp32 mx .bicubic im dflt nan (ofNat (im.h - 4)) = none := by
    show bicubic32 mx im nan _ dflt = none
    rw [show im.h - 4 = t + 1 by omega, ofNat_int (by omega)]
    unfold bicubic32 bicubicWith
    dsimp only
    obtain ⟨e1, e2⟩ := bicubic_rows (t := t) (by omega)
    rw [e1, e2, ofNat_int hh', toU32_nat (by omega), toU32_nat (by omega), if_neg (by
      simp only [XF.floor, XF.sub, XF.neg, XF.add, XF.lt, ofNat, XF.le, Bool.false_or, Bool.or_eq_true,
        decide_eq_true_eq, not_or, not_lt, not_le]
      exact ⟨by positivity, by exact_mod_cast (by omega)⟩)]
    rw [forRange_succ_last (by omega)]
    generalize forRange t (t + 3) _ _ = r
    cases r with
    | none => rfl
    | some col =>
      rw [Option.bind_some]
      have : unsafeGet im 3 (t + 3) = none := by
        unfold unsafeGet
        rw [if_neg (by rw [hw]; omega)]
      simp only [XF.floor, XF.sub, XF.neg, XF.add, XF.toU32]
      cases unsafeGet im 0 (t + 3) <;> cases unsafeGet im (0 + 1) (t + 3) <;>
        cases unsafeGet im (0 + 2) (t + 3) <;> simp [this]
  rw [hb]
  rfl

/-- C128 is false of the code: with a NaN position, bilinear interpolation reads the pixel at the
origin even of an empty image. -/
theorem C128_negation_empty (mx : Nat) (im : Image Px) (dflt : Px) (hw : im.w * im.h = 0)
    (out : Image Px) (h1 : 0 < out.w) (h2 : 0 < out.h) :
    warpIntoWith32 mx im (fun _ _ => (nan, nan)) .bilinear dflt out = none := by
  unfold warpIntoWith32
  rw [if_neg (by omega)]
  refine forYX_fail (x₀ := 0) (y₀ := 0) h1 h2 ?_
  intro s
  have : interp32 mx .bilinear im dflt nan nan = none := by
    show bilinear32 mx im nan nan dflt = none
    unfold bilinear32
    simp [XF.floor, XF.sub, XF.add, XF.lt, ofNat, XF.le, XF.toU32, unsafeGet, hw]
  rw [this]
  rfl

/-- C128 is false of the code: bicubic warping panics (index 4 of an array of four rows) for every
image of at least five columns and 16777222 rows, even by the identity, because
`16777215 + 4` rounds to `16777220`. -/
theorem C128_negation_tall (mx : Nat) (im : Image Px) (dflt : Px) (hw : 5 ≤ im.w)
    (hh : 16777222 ≤ im.h) : warpWith32 mx im (fun x y => (x, y)) .bicubic dflt = none := by
  unfold warpWith32 warpIntoWith32
  rw [if_neg (by show im.w ≠ 0; omega)]
  refine forYX_fail (x₀ := 1) (y₀ := 16777216) (by show 1 < im.w; omega)
    (by show 16777216 < im.h; omega) ?_
  intro s
  dsimp only
  have hb : interp32 mx .bicubic im dflt (ofNat 1) (ofNat 16777216) = none := by
    show bicubic32 mx im _ _ dflt = none
    rw [ofNat_int (by norm_num), ofNat_int (by norm_num)]
    unfold bicubic32 bicubicWith
    dsimp only
    obtain ⟨e1, e2⟩ := bicubic_rows (t := 0) (by norm_num)
    have e3 : ((fin ((16777216 : Nat) : ℚ)).floor.sub (fin 1)) = fin ((16777215 : Nat) : ℚ) := by
      simp only [XF.floor, XF.sub, XF.neg, XF.add, Int.floor_natCast]
      rw [show (((16777216 : Nat) : Int) : ℚ) + -1 = ((16777215 : Nat) : ℚ) by norm_num,
        rnd32_natQ (by norm_num)]
    have e4 : (fin ((16777215 : Nat) : ℚ)).add (fin 4) = fin ((16777220 : Nat) : ℚ) := by
      simp only [XF.add]
      rw [show ((16777215 : Nat) : ℚ) + 4 = 16777219 by norm_num, rnd32_16777219]
      norm_num
    rw [e1, e2, e3, e4, toU32_nat (n := 16777215) (by norm_num), toU32_nat (n := 16777220) (by norm_num)]
    have hw' : ((0 + 4 : Nat) : ℚ) < rnd32 (im.w : ℚ) := by
      have : (5 : ℚ) ≤ rnd32 (im.w : ℚ) :=
        le_rnd (by norm_num) ⟨5, 0, by norm_num, by norm_num, by norm_num⟩ (by exact_mod_cast hw)
      push_cast; linarith
    have hh' : ((16777220 : Nat) : ℚ) < rnd32 (im.h : ℚ) := by
      have : (16777222 : ℚ) ≤ rnd32 (im.h : ℚ) := by
        rw [← rnd32_16777222]
        exact rnd_mono (by norm_num) (by exact_mod_cast hh)
      push_cast; linarith
    rw [if_neg (by
      simp only [XF.lt, ofNat, XF.le, Bool.or_eq_true, decide_eq_true_eq, not_or, not_lt, not_le]
      exact ⟨⟨⟨by positivity, hw'⟩, by positivity⟩, hh'⟩)]
    rw [show (16777220 : Nat) = 16777219 + 1 from rfl, forRange_succ_last (by norm_num)]
    generalize forRange 16777215 16777219 _ _ = r
    cases r with
    | none => rfl
    | some col =>
      rw [Option.bind_some]
      generalize (fin ((0 : Nat) : ℚ)).toU32 = l
      have k : csub 16777219 16777215 = some 4 := rfl
      rw [k]
      cases unsafeGet im l 16777219 <;> cases unsafeGet im (l + 1) 16777219 <;>
        cases unsafeGet im (l + 2) 16777219 <;> cases unsafeGet im (l + 3) 16777219 <;> simp
  rw [hb]
  rfl

/-- C128: what NaN positions give instead of the default colour: bilinear interpolation of a
non-empty image returns the maximal value in every channel. -/
theorem C128_nan_white (mx : Nat) (im : Image Px) (dflt : Px) (hw : 0 < im.w) (hh : 0 < im.h) :
    bilinear32 mx im nan nan dflt = some fun _ => mx := by
  have h0 : unsafeGet im 0 0 = some (im.px 0 0) := unsafeGet_inB hw hh
  unfold bilinear32
  simp only [XF.floor, XF.sub, XF.add, XF.lt, ofNat, XF.le, XF.toU32, h0]
  rfl

/-- The hypotheses can be met: in a column of six pixels the mapping sends column 0 to NaN. -/
example : warpWith32 255 ⟨1, 6, fun _ y _ => 10 * y⟩ (fun _ y => (nan, y)) .bicubic (fun _ => 0) = none :=
  C128_negation_nan 255 _ _ rfl (by decide) (by norm_num) _ fun _ _ => rfl

/-- With two columns the same mapping is harmless. -/
example : ∃ v, bicubic32 255 ⟨2, 6, fun _ y _ => 10 * y⟩ nan (ofNat 2) (fun _ => 0) = some v :=
  C128_bicubic_safe_partial _ _ _ _ _ (.inl (by decide)) (by decide)

/-- Between four equal pixels. -/
example : (bilinear32 255 ⟨3, 3, fun _ _ _ => 7⟩ (fin (1 / 2)) (fin (3 / 4)) (fun _ => 0)).map (· 0) =
    some 7 := by decide +kernel

end Verif.Float
