import Verif.Float.Kapur
import Verif.Float.Oriented
import Verif.Float.Canny
import Verif.Contrast.OtsuMachine
/-
Property C195: `kapur_level` (src/contrast.rs:109-171), `oriented_fast` (src/corners.rs:173-241) and `canny`
(src/edges.rs:30-53) with the number of pixels and the bounds of the search computed in `u32`, in debug builds (overflow
panics) and release builds (overflow wraps).
-/
namespace Verif.Float
open Finset Verif.Stats Verif.Contrast Verif.Corners Verif.Edges Verif.Gradients
open Verif.Filter hiding clampU8

/-! ### The models -/

/-- `kapur_level` (src/contrast.rs:109-171) with `u32` counts and area, `f64` probabilities.  A wrapped area of 0 makes
all probabilities infinite or NaN: `pq` is then never positive or NaN and no level is chosen; here `x / 0 = 0` leads to
the same result. -/
noncomputable def kapurLevelM (dbg : Bool) (ln : ℝ → ℝ) (im : Image Nat) : Option Nat :=
  (histogram32 dbg 1 (gray im)).bind fun hist =>
  (Stats.u32 dbg (im.w * im.h)).bind fun total =>
  let p : Nat → ℝ := fun i => rnd64 (rnd64 (hist 0 i : ℝ) / rnd64 (total : ℝ))
  (cumProb64 p).bind fun cumP => (cumEntropy64 ln p).bind fun h =>
  (kapurScan64 ln cumP h).map Prod.snd

/-- src/corners.rs:204-206 for a given area, in binary32; for an area of 0 the fraction is infinite or NaN, and the cast
gives 0. -/
def fractionIdxM (target area : Nat) : Nat :=
  if area = 0 then 0
  else
    let fraction := rnd32 (rnd32 (target : ℚ) / rnd32 (area : ℚ))
    (⌊rnd32 (1000 * rnd32 (1 - fraction))⌋).toNat

/-- The corner search of src/corners.rs:212-220 with given upper bounds. -/
def cornersUpTo (im : Image Nat) (t edge maxX maxY : Nat) : Option (List (Nat × Nat × Nat)) :=
  forYX edge maxY edge maxX [] fun x y corners =>
    (isCorner9 im t x y).bind fun b =>
    if b then
      (score .nine im t x y).bind fun s => some (corners ++ [(x, y, s)])
    else some corners

/-- The threshold (src/corners.rs:184-209) with the area in `u32`; `Uniform::new` panics on an empty range. -/
def thresholdM (dbg : Bool) (im : Image Nat) (threshold : Option Nat) (target edge maxX maxY : Nat)
    (samples : List (Nat × Nat)) : Option Nat :=
  match threshold with
  | some t => some t
  | none =>
    if edge < maxX ∧ edge < maxY then
      (Stats.u32 dbg (im.w * im.h)).bind fun area => localThreshold (fractionIdxM target area) im none samples
    else none

/-- src/corners.rs:173-241 `oriented_fast` with the differences `width - edge_radius`, `height - edge_radius` and the
product `width * height` in `u32`.  `samples` are the random coordinates, `min(1000, area)` of them. -/
def orientedFastM {A : Type _} (dbg : Bool) (orient : Int → Int → A) (im : Image Nat) (threshold : Option Nat)
    (target edge : Nat) (samples : List (Nat × Nat)) : Option (List (Nat × Nat × Nat × A)) :=
  (sub32 dbg im.w edge).bind fun maxX => (sub32 dbg im.h edge).bind fun maxY =>
  (thresholdM dbg im threshold target edge maxX maxY samples).bind fun t =>
  (cornersUpTo im t edge maxX maxY).bind fun corners =>
  let corners := corners.mergeSort fun a b => decide (b.2.2 ≤ a.2.2)
  let top := if corners.length < target then corners else corners.take target
  top.mapM fun c => (centroidSums im c.1 c.2.1 15).map fun s => (c.1, c.2.1, c.2.2, orient s.1 s.2)

/-- `hysteresis` (src/edges.rs:113-160) with the capacity of the stack computed in `u32` (l.120). -/
def hysteresisM {α : Type _} [LinearOrder α] (dbg : Bool) (inp : Image α) (lo hi : α) : Option (Image Nat) :=
  (Stats.u32 dbg (inp.w * inp.h)).bind fun _ => hysteresis inp lo hi

/-- `canny` (src/edges.rs:30-53) in single precision with the capacity computed in `u32`. -/
noncomputable def cannyM (dbg : Bool) (expf : ℝ → ℝ) (atan2 hypot : ℝ → ℝ → ℝ) (im : Image (Unit → Nat))
    (lo hi : ℝ) : Option (Image Nat) :=
  if hi ≥ lo then
    (gaussianBlur32 expf im (rnd32 1.4)).bind fun blurred =>
    (horizontalSobel blurred).bind fun gx =>
    (verticalSobel blurred).bind fun gy =>
    (nonMaxSuppression (sector32 atan2) ⟨gx.w, gx.h, fun x y => hypot (rnd32 (gx.px x y () : ℝ)) (rnd32 (gy.px x y () : ℝ))⟩
      ⟨gx.w, gx.h, fun x y => gx.px x y ()⟩ ⟨gy.w, gy.h, fun x y => gy.px x y ()⟩).bind fun thinned =>
    hysteresisM dbg thinned lo hi
  else none

/-! ### Kapur level -/

/-- **C195.** Below `2 ^ 32` pixels both builds compute the level of C151. -/
theorem C195_kapur_fits (dbg : Bool) (ln : ℝ → ℝ) (im : Image Nat) (h8 : Is8 im) (hf : im.w * im.h < 2 ^ 32) :
    kapurLevelM dbg ln im = kapurLevel64 ln im := by
  obtain ⟨hist, e, hh⟩ := C12_histogram 1 (gray im) (is8c_gray h8)
  obtain ⟨hist', e', hh'⟩ := C190_histogram_fits dbg 1 (gray im) (is8c_gray h8)
    (fun c v _ => lt_of_le_of_lt (countPx_le _ _) hf)
  have same : hist' 0 = hist 0 := funext fun v => by rw [hh 0 v (by norm_num), hh' 0 v (by norm_num)]
  unfold kapurLevelM kapurLevel64
  rw [e, e', Option.bind_some, Option.bind_some, same, Stats.u32, if_pos hf, cmul32, if_pos hf]

/-- **C195.** From `2 ^ 32` pixels on a debug build panics. -/
theorem C195_kapur_panics (ln : ℝ → ℝ) (im : Image Nat) (ho : 2 ^ 32 ≤ im.w * im.h) : kapurLevelM true ln im = none := by
  unfold kapurLevelM
  rcases histogram32 true 1 (gray im) with _ | hist
  · rfl
  · rw [Option.bind_some, Stats.u32, if_neg (by omega)]
    rfl

/-- When every quotient of a count and the area is 0 or at least 1, no level passes the test. -/
theorem kapur_none {ln : ℝ → ℝ} {p : Nat → ℝ} (hp : ∀ i, p i = 0 ∨ 1 ≤ p i) :
    ((cumProb64 p).bind fun cumP => (cumEntropy64 ln p).bind fun h => (kapurScan64 ln cumP h).map Prod.snd) = some 0 := by
  obtain ⟨c, ec, c0, cs⟩ := cumProb64_spec p
  obtain ⟨h, eh, -⟩ := cumEntropy64_spec ln p
  rw [ec, Option.bind_some, eh, Option.bind_some]
  have hc : ∀ i, i < 256 → c i = 0 ∨ 1 ≤ c i := by
    intro i
    induction i with
    | zero => intro _; rw [c0]; exact hp 0
    | succ i ih =>
      intro hi
      rw [cs (i + 1) (by omega) hi, Nat.add_sub_cancel]
      rcases ih (by omega) with g | g <;> rcases hp (i + 1) with g' | g'
      · left; rw [g, g', add_zero]; exact rnd_zero
      all_goals
        right
        exact le_rnd (by norm_num) ⟨1, 0, by norm_num, by norm_num, by norm_num⟩ (by linarith)
  have hpq : ∀ s, s < 256 → rnd64 (c s * rnd64 (1 - c s)) ≤ 0 := by
    intro s hs
    rcases hc s hs with g | g
    · rw [g, zero_mul]; exact (rnd_zero).le
    · have r0 : Rep (K := ℝ) 53 (-1074) 0 := ⟨0, 0, by norm_num, by norm_num, by norm_num⟩
      have : rnd64 (1 - c s) ≤ 0 := rnd_le (by norm_num) r0 (by linarith)
      exact rnd_le (by norm_num) r0 (mul_nonpos_of_nonneg_of_nonpos (by linarith) this)
  unfold kapurScan64
  obtain ⟨r, er, hr⟩ := forRange_spec (lo := 0) (hi := 256) (s := ((f64Min, 0) : ℝ × Nat))
    (f := fun s b => if rnd64 (c s * rnd64 (1 - c s)) ≤ 0 then some b
      else if psi64 ln c h s > b.1 then some (psi64 ln c h s, s) else some b)
    (fun _ b => b.2 = 0) (by omega) rfl (by
      intro s b _ hs hb
      exact ⟨b, if_pos (hpq s hs), hb⟩)
  rw [er, Option.map_some, hr]

/-- Half of the rows grey, the rest lighter: `65536 * 65537` pixels. -/
def halves : Image Nat := Image.ofFn 65536 65537 fun _ y => if y < 32768 then 50 else 100

theorem halves_px (x y : Nat) : halves.px x y = if y < 32768 then 50 else 100 := rfl

theorem halves_count (P : Nat → Prop) [DecidablePred P] : countPx halves P =
    65536 * (32768 * (if P 50 then 1 else 0) + 32769 * (if P 100 then 1 else 0)) := by
  have h1 : ∑ y ∈ range 65537, (if P (halves.px 0 y) then 1 else 0) =
      32768 * (if P 50 then 1 else 0) + 32769 * (if P 100 then 1 else 0) := by
    rw [range_eq_Ico, ← sum_Ico_consecutive _ (show 0 ≤ 32768 by norm_num) (show 32768 ≤ 65537 by norm_num),
      sum_congr rfl (g := fun _ => if P 50 then 1 else 0),
      sum_congr (s₁ := Ico 32768 65537) rfl (g := fun _ => if P 100 then 1 else 0)]
    · simp only [sum_const, Nat.card_Ico, smul_eq_mul]
    · intro y hy
      have := mem_Ico.1 hy
      rw [halves_px, if_neg (c := y < 32768) (by omega)]
    · intro y hy
      have := mem_Ico.1 hy
      rw [halves_px, if_pos (c := y < 32768) (by omega)]
  rw [← h1]
  unfold countPx allPx
  rw [card_filter, sum_product]
  show ∑ x ∈ range 65536, ∑ y ∈ range 65537, (if P (halves.px 0 y) then 1 else 0) = _
  rw [sum_const, card_range, smul_eq_mul]

theorem halves_is8 : Is8 halves := by
  intro x y _ _
  rw [halves_px]
  split_ifs <;> omega

/-- **C195, negation.** With `65536 * 65537` pixels, half of level 50 and half of level 100, a release build divides by
the wrapped area 65536 and returns 0, which leaves one class empty although level 50 does not; a debug build panics. -/
theorem C195_kapur_negation (ln : ℝ → ℝ) : kapurLevelM false ln halves = some 0 ∧ kapurLevelM true ln halves = none ∧
    Separates halves 50 ∧ ¬ Separates halves 0 := by
  refine ⟨?_, C195_kapur_panics ln halves (by show 2 ^ 32 ≤ 65536 * 65537; norm_num), ?_, ?_⟩
  · obtain ⟨hist, e, hh⟩ := C190_histogram_fits false 1 (gray halves) (is8c_gray halves_is8) (fun c v _ => by
      show countPx halves (fun g => g = v) < 2 ^ 32
      rw [halves_count]
      by_cases h1 : 50 = v
      · rw [if_pos h1, if_neg (by omega)]; norm_num
      · rw [if_neg h1]; split_ifs <;> norm_num)
    have h0 : ∀ v, hist 0 v = 65536 * (32768 * (if 50 = v then 1 else 0) + 32769 * (if 100 = v then 1 else 0)) := by
      intro v
      rw [hh 0 v (by norm_num)]
      exact halves_count (fun g => g = v)
    unfold kapurLevelM
    rw [e, Option.bind_some, show Stats.u32 false (halves.w * halves.h) = some 65536 from by
      show Stats.u32 false (65536 * 65537) = _
      decide, Option.bind_some]
    refine kapur_none fun i => ?_
    rw [h0 i]
    have r1 : Rep (K := ℝ) 53 (-1074) 1 := ⟨1, 0, by norm_num, by norm_num, by norm_num⟩
    have rt : rnd64 (((65536 : Nat) : ℝ)) = 65536 := by
      have := rnd_int (K := ℝ) (p := 53) (emin := -1074) (n := 65536) (by norm_num) (by norm_num) (by norm_num)
      simpa using this
    rw [rt]
    have big : ∀ n : Nat, 65536 ≤ n → 1 ≤ rnd64 (rnd64 (n : ℝ) / 65536) := by
      intro n hn
      refine le_rnd (by norm_num) r1 ?_
      rw [le_div_iff₀ (by norm_num), one_mul]
      exact le_rnd (by norm_num) ⟨65536, 0, by norm_num, by norm_num, by norm_num⟩ (by exact_mod_cast hn)
    by_cases h1 : 50 = i
    · right
      refine big _ ?_
      rw [if_pos h1]; omega
    · by_cases h2 : 100 = i
      · right
        refine big _ ?_
        rw [if_pos h2]; omega
      · left
        rw [if_neg h1, if_neg h2]
        simp [rnd64, rnd_zero]
  · constructor <;> rw [halves_count] <;> norm_num
  · rintro ⟨h, -⟩
    rw [halves_count] at h
    norm_num at h

/-! ### Oriented FAST -/

/-- **C195.** When the edge radius fits in the image, a call with a threshold is the same in both builds. -/
theorem C195_fast_given_fits {A : Type _} (dbg : Bool) (orient : Int → Int → A) (im : Image Nat) (t target edge : Nat)
    (samples : List (Nat × Nat)) (hw : edge ≤ im.w) (hh : edge ≤ im.h) :
    orientedFastM dbg orient im (some t) target edge samples = orientedFast32 orient im (some t) target edge samples := by
  unfold orientedFastM thresholdM orientedFast32 orientedFastAt cornersWithin
  rw [sub32, if_pos hw, sub32, if_pos hh, csub, if_pos hw, csub, if_pos hh]
  rfl

/-- **C195.** So is a call without one below `2 ^ 32` pixels. -/
theorem C195_fast_auto_fits {A : Type _} (dbg : Bool) (orient : Int → Int → A) (im : Image Nat) (target edge : Nat)
    (samples : List (Nat × Nat)) (hw : edge ≤ im.w) (hh : edge ≤ im.h) (h0 : 0 < im.w * im.h)
    (hf : im.w * im.h < 2 ^ 32) :
    orientedFastM dbg orient im none target edge samples = orientedFast32 orient im none target edge samples := by
  unfold orientedFastM thresholdM orientedFast32 orientedFastAt cornersWithin
  rw [sub32, if_pos hw, sub32, if_pos hh, csub, if_pos hw, csub, if_pos hh, Stats.u32, if_pos hf]
  simp only [Option.bind_some]
  by_cases hc : edge < im.w - edge ∧ edge < im.h - edge
  · rw [if_pos hc, if_neg (by simp [hc]), fractionIdxM, if_neg (by omega)]
    rfl
  · rw [if_neg hc, if_pos (by simpa using hc)]
    rfl

/-- **C195.** A debug build panics when the edge radius exceeds a side, -/
theorem C195_fast_debug {A : Type _} (orient : Int → Int → A) (im : Image Nat) (threshold : Option Nat)
    (target edge : Nat) (samples : List (Nat × Nat)) (h : im.w < edge ∨ im.h < edge) :
    orientedFastM true orient im threshold target edge samples = none := by
  unfold orientedFastM
  rcases Nat.lt_or_ge im.w edge with hw | hw
  · rw [sub32, if_neg (by omega)]; rfl
  · have hh : im.h < edge := by omega
    rw [sub32, if_pos hw, Option.bind_some, sub32, if_neg (by omega)]; rfl

/-- No corner is found when the search starts outside the image. -/
theorem cornersUpTo_outside (im : Image Nat) (t edge maxX maxY : Nat) (h : im.w < edge ∨ im.h < edge) :
    cornersUpTo im t edge maxX maxY = some [] := by
  have hc : ∀ x y, edge ≤ x → edge ≤ y → isCorner9 im t x y = some false := by
    intro x y hx hy
    unfold isCorner9
    rw [if_pos]
    unfold nearBorder
    simp only [Bool.or_eq_true, decide_eq_true_eq]
    omega
  unfold cornersUpTo
  rcases Nat.lt_or_ge maxY edge with hy | hy
  · unfold forYX forRange
    rw [Nat.sub_eq_zero_of_le hy.le]
    rfl
  · rcases Nat.lt_or_ge maxX edge with hx | hx
    · obtain ⟨s, e, hs⟩ := forRange_spec (lo := edge) (hi := maxY) (s := ([] : List (Nat × Nat × Nat)))
        (f := fun y s => forRange edge maxX s fun x corners => (isCorner9 im t x y).bind fun b =>
          if b then (score .nine im t x y).bind fun s => some (corners ++ [(x, y, s)]) else some corners)
        (fun _ s => s = []) hy rfl (by
          intro y s _ _ hs
          refine ⟨s, ?_, hs⟩
          unfold forRange
          rw [Nat.sub_eq_zero_of_le hx.le]
          rfl)
      unfold forYX
      rw [e, hs]
    · obtain ⟨s, e, hs⟩ := forYX_spec (y0 := edge) (y1 := maxY) (x0 := edge) (x1 := maxX)
        (s := ([] : List (Nat × Nat × Nat)))
        (f := fun x y corners => (isCorner9 im t x y).bind fun b =>
          if b then (score .nine im t x y).bind fun s => some (corners ++ [(x, y, s)]) else some corners)
        (fun _ _ s => s = []) hy hx rfl (by
          intro x y s h1 _ h2 _ hs
          refine ⟨s, ?_, hs⟩
          rw [hc x y h1 h2]
          rfl) (fun _ _ _ _ h => h)
      rw [e, hs]

/-- **C195**, where a release build searches the wrapped range and returns no corners. -/
theorem C195_fast_release {A : Type _} (orient : Int → Int → A) (im : Image Nat) (t target edge : Nat)
    (samples : List (Nat × Nat)) (h : im.w < edge ∨ im.h < edge) :
    orientedFastM false orient im (some t) target edge samples = some [] := by
  have hs : ∀ a, ∃ m, sub32 false a edge = some m := by
    intro a
    unfold sub32
    by_cases h1 : edge ≤ a
    · exact ⟨_, if_pos h1⟩
    · exact ⟨_, if_neg h1⟩
  obtain ⟨mx, ex⟩ := hs im.w
  obtain ⟨my, ey⟩ := hs im.h
  unfold orientedFastM
  rw [ex, Option.bind_some, ey, Option.bind_some]
  simp only [thresholdM, Option.bind_some, cornersUpTo_outside im t edge mx my h]
  simp

/-- **C195, negation.** Without a threshold, a debug build panics from `2 ^ 32` pixels on, and a release build panics
when their number is a multiple of `2 ^ 32`, for instance for an image of 65536 by 65536 pixels. -/
theorem C195_fast_negation {A : Type _} (dbg : Bool) (orient : Int → Int → A) (im : Image Nat) (target edge : Nat)
    (samples : List (Nat × Nat)) (ho : 2 ^ 32 ≤ im.w * im.h) (hd : dbg = true ∨ im.w * im.h % 2 ^ 32 = 0)
    (hn : samples.length = min 1000 (im.w * im.h % 2 ^ 32)) :
    orientedFastM dbg orient im none target edge samples = none := by
  unfold orientedFastM
  rcases sub32 dbg im.w edge with _ | mx
  · rfl
  rcases sub32 dbg im.h edge with _ | my
  · rfl
  simp only [thresholdM, Option.bind_some]
  by_cases hc : edge < mx ∧ edge < my
  · rw [if_pos hc, Stats.u32, if_neg (by omega)]
    cases dbg
    · have h0 : im.w * im.h % 2 ^ 32 = 0 := by simpa using hd
      rw [h0] at hn
      have : samples = [] := List.length_eq_zero_iff.1 (by omega)
      rw [this, h0]
      simp [localThreshold]
    · rfl
  · rw [if_neg hc]
    rfl

/-! ### Canny -/

/-- **C195.** In a release build the area never changes the edges; a debug build panics exactly from `2 ^ 32` pixels on. -/
theorem C195_canny {expf : ℝ → ℝ} (he : GoodExp expf) (atan2 hypot : ℝ → ℝ → ℝ) (im : Image (Unit → Nat))
    (hu : IsU8 im) (hw : 0 < im.w) (hh : 0 < im.h) (lo hi : ℝ) :
    cannyM false expf atan2 hypot im lo hi = cannyImage32 expf atan2 hypot im lo hi ∧
    cannyM true expf atan2 hypot im lo hi =
      if im.w * im.h < 2 ^ 32 then cannyImage32 expf atan2 hypot im lo hi else none := by
  have hsig : (1 : ℝ) ≤ rnd32 1.4 ∧ rnd32 (1.4 : ℝ) ≤ 2 := by
    constructor
    · exact le_rnd (by norm_num) ⟨1, 0, by norm_num, by norm_num, by norm_num⟩ (by norm_num)
    · exact rnd_le (by norm_num) ⟨2, 0, by norm_num, by norm_num, by norm_num⟩ (by norm_num)
  obtain ⟨bl, b1, b2, b3, b4, -⟩ := C119_range_partial he im hu (rnd32 1.4) (rep_rnd _)
    (le_trans (by norm_num) hsig.1) (le_trans hsig.2 (by norm_num))
  obtain ⟨⟨gx, x1, x2, x3, -⟩, ⟨gy, y1, y2, y3, -⟩, -⟩ := C76_values bl b4
  obtain ⟨th, t1, t2, t3, -⟩ := C89_suppression (sector32 atan2)
    ⟨gx.w, gx.h, fun x y => hypot (rnd32 (gx.px x y () : ℝ)) (rnd32 (gy.px x y () : ℝ))⟩
    ⟨gx.w, gx.h, fun x y => gx.px x y ()⟩ ⟨gy.w, gy.h, fun x y => gy.px x y ()⟩
    (by dsimp only; omega) (by dsimp only; omega) rfl rfl (by dsimp only; omega) (by dsimp only; omega)
  dsimp only at t2 t3
  have tw : th.w = im.w := by omega
  have tH : th.h = im.h := by omega
  unfold cannyM cannyImage32 canny
  by_cases hlh : hi ≥ lo
  · rw [if_pos hlh, if_pos hlh, if_pos hlh, b1, Option.bind_some, Option.bind_some, Option.bind_some, x1,
      Option.bind_some, Option.bind_some, Option.bind_some, y1, Option.bind_some, Option.bind_some, Option.bind_some,
      if_pos hlh, t1]
    simp only [Option.bind_some, hysteresisM, tw, tH, Stats.u32]
    by_cases ha : im.w * im.h < 2 ^ 32
    · simp only [if_pos ha, Option.bind_some, and_self]
    · simp only [if_neg ha, Option.bind_some, Bool.false_eq_true, if_false, if_true, Option.bind_none, and_self]
  · simp only [if_neg hlh, ite_self, and_self]

/-- An edge radius of 9 in an image of 8 by 8 pixels. -/
example : orientedFastM false (fun _ _ => ()) (⟨8, 8, fun x y => 25 * x + y⟩ : Image Nat) (some 10) 5 9 [] = some [] ∧
    orientedFastM true (fun _ _ => ()) (⟨8, 8, fun x y => 25 * x + y⟩ : Image Nat) (some 10) 5 9 [] = none :=
  ⟨C195_fast_release _ _ _ _ _ _ (Or.inl (by norm_num)), C195_fast_debug _ _ _ _ _ _ (Or.inl (by norm_num))⟩

end Verif.Float
