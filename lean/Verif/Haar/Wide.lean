import Verif.Haar.Enumerate
import Verif.Contrast.Machine
/-
Property theorem C200: evaluation of Haar-like features with wrapping `i32` arithmetic, on integral
images of values and of squares, in both build profiles.
-/
namespace Verif.Haar
open Finset Verif.Integral Verif.Machine

/-- Result of `i32` arithmetic (haar.rs l.127-217): a debug build (`dbg`) panics on overflow, a
release build wraps. -/
def cki32M (dbg : Bool) (n : Int) : Option Int :=
  if -2 ^ 31 ≤ n ∧ n < 2 ^ 31 then some n else if dbg then none else some (Int.bmod n (2 ^ 32))

/-- haar.rs l.131-208 in a build profile: each term is a product `c * read(..)` with a positive
literal `c`, added or subtracted; l.248-250 `read`.  The `u8` coordinates are checked, they do not
overflow for features in a frame. -/
def sumTermsM (dbg : Bool) (f : Feature) (integral : Image Nat) (ts : List (Int × Nat × Nat))
    (acc : Int) : Option Int :=
  forList ts acc fun t acc =>
    (f.blockBoundary t.2.1 t.2.2).bind fun p =>
    (integral.get p.1 p.2).bind fun r =>
    (cki32M dbg (t.1.natAbs * asI32 r)).bind fun m =>
    cki32M dbg (acc + t.1.sign * m)

/-- haar.rs l.99-218 `evaluate` in a build profile. -/
def Feature.evaluateM (dbg : Bool) (f : Feature) (integral : Image Nat) : Option Int :=
  (featureSize f.kind f.bw f.bh).bind fun size =>
  if size.1 + f.left < integral.w ∧ size.2 + f.top < integral.h then
    (sumTermsM dbg f integral f.kind.terms 0).bind fun sum =>
    cki32M dbg (sum * if f.positive then 1 else -1)
  else none

/-- The signed sum of a feature over a function of the pixels: blocks alternate in sign like a chess
board, the top left one is positive for positive features. -/
def signedSum (val : Nat → Nat) (im : Image Nat) (f : Feature) : Int :=
  ∑ i ∈ range f.kind.shape.1, ∑ j ∈ range f.kind.shape.2,
    blockSign f i j * ∑ dy ∈ range f.bh, ∑ dx ∈ range f.bw,
      (val (im.px (f.left + i * f.bw + dx) (f.top + j * f.bh + dy)) : Int)

theorem cki32M_true (n : Int) : cki32M true n = cki32 n := by
  unfold cki32M cki32
  split <;> simp_all

theorem cki32M_false (n : Int) : cki32M false n = some (Int.bmod n (2 ^ 32)) := by
  unfold cki32M
  split
  · rw [Int.bmod_def]
    congr 1
    split <;> omega
  · rfl

theorem bmod_congr {a b : Int} (h : a % 2 ^ 32 = b % 2 ^ 32) :
    Int.bmod a (2 ^ 32) = Int.bmod b (2 ^ 32) := by
  have h' : a % ((2 ^ 32 : Nat) : Int) = b % ((2 ^ 32 : Nat) : Int) := by
    norm_num at h ⊢
    exact h
  rw [← Int.emod_bmod, h', Int.emod_bmod]

theorem bmod_modEq (a : Int) : Int.bmod a (2 ^ 32) ≡ a [ZMOD 2 ^ 32] := by
  have := @Int.bmod_emod a (2 ^ 32)
  norm_num at this
  unfold Int.ModEq
  norm_num
  exact this

theorem asI32_modEq (n : Nat) : asI32 n ≡ n [ZMOD 2 ^ 32] := by
  unfold asI32 Int.ModEq
  split
  · rfl
  · omega

/-- The image of values whose sums are taken. -/
def mapImage (val : Nat → Nat) (im : Image Nat) : Image Nat := ⟨im.w, im.h, fun x y => val (im.px x y)⟩

theorem corner_map (val : Nat → Nat) (im : Image Nat) (f : Feature) (x y : Nat) :
    corner (mapImage val im) f x y =
      (prefixSum im val (f.left + x * f.bw) (f.top + y * f.bh) : Nat) := rfl

theorem sumTermsM_release (val : Nat → Nat) (im I : Image Nat) (f : Feature)
    (hf : f.Fits im.w im.h) (hw : I.w = im.w + 1) (hh : I.h = im.h + 1)
    (hI : ∀ x y, x ≤ im.w → y ≤ im.h → (I.px x y : Int) ≡ (prefixSum im val x y : Nat) [ZMOD 2 ^ 32])
    (ts : List (Int × Nat × Nat))
    (hts : ∀ t ∈ ts, t.2.1 ≤ f.kind.shape.1 ∧ t.2.2 ≤ f.kind.shape.2) (acc : Int) :
    ∃ v, sumTermsM false f I ts acc = some v ∧
      v ≡ acc + (ts.map fun t => t.1 * corner (mapImage val im) f t.2.1 t.2.2).sum
        [ZMOD 2 ^ 32] := by
  induction ts generalizing acc with
  | nil => exact ⟨acc, rfl, by simp⟩
  | cons t ts ih =>
    obtain ⟨hx, hy⟩ := hts t List.mem_cons_self
    have h1 : t.2.1 * f.bw ≤ f.kind.shape.1 * f.bw := Nat.mul_le_mul_right _ hx
    have h2 : t.2.2 * f.bh ≤ f.kind.shape.2 * f.bh := Nat.mul_le_mul_right _ hy
    have r1 := hf.right
    have r2 := hf.bottom
    unfold sumTermsM forList
    rw [boundary_some f hf hx hy, Option.bind_some, Image.get_of_inB (by omega) (by omega),
      Option.bind_some, cki32M_false, Option.bind_some, cki32M_false, Option.bind_some]
    obtain ⟨v, ev, hv⟩ := ih (fun t ht => hts t (List.mem_cons_of_mem _ ht))
      (Int.bmod (acc + t.1.sign * Int.bmod (t.1.natAbs * asI32 (I.px (f.left + t.2.1 * f.bw)
        (f.top + t.2.2 * f.bh))) (2 ^ 32)) (2 ^ 32))
    refine ⟨v, ev, hv.trans ?_⟩
    rw [List.map_cons, List.sum_cons, ← add_assoc, corner_map]
    refine Int.ModEq.add_right _ ((bmod_modEq _).trans (Int.ModEq.add_left _ ?_))
    have e1 := ((asI32_modEq (I.px (f.left + t.2.1 * f.bw) (f.top + t.2.2 * f.bh))).trans
      (hI _ _ (by omega) (by omega))).mul_left (t.1.natAbs : Int)
    have e2 := ((bmod_modEq _).trans e1).mul_left t.1.sign
    rw [← mul_assoc, Int.sign_mul_natAbs] at e2
    exact e2

theorem signedSum_eq (val : Nat → Nat) (im : Image Nat) (f : Feature) :
    signedSum val im f = (f.kind.terms.map fun t => t.1 * corner (mapImage val im) f t.2.1 t.2.2).sum *
      (if f.positive then 1 else -1) := by
  have key : (f.kind.terms.map fun t => t.1 * corner (mapImage val im) f t.2.1 t.2.2).sum =
      ∑ i ∈ range f.kind.shape.1, ∑ j ∈ range f.kind.shape.2,
        (if (i + j) % 2 = 0 then 1 else -1) * blockSum (mapImage val im) f i j := by
    simp only [block_corners]
    cases f.kind <;> simp [Kind.terms, Kind.shape, sum_range_succ] <;> ring
  rw [key, sum_mul]
  unfold signedSum
  apply sum_congr rfl; intro i _
  rw [sum_mul]
  apply sum_congr rfl; intro j _
  have hbs : blockSum (mapImage val im) f i j = ∑ dy ∈ range f.bh, ∑ dx ∈ range f.bw,
      (val (im.px (f.left + i * f.bw + dx) (f.top + j * f.bh + dy)) : Int) := rfl
  rw [← hbs]
  unfold blockSign
  split_ifs <;> ring

/-- C200: in a release build a feature evaluates, on the integral image of any function of the
pixels of any image, to its signed sum wrapped into an `i32`, even if entries of the integral image
have wrapped. -/
theorem C200_release (val : Nat → Nat) (im : Image Nat) (f : Feature) (hf : f.Fits im.w im.h) :
    ∃ I, integralImageM false (2 ^ 32) im val = some I ∧
      f.evaluateM false I = some (Int.bmod (signedSum val im f) (2 ^ 32)) := by
  obtain ⟨I, e, hw, hh, hI⟩ := C157_build_wrapping (2 ^ 32) im val
  refine ⟨I, e, ?_⟩
  have r1 := hf.right
  have r2 := hf.bottom
  have r3 := hf.right8
  have r4 := hf.bottom8
  unfold Feature.evaluateM featureSize
  rw [ck8_of (by omega), Option.bind_some, ck8_of (by omega), Option.bind_some, Option.bind_some,
    if_pos (by dsimp only; omega)]
  obtain ⟨v, ev, hv⟩ := sumTermsM_release val im I f hf hw hh (by
    intro x y hx hy
    rw [hI x y hx hy]
    unfold prefixSum Int.ModEq
    omega) f.kind.terms (by cases f.kind <;> decide) 0
  rw [ev, Option.bind_some, cki32M_false, signedSum_eq]
  rw [zero_add] at hv
  exact congrArg some (bmod_congr (hv.mul_right _))

theorem sumTermsM_true (f : Feature) (I : Image Nat) (ts : List (Int × Nat × Nat)) (acc : Int) :
    sumTermsM true f I ts acc = sumTerms f I ts acc := by
  unfold sumTermsM sumTerms
  congr 1
  funext t acc
  congr 1
  funext p
  congr 1
  funext r
  rw [cki32M_true]
  unfold cki32
  split
  · rw [Option.bind_some, Option.bind_some, ← mul_assoc, Int.sign_mul_natAbs, cki32M_true]
    rfl
  · rfl

/-- C200: debug builds evaluate as in C63, or panic. -/
theorem C200_debug (f : Feature) (I : Image Nat) : f.evaluateM true I = f.evaluate I := by
  unfold Feature.evaluateM Feature.evaluate
  simp only [sumTermsM_true, cki32M_true]

theorem signedSum_bound (val : Nat → Nat) (im : Image Nat) (f : Feature) (B : Nat)
    (hv : ∀ x y, x < f.left + f.kind.shape.1 * f.bw → y < f.top + f.kind.shape.2 * f.bh →
      val (im.px x y) ≤ B) :
    |signedSum val im f| ≤ f.kind.shape.1 * f.kind.shape.2 * (f.bh * f.bw * B) := by
  unfold signedSum
  have hblk : ∀ i ∈ range f.kind.shape.1, ∀ j ∈ range f.kind.shape.2,
      |blockSign f i j * ∑ dy ∈ range f.bh, ∑ dx ∈ range f.bw,
        (val (im.px (f.left + i * f.bw + dx) (f.top + j * f.bh + dy)) : Int)| ≤
        (f.bh * f.bw * B : Int) := by
    intro i hi j hj
    rw [mem_range] at hi hj
    have hs : |blockSign f i j| = 1 := by unfold blockSign; split_ifs <;> rfl
    have m1 : (i + 1) * f.bw ≤ f.kind.shape.1 * f.bw := Nat.mul_le_mul_right _ hi
    have m2 : (j + 1) * f.bh ≤ f.kind.shape.2 * f.bh := Nat.mul_le_mul_right _ hj
    rw [Nat.add_mul, Nat.one_mul] at m1 m2
    rw [abs_mul, hs, one_mul, abs_of_nonneg (sum_nonneg fun _ _ => sum_nonneg fun _ _ => by positivity)]
    calc _ ≤ ∑ dy ∈ range f.bh, ∑ dx ∈ range f.bw, (B : Int) := by
          apply sum_le_sum; intro dy hdy
          apply sum_le_sum; intro dx hdx
          rw [mem_range] at hdx hdy
          exact_mod_cast hv _ _ (by omega) (by omega)
      _ = _ := by simp; ring
  calc _ ≤ ∑ i ∈ range f.kind.shape.1, ∑ j ∈ range f.kind.shape.2, (f.bh * f.bw * B : Int) := by
        refine (abs_sum_le_sum_abs _ _).trans (sum_le_sum fun i hi => ?_)
        exact (abs_sum_le_sum_abs _ _).trans (sum_le_sum fun j hj => hblk i hi j hj)
    _ = _ := by simp; ring

/-- C200: on integral images of 8-bit images a release build is exact for images of every size,
also when the sums over the image exceed 32 bits. -/
theorem C200_values (im : Image Nat) (h8 : ∀ x y, im.px x y < 256) (f : Feature)
    (hf : f.Fits im.w im.h) :
    ∃ I, integralImageM false (2 ^ 32) im (fun v => v) = some I ∧
      f.evaluateM false I = some (signedSum (fun v => v) im f) := by
  obtain ⟨I, e, he⟩ := C200_release (fun v => v) im f hf
  refine ⟨I, e, he.trans (congrArg some ?_)⟩
  have hb := signedSum_bound (fun v => v) im f 255 fun x y _ _ => by
    have := h8 x y; omega
  have r3 := hf.right8
  have r4 := hf.bottom8
  have hB : (f.kind.shape.1 * f.kind.shape.2 * (f.bh * f.bw * 255) : Int) ≤ 255 * 255 * 255 := by
    have : f.kind.shape.1 * f.bw * (f.kind.shape.2 * f.bh) ≤ 255 * 255 :=
      Nat.mul_le_mul (by omega) (by omega)
    zify at this
    nlinarith
  have := abs_le.mp (hb.trans hB)
  generalize signedSum (fun v => v) im f = S at *
  rw [Int.bmod_def]
  split <;> omega

/-- C200: on integral images of squares a release build is exact as long as the signed sum fits
into an `i32`; features of at most 33025 pixels always fit. -/
theorem C200_squares_partial (im : Image Nat) (h8 : ∀ x y, im.px x y < 256) (f : Feature)
    (hf : f.Fits im.w im.h)
    (ha : f.kind.shape.1 * f.bw * (f.kind.shape.2 * f.bh) ≤ 33025) :
    ∃ I, integralImageM false (2 ^ 32) im (fun v => v * v) = some I ∧
      f.evaluateM false I = some (signedSum (fun v => v * v) im f) := by
  obtain ⟨I, e, he⟩ := C200_release (fun v => v * v) im f hf
  refine ⟨I, e, he.trans (congrArg some ?_)⟩
  have hb := signedSum_bound (fun v => v * v) im f 65025 fun x y _ _ => by
    have : im.px x y * im.px x y ≤ 255 * 255 := by
      have := h8 x y
      exact Nat.mul_le_mul (by omega) (by omega)
    omega
  have hB : (f.kind.shape.1 * f.kind.shape.2 * (f.bh * f.bw * 65025) : Int) ≤ 33025 * 65025 := by
    zify at ha
    nlinarith
  have := abs_le.mp (hb.trans hB)
  generalize signedSum (fun v => v * v) im f = S at *
  rw [Int.bmod_def]
  split <;> omega

/-- A white image. -/
def whiteImage (n : Nat) : Image Nat := ⟨n, n, fun _ _ => 255⟩

/-- A white image with a black band across the middle third. -/
def bandImage : Image Nat := ⟨255, 255, fun _ y => if 85 ≤ y ∧ y < 170 then 0 else 255⟩

/-- Two pixels side by side near the bottom right corner of a 130 × 130 frame. -/
def cornerFeature : Feature := ⟨true, .twoH, 1, 1, 128, 129⟩

/-- The three rows of blocks that fill a 255 × 255 frame. -/
def fullFeature : Feature := ⟨true, .threeV, 255, 85, 0, 0⟩

theorem white_prefix (n x y : Nat) :
    ∑ j ∈ range y, ∑ i ∈ range x, (whiteImage n).px i j * (whiteImage n).px i j =
      y * (x * 65025) := by
  have : ∀ i j, (whiteImage n).px i j * (whiteImage n).px i j = 65025 := by
    intro i j
    change 255 * 255 = 65025
    norm_num
  simp only [this, sum_const, card_range, smul_eq_mul]

/-- C200: on integral images of squares the claim is false in debug builds: on a white image of
130 × 130 pixels a two pixel feature has the value 0, which a release build returns; a debug build
builds the integral image and panics in the evaluation. -/
theorem C200_negation_debug :
    ∃ I, integralImageM true (2 ^ 32) (whiteImage 130) (fun v => v * v) = some I ∧
      cornerFeature.Fits 130 130 ∧
      signedSum (fun v => v * v) (whiteImage 130) cornerFeature = 0 ∧
      cornerFeature.evaluateM true I = none := by
  obtain ⟨h1, h2⟩ := C157_build (2 ^ 32) (by norm_num) (whiteImage 130) (fun v => v * v)
  have hs : (integralImageM true (2 ^ 32) (whiteImage 130) (fun v => v * v)).isSome := by
    rw [h1]
    rw [white_prefix]
    decide
  obtain ⟨I, hI⟩ := Option.isSome_iff_exists.mp hs
  obtain ⟨hw, hh, hpx⟩ := h2 I hI
  refine ⟨I, hI, ⟨by decide, by decide, by decide, by decide⟩, by decide, ?_⟩
  have hw' : I.w = 131 := hw
  have hh' : I.h = 131 := hh
  have px : ∀ x y, x ≤ 130 → y ≤ 130 → I.px x y = y * (x * 65025) := fun x y hx hy => by
    rw [hpx x y hx hy, white_prefix]
  have g : ∀ x y, x ≤ 130 → y ≤ 130 → I.get x y = some (y * (x * 65025)) := fun x y hx hy => by
    rw [Image.get_of_inB (by omega) (by omega), px x y hx hy]
  have b0 : cornerFeature.blockBoundary 0 0 = some (128, 129) := by decide
  have b1 : cornerFeature.blockBoundary 1 0 = some (129, 129) := by decide
  have hz : sumTermsM true cornerFeature I cornerFeature.kind.terms 0 = none := by
    have e : cornerFeature.kind.terms =
        (1, 0, 0) :: (-2, 1, 0) :: [(1, 2, 0), (-1, 0, 1), (2, 1, 1), (-1, 2, 1)] := rfl
    rw [e]
    unfold sumTermsM forList
    dsimp only
    rw [b0, Option.bind_some, g 128 129 (by omega) (by omega), Option.bind_some]
    have s0 : cki32M true (((1 : Int).natAbs : Int) * asI32 (129 * (128 * 65025))) =
        some 1073692800 := by decide
    rw [s0, Option.bind_some]
    have s1 : cki32M true (0 + (1 : Int).sign * 1073692800) = some 1073692800 := by decide
    rw [s1, Option.bind_some, forList]
    dsimp only
    rw [b1, Option.bind_some, g 129 129 (by omega) (by omega), Option.bind_some]
    have s2 : cki32M true (((-2 : Int).natAbs : Int) * asI32 (129 * (129 * 65025))) = none := by
      decide
    rw [s2, Option.bind_none, Option.bind_none]
  unfold Feature.evaluateM
  rw [hz]
  cases featureSize cornerFeature.kind cornerFeature.bw cornerFeature.bh with
  | none => rfl
  | some size =>
    rw [Option.bind_some, Option.bind_none]
    split <;> rfl

/-- On an image of 70000 × 70000 white pixels, whose integral image has wrapped many times, a
release build still evaluates a feature exactly. -/
example : ∃ I, integralImageM false (2 ^ 32) (whiteImage 70000) (fun v => v) = some I ∧
    (⟨false, .threeH, 2, 3, 100, 7⟩ : Feature).evaluateM false I = some (-1530) := by
  obtain ⟨I, h1, h2⟩ := C200_values (whiteImage 70000) (fun _ _ => by
    change 255 < 256
    omega) ⟨false, .threeH, 2, 3, 100, 7⟩ ⟨by decide, by decide, by decide, by decide⟩
  exact ⟨I, h1, h2.trans (by decide)⟩

/-- C200: in release builds it is false for features whose signed sum does not fit: a white image
with a black middle band has a positive signed sum of squares, and the value returned is
negative. -/
theorem C200_negation_release :
    ∃ I, integralImageM false (2 ^ 32) bandImage (fun v => v * v) = some I ∧
      fullFeature.Fits 255 255 ∧
      signedSum (fun v => v * v) bandImage fullFeature = 2818833750 ∧
      fullFeature.evaluateM false I = some (-1476133546) := by
  have hs : signedSum (fun v => v * v) bandImage fullFeature = 2818833750 := by
    have hblk : ∀ j, j < 3 → ∑ dy ∈ range 85, ∑ dx ∈ range 255,
        ((bandImage.px (0 + 0 * 255 + dx) (0 + j * 85 + dy) *
          bandImage.px (0 + 0 * 255 + dx) (0 + j * 85 + dy) : Nat) : Int) =
        if j = 1 then 0 else 1409416875 := by
      intro j hj
      have : ∀ dy ∈ range 85, ∀ dx ∈ range 255,
          ((bandImage.px (0 + 0 * 255 + dx) (0 + j * 85 + dy) *
          bandImage.px (0 + 0 * 255 + dx) (0 + j * 85 + dy) : Nat) : Int) =
          if j = 1 then 0 else 65025 := by
        intro dy hdy dx _
        rw [mem_range] at hdy
        have hp : bandImage.px (0 + 0 * 255 + dx) (0 + j * 85 + dy) = if j = 1 then 0 else 255 := by
          unfold bandImage
          dsimp only
          split_ifs <;> omega
        rw [hp]
        split <;> rfl
      rw [sum_congr rfl fun dy hdy => sum_congr rfl fun dx hdx => this dy hdy dx hdx]
      simp only [sum_const, card_range, nsmul_eq_mul]
      split <;> norm_num
    unfold signedSum
    have e : fullFeature.kind.shape = (1, 3) := rfl
    rw [e]
    dsimp only
    rw [sum_range_succ, range_zero, sum_empty, zero_add, sum_range_succ, sum_range_succ,
      sum_range_succ, range_zero, sum_empty]
    have e0 := hblk 0 (by omega)
    have e1 := hblk 1 (by omega)
    have e2 := hblk 2 (by omega)
    rw [if_neg (by omega)] at e0 e2
    rw [if_pos rfl] at e1
    unfold fullFeature
    dsimp only
    rw [e0, e1, e2]
    decide
  obtain ⟨I, e, he⟩ := C200_release (fun v => v * v) bandImage fullFeature
    ⟨by decide, by decide, by decide, by decide⟩
  refine ⟨I, e, ⟨by decide, by decide, by decide, by decide⟩, hs, ?_⟩
  rw [he, hs]
  decide

end Verif.Haar
