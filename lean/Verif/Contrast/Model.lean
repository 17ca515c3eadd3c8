import Verif.Stats.Model
import Verif.Integral.Model
import Mathlib.Data.Rat.Floor
/-
Model of src/contrast.rs (`kapur_level` is modelled in Verif/Contrast/Kapur.lean).
`f32`/`f64` are exact rationals; `u8` samples are natural numbers.
-/
namespace Verif.Contrast
open Verif.Stats

/-- Checked `u32` multiplication (panics on overflow as in a debug build). -/
def cmul32 (a b : Nat) : Option Nat := if a * b < 2 ^ 32 then some (a * b) else none

/-- `adaptive_threshold` (src/contrast.rs:19-47).  Signed arithmetic on coordinates, radius and
`delta` is unbounded here; the integral image lookups are checked `u32`. -/
def adaptiveThreshold (im : Image Nat) (r : Nat) (delta : Int) : Option (Image Nat) :=
  if 0 < r then
    (Integral.integralImage im fun v => v).bind fun integral =>
    forYX 0 im.h 0 im.w (Image.new im.w im.h 0) fun x y out =>
      (im.get x y).bind fun cur =>
      (csub im.h 1).bind fun h1 => (csub im.w 1).bind fun w1 =>
      let yLow := (max 0 ((y : Int) - r)).toNat
      let yHigh := min h1 (y + r)
      let xLow := (max 0 ((x : Int) - r)).toNat
      let xHigh := min w1 (x + r)
      (csub yHigh yLow).bind fun dh => (csub xHigh xLow).bind fun dw =>
      let w := (dh + 1) * (dw + 1)
      (Integral.sumImagePixels (2 ^ 32) integral xLow yLow xHigh yHigh).bind fun sum =>
      let mean := sum / w
      if (cur : Int) ≥ (mean : Int) - delta then out.put x y 255 else some out
  else none

/-- The class statistics threaded through the scan of `otsu_level`. -/
structure OtsuState where
  bw : Nat
  bsum : ℚ
  largest : ℚ
  best : Nat

/-- The quantity maximised by `otsu_level` (src/contrast.rs:89-94), from the weights and pixel sums
of the two classes. -/
def otsuVal (bw fw : Nat) (bsum fsum : ℚ) : ℚ :=
  let bmean := bsum / (bw : ℚ)
  let fmean := fsum / (fw : ℚ)
  (bw : ℚ) * (fw : ℚ) * (bmean - fmean) ^ 2

/-- The scan of `otsu_level` (src/contrast.rs:75-100) over the bins `t, t+1, …` (`k` of them);
the first two exits are the `continue` and the `break`.  The rounding `r` of the sums and the
computation `val` of the variance are parameters. -/
def otsuScanWith (r : ℚ → ℚ) (val : Nat → Nat → ℚ → ℚ → ℚ) (hist : Nat → Nat) (totalWeight : Nat)
    (totalSum : ℚ) : Nat → Nat → OtsuState → Option OtsuState
  | 0, _, s => some s
  | k + 1, t, s =>
    let bw := s.bw + hist t
    if bw = 0 then otsuScanWith r val hist totalWeight totalSum k (t + 1) { s with bw := bw }
    else
      (csub totalWeight bw).bind fun fw =>
      if fw = 0 then some { s with bw := bw }
      else
        (cmul32 t (hist t)).bind fun prod =>
        let bsum := r (s.bsum + (prod : ℚ))
        let fsum := r (totalSum - bsum)
        let v := val bw fw bsum fsum
        otsuScanWith r val hist totalWeight totalSum k (t + 1)
          (if v > s.largest then ⟨bw, bsum, v, t⟩ else ⟨bw, bsum, s.largest, s.best⟩)

/-- `otsu_level` (src/contrast.rs:52-103): `u32` products checked, rounding and variance as
parameters. -/
def otsuLevelWith (r : ℚ → ℚ) (val : Nat → Nat → ℚ → ℚ → ℚ) (im : Image Nat) : Option Nat :=
  (histogram 1 (gray im)).bind fun hist =>
  (cmul32 im.w im.h).bind fun totalWeight =>
  (forRange 0 256 (0 : ℚ) fun t sum => (cmul32 t (hist 0 t)).map fun p => r (sum + (p : ℚ))).bind
    fun totalSum =>
  (otsuScanWith r val (hist 0) totalWeight totalSum 256 0 ⟨0, 0, 0, 0⟩).map OtsuState.best

/-- `otsu_level` (src/contrast.rs:52-103) with `f64` as rationals. -/
def otsuLevel (im : Image Nat) : Option Nat := otsuLevelWith (fun x => x) otsuVal im

/-- `ThresholdType` (src/contrast.rs:174-185). -/
inductive ThresholdType
  | binary | binaryInverted | truncate | toZero | toZeroInverted

/-- `threshold_mut` (src/contrast.rs:254-282). -/
def threshold (im : Image Nat) (t : Nat) : ThresholdType → Image Nat
  | .binary => { im with px := fun x y => if im.px x y > t then 255 else 0 }
  | .binaryInverted => { im with px := fun x y => if im.px x y > t then 0 else 255 }
  | .truncate => { im with px := fun x y => if im.px x y > t then t else im.px x y }
  | .toZero => { im with px := fun x y => if im.px x y > t then 0 else im.px x y }
  | .toZeroInverted => { im with px := fun x y => if im.px x y > t then im.px x y else 0 }

/-- `equalize_histogram_mut` (src/contrast.rs:292-311), `f32` as rationals and `as u8` as
truncation. The closure is applied to each pixel independently (rayon or not). -/
def equalize (im : Image Nat) : Option (Image Nat) :=
  (cumulativeHistogram 1 (gray im)).map fun cum =>
    { im with px := fun x y =>
        (⌊min 255 (255 * ((cum 0 (im.px x y) : ℚ) / (cum 0 255 : ℚ)))⌋).toNat }

/-- Checked `u16` multiplication. -/
def cmul16 (a b : Nat) : Option Nat := if a * b < 2 ^ 16 then some (a * b) else none

/-- The per-sample closure of `stretch_contrast_mut` (src/contrast.rs:394-406). -/
def stretchSample (imin imax omin omax c : Nat) : Option Nat :=
  if c ≤ imin then some (omin % 256)
  else if c ≥ imax then some (omax % 256)
  else (csub imax imin).bind fun iw => (csub omax omin).bind fun ow =>
    (csub c imin).bind fun d => (cmul16 d ow).bind fun p =>
    if iw = 0 then none else some ((p / iw + omin) % 256)

/-- `stretch_contrast_mut` (src/contrast.rs:368-409) on one colour channel (the alpha channel is
left alone by `map_without_alpha`). -/
def stretchContrast (im : Image Nat) (imin imax omin omax : Nat) : Option (Image Nat) :=
  if imin < imax ∧ omin ≤ omax then
    forYX 0 im.h 0 im.w im fun x y out =>
      (out.get x y).bind fun c => (stretchSample imin imax omin omax c).bind fun v => out.put x y v
  else none

/-- The `while` of `histogram_lut` (src/contrast.rs:443-447); at most `255 - y` iterations. -/
def lutAdvance (target : Nat → ℚ) (source : ℚ) : Nat → Nat × ℚ → Nat × ℚ
  | 0, s => s
  | k + 1, (y, prev) =>
    if source > target y ∧ y < 255 then lutAdvance target source k (y + 1, target y)
    else (y, prev)

/-- `histogram_lut` (src/contrast.rs:431-463) over exact arithmetic: state `y`,
`prev_target_fraction` and the table. -/
def histogramLut (source target : Nat → Nat) : Option (Nat → Nat) :=
  let tf : Nat → ℚ := fun y => (target y : ℚ) / (target 255 : ℚ)
  (forRange 0 256 ((0, 0), fun _ => 0) fun s (st : (Nat × ℚ) × (Nat → Nat)) =>
    let sf : ℚ := (source s : ℚ) / (source 255 : ℚ)
    let (y, prev) := lutAdvance tf sf 255 st.1
    let v := if y = 0 then y
      else if |prev - sf| < |tf y - sf| then y - 1 else y
    some ((y, prev), fun i => if i = s then v else st.2 i)).map Prod.snd

/-- `match_histogram_mut` (src/contrast.rs:419-427). -/
def matchHistogram (im target : Image Nat) : Option (Image Nat) :=
  (cumulativeHistogram 1 (gray im)).bind fun a =>
  (cumulativeHistogram 1 (gray target)).bind fun b =>
  (histogramLut (a 0) (b 0)).map fun lut =>
    { im with px := fun x y => lut (im.px x y) }

end Verif.Contrast
