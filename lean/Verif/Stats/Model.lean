import Verif.Basic.Image
import Mathlib.Data.Rat.Defs
import Mathlib.Algebra.Field.Rat
/-
Model of src/stats.rs.  8-bit samples are natural numbers; indexing a 256-entry array with
a value above 255 is a panic, so the model stays faithful for any sample.  The `u32` counters
are unbounded (an image with 2^32 or more pixels could overflow a counter in the code).
-/
namespace Verif.Stats

/-- `Vec<[u32; 256]>`: channel, then bin (src/stats.rs:77-80, 99-102). -/
abbrev Hist := Nat → Nat → Nat

/-- `hist[i][c] += 1` (src/stats.rs:91). -/
def bump (hist : Hist) (i c : Nat) : Option Hist :=
  if c < 256 then some fun a b => if a = i ∧ b = c then hist i c + 1 else hist a b else none

/-- `histogram` (src/stats.rs:83-96); `n` is `P::CHANNEL_COUNT`, a pixel is its channels. -/
def histogram (n : Nat) (im : Image (Nat → Nat)) : Option Hist :=
  forYX 0 im.h 0 im.w (fun _ _ => 0) fun x y hist =>
    (im.get x y).bind fun pix => forRange 0 n hist fun i hist => bump hist i (pix i)

/-- `cumulative_histogram` (src/stats.rs:105-120). -/
def cumulativeHistogram (n : Nat) (im : Image (Nat → Nat)) : Option Hist :=
  (histogram n im).bind fun hist =>
    forRange 0 n hist fun c hist => forRange 1 256 hist fun i hist =>
      some fun a b => if a = c ∧ b = i then hist c i + hist c (i - 1) else hist a b

/-- A `GrayImage` as a one-channel image. -/
def gray (im : Image Nat) : Image (Nat → Nat) := ⟨im.w, im.h, fun x y _ => im.px x y⟩

/-- The search loop of `percentile` (src/stats.rs:162-168): first index from `i` on satisfying
the test, among `k` indices; `none` is `unreachable!()`. -/
def firstIdx (ok : Nat → Bool) : Nat → Nat → Option Nat
  | 0, _ => none
  | k + 1, i => if ok i then some i else firstIdx ok k (i + 1)

/-- `percentile` (src/stats.rs:156-169).  An empty image divides by zero (panic). -/
def percentile (im : Image Nat) (p : Nat) : Option Nat :=
  if p ≤ 100 then
    (cumulativeHistogram 1 (gray im)).bind fun cum =>
      let total := cum 0 255
      if total = 0 then none
      else firstIdx (fun i => decide (p ≤ 100 * cum 0 i / total)) 256 0
  else none

/-- `min_max` (src/stats.rs:42-74) over an ordered sample type: per channel the running minimum
and maximum, `none` for an empty image (assertion). -/
def minMax (n : Nat) (im : Image (Nat → Int)) : Option (Nat → Option Int × Option Int) :=
  if im.w = 0 ∨ im.h = 0 then none
  else forYX 0 im.h 0 im.w (fun _ => (none, none)) fun x y r =>
    (im.get x y).bind fun pix => forRange 0 n r fun i r =>
      let c := pix i
      let mn := match (r i).1 with
        | none => some c
        | some v => if c < v then some c else some v
      let mx := match (r i).2 with
        | none => some c
        | some v => if v < c then some c else some v
      some fun j => if j = i then (mn, mx) else r j

/-- `mean_squared_error` (src/stats.rs:201-221) over exact arithmetic: sum of squared
differences of all samples divided by the number of samples; panics on different sizes.  An
empty image divides by zero: NaN in the code, `0` here, so the theorems assume non-empty images.
The `u32` product of the count is unbounded here. -/
def meanSquaredError (n : Nat) (a b : Image (Nat → ℚ)) : Option ℚ :=
  if a.w = b.w ∧ a.h = b.h then
    (forYX 0 a.h 0 a.w (0 : ℚ) fun x y s =>
      (a.get x y).bind fun p => (b.get x y).bind fun q =>
        forRange 0 n s fun i s => some (s + (p i - q i) * (p i - q i))).map fun s =>
          s / ((a.w * a.h * n : Nat) : ℚ)
  else none

end Verif.Stats
