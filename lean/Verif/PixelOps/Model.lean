import Verif.Definitions.Clamp
/-
Model of `/repo/src/pixelops.rs`.  A pixel with channel set `ι` is a function `ι → Nat`; the channel
type is the unsigned integer type with maximum `mx`.  `f32` arithmetic is exact rational arithmetic.
-/
namespace Verif.PixelOps
open Verif.Definitions

variable {ι : Type _}

/-- `weighted_channel_sum`, pixelops.rs:57-62. -/
def weightedChannelSum (mx : Nat) (left right : Nat) (lw rw : ℚ) : Nat :=
  (clampQ 0 mx ((left : ℚ) * lw + (right : ℚ) * rw)).toNat

/-- `weighted_sum`, pixelops.rs:23-30 (`map2` combines the channels one by one). -/
def weightedSum (mx : Nat) (left right : ι → Nat) (lw rw : ℚ) : ι → Nat :=
  fun c => weightedChannelSum mx (left c) (right c) lw rw

/-- `interpolate`, pixelops.rs:49-54. -/
def interpolate (mx : Nat) (left right : ι → Nat) (lw : ℚ) : ι → Nat :=
  weightedSum mx left right lw (1 - lw)

end Verif.PixelOps
