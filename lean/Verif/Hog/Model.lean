import Verif.Basic.Loop
import Verif.Basic.Image
/-
Model of /repo/src/hog.rs: option checking, the 3d array view, block descriptors and the
interpolated cell histograms.

Simplifications.
* Numbers: `f32` is replaced by an ordered field `K` with exact arithmetic; `sqrt` is a parameter
  of the block normalisation.
* `usize` arithmetic is on `Nat` (no overflow above 2^64); subtraction and `%` by zero do panic.
* The error strings are represented by the list of failed checks, in order.
* A `&mut [T]` subslice is modelled by copying the slice out and writing it back.
-/
namespace Verif.Hog

/-- hog.rs l.9-24 `HogOptions` (the `signed` flag only selects the direction range). -/
structure Options where
  orientations : Nat
  signed : Bool
  cellSide : Nat
  blockSide : Nat
  blockStride : Nat
deriving DecidableEq, Repr

/-- hog.rs l.46-60 `HogSpec`. -/
structure Spec where
  options : Options
  cellsWide : Nat
  cellsHigh : Nat
  blocksWide : Nat
  blocksHigh : Nat
deriving DecidableEq, Repr

/-- The four reasons listed in the error message (l.90-99, 116-127). -/
inductive Reason
  | cellWidth | cellHeight | blockWidth | blockHeight
deriving DecidableEq, Repr

/-- `a % b` of Rust: panics when `b = 0`. -/
def cmod (a b : Nat) : Option Nat := if b = 0 then none else some (a % b)

/-- hog.rs l.83-106 `checked_cell_dimensions`. -/
def checkedCellDimensions (width height : Nat) (o : Options) :
    Option (Except (List Reason) (Nat × Nat)) :=
  (cmod width o.cellSide).bind fun rw =>
  let errors := if rw ≠ 0 then [Reason.cellWidth] else []
  (cmod height o.cellSide).bind fun rh =>
  let errors := if rh ≠ 0 then errors ++ [Reason.cellHeight] else errors
  if errors ≠ [] then some (.error errors)
  else some (.ok (width / o.cellSide, height / o.cellSide))

/-- hog.rs l.185-187 `num_blocks`; `none` on subtraction underflow or division by zero. -/
def numBlocks (numCells blockSide blockStride : Nat) : Option Nat :=
  (csub (numCells + blockStride) blockSide).bind fun d =>
  if blockStride = 0 then none else some (d / blockStride)

/-- hog.rs l.108-135 `checked_block_dimensions`. -/
def checkedBlockDimensions (cellsWide cellsHigh : Nat) (o : Options) :
    Option (Except (List Reason) (Nat × Nat)) :=
  (csub cellsWide o.blockSide).bind fun dw =>
  (cmod dw o.blockStride).bind fun rw =>
  let errors := if rw ≠ 0 then [Reason.blockWidth] else []
  (csub cellsHigh o.blockSide).bind fun dh =>
  (cmod dh o.blockStride).bind fun rh =>
  let errors := if rh ≠ 0 then errors ++ [Reason.blockHeight] else errors
  if errors ≠ [] then some (.error errors)
  else
    (numBlocks cellsWide o.blockSide o.blockStride).bind fun bw =>
    (numBlocks cellsHigh o.blockSide o.blockStride).bind fun bh =>
    some (.ok (bw, bh))

/-- hog.rs l.64-77 `HogSpec::from_options`; `none` is a panic. -/
def fromOptions (width height : Nat) (o : Options) : Option (Except (List Reason) Spec) :=
  (checkedCellDimensions width height o).bind fun r =>
  match r with
  | .error e => some (.error e)
  | .ok (cw, ch) =>
    (checkedBlockDimensions cw ch o).bind fun r =>
    match r with
    | .error e => some (.error e)
    | .ok (bw, bh) => some (.ok ⟨o, cw, ch, bw, bh⟩)

/-- hog.rs l.143-146 `block_descriptor_length`. -/
def Spec.blockDescriptorLength (s : Spec) : Nat :=
  s.options.orientations * s.options.blockSide * s.options.blockSide

/-- hog.rs l.138-140 `descriptor_length`. -/
def Spec.descriptorLength (s : Spec) : Nat :=
  s.blocksWide * s.blocksHigh * s.blockDescriptorLength

/-- hog.rs l.150-153 `cell_grid_lengths`. -/
def Spec.cellGridLengths (s : Spec) : Nat × Nat × Nat :=
  (s.options.orientations, s.cellsWide, s.cellsHigh)

/-- hog.rs l.157-163 `block_grid_lengths`. -/
def Spec.blockGridLengths (s : Spec) : Nat × Nat × Nat :=
  (s.blockDescriptorLength, s.blocksWide, s.blocksHigh)

/-- hog.rs l.167-173 `block_internal_lengths`. -/
def Spec.blockInternalLengths (s : Spec) : Nat × Nat × Nat :=
  (s.options.orientations, s.options.blockSide, s.options.blockSide)

/-- hog.rs l.177-179 `cell_area`. -/
def Spec.cellArea (s : Spec) : Nat := s.options.cellSide * s.options.cellSide

/-- hog.rs l.489-491 `View3d::offset`. -/
def offset (l : Nat × Nat × Nat) (i j k : Nat) : Nat := k * l.2.1 * l.1 + j * l.1 + i

/-- hog.rs l.495-497 `data_length`. -/
def dataLength (l : Nat × Nat × Nat) : Nat := l.1 * l.2.1 * l.2.2

variable {K : Type _}

/-- Rust `&data[off..off + len]`. -/
def slice (data : List K) (off len : Nat) : Option (List K) :=
  if off + len ≤ data.length then some ((data.drop off).take len) else none

/-- Write `src` back over the subslice of `data` starting at `off`. -/
def writeSlice (data : List K) (off : Nat) (src : List K) : List K :=
  data.take off ++ src ++ data.drop (off + src.length)

/-- hog.rs l.477-487 `inner_slice` / `inner_slice_mut`. -/
def innerSlice (data : List K) (l : Nat × Nat × Nat) (x1 x2 : Nat) : Option (List K) :=
  slice data (offset l 0 x1 x2) l.1

/-- hog.rs l.250-252 `copy`: the new contents of `to`. -/
def copyInto (src to : List K) : Option (List K) := slice src 0 to.length

/-- hog.rs l.218-227: fill the block at `(bx, by)` from the cell histograms. -/
def fillBlock (spec : Spec) (grid : List K) (bx by_ : Nat) (block : List K) : Option (List K) :=
  forYX 0 spec.options.blockSide 0 spec.options.blockSide block fun ix iy block =>
    (innerSlice block spec.blockInternalLengths ix iy).bind fun dst =>
    (innerSlice grid spec.cellGridLengths (bx * spec.options.blockStride + ix)
      (by_ * spec.options.blockStride + iy)).bind fun hist =>
    (copyInto hist dst).bind fun new =>
    some (writeSlice block (offset spec.blockInternalLengths 0 ix iy) new)

/-- hog.rs l.206-242 `hog_descriptor_from_hist_grid`; `norm` is `l2_norm` (math.rs l.9-11). -/
def descriptorFromGrid [Zero K] [LT K] [DecidableLT K] [Div K] (norm : List K → K) (grid : List K)
    (spec : Spec) : Option (List K) :=
  (forYX 0 spec.blocksHigh 0 spec.blocksWide
    (List.replicate (dataLength spec.blockGridLengths) 0) fun bx by_ data =>
      (innerSlice data spec.blockGridLengths bx by_).bind fun block =>
      (fillBlock spec grid bx by_ block).bind fun block =>
      some (writeSlice data (offset spec.blockGridLengths 0 bx by_) block)).bind fun data =>
  forYX 0 spec.blocksHigh 0 spec.blocksWide data fun bx by_ data =>
    (innerSlice data spec.blockGridLengths bx by_).bind fun block =>
    let n := norm block
    if 0 < n then
      some (writeSlice data (offset spec.blockGridLengths 0 bx by_) (block.map (· / n)))
    else some data

/-- hog.rs l.335-365 `Interpolation`. -/
structure Interp (K : Type _) where
  i0 : Nat
  i1 : Nat
  w0 : K
  w1 : K

/-- hog.rs l.346-353 `from_position`; `floor` is the integer part as a natural number
(`pos as usize`), positions are non-negative. -/
def fromPosition [One K] [Sub K] [NatCast K] (floor : K → Nat) (pos : K) : Interp K :=
  let f := pos - (floor pos : K)
  ⟨floor pos, floor pos + 1, 1 - f, f⟩

/-- hog.rs l.355-364 `from_position_wrapping`. -/
def fromPositionWrapping [One K] [Sub K] [NatCast K] (floor : K → Nat) (pos : K) (length : Nat) :
    Interp K :=
  let right := floor pos + 1
  let right := if right ≥ length then 0 else right
  let f := pos - (floor pos : K)
  ⟨floor pos, right, 1 - f, f⟩

/-- hog.rs l.336 `indices[i]`. -/
def Interp.idx (t : Interp K) (i : Nat) : Nat := if i = 0 then t.i0 else t.i1
/-- hog.rs l.337 `weights[i]`. -/
def Interp.wt (t : Interp K) (i : Nat) : K := if i = 0 then t.w0 else t.w1

/-- hog.rs l.461-463 `at_mut` read / write with Rust bounds check. -/
def addAt [Add K] (data : List K) (off : Nat) (v : K) : Option (List K) :=
  (data[off]?).bind fun c => some (data.set off (c + v))

/-- hog.rs l.256-312 `cell_histograms`.  The gradient magnitude `m x y` and the position
`pos x y = d / interval` of its direction on the orientation axis are parameters (they are computed
from the two Sobel responses by `sqrt` and `atan2`). -/
def cellHistograms [Zero K] [One K] [Add K] [Sub K] [Mul K] [Div K] [NatCast K] (floor : K → Nat)
    (width height : Nat) (m pos : Nat → Nat → K) (spec : Spec) : Option (List K) :=
  forYX 0 height 0 width (List.replicate (dataLength spec.cellGridLengths) 0) fun x y grid =>
    let yi := fromPosition floor ((y : K) / (spec.options.cellSide : K))
    let xi := fromPosition floor ((x : K) / (spec.options.cellSide : K))
    let oi := fromPositionWrapping floor (pos x y) spec.options.orientations
    forRange 0 2 grid fun iy grid =>
    forRange 0 2 grid fun ix grid =>
    forRange 0 2 grid fun io grid =>
      if xi.idx ix < spec.cellGridLengths.2.1 ∧ yi.idx iy < spec.cellGridLengths.2.2 then
        addAt grid (offset spec.cellGridLengths (oi.idx io) (xi.idx ix) (yi.idx iy))
          (yi.wt iy * xi.wt ix * oi.wt io * m x y / (spec.cellArea : K))
      else some grid

/-- hog.rs l.325-331 `direction_range`. -/
def directionRange [Add K] (pi : K) (signed : Bool) : K := if signed then pi + pi else pi

/-- hog.rs l.280-286: fold an `atan2` result into the direction range. -/
def foldDirection [Zero K] [Add K] [Sub K] [LT K] [LE K] [DecidableLT K] [DecidableLE K] (pi : K)
    (signed : Bool) (d : K) : K :=
  let d := if d < 0 then d + directionRange pi signed else d
  if !signed ∧ pi ≤ d then d - pi else d

/-- hog.rs l.192-202 `hog`, with the magnitudes `m` and raw directions `d` (`atan2`) of the
gradients as parameters; l.288-289 gives the position `d / interval`, l.320-322 the interval. -/
def hog [Zero K] [One K] [Add K] [Sub K] [Mul K] [Div K] [NatCast K] [LT K] [LE K] [DecidableLT K]
    [DecidableLE K] (floor : K → Nat) (norm : List K → K) (pi : K) (width height : Nat)
    (m d : Nat → Nat → K) (o : Options) : Option (Except (List Reason) (List K)) :=
  (fromOptions width height o).bind fun r =>
  match r with
  | .error e => some (.error e)
  | .ok spec =>
    (cellHistograms floor width height m (fun x y => foldDirection pi o.signed (d x y) /
      (directionRange pi o.signed / (o.orientations : K))) spec).bind fun grid =>
    (descriptorFromGrid norm grid spec).bind fun desc =>
    some (.ok desc)

end Verif.Hog
