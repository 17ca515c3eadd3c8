import Verif.Basic.Image
import Mathlib.Algebra.Order.Ring.Rat
import Mathlib.Algebra.Field.Rat
/-
Model of src/distance_transform.rs: the two-sweep L1/LInf transform and the squared Euclidean
transform by lower envelopes of parabolas.

`u8` pixels are naturals; the `as u8` casts are `% 256`.  `f64` is modelled by rationals together
with `±∞` and `NaN`.  Every `f64` operation is followed by a rounding function `ro`: the identity
gives exact arithmetic (`euclideanSquared`), rounding to 53 bits gives binary64 (C123).  The unsafe pixel accesses are `Image.get`/`put`, so an
out-of-bounds access is `none`, and the theorems show it never happens.
-/
namespace Verif.Distance

/-- `DistanceFrom` (src/distance_transform.rs:101-105). -/
inductive From
  | foreground
  | background
  deriving DecidableEq

/-- The test of a source pixel (src/distance_transform.rs:143-151). -/
def isSource (d : From) (v : Nat) : Bool :=
  match d with
  | .foreground => v > 0
  | .background => v = 0

/-- `check` (src/distance_transform.rs:201-213). -/
def check (im : Image Nat) (x y cx cy : Nat) : Option (Image Nat) :=
  (im.get x y).bind fun current =>
  (im.get cx cy).bind fun cand =>
  if cand + 1 < current then im.put x y ((cand + 1) % 256) else some im

/-- `if c { check(..) }`. -/
def checkIf (c : Bool) (im : Image Nat) (x y cx cy : Nat) : Option (Image Nat) :=
  if c then check im x y cx cy else some im

/-- Body of the forward sweep (src/distance_transform.rs:143-171). -/
def fwdBody (linf : Bool) (d : From) (maxD : Nat) (x y : Nat) (im : Image Nat) :
    Option (Image Nat) :=
  (im.get x y).bind fun v =>
  if isSource d v then im.put x y 0
  else
    (im.put x y maxD).bind fun im =>
    (checkIf (x > 0) im x y (x - 1) y).bind fun im =>
    if y > 0 then
      (check im x y x (y - 1)).bind fun im =>
      if linf then
        (checkIf (x > 0) im x y (x - 1) (y - 1)).bind fun im =>
        checkIf (x < im.w - 1) im x y (x + 1) (y - 1)
      else some im
    else some im

/-- Body of the backward sweep (src/distance_transform.rs:178-193). -/
def bwdBody (linf : Bool) (x y : Nat) (im : Image Nat) : Option (Image Nat) :=
  (checkIf (x < im.w - 1) im x y (x + 1) y).bind fun im =>
  if y < im.h - 1 then
    (check im x y x (y + 1)).bind fun im =>
    if linf then
      (checkIf (x < im.w - 1) im x y (x + 1) (y + 1)).bind fun im =>
      checkIf (x > 0) im x y (x - 1) (y + 1)
    else some im
  else some im

/-- `max_distance` (src/distance_transform.rs:131). -/
def maxDistance (im : Image Nat) : Nat := min (im.w + im.h) 255 % 256

/-- `distance_transform_impl_linf_or_l1` (src/distance_transform.rs:127-196); a `.rev()` loop is
the forward loop with reflected indices. -/
def sweeps (linf : Bool) (d : From) (im : Image Nat) : Option (Image Nat) :=
  (forYX 0 im.h 0 im.w im (fwdBody linf d (maxDistance im))).bind fun im =>
  forYX 0 im.h 0 im.w im fun i j im' => bwdBody linf (im.w - 1 - i) (im.h - 1 - j) im'

/-- `f64` values (signed zeros are not told apart). -/
inductive F
  | nan
  | negInf
  | fin (q : ℚ)
  | posInf

/-- `a <= b` on `f64`. -/
def F.le : F → F → Bool
  | .nan, _ => false
  | _, .nan => false
  | .negInf, _ => true
  | _, .posInf => true
  | .fin a, .fin b => a ≤ b
  | _, _ => false

/-- `a < b` on `f64`. -/
def F.lt : F → F → Bool
  | .nan, _ => false
  | _, .nan => false
  | .negInf, .negInf => false
  | .negInf, _ => true
  | .posInf, _ => false
  | _, .posInf => true
  | .fin a, .fin b => a < b
  | _, _ => false

/-- `LowerEnvelope` (src/distance_transform.rs:255-263): two vectors of lengths `n` and `n + 1`.
Only indices inside those lengths are read or written, through `rd` and `wr`. -/
structure Env where
  loc : Nat → Nat
  bnd : Nat → F

/-- Indexed read of a vector of length `n`. -/
def rd {β : Type} (n : Nat) (a : Nat → β) (i : Nat) : Option β := if i < n then some (a i) else none

/-- Indexed write of a vector of length `n`. -/
def wr {β : Type} (n : Nat) (a : Nat → β) (i : Nat) (v : β) : Option (Nat → β) :=
  if i < n then some (fun j => if j = i then v else a j) else none

/-- `LowerEnvelope::new` (src/distance_transform.rs:266-271). -/
def Env.new : Env := ⟨fun _ => 0, fun _ => .nan⟩

/-- `intersection` (src/distance_transform.rs:426-440) for `p ≠ q`; a source value is `none` for
`+∞`. -/
def intersection (ro : ℚ → ℚ) (f : Nat → Option ℚ) (p q : Nat) : F :=
  match f q, f p with
  | some fq, some fp =>
    let p : ℚ := ro p
    let q : ℚ := ro q
    .fin (ro (ro (ro (fq + ro (q * q)) - ro (fp + ro (p * p))) / ro (ro (2 * q) - ro (2 * p))))
  | some _, none => .negInf
  | none, some _ => .posInf
  | none, none => .nan

/-- `while s <= boundaries[k] { k -= 1; s = intersection(..) }`
(src/distance_transform.rs:395-402); `none` also stands for running out of fuel. -/
def popLoop (ro : ℚ → ℚ) (n : Nat) (f : Nat → Option ℚ) (e : Env) (q : Nat) :
    Nat → Nat → F → Option (Nat × F)
  | 0, _, _ => none
  | fuel + 1, k, s =>
    (rd (n + 1) e.bnd k).bind fun b =>
    if F.le s b then
      (csub k 1).bind fun k =>
      (rd n e.loc k).bind fun p =>
      popLoop ro n f e q fuel k (intersection ro f p q)
    else some (k, s)

/-- Writing location `k` and boundaries `k`, `k + 1`. -/
def setPar (n : Nat) (e : Env) (k q : Nat) (s : F) : Option Env :=
  (wr n e.loc k q).bind fun loc =>
  (wr (n + 1) e.bnd k s).bind fun bnd =>
  (wr (n + 1) bnd (k + 1) .posInf).map fun bnd => ⟨loc, bnd⟩

/-- One step of the construction of the envelope (src/distance_transform.rs:374-408). -/
def addPar (ro : ℚ → ℚ) (n : Nat) (f : Nat → Option ℚ) (q : Nat) (st : Nat × Env) :
    Option (Nat × Env) :=
  if (f q).isNone then some st
  else
    (rd n st.2.loc st.1).bind fun p =>
    if st.1 = 0 ∧ (f p).isNone then
      (setPar n st.2 st.1 q .negInf).map fun e => (st.1, e)
    else
      (popLoop ro n f st.2 q (st.1 + 1) st.1 (intersection ro f p q)).bind fun r =>
      (setPar n st.2 (r.1 + 1) q r.2).map fun e => (r.1 + 1, e)

/-- `while boundaries[k + 1] < q { k += 1 }` (src/distance_transform.rs:412-414). -/
def advance (ro : ℚ → ℚ) (n : Nat) (e : Env) (q : Nat) : Nat → Nat → Option Nat
  | 0, _ => none
  | fuel + 1, k =>
    (rd (n + 1) e.bnd (k + 1)).bind fun b =>
    if F.lt b (.fin (ro q)) then advance ro n e q fuel (k + 1) else some k

/-- `distance_transform_1d_mut` (src/distance_transform.rs:355-419) of a source `f` of length `n`
into a sink given by its `put` function. -/
def transform1d {σ : Type} (ro : ℚ → ℚ) (n : Nat) (f : Nat → Option ℚ)
    (put : Nat → Option ℚ → σ → Option σ) (sink : σ) (e : Env) : Option (σ × Env) :=
  if n = 0 then some (sink, e)
  else
    (setPar n e 0 0 .negInf).bind fun e =>
    (forRange 1 n (0, e) (addPar ro n f)).bind fun st =>
    (forRange 0 n (sink, 0) fun q r =>
      (advance ro n st.2 q (n + 1) r.2).bind fun k =>
      (rd n st.2.loc k).bind fun p =>
      let dist := ro (ro (q : ℚ) - ro (p : ℚ))
      (put q ((f p).map fun v => ro (ro (dist * dist) + v)) r.1).map fun sk => (sk, k)).map
    fun r => (r.1, st.2)

/-- `Column::get` (src/distance_transform.rs:337-349). -/
def columnGet (im : Image Nat) (x : Nat) (i : Nat) : Option ℚ :=
  if im.px x i > 0 then some 0 else none

/-- `euclidean_squared_distance_transform` (src/distance_transform.rs:222-253). -/
def euclideanSquaredR (ro : ℚ → ℚ) (im : Image Nat) : Option (Image (Option ℚ)) :=
  (forRange 0 im.w (Image.new im.w im.h (some (0 : ℚ)), Env.new) fun x r =>
    transform1d ro im.h (columnGet im x) (fun i v (o : Image (Option ℚ)) => o.put x i v) r.1
      r.2).bind fun r =>
  (forRange 0 im.h (r.1, Env.new) fun y r =>
    let rowBuffer := fun x => r.1.px x y
    transform1d ro im.w rowBuffer (fun i v (o : Image (Option ℚ)) => o.put i y v) r.1 r.2).map
    fun r => r.1

/-- `euclidean_squared_distance_transform` in exact arithmetic. -/
def euclideanSquared (im : Image Nat) : Option (Image (Option ℚ)) := euclideanSquaredR id im

end Verif.Distance
