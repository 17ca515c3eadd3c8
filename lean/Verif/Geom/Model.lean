import Verif.Basic.Image
import Mathlib.Algebra.Order.Field.Basic
import Mathlib.Algebra.Order.Field.Rat
import Mathlib.Data.Rat.Floor
/-
Model of the projection and warp part of src/geometric_transformations.rs.
`f32` is replaced by an exact ordered field `K` (projections) or by rationals (interpolation);
infinities and NaN produced by dividing by zero are an explicit `nonFinite` outcome.
-/
namespace Verif.Geom

/-- `TransformationClass` (src/geometric_transformations.rs:11-15). -/
inductive Class
  | translation | affine | projection
  deriving DecidableEq

/-- A 3x3 matrix, `[f32; 9]` in row order. -/
structure M33 (K : Type _) where
  (m00 m01 m02 m10 m11 m12 m20 m21 m22 : K)
  deriving DecidableEq

/-- `Projection` (src/geometric_transformations.rs:36-40). -/
structure Projection (K : Type _) where
  transform : M33 K
  inverse : M33 K
  cls : Class

variable {K : Type _} [Field K] [LinearOrder K]

/-- `mul3x3` (src/geometric_transformations.rs:722-736). -/
def mul3x3 (a b : M33 K) : M33 K :=
  ⟨a.m00 * b.m00 + a.m01 * b.m10 + a.m02 * b.m20,
   a.m00 * b.m01 + a.m01 * b.m11 + a.m02 * b.m21,
   a.m00 * b.m02 + a.m01 * b.m12 + a.m02 * b.m22,
   a.m10 * b.m00 + a.m11 * b.m10 + a.m12 * b.m20,
   a.m10 * b.m01 + a.m11 * b.m11 + a.m12 * b.m21,
   a.m10 * b.m02 + a.m11 * b.m12 + a.m12 * b.m22,
   a.m20 * b.m00 + a.m21 * b.m10 + a.m22 * b.m20,
   a.m20 * b.m01 + a.m21 * b.m11 + a.m22 * b.m21,
   a.m20 * b.m02 + a.m21 * b.m12 + a.m22 * b.m22⟩

/-- `normalize` (src/geometric_transformations.rs:677-689); `none` stands for the non-finite
entries obtained when the corner entry is zero. -/
def normalize (m : M33 K) : Option (M33 K) :=
  if m.m22 = 0 then none
  else some ⟨m.m00 / m.m22, m.m01 / m.m22, m.m02 / m.m22, m.m10 / m.m22, m.m11 / m.m22,
    m.m12 / m.m22, m.m20 / m.m22, m.m21 / m.m22, 1⟩

/-- The tolerance `1e-10` (geometric_transformations.rs:662-701). -/
def tol : K := 1 / 10 ^ 10

/-- `class_from_matrix` (src/geometric_transformations.rs:661-675). -/
def classFromMatrix (m : M33 K) : Class :=
  if |m.m20 - 0| < tol ∧ |m.m21 - 0| < tol ∧ |m.m22 - 1| < tol then
    if |m.m00 - 1| < tol ∧ |m.m01 - 0| < tol ∧ |m.m10 - 0| < tol ∧ |m.m11 - 1| < tol then
      .translation
    else .affine
  else .projection

/-- Outcome of building an inverse or a projection: `None`, a finite value, or `Some` of a value
with infinite or NaN entries. -/
inductive Outcome (β : Type _)
  | rejected | nonFinite | ok (v : β)

/-- `det` of `try_inverse` (src/geometric_transformations.rs:695-699). -/
def det (t : M33 K) : K :=
  t.m00 * (t.m11 * t.m22 - t.m12 * t.m21) - t.m01 * (t.m10 * t.m22 - t.m12 * t.m20) +
    t.m02 * (t.m10 * t.m21 - t.m11 * t.m20)

/-- `try_inverse` (src/geometric_transformations.rs:692-720). -/
def tryInverse (t : M33 K) : Outcome (M33 K) :=
  let m00 := t.m11 * t.m22 - t.m12 * t.m21
  let m01 := t.m10 * t.m22 - t.m12 * t.m20
  let m02 := t.m10 * t.m21 - t.m11 * t.m20
  if |det t| < tol then .rejected
  else
    let m10 := t.m01 * t.m22 - t.m02 * t.m21
    let m11 := t.m00 * t.m22 - t.m02 * t.m20
    let m12 := t.m00 * t.m21 - t.m01 * t.m20
    let m20 := t.m01 * t.m12 - t.m02 * t.m11
    let m21 := t.m00 * t.m12 - t.m02 * t.m10
    let m22 := t.m00 * t.m11 - t.m01 * t.m10
    match normalize ⟨m00 / det t, -m10 / det t, m20 / det t, -m01 / det t, m11 / det t,
      -m21 / det t, m02 / det t, -m12 / det t, m22 / det t⟩ with
    | none => .nonFinite
    | some i => .ok i

/-- `Projection::from_matrix` (src/geometric_transformations.rs:46-54).  A zero corner entry makes
`normalize` produce infinities and NaN; the determinant is then NaN, the tolerance test is false
and a projection with non-finite entries is returned. -/
def fromMatrix (m : M33 K) : Outcome (Projection K) :=
  match normalize m with
  | none => .nonFinite
  | some t =>
    match tryInverse t with
    | .rejected => .rejected
    | .nonFinite => .nonFinite
    | .ok i => .ok ⟨t, i, classFromMatrix t⟩

/-- `Projection::translate` (src/geometric_transformations.rs:64-78). -/
def translateP (tx ty : K) : Projection K :=
  ⟨⟨1, 0, tx, 0, 1, ty, 0, 0, 1⟩, ⟨1, 0, -tx, 0, 1, -ty, 0, 0, 1⟩, .translation⟩

/-- `Projection::rotate` (src/geometric_transformations.rs:82-97) given the sine and cosine. -/
def rotateP (s c : K) : Projection K :=
  ⟨⟨c, -s, 0, s, c, 0, 0, 0, 1⟩, ⟨c, s, 0, -s, c, 0, 0, 0, 1⟩, .affine⟩

/-- `Projection::scale` (src/geometric_transformations.rs:104-118). -/
def scaleP (sx sy : K) : Projection K :=
  ⟨⟨sx, 0, 0, 0, sy, 0, 0, 0, 1⟩, ⟨1 / sx, 0, 0, 0, 1 / sy, 0, 0, 0, 1⟩, .affine⟩

/-- `Projection::invert` (src/geometric_transformations.rs:121-127). -/
def Projection.invert (p : Projection K) : Projection K := ⟨p.inverse, p.transform, p.cls⟩

/-- The class of a product (src/geometric_transformations.rs:230-236). -/
def mulClass : Class → Class → Class
  | .translation, .translation => .translation
  | .translation, .affine => .affine
  | .affine, .translation => .affine
  | .affine, .affine => .affine
  | _, _ => .projection

/-- `impl Mul for Projection` (src/geometric_transformations.rs:222-244). -/
def Projection.mul (p q : Projection K) : Projection K :=
  ⟨mul3x3 p.transform q.transform, mul3x3 q.inverse p.inverse, mulClass p.cls q.cls⟩

/-- `Projection::and_then` (src/geometric_transformations.rs:58-60). -/
def Projection.andThen (p q : Projection K) : Projection K := q.mul p

/-- `map_projective`, `map_affine`, `map_translation` and `impl Mul<(f32, f32)>`
(src/geometric_transformations.rs:198-219, 254-265). -/
def Projection.apply (p : Projection K) (x y : K) : K × K :=
  let t := p.transform
  match p.cls with
  | .translation => (x + t.m02, y + t.m12)
  | .affine => (t.m00 * x + t.m01 * y + t.m02, t.m10 * x + t.m11 * y + t.m12)
  | .projection =>
    let d := t.m20 * x + t.m21 * y + t.m22
    ((t.m00 * x + t.m01 * y + t.m02) / d, (t.m10 * x + t.m11 * y + t.m12) / d)

/-- The 8x8 system of `from_control_points` (src/geometric_transformations.rs:157-168): the rows
`2k` and `2k+1` for one pair of points, as residuals of the unknowns `h`. -/
def controlRows (h : M33 K) (xf yf x y : K) : K × K :=
  (0 * h.m00 + 0 * h.m01 + 0 * h.m02 + -xf * h.m10 + -yf * h.m11 + -1 * h.m12 +
      y * xf * h.m20 + y * yf * h.m21 - (-y),
   xf * h.m00 + yf * h.m01 + 1 * h.m02 + 0 * h.m10 + 0 * h.m11 + 0 * h.m12 +
      -x * xf * h.m20 + -x * yf * h.m21 - x)

/-- `from_control_points` (src/geometric_transformations.rs:130-194) after the linear solve: the
singular value decomposition of nalgebra is outside the model, `h` is what it returns. -/
def fromControlSolution (h : M33 K) : Outcome (Projection K) :=
  fromMatrix { h with m22 := 1 }

end Verif.Geom
