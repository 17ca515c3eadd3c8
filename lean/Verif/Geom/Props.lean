import Verif.Geom.Model
import Mathlib.Tactic.FieldSimp
import Mathlib.Tactic.Ring
import Mathlib.Tactic.Linarith
import Mathlib.Tactic.LinearCombination
import Mathlib.Tactic.NormNum
/- Property theorems C25, C26 and C82 (projections). -/
namespace Verif.Geom
set_option linter.unusedSectionVars false
variable {K : Type _} [Field K] [LinearOrder K]

/-- The matrix is exactly what the class promises. -/
def HasClass : Class → M33 K → Prop
  | .translation, m => ∃ tx ty, m = ⟨1, 0, tx, 0, 1, ty, 0, 0, 1⟩
  | .affine, m => m.m20 = 0 ∧ m.m21 = 0 ∧ m.m22 = 1
  | .projection, _ => True

/-- `c` times the identity matrix. -/
def scalar (c : K) : M33 K := ⟨c, 0, 0, 0, c, 0, 0, 0, c⟩

/-- A projection whose stored inverse inverts its matrix up to a non-zero scale and whose class
is exact for both matrices. -/
structure Good (p : Projection K) : Prop where
  cls : HasClass p.cls p.transform
  clsInv : HasClass p.cls p.inverse
  left : ∃ c, c ≠ 0 ∧ mul3x3 p.inverse p.transform = scalar c
  right : ∃ c, c ≠ 0 ∧ mul3x3 p.transform p.inverse = scalar c

/-- The denominator of the map at a point. -/
def denom (p : Projection K) (x y : K) : K :=
  p.transform.m20 * x + p.transform.m21 * y + p.transform.m22

/-- The projective action of a matrix on a point. -/
def act (m : M33 K) (x y : K) : K × K :=
  ((m.m00 * x + m.m01 * y + m.m02) / (m.m20 * x + m.m21 * y + m.m22),
   (m.m10 * x + m.m11 * y + m.m12) / (m.m20 * x + m.m21 * y + m.m22))

/-- The fast paths agree with the projective action. -/
theorem apply_eq_act {p : Projection K} (h : HasClass p.cls p.transform) (x y : K) :
    p.apply x y = act p.transform x y := by
  obtain ⟨t, i, c⟩ := p
  cases c with
  | translation =>
    obtain ⟨tx, ty, rfl⟩ := h
    simp [Projection.apply, act]
  | affine =>
    obtain ⟨h0, h1, h2⟩ := h
    dsimp only at h0 h1 h2
    simp [Projection.apply, act, h0, h1, h2]
  | projection => rfl

theorem act_mul (a b : M33 K) (x y : K) (hb : b.m20 * x + b.m21 * y + b.m22 ≠ 0) :
    act (mul3x3 a b) x y = act a (act b x y).1 (act b x y).2 := by
  unfold act
  generalize hd : b.m20 * x + b.m21 * y + b.m22 = d at hb
  have key : ∀ u v w : K, u * ((b.m00 * x + b.m01 * y + b.m02) / d) +
      v * ((b.m10 * x + b.m11 * y + b.m12) / d) + w =
      (u * (b.m00 * x + b.m01 * y + b.m02) + v * (b.m10 * x + b.m11 * y + b.m12) + w * d) / d := by
    intro u v w; field_simp
  dsimp only
  rw [key, key, key, div_div_div_cancel_right₀ hb, div_div_div_cancel_right₀ hb, ← hd]
  unfold mul3x3
  dsimp only
  congr 2 <;> ring

theorem hasClass_mul {c d : Class} {a b : M33 K} (ha : HasClass c a) (hb : HasClass d b) :
    HasClass (mulClass c d) (mul3x3 a b) := by
  cases c <;> cases d <;> simp only [mulClass, HasClass] at * <;>
    first
    | trivial
    | (obtain ⟨tx, ty, rfl⟩ := ha
       obtain ⟨sx, sy, rfl⟩ := hb
       exact ⟨sx + tx, sy + ty, by simp [mul3x3]⟩)
    | (obtain ⟨tx, ty, rfl⟩ := ha
       simp [mul3x3, hb])
    | (obtain ⟨tx, ty, rfl⟩ := hb
       simp [mul3x3, ha])
    | simp [mul3x3, ha, hb]

/-- C25: composition: applying a product is applying the right factor, then the left one; for
all classes, as long as the point is not sent to infinity by the right factor. -/
theorem C25_compose_partial (p q : Projection K) (hp : Good p) (hq : Good q) (x y : K)
    (hd : denom q x y ≠ 0) :
    (p.mul q).apply x y = p.apply (q.apply x y).1 (q.apply x y).2 := by
  rw [apply_eq_act (p := p.mul q) (hasClass_mul hp.cls hq.cls), apply_eq_act hp.cls,
    apply_eq_act hq.cls]
  exact act_mul _ _ x y hd

/-- C25: `and_then` applies the receiver first. -/
theorem C25_and_then_partial (p q : Projection K) (hp : Good p) (hq : Good q) (x y : K)
    (hd : denom p x y ≠ 0) :
    (p.andThen q).apply x y = q.apply (p.apply x y).1 (p.apply x y).2 :=
  C25_compose_partial q p hq hp x y hd

/-- C25: a projection followed by its inverse returns the point. -/
theorem C25_invert_partial (p : Projection K) (hp : Good p) (x y : K) (hd : denom p x y ≠ 0) :
    p.invert.apply (p.apply x y).1 (p.apply x y).2 = (x, y) := by
  obtain ⟨c, hc, he⟩ := hp.left
  rw [apply_eq_act (p := p.invert) hp.clsInv, apply_eq_act hp.cls, ← act_mul _ _ x y hd]
  show act (mul3x3 p.inverse p.transform) x y = _
  rw [he]
  simp only [act, scalar]
  simp [hc]

theorem scalar_mul_comm (c : K) (a : M33 K) : mul3x3 (scalar c) a = mul3x3 a (scalar c) := by
  unfold mul3x3 scalar; simp; simp [mul_comm]

theorem mul_assoc3 (a b c : M33 K) : mul3x3 (mul3x3 a b) c = mul3x3 a (mul3x3 b c) := by
  unfold mul3x3
  dsimp only
  congr 1 <;> ring

theorem scalar_scalar (c d : K) : mul3x3 (scalar c) (scalar d) = scalar (c * d) := by
  unfold mul3x3 scalar; simp

/-- C25: products of well-formed projections are well formed. -/
theorem C25_good_mul (p q : Projection K) (hp : Good p) (hq : Good q) : Good (p.mul q) where
  cls := hasClass_mul hp.cls hq.cls
  clsInv := by
    have := hasClass_mul hq.clsInv hp.clsInv
    have hcomm : mulClass p.cls q.cls = mulClass q.cls p.cls := by
      cases p.cls <;> cases q.cls <;> rfl
    show HasClass (mulClass p.cls q.cls) _
    rw [hcomm]; exact this
  left := by
    obtain ⟨c, hc, h1⟩ := hp.left
    obtain ⟨d, hd, h2⟩ := hq.left
    refine ⟨c * d, mul_ne_zero hc hd, ?_⟩
    show mul3x3 (mul3x3 q.inverse p.inverse) (mul3x3 p.transform q.transform) = _
    rw [mul_assoc3, ← mul_assoc3 p.inverse, h1, scalar_mul_comm, ← mul_assoc3, h2, scalar_scalar,
      mul_comm]
  right := by
    obtain ⟨c, hc, h1⟩ := hp.right
    obtain ⟨d, hd, h2⟩ := hq.right
    refine ⟨c * d, mul_ne_zero hc hd, ?_⟩
    show mul3x3 (mul3x3 p.transform q.transform) (mul3x3 q.inverse p.inverse) = _
    rw [mul_assoc3, ← mul_assoc3 q.transform, h2, scalar_mul_comm, ← mul_assoc3, h1, scalar_scalar]

/-- C25: the inverse of a well-formed projection is well formed. -/
theorem C25_good_invert (p : Projection K) (hp : Good p) : Good p.invert :=
  ⟨hp.clsInv, hp.cls, hp.right, hp.left⟩

/-- C25: the basic constructors are well formed (rotation: sine and cosine on the unit circle;
scale: non-zero factors). -/
theorem C25_good_constructors (tx ty s c sx sy : K) (hsc : s ^ 2 + c ^ 2 = 1) (hx : sx ≠ 0)
    (hy : sy ≠ 0) : Good (translateP tx ty) ∧ Good (rotateP s c) ∧ Good (scaleP sx sy) := by
  have h1 : c * c + s * s = 1 := by rw [← hsc]; ring
  have h2 : s * s + c * c = 1 := by rw [← hsc]; ring
  refine ⟨⟨⟨_, _, rfl⟩, ⟨_, _, rfl⟩, ⟨1, one_ne_zero, ?_⟩, ⟨1, one_ne_zero, ?_⟩⟩,
    ⟨⟨rfl, rfl, rfl⟩, ⟨rfl, rfl, rfl⟩, ⟨1, one_ne_zero, ?_⟩, ⟨1, one_ne_zero, ?_⟩⟩,
    ⟨⟨rfl, rfl, rfl⟩, ⟨rfl, rfl, rfl⟩, ⟨1, one_ne_zero, ?_⟩, ⟨1, one_ne_zero, ?_⟩⟩⟩
  · simp [mul3x3, translateP, scalar]
  · simp [mul3x3, translateP, scalar]
  · simp [mul3x3, rotateP, scalar, h1, h2, mul_comm]
  · simp [mul3x3, rotateP, scalar, h1, h2, mul_comm]
  · simp [mul3x3, scaleP, scalar, hx, hy]
  · simp [mul3x3, scaleP, scalar, hx, hy]

/-- Determinant of a 3x3 matrix (specification of invertibility). -/
def determinant (m : M33 K) : K :=
  m.m00 * m.m11 * m.m22 + m.m01 * m.m12 * m.m20 + m.m02 * m.m10 * m.m21 -
    m.m02 * m.m11 * m.m20 - m.m01 * m.m10 * m.m22 - m.m00 * m.m12 * m.m21

theorem det_eq (m : M33 K) : det m = determinant m := by unfold det determinant; ring

/-- `m` scaled so that its corner entry is 1. -/
def scaled (m : M33 K) : M33 K :=
  ⟨m.m00 / m.m22, m.m01 / m.m22, m.m02 / m.m22, m.m10 / m.m22, m.m11 / m.m22,
    m.m12 / m.m22, m.m20 / m.m22, m.m21 / m.m22, 1⟩

theorem normalize_of_ne {m : M33 K} (h : m.m22 ≠ 0) : normalize m = some (scaled m) := by
  unfold normalize; rw [if_neg h]; rfl

theorem determinant_scaled (m : M33 K) (h : m.m22 ≠ 0) :
    determinant (scaled m) = determinant m / m.m22 ^ 3 := by
  unfold determinant scaled
  dsimp only
  field_simp

variable [IsStrictOrderedRing K]

theorem tol_pos : (0 : K) < tol := by unfold tol; positivity

/-- The inverse `try_inverse` returns: the adjugate scaled to corner entry 1. -/
def adjScaled (t : M33 K) : M33 K :=
  let e := t.m00 * t.m11 - t.m01 * t.m10
  ⟨(t.m11 * t.m22 - t.m12 * t.m21) / e, -(t.m01 * t.m22 - t.m02 * t.m21) / e,
   (t.m01 * t.m12 - t.m02 * t.m11) / e, -(t.m10 * t.m22 - t.m12 * t.m20) / e,
   (t.m00 * t.m22 - t.m02 * t.m20) / e, -(t.m00 * t.m12 - t.m02 * t.m10) / e,
   (t.m10 * t.m21 - t.m11 * t.m20) / e, -(t.m00 * t.m21 - t.m01 * t.m20) / e, 1⟩

theorem tryInverse_ok {t : M33 K} (hd : ¬ |det t| < tol) (he : t.m00 * t.m11 - t.m01 * t.m10 ≠ 0) :
    tryInverse t = .ok (adjScaled t) := by
  have hd0 : det t ≠ 0 := by
    intro h0
    rw [h0, abs_zero] at hd
    exact hd tol_pos
  unfold tryInverse
  dsimp only
  rw [if_neg hd, normalize, if_neg (div_ne_zero he hd0)]
  dsimp only
  have hinv : ∀ a : K, a / det t / ((t.m00 * t.m11 - t.m01 * t.m10) / det t) =
      a / (t.m00 * t.m11 - t.m01 * t.m10) := fun a => div_div_div_cancel_right₀ hd0 _ _
  simp only [hinv]
  rfl

theorem adjScaled_mul {t : M33 K} (he : t.m00 * t.m11 - t.m01 * t.m10 ≠ 0) :
    mul3x3 t (adjScaled t) = scalar (det t / (t.m00 * t.m11 - t.m01 * t.m10)) ∧
    mul3x3 (adjScaled t) t = scalar (det t / (t.m00 * t.m11 - t.m01 * t.m10)) := by
  unfold adjScaled det
  dsimp only
  generalize hE : t.m00 * t.m11 - t.m01 * t.m10 = e at he
  unfold mul3x3 scalar
  dsimp only
  constructor
  · congr 1 <;> field_simp <;> (try rw [← hE]) <;> ring
  · congr 1 <;> field_simp <;> (try rw [← hE]) <;> ring

theorem fromMatrix_ok_iff (m : M33 K) (p : Projection K) : fromMatrix m = .ok p ↔
    (m.m22 ≠ 0 ∧ m.m00 * m.m11 - m.m01 * m.m10 ≠ 0 ∧ tol ≤ |determinant m / m.m22 ^ 3|) ∧
    p = ⟨scaled m, adjScaled (scaled m), classFromMatrix (scaled m)⟩ := by
  unfold fromMatrix
  by_cases h22 : m.m22 = 0
  · simp [normalize, h22]
  rw [normalize_of_ne h22]
  dsimp only
  have hd : det (scaled m) = determinant m / m.m22 ^ 3 := by rw [det_eq, determinant_scaled m h22]
  have hmin : (scaled m).m00 * (scaled m).m11 - (scaled m).m01 * (scaled m).m10 =
      (m.m00 * m.m11 - m.m01 * m.m10) / m.m22 ^ 2 := by
    unfold scaled; dsimp only; field_simp
  rw [← hd]
  by_cases hdet : |det (scaled m)| < tol
  · have : tryInverse (scaled m) = .rejected := by
      unfold tryInverse; dsimp only; rw [if_pos hdet]
    rw [this]
    constructor
    · intro h; simp at h
    · rintro ⟨⟨_, _, h⟩, _⟩; exact absurd hdet (not_lt.2 h)
  by_cases he : m.m00 * m.m11 - m.m01 * m.m10 = 0
  · have : tryInverse (scaled m) = .nonFinite := by
      unfold tryInverse
      dsimp only
      rw [if_neg hdet, normalize, if_pos (by dsimp only; rw [hmin, he]; simp)]
    rw [this]
    simp [he]
  · rw [tryInverse_ok hdet (by rw [hmin]; exact div_ne_zero he (pow_ne_zero _ h22))]
    constructor
    · intro h
      injection h with h
      exact ⟨⟨h22, he, not_lt.1 hdet⟩, h.symm⟩
    · rintro ⟨_, rfl⟩; rfl

/-- C26 (partial: corner entry non-zero, leading 2x2 minor non-zero, determinant of the matrix
scaled to corner entry 1 not below the tolerance; see the negations): a projection is built, its
matrix is the given one up to scale and the stored inverse inverts it up to scale. -/
theorem C26_from_matrix_partial (m : M33 K) (h22 : m.m22 ≠ 0)
    (hminor : m.m00 * m.m11 - m.m01 * m.m10 ≠ 0)
    (hdet : 1 / 10 ^ 10 ≤ |determinant m / m.m22 ^ 3|) :
    ∃ p, fromMatrix m = .ok p ∧ p.transform = scaled m ∧
      (∃ c, c ≠ 0 ∧ mul3x3 p.transform p.inverse = scalar c) ∧
      (∃ c, c ≠ 0 ∧ mul3x3 p.inverse p.transform = scalar c) := by
  have hok := (fromMatrix_ok_iff m _).2 ⟨⟨h22, hminor, hdet⟩, rfl⟩
  refine ⟨_, hok, rfl, ?_⟩
  have hmin : (scaled m).m00 * (scaled m).m11 - (scaled m).m01 * (scaled m).m10 ≠ 0 := by
    have : (scaled m).m00 * (scaled m).m11 - (scaled m).m01 * (scaled m).m10 =
      (m.m00 * m.m11 - m.m01 * m.m10) / m.m22 ^ 2 := by
      unfold scaled; dsimp only; field_simp
    rw [this]; exact div_ne_zero hminor (pow_ne_zero _ h22)
  have hd0 : det (scaled m) ≠ 0 := by
    rw [det_eq, determinant_scaled m h22]
    intro h0
    rw [h0, abs_zero] at hdet
    exact absurd (lt_of_lt_of_le tol_pos hdet) (lt_irrefl _)
  obtain ⟨h1, h2⟩ := adjScaled_mul hmin
  exact ⟨⟨_, div_ne_zero hd0 hmin, h1⟩, ⟨_, div_ne_zero hd0 hmin, h2⟩⟩

/-- C26: a finite projection is returned under exactly those three conditions. -/
theorem C26_accepted_iff (m : M33 K) : (∃ p, fromMatrix m = .ok p) ↔
    m.m22 ≠ 0 ∧ m.m00 * m.m11 - m.m01 * m.m10 ≠ 0 ∧
      1 / 10 ^ 10 ≤ |determinant m / m.m22 ^ 3| := by
  constructor
  · rintro ⟨p, hp⟩; exact ((fromMatrix_ok_iff m p).1 hp).1
  · intro h; exact ⟨_, (fromMatrix_ok_iff m _).2 ⟨h, rfl⟩⟩

theorem rejected_iff (m : M33 K) :
    fromMatrix m = .rejected ↔ m.m22 ≠ 0 ∧ |determinant m / m.m22 ^ 3| < tol := by
  unfold fromMatrix
  by_cases h22 : m.m22 = 0
  · simp [normalize, h22]
  · rw [normalize_of_ne h22, ← determinant_scaled m h22, ← det_eq]
    dsimp only
    unfold tryInverse
    dsimp only
    by_cases hd : |det (scaled m)| < tol
    · simp [hd, h22]
    · rw [if_neg hd]
      split
      · rename_i h; split at h <;> simp at h
      all_goals simp [hd]

/-- C26: exact condition for `None`: corner entry non-zero and the determinant of the matrix
scaled to corner entry 1 is below the tolerance; in particular singular matrices with non-zero
corner entry are rejected. -/
theorem C26_rejected_iff (m : M33 K) :
    fromMatrix m = .rejected ↔ m.m22 ≠ 0 ∧ |determinant m / m.m22 ^ 3| < 1 / 10 ^ 10 := by
  exact rejected_iff m

/-- C26: singular matrices with a non-zero corner entry are rejected. -/
theorem C26_singular (m : M33 K) (h22 : m.m22 ≠ 0) (hd : determinant m = 0) :
    fromMatrix m = .rejected := by
  rw [rejected_iff]
  exact ⟨h22, by rw [hd]; simp [tol_pos]⟩

/-- C26 is false of the code: an invertible matrix (scaling by 1/100000 in both directions) is
rejected; an invertible matrix with zero corner entry, and one with zero leading minor, give a
projection with non-finite entries; so does the zero matrix instead of being rejected. -/
theorem C26_negation :
    (let m : M33 ℚ := ⟨1 / 1000000, 0, 0, 0, 1 / 1000000, 0, 0, 0, 1⟩
     determinant m ≠ 0 ∧ fromMatrix m = .rejected) ∧
    (let m : M33 ℚ := ⟨0, 0, 1, 0, 1, 0, 1, 0, 0⟩
     determinant m ≠ 0 ∧ fromMatrix m = .nonFinite) ∧
    (let m : M33 ℚ := ⟨1, 0, 0, 0, 0, 1, 0, 1, 1⟩
     determinant m ≠ 0 ∧ fromMatrix m = .nonFinite) ∧
    (let m : M33 ℚ := ⟨0, 0, 0, 0, 0, 0, 0, 0, 0⟩
     determinant m = 0 ∧ fromMatrix m = .nonFinite) := by
  refine ⟨⟨?_, ?_⟩, ⟨?_, ?_⟩, ⟨?_, ?_⟩, ⟨?_, ?_⟩⟩
  · norm_num [determinant]
  · rw [C26_rejected_iff]
    norm_num [determinant, tol, abs_of_pos]
  · norm_num [determinant]
  · norm_num [fromMatrix, normalize]
  · norm_num [determinant]
  · norm_num [fromMatrix, normalize, tryInverse, det, tol]
  · norm_num [determinant]
  · norm_num [fromMatrix, normalize]

/-- An entry is exactly the wanted constant or clearly different from it. -/
def Clear (a b : K) : Prop := a = b ∨ 1 / 10 ^ 10 ≤ |a - b|

/-- C25: a projection built from a matrix none of whose entries lies within the classification
tolerance of 0 or 1 without being equal to it is well formed. -/
theorem C25_good_from_matrix (m : M33 K) (p : Projection K) (h : fromMatrix m = .ok p)
    (h00 : Clear (scaled m).m00 1) (h01 : Clear (scaled m).m01 0) (h10 : Clear (scaled m).m10 0)
    (h11 : Clear (scaled m).m11 1) (h20 : Clear (scaled m).m20 0) (h21 : Clear (scaled m).m21 0) :
    Good p := by
  obtain ⟨⟨h22, hminor, hdet⟩, hp⟩ := (fromMatrix_ok_iff m p).1 h
  obtain ⟨q, hq, -, hr, hl⟩ := C26_from_matrix_partial m h22 hminor hdet
  have hqp : q = p := by rw [h] at hq; injection hq with hq; exact hq.symm
  subst hqp
  have hmin : (scaled m).m00 * (scaled m).m11 - (scaled m).m01 * (scaled m).m10 ≠ 0 := by
    have : (scaled m).m00 * (scaled m).m11 - (scaled m).m01 * (scaled m).m10 =
      (m.m00 * m.m11 - m.m01 * m.m10) / m.m22 ^ 2 := by
      unfold scaled; dsimp only; field_simp
    rw [this]; exact div_ne_zero hminor (pow_ne_zero _ h22)
  have hcl : ∀ a b : K, Clear a b → |a - b| < tol → a = b := by
    intro a b hc hlt
    rcases hc with hc | hc
    · exact hc
    · exact absurd hlt (not_lt.2 hc)
  have hone : (scaled m).m22 = 1 := rfl
  generalize scaled m = t at *
  have hc : HasClass q.cls q.transform ∧ HasClass q.cls q.inverse := by
    subst hp
    dsimp only
    unfold classFromMatrix
    split
    · rename_i ha
      have e20 := hcl _ _ h20 ha.1
      have e21 := hcl _ _ h21 ha.2.1
      split
      · rename_i hb
        have e00 := hcl _ _ h00 hb.1
        have e01 := hcl _ _ h01 hb.2.1
        have e10 := hcl _ _ h10 hb.2.2.1
        have e11 := hcl _ _ h11 hb.2.2.2
        obtain ⟨a00, a01, a02, a10, a11, a12, a20, a21, a22⟩ := t
        dsimp only at *
        subst e20 e21 e00 e01 e10 e11 hone
        exact ⟨⟨a02, a12, rfl⟩, -a02, -a12, by simp [adjScaled]⟩
      · refine ⟨⟨e20, e21, hone⟩, ?_, ?_, rfl⟩
        · simp [adjScaled, e20, e21]
        · simp [adjScaled, e20, e21]
    · exact ⟨trivial, trivial⟩
  exact ⟨hc.1, hc.2, hl, hr⟩

/-- C25 is false of the code for matrices inside the classification tolerance: a shear of
10^-11 is classified as a translation, so applying it and then scaling is not applying the
product (which keeps the shear). -/
theorem C25_negation_tolerance :
    ∃ p : Projection ℚ, fromMatrix ⟨1, 1 / 10 ^ 11, 0, 0, 1, 0, 0, 0, 1⟩ = .ok p ∧
      ((scaleP 1 1).mul p).apply 0 (10 ^ 11) ≠
        (scaleP 1 1).apply (p.apply 0 (10 ^ 11)).1 (p.apply 0 (10 ^ 11)).2 := by
  refine ⟨_, (fromMatrix_ok_iff _ _).2 ⟨⟨?_, ?_, ?_⟩, rfl⟩, ?_⟩
  · norm_num
  · norm_num
  · norm_num [determinant, tol]
  · have : classFromMatrix (scaled (⟨1, 1 / 10 ^ 11, 0, 0, 1, 0, 0, 0, 1⟩ : M33 ℚ)) =
        .translation := by
      norm_num [classFromMatrix, scaled, tol, abs_of_pos]
    rw [this]
    simp only [Projection.mul, scaleP, mulClass, Projection.apply, scaled, mul3x3]
    norm_num

/-- C82: if the solver's answer `h` satisfies the two equations written for a pair of points, and
the resulting projection is accepted with an exact class, the projection maps the first point to
the second one (when it does not send it to infinity). -/
theorem C82_control_points (h : M33 K) (p : Projection K)
    (hp : fromControlSolution h = .ok p) (hg : Good p) (xf yf x y : K)
    (hrow : controlRows h xf yf x y = (0, 0)) (hd : denom p xf yf ≠ 0) :
    p.apply xf yf = (x, y) := by
  obtain ⟨-, hp⟩ := (fromMatrix_ok_iff _ p).1 hp
  have ht : p.transform = { h with m22 := 1 } := by
    subst hp
    simp [scaled]
  rw [apply_eq_act hg.cls]
  unfold denom at hd
  rw [ht] at hd ⊢
  unfold controlRows at hrow
  simp only [Prod.mk.injEq] at hrow
  unfold act
  dsimp only at hd ⊢
  rw [Prod.mk.injEq]
  constructor
  · rw [div_eq_iff hd]; linear_combination hrow.2
  · rw [div_eq_iff hd]; linear_combination -hrow.1

/-- C82: four exact pairs, as the constructor is given: all four points are mapped. -/
theorem C82_four_control_points (h : M33 K) (p : Projection K)
    (hp : fromControlSolution h = .ok p) (hg : Good p) (src dst : Fin 4 → K × K)
    (hrow : ∀ k, controlRows h (src k).1 (src k).2 (dst k).1 (dst k).2 = (0, 0))
    (hd : ∀ k, denom p (src k).1 (src k).2 ≠ 0) :
    ∀ k, p.apply (src k).1 (src k).2 = dst k :=
  fun k => C82_control_points h p hp hg _ _ _ _ (hrow k) (hd k)

/-! ### Non-trivial instances -/

-- quarter turn about the origin, then translation by (5, 1)
example : ((translateP (5 : ℚ) 1).mul (rotateP 1 0)).apply 2 3 = (2, 3) := by
  norm_num [Projection.mul, translateP, rotateP, mulClass, Projection.apply, mul3x3]

-- a genuinely projective map and its inverse
example : ∃ p : Projection ℚ, fromMatrix ⟨2, 0, 0, 0, 2, 0, 1, 0, 2⟩ = .ok p ∧
    p.apply 2 1 = (1, 1 / 2) ∧ p.invert.apply 1 (1 / 2) = (2, 1) := by
  refine ⟨_, (fromMatrix_ok_iff _ _).2 ⟨⟨?_, ?_, ?_⟩, rfl⟩, ?_⟩
  · norm_num
  · norm_num
  · norm_num [determinant, tol]
  · have : classFromMatrix (scaled (⟨2, 0, 0, 0, 2, 0, 1, 0, 2⟩ : M33 ℚ)) = .projection := by
      norm_num [classFromMatrix, scaled, tol, abs_of_pos]
    rw [this]
    norm_num [Projection.apply, Projection.invert, scaled, adjScaled]

-- control points satisfied by a projective matrix
example : controlRows (⟨1, 0, 0, 0, 1, 0, 1, 0, 7⟩ : M33 ℚ) 1 4 (1 / 2) 2 = (0, 0) := by
  norm_num [controlRows]

end Verif.Geom
