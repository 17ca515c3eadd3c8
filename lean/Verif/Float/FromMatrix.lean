import Verif.Float.Rotate
/-
Property C149: building a projection from a matrix in `f32`
(src/geometric_transformations.rs:46-54, 661-720).  Overflow is not modelled.
-/
namespace Verif.Float
open Verif.Definitions Verif.Geom

/-- `normalize` (src/geometric_transformations.rs:678-690) in `f32`; a zero corner gives infinite or
NaN entries, `none`. -/
def normalize32 (m : M33 ℚ) : Option (M33 ℚ) :=
  if m.m22 = 0 then none
  else some ⟨rnd32 (m.m00 / m.m22), rnd32 (m.m01 / m.m22), rnd32 (m.m02 / m.m22), rnd32 (m.m10 / m.m22),
    rnd32 (m.m11 / m.m22), rnd32 (m.m12 / m.m22), rnd32 (m.m20 / m.m22), rnd32 (m.m21 / m.m22), 1⟩

/-- `a * b - c * d` in `f32`. -/
def minor32 (a b c d : ℚ) : ℚ := rnd32 (rnd32 (a * b) - rnd32 (c * d))

/-- `det` of `try_inverse` (src/geometric_transformations.rs:696-700) in `f32`. -/
def det32 (t : M33 ℚ) : ℚ :=
  let m00 := minor32 t.m11 t.m22 t.m12 t.m21
  let m01 := minor32 t.m10 t.m22 t.m12 t.m20
  let m02 := minor32 t.m10 t.m21 t.m11 t.m20
  rnd32 (rnd32 (rnd32 (t.m00 * m00) - rnd32 (t.m01 * m01)) + rnd32 (t.m02 * m02))

/-- `try_inverse` (src/geometric_transformations.rs:693-720) in `f32`. -/
def tryInverse32 (t : M33 ℚ) : Outcome (M33 ℚ) :=
  let m00 := minor32 t.m11 t.m22 t.m12 t.m21
  let m01 := minor32 t.m10 t.m22 t.m12 t.m20
  let m02 := minor32 t.m10 t.m21 t.m11 t.m20
  let det := det32 t
  if |det| < rnd32 (1 / 10 ^ 10) then .rejected
  else
    let m10 := minor32 t.m01 t.m22 t.m02 t.m21
    let m11 := minor32 t.m00 t.m22 t.m02 t.m20
    let m12 := minor32 t.m00 t.m21 t.m01 t.m20
    let m20 := minor32 t.m01 t.m12 t.m02 t.m11
    let m21 := minor32 t.m00 t.m12 t.m02 t.m10
    let m22 := minor32 t.m00 t.m11 t.m01 t.m10
    match normalize32 ⟨rnd32 (m00 / det), rnd32 (-m10 / det), rnd32 (m20 / det), rnd32 (-m01 / det),
      rnd32 (m11 / det), rnd32 (-m21 / det), rnd32 (m02 / det), rnd32 (-m12 / det), rnd32 (m22 / det)⟩ with
    | none => .nonFinite
    | some i => .ok i

/-- `class_from_matrix` (src/geometric_transformations.rs:661-675) in `f32`. -/
def classFromMatrix32 (m : M33 ℚ) : Class :=
  let tol := rnd32 (1 / 10 ^ 10)
  if |m.m20| < tol ∧ |m.m21| < tol ∧ |rnd32 (m.m22 - 1)| < tol then
    if |rnd32 (m.m00 - 1)| < tol ∧ |m.m01| < tol ∧ |m.m10| < tol ∧ |rnd32 (m.m11 - 1)| < tol then
      .translation
    else .affine
  else .projection

/-- `Projection::from_matrix` (src/geometric_transformations.rs:46-54) in `f32`. -/
def fromMatrix32 (m : M33 ℚ) : Outcome (Projection ℚ) :=
  match normalize32 m with
  | none => .nonFinite
  | some t =>
    match tryInverse32 t with
    | .rejected => .rejected
    | .nonFinite => .nonFinite
    | .ok i => .ok ⟨t, i, classFromMatrix32 t⟩

/-- C149 (negation): a singular matrix of small whole numbers, its last row the sum of the other two,
is not rejected: the computed determinant is 1. -/
theorem C149_negation :
    let m : M33 ℚ := ⟨219, 291, -203, -40, 153, 204, 179, 444, 1⟩
    determinant m = 0 ∧ (∃ p, fromMatrix32 m = .ok p) ∧ det32 m = 1 := by
  refine ⟨by norm_num [determinant], ?_, by decide +kernel⟩
  have h : (match fromMatrix32 ⟨219, 291, -203, -40, 153, 204, 179, 444, 1⟩ with
    | .ok _ => true | _ => false) = true := by decide +kernel
  cases e : fromMatrix32 ⟨219, 291, -203, -40, 153, 204, 179, 444, 1⟩ with
  | ok p => exact ⟨p, rfl⟩
  | rejected => rw [e] at h; exact absurd h (by decide)
  | nonFinite => rw [e] at h; exact absurd h (by decide)

theorem tol32_pos : (0 : ℚ) < rnd32 (1 / 10 ^ 10) := by decide +kernel
theorem tol32_lt : rnd32 (1 / 10 ^ 10) < (1 : ℚ) := by decide +kernel

/-- C149 (affine): every singular affine matrix is rejected, whatever its entries. -/
theorem C149_affine_singular (a b c d e f : ℚ) (ha : Rep 24 (-149) a) (hb : Rep 24 (-149) b)
    (hc : Rep 24 (-149) c) (hd : Rep 24 (-149) d) (he : Rep 24 (-149) e) (hf : Rep 24 (-149) f)
    (h : determinant (⟨a, b, c, d, e, f, 0, 0, 1⟩ : M33 ℚ) = 0) :
    fromMatrix32 ⟨a, b, c, d, e, f, 0, 0, 1⟩ = .rejected := by
  have h' : a * e = b * d := by
    have : determinant (⟨a, b, c, d, e, f, 0, 0, 1⟩ : M33 ℚ) = a * e - b * d := by
      unfold determinant; ring
    linarith
  unfold fromMatrix32 normalize32
  simp only [one_ne_zero, if_false, div_one, rnd32_rep ha, rnd32_rep hb, rnd32_rep hc, rnd32_rep hd,
    rnd32_rep he, rnd32_rep hf, rnd32_zeroQ]
  have hz : det32 ⟨a, b, c, d, e, f, 0, 0, 1⟩ = 0 := by
    unfold det32 minor32
    simp only [mul_one, mul_zero, rnd32_zeroQ, sub_zero, rnd32_rep he, rnd32_rep hd, h', sub_self, add_zero]
  unfold tryInverse32
  dsimp only
  rw [hz, abs_zero, if_pos tol32_pos]

theorem rnd32_intQ {n : Int} (h : |n| ≤ 2 ^ 24) : rnd32 (n : ℚ) = n :=
  rnd_of_rep (by norm_num) ⟨n, 0, by exact_mod_cast h, by norm_num, by simp⟩

theorem minor32_int {a b c d : Int} (ha : |a| ≤ 128) (hb : |b| ≤ 128) (hc : |c| ≤ 128) (hd : |d| ≤ 128) :
    minor32 a b c d = ((a * b - c * d : Int) : ℚ) ∧ |a * b - c * d| ≤ 32768 := by
  have e1 : |a * b| ≤ 16384 := by
    rw [abs_mul]; exact (mul_le_mul ha hb (abs_nonneg _) (by norm_num)).trans (by norm_num)
  have e2 : |c * d| ≤ 16384 := by
    rw [abs_mul]; exact (mul_le_mul hc hd (abs_nonneg _) (by norm_num)).trans (by norm_num)
  have e3 : |a * b - c * d| ≤ 32768 := (abs_sub _ _).trans (by linarith)
  refine ⟨?_, e3⟩
  unfold minor32
  rw [← Int.cast_mul, ← Int.cast_mul, rnd32_intQ (by omega), rnd32_intQ (by omega), ← Int.cast_sub,
    rnd32_intQ (by omega)]

/-- Two divisions. -/
theorem div_div_rel {n d w : Int} (hd : d ≠ 0) (hw : w ≠ 0) (hn' : |n| ≤ 2 ^ 24) (hd' : |d| ≤ 2 ^ 24)
    (hw' : |w| ≤ 2 ^ 24) :
    rnd32 ((w : ℚ) / d) ≠ 0 ∧
    |rnd32 (rnd32 ((n : ℚ) / d) / rnd32 ((w : ℚ) / d)) - (n : ℚ) / w| ≤ |(n : ℚ) / w| / 2 ^ 22 := by
  have dp : (0 : ℚ) < |(d : ℚ)| := abs_pos.2 (by exact_mod_cast hd)
  have dq : |(d : ℚ)| ≤ 2 ^ 24 := by exact_mod_cast hd'
  have wq : |(w : ℚ)| ≤ 2 ^ 24 := by exact_mod_cast hw'
  have nq : |(n : ℚ)| ≤ 2 ^ 24 := by exact_mod_cast hn'
  have big : ∀ {k : Int}, k ≠ 0 → ∀ {e : ℚ}, 0 < |e| → |e| ≤ 2 ^ 24 → 1 / 2 ^ 24 ≤ |(k : ℚ) / e| := by
    intro k hk e e0 e1
    rw [abs_div]
    have : (1 : ℚ) ≤ |(k : ℚ)| := by exact_mod_cast Int.one_le_abs hk
    rw [div_le_div_iff₀ (by norm_num) e0]
    linarith
  have rel : ∀ {x : ℚ}, 1 / 2 ^ 100 ≤ |x| → |rnd32 x - x| ≤ |x| / 2 ^ 24 := by
    intro x hx
    have := rnd_error_rel (p := 24) (emin := -149) (x := x) (le_trans (by norm_num) hx)
    refine this.trans (le_of_eq ?_)
    rw [zpow_neg, div_eq_mul_inv]; rfl
  have w1 := big hw dp dq
  have w2 := rel (le_trans (by norm_num) w1)
  set W := rnd32 ((w : ℚ) / d) with hW
  set v := (w : ℚ) / d with hv
  have W1 : |v| * (1 - 1 / 2 ^ 24) ≤ |W| := by
    have := abs_sub_abs_le_abs_sub v W
    rw [abs_sub_comm] at this
    linarith
  have vp : 0 < |v| := lt_of_lt_of_le (by norm_num) w1
  have Wp : 0 < |W| := lt_of_lt_of_le (mul_pos vp (by norm_num)) W1
  have W0 : W ≠ 0 := abs_pos.1 Wp
  have v0 : v ≠ 0 := abs_pos.1 vp
  refine ⟨W0, ?_⟩
  by_cases hn : n = 0
  · subst hn
    have z := rnd32_zeroQ
    simp [z]
  have n1 := big hn dp dq
  have n2 := rel (le_trans (by norm_num) n1)
  set N := rnd32 ((n : ℚ) / d) with hN
  set u := (n : ℚ) / d with hu
  have d0 : (d : ℚ) ≠ 0 := by exact_mod_cast hd
  have wq0 : (w : ℚ) ≠ 0 := by exact_mod_cast hw
  have quo : (n : ℚ) / w = u / v := by rw [hu, hv]; field_simp
  have up : 0 < |u| := lt_of_lt_of_le (by norm_num) n1
  rw [quo]
  set q := u / v with hq
  have uq : u = q * v := by rw [hq]; field_simp
  -- quotient of the rounded values
  have e1 : N / W - q = ((N - u) - q * (W - v)) / W := by rw [uq]; field_simp; ring
  have a1 : |N - u| ≤ |q| * |v| / 2 ^ 24 := by rw [← abs_mul, ← uq]; exact n2
  have a2 : |q * (W - v)| ≤ |q| * |v| / 2 ^ 24 := by
    rw [abs_mul, mul_div_assoc]; exact mul_le_mul_of_nonneg_left w2 (abs_nonneg _)
  have qv : |q| * |v| * (1 - 1 / 2 ^ 24) ≤ |q| * |W| := by
    rw [mul_assoc]; exact mul_le_mul_of_nonneg_left W1 (abs_nonneg _)
  have b1 : |N / W - q| ≤ |q| * (2 / 2 ^ 24 + 1 / 2 ^ 40) := by
    rw [e1, abs_div, div_le_iff₀ Wp]
    refine (abs_sub _ _).trans ((add_le_add a1 a2).trans ?_)
    have h0 : 0 ≤ |q| * |v| := mul_nonneg (abs_nonneg _) vp.le
    have h1 : |q| * (2 / 2 ^ 24 + 1 / 2 ^ 40) * |W| = (|q| * |W|) * (2 / 2 ^ 24 + 1 / 2 ^ 40) := by ring
    rw [h1]
    have h2 := mul_le_mul_of_nonneg_right qv (by norm_num : (0 : ℚ) ≤ 2 / 2 ^ 24 + 1 / 2 ^ 40)
    norm_num at h2 ⊢
    linarith
  have qbig : 1 / 2 ^ 24 ≤ |q| := by
    rw [← quo]; exact big hn (abs_pos.2 wq0) wq
  have NW : |N / W| ≤ |q| * (1 + 1 / 2 ^ 22) ∧ |q| / 2 ≤ |N / W| := by
    have h1 := abs_sub_abs_le_abs_sub (N / W) q
    have h2 := abs_sub_abs_le_abs_sub q (N / W)
    rw [abs_sub_comm] at h2
    norm_num at b1 ⊢
    constructor <;> linarith
  have b2 := rel (x := N / W) (le_trans (by norm_num) (le_trans (by linarith : (1 : ℚ) / 2 ^ 25 ≤ |q| / 2) NW.2))
  have b3 := abs_add_le (rnd32 (N / W) - N / W) (N / W - q)
  rw [sub_add_sub_cancel] at b3
  have := NW.1
  norm_num at *
  linarith

/-- Every entry of `a` has a relative error of at most `2^-22` as an approximation of that of `b`. -/
def EntriesNear (a b : M33 ℚ) : Prop :=
  |a.m00 - b.m00| ≤ |b.m00| / 2 ^ 22 ∧
  |a.m01 - b.m01| ≤ |b.m01| / 2 ^ 22 ∧
  |a.m02 - b.m02| ≤ |b.m02| / 2 ^ 22 ∧
  |a.m10 - b.m10| ≤ |b.m10| / 2 ^ 22 ∧
  |a.m11 - b.m11| ≤ |b.m11| / 2 ^ 22 ∧
  |a.m12 - b.m12| ≤ |b.m12| / 2 ^ 22 ∧
  |a.m20 - b.m20| ≤ |b.m20| / 2 ^ 22 ∧
  |a.m21 - b.m21| ≤ |b.m21| / 2 ^ 22 ∧ a.m22 = b.m22

/-- The determinant of a matrix of whole numbers. -/
def detInt (m : M33 Int) : Int :=
  m.m00 * m.m11 * m.m22 + m.m01 * m.m12 * m.m20 + m.m02 * m.m10 * m.m21 -
    m.m02 * m.m11 * m.m20 - m.m01 * m.m10 * m.m22 - m.m00 * m.m12 * m.m21

theorem det32_int {t : M33 Int} (h : |t.m00| ≤ 128 ∧ |t.m01| ≤ 128 ∧ |t.m02| ≤ 128 ∧ |t.m10| ≤ 128 ∧
    |t.m11| ≤ 128 ∧ |t.m12| ≤ 128 ∧ |t.m20| ≤ 128 ∧ |t.m21| ≤ 128 ∧ |t.m22| ≤ 128) :
    det32 ⟨t.m00, t.m01, t.m02, t.m10, t.m11, t.m12, t.m20, t.m21, t.m22⟩ = ((detInt t : Int) : ℚ) ∧
      |detInt t| ≤ 2 ^ 24 := by
  obtain ⟨h0, h1, h2, h3, h4, h5, h6, h7, h8⟩ := h
  obtain ⟨a1, a2⟩ := minor32_int h4 h8 h5 h7
  obtain ⟨b1, b2⟩ := minor32_int h3 h8 h5 h6
  obtain ⟨c1, c2⟩ := minor32_int h3 h7 h4 h6
  have e : detInt t = t.m00 * (t.m11 * t.m22 - t.m12 * t.m21) - t.m01 * (t.m10 * t.m22 - t.m12 * t.m20) +
      t.m02 * (t.m10 * t.m21 - t.m11 * t.m20) := by unfold detInt; ring
  rw [e]
  unfold det32
  dsimp only
  rw [a1, b1, c1]
  generalize t.m11 * t.m22 - t.m12 * t.m21 = p at *
  generalize t.m10 * t.m22 - t.m12 * t.m20 = q at *
  generalize t.m10 * t.m21 - t.m11 * t.m20 = r at *
  have m1 : |t.m00 * p| ≤ 4194304 := by
    rw [abs_mul]; exact (mul_le_mul h0 a2 (abs_nonneg _) (by norm_num)).trans (by norm_num)
  have m2 : |t.m01 * q| ≤ 4194304 := by
    rw [abs_mul]; exact (mul_le_mul h1 b2 (abs_nonneg _) (by norm_num)).trans (by norm_num)
  have m3 : |t.m02 * r| ≤ 4194304 := by
    rw [abs_mul]; exact (mul_le_mul h2 c2 (abs_nonneg _) (by norm_num)).trans (by norm_num)
  rw [← Int.cast_mul, ← Int.cast_mul, ← Int.cast_mul]
  generalize t.m00 * p = A at *
  generalize t.m01 * q = B at *
  generalize t.m02 * r = C at *
  rw [rnd32_intQ (by omega), rnd32_intQ (by omega), rnd32_intQ (by omega), ← Int.cast_sub,
    rnd32_intQ (by rw [abs_le] at *; omega), ← Int.cast_add, rnd32_intQ (by rw [abs_le] at *; omega)]
  exact ⟨rfl, by rw [abs_le] at *; omega⟩

theorem near_one {x : ℚ} (hx : Rep 24 (-149) x) : |rnd32 (x - 1)| < rnd32 (1 / 10 ^ 10) ↔ x = 1 := by
  constructor
  · intro h
    by_contra hne
    have far : 1 / 2 ^ 24 ≤ |x - 1| := by
      obtain ⟨n, e, h1, _, rfl⟩ := hx
      rcases le_or_gt (-24) e with he | he
      · obtain ⟨j, hj⟩ : ∃ j : Nat, e = j - 24 := ⟨(e + 24).toNat, by omega⟩
        have e1 : (n : ℚ) * 2 ^ e - 1 = ((n * 2 ^ j - 2 ^ 24 : Int) : ℚ) / 2 ^ 24 := by
          rw [hj, zpow_sub₀ (by norm_num), zpow_natCast]
          push_cast
          norm_num
          ring
        rw [e1, abs_div, abs_of_pos (by norm_num : (0 : ℚ) < 2 ^ 24)]
        apply div_le_div_of_nonneg_right _ (by norm_num)
        have : n * 2 ^ j - 2 ^ 24 ≠ 0 := by
          intro hz
          apply hne
          rw [hz, Int.cast_zero, zero_div] at e1
          linarith
        exact_mod_cast Int.one_le_abs this
      · have b1 : |(n : ℚ) * 2 ^ e| ≤ 1 / 2 := by
          rw [abs_mul, abs_of_pos (by positivity : (0 : ℚ) < 2 ^ e)]
          have a1 : |(n : ℚ)| ≤ 2 ^ 24 := by exact_mod_cast h1
          have a2 : (2 : ℚ) ^ e ≤ 2 ^ (-25 : Int) := zpow_le_zpow_right₀ (by norm_num) (by omega)
          refine (mul_le_mul a1 a2 (by positivity) (by norm_num)).trans ?_
          norm_num
        rw [abs_le] at b1
        rw [abs_of_neg (by linarith [b1.2])]
        norm_num
        linarith [b1.2]
    have lt : rnd32 (1 / 10 ^ 10) < (1 / 2 ^ 24 : ℚ) := by decide +kernel
    have rp : Rep (K := ℚ) 24 (-149) (1 / 2 ^ 24) := ⟨1, -24, by norm_num, by norm_num, by norm_num⟩
    rcases le_or_gt 0 (x - 1) with h0 | h0
    · rw [abs_of_nonneg h0] at far
      have := le_rnd (p := 24) (emin := -149) (by norm_num) rp far
      have := le_abs_self (rnd32 (x - 1))
      linarith
    · rw [abs_of_neg h0] at far
      have k : rnd32 (x - 1) ≤ -(1 / 2 ^ 24) := rnd_le (by norm_num) rp.neg (by linarith)
      have := neg_abs_le (rnd32 (x - 1))
      linarith
  · rintro rfl
    rw [sub_self, rnd32_zeroQ, abs_zero]
    exact tol32_pos

/-- C149 (class): for every matrix that is accepted, the projection stores the entries divided by the
corner entry, each rounded once.  It is a translation exactly if the stored diagonal is
1 and the other four linear entries are below 10^-10, and needs a division exactly if one
of the first two stored entries of the last row is not below 10^-10. -/
theorem C149_class {m : M33 ℚ} {p : Projection ℚ} (h : fromMatrix32 m = .ok p) :
    m.m22 ≠ 0 ∧
    p.transform = ⟨rnd32 (m.m00 / m.m22), rnd32 (m.m01 / m.m22), rnd32 (m.m02 / m.m22), rnd32 (m.m10 / m.m22),
      rnd32 (m.m11 / m.m22), rnd32 (m.m12 / m.m22), rnd32 (m.m20 / m.m22), rnd32 (m.m21 / m.m22), 1⟩ ∧
    (p.cls = .projection ↔
      ¬ (|p.transform.m20| < rnd32 (1 / 10 ^ 10) ∧ |p.transform.m21| < rnd32 (1 / 10 ^ 10))) ∧
    (p.cls = .translation ↔ p.transform.m00 = 1 ∧ p.transform.m11 = 1 ∧
      |p.transform.m01| < rnd32 (1 / 10 ^ 10) ∧ |p.transform.m10| < rnd32 (1 / 10 ^ 10) ∧
      |p.transform.m20| < rnd32 (1 / 10 ^ 10) ∧ |p.transform.m21| < rnd32 (1 / 10 ^ 10)) := by
  unfold fromMatrix32 at h
  have h0 : m.m22 ≠ 0 := by
    intro hz
    simp [normalize32, hz] at h
  have hn : normalize32 m = some ⟨rnd32 (m.m00 / m.m22), rnd32 (m.m01 / m.m22), rnd32 (m.m02 / m.m22),
      rnd32 (m.m10 / m.m22), rnd32 (m.m11 / m.m22), rnd32 (m.m12 / m.m22), rnd32 (m.m20 / m.m22),
      rnd32 (m.m21 / m.m22), 1⟩ := by unfold normalize32; rw [if_neg h0]
  rw [hn] at h
  dsimp only at h
  obtain ⟨t, et⟩ : ∃ t, t = (⟨rnd32 (m.m00 / m.m22), rnd32 (m.m01 / m.m22), rnd32 (m.m02 / m.m22),
      rnd32 (m.m10 / m.m22), rnd32 (m.m11 / m.m22), rnd32 (m.m12 / m.m22), rnd32 (m.m20 / m.m22),
      rnd32 (m.m21 / m.m22), 1⟩ : M33 ℚ) := ⟨_, rfl⟩
  rw [← et] at h
  have ht : p.transform = t ∧ p.cls = classFromMatrix32 t := by
    cases ei : tryInverse32 t with
    | rejected => rw [ei] at h; simp at h
    | nonFinite => rw [ei] at h; simp at h
    | ok i => rw [ei] at h; simp at h; subst h; exact ⟨rfl, rfl⟩
  rw [ht.1, ht.2]
  have r0 : Rep 24 (-149) t.m00 := by rw [et]; exact rep_rnd _
  have r1 : Rep 24 (-149) t.m11 := by rw [et]; exact rep_rnd _
  have r2 : t.m22 = 1 := by rw [et]
  refine ⟨h0, et, ?_⟩
  unfold classFromMatrix32
  dsimp only
  simp only [near_one r0, near_one r1, r2, near_one (⟨1, 0, by norm_num, by norm_num, by norm_num⟩ : Rep 24 (-149) (1 : ℚ))]
  by_cases c1 : |t.m20| < rnd32 (1 / 10 ^ 10) ∧ |t.m21| < rnd32 (1 / 10 ^ 10)
  · rw [if_pos ⟨c1.1, c1.2, trivial⟩]
    by_cases c2 : t.m00 = 1 ∧ |t.m01| < rnd32 (1 / 10 ^ 10) ∧ |t.m10| < rnd32 (1 / 10 ^ 10) ∧ t.m11 = 1
    · rw [if_pos c2]
      simp only [reduceCtorEq, false_iff, not_not, true_iff]
      exact ⟨c1, c2.1, c2.2.2.2, c2.2.1, c2.2.2.1, c1⟩
    · rw [if_neg c2]
      simp only [reduceCtorEq, false_iff, not_not]
      exact ⟨c1, fun h => c2 ⟨h.1, h.2.2.1, h.2.2.2.1, h.2.1⟩⟩
  · rw [if_neg (fun h => c1 ⟨h.1, h.2.1⟩)]
    simp only [reduceCtorEq, false_iff, true_iff]
    exact ⟨c1, fun h => c1 h.2.2.2.2⟩

/-- C149 (small whole numbers): for every matrix with corner entry 1 whose entries are whole numbers
up to 128 in absolute value, `from_matrix` returns `None` exactly if the matrix is singular; if
it is invertible, and the leading 2x2 minor is not zero, the projection keeps the matrix and every
entry of the stored inverse has a relative error of at most `2^-22` as an approximation of the exact
inverse scaled to corner entry 1; if that minor is zero, the stored inverse is not finite. -/
theorem C149_integer_partial (t : M33 Int) (h : |t.m00| ≤ 128 ∧ |t.m01| ≤ 128 ∧ |t.m02| ≤ 128 ∧
    |t.m10| ≤ 128 ∧ |t.m11| ≤ 128 ∧ |t.m12| ≤ 128 ∧ |t.m20| ≤ 128 ∧ |t.m21| ≤ 128) (h1 : t.m22 = 1)
    (m : M33 ℚ) (hm : m = ⟨t.m00, t.m01, t.m02, t.m10, t.m11, t.m12, t.m20, t.m21, t.m22⟩) :
    (fromMatrix32 m = .rejected ↔ determinant m = 0) ∧
    (determinant m ≠ 0 → m.m00 * m.m11 - m.m01 * m.m10 ≠ 0 →
      ∃ p, fromMatrix32 m = .ok p ∧ p.transform = m ∧
        ∃ (inv : M33 ℚ) (c : ℚ), c ≠ 0 ∧ mul3x3 m inv = scalar c ∧ inv.m22 = 1 ∧
          EntriesNear p.inverse inv) ∧
    (determinant m ≠ 0 → m.m00 * m.m11 - m.m01 * m.m10 = 0 → fromMatrix32 m = .nonFinite) := by
  obtain ⟨a00, a01, a02, a10, a11, a12, a20, a21, a22⟩ := t
  dsimp only at h h1 hm
  subst h1
  have hall := h
  obtain ⟨g0, g1, g2, g3, g4, g5, g6, g7⟩ := h
  have g8 : |(1 : Int)| ≤ 128 := by norm_num
  obtain ⟨D1, D2⟩ := det32_int (t := ⟨a00, a01, a02, a10, a11, a12, a20, a21, 1⟩)
    ⟨g0, g1, g2, g3, g4, g5, g6, g7, g8⟩
  dsimp only at D1
  have N : normalize32 m = some m := by
    have r : ∀ {n : Int}, |n| ≤ 128 → rnd32 (n : ℚ) = n := fun h => rnd32_intQ (by omega)
    rw [hm]
    unfold normalize32
    simp only [Int.cast_one, one_ne_zero, if_false, div_one, r g0, r g1, r g2, r g3, r g4, r g5, r g6, r g7]
  have hdet : determinant m = ((detInt (⟨a00, a01, a02, a10, a11, a12, a20, a21, 1⟩ : M33 Int) : Int) : ℚ) := by
    rw [hm]; unfold determinant detInt; push_cast; ring
  have T : fromMatrix32 m = match tryInverse32 m with
    | .rejected => .rejected
    | .nonFinite => .nonFinite
    | .ok i => .ok ⟨m, i, classFromMatrix32 m⟩ := by
    unfold fromMatrix32; rw [N]
  rw [T]
  rw [← hm, ← hdet] at D1
  obtain ⟨p00, q00⟩ := minor32_int g4 g8 g5 g7
  obtain ⟨p01, q01⟩ := minor32_int g3 g8 g5 g6
  obtain ⟨p02, q02⟩ := minor32_int g3 g7 g4 g6
  obtain ⟨p10, q10⟩ := minor32_int g1 g8 g2 g7
  obtain ⟨p11, q11⟩ := minor32_int g0 g8 g2 g6
  obtain ⟨p12, q12⟩ := minor32_int g0 g7 g1 g6
  obtain ⟨p20, q20⟩ := minor32_int g1 g5 g2 g4
  obtain ⟨p21, q21⟩ := minor32_int g0 g5 g2 g3
  obtain ⟨p22, q22⟩ := minor32_int g0 g4 g1 g3
  generalize hd : detInt (⟨a00, a01, a02, a10, a11, a12, a20, a21, 1⟩ : M33 Int) = d at *
  have small : determinant m = 0 → tryInverse32 m = .rejected := by
    intro h0
    unfold tryInverse32
    dsimp only
    rw [D1, h0, abs_zero, if_pos tol32_pos]
  have dz : determinant m ≠ 0 → d ≠ 0 := by
    intro h0 h1; rw [hdet, h1] at h0; exact h0 (by simp)
  have big : determinant m ≠ 0 → tryInverse32 m =
      match normalize32 ⟨rnd32 (((a11 * 1 - a12 * a21 : Int) : ℚ) / d), rnd32 (((-(a01 * 1 - a02 * a21) : Int) : ℚ) / d),
        rnd32 (((a01 * a12 - a02 * a11 : Int) : ℚ) / d), rnd32 (((-(a10 * 1 - a12 * a20) : Int) : ℚ) / d),
        rnd32 (((a00 * 1 - a02 * a20 : Int) : ℚ) / d), rnd32 (((-(a00 * a12 - a02 * a10) : Int) : ℚ) / d),
        rnd32 (((a10 * a21 - a11 * a20 : Int) : ℚ) / d), rnd32 (((-(a00 * a21 - a01 * a20) : Int) : ℚ) / d),
        rnd32 (((a00 * a11 - a01 * a10 : Int) : ℚ) / d)⟩ with
      | none => .nonFinite
      | some i => .ok i := by
    intro h0
    have d1 : (1 : ℚ) ≤ |(d : ℚ)| := by exact_mod_cast Int.one_le_abs (dz h0)
    unfold tryInverse32
    dsimp only
    rw [D1, hdet, if_neg (by linarith [tol32_lt])]
    rw [hm]
    dsimp only
    rw [p00, p01, p02, p10, p11, p12, p20, p21, p22]
    simp only [Int.cast_neg]
  refine ⟨⟨?_, ?_⟩, ?_, ?_⟩
  · intro h
    by_contra h0
    rw [big h0] at h
    cases e : normalize32 ⟨rnd32 (((a11 * 1 - a12 * a21 : Int) : ℚ) / d), rnd32 (((-(a01 * 1 - a02 * a21) : Int) : ℚ) / d),
        rnd32 (((a01 * a12 - a02 * a11 : Int) : ℚ) / d), rnd32 (((-(a10 * 1 - a12 * a20) : Int) : ℚ) / d),
        rnd32 (((a00 * 1 - a02 * a20 : Int) : ℚ) / d), rnd32 (((-(a00 * a12 - a02 * a10) : Int) : ℚ) / d),
        rnd32 (((a10 * a21 - a11 * a20 : Int) : ℚ) / d), rnd32 (((-(a00 * a21 - a01 * a20) : Int) : ℚ) / d),
        rnd32 (((a00 * a11 - a01 * a10 : Int) : ℚ) / d)⟩ <;> rw [e] at h <;> simp at h
  · intro h
    rw [small h]
  · intro h0 hw
    rw [big h0]
    have w0 : a00 * a11 - a01 * a10 ≠ 0 := by
      intro hc
      apply hw
      rw [hm]
      dsimp only
      exact_mod_cast hc
    have hdz := dz h0
    have R := fun (n : Int) (hn : |n| ≤ 32768) => div_div_rel (n := n) hdz w0 (by omega) D2 (by omega)
    have wz := (R 0 (by norm_num)).1
    have wq : ((a00 * a11 - a01 * a10 : Int) : ℚ) ≠ 0 := by exact_mod_cast w0
    unfold normalize32
    dsimp only
    rw [if_neg wz]
    refine ⟨_, rfl, rfl, ⟨((a11 * 1 - a12 * a21 : Int) : ℚ) / (a00 * a11 - a01 * a10 : Int),
      ((-(a01 * 1 - a02 * a21) : Int) : ℚ) / (a00 * a11 - a01 * a10 : Int),
      ((a01 * a12 - a02 * a11 : Int) : ℚ) / (a00 * a11 - a01 * a10 : Int),
      ((-(a10 * 1 - a12 * a20) : Int) : ℚ) / (a00 * a11 - a01 * a10 : Int),
      ((a00 * 1 - a02 * a20 : Int) : ℚ) / (a00 * a11 - a01 * a10 : Int),
      ((-(a00 * a12 - a02 * a10) : Int) : ℚ) / (a00 * a11 - a01 * a10 : Int),
      ((a10 * a21 - a11 * a20 : Int) : ℚ) / (a00 * a11 - a01 * a10 : Int),
      ((-(a00 * a21 - a01 * a20) : Int) : ℚ) / (a00 * a11 - a01 * a10 : Int), 1⟩,
      (d : ℚ) / (a00 * a11 - a01 * a10 : Int), ?_, ?_, rfl, ?_⟩
    · exact div_ne_zero (by exact_mod_cast hdz) wq
    · rw [hm, ← hd]
      unfold mul3x3 scalar detInt
      push_cast at wq ⊢
      generalize hW : (a00 : ℚ) * a11 - a01 * a10 = W at *
      congr 1 <;> field_simp <;> (try rw [← hW]) <;> ring
    · refine ⟨(R _ q00).2, (R _ (by rw [abs_neg]; exact q10)).2, (R _ q20).2, (R _ (by rw [abs_neg]; exact q01)).2,
        (R _ q11).2, (R _ (by rw [abs_neg]; exact q21)).2, (R _ q02).2, (R _ (by rw [abs_neg]; exact q12)).2, rfl⟩
  · intro h0 hw
    rw [big h0]
    have w0 : a00 * a11 - a01 * a10 = 0 := by
      rw [hm] at hw
      dsimp only at hw
      exact_mod_cast hw
    have z := rnd32_zeroQ
    unfold normalize32
    dsimp only
    rw [w0, Int.cast_zero, zero_div, z, if_pos rfl]

/-- A projective matrix and its inverse. -/
example : (match fromMatrix32 ⟨2, 0, 1, 0, 2, 1, 1, 0, 1⟩ with
    | .ok p => p.inverse.m20 | _ => 0) = -1 / 2 := by decide +kernel

/-- A matrix with corner entry 3 whose quotient by 3 is a translation; one with a small shear, affine. -/
example : (match fromMatrix32 ⟨3, 0, 15, 0, 3, 21, 0, 0, 3⟩ with
    | .ok p => decide (p.cls = .translation ∧ p.transform.m02 = 5 ∧ p.transform.m12 = 7) | _ => false) = true := by
  decide +kernel

example : (match fromMatrix32 ⟨1, 1 / 2 ^ 20, 0, 0, 1, 0, 0, 0, 1⟩ with
    | .ok p => decide (p.cls = .affine) | _ => false) = true := by decide +kernel

end Verif.Float
