import Mathlib.Analysis.InnerProductSpace.PiL2
import Mathlib.Algebra.Order.Chebyshev
import Mathlib.Data.List.GetD
import Mathlib.Tactic.Linarith
import Mathlib.Tactic.Positivity
/-
Model of `/repo/src/math.rs` over the real numbers and property theorem C105.
-/
namespace Verif.Math

/-- `l1_norm`, math.rs:4-6. -/
def l1Norm (xs : List ℝ) : ℝ := xs.foldl (fun acc x => acc + |x|) 0

/-- `l2_norm`, math.rs:9-11. -/
noncomputable def l2Norm (xs : List ℝ) : ℝ := Real.sqrt (xs.foldl (fun acc x => acc + x * x) 0)

theorem foldl_add (f : ℝ → ℝ) (xs : List ℝ) (a : ℝ) :
    xs.foldl (fun acc x => acc + f x) a = a + (xs.map f).sum := by
  induction xs generalizing a with
  | nil => simp
  | cons x xs ih => rw [List.foldl_cons, ih, List.map_cons, List.sum_cons]; ring

theorem l1_eq (xs : List ℝ) : l1Norm xs = (xs.map fun x => |x|).sum := by
  rw [l1Norm, foldl_add, zero_add]

theorem l2_eq (xs : List ℝ) : l2Norm xs = Real.sqrt (xs.map fun x => x ^ 2).sum := by
  rw [l2Norm, foldl_add, zero_add]
  simp only [sq]

/-- The vector as an element of Euclidean space. -/
noncomputable def vec (xs : List ℝ) (n : Nat) : EuclideanSpace ℝ (Fin n) := WithLp.toLp 2 fun i => xs.getD i 0

theorem sum_fin (f : ℝ → ℝ) : ∀ (xs : List ℝ), (xs.map f).sum = ∑ i : Fin xs.length, f (xs.getD i 0)
  | [] => by simp
  | x :: xs => by
    rw [List.map_cons, List.sum_cons, sum_fin f xs]
    show f x + _ = ∑ i : Fin (xs.length + 1), _
    rw [Fin.sum_univ_succ]
    rfl

theorem l2_norm (xs : List ℝ) : l2Norm xs = ‖vec xs xs.length‖ := by
  rw [l2_eq, sum_fin, EuclideanSpace.norm_eq]
  congr 1
  refine Finset.sum_congr rfl fun i _ => ?_
  rw [Real.norm_eq_abs, sq_abs]
  rfl

theorem sum_nonneg (f : ℝ → ℝ) (hf : ∀ x, 0 ≤ f x) : ∀ xs : List ℝ, 0 ≤ (xs.map f).sum
  | [] => by simp
  | x :: xs => by
    rw [List.map_cons, List.sum_cons]
    exact add_nonneg (hf x) (sum_nonneg f hf xs)

theorem sum_zero (f : ℝ → ℝ) (hf : ∀ x, 0 ≤ f x) (h0 : ∀ x, f x = 0 ↔ x = 0) : ∀ xs : List ℝ,
    (xs.map f).sum = 0 ↔ ∀ x ∈ xs, x = 0
  | [] => by simp
  | x :: xs => by
    rw [List.map_cons, List.sum_cons, add_eq_zero_iff_of_nonneg (hf x) (sum_nonneg f hf xs),
      sum_zero f hf h0 xs, h0]
    simp

/-- **C105.** The values: the sum of the absolute entries, and the nonnegative number whose square is
the sum of the squared entries. -/
theorem C105_value (xs : List ℝ) :
    l1Norm xs = ∑ i : Fin xs.length, |xs.get i| ∧
    0 ≤ l2Norm xs ∧ l2Norm xs ^ 2 = ∑ i : Fin xs.length, xs.get i ^ 2 := by
  have e : ∀ i : Fin xs.length, xs.getD i 0 = xs.get i := fun i => by simp
  refine ⟨?_, Real.sqrt_nonneg _, ?_⟩
  · rw [l1_eq, sum_fin]
    simp only [e]
  · rw [l2_eq, Real.sq_sqrt (List.sum_nonneg (by simp only [List.mem_map]; rintro _ ⟨x, _, rfl⟩; exact sq_nonneg x)),
      sum_fin (fun x => x ^ 2)]
    simp only [e]

/-- **C105.** Both norms are nonnegative and vanish exactly for the zero vector; in particular for the
empty one. -/
theorem C105_definite (xs : List ℝ) :
    0 ≤ l1Norm xs ∧ 0 ≤ l2Norm xs ∧ (l1Norm xs = 0 ↔ ∀ x ∈ xs, x = 0) ∧
    (l2Norm xs = 0 ↔ ∀ x ∈ xs, x = 0) := by
  rw [l1_eq, l2_eq]
  refine ⟨sum_nonneg _ abs_nonneg xs, Real.sqrt_nonneg _, sum_zero _ abs_nonneg
    (fun x => abs_eq_zero) xs, ?_⟩
  rw [Real.sqrt_eq_zero (sum_nonneg _ (fun x => sq_nonneg x) xs),
    sum_zero _ (fun x => sq_nonneg x) (fun x => sq_eq_zero_iff) xs]

/-- **C105.** Both norms scale with the absolute value of a factor. -/
theorem C105_scale (xs : List ℝ) (r : ℝ) :
    l1Norm (xs.map fun x => r * x) = |r| * l1Norm xs ∧
    l2Norm (xs.map fun x => r * x) = |r| * l2Norm xs := by
  have key : ∀ (f : ℝ → ℝ) (a : ℝ), (∀ x, f (r * x) = a * f x) → ∀ xs : List ℝ,
      ((xs.map fun x => r * x).map f).sum = a * (xs.map f).sum := by
    intro f a h xs
    induction xs with
    | nil => simp
    | cons x xs ih => simp only [List.map_cons, List.sum_cons, h, ih]; ring
  constructor
  · rw [l1_eq, l1_eq, key _ |r| (fun x => abs_mul r x)]
  · rw [l2_eq, l2_eq, key _ (r ^ 2) (fun x => mul_pow r x 2), Real.sqrt_mul (sq_nonneg r),
      Real.sqrt_sq_eq_abs]

/-- **C105.** Both norms satisfy the triangle inequality. -/
theorem C105_triangle (xs ys : List ℝ) (h : xs.length = ys.length) :
    l1Norm (List.zipWith (· + ·) xs ys) ≤ l1Norm xs + l1Norm ys ∧
    l2Norm (List.zipWith (· + ·) xs ys) ≤ l2Norm xs + l2Norm ys := by
  constructor
  · simp only [l1_eq]
    induction xs generalizing ys with
    | nil => cases ys <;> simp_all
    | cons x xs ih =>
      cases ys with
      | nil => simp at h
      | cons y ys =>
        have := ih ys (by simpa using h)
        simp only [List.zipWith_cons_cons, List.map_cons, List.sum_cons]
        have := abs_add_le x y
        linarith
  · rw [l2_norm, l2_norm, l2_norm]
    have e : (List.zipWith (· + ·) xs ys).length = xs.length := by simp [h]
    rw [e, ← h]
    have : vec (List.zipWith (· + ·) xs ys) xs.length = vec xs xs.length + vec ys xs.length := by
      ext i
      show (List.zipWith (· + ·) xs ys).getD i 0 = xs.getD i 0 + ys.getD i 0
      have h1 := i.2
      rw [List.getD_eq_getElem _ _ (by omega), List.getD_eq_getElem _ _ h1,
        List.getD_eq_getElem _ _ (by omega), List.getElem_zipWith]
    rw [this]
    exact norm_add_le _ _

/-- **C105.** `l2 ≤ l1 ≤ √n · l2`, and neither norm depends on the order of the entries. -/
theorem C105_compare (xs ys : List ℝ) (hp : xs.Perm ys) :
    l2Norm xs ≤ l1Norm xs ∧ l1Norm xs ≤ Real.sqrt xs.length * l2Norm xs ∧
    l1Norm xs = l1Norm ys ∧ l2Norm xs = l2Norm ys := by
  refine ⟨?_, ?_, ?_, ?_⟩
  · rw [l2_eq, l1_eq]
    refine Real.sqrt_le_iff.2 ⟨sum_nonneg _ abs_nonneg xs, ?_⟩
    clear hp
    induction xs with
    | nil => simp
    | cons x xs ih =>
      simp only [List.map_cons, List.sum_cons]
      have h1 := sum_nonneg _ abs_nonneg xs
      have h2 := abs_nonneg x
      nlinarith [sq_abs x, mul_nonneg h2 h1]
  · rw [l2_eq, l1_eq, ← Real.sqrt_mul (Nat.cast_nonneg _)]
    refine Real.le_sqrt_of_sq_le ?_
    rw [sum_fin, sum_fin]
    have := sq_sum_le_card_mul_sum_sq (s := Finset.univ)
      (f := fun i : Fin xs.length => |xs.getD i 0|)
    simpa using this
  · rw [l1_eq, l1_eq]; exact (hp.map _).sum_eq
  · rw [l2_eq, l2_eq, (hp.map _).sum_eq]

example : l1Norm [3, -4] = 7 := by
  rw [l1_eq]; norm_num [abs_of_neg]
example : l2Norm [3, -4] = 5 := by
  rw [l2_eq, show ([3, -4].map fun x : ℝ => x ^ 2).sum = 5 ^ 2 by norm_num]
  exact Real.sqrt_sq (by norm_num)

end Verif.Math
