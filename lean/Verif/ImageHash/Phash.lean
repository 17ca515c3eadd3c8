import Verif.ImageHash.Bits
import Verif.ImageHash.Transpose
import Verif.Compose.Props
import Mathlib.Algebra.BigOperators.Intervals
import Mathlib.Algebra.Order.BigOperators.Group.Finset
import Mathlib.Algebra.Order.Field.Basic
import Mathlib.Analysis.SpecialFunctions.Trigonometric.Basic
import Mathlib.Tactic.FieldSimp
import Mathlib.Tactic.Linarith
import Mathlib.Tactic.Positivity
/-
Property theorem C90: the perceptual hash.
-/
namespace Verif.ImageHash
open Finset

/-! ### Specification -/

/-- Column `x` and row `y` of an image. -/
def column {α} (im : Image α) (x : Nat) : List α := (List.range im.h).map fun y => im.px x y

/-- The separable two-dimensional transform: transform every column, then the row obtained from
the `y`-th coefficients. -/
def coef {K : Type _} [Inhabited K] (dct : Nat → List K → List K) (im : Image K) (x y : Nat) : K :=
  (dct im.w ((List.range im.w).map fun t => (dct im.h (column im t)).getD y default)).getD x default

/-- Mean of the 64 low-frequency coefficients. -/
def meanCoef {K : Type _} [Field K] [Inhabited K] (dct : Nat → List K → List K) (im : Image K) : K :=
  (∑ k ∈ range 64, coef dct im (1 + k % 8) (1 + k / 8)) / 64

/-! ### Two-dimensional transform -/

/-- **C90.** The two-dimensional transform never fails, keeps the dimensions and is the separable
transform: columns first, then rows. -/
theorem C90_dct2d {K : Type _} [Inhabited K] (dct : Nat → List K → List K) (im : Image K) :
    ∃ out, dct2d dct im = some out ∧ out.w = im.w ∧ out.h = im.h ∧
      ∀ x y, x < im.w → y < im.h → out.px x y = coef dct im x y := by
  unfold dct2d
  obtain ⟨t, h1, h2, h3, h4⟩ := C70_any im
  rw [h1, Option.bind_some]
  unfold dct1d
  rw [if_pos h2, Option.bind_some]
  obtain ⟨t', k1, k2, k3, k4⟩ := C70_any (⟨t.w, t.h, fun x y =>
    (dct im.h ((List.range t.w).map fun x => t.px x y)).getD x default⟩ : Image K)
  rw [k1, Option.bind_some]
  dsimp only at k2 k3 k4
  rw [if_pos (by omega)]
  refine ⟨_, rfl, by dsimp only; omega, by dsimp only; omega, fun x y hx hy => ?_⟩
  dsimp only
  unfold coef column
  congr 2
  rw [k2, h3]
  apply List.map_congr_left
  intro s hs
  have hs := List.mem_range.1 hs
  rw [k4 s y (by omega) (by omega)]
  congr 2
  rw [h2]
  apply List.map_congr_left
  intro r hr
  have hr := List.mem_range.1 hr
  exact h4 r s (by omega) (by omega)

/-! ### The hash -/

theorem foldl_add {K : Type _} [AddCommMonoid K] (l : List K) (a : K) :
    l.foldl (· + ·) a = (a :: l).sum := by
  induction l generalizing a with
  | nil => simp
  | cons b l ih => rw [List.foldl_cons, ih, List.sum_cons, List.sum_cons, List.sum_cons, add_assoc]

theorem sum_map_range {K : Type _} [AddCommMonoid K] (n : Nat) (f : Nat → K) :
    ((List.range n).map f).sum = ∑ i ∈ range n, f i := by
  induction n with
  | zero => rfl
  | succ n ih => rw [List.range_succ, List.map_append, List.sum_append, ih, sum_range_succ]; simp

set_option linter.unusedSectionVars false
variable {K : Type _} [Field K] [LinearOrder K] [IsStrictOrderedRing K] [Inhabited K]

/-- **C90.** For every resampler that delivers 32 by 32 pixels and every one-dimensional
transform, the hash exists, and its bit `k` is set exactly when the coefficient in column
`1 + k mod 8` and row `1 + k / 8` exceeds the mean of those 64 coefficients. -/
theorem C90_bits (resize : Image K → Image K) (dct : Nat → List K → List K) (im : Image K)
    (hw : (resize im).w = 32) (hh : (resize im).h = 32) :
    ∃ b, phash resize dct im = some b ∧ ∀ k, k < 64 →
      (b.getLsbD k = true ↔ meanCoef dct (resize im) < coef dct (resize im) (1 + k % 8) (1 + k / 8)) := by
  unfold phash
  obtain ⟨d, h1, h2, h3, h4⟩ := C90_dct2d dct (resize im)
  rw [h1, Option.bind_some]
  obtain ⟨c, k1, k2, k3, k4⟩ := Compose.C20_crop d 1 1 8 8 (by omega) (by omega)
  rw [k1, Option.bind_some]
  have hbuf : toBuf c = (List.range 64).map fun k => coef dct (resize im) (1 + k % 8) (1 + k / 8) := by
    unfold toBuf
    rw [k2, k3]
    apply List.map_congr_left
    intro k hk
    have hk := List.mem_range.1 hk
    rw [k4 _ _ (by omega) (by omega), h4 _ _ (by omega) (by omega)]
  have hlen : (toBuf c).length = 64 := by rw [hbuf]; simp
  cases hb : toBuf c with
  | nil => rw [hb] at hlen; simp at hlen
  | cons a l =>
    dsimp only
    rw [← hb, if_pos hlen]
    have hm : l.foldl (· + ·) a / (((toBuf c).length : Nat) : K) = meanCoef dct (resize im) := by
      rw [foldl_add, ← hb, hlen, hbuf, sum_map_range]; rfl
    rw [hm]
    obtain ⟨b, e1, e2⟩ := C69_new ((toBuf c).map fun x => decide (meanCoef dct (resize im) < x))
      (by rw [List.length_map, hlen])
    refine ⟨b, e1, fun k hk => ?_⟩
    have := e2 k (by rw [List.length_map, hlen]; exact hk)
    rw [this]
    simp only [List.getElem_map, hbuf, List.getElem_range, decide_eq_true_eq]

/-- A transform of length `n` that is linear and sends constants to the zeroth coefficient only:
an affine change of the samples scales every coefficient but the zeroth, and shifts the zeroth by
an amount depending only on the constant. -/
def AffineExceptZero (n : Nat) (dct : List K → List K) : Prop :=
  ∀ (a b : K), ∃ c : K, ∀ u : Nat → K,
    (∀ k, 1 ≤ k → k < n → (dct ((List.range n).map fun i => a * u i + b)).getD k default =
      a * (dct ((List.range n).map u)).getD k default) ∧
    (dct ((List.range n).map fun i => a * u i + b)).getD 0 default =
      a * (dct ((List.range n).map u)).getD 0 default + c

theorem coef_affine (dct : Nat → List K → List K) (A B : Image K) (a b : K) (hw : B.w = A.w)
    (hh : B.h = A.h) (hd : AffineExceptZero A.w (dct A.w)) (hd' : AffineExceptZero A.h (dct A.h))
    (hpx : ∀ x y, x < A.w → y < A.h → B.px x y = a * A.px x y + b) {x y : Nat} (hx : 1 ≤ x)
    (hx' : x < A.w) (hy : 1 ≤ y) (hy' : y < A.h) :
    coef dct B x y = a * coef dct A x y := by
  unfold coef column
  rw [hw, hh]
  obtain ⟨c, h⟩ := hd' a b
  obtain ⟨c', h'⟩ := hd a 0
  rw [← (h' _).1 x hx hx']
  congr 2
  apply List.map_congr_left
  intro t ht
  have ht := List.mem_range.1 ht
  rw [add_zero, ← (h _).1 y hy hy']
  congr 2
  apply List.map_congr_left
  intro s hs
  have hs := List.mem_range.1 hs
  exact hpx t s ht hs

/-- **C90.** Brightness and contrast invariance: if the resampled images differ by a positive
scaling and a constant shift, and the transform sends constants to the zeroth coefficient only,
the two hashes are equal. -/
theorem C90_invariant (resize : Image K → Image K) (dct : Nat → List K → List K) (im im' : Image K)
    (a b : K) (ha : 0 < a) (hw : (resize im).w = 32) (hh : (resize im).h = 32)
    (hw' : (resize im').w = 32) (hh' : (resize im').h = 32)
    (hpx : ∀ x y, x < 32 → y < 32 → (resize im').px x y = a * (resize im).px x y + b)
    (hd : AffineExceptZero 32 (dct 32)) :
    phash resize dct im = phash resize dct im' := by
  obtain ⟨p, h1, h2⟩ := C90_bits resize dct im hw hh
  obtain ⟨q, k1, k2⟩ := C90_bits resize dct im' hw' hh'
  have hc : ∀ k, k < 64 → coef dct (resize im') (1 + k % 8) (1 + k / 8) =
      a * coef dct (resize im) (1 + k % 8) (1 + k / 8) := by
    intro k hk
    exact coef_affine dct _ _ a b (by omega) (by omega) (by rw [hw]; exact hd) (by rw [hh]; exact hd)
      (by rw [hw, hh]; exact hpx) (by omega) (by omega) (by omega) (by omega)
  have hm : meanCoef dct (resize im') = a * meanCoef dct (resize im) := by
    unfold meanCoef
    rw [← mul_div_assoc, mul_sum]
    congr 1
    exact sum_congr rfl fun k hk => hc k (mem_range.1 hk)
  rw [h1, k1]
  congr 1
  apply BitVec.eq_of_getLsbD_eq
  intro k hk
  rw [Bool.eq_iff_iff, h2 k hk, k2 k hk, hc k hk, hm, mul_lt_mul_iff_right₀ ha]

/-! ### The type-2 cosine transform -/

/-- The (unnormalised) type-2 discrete cosine transform of a list. -/
noncomputable def realDct (n : Nat) (v : List ℝ) : List ℝ :=
  (List.range n).map fun k : Nat =>
    ∑ i ∈ range n, v.getD i 0 * Real.cos (Real.pi / n * (i + 1 / 2) * k)

theorem sum_cos_zero {n k : Nat} (hk : 1 ≤ k) (hkn : k < n) :
    ∑ i ∈ range n, Real.cos (Real.pi / n * (i + 1 / 2) * k) = 0 := by
  have hn : (0 : ℝ) < n := by exact_mod_cast (by omega : 0 < n)
  have hk0 : (0 : ℝ) < k := by exact_mod_cast (by omega : 0 < k)
  have hkn' : (k : ℝ) < n := by exact_mod_cast hkn
  have hpi := Real.pi_pos
  set θ := Real.pi / n * k with hθ
  have hs : 0 < Real.sin (θ / 2) := by
    apply Real.sin_pos_of_pos_of_lt_pi
    · positivity
    · have : θ < Real.pi := by
        rw [hθ, div_mul_eq_mul_div, div_lt_iff₀ hn]
        exact mul_lt_mul_of_pos_left hkn' hpi
      linarith
  have tele : ∀ m : Nat, 2 * Real.sin (θ / 2) * ∑ i ∈ range m, Real.cos (Real.pi / n * (i + 1 / 2) * k) =
      Real.sin (m * θ) := by
    intro m
    induction m with
    | zero => simp
    | succ m ih =>
      rw [sum_range_succ, mul_add, ih]
      have e1 : Real.pi / n * ((m : ℝ) + 1 / 2) * k = m * θ + θ / 2 := by rw [hθ]; ring
      have e2 : ((m + 1 : Nat) : ℝ) * θ = (m * θ + θ / 2) + θ / 2 := by push_cast; ring
      have e3 : (m : ℝ) * θ = (m * θ + θ / 2) - θ / 2 := by ring
      rw [e1, e2, Real.sin_add (m * θ + θ / 2) (θ / 2)]
      conv_lhs => rw [e3]
      rw [Real.sin_sub]
      have e4 : (m : ℝ) * θ + θ / 2 - θ / 2 + θ / 2 = m * θ + θ / 2 := by ring
      rw [e4]
      ring
  have hz := tele n
  rw [show (n : ℝ) * θ = k * Real.pi by rw [hθ]; field_simp, Real.sin_nat_mul_pi] at hz
  rcases mul_eq_zero.1 hz with h | h
  · exact absurd h (by positivity)
  · exact h

theorem getD_map_range {K : Type _} (n : Nat) (f : Nat → K) {i : Nat} (hi : i < n) (d : K) :
    ((List.range n).map f).getD i d = f i := by
  rw [List.getD_eq_getElem?_getD, List.getElem?_map, List.getElem?_range hi]; rfl

/-- **C90.** The type-2 cosine transform sends constants to the zeroth coefficient only. -/
theorem C90_dct_affine (n : Nat) (hn : 0 < n) : AffineExceptZero n (realDct n) := by
  intro a b
  refine ⟨∑ _i ∈ range n, b, fun u => ?_⟩
  have key : ∀ k, k < n → (realDct n ((List.range n).map fun i => a * u i + b)).getD k default =
      a * (realDct n ((List.range n).map u)).getD k default +
        b * ∑ i ∈ range n, Real.cos (Real.pi / n * (i + 1 / 2) * k) := by
    intro k hk
    unfold realDct
    rw [getD_map_range n _ hk, getD_map_range n _ hk, mul_sum, mul_sum, ← sum_add_distrib]
    refine sum_congr rfl fun i hi => ?_
    have hi := mem_range.1 hi
    rw [getD_map_range n _ hi, getD_map_range n _ hi]
    ring
  refine ⟨fun k h1 h2 => ?_, ?_⟩
  · rw [key k h2, sum_cos_zero h1 h2, mul_zero, add_zero]
  · rw [key 0 hn]
    congr 1
    rw [mul_sum]
    exact sum_congr rfl fun i _ => by simp

/-- **C90.** With the type-2 cosine transform the hash of a 32 by 32 image does not change under a
positive contrast change and a brightness shift. -/
theorem C90_cosine (im im' : Image ℝ) (a b : ℝ) (ha : 0 < a) (hw : im.w = 32) (hh : im.h = 32)
    (hw' : im'.w = 32) (hh' : im'.h = 32)
    (hpx : ∀ x y, x < 32 → y < 32 → im'.px x y = a * im.px x y + b) :
    phash id realDct im = phash id realDct im' :=
  C90_invariant id realDct im im' a b ha hw hh hw' hh' hpx (C90_dct_affine 32 (by decide))

/-- A transform for the example: first differences of a list. -/
def diffs (n : Nat) (v : List ℚ) : List ℚ :=
  (List.range n).map fun k => if k = 0 then v.getD 0 0 else v.getD k 0 - v.getD (k - 1) 0

example : (dct2d diffs (Image.ofRows 0 [[1, 2, 4], [3, 5, 10]])).map Image.rows =
    some [[1, 1, 2], [2, 1, 3]] := by decide +kernel
example : (dct2d diffs (Image.ofRows 0 [[9, 11, 15], [13, 17, 27]])).map Image.rows =
    some [[9, 2, 4], [4, 2, 6]] := by decide +kernel
example : AffineExceptZero 32 (diffs 32) := by
  intro a b
  refine ⟨b, fun u => ⟨fun k h1 h2 => ?_, ?_⟩⟩
  · unfold diffs
    have h3 : k - 1 < 32 := by omega
    have h4 : ¬ k = 0 := by omega
    simp only [getD_map_range _ _ h2, getD_map_range _ _ h3, if_neg h4]
    ring
  · rfl

end Verif.ImageHash
