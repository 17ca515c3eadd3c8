import Mathlib.Algebra.BigOperators.Group.List.Basic
import Mathlib.Data.List.Rotate
import Mathlib.Algebra.Order.Field.Basic
import Mathlib.Algebra.Order.Ring.Rat
import Mathlib.Tactic.Ring
import Mathlib.Tactic.Linarith
import Mathlib.Tactic.FieldSimp
/-
Model of `contour_area` and `oriented_contour_area`, `/repo/src/geometry.rs`, over an arbitrary
ordered field (exact arithmetic in place of `f64`), and property theorem C55.
-/
set_option linter.unusedSectionVars false
namespace Verif.Geometry
variable {K : Type _} [Field K] [LinearOrder K] [IsStrictOrderedRing K]

/-- The fold of geometry.rs:91-95: the previous point and the accumulator. -/
def areaFold : List (K × K) → K × K → K → K
  | [], _, acc => acc
  | p :: l, prev, acc => areaFold l p (acc + (prev.1 * p.2 - prev.2 * p.1))

/-- `oriented_contour_area`, geometry.rs:83-96. -/
def orientedArea (pts : List (K × K)) : K :=
  if pts.length < 3 then 0
  else
    match pts.getLast? with
    | none => 0
    | some prev => (1 / 2) * areaFold pts prev 0

/-- `contour_area`, geometry.rs:72-77. -/
def contourArea (pts : List (K × K)) : K := |orientedArea pts|

/-! ### Specification -/

/-- Twice the area under the closed polygon: the cross products of cyclically consecutive points. -/
def shoelace (pts : List (K × K)) : K :=
  (List.zipWith (fun a b => a.1 * b.2 - a.2 * b.1) pts (pts.rotate 1)).sum

/-! ### Lemmas -/

/-- Sum of the cross products along an open path. -/
def path : List (K × K) → K
  | [] => 0
  | [_] => 0
  | a :: b :: l => (a.1 * b.2 - a.2 * b.1) + path (b :: l)

theorem areaFold_eq : ∀ (l : List (K × K)) (prev : K × K) (acc : K),
    areaFold l prev acc = acc + path (prev :: l)
  | [], prev, acc => by simp [areaFold, path]
  | p :: l, prev, acc => by rw [areaFold, areaFold_eq l, path]; ring

theorem zip_path : ∀ (l : List (K × K)) (a e : K × K),
    (List.zipWith (fun a b => a.1 * b.2 - a.2 * b.1) (a :: l) (l ++ [e])).sum = path (a :: l ++ [e])
  | [], a, e => by simp [path]
  | b :: l, a, e => by
    rw [List.cons_append, List.zipWith_cons_cons, List.sum_cons, zip_path l b e]
    rfl

theorem path_cons_cons (a b : K × K) (l : List (K × K)) :
    path (a :: b :: l) = (a.1 * b.2 - a.2 * b.1) + path (b :: l) := rfl

theorem path_snoc : ∀ (l : List (K × K)) (c b : K × K),
    path (l ++ [c, b]) = path (l ++ [c]) + (c.1 * b.2 - c.2 * b.1)
  | [], c, b => by simp [path]
  | [x], c, b => by simp [path]
  | x :: y :: l, c, b => by
    have := path_snoc (y :: l) c b
    rw [List.cons_append, List.cons_append, path_cons_cons, ← List.cons_append, this,
      List.cons_append, List.cons_append, List.cons_append, path_cons_cons]
    ring

theorem shoelace_cons (a : K × K) (l : List (K × K)) : shoelace (a :: l) = path (a :: l ++ [a]) := by
  rw [shoelace, List.rotate_cons_succ, List.rotate_zero, zip_path]

/-! ### C55 -/

/-- C55: the oriented area is half the shoelace sum, for every list. -/
theorem C55_shoelace (pts : List (K × K)) : orientedArea pts = shoelace pts / 2 := by
  unfold orientedArea
  split
  · rename_i h
    match pts, h with
    | [], _ => simp [shoelace]
    | [a], _ => rw [shoelace_cons]; simp [path]; ring
    | [a, b], _ => rw [shoelace_cons]; simp [path]; ring
    | a :: b :: c :: l, h => simp at h; omega
  · rename_i h
    match pts, h with
    | [], h => simp at h
    | a :: l, h =>
      obtain ⟨m, c, hm⟩ : ∃ m c, a :: l = m ++ [c] := by
        rcases List.eq_nil_or_concat (a :: l) with h | ⟨m, c, h⟩
        · cases h
        · exact ⟨m, c, by simpa using h⟩
      have hlast : (a :: l).getLast? = some c := by rw [hm]; simp
      rw [hlast]
      dsimp only
      rw [areaFold_eq, shoelace_cons, path_cons_cons, hm, List.append_assoc, List.singleton_append,
        path_snoc]
      ring

theorem C55_area (pts : List (K × K)) : contourArea pts = |shoelace pts| / 2 ∧ 0 ≤ contourArea pts := by
  unfold contourArea
  rw [C55_shoelace, abs_div, abs_of_pos (show (0 : K) < 2 by norm_num)]
  exact ⟨rfl, by positivity⟩

theorem path_translate (d : K × K) : ∀ (l : List (K × K)) (a c : K × K),
    path ((a :: l ++ [c]).map fun p => (p.1 + d.1, p.2 + d.2)) = path (a :: l ++ [c]) +
      d.1 * (c.2 - a.2) - d.2 * (c.1 - a.1)
  | [], a, c => by simp [path]; ring
  | b :: l, a, c => by
    have := path_translate d l b c
    rw [List.cons_append, List.map_cons] at this
    rw [List.cons_append, List.map_cons, List.cons_append, List.map_cons, path_cons_cons, this,
      path_cons_cons]
    ring

/-- C55: translation invariance. -/
theorem C55_translate (pts : List (K × K)) (d : K × K) :
    orientedArea (pts.map fun p => (p.1 + d.1, p.2 + d.2)) = orientedArea pts := by
  rw [C55_shoelace, C55_shoelace]
  congr 1
  cases pts with
  | nil => simp
  | cons a l =>
    have h := path_translate d l a a
    rw [List.map_append, List.map_cons] at h
    rw [List.map_cons, shoelace_cons, shoelace_cons]
    rw [show [((a.1 + d.1, a.2 + d.2) : K × K)] = [a].map fun p => (p.1 + d.1, p.2 + d.2) from rfl,
      h]
    ring

/-- C55: cyclic rotation of the list. -/
theorem C55_rotate (pts : List (K × K)) (n : Nat) :
    orientedArea (pts.rotate n) = orientedArea pts := by
  rw [C55_shoelace, C55_shoelace]
  congr 1
  induction n with
  | zero => simp
  | succ n ih =>
    rw [← ih, ← List.rotate_rotate pts n 1]
    generalize pts.rotate n = l
    match l with
    | [] => simp
    | [a] => simp
    | a :: b :: l =>
      rw [List.rotate_cons_succ, List.rotate_zero, List.cons_append, shoelace_cons, shoelace_cons]
      rw [show b :: (l ++ [a]) ++ [b] = (b :: l) ++ [a, b] by simp, path_snoc, List.cons_append,
        List.cons_append, List.cons_append, path_cons_cons]
      ring

theorem path_reverse : ∀ (l : List (K × K)), path l.reverse = - path l
  | [] => by simp [path]
  | [a] => by simp [path]
  | a :: b :: l => by
    have h := path_reverse (b :: l)
    rw [List.reverse_cons] at h
    rw [List.reverse_cons, List.reverse_cons, List.append_assoc, List.singleton_append, path_snoc, h,
      path_cons_cons]
    ring

/-- C55: reversing the list changes the sign. -/
theorem C55_reverse (pts : List (K × K)) : orientedArea pts.reverse = - orientedArea pts := by
  cases pts with
  | nil => simp [C55_shoelace, shoelace]
  | cons a l =>
    rw [show (a :: l).reverse = (a :: l.reverse).rotate 1 by
      rw [List.reverse_cons, List.rotate_cons_succ, List.rotate_zero], C55_rotate, C55_shoelace,
      C55_shoelace, shoelace_cons, shoelace_cons, ← neg_div, ← path_reverse]
    simp

/-- C55: an axis-parallel rectangle has its usual area, up to orientation. -/
theorem C55_rectangle (x1 y1 x2 y2 : K) :
    orientedArea [(x1, y1), (x2, y1), (x2, y2), (x1, y2)] = (x2 - x1) * (y2 - y1) ∧
    orientedArea [(x1, y1), (x1, y2), (x2, y2), (x2, y1)] = - ((x2 - x1) * (y2 - y1)) := by
  constructor <;> rw [C55_shoelace, shoelace_cons] <;> simp [path] <;> ring

/-- A triangle and its reversal. -/
example : orientedArea [((0 : ℚ), (0 : ℚ)), (4, 0), (0, 3)] = 6 ∧
    orientedArea [((0 : ℚ), (3 : ℚ)), (4, 0), (0, 0)] = -6 := by decide +kernel

end Verif.Geometry
