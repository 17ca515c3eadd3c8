import Mathlib.Analysis.SpecialFunctions.Sqrt
import Mathlib.Analysis.InnerProductSpace.PiL2
import Mathlib.Tactic.Linarith
/-
Model of `arc_length` (`/repo/src/geometry.rs`) and `distance` (`/repo/src/point.rs`) over the real
numbers, and property theorem C104.
-/
namespace Verif.Geometry

/-- `distance`, point.rs:70-79. -/
noncomputable def distance (p q : ℝ × ℝ) : ℝ := Real.sqrt ((p.1 - q.1) ^ 2 + (p.2 - q.2) ^ 2)

/-- `arc_length`, geometry.rs:10-21; `windows(2)` pairs each point with its successor. -/
noncomputable def arcLength (arc : List (ℝ × ℝ)) (closed : Bool) : ℝ :=
  let length := ((arc.zip arc.tail).map fun p => distance p.1 p.2).sum
  if h : arc.length > 2 ∧ closed = true then
    length + distance (arc[0]'(by omega)) (arc[arc.length - 1]'(by omega))
  else length

/-! ### Specification -/

/-- The length of the path through the points in order. -/
noncomputable def pathLength : List (ℝ × ℝ) → ℝ
  | p :: q :: l => distance p q + pathLength (q :: l)
  | _ => 0

theorem pathLength_cons (p q : ℝ × ℝ) (l : List (ℝ × ℝ)) :
    pathLength (p :: q :: l) = distance p q + pathLength (q :: l) := rfl

theorem distance_nonneg (p q : ℝ × ℝ) : 0 ≤ distance p q := Real.sqrt_nonneg _

theorem distance_comm (p q : ℝ × ℝ) : distance p q = distance q p := by
  unfold distance; congr 1; ring

theorem distance_triangle (p q r : ℝ × ℝ) : distance p r ≤ distance p q + distance q r := by
  have key : ∀ p q : ℝ × ℝ, distance p q = dist (!₂[p.1, p.2] : EuclideanSpace ℝ (Fin 2)) !₂[q.1, q.2] := by
    intro p q
    rw [EuclideanSpace.dist_eq]
    unfold distance
    simp [Real.dist_eq, sq_abs]
  rw [key, key, key]
  exact dist_triangle _ _ _

theorem pathLength_append : ∀ (a : List (ℝ × ℝ)) (p : ℝ × ℝ) (b : List (ℝ × ℝ)),
    pathLength (a ++ p :: b) = pathLength (a ++ [p]) + pathLength (p :: b)
  | [], p, b => by show _ = 0 + _; rw [zero_add]; rfl
  | [x], p, b => by
    show distance x p + pathLength (p :: b) = (distance x p + 0) + _
    rw [add_zero]
  | x :: y :: a, p, b => by
    have := pathLength_append (y :: a) p b
    show distance x y + pathLength (y :: a ++ p :: b) = distance x y + pathLength (y :: a ++ [p]) + _
    rw [this, add_assoc]

theorem windows_sum : ∀ (l : List (ℝ × ℝ)),
    ((l.zip l.tail).map fun p => distance p.1 p.2).sum = pathLength l
  | [] => rfl
  | [_] => rfl
  | p :: q :: l => by
    have := windows_sum (q :: l)
    rw [List.tail_cons] at this ⊢
    rw [List.zip_cons_cons, List.map_cons, List.sum_cons, pathLength_cons, ← this]

/-- **C104** (partial: the closing edge of a two-point arc is missing, see the negation).  The length of an
open arc is the sum of the distances between consecutive points; with `closed` the distance between the last and
the first point is added exactly when there are three or more points. -/
theorem C104_arc_length_partial (l : List (ℝ × ℝ)) :
    arcLength l false = pathLength l ∧
    (∀ p z, l.head? = some p → l.getLast? = some z → 2 < l.length →
      arcLength l true = pathLength l + distance z p) ∧
    (l.length ≤ 2 → arcLength l true = pathLength l) := by
  refine ⟨?_, fun p z hp hz h2 => ?_, fun h => ?_⟩
  · unfold arcLength
    dsimp only
    rw [dif_neg (by simp), windows_sum]
  · unfold arcLength
    dsimp only
    rw [dif_pos ⟨h2, rfl⟩, windows_sum]
    congr 1
    rw [List.head?_eq_getElem?, List.getElem?_eq_getElem (by omega)] at hp
    rw [List.getLast?_eq_getElem?, List.getElem?_eq_getElem (by omega)] at hz
    rw [Option.some.inj hp, Option.some.inj hz, distance_comm]
  · unfold arcLength
    dsimp only
    rw [dif_neg (by omega), windows_sum]

/-- C104 is false as stated: for two distinct points `closed` does not add the way back. -/
theorem C104_negation : arcLength [(0, 0), (3, 4)] true = 5 ∧
    pathLength [(0, 0), (3, 4), (0, 0)] = 10 := by
  have d : distance (0, 0) (3, 4) = 5 := by
    unfold distance
    rw [show ((0 : ℝ) - 3) ^ 2 + (0 - 4) ^ 2 = 5 ^ 2 by norm_num]
    exact Real.sqrt_sq (by norm_num)
  constructor
  · rw [(C104_arc_length_partial _).2.2 (by simp), pathLength, pathLength, d, add_zero]
    simp
  · rw [pathLength, pathLength, pathLength, distance_comm (3, 4), d]
    · norm_num
    · simp

/-- **C104.** No arc is shorter than the distance between its end points, and inserting a point never
makes an arc (open or closed) shorter. -/
theorem C104_triangle_partial (a b : List (ℝ × ℝ)) (p q r : ℝ × ℝ) (closed : Bool) :
    distance p q ≤ arcLength (p :: a ++ [q]) false ∧
    arcLength (a ++ p :: r :: b) closed ≤ arcLength (a ++ p :: q :: r :: b) closed := by
  have hins : pathLength (a ++ p :: r :: b) ≤ pathLength (a ++ p :: q :: r :: b) := by
    rw [pathLength_append a p (r :: b), pathLength_append a p (q :: r :: b), pathLength_cons,
      pathLength_cons, pathLength_cons]
    linarith [distance_triangle p q r]
  refine ⟨?_, ?_⟩
  · rw [(C104_arc_length_partial _).1]
    clear hins
    induction a generalizing p with
    | nil =>
      show distance p q ≤ distance p q + 0
      rw [add_zero]
    | cons x a ih =>
      have := ih x
      show distance p q ≤ distance p x + pathLength (x :: a ++ [q])
      linarith [distance_triangle p x q]
  · cases closed with
    | false => rw [(C104_arc_length_partial _).1, (C104_arc_length_partial _).1]; exact hins
    | true =>
      obtain ⟨u, hu⟩ : ∃ u, (a ++ p :: r :: b).head? = some u := by
        cases a <;> exact ⟨_, rfl⟩
      obtain ⟨z, hz⟩ : ∃ z, (a ++ p :: r :: b).getLast? = some z :=
        ⟨_, List.getLast?_eq_getLast_of_ne_nil (by simp)⟩
      have hu' : (a ++ p :: q :: r :: b).head? = some u := by
        cases a <;> exact hu
      have hz' : (a ++ p :: q :: r :: b).getLast? = some z := by
        rw [← hz]; simp [List.getLast?_append, List.getLast?_cons]
      rw [(C104_arc_length_partial _).2.1 u z hu' hz' (by simp; omega)]
      by_cases h : 2 < (a ++ p :: r :: b).length
      · rw [(C104_arc_length_partial _).2.1 u z hu hz h]
        linarith
      · rw [(C104_arc_length_partial _).2.2 (by omega)]
        linarith [distance_nonneg z u]

/-- **C104.** Traversing an arc backwards does not change its length, and for a closed arc neither does
starting at another point. -/
theorem C104_symmetry_partial (l : List (ℝ × ℝ)) (closed : Bool) (k : Nat) :
    arcLength l.reverse closed = arcLength l closed ∧
    arcLength (l.rotate k) true = arcLength l true := by
  have hrev : pathLength l.reverse = pathLength l := by
    induction l with
    | nil => rfl
    | cons p l ih =>
      cases l with
      | nil => rfl
      | cons q l =>
        rw [List.reverse_cons, List.reverse_cons, List.append_assoc, List.singleton_append,
          pathLength_append, ← List.reverse_cons, ih, pathLength_cons, pathLength_cons, distance_comm]
        show _ + (_ + 0) = _
        ring
  have hrot : ∀ l : List (ℝ × ℝ), arcLength (l.rotate 1) true = arcLength l true := by
    intro l
    match l with
    | [] => rfl
    | [p] => simp
    | [p, q] =>
      show arcLength [q, p] true = _
      rw [(C104_arc_length_partial _).2.2 (by simp), (C104_arc_length_partial _).2.2 (by simp),
        pathLength_cons, pathLength_cons, distance_comm]
      rfl
    | p :: q :: r :: m =>
      obtain ⟨a, z, hz⟩ : ∃ a z, r :: m = a ++ [z] :=
        ⟨_, _, (List.dropLast_append_getLast (List.cons_ne_nil r m)).symm⟩
      rw [hz, List.rotate_cons_succ, List.rotate_zero]
      rw [(C104_arc_length_partial _).2.1 q p rfl List.getLast?_concat (by simp),
        (C104_arc_length_partial _).2.1 p z rfl (by simp [List.getLast?_cons]) (by simp), pathLength_cons,
        show q :: (a ++ [z]) ++ [p] = (q :: a) ++ z :: [p] by simp, pathLength_append, pathLength_cons]
      show _ + (_ + 0) + _ = _
      rw [show (q :: a) ++ [z] = q :: (a ++ [z]) from rfl]
      ring
  constructor
  · cases closed with
    | false => rw [(C104_arc_length_partial _).1, (C104_arc_length_partial _).1, hrev]
    | true =>
      by_cases h : 2 < l.length
      · obtain ⟨p, hp⟩ : ∃ p, l.head? = some p := by
          cases l with
          | nil => simp at h
          | cons p l => exact ⟨p, rfl⟩
        obtain ⟨z, hz⟩ : ∃ z, l.getLast? = some z :=
          ⟨_, List.getLast?_eq_getLast_of_ne_nil (by rintro rfl; simp at h)⟩
        rw [(C104_arc_length_partial _).2.1 p z hp hz h,
          (C104_arc_length_partial _).2.1 z p (by rw [List.head?_reverse, hz])
            (by rw [List.getLast?_reverse, hp]) (by simpa using h), hrev, distance_comm]
      · rw [(C104_arc_length_partial _).2.2 (by simp; omega),
          (C104_arc_length_partial _).2.2 (by omega), hrev]
  · induction k with
    | zero => rw [List.rotate_zero]
    | succ k ih => rw [← List.rotate_rotate, hrot, ih]

example : arcLength [(0, 0), (3, 4), (3, 0)] true = 12 := by
  rw [(C104_arc_length_partial _).2.1 (0, 0) (3, 0) rfl rfl (by simp)]
  have d : distance (0, 0) (3, 4) = 5 := by
    unfold distance
    rw [show ((0 : ℝ) - 3) ^ 2 + (0 - 4) ^ 2 = 5 ^ 2 by norm_num]
    exact Real.sqrt_sq (by norm_num)
  have d2 : distance (3, 4) (3, 0) = 4 := by
    unfold distance
    rw [show ((3 : ℝ) - 3) ^ 2 + (4 - 0) ^ 2 = 4 ^ 2 by norm_num]
    exact Real.sqrt_sq (by norm_num)
  have d3 : distance (3, 0) (0, 0) = 3 := by
    unfold distance
    rw [show ((3 : ℝ) - 0) ^ 2 + (0 - 0) ^ 2 = 3 ^ 2 by norm_num]
    exact Real.sqrt_sq (by norm_num)
  rw [pathLength_cons, pathLength_cons, d, d2, d3]
  show (5 : ℝ) + (4 + 0) + 3 = 12
  norm_num

end Verif.Geometry
