import Verif.Drawing.LineModel
import Mathlib.Tactic.Ring
import Mathlib.Tactic.FieldSimp
import Mathlib.Tactic.Push
import Mathlib.Data.List.Nodup
/-
Property theorems C42 (Bresenham lines), C43 (line drawing) and C48 (antialiased lines).
-/
namespace Verif.Drawing
open Verif.Definitions

/-! ### The iterator -/

/-- `k` state updates. -/
def Bres.adv (b : Bres) : Nat → Bres
  | 0 => b
  | k + 1 => (b.adv k).step

theorem Bres.step_x (b : Bres) : b.step.x = b.x + 1 := by unfold Bres.step; dsimp only; split <;> rfl
theorem Bres.step_endX (b : Bres) : b.step.endX = b.endX := by
  unfold Bres.step; dsimp only; split <;> rfl
theorem Bres.step_steep (b : Bres) : b.step.steep = b.steep := by
  unfold Bres.step; dsimp only; split <;> rfl
theorem Bres.step_dx (b : Bres) : b.step.dx = b.dx := by unfold Bres.step; dsimp only; split <;> rfl
theorem Bres.step_dy (b : Bres) : b.step.dy = b.dy := by unfold Bres.step; dsimp only; split <;> rfl
theorem Bres.step_yStep (b : Bres) : b.step.yStep = b.yStep := by
  unfold Bres.step; dsimp only; split <;> rfl

theorem Bres.adv_consts (b : Bres) (k : Nat) : (b.adv k).x = b.x + k ∧ (b.adv k).endX = b.endX ∧
    (b.adv k).steep = b.steep ∧ (b.adv k).dx = b.dx ∧ (b.adv k).dy = b.dy ∧
    (b.adv k).yStep = b.yStep := by
  induction k with
  | zero => simp [Bres.adv]
  | succ k ih =>
    obtain ⟨h1, h2, h3, h4, h5, h6⟩ := ih
    simp only [Bres.adv, Bres.step_x, Bres.step_endX, Bres.step_steep, Bres.step_dx,
      Bres.step_dy, Bres.step_yStep]
    refine ⟨by rw [h1]; push_cast; ring, h2, h3, h4, h5, h6⟩

theorem Bres.adv_step (b : Bres) (k : Nat) : b.step.adv k = b.adv (k + 1) := by
  induction k with
  | zero => rfl
  | succ k ih => rw [Bres.adv, ih]; rfl

theorem Bres.collect_eq (n : Nat) : ∀ (b : Bres), (n : Int) ≤ b.endX + 1 - b.x →
    b.collect n = (List.range n).map fun k => (b.adv k).pt := by
  induction n with
  | zero => intro b _; rfl
  | succ n ih =>
    intro b hb
    push_cast at hb
    rw [Bres.collect, Bres.next, if_neg (by omega), Option.elim_some]
    rw [ih b.step (by rw [Bres.step_endX, Bres.step_x]; omega), List.range_succ_eq_map,
      List.map_cons, List.map_map]
    congr 1
    refine List.map_congr_left fun k _ => ?_
    rw [Bres.adv_step]; rfl

theorem Bres.toList_eq (b : Bres) :
    b.toList = (List.range (b.endX + 1 - b.x).toNat).map fun k => (b.adv k).pt := by
  unfold Bres.toList
  by_cases h : 0 ≤ b.endX + 1 - b.x
  · exact b.collect_eq _ (by omega)
  · rw [show (b.endX + 1 - b.x).toNat = 0 by omega]; rfl

/-- The iterator ends: asking for more items than `toList` yields the same list. -/
theorem Bres.collect_complete (n : Nat) (b : Bres) (h : (b.endX + 1 - b.x).toNat ≤ n) :
    b.collect n = b.toList := by
  unfold Bres.toList
  induction n generalizing b with
  | zero =>
    rw [show (b.endX + 1 - b.x).toNat = 0 by omega]
  | succ n ih =>
    rw [Bres.collect, Bres.next]
    by_cases hx : b.x > b.endX
    · rw [if_pos hx, show (b.endX + 1 - b.x).toNat = 0 by omega]; rfl
    · rw [if_neg hx, Option.elim_some, ih b.step
        (by rw [Bres.step_endX, Bres.step_x]; omega)]
      obtain ⟨m, hm⟩ : ∃ m, (b.endX + 1 - b.x).toNat = m + 1 := ⟨(b.endX - b.x).toNat, by omega⟩
      rw [hm, Bres.collect, Bres.next, if_neg hx, Option.elim_some,
        show (b.step.endX + 1 - b.step.x).toNat = m by
          rw [Bres.step_endX, Bres.step_x]; omega]

/-- The points of an iterator are distinct: the major coordinate increases at every step. -/
theorem Bres.toList_nodup (b : Bres) : b.toList.Nodup := by
  rw [b.toList_eq]
  refine List.Nodup.map ?_ List.nodup_range
  intro i j h
  have h1 := (b.adv_consts i).1
  have h2 := (b.adv_consts j).1
  have h3 := (b.adv_consts i).2.2.1
  have h4 := (b.adv_consts j).2.2.1
  dsimp only [Bres.pt] at h
  rw [h3, h4] at h
  have : (b.adv i).x = (b.adv j).x := by
    cases hs : b.steep
    · simp only [hs, Bool.false_eq_true, if_false, Prod.mk.injEq] at h; exact h.1
    · simp only [hs, if_true, Prod.mk.injEq] at h; exact h.2
  omega

/-! ### Integer end points -/

/-- The point `(major, minor)` in image coordinates. -/
def orient (steep : Bool) (p : Int × Int) : Int × Int := if steep then (p.2, p.1) else p

theorem Bres.pt_eq (b : Bres) : b.pt = orient b.steep (b.x, b.y) := by
  unfold Bres.pt orient; split <;> rfl

/-- Error invariant: with integer end points, after `k` steps the minor coordinate is
`y0 + yStep * m` where `m dx` differs from `k dy` by at most half of `dx`. -/
theorem Bres.adv_inv (steep : Bool) (x0 y0 x1 y1 : Int) (hx : x0 < x1)
    (hd : |y1 - y0| ≤ x1 - x0) (k : Nat) :
    ∃ m : Int, ((Bres.mk' steep x0 y0 x1 y1).adv k).y = y0 + (if y0 < y1 then 1 else -1) * m ∧
      ((Bres.mk' steep x0 y0 x1 y1).adv k).error =
        ((x1 - x0 : Int) : ℚ) / 2 - (k : ℚ) * ((|y1 - y0| : Int) : ℚ) + m * ((x1 - x0 : Int) : ℚ) ∧
      0 ≤ ((Bres.mk' steep x0 y0 x1 y1).adv k).error ∧
      ((Bres.mk' steep x0 y0 x1 y1).adv k).error < ((x1 - x0 : Int) : ℚ) := by
  have hdx : (0 : ℚ) < ((x1 - x0 : Int) : ℚ) := by exact_mod_cast (by omega : 0 < x1 - x0)
  have hdy : ((|y1 - y0| : Int) : ℚ) ≤ ((x1 - x0 : Int) : ℚ) := by exact_mod_cast hd
  have hdy0 : (0 : ℚ) ≤ ((|y1 - y0| : Int) : ℚ) := by exact_mod_cast abs_nonneg _
  induction k with
  | zero =>
    refine ⟨0, ?_, ?_, ?_, ?_⟩
    · simp [Bres.adv, Bres.mk', truncQ_int]
    · simp [Bres.adv, Bres.mk']
    · simp only [Bres.adv, Bres.mk']; push_cast at hdx ⊢; linarith
    · simp only [Bres.adv, Bres.mk']; push_cast at hdx ⊢; linarith
  | succ k ih =>
    obtain ⟨m, h1, h2, h3, h4⟩ := ih
    obtain ⟨_, _, _, c4, c5, c6⟩ := (Bres.mk' steep x0 y0 x1 y1).adv_consts k
    have c4' : ((Bres.mk' steep x0 y0 x1 y1).adv k).dx = ((x1 - x0 : Int) : ℚ) := by
      rw [c4]; simp [Bres.mk']
    have c5' : ((Bres.mk' steep x0 y0 x1 y1).adv k).dy = ((|y1 - y0| : Int) : ℚ) := by
      rw [c5]; simp [Bres.mk']
    have c6' : ((Bres.mk' steep x0 y0 x1 y1).adv k).yStep = if y0 < y1 then 1 else -1 := by
      rw [c6]; simp [Bres.mk']
    rw [Bres.adv]
    generalize (Bres.mk' steep x0 y0 x1 y1).adv k = b at *
    unfold Bres.step
    dsimp only
    rw [c5']
    by_cases he : b.error - ((|y1 - y0| : Int) : ℚ) < 0
    · rw [if_pos he]
      refine ⟨m + 1, ?_, ?_, ?_, ?_⟩
      · dsimp only; rw [h1, c6']; ring
      · dsimp only; rw [h2, c4']; push_cast; ring
      · dsimp only; rw [c4']; linarith
      · dsimp only; rw [c4']; linarith
    · rw [if_neg he]
      refine ⟨m, h1, ?_, ?_, ?_⟩
      · dsimp only; rw [h2]; push_cast; ring
      · dsimp only; linarith
      · dsimp only; linarith

/-- Properties of a Bresenham run with ordered integer end points, in (major, minor)
coordinates. -/
theorem Bres.run (steep : Bool) (x0 y0 x1 y1 : Int) (hx : x0 ≤ x1) (hd : |y1 - y0| ≤ x1 - x0) :
    ∃ f : Nat → Int, (Bres.mk' steep x0 y0 x1 y1).toList =
        (List.range ((x1 - x0).toNat + 1)).map
          (fun (k : Nat) => orient steep (x0 + (k : Int), f k)) ∧
      f 0 = y0 ∧ f (x1 - x0).toNat = y1 ∧
      (∀ k : Nat, k ≤ (x1 - x0).toNat → 2 * |(f k - y0) * (x1 - x0) - (k : Int) * (y1 - y0)| ≤ x1 - x0) ∧
      (∀ k, |f (k + 1) - f k| ≤ 1) := by
  refine ⟨fun k => ((Bres.mk' steep x0 y0 x1 y1).adv k).y, ?_, ?_, ?_, ?_, ?_⟩
  · rw [Bres.toList_eq]
    have e : ((Bres.mk' steep x0 y0 x1 y1).endX + 1 - (Bres.mk' steep x0 y0 x1 y1).x).toNat =
        (x1 - x0).toNat + 1 := by
      simp only [Bres.mk', truncQ_int]; omega
    rw [e]
    refine List.map_congr_left fun k _ => ?_
    obtain ⟨h1, _, h3, _⟩ := (Bres.mk' steep x0 y0 x1 y1).adv_consts k
    rw [Bres.pt_eq, h1, h3]
    simp [Bres.mk', truncQ_int]
  · simp [Bres.adv, Bres.mk', truncQ_int]
  · rcases eq_or_lt_of_le hx with h | h
    · subst h
      have : y1 = y0 := by
        have := abs_nonneg (y1 - y0)
        have h2 : |y1 - y0| = 0 := by omega
        have := abs_eq_zero.1 h2
        omega
      subst this
      simp [Bres.adv, Bres.mk', truncQ_int]
    · obtain ⟨m, h1, h2, h3, h4⟩ := Bres.adv_inv steep x0 y0 x1 y1 h hd (x1 - x0).toNat
      dsimp only
      rw [h1]
      have hdx : (0 : ℚ) < ((x1 - x0 : Int) : ℚ) := by exact_mod_cast (by omega : 0 < x1 - x0)
      have hk : (((x1 - x0).toNat : Nat) : ℚ) = ((x1 - x0 : Int) : ℚ) := by
        have : (((x1 - x0).toNat : Nat) : Int) = x1 - x0 := Int.toNat_of_nonneg (by omega)
        exact_mod_cast this
      rw [h2, hk] at h3 h4
      -- the multiple of dx closest to dx * |dy| is |dy|
      have hm : m = |y1 - y0| := by
        have h5 : (2 * m - 2 * |y1 - y0| + 1) * (x1 - x0) ≥ 0 := by
          have : ((2 * m - 2 * |y1 - y0| + 1) * (x1 - x0) : ℚ) ≥ 0 := by
            push_cast at h3 h4 ⊢
            linarith
          exact_mod_cast this
        have h6 : (2 * m - 2 * |y1 - y0| - 1) * (x1 - x0) < 0 := by
          have : ((2 * m - 2 * |y1 - y0| - 1) * (x1 - x0) : ℚ) < 0 := by
            push_cast at h3 h4 ⊢
            linarith
          exact_mod_cast this
        have h7 : 0 ≤ 2 * m - 2 * |y1 - y0| + 1 := by
          by_contra hc
          push Not at hc
          have := mul_neg_of_neg_of_pos hc (by omega : 0 < x1 - x0)
          omega
        have h8 : 2 * m - 2 * |y1 - y0| - 1 < 0 := by
          by_contra hc
          push Not at hc
          have := mul_nonneg hc (by omega : 0 ≤ x1 - x0)
          omega
        omega
      rw [hm]
      by_cases hy : y0 < y1
      · rw [if_pos hy, abs_of_pos (by omega)]; omega
      · rw [if_neg hy, abs_of_nonpos (by omega)]; omega
  · intro k hk
    rcases eq_or_lt_of_le hx with h | h
    · subst h
      have : k = 0 := by omega
      subst this
      simp
    · obtain ⟨m, h1, h2, h3, h4⟩ := Bres.adv_inv steep x0 y0 x1 y1 h hd k
      dsimp only
      rw [h1]
      rw [h2] at h3 h4
      have key : ∀ s : Int, (s = 1 ∨ s = -1) → y1 - y0 = s * |y1 - y0| →
          2 * |(y0 + s * m - y0) * (x1 - x0) - k * (y1 - y0)| ≤ x1 - x0 := by
        intro s hs hy
        have e : (y0 + s * m - y0) * (x1 - x0) - k * (y1 - y0) =
            s * (m * (x1 - x0) - k * |y1 - y0|) := by
          conv_lhs => rw [hy]
          ring
        rw [e, abs_mul, show |s| = 1 by rcases hs with h | h <;> simp [h], one_mul]
        have h5 : -(x1 - x0) ≤ 2 * (m * (x1 - x0) - k * |y1 - y0|) := by
          have : (-(x1 - x0) : ℚ) ≤ 2 * (m * (x1 - x0) - k * |y1 - y0|) := by
            push_cast at h3 h4 ⊢
            linarith
          exact_mod_cast this
        have h6 : 2 * (m * (x1 - x0) - k * |y1 - y0|) ≤ (x1 - x0) := by
          have : 2 * (m * (x1 - x0) - k * |y1 - y0|) ≤ ((x1 - x0) : ℚ) := by
            push_cast at h3 h4 ⊢
            linarith
          exact_mod_cast this
        have : |2 * (m * (x1 - x0) - (k : Int) * |y1 - y0|)| ≤ x1 - x0 := abs_le.2 ⟨h5, h6⟩
        rw [abs_mul] at this
        simpa using this
      by_cases hy : y0 < y1
      · rw [if_pos hy]
        exact key 1 (Or.inl rfl) (by rw [abs_of_pos (by omega)]; ring)
      · rw [if_neg hy]
        exact key (-1) (Or.inr rfl) (by rw [abs_of_nonpos (by omega)]; ring)
  · intro k
    have c6 := ((Bres.mk' steep x0 y0 x1 y1).adv_consts k).2.2.2.2.2
    dsimp only
    rw [Bres.adv]
    generalize hb : (Bres.mk' steep x0 y0 x1 y1).adv k = b at *
    have hs : b.yStep = 1 ∨ b.yStep = -1 := by
      rw [c6]; simp only [Bres.mk']; split <;> simp
    unfold Bres.step
    dsimp only
    split
    · dsimp only
      rcases hs with h | h <;> rw [h] <;> simp
    · simp

/-- What a Bresenham line from `s` to `e` looks like: one point per step of the longer side, from
one end to the other, moving to one of the 8 neighbours each time, never further than half a
pixel from the ideal line measured along the shorter side.  (Dividing
`(p.2-s.2)(e.1-s.1) - (p.1-s.1)(e.2-s.2)` by the length of the longer side gives the deviation
along the shorter one.) -/
structure GoodLine (s e : Int × Int) (L : List (Int × Int)) : Prop where
  length : L.length = max (e.1 - s.1).natAbs (e.2 - s.2).natAbs + 1
  ends : (L.head? = some s ∧ L.getLast? = some e) ∨ (L.head? = some e ∧ L.getLast? = some s)
  steps : ∀ k p q, L[k]? = some p → L[k + 1]? = some q →
    p ≠ q ∧ |q.1 - p.1| ≤ 1 ∧ |q.2 - p.2| ≤ 1
  near : ∀ p ∈ L, 2 * |(p.2 - s.2) * (e.1 - s.1) - (p.1 - s.1) * (e.2 - s.2)| ≤
    max |e.1 - s.1| |e.2 - s.2|
  box : ∀ p ∈ L, min s.1 e.1 ≤ p.1 ∧ p.1 ≤ max s.1 e.1 ∧ min s.2 e.2 ≤ p.2 ∧ p.2 ≤ max s.2 e.2

theorem GoodLine.symm {s e : Int × Int} {L : List (Int × Int)} (h : GoodLine s e L) :
    GoodLine e s L := by
  refine ⟨?_, h.ends.symm, h.steps, ?_, fun p hp => ?_⟩
  rotate_left 2
  · have := h.box p hp; omega
  · rw [h.length]; omega
  · intro p hp
    have := h.near p hp
    rw [abs_sub_comm s.1 e.1, abs_sub_comm s.2 e.2]
    rw [show (p.2 - e.2) * (s.1 - e.1) - (p.1 - e.1) * (s.2 - e.2) =
      -((p.2 - s.2) * (e.1 - s.1) - (p.1 - s.1) * (e.2 - s.2)) by ring, abs_neg]
    exact this

/-- A point within half a pixel of a line lies within the minor range of the line. -/
theorem minor_range (D y0 y1 v k : Int) (hk0 : 0 ≤ k) (hk : k ≤ D) (h0 : k = 0 → v = y0)
    (h : 2 * |(v - y0) * D - k * (y1 - y0)| ≤ D) : min y0 y1 ≤ v ∧ v ≤ max y0 y1 := by
  rcases eq_or_lt_of_le hk0 with h1 | h1
  · have := h0 h1.symm; omega
  · have hD : 0 < D := by omega
    have h2 := le_abs_self ((v - y0) * D - k * (y1 - y0))
    have h3 := neg_abs_le ((v - y0) * D - k * (y1 - y0))
    rcases le_total y0 y1 with hy | hy
    · have e1 : 0 ≤ k * (y1 - y0) := mul_nonneg hk0 (by omega)
      have e2 : k * (y1 - y0) ≤ D * (y1 - y0) := mul_le_mul_of_nonneg_right hk (by omega)
      constructor
      · by_contra hc
        have : (v - y0) * D ≤ (-1) * D := mul_le_mul_of_nonneg_right (by omega) (by omega)
        omega
      · by_contra hc
        have : (y1 - y0 + 1) * D ≤ (v - y0) * D := mul_le_mul_of_nonneg_right (by omega) (by omega)
        have e3 : (y1 - y0 + 1) * D = D * (y1 - y0) + D := by ring
        omega
    · have e1 : k * (y1 - y0) ≤ 0 := mul_nonpos_of_nonneg_of_nonpos hk0 (by omega)
      have e2 : D * (y1 - y0) ≤ k * (y1 - y0) := mul_le_mul_of_nonpos_right hk (by omega)
      constructor
      · by_contra hc
        have : (v - y0) * D ≤ (y1 - y0 - 1) * D := mul_le_mul_of_nonneg_right (by omega) (by omega)
        have e3 : (y1 - y0 - 1) * D = D * (y1 - y0) - D := by ring
        omega
      · by_contra hc
        have : 1 * D ≤ (v - y0) * D := mul_le_mul_of_nonneg_right (by omega) (by omega)
        omega

theorem Bres.good (steep : Bool) (x0 y0 x1 y1 : Int) (hx : x0 ≤ x1) (hd : |y1 - y0| ≤ x1 - x0) :
    GoodLine (orient steep (x0, y0)) (orient steep (x1, y1))
      (Bres.mk' steep x0 y0 x1 y1).toList := by
  obtain ⟨f, hL, h0, hN, hdev, hstep⟩ := Bres.run steep x0 y0 x1 y1 hx hd
  rw [hL]
  have hd' : (y1 - y0).natAbs ≤ (x1 - x0).toNat := by
    rw [Int.abs_eq_natAbs] at hd; omega
  refine ⟨?_, Or.inl ⟨?_, ?_⟩, ?_, ?_, ?_⟩
  rotate_left 5
  · intro p hp
    obtain ⟨k, hk, rfl⟩ := List.mem_map.1 hp
    have hk' := List.mem_range.1 hk
    have := minor_range (x1 - x0) y0 y1 (f k) k (by omega) (by omega)
      (fun h => by rw [show k = 0 by omega]; exact h0) (hdev k (by omega))
    unfold orient
    cases steep <;> simp only [Bool.false_eq_true, if_true, if_false] <;> omega
  · rw [List.length_map, List.length_range]
    unfold orient
    cases steep <;> simp only [Bool.false_eq_true, if_true, if_false] <;> omega
  · rw [List.range_succ_eq_map]
    simp [h0]
  · rw [List.range_succ, List.map_append]
    simp only [List.map_cons, List.map_nil, List.getLast?_append, List.getLast?_singleton,
      Option.some_or, hN]
    congr 3
    omega
  · intro k p q hp hq
    rw [List.getElem?_map, Option.map_eq_some_iff] at hp hq
    obtain ⟨i, hi, rfl⟩ := hp
    obtain ⟨j, hj, rfl⟩ := hq
    have hi' := List.getElem?_eq_some_iff.1 hi
    have hj' := List.getElem?_eq_some_iff.1 hj
    obtain ⟨_, hi'⟩ := hi'
    obtain ⟨_, hj'⟩ := hj'
    rw [List.getElem_range] at hi' hj'
    subst hi'
    subst hj'
    have := hstep k
    unfold orient
    cases steep <;> simp only [Bool.false_eq_true, if_true, if_false] <;>
      refine ⟨fun h => ?_, ?_, ?_⟩
    · have := congrArg Prod.fst h; dsimp only at this; omega
    · rw [abs_le]; push_cast; omega
    · exact this
    · have := congrArg Prod.snd h; dsimp only at this; omega
    · exact this
    · rw [abs_le]; push_cast; omega
  · intro p hp
    obtain ⟨k, hk, rfl⟩ := List.mem_map.1 hp
    have hk' := List.mem_range.1 hk
    have := hdev k (by omega)
    have hm : x1 - x0 ≤ |x1 - x0| := le_abs_self _
    unfold orient
    cases steep <;> simp only [Bool.false_eq_true, if_true, if_false]
    · rw [show x0 + (k : Int) - x0 = k by ring]
      exact this.trans (hm.trans (le_max_left _ _))
    · rw [show x0 + (k : Int) - x0 = k by ring,
        show (k : Int) * (y1 - y0) - (f k - y0) * (x1 - x0) =
          -((f k - y0) * (x1 - x0) - k * (y1 - y0)) by ring, abs_neg]
      exact this.trans (hm.trans (le_max_right _ _))

/-- **C42.** For all integer end points in all octants. -/
theorem C42_bresenham (s e : Int × Int) :
    GoodLine s e (bresenham ((s.1 : ℚ), (s.2 : ℚ)) ((e.1 : ℚ), (e.2 : ℚ))) := by
  obtain ⟨sx, sy⟩ := s
  obtain ⟨ex, ey⟩ := e
  unfold bresenham Bres.new
  dsimp only
  have hc : ∀ a b c d : Int, (|(a : ℚ) - b| > |(c : ℚ) - d|) ↔ |a - b| > |c - d| := by
    intro a b c d
    constructor <;> intro h <;> exact_mod_cast h
  by_cases hst : |ey - sy| > |ex - sx|
  · rw [if_pos ((hc _ _ _ _).2 hst)]
    unfold Bres.ordered
    by_cases ho : sy > ey
    · rw [if_pos (by exact_mod_cast ho)]
      refine (Bres.good true ey ex sy sx (by omega) ?_).symm
      rw [abs_sub_comm, ← abs_of_nonneg (show 0 ≤ sy - ey by omega), abs_sub_comm sy]
      omega
    · rw [if_neg (by exact_mod_cast ho)]
      refine (Bres.good true sy sx ey ex (by omega) ?_)
      rw [← abs_of_nonneg (show 0 ≤ ey - sy by omega)]
      omega
  · rw [if_neg (fun h => hst ((hc _ _ _ _).1 h))]
    unfold Bres.ordered
    by_cases ho : sx > ex
    · rw [if_pos (by exact_mod_cast ho)]
      refine (Bres.good false ex ey sx sy (by omega) ?_).symm
      rw [abs_sub_comm, ← abs_of_nonneg (show 0 ≤ sx - ex by omega), abs_sub_comm sx]
      omega
    · rw [if_neg (by exact_mod_cast ho)]
      refine (Bres.good false sx sy ex ey (by omega) ?_)
      rw [← abs_of_nonneg (show 0 ≤ ex - sx by omega)]
      omega

-- A steep line drawn from its upper end.
example : bresenham (2, 0) (1, 3) = [(2, 0), (2, 1), (1, 2), (1, 3)] := by decide +kernel
-- A line running to the left is visited from its left end.
example : bresenham (4, 1) (0, 2) = [(0, 2), (1, 2), (2, 2), (3, 1), (4, 1)] := by decide +kernel

/-! ### Drawing -/

theorem inBounds_iff {α : Type _} (im : Image α) (p : Int × Int) :
    inBounds im p = true ↔ 0 ≤ p.1 ∧ p.1 < im.w ∧ 0 ≤ p.2 ∧ p.2 < im.h := by
  simp [inBounds, and_assoc]

/-- Drawing a list of distinct points. -/
theorem draw_points {α : Type _} (op : α → α → α) (im : Image α) (c : α) (L : List (Int × Int))
    (hL : L.Nodup) : ∃ out, (forList L im fun p out =>
      if inBounds im p then drawPixel op out p.1.toNat p.2.toNat c else some out) = some out ∧
      out.w = im.w ∧ out.h = im.h ∧
      ∀ a b, out.px a b = if im.InB a b ∧ ((a : Int), (b : Int)) ∈ L then op (im.px a b) c
        else im.px a b := by
  refine forList_spec (fun l (o : Image α) => o.w = im.w ∧ o.h = im.h ∧
    ∀ a b, o.px a b = if im.InB a b ∧ ((a : Int), (b : Int)) ∈ l then op (im.px a b) c
        else im.px a b) L [] im ⟨rfl, rfl, fun a b => by simp⟩ ?_
  rintro l p q o hl ⟨hw, hh, hpx⟩
  rw [List.nil_append] at hl
  by_cases hb : inBounds im p = true
  · rw [if_pos hb]
    obtain ⟨h1, h2, h3, h4⟩ := (inBounds_iff im p).1 hb
    rw [drawPixel_of_inB (by omega) (by omega)]
    refine ⟨_, rfl, hw, hh, fun a b => ?_⟩
    dsimp only
    have hpl : p ∉ l := by
      rw [hl] at hL
      have := (List.nodup_append.1 hL).2.2
      intro h
      exact this p h p (List.mem_cons_self) rfl
    by_cases hab : a = p.1.toNat ∧ b = p.2.toNat
    · rw [if_pos hab]
      have e : ((a : Int), (b : Int)) = p := Prod.ext (by dsimp only; omega) (by dsimp only; omega)
      have e1 : im.InB a b := ⟨by omega, by omega⟩
      rw [← hab.1, ← hab.2, hpx, e, if_neg (fun h => hpl h.2), if_pos ⟨e1, by simp⟩]
    · rw [if_neg hab, hpx]
      refine if_congr ?_ rfl rfl
      rw [List.mem_append, List.mem_singleton]
      constructor
      · exact fun h => ⟨h.1, Or.inl h.2⟩
      · rintro ⟨h5, h6 | h6⟩
        · exact ⟨h5, h6⟩
        · exact absurd (by rw [← h6]; exact ⟨rfl, rfl⟩) hab
  · rw [if_neg hb]
    refine ⟨_, rfl, hw, hh, fun a b => ?_⟩
    rw [hpx]
    refine if_congr ?_ rfl rfl
    rw [List.mem_append, List.mem_singleton]
    constructor
    · exact fun h => ⟨h.1, Or.inl h.2⟩
    · rintro ⟨h5, h6 | h6⟩
      · exact ⟨h5, h6⟩
      · refine absurd ((inBounds_iff im p).2 ?_) hb
        obtain ⟨h7, h8⟩ := h5
        rw [← h6]
        dsimp only
        omega

/-- **C43**, drawing: for arbitrary real end points (anywhere), every canvas and colour, drawing
succeeds and combines the colour exactly once into each image pixel that lies on the iterated
line; everything else is unchanged. -/
theorem C43_draw {α : Type _} (op : α → α → α) (im : Image α) (s e : ℚ × ℚ) (c : α) :
    ∃ out, drawLine op im s e c = some out ∧ out.w = im.w ∧ out.h = im.h ∧
      ∀ a b, out.px a b = if im.InB a b ∧ ((a : Int), (b : Int)) ∈ bresenham s e
        then op (im.px a b) c else im.px a b :=
  draw_points op im c _ (Bres.toList_nodup _)

/-- **C43**, iterators: on a non-empty image the pixel iterators visit the in-bounds points of the
line between the clamped end points, each exactly once (so the mutable iterator never hands out
two references to one pixel), and never leave the image. -/
theorem C43_iter {α : Type _} (im : Image α) (s e : ℚ × ℚ) (hw : 1 ≤ im.w) (hh : 1 ≤ im.h) :
    ∃ l, pixelIterCoords im s e = some l ∧ l.Nodup ∧
      (∀ p, p ∈ l ↔ p ∈ bresenham (clampPoint im s) (clampPoint im e) ∧
        0 ≤ p.1 ∧ p.1 < im.w ∧ 0 ≤ p.2 ∧ p.2 < im.h) ∧
      pixelIter im s e = some (l.map fun p => im.px p.1.toNat p.2.toNat) := by
  refine ⟨(bresenham (clampPoint im s) (clampPoint im e)).filter (inBounds im), ?_, ?_, ?_, ?_⟩
  · rw [pixelIterCoords, if_pos ⟨hw, hh⟩]
  · exact (Bres.toList_nodup _).filter _
  · intro p
    rw [List.mem_filter, inBounds_iff]
  · rw [pixelIter, pixelIterCoords, if_pos ⟨hw, hh⟩, Option.bind_some]
    generalize bresenham (clampPoint im s) (clampPoint im e) = l
    induction l with
    | nil => rfl
    | cons p l ih =>
      rw [List.filter_cons]
      by_cases hb : inBounds im p = true
      · obtain ⟨h1, h2, h3, h4⟩ := (inBounds_iff im p).1 hb
        rw [if_pos hb, List.mapM_cons, ih, Image.get_of_inB (by omega) (by omega)]
        rfl
      · rw [if_neg hb]; exact ih

/-- On a non-empty image, end points inside the image are not moved by clamping and every point
of the line between integer end points inside the image is inside: the iterator drops nothing. -/
theorem C43_iter_inside {α : Type _} (im : Image α) (s e : Int × Int)
    (hs : inBounds im s = true) (he : inBounds im e = true) :
    pixelIterCoords im ((s.1 : ℚ), (s.2 : ℚ)) ((e.1 : ℚ), (e.2 : ℚ)) =
      some (bresenham ((s.1 : ℚ), (s.2 : ℚ)) ((e.1 : ℚ), (e.2 : ℚ))) := by
  have hs' := (inBounds_iff im s).1 hs
  have he' := (inBounds_iff im e).1 he
  have hc : ∀ p : Int × Int, inBounds im p = true →
      clampPoint im ((p.1 : ℚ), (p.2 : ℚ)) = ((p.1 : ℚ), (p.2 : ℚ)) := by
    intro p hp
    obtain ⟨h1, h2, h3, h4⟩ := (inBounds_iff im p).1 hp
    have g1 : (p.1 : ℚ) ≤ (im.w : ℚ) - 1 := by
      have : ((p.1 + 1 : Int) : ℚ) ≤ ((im.w : Int) : ℚ) := by exact_mod_cast h2
      push_cast at this; linarith
    have g2 : (p.2 : ℚ) ≤ (im.h : ℚ) - 1 := by
      have : ((p.2 + 1 : Int) : ℚ) ≤ ((im.h : Int) : ℚ) := by exact_mod_cast h4
      push_cast at this; linarith
    unfold clampPoint
    rw [min_eq_left g1, min_eq_left g2, max_eq_right (by exact_mod_cast h1),
      max_eq_right (by exact_mod_cast h3)]
  rw [pixelIterCoords, if_pos ⟨by omega, by omega⟩, hc s hs, hc e he]
  congr 1
  refine List.filter_eq_self.2 fun p hp => ?_
  have := (C42_bresenham s e).box p hp
  rw [inBounds_iff]
  omega

/-- A 4x3 image with entries `10 y + x`. -/
def lineImg : Image Nat := Image.ofFn 4 3 fun x y => 10 * y + x

-- The line leaves the image on both sides.
example : ((drawLine overwrite lineImg (-1, 0) (5, 2) 99).map Image.rows) =
    some [[99, 1, 2, 3], [10, 99, 99, 99], [20, 21, 22, 23]] := by decide +kernel
-- The iterator clamps its end points first, so it visits other pixels than the drawing function.
example : pixelIter lineImg (-1, 0) (5, 2) = some [0, 11, 12, 23] := by decide +kernel

/-! ### Antialiased lines -/

/-- The minor coordinate of the ideal line through `s` and `e` at major coordinate `a`, in
(major, minor) coordinates. -/
def idealMinor (s e : Int × Int) (a : Int) : ℚ :=
  (s.2 : ℚ) + ((a : ℚ) - s.1) * (((e.2 : ℚ) - s.2) / ((e.1 : ℚ) - s.1))

theorem plot_eq {α : Type _} (blend : α → α → ℚ → α) (c : α) (steep : Bool) (im : Image α)
    (x y : Int) (wt : ℚ) : ∃ out, plot blend c steep im x y wt = some out ∧ out.w = im.w ∧
      out.h = im.h ∧ ∀ a b, out.px a b =
        if im.InB a b ∧ orient steep (x, y) = ((a : Int), (b : Int)) then blend c (im.px a b) wt
        else im.px a b := by
  unfold plot
  dsimp only
  have ho : (if steep = true then (y, x) else (x, y)) = orient steep (x, y) := by
    unfold orient; split <;> rfl
  rw [ho]
  generalize orient steep (x, y) = p
  by_cases hb : inBounds im p = true
  · rw [if_pos hb]
    obtain ⟨h1, h2, h3, h4⟩ := (inBounds_iff im p).1 hb
    rw [Image.get_of_inB (by omega) (by omega), Option.bind_some,
      Image.put_of_inB _ (by omega) (by omega)]
    refine ⟨_, rfl, rfl, rfl, fun a b => ?_⟩
    dsimp only
    by_cases hab : a = p.1.toNat ∧ b = p.2.toNat
    · rw [if_pos hab, if_pos ⟨⟨by omega, by omega⟩, Prod.ext (by dsimp only; omega)
        (by dsimp only; omega)⟩, hab.1, hab.2]
    · rw [if_neg hab, if_neg]
      rintro ⟨_, rfl⟩
      exact hab ⟨rfl, rfl⟩
  · rw [if_neg hb]
    refine ⟨_, rfl, rfl, rfl, fun a b => ?_⟩
    rw [if_neg]
    rintro ⟨⟨h1, h2⟩, rfl⟩
    exact hb ((inBounds_iff im _).2 (by dsimp only; omega))

/-- The value of pixel `(x, y)` after an antialiased line whose ideal minor coordinate at major
coordinate `p.1` is `v`, where `p` is the pixel in (major, minor) coordinates. -/
def wuPixel {α : Type _} (blend : α → α → ℚ → α) (c old : α) (v : ℚ) (minor : Int) : α :=
  if minor = truncQ v then blend c old (1 - (v - truncQ v))
  else if minor = truncQ v + 1 then blend c old (v - truncQ v) else old

theorem orient_orient (steep : Bool) (p : Int × Int) : orient steep (orient steep p) = p := by
  unfold orient; cases steep <;> rfl

theorem plotWu_eq {α : Type _} (blend : α → α → ℚ → α) (c : α) (steep : Bool) (im : Image α)
    (s e : Int × Int) (hse : s.1 ≤ e.1) : ∃ out, plotWu blend c steep im s e = some out ∧
      out.w = im.w ∧ out.h = im.h ∧ ∀ x y, im.InB x y →
        out.px x y = if s.1 ≤ (orient steep (x, y)).1 ∧ (orient steep (x, y)).1 ≤ e.1 then
          wuPixel blend c (im.px x y) (idealMinor s e (orient steep (x, y)).1)
            (orient steep (x, y)).2 else im.px x y := by
  unfold plotWu
  dsimp only
  have key := forRange_spec
    (f := fun (k : Nat) (st : Image α × ℚ) =>
      (plot blend c steep st.1 (s.1 + k) (truncQ st.2) (1 - fract st.2)).bind fun im =>
      (plot blend c steep im (s.1 + k) (truncQ st.2 + 1) (fract st.2)).map fun im =>
      (im, st.2 + ((e.2 - s.2 : Int) : ℚ) / ((e.1 - s.1 : Int) : ℚ)))
    (fun (k : Nat) (st : Image α × ℚ) => st.1.w = im.w ∧ st.1.h = im.h ∧
      st.2 = idealMinor s e (s.1 + k) ∧ ∀ x y, im.InB x y →
        st.1.px x y = if s.1 ≤ (orient steep (x, y)).1 ∧ (orient steep (x, y)).1 < s.1 + k then
          wuPixel blend c (im.px x y) (idealMinor s e (orient steep (x, y)).1)
            (orient steep (x, y)).2 else im.px x y)
    (lo := 0) (hi := (e.1 + 1 - s.1).toNat) (s := (im, (s.2 : ℚ))) (by omega)
    ⟨rfl, rfl, by simp [idealMinor], fun x y _ => by rw [if_neg (by push_cast; omega)]⟩
  have key := key ?_
  · obtain ⟨r, hr, hI⟩ := key
    rw [hr]
    refine ⟨r.1, rfl, hI.1, hI.2.1, fun x y hxy => ?_⟩
    rw [hI.2.2.2 x y hxy]
    exact if_congr (by omega) rfl rfl
  · rintro k ⟨o, fy⟩ - hk ⟨hw, hh, hfy, hpx⟩
    dsimp only at hw hh hfy hpx
    dsimp only
    obtain ⟨o1, h1, w1, h1', p1⟩ := plot_eq blend c steep o (s.1 + k) (truncQ fy) (1 - fract fy)
    obtain ⟨o2, h2, w2, h2', p2⟩ := plot_eq blend c steep o1 (s.1 + k) (truncQ fy + 1) (fract fy)
    rw [h1, Option.bind_some, h2, Option.map_some]
    refine ⟨_, rfl, by dsimp only; omega, by dsimp only; omega, ?_, ?_⟩
    · dsimp only
      rw [hfy]
      unfold idealMinor
      push_cast
      ring
    · intro x y hxy
      dsimp only
      have ho : ∀ m : Int, orient steep (s.1 + k, m) = ((x : Int), (y : Int)) ↔
          (orient steep (x, y)).1 = s.1 + k ∧ (orient steep (x, y)).2 = m := by
        intro m
        constructor
        · intro h; rw [← h, orient_orient]; exact ⟨rfl, rfl⟩
        · rintro ⟨h3, h4⟩; rw [← orient_orient steep (↑x, ↑y), ← h3, ← h4]
      have hb : o.InB x y := ⟨by rw [hw]; exact hxy.1, by rw [hh]; exact hxy.2⟩
      have hb1 : o1.InB x y := ⟨by rw [w1]; exact hb.1, by rw [h1']; exact hb.2⟩
      rw [p2, p1, hpx x y hxy]
      simp only [ho]
      generalize orient steep ((x : Int), (y : Int)) = q at *
      clear p1 p2 hpx key ho
      by_cases hq : q.1 = s.1 + k
      · have hq1 : s.1 ≤ q.1 ∧ q.1 < s.1 + ((k + 1 : Nat) : Int) := by push_cast; omega
        have hq2 : ¬ (s.1 ≤ q.1 ∧ q.1 < s.1 + (k : Int)) := by omega
        rw [if_pos hq1, if_neg hq2, hq, ← hfy]
        unfold wuPixel fract
        by_cases hm : q.2 = truncQ fy
        · rw [if_neg (by omega), if_pos ⟨hb, rfl, hm⟩, if_pos hm]
        · rw [if_neg (c := o.InB x y ∧ _) (fun h => hm h.2.2), if_neg hm]
          exact if_congr ⟨fun h => h.2.2, fun h => ⟨hb1, rfl, h⟩⟩ rfl rfl
      · rw [if_neg (fun h => hq h.2.1), if_neg (fun h => hq h.2.1)]
        exact if_congr (by push_cast; omega) rfl rfl

theorem idealMinor_swap (s e : Int × Int) (a : Int) (h : s.1 ≠ e.1) :
    idealMinor s e a = idealMinor e s a := by
  have : ((e.1 : ℚ) - s.1) ≠ 0 := by
    intro h2; apply h; have : (e.1 : ℚ) = s.1 := by linarith
    exact_mod_cast this.symm
  have h2 : ((s.1 : ℚ) - e.1) ≠ 0 := by
    intro h2; apply this; linarith
  unfold idealMinor
  field_simp
  try ring

/-- Whether the line is drawn along the vertical axis. -/
def isSteep (s e : Int × Int) : Bool := |e.2 - s.2| > |e.1 - s.1|

/-- **C48**, exact behaviour of antialiased drawing for all integer end points and images: drawing
succeeds, and for every major coordinate between the end points the two pixels at minor
coordinates `trunc v`, `trunc v + 1` (`v` = ideal minor coordinate) are blended once, with weights
`1 - (v - trunc v)` and `v - trunc v`; everything else is unchanged. -/
theorem C48_exact {α : Type _} (blend : α → α → ℚ → α) (im : Image α) (s e : Int × Int) (c : α) :
    ∃ out, drawAntialiased blend im s e c = some out ∧ out.w = im.w ∧ out.h = im.h ∧
      ∀ x y, im.InB x y → ∀ p S E, p = orient (isSteep s e) (x, y) → S = orient (isSteep s e) s →
        E = orient (isSteep s e) e →
        out.px x y = if min S.1 E.1 ≤ p.1 ∧ p.1 ≤ max S.1 E.1 then
          wuPixel blend c (im.px x y) (idealMinor S E p.1) p.2 else im.px x y := by
  unfold drawAntialiased
  by_cases hst : |e.2 - s.2| > |e.1 - s.1|
  · have hs : isSteep s e = true := by simp [isSteep, hst]
    rw [if_pos hst, hs]
    by_cases ho : s.2 > e.2
    · rw [if_pos ho]
      obtain ⟨o, h1, h2, h3, h4⟩ := plotWu_eq blend c true im (e.2, e.1) (s.2, s.1) (by dsimp only; omega)
      refine ⟨o, h1, h2, h3, fun x y hxy p S E hp hS hE => ?_⟩
      rw [h4 x y hxy, ← hp]
      subst hS hE
      simp only [orient, if_true]
      rw [idealMinor_swap _ _ _ (by dsimp only; omega)]
      exact if_congr (by omega) rfl rfl
    · rw [if_neg ho]
      obtain ⟨o, h1, h2, h3, h4⟩ := plotWu_eq blend c true im (s.2, s.1) (e.2, e.1) (by dsimp only; omega)
      refine ⟨o, h1, h2, h3, fun x y hxy p S E hp hS hE => ?_⟩
      rw [h4 x y hxy, ← hp]
      subst hS hE
      simp only [orient, if_true]
      exact if_congr (by omega) rfl rfl
  · have hs : isSteep s e = false := by simp only [isSteep, decide_eq_false_iff_not]; exact hst
    rw [if_neg hst, hs]
    by_cases ho : s.1 > e.1
    · rw [if_pos ho]
      obtain ⟨o, h1, h2, h3, h4⟩ := plotWu_eq blend c false im e s (by omega)
      refine ⟨o, h1, h2, h3, fun x y hxy p S E hp hS hE => ?_⟩
      rw [h4 x y hxy, ← hp]
      have hS' : S = s := hS
      have hE' : E = e := hE
      rw [hS', hE']
      rw [idealMinor_swap _ _ _ (by omega)]
      exact if_congr (by omega) rfl rfl
    · rw [if_neg ho]
      obtain ⟨o, h1, h2, h3, h4⟩ := plotWu_eq blend c false im s e (by omega)
      refine ⟨o, h1, h2, h3, fun x y hxy p S E hp hS hE => ?_⟩
      rw [h4 x y hxy, ← hp]
      have hS' : S = s := hS
      have hE' : E = e := hE
      rw [hS', hE']
      exact if_congr (by omega) rfl rfl

/-- What antialiasing should do to a pixel at minor coordinate `m` when the line passes at `v`:
blend with one minus the distance to the line, for the two pixels around the line. -/
def wuIdeal {α : Type _} (blend : α → α → ℚ → α) (c old : α) (v : ℚ) (m : Int) : α :=
  if -1 < (m : ℚ) - v ∧ (m : ℚ) - v ≤ 1 then blend c old (1 - |(m : ℚ) - v|) else old

/-- The weights used by `wuIdeal` are in `[0, 1]`; the two pixels around the line are `⌊v⌋` and
`⌊v⌋ + 1` and their weights sum to one. -/
theorem C48_weights (v : ℚ) :
    (∀ m : Int, (-1 < (m : ℚ) - v ∧ (m : ℚ) - v ≤ 1) ↔ (m = ⌊v⌋ ∨ m = ⌊v⌋ + 1)) ∧
    (∀ m : Int, (-1 < (m : ℚ) - v ∧ (m : ℚ) - v ≤ 1) →
      0 ≤ 1 - |(m : ℚ) - v| ∧ 1 - |(m : ℚ) - v| ≤ 1) ∧
    (1 - |((⌊v⌋ : Int) : ℚ) - v|) + (1 - |((⌊v⌋ + 1 : Int) : ℚ) - v|) = 1 := by
  have h1 := Int.floor_le v
  have h2 := Int.lt_floor_add_one v
  refine ⟨fun m => ⟨fun ⟨h3, h4⟩ => ?_, fun h => ?_⟩, fun m ⟨h3, h4⟩ => ⟨?_, ?_⟩, ?_⟩
  · have h5 : ⌊v⌋ - 1 < m := by
      have : ((⌊v⌋ - 1 : Int) : ℚ) < m := by push_cast; linarith
      exact_mod_cast this
    have h6 : m < ⌊v⌋ + 2 := by
      have : (m : ℚ) < ((⌊v⌋ + 2 : Int) : ℚ) := by push_cast; linarith
      exact_mod_cast this
    omega
  · rcases h with rfl | rfl
    · constructor <;> linarith
    · push_cast; constructor <;> linarith
  · have : |(m : ℚ) - v| ≤ 1 := abs_le.2 ⟨by linarith, h4⟩
    linarith
  · linarith [abs_nonneg ((m : ℚ) - v)]
  · rw [abs_of_nonpos (by linarith), abs_of_nonneg (by push_cast; linarith)]
    push_cast; ring

theorem wuPixel_of_nonneg {α : Type _} (blend : α → α → ℚ → α) (c old : α) (v : ℚ) (m : Int)
    (ht : truncQ v = ⌊v⌋) : wuPixel blend c old v m = wuIdeal blend c old v m := by
  have h1 := Int.floor_le v
  have h2 := Int.lt_floor_add_one v
  unfold wuPixel wuIdeal
  rw [ht]
  have hm := (C48_weights v).1 m
  by_cases h3 : m = ⌊v⌋
  · rw [if_pos h3, if_pos (hm.2 (Or.inl h3)), h3, abs_of_nonpos (by linarith)]
    congr 1; ring
  · rw [if_neg h3]
    by_cases h4 : m = ⌊v⌋ + 1
    · rw [if_pos h4, if_pos (hm.2 (Or.inr h4)), h4, abs_of_nonneg (by push_cast; linarith)]
      congr 1; push_cast; ring
    · rw [if_neg h4, if_neg (fun h => ?_)]
      rcases hm.1 h with h | h
      · exact h3 h
      · exact h4 h

/-- **C48, partial.** For every pixel whose column (row, if steep) meets the ideal line at a
minor coordinate that is not strictly between -2 and -1 or -1 and 0 - in particular when the line
has no negative coordinates - the pixel is blended as it should be.  Missing: lines crossing that
zone, see `C48_negation`. -/
theorem C48_antialiased_partial {α : Type _} (blend : α → α → ℚ → α) (im : Image α)
    (s e : Int × Int) (c : α) :
    ∃ out, drawAntialiased blend im s e c = some out ∧ out.w = im.w ∧ out.h = im.h ∧
      ∀ x y, im.InB x y → ∀ p S E, p = orient (isSteep s e) (x, y) → S = orient (isSteep s e) s →
        E = orient (isSteep s e) e →
        (idealMinor S E p.1 ≤ -2 ∨ idealMinor S E p.1 = -1 ∨ 0 ≤ idealMinor S E p.1) →
        out.px x y = if min S.1 E.1 ≤ p.1 ∧ p.1 ≤ max S.1 E.1 then
          wuIdeal blend c (im.px x y) (idealMinor S E p.1) p.2 else im.px x y := by
  obtain ⟨o, h1, h2, h3, h4⟩ := C48_exact blend im s e c
  refine ⟨o, h1, h2, h3, fun x y hxy p S E hp hS hE hv => ?_⟩
  rw [h4 x y hxy p S E hp hS hE]
  generalize idealMinor S E p.1 = v at hv
  congr 1
  rcases hv with hv | hv | hv
  · -- the line passes above the image: neither changes the pixel
    have hp2 : 0 ≤ p.2 := by
      rw [hp]; unfold orient; split <;> dsimp only <;> omega
    have ht : truncQ v ≤ -2 := by
      have := truncQ_mono hv
      rwa [show ((-2 : ℚ)) = ((-2 : Int) : ℚ) by norm_num, truncQ_int] at this
    have hp2' : (0 : ℚ) ≤ p.2 := by exact_mod_cast hp2
    unfold wuPixel wuIdeal
    rw [if_neg (by omega), if_neg (by omega), if_neg (by rintro ⟨_, h⟩; linarith)]
  · refine wuPixel_of_nonneg _ _ _ _ _ ?_
    rw [hv, show ((-1 : ℚ)) = ((-1 : Int) : ℚ) by norm_num, truncQ_int, Int.floor_intCast]
  · exact wuPixel_of_nonneg _ _ _ _ _ (by unfold truncQ; rw [if_pos hv])

/-- With non-negative end points the side condition of `C48_antialiased_partial` always holds on
the line. -/
theorem idealMinor_nonneg (S E : Int × Int) (a : Int) (hS : 0 ≤ S.2) (hE : 0 ≤ E.2)
    (h1 : min S.1 E.1 ≤ a) (h2 : a ≤ max S.1 E.1) : 0 ≤ idealMinor S E a := by
  by_cases h : S.1 = E.1
  · have ha : a = S.1 := by omega
    unfold idealMinor
    rw [ha, sub_self, zero_mul, add_zero]
    exact_mod_cast hS
  · have key : ∀ S E : Int × Int, 0 ≤ S.2 → 0 ≤ E.2 → S.1 < E.1 → S.1 ≤ a → a ≤ E.1 →
        0 ≤ idealMinor S E a := by
      intro S E hS hE hlt g1 g2
      have hd : (0 : ℚ) < (E.1 : ℚ) - S.1 := by
        have : (S.1 : ℚ) < E.1 := by exact_mod_cast hlt
        linarith
      have g1' : (0 : ℚ) ≤ (a : ℚ) - S.1 := by
        have : (S.1 : ℚ) ≤ a := by exact_mod_cast g1
        linarith
      have g2' : (0 : ℚ) ≤ (E.1 : ℚ) - a := by
        have : (a : ℚ) ≤ E.1 := by exact_mod_cast g2
        linarith
      have hS' : (0 : ℚ) ≤ S.2 := by exact_mod_cast hS
      have hE' : (0 : ℚ) ≤ E.2 := by exact_mod_cast hE
      have : idealMinor S E a = (S.2 * ((E.1 : ℚ) - a) + E.2 * ((a : ℚ) - S.1)) / (E.1 - S.1) := by
        unfold idealMinor
        field_simp
        ring
      rw [this]
      exact div_nonneg (add_nonneg (mul_nonneg hS' g2') (mul_nonneg hE' g1')) hd.le
    rcases lt_or_gt_of_ne h with h | h
    · exact key S E hS hE h (by omega) (by omega)
    · rw [idealMinor_swap S E a (by omega)]
      exact key E S hE hS h (by omega) (by omega)

/-- **C48, negation.** The line from (0, -1) to (2, 0) passes at height -1/2 over column 1.  The
pixels around it are -1 and 0, so pixel (1, 0) should get weight 1/2; it gets 3/2, and pixel
(1, 1), a pixel and a half away from the line, is blended with weight -1/2. -/
theorem C48_negation :
    ∃ out, drawAntialiased (fun c old w => (1 - w) * old + w * c) (Image.new 3 2 (0 : ℚ))
        (0, -1) (2, 0) 100 = some out ∧
      idealMinor (0, -1) (2, 0) 1 = -1/2 ∧
      out.rows = [[0, 150, 100], [0, -50, 0]] ∧
      wuIdeal (fun c old w => (1 - w) * old + w * c) 100 (0 : ℚ) (-1/2) 0 = 50 ∧
      wuIdeal (fun c old w => (1 - w) * old + w * c) 100 (0 : ℚ) (-1/2) 1 = 0 := by
  refine ⟨(drawAntialiased (fun c old w => (1 - w) * old + w * c) (Image.new 3 2 (0 : ℚ))
        (0, -1) (2, 0) 100).get (by decide +kernel), by rw [Option.some_get], ?_, ?_, ?_, ?_⟩ <;>
    decide +kernel

-- A line inside the image: half the weight on each of two pixels in the middle column.
example : (drawAntialiased (fun c old w => (1 - w) * old + w * c) (Image.new 3 2 (0 : ℚ))
    (2, 1) (0, 0) 100).map Image.rows = some [[100, 50, 0], [0, 50, 100]] := by decide +kernel

end Verif.Drawing
