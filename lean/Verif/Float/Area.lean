import Verif.Float.F32
import Verif.Geometry.Area
/-
Model of `contour_area` and `oriented_contour_area` (src/geometry.rs:72-96) in `f64`, for points with
integer coordinates, and property theorem C127.  The exact model is in `Verif.Geometry.Area`.
-/
namespace Verif.Float
open Verif.Geometry

/-- `Point::to_f64` for integer coordinates (src/point.rs:52-56). -/
def pointToF64 (p : Int × Int) : ℚ × ℚ := (rnd64 (p.1 : ℚ), rnd64 (p.2 : ℚ))

/-- The fold of src/geometry.rs:91-95 in binary64: the previous point and the accumulator. -/
def areaFold64 : List (ℚ × ℚ) → ℚ × ℚ → ℚ → ℚ
  | [], _, acc => acc
  | p :: l, prev, acc =>
    areaFold64 l p (rnd64 (acc + rnd64 (rnd64 (prev.1 * p.2) - rnd64 (prev.2 * p.1))))

/-- `oriented_contour_area` in binary64 (src/geometry.rs:83-96). -/
def orientedArea64 (pts : List (Int × Int)) : ℚ :=
  if pts.length < 3 then 0
  else
    match pts.getLast? with
    | none => 0
    | some prev => rnd64 ((1 / 2) * areaFold64 (pts.map pointToF64) (pointToF64 prev) 0)

/-- `contour_area` in binary64 (src/geometry.rs:72-77). -/
def contourArea64 (pts : List (Int × Int)) : ℚ := |orientedArea64 pts|

/-! ### Lemmas -/

/-- The points as exact rational points. -/
def toRat (p : Int × Int) : ℚ × ℚ := ((p.1 : ℚ), (p.2 : ℚ))

/-- Twice the exact oriented area, an integer. -/
def foldInt : List (Int × Int) → Int × Int → Int → Int
  | [], _, acc => acc
  | p :: l, prev, acc => foldInt l p (acc + (prev.1 * p.2 - prev.2 * p.1))

theorem foldInt_eq : ∀ (l : List (Int × Int)) (prev : Int × Int) (acc : Int),
    areaFold (l.map toRat) (toRat prev) (acc : ℚ) = (foldInt l prev acc : ℚ)
  | [], prev, acc => rfl
  | p :: l, prev, acc => by
    rw [List.map_cons, areaFold, foldInt, ← foldInt_eq l]
    congr 1
    simp only [toRat]
    push_cast
    ring

theorem pointToF64_eq {p : Int × Int} {B : Nat} (hB : B ≤ 2 ^ 53) (h : p.1.natAbs ≤ B ∧ p.2.natAbs ≤ B) :
    pointToF64 p = toRat p := by
  unfold pointToF64 toRat
  have h1 : rnd64 (p.1 : ℚ) = p.1 := rnd_int (by norm_num) (by norm_num) (by
    rw [Int.abs_eq_natAbs]; omega)
  have h2 : rnd64 (p.2 : ℚ) = p.2 := rnd_int (by norm_num) (by norm_num) (by
    rw [Int.abs_eq_natAbs]; omega)
  rw [h1, h2]

theorem natAbs_mul_le {a b : Int} {B : Nat} (ha : a.natAbs ≤ B) (hb : b.natAbs ≤ B) :
    |a * b| ≤ (B : Int) ^ 2 := by
  rw [abs_mul, Int.abs_eq_natAbs, Int.abs_eq_natAbs, pow_two]
  exact_mod_cast Nat.mul_le_mul ha hb

/-- As long as everything fits into 53 bits the fold is exact. -/
theorem fold64_exact {B : Nat} : ∀ (l : List (Int × Int)) (prev : Int × Int) (acc : Int) (k : Nat),
    (∀ p ∈ prev :: l, p.1.natAbs ≤ B ∧ p.2.natAbs ≤ B) → |acc| ≤ k * (2 * (B : Int) ^ 2) →
    (k + l.length) * (2 * B ^ 2) ≤ 2 ^ 53 →
    areaFold64 (l.map toRat) (toRat prev) (acc : ℚ) = (foldInt l prev acc : ℚ)
  | [], prev, acc, k => fun _ _ _ => rfl
  | p :: l, prev, acc, k => fun hp hacc hk => by
    obtain ⟨a1, a2⟩ := hp prev (by simp)
    obtain ⟨b1, b2⟩ := hp p (by simp)
    have m1 := natAbs_mul_le a1 b2
    have m2 := natAbs_mul_le a2 b1
    rw [List.length_cons] at hk
    have hk' : ((k : Int) + (l.length + 1)) * (2 * (B : Int) ^ 2) ≤ 2 ^ 53 := by exact_mod_cast hk
    have hB0 : (0 : Int) ≤ (B : Int) ^ 2 := by positivity
    have hk0 : (0 : Int) ≤ k * (2 * (B : Int) ^ 2) := by positivity
    have hl0 : (0 : Int) ≤ l.length * (2 * (B : Int) ^ 2) := by positivity
    have hexp : ((k : Int) + (l.length + 1)) * (2 * (B : Int) ^ 2) =
      k * (2 * (B : Int) ^ 2) + l.length * (2 * (B : Int) ^ 2) + 2 * (B : Int) ^ 2 := by ring
    rw [abs_le] at m1 m2 hacc
    have e1 : rnd64 ((prev.1 : ℚ) * p.2) = ((prev.1 * p.2 : Int) : ℚ) := by
      have : rnd64 ((prev.1 * p.2 : Int) : ℚ) = ((prev.1 * p.2 : Int) : ℚ) :=
        rnd_int (by norm_num) (by norm_num) (by rw [abs_le]; constructor <;> linarith)
      rw [← this]; push_cast; rfl
    have e2 : rnd64 ((prev.2 : ℚ) * p.1) = ((prev.2 * p.1 : Int) : ℚ) := by
      have : rnd64 ((prev.2 * p.1 : Int) : ℚ) = ((prev.2 * p.1 : Int) : ℚ) :=
        rnd_int (by norm_num) (by norm_num) (by rw [abs_le]; constructor <;> linarith)
      rw [← this]; push_cast; rfl
    have e3 : rnd64 (((prev.1 * p.2 - prev.2 * p.1 : Int)) : ℚ) = ((prev.1 * p.2 - prev.2 * p.1 : Int) : ℚ) :=
      rnd_int (by norm_num) (by norm_num) (by rw [abs_le]; constructor <;> linarith)
    have e4 : rnd64 (((acc + (prev.1 * p.2 - prev.2 * p.1) : Int)) : ℚ) =
        ((acc + (prev.1 * p.2 - prev.2 * p.1) : Int) : ℚ) :=
      rnd_int (by norm_num) (by norm_num) (by rw [abs_le]; constructor <;> linarith)
    rw [List.map_cons, areaFold64, foldInt]
    simp only [toRat]
    rw [e1, e2, ← Int.cast_sub, e3, ← Int.cast_add, e4]
    refine fold64_exact l p _ (k + 1) (fun q hq => hp q (List.mem_cons_of_mem _ hq)) ?_ ?_
    · push_cast
      rw [abs_le]
      constructor <;> linarith
    · linarith

theorem foldInt_bound {B : Nat} : ∀ (l : List (Int × Int)) (prev : Int × Int) (acc : Int) (k : Nat),
    (∀ p ∈ prev :: l, p.1.natAbs ≤ B ∧ p.2.natAbs ≤ B) → |acc| ≤ k * (2 * (B : Int) ^ 2) →
    |foldInt l prev acc| ≤ (k + l.length) * (2 * (B : Int) ^ 2)
  | [], prev, acc, k => fun _ h => by simpa [foldInt] using h
  | p :: l, prev, acc, k => fun hp hacc => by
    obtain ⟨a1, a2⟩ := hp prev (by simp)
    obtain ⟨b1, b2⟩ := hp p (by simp)
    have m1 := natAbs_mul_le a1 b2
    have m2 := natAbs_mul_le a2 b1
    rw [foldInt]
    refine le_trans (foldInt_bound l p _ (k + 1) (fun q hq => hp q (List.mem_cons_of_mem _ hq)) ?_) ?_
    · rw [abs_le] at m1 m2 hacc ⊢
      push_cast
      constructor <;> linarith
    · rw [List.length_cons]; push_cast; linarith

theorem map_pointToF64 {pts : List (Int × Int)} {B : Nat} (hB : B ≤ 2 ^ 53)
    (h : ∀ p ∈ pts, p.1.natAbs ≤ B ∧ p.2.natAbs ≤ B) : pts.map pointToF64 = pts.map toRat :=
  List.map_congr_left fun p hp => pointToF64_eq hB (h p hp)

theorem rnd64_half {n : Int} (h : |n| ≤ 2 ^ 53) : rnd64 (1 / 2 * (n : ℚ)) = 1 / 2 * n :=
  rnd_of_rep (by norm_num) ⟨n, -1, h, by norm_num, by norm_num; ring⟩

/-- C127: for integer points with coordinates up to `B`, and so few of them that `len · 2B² ≤ 2^53`,
the area computed in `f64` is the exact area: no rounding error at all. -/
theorem C127_exact_partial (pts : List (Int × Int)) (B : Nat)
    (h : ∀ p ∈ pts, p.1.natAbs ≤ B ∧ p.2.natAbs ≤ B) (hn : pts.length * (2 * B ^ 2) ≤ 2 ^ 53) :
    orientedArea64 pts = shoelace (pts.map toRat) / 2 ∧
      contourArea64 pts = |shoelace (pts.map toRat)| / 2 := by
  have key : orientedArea64 pts = shoelace (pts.map toRat) / 2 := by
    rw [← C55_shoelace]
    unfold orientedArea64 orientedArea
    rw [List.length_map, List.getLast?_map]
    split_ifs with h3
    · rfl
    · rcases hl : pts.getLast? with _ | prev
      · rfl
      · have hm : prev ∈ pts := List.mem_of_getLast? hl
        have hB : B ≤ 2 ^ 53 := by
          have h1 : 1 * (2 * B ^ 2) ≤ pts.length * (2 * B ^ 2) := Nat.mul_le_mul_right _ (by omega)
          have h2 : B ≤ B ^ 2 := Nat.le_self_pow (by norm_num) B
          omega
        have hall : ∀ p ∈ prev :: pts, p.1.natAbs ≤ B ∧ p.2.natAbs ≤ B := by
          intro p hp
          rcases List.mem_cons.1 hp with rfl | hp
          · exact h _ hm
          · exact h _ hp
        have hz : |(0 : Int)| ≤ ((0 : Nat) : Int) * (2 * (B : Int) ^ 2) := by simp
        have e := fold64_exact pts prev 0 0 hall hz (by rwa [zero_add])
        have e2 := foldInt_eq pts prev 0
        have bd := foldInt_bound pts prev 0 0 hall hz
        rw [Int.cast_zero] at e e2
        simp only [Option.map_some]
        rw [map_pointToF64 hB h, pointToF64_eq hB (h _ hm), e, e2]
        refine rnd64_half (le_trans bd ?_)
        rw [Nat.cast_zero, zero_add]
        exact_mod_cast hn
  refine ⟨key, ?_⟩
  unfold contourArea64
  rw [key, abs_div, abs_of_pos (show (0 : ℚ) < 2 by norm_num)]

example : orientedArea64 [(0, 0), (7, 0), (7, 3)] = 21 / 2 := by
  rw [(C127_exact_partial [(0, 0), (7, 0), (7, 3)] 7 (by decide) (by decide)).1]
  decide +kernel

/-! ### Large coordinates -/

theorem rnd64_big {x : ℚ} (h : x = 4611686009837453316 ∨ x = 4611686009837453315) :
    rnd64 x = 4611686009837453312 := by
  have h1 : rnd64 x = ((9007199237963776 : Int) : ℚ) * 2 ^ max ((61 : Int) + 1 - (53 : Nat)) (-1074) := by
    refine rnd_eval 61 9007199237963776 ?_ ?_ (roundEven_near ?_)
    · rcases h with rfl | rfl <;> norm_num [abs_of_pos]
    · rcases h with rfl | rfl <;> norm_num [abs_of_pos]
    · rcases h with rfl | rfl <;> norm_num [abs_lt]
  rw [h1]
  norm_num

/-- C127 is false for all `i32` coordinates: a triangle of area one half whose computed area is `0`. -/
theorem C127_negation :
    contourArea64 [(0, 0), (2147483647, 2147483646), (2147483646, 2147483645)] = 0 ∧
    |shoelace ([(0, 0), (2147483647, 2147483646), (2147483646, 2147483645)].map toRat)| / 2 = 1 / 2 := by
  constructor
  · have hm : ∀ p ∈ [((0 : Int), (0 : Int)), (2147483647, 2147483646), (2147483646, 2147483645)],
        p.1.natAbs ≤ 2147483647 ∧ p.2.natAbs ≤ 2147483647 := by decide
    unfold contourArea64 orientedArea64
    rw [map_pointToF64 (by norm_num) hm]
    simp only [List.length_cons, List.length_nil, List.getLast?_cons_cons, List.getLast?_singleton]
    rw [pointToF64_eq (B := 2147483647) (by norm_num) (by decide), if_neg (by norm_num)]
    simp only [List.map_cons, List.map_nil, areaFold64, toRat]
    have b1 : rnd64 (((2147483647 : Int) : ℚ) * ((2147483645 : Int) : ℚ)) = 4611686009837453312 :=
      rnd64_big (Or.inr (by norm_num))
    have b2 : rnd64 (((2147483646 : Int) : ℚ) * ((2147483646 : Int) : ℚ)) = 4611686009837453312 :=
      rnd64_big (Or.inl (by norm_num))
    rw [b1, b2]
    have z : rnd64 (0 : ℚ) = 0 := rnd_zero
    simp only [Int.cast_zero, mul_zero, zero_mul, sub_self, add_zero, rnd_zero, abs_zero]
  · decide +kernel

/-! ### General error bound -/

theorem Rep.mono {p : Nat} {e e' : Int} {x : ℚ} (h : Rep p e' x) (he : e ≤ e') : Rep p e x := by
  obtain ⟨m, k, h1, h2, h3⟩ := h
  exact ⟨m, k, h1, le_trans he h2, h3⟩

theorem Rep.isInt {p : Nat} {x : ℚ} (h : Rep p 0 x) : ∃ n : Int, x = n := by
  obtain ⟨m, k, -, hk, rfl⟩ := h
  obtain ⟨j, rfl⟩ := Int.eq_ofNat_of_zero_le hk
  exact ⟨m * 2 ^ j, by push_cast; rw [zpow_natCast]⟩

/-- Rounding keeps integers integers. -/
theorem rep0_rnd {x : ℚ} (h : ∃ n : Int, x = n) : Rep 53 0 (rnd64 x) := by
  obtain ⟨n, rfl⟩ := h
  rcases le_or_gt |n| (2 ^ 53) with hn | hn
  · have : rnd64 (n : ℚ) = n := rnd_int (by norm_num) (by norm_num) hn
    rw [this]
    exact ⟨n, 0, hn, le_refl _, by simp⟩
  · have h0 : (n : ℚ) ≠ 0 := by
      rintro h
      rw [Int.cast_eq_zero] at h
      rw [h] at hn
      norm_num at hn
    have hlog : (53 : Int) ≤ Int.log 2 |(n : ℚ)| := by
      rw [← Int.zpow_le_iff_le_log (by norm_num) (by positivity)]
      have : (2 ^ 53 : ℚ) < |(n : ℚ)| := by exact_mod_cast hn
      norm_num at this ⊢
      linarith
    have hu : ulpExp 53 (-1074) (n : ℚ) = ulpExp 53 0 (n : ℚ) := by unfold ulpExp; omega
    have : rnd64 (n : ℚ) = rnd 53 0 (n : ℚ) := by unfold rnd64 rnd; rw [hu]
    rw [this]
    exact rep_rnd _

theorem fold64_error {B : Nat} (hB : B ≤ 2 ^ 53) : ∀ (l : List (Int × Int)) (prev : Int × Int) (acc : ℚ) (ex : Int) (k : Nat),
    (∀ p ∈ prev :: l, p.1.natAbs ≤ B ∧ p.2.natAbs ≤ B) → Rep 53 0 acc →
    |(ex : ℚ)| ≤ k * (2 * (B : ℚ) ^ 2) → |acc - ex| ≤ 8 * k ^ 2 * (B : ℚ) ^ 2 * 2 ^ (-53 : Int) →
    k + l.length ≤ 2 ^ 48 →
    Rep 53 0 (areaFold64 (l.map toRat) (toRat prev) acc) ∧
    |areaFold64 (l.map toRat) (toRat prev) acc - (foldInt l prev ex : ℚ)| ≤
      8 * ((k + l.length : Nat) : ℚ) ^ 2 * (B : ℚ) ^ 2 * 2 ^ (-53 : Int)
  | [], prev, acc, ex, k => fun _ hr _ h _ => ⟨hr, by simpa [areaFold64, foldInt] using h⟩
  | p :: l, prev, acc, ex, k => fun hp hr hex h hk => by
    obtain ⟨a1, a2⟩ := hp prev (by simp)
    obtain ⟨b1, b2⟩ := hp p (by simp)
    have m1 : |(prev.1 : ℚ) * p.2| ≤ (B : ℚ) ^ 2 := by exact_mod_cast natAbs_mul_le a1 b2
    have m2 : |(prev.2 : ℚ) * p.1| ≤ (B : ℚ) ^ 2 := by exact_mod_cast natAbs_mul_le a2 b1
    have hrep : ∀ n : Int, n.natAbs ≤ B → Rep (K := ℚ) 53 (-1074) (n : ℚ) := fun n hn =>
      ⟨n, 0, by rw [Int.abs_eq_natAbs]; omega, by norm_num, by simp⟩
    have e1 : |rnd64 ((prev.1 : ℚ) * p.2) - (prev.1 : ℚ) * p.2| ≤ |(prev.1 : ℚ) * p.2| * 2 ^ (-53 : Int) :=
      rnd_int_mul_error (by norm_num) (hrep _ b2) prev.1
    have e2 : |rnd64 ((prev.2 : ℚ) * p.1) - (prev.2 : ℚ) * p.1| ≤ |(prev.2 : ℚ) * p.1| * 2 ^ (-53 : Int) :=
      rnd_int_mul_error (by norm_num) (hrep _ b1) prev.2
    have e3 : |rnd64 (rnd64 ((prev.1 : ℚ) * p.2) - rnd64 ((prev.2 : ℚ) * p.1)) -
        (rnd64 ((prev.1 : ℚ) * p.2) - rnd64 ((prev.2 : ℚ) * p.1))| ≤
        |rnd64 ((prev.1 : ℚ) * p.2) - rnd64 ((prev.2 : ℚ) * p.1)| * 2 ^ (-53 : Int) :=
      rnd_sub_error (by norm_num) (rep_rnd _) (rep_rnd _)
    have i1 : ∃ n : Int, rnd64 ((prev.1 : ℚ) * p.2) = n :=
      (rep0_rnd ⟨prev.1 * p.2, by push_cast; rfl⟩).isInt
    have i2 : ∃ n : Int, rnd64 ((prev.2 : ℚ) * p.1) = n :=
      (rep0_rnd ⟨prev.2 * p.1, by push_cast; rfl⟩).isInt
    have r4 : Rep (K := ℚ) 53 0 (rnd64 (rnd64 ((prev.1 : ℚ) * p.2) - rnd64 ((prev.2 : ℚ) * p.1))) := by
      obtain ⟨n, hn⟩ := i1
      obtain ⟨n', hn'⟩ := i2
      exact rep0_rnd ⟨n - n', by rw [hn, hn']; push_cast; rfl⟩
    rw [List.map_cons, areaFold64, foldInt]
    simp only [toRat]
    generalize rnd64 ((prev.1 : ℚ) * p.2) = A at *
    generalize rnd64 ((prev.2 : ℚ) * p.1) = C at *
    generalize rnd64 (A - C) = D at *
    have e4 : |rnd64 (acc + D) - (acc + D)| ≤ |acc + D| * 2 ^ (-53 : Int) :=
      rnd_add_error (by norm_num) (hr.mono (by norm_num)) (r4.mono (by norm_num))
    have r5 : Rep (K := ℚ) 53 0 (rnd64 (acc + D)) := by
      obtain ⟨n, hn⟩ := hr.isInt
      obtain ⟨n', hn'⟩ := r4.isInt
      exact rep0_rnd ⟨n + n', by rw [hn, hn']; push_cast; rfl⟩
    generalize rnd64 (acc + D) = E at *
    rw [List.length_cons] at hk
    have hstep := fold64_error hB l p E (ex + (prev.1 * p.2 - prev.2 * p.1)) (k + 1)
      (fun q hq => hp q (List.mem_cons_of_mem _ hq)) r5 ?_ ?_ (by omega)
    · rw [List.length_cons]
      rw [show k + (l.length + 1) = k + 1 + l.length by omega]
      exact hstep
    · push_cast
      rw [abs_le] at m1 m2 hex ⊢
      constructor <;> linarith
    · have hk' : (k : ℚ) ≤ 2 ^ 48 := by exact_mod_cast (by omega : k ≤ 2 ^ 48)
      have hk0 : (0 : ℚ) ≤ k := by positivity
      push_cast
      generalize (prev.1 : ℚ) * p.2 = P at *
      generalize (prev.2 : ℚ) * p.1 = Q at *
      have hb0 : (0 : ℚ) ≤ (B : ℚ) ^ 2 := by positivity
      generalize (B : ℚ) ^ 2 = b at *
      generalize (k : ℚ) = κ at *
      generalize (ex : ℚ) = x at *
      have u : (2 : ℚ) ^ (-53 : Int) = 1 / 9007199254740992 := by norm_num
      rw [u] at h e1 e2 e3 e4 ⊢
      have hkb : κ ^ 2 * b ≤ 2 ^ 48 * (κ * b) := by
        have := mul_le_mul_of_nonneg_right hk' (mul_nonneg hk0 hb0)
        linarith
      have hkb0 : 0 ≤ κ * b := mul_nonneg hk0 hb0
      have f1 : |A - P| ≤ b * (1 / 9007199254740992) := le_trans e1 (by linarith)
      have f2 : |C - Q| ≤ b * (1 / 9007199254740992) := le_trans e2 (by linarith)
      have f3 : |A - C| ≤ 5 / 2 * b := by
        rw [abs_le] at f1 f2 m1 m2 ⊢
        constructor <;> linarith
      have f4 : |D - (A - C)| ≤ 5 / 2 * b * (1 / 9007199254740992) := le_trans e3 (by linarith)
      have f5 : |acc + D| ≤ 3 * (κ * b) + 3 * b := by
        rw [abs_le] at h f3 f4 hex ⊢
        constructor <;> linarith
      have f6 : |E - (acc + D)| ≤ (3 * (κ * b) + 3 * b) * (1 / 9007199254740992) := le_trans e4 (by linarith)
      have : 8 * (κ + 1) ^ 2 * b * (1 / 9007199254740992) =
        (8 * κ ^ 2 * b + 16 * (κ * b) + 8 * b) * (1 / 9007199254740992) := by ring
      rw [this]
      rw [abs_le] at f1 f2 f4 f6 h ⊢
      constructor <;> linarith

/-- C127, accuracy in general: for integer points with coordinates up to `B ≤ 2^53` and at most `2^48`
points the error of the computed area is at most `len² · B² · 2^-51`. -/
theorem C127_error (pts : List (Int × Int)) (B : Nat) (hB : B ≤ 2 ^ 53)
    (h : ∀ p ∈ pts, p.1.natAbs ≤ B ∧ p.2.natAbs ≤ B) (hn : pts.length ≤ 2 ^ 48) :
    |orientedArea64 pts - shoelace (pts.map toRat) / 2| ≤
      (pts.length : ℚ) ^ 2 * (B : ℚ) ^ 2 * 2 ^ (-51 : Int) := by
  rw [← C55_shoelace]
  unfold orientedArea64 orientedArea
  rw [List.length_map, List.getLast?_map]
  have hpos : (0 : ℚ) ≤ (pts.length : ℚ) ^ 2 * (B : ℚ) ^ 2 * 2 ^ (-51 : Int) := by positivity
  split_ifs with h3
  · simpa using hpos
  · rcases hl : pts.getLast? with _ | prev
    · simpa using hpos
    · have hm : prev ∈ pts := List.mem_of_getLast? hl
      have hall : ∀ p ∈ prev :: pts, p.1.natAbs ≤ B ∧ p.2.natAbs ≤ B := by
        intro p hp
        rcases List.mem_cons.1 hp with rfl | hp
        · exact h _ hm
        · exact h _ hp
      obtain ⟨hr, e⟩ := fold64_error hB pts prev 0 0 0 hall rep_zero (by simp) (by simp) (by omega)
      have e2 := foldInt_eq pts prev 0
      rw [Int.cast_zero] at e2
      simp only [Option.map_some]
      rw [map_pointToF64 hB h, pointToF64_eq hB (h _ hm), e2]
      rw [zero_add] at e
      obtain ⟨m, k, hm, hk, hmk⟩ := hr
      have hh : rnd64 (1 / 2 * areaFold64 (pts.map toRat) (toRat prev) 0) =
          1 / 2 * areaFold64 (pts.map toRat) (toRat prev) 0 :=
        rnd_of_rep (by norm_num) ⟨m, k - 1, hm, by omega, by
          rw [hmk, zpow_sub₀ (by norm_num)]; ring⟩
      rw [hh, ← mul_sub, abs_mul, abs_of_pos (by norm_num : (0 : ℚ) < 1 / 2)]
      norm_num at e ⊢
      linarith

end Verif.Float
