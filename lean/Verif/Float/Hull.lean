import Verif.Geometry.HullProps
import Verif.Float.Arc
import Verif.Float.F32
/-
Property C154: `convex_hull` (src/geometry.rs:188-270) in machine arithmetic: `orientation` in `i32`, `distance`
in `f64`.  `ori` is `orientation` with overflow checks (debug builds, `none` is the panic) or with
wrapping (release builds).
-/
namespace Verif.Float
open Verif.Geometry

/-- An `i32` operation with overflow check. -/
def chk32 (z : Int) : Option Int := if -2 ^ 31 ≤ z ∧ z < 2 ^ 31 then some z else none

/-- A wrapping `i32` operation. -/
def wrap32 (z : Int) : Option Int := some (Int.bmod z (2 ^ 32))

/-- Coordinates of an `i32`. -/
def InI32 (p : Pt) : Prop := -2 ^ 31 ≤ p.1 ∧ p.1 < 2 ^ 31 ∧ -2 ^ 31 ≤ p.2 ∧ p.2 < 2 ^ 31

instance (p : Pt) : Decidable (InI32 p) := inferInstanceAs (Decidable (_ ∧ _))

/-- `orientation`, geometry.rs:263-270, called on `to_i32`, which panics outside the range; `op` is applied to the result of each operation. -/
def orientation32 (op : Int → Option Int) (p q r : Pt) : Option Orientation :=
  if ¬(InI32 p ∧ InI32 q ∧ InI32 r) then none else
  (op (q.2 - p.2)).bind fun a =>
  (op (r.1 - q.1)).bind fun b =>
  (op (a * b)).bind fun ab =>
  (op (q.1 - p.1)).bind fun c =>
  (op (r.2 - q.2)).bind fun d =>
  (op (c * d)).bind fun cd =>
  (op (ab - cd)).map fun val =>
    if val = 0 then .collinear else if val > 0 then .clockwise else .counterClockwise

open Classical in
/-- Whether the comparison of geometry.rs:207-217 gives `Less`. -/
noncomputable def before32 (op : Int → Option Int) (s a b : Pt) : Option Bool :=
  (orientation32 op s a b).map fun
    | .collinear => decide (distance64 ((s.1 : ℝ), (s.2 : ℝ)) ((a.1 : ℝ), (a.2 : ℝ)) <
        distance64 ((s.1 : ℝ), (s.2 : ℝ)) ((b.1 : ℝ), (b.2 : ℝ)))
    | .clockwise => false
    | .counterClockwise => true

/-- Insertion with a comparison that may panic. -/
def insertBy? {α : Type _} (lt : α → α → Option Bool) (a : α) : List α → Option (List α)
  | [] => some [a]
  | b :: l => (lt b a).bind fun h => if h then (insertBy? lt a l).map (b :: ·) else some (a :: b :: l)

/-- `Vec::sort_by` with a comparison that may panic. -/
def sortBy? {α : Type _} (lt : α → α → Option Bool) : List α → Option (List α)
  | [] => some []
  | a :: l => (sortBy? lt l).bind (insertBy? lt a)

/-- The loop of geometry.rs:220-233, which compares neighbours; its result is not used. -/
def neighbours32 (op : Int → Option Int) (s : Pt) : List Pt → Option Unit
  | a :: b :: l => (orientation32 op s a b).bind fun _ => neighbours32 op s (b :: l)
  | _ => some ()

/-- The inner `while` loop, geometry.rs:241-249. -/
def popStack32 (op : Int → Option Int) (p : Pt) : List Pt → Option (List Pt)
  | t :: u :: st => (orientation32 op u t p).bind fun o =>
      if o ≠ .counterClockwise then popStack32 op p (u :: st) else some (t :: u :: st)
  | st => some st

/-- The scan, geometry.rs:240-251. -/
def scan32 (op : Int → Option Int) : List Pt → List Pt → Option (List Pt)
  | [], st => some st
  | p :: l, st => (popStack32 op p st).bind fun st' => scan32 op l (p :: st')

/-- `convex_hull`, geometry.rs:188-253. -/
noncomputable def convexHull32 (op : Int → Option Int) (points : List Pt) : Option (List Pt) :=
  match points with
  | [] => some []
  | p0 :: l =>
    let (s, pos) := findStart l 1 p0 0
    let rest := ((p0 :: l).set pos p0).tail
    (sortBy? (before32 op s) rest).bind fun sorted =>
    (neighbours32 op s sorted).bind fun _ =>
    (scan32 op sorted [s]).map List.reverse

/-! ### One orientation -/

/-- Two points of the set are at most 46340 apart in each coordinate. -/
def Spread (S : Int) (pts : List Pt) : Prop := ∀ a ∈ pts, ∀ b ∈ pts, |a.1 - b.1| ≤ S ∧ |a.2 - b.2| ≤ S

/-- The operation is exact in the `i32` range. -/
def Exact32 (op : Int → Option Int) : Prop := ∀ z, -2 ^ 31 ≤ z → z < 2 ^ 31 → op z = some z

theorem exact_chk : Exact32 chk32 := by
  intro z h1 h2
  unfold chk32
  rw [if_pos ⟨h1, h2⟩]

theorem exact_wrap : Exact32 wrap32 := by
  intro z h1 h2
  unfold wrap32
  rw [Int.bmod_eq_of_le (by omega) (by omega)]

/-- Twice the area of a triangle in a square of side `S`. -/
theorem det_le {p q r : Pt} {S : Int} (h : Spread S [p, q, r]) :
    |(q.2 - p.2) * (r.1 - q.1) - (q.1 - p.1) * (r.2 - q.2)| ≤ S * S := by
  have pq := h p (by simp) q (by simp)
  have qr := h q (by simp) r (by simp)
  have pr := h p (by simp) r (by simp)
  simp only [abs_le] at pq qr pr
  have S0 : 0 ≤ S := by omega
  obtain ⟨x1, x2⟩ := p
  obtain ⟨y1, y2⟩ := q
  obtain ⟨z1, z2⟩ := r
  dsimp only at *
  -- place the origin at the least column
  obtain ⟨m, m1, m2, m3, m4, m5, m6⟩ : ∃ m : Int, m ≤ x1 ∧ m ≤ y1 ∧ m ≤ z1 ∧ x1 ≤ m + S ∧ y1 ≤ m + S ∧ z1 ≤ m + S :=
    ⟨min x1 (min y1 z1), by omega, by omega, by omega, by omega, by omega, by omega⟩
  have e : (y2 - x2) * (z1 - y1) - (y1 - x1) * (z2 - y2) =
      (x1 - m) * (z2 - y2) + (y1 - m) * (x2 - z2) + (z1 - m) * (y2 - x2) := by ring
  rw [e]
  have part : ∀ {u A : Int}, 0 ≤ u → u ≤ S → u * A ≤ S * max A 0 ∧ -(S * max (-A) 0) ≤ u * A := by
    intro u A h0 h1
    rcases le_total 0 A with hA | hA
    · rw [max_eq_left hA, max_eq_right (by omega), mul_zero, neg_zero]
      exact ⟨mul_le_mul_of_nonneg_right h1 hA, mul_nonneg h0 hA⟩
    · rw [max_eq_right hA, max_eq_left (by omega), mul_zero]
      refine ⟨mul_nonpos_of_nonneg_of_nonpos h0 hA, ?_⟩
      have := mul_le_mul_of_nonneg_right h1 (show 0 ≤ -A by omega)
      linarith
  have a := part (u := x1 - m) (A := z2 - y2) (by omega) (by omega)
  have b := part (u := y1 - m) (A := x2 - z2) (by omega) (by omega)
  have c := part (u := z1 - m) (A := y2 - x2) (by omega) (by omega)
  have s1 : max (z2 - y2) 0 + max (x2 - z2) 0 + max (y2 - x2) 0 ≤ S := by omega
  have s2 : max (-(z2 - y2)) 0 + max (-(x2 - z2)) 0 + max (-(y2 - x2)) 0 ≤ S := by omega
  have t1 := mul_le_mul_of_nonneg_left s1 S0
  have t2 := mul_le_mul_of_nonneg_left s2 S0
  rw [mul_add, mul_add] at t1 t2
  rw [abs_le]
  constructor <;> linarith [a.1, a.2, b.1, b.2, c.1, c.2]

/-- `orientation` is exact for points that are at most 46340 apart. -/
theorem orientation32_eq {op : Int → Option Int} (hop : Exact32 op) {p q r : Pt} (h : Spread 46340 [p, q, r])
    (hp : InI32 p) (hq : InI32 q) (hr : InI32 r) : orientation32 op p q r = some (orientation p q r) := by
  have hd := det_le h
  have pq := h p (by simp) q (by simp)
  have qr := h q (by simp) r (by simp)
  have prod : ∀ {a b : Int}, |a| ≤ 46340 → |b| ≤ 46340 → -2 ^ 31 ≤ a * b ∧ a * b < 2 ^ 31 := by
    intro a b ha hb
    have := mul_le_mul ha hb (abs_nonneg _) (by norm_num)
    rw [← abs_mul, abs_le] at this
    omega
  have g1 : |q.2 - p.2| ≤ 46340 := by rw [abs_sub_comm]; exact pq.2
  have g2 : |r.1 - q.1| ≤ 46340 := by rw [abs_sub_comm]; exact qr.1
  have g3 : |q.1 - p.1| ≤ 46340 := by rw [abs_sub_comm]; exact pq.1
  have g4 : |r.2 - q.2| ≤ 46340 := by rw [abs_sub_comm]; exact qr.2
  have p1 := prod g1 g2
  have p2 := prod g3 g4
  rw [abs_le] at g1 g2 g3 g4 hd
  unfold orientation32 orientation
  rw [if_neg (not_not.2 ⟨hp, hq, hr⟩), hop _ (by omega) (by omega), Option.bind_some, hop _ (by omega) (by omega), Option.bind_some,
    hop _ p1.1 p1.2, Option.bind_some, hop _ (by omega) (by omega), Option.bind_some,
    hop _ (by omega) (by omega), Option.bind_some, hop _ p2.1 p2.2, Option.bind_some,
    hop _ (by omega) (by omega), Option.map_some]

/-! ### Distances -/

theorem distance64_sq {p q : Pt} (h : |p.1 - q.1| ≤ 46340 ∧ |p.2 - q.2| ≤ 46340) :
    distance64 ((p.1 : ℝ), (p.2 : ℝ)) ((q.1 : ℝ), (q.2 : ℝ)) = rnd64 (Real.sqrt (distSq p q : ℝ)) ∧
      0 ≤ distSq p q ∧ distSq p q ≤ 2 ^ 34 := by
  have sq : ∀ {a : Int}, |a| ≤ 46340 → 0 ≤ a * a ∧ a * a ≤ 46340 * 46340 := by
    intro a ha
    refine ⟨mul_self_nonneg a, ?_⟩
    have := mul_le_mul ha ha (abs_nonneg _) (by norm_num)
    rwa [abs_mul_abs_self] at this
  obtain ⟨h1, h2⟩ := h
  have s1 := sq h1
  have s2 := sq h2
  have e : distSq p q = (p.1 - q.1) * (p.1 - q.1) + (p.2 - q.2) * (p.2 - q.2) := by unfold distSq; ring
  rw [abs_le] at h1 h2
  refine ⟨?_, by rw [e]; omega, by rw [e]; omega⟩
  unfold distance64
  dsimp only
  rw [← Int.cast_sub, ← Int.cast_sub, r64 (by rw [abs_le]; omega), r64 (by rw [abs_le]; omega), ← Int.cast_mul,
    ← Int.cast_mul, r64 (by rw [abs_le]; omega), r64 (by rw [abs_le]; omega), ← Int.cast_add,
    r64 (by rw [abs_le]; omega), e]

/-- Comparing rounded square roots of whole numbers compares the numbers. -/
theorem sqrt64_lt {n m : Int} (hn : 0 ≤ n) (_hm : 0 ≤ m) (hm' : m ≤ 2 ^ 34) :
    rnd64 (Real.sqrt (n : ℝ)) < rnd64 (Real.sqrt (m : ℝ)) ↔ n < m := by
  constructor
  · intro h
    by_contra hc
    have : (m : ℝ) ≤ n := by exact_mod_cast not_lt.1 hc
    exact absurd h (not_lt.2 (rnd_mono (by norm_num) (Real.sqrt_le_sqrt this)))
  · intro h
    have hnm : (n : ℝ) + 1 ≤ m := by exact_mod_cast h
    have n0 : (0 : ℝ) ≤ n := by exact_mod_cast hn
    have mr : (m : ℝ) ≤ 2 ^ 34 := by exact_mod_cast hm'
    have b1 : Real.sqrt (m : ℝ) ≤ 2 ^ 17 := by
      rw [Real.sqrt_le_left (by norm_num)]
      exact mr.trans (by norm_num)
    have s0 := Real.sqrt_nonneg (n : ℝ)
    have s1 := Real.sqrt_nonneg (m : ℝ)
    have q1 := Real.mul_self_sqrt n0
    have q2 := Real.mul_self_sqrt (show (0 : ℝ) ≤ m by linarith)
    have le := Real.sqrt_le_sqrt (show (n : ℝ) ≤ m by linarith)
    have gap : 1 / 2 ^ 18 ≤ Real.sqrt (m : ℝ) - Real.sqrt (n : ℝ) := by
      have : 1 ≤ (Real.sqrt (m : ℝ) - Real.sqrt (n : ℝ)) * 2 ^ 18 := by
        calc (1 : ℝ) ≤ (Real.sqrt (m : ℝ) - Real.sqrt (n : ℝ)) * (Real.sqrt (m : ℝ) + Real.sqrt (n : ℝ)) := by
              linarith
          _ ≤ _ := mul_le_mul_of_nonneg_left (by norm_num at b1 ⊢; linarith) (by linarith)
      rw [div_le_iff₀ (by norm_num)]
      exact this
    have e1 := rnd_error_mixed (p := 53) (emin := -1074) (Real.sqrt (n : ℝ))
    have e2 := rnd_error_mixed (p := 53) (emin := -1074) (Real.sqrt (m : ℝ))
    have tiny : (2 : ℝ) ^ ((-1074 : Int) - 1) ≤ 1 / 2 ^ 40 := by
      rw [show (1 / 2 ^ 40 : ℝ) = 2 ^ (-40 : Int) by rw [zpow_neg, one_div]; norm_cast]
      exact zpow_le_zpow_right₀ (by norm_num) (by norm_num)
    have z : (2 : ℝ) ^ (-((53 : Nat) : Int)) = 1 / 2 ^ 53 := by rw [zpow_neg, one_div]; norm_cast
    rw [z, abs_of_nonneg s0, abs_le] at e1
    rw [z, abs_of_nonneg s1, abs_le] at e2
    obtain ⟨-, e1⟩ := e1
    obtain ⟨e2, -⟩ := e2
    generalize (2 : ℝ) ^ ((-1074 : Int) - 1) = t at *
    norm_num at e1 e2 gap b1 tiny
    linarith

theorem before32_eq {op : Int → Option Int} (hop : Exact32 op) {s a b : Pt} (h : Spread 46340 [s, a, b])
    (hs : InI32 s) (ha : InI32 a) (hb : InI32 b) : before32 op s a b = some (before s a b) := by
  unfold before32 before
  rw [orientation32_eq hop h hs ha hb, Option.map_some]
  obtain ⟨e1, n1, -⟩ := distance64_sq (h s (by simp) a (by simp))
  obtain ⟨e2, n2, n3⟩ := distance64_sq (h s (by simp) b (by simp))
  cases orientation s a b with
  | collinear =>
    dsimp only
    rw [e1, e2]
    congr 1
    exact decide_eq_decide.2 (sqrt64_lt n1 n2 n3)
  | clockwise => rfl
  | counterClockwise => rfl

/-! ### The hull -/

theorem insertBy?_eq {α : Type _} {lt : α → α → Option Bool} {lt' : α → α → Bool} {P : α → Prop}
    (h : ∀ a b, P a → P b → lt a b = some (lt' a b)) {a : α} (ha : P a) :
    ∀ l : List α, (∀ b ∈ l, P b) → insertBy? lt a l = some (insertBy lt' a l)
  | [], _ => rfl
  | b :: l, hl => by
    rw [insertBy?, h b a (hl b (by simp)) ha, Option.bind_some, insertBy,
      insertBy?_eq h ha l (fun c hc => hl c (by simp [hc]))]
    split <;> rfl

theorem sortBy?_eq {α : Type _} {lt : α → α → Option Bool} {lt' : α → α → Bool} {P : α → Prop}
    (h : ∀ a b, P a → P b → lt a b = some (lt' a b)) :
    ∀ l : List α, (∀ b ∈ l, P b) → sortBy? lt l = some (sortBy lt' l)
  | [], _ => rfl
  | a :: l, hl => by
    rw [sortBy?, sortBy?_eq h l (fun c hc => hl c (by simp [hc])), Option.bind_some, sortBy]
    refine insertBy?_eq h (hl a (by simp)) _ fun b hb => ?_
    exact hl b (by simp [(sortBy_perm lt' l).mem_iff.1 hb])

theorem neighbours32_eq {op : Int → Option Int} {P : Pt → Prop} {s : Pt}
    (h : ∀ a b, P a → P b → orientation32 op s a b = some (orientation s a b)) :
    ∀ l : List Pt, (∀ b ∈ l, P b) → neighbours32 op s l = some ()
  | [], _ => rfl
  | [_], _ => rfl
  | a :: b :: l, hl => by
    rw [neighbours32, h a b (hl a (by simp)) (hl b (by simp)), Option.bind_some]
    exact neighbours32_eq h (b :: l) fun c hc => hl c (List.mem_cons_of_mem _ hc)

theorem popStack32_eq {op : Int → Option Int} {P : Pt → Prop}
    (h : ∀ a b c, P a → P b → P c → orientation32 op a b c = some (orientation a b c)) {p : Pt} (hp : P p) :
    ∀ l : List Pt, (∀ b ∈ l, P b) → popStack32 op p l = some (popStack p l) ∧ ∀ b ∈ popStack p l, P b
  | [], _ => ⟨rfl, by simp [popStack]⟩
  | [a], hl => ⟨rfl, by simpa [popStack] using hl⟩
  | t :: u :: l, hl => by
    rw [popStack32, h u t p (hl u (by simp)) (hl t (by simp)) hp, Option.bind_some, popStack]
    split
    · exact popStack32_eq h hp (u :: l) fun c hc => hl c (List.mem_cons_of_mem _ hc)
    · exact ⟨rfl, hl⟩

theorem scan32_eq {op : Int → Option Int} {P : Pt → Prop}
    (h : ∀ a b c, P a → P b → P c → orientation32 op a b c = some (orientation a b c)) :
    ∀ (l st : List Pt), (∀ b ∈ l, P b) → (∀ b ∈ st, P b) → scan32 op l st = some (scan l st)
  | [], _, _, _ => rfl
  | p :: l, st, hl, hst => by
    obtain ⟨e, m⟩ := popStack32_eq h (hl p (by simp)) st hst
    rw [scan32, e, Option.bind_some, scan]
    refine scan32_eq h l _ (fun c hc => hl c (by simp [hc])) fun c hc => ?_
    rcases List.mem_cons.1 hc with rfl | hc
    · exact hl c (by simp)
    · exact m c hc

theorem hull32_eq {op : Int → Option Int} (hop : Exact32 op) {pts : List Pt} (hs : Spread 46340 pts)
    (hi : ∀ p ∈ pts, InI32 p) : convexHull32 op pts = some (Geometry.convexHull pts) := by
  have tri : ∀ {a b c : Pt}, a ∈ pts → b ∈ pts → c ∈ pts → Spread 46340 [a, b, c] := by
    intro a b c ha hb hc x hx y hy
    have m : ∀ z ∈ [a, b, c], z ∈ pts := by
      intro z hz
      simp only [List.mem_cons, List.not_mem_nil, or_false] at hz
      rcases hz with rfl | rfl | rfl <;> assumption
    exact hs x (m x hx) y (m y hy)
  cases pts with
  | nil => rfl
  | cons p0 l =>
    unfold convexHull32 Geometry.convexHull
    dsimp only
    obtain ⟨s, pos, e, h1, -⟩ := findStart_spec l [p0] p0 0 rfl
      (by intro q hq; rw [List.mem_singleton] at hq; subst hq; unfold Above; omega)
    rw [show ([p0] : List Pt).length = 1 from rfl] at e
    rw [e]
    dsimp only
    have hp := swap_perm h1
    have sm : s ∈ p0 :: l := hp.mem_iff.1 (by simp)
    have rm : ∀ b ∈ ((p0 :: l).set pos p0).tail, b ∈ p0 :: l := fun b hb => hp.mem_iff.1 (by simp [hb])
    rw [sortBy?_eq (P := fun z => z ∈ p0 :: l) (lt' := before s)
      (fun a b ha hb => before32_eq hop (tri sm ha hb) (hi _ sm) (hi _ ha) (hi _ hb)) _ rm, Option.bind_some]
    have sm' : ∀ b ∈ sortBy (before s) ((p0 :: l).set pos p0).tail, b ∈ p0 :: l :=
      fun b hb => rm b ((sortBy_perm _ _).mem_iff.1 hb)
    rw [neighbours32_eq (P := fun z => z ∈ p0 :: l) (fun a b ha hb => orientation32_eq hop (tri sm ha hb) (hi _ sm) (hi _ ha) (hi _ hb)) _ sm',
      Option.bind_some,
      scan32_eq (P := fun z => z ∈ p0 :: l) (fun a b c ha hb hc => orientation32_eq hop (tri ha hb hc) (hi _ ha) (hi _ hb) (hi _ hc)) _ _ sm'
        (by intro b hb; rw [List.mem_singleton] at hb; rw [hb]; exact sm), Option.map_some]

/-- C154: for points with `i32` coordinates that are at most 46340 apart in each coordinate -- in particular
for all points of an image of at most 46341 pixels a side -- `convex_hull` returns the exact convex hull (C54), without
overflow in debug builds and without wrapping in release builds; rounded distances do not
change the order. -/
theorem C154_hull {pts : List Pt} (hs : Spread 46340 pts) (hi : ∀ p ∈ pts, InI32 p) :
    convexHull32 chk32 pts = some (Geometry.convexHull pts) ∧
    convexHull32 wrap32 pts = some (Geometry.convexHull pts) :=
  ⟨hull32_eq exact_chk hs hi, hull32_eq exact_wrap hs hi⟩

/-- C154 (the bound is sharp): three corners of a square of side 46341.  Debug builds panic, release builds
return the vertices in the wrong direction: the interior is to the right of the edges. -/
theorem C154_negation :
    Spread 46341 [(0, 0), (46341, 0), (46341, 46341)] ∧
    convexHull32 chk32 [(0, 0), (46341, 0), (46341, 46341)] = none ∧
    convexHull32 wrap32 [(0, 0), (46341, 0), (46341, 46341)] = some [(0, 0), (46341, 46341), (46341, 0)] ∧
    Geometry.convexHull [(0, 0), (46341, 0), (46341, 46341)] = [(0, 0), (46341, 0), (46341, 46341)] ∧
    det (0, 0) (46341, 46341) (46341, 0) < 0 := by
  have f : findStart [(46341, 0), (46341, 46341)] 1 (0, 0) 0 = ((0, 0), 0) := by decide
  have o2 : orientation32 wrap32 (0, 0) (46341, 46341) (46341, 0) = some .counterClockwise := by decide
  have o4 : orientation32 chk32 (0, 0) (46341, 46341) (46341, 0) = none := by decide
  refine ⟨?_, ?_, ?_, by decide, by decide⟩
  · unfold Spread; decide
  · unfold convexHull32
    simp only [f, List.set_cons_zero, List.tail_cons, sortBy?, Option.bind_some, insertBy?, before32, o4,
      Option.map_none, Option.bind_none]
  · unfold convexHull32
    simp only [f, List.set_cons_zero, List.tail_cons, sortBy?, Option.bind_some, insertBy?, before32, o2,
      Option.map_some]
    have n : (neighbours32 wrap32 (0, 0) [(46341, 46341), (46341, 0)]).isSome := by decide
    have c : scan32 wrap32 [(46341, 46341), (46341, 0)] [(0, 0)] =
        some [(46341, 0), (46341, 46341), (0, 0)] := by decide
    obtain ⟨v, hv⟩ := Option.isSome_iff_exists.1 n
    simp [hv, c]

/-- Five points of a square of side 46340: its corners are found. -/
example : convexHull32 chk32 [(0, 0), (46340, 46340), (46340, 0), (20000, 30000), (0, 46340)] =
    some [(0, 0), (46340, 0), (46340, 46340), (0, 46340)] := by
  rw [(C154_hull (by unfold Spread; decide) (by decide)).1]
  decide

end Verif.Float
