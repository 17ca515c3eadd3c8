import Verif.Float.Basic
import Verif.Drawing.LineReal
import Mathlib.Tactic.IntervalCases
/-
Property C118: line drawing in `f32`.
-/
namespace Verif.Float
open Verif.Definitions Verif.Drawing

/-- `BresenhamLineIter::new` after the two swaps in `f32`, line.rs:37-48. -/
def mk32 (steep : Bool) (x0 y0 x1 y1 : ℚ) : Bres :=
  { dx := rnd32 (x1 - x0), dy := |rnd32 (y1 - y0)|, x := truncQ x0, y := truncQ y0,
    error := rnd32 (rnd32 (x1 - x0) / 2), endX := truncQ x1, steep := steep,
    yStep := if y0 < y1 then 1 else -1 }

/-- The second swap in `f32`, line.rs:32-35. -/
def ordered32 (steep : Bool) (x0 y0 x1 y1 : ℚ) : Bres :=
  if x0 > x1 then mk32 steep x1 y1 x0 y0 else mk32 steep x0 y0 x1 y1

/-- `BresenhamLineIter::new` in `f32`, line.rs:22-49. -/
def new32 (s e : ℚ × ℚ) : Bres :=
  if |rnd32 (e.2 - s.2)| > |rnd32 (e.1 - s.1)| then ordered32 true s.2 s.1 e.2 e.1
  else ordered32 false s.1 s.2 e.1 e.2

/-- The state update of `next` in `f32`, line.rs:65-70. -/
def step32 (b : Bres) : Bres :=
  let b := { b with x := b.x + 1, error := rnd32 (b.error - b.dy) }
  if b.error < 0 then { b with y := b.y + b.yStep, error := rnd32 (b.error + b.dx) } else b

/-- `BresenhamLineIter::next` in `f32`, line.rs:55-74. -/
def next32 (b : Bres) : Option ((Int × Int) × Bres) :=
  if b.x > b.endX then none else some (b.pt, step32 b)

/-- The first `n` items of the iterator. -/
def collect32 : Nat → Bres → List (Int × Int)
  | 0, _ => []
  | n + 1, b => (next32 b).elim [] fun r => r.1 :: collect32 n r.2

/-- The points of the line from `s` to `e` (`C118_once` states which points these are). -/
def bresenham32 (s e : ℚ × ℚ) : List (Int × Int) :=
  collect32 ((new32 s e).endX + 1 - (new32 s e).x).toNat (new32 s e)

/-- `draw_line_segment_mut` in `f32`, line.rs:183-200. -/
def drawLine32 {α : Type _} (op : α → α → α) (im : Image α) (s e : ℚ × ℚ) (c : α) :
    Option (Image α) :=
  forList (bresenham32 s e) im fun p out =>
    if inBounds im p then drawPixel op out p.1.toNat p.2.toNat c else some out

/-- Multiples of one half up to `2 ^ 23` are kept. -/
theorem rnd32_half {n : Int} (h : |n| ≤ 2 ^ 24) : rnd32 ((n : ℚ) / 2) = n / 2 := by
  refine rnd_of_rep (by norm_num) ⟨n, -1, h, by norm_num, ?_⟩
  rw [zpow_neg_one]
  ring

/-- The state is exact: half-integral error term of at most `2 ^ 23`, sides that are integers. -/
structure Small (b : Bres) (D : Int) : Prop where
  dx : b.dx = D
  dy : ∃ d : Int, b.dy = d ∧ 0 ≤ d ∧ d ≤ D
  err : ∃ n : Int, b.error = (n : ℚ) / 2 ∧ 0 ≤ n ∧ n ≤ 2 * D

theorem step_small {b : Bres} {D : Int} (hD : D ≤ 2 ^ 23) (h : Small b D) :
    step32 b = b.step ∧ Small b.step D := by
  obtain ⟨h1, ⟨d, h2, h3, h4⟩, ⟨n, h5, h6, h7⟩⟩ := h
  have e1 : rnd32 (b.error - b.dy) = b.error - b.dy := by
    rw [h5, h2, show (n : ℚ) / 2 - d = ((n - 2 * d : Int) : ℚ) / 2 by push_cast; ring]
    exact rnd32_half (by rw [abs_le]; constructor <;> omega)
  have hneg : b.error - b.dy = ((n - 2 * d : Int) : ℚ) / 2 := by rw [h5, h2]; push_cast; ring
  unfold step32 Bres.step
  dsimp only
  rw [e1]
  by_cases he : b.error - b.dy < 0
  · rw [if_pos he, if_pos he]
    have hn : n - 2 * d < 0 := by
      rw [hneg] at he
      have : ((n - 2 * d : Int) : ℚ) < 0 := by linarith
      exact_mod_cast this
    have e2 : b.error - b.dy + b.dx = ((n - 2 * d + 2 * D : Int) : ℚ) / 2 := by
      rw [hneg, h1]; push_cast; ring
    refine ⟨?_, h1, ⟨d, h2, h3, h4⟩, ⟨n - 2 * d + 2 * D, e2, by omega, by omega⟩⟩
    rw [e2, rnd32_half (by rw [abs_le]; constructor <;> omega)]
  · rw [if_neg he, if_neg he]
    have hn : 0 ≤ n - 2 * d := by
      rw [hneg] at he
      have : (0 : ℚ) ≤ ((n - 2 * d : Int) : ℚ) := by linarith
      exact_mod_cast this
    exact ⟨rfl, h1, ⟨d, h2, h3, h4⟩, ⟨n - 2 * d, hneg, by omega, by omega⟩⟩

theorem collect_small {D : Int} (hD : D ≤ 2 ^ 23) (n : Nat) : ∀ b, Small b D →
    collect32 n b = b.collect n := by
  induction n with
  | zero => intro b _; rfl
  | succ n ih =>
    intro b hb
    obtain ⟨h1, h2⟩ := step_small hD hb
    rw [collect32, Bres.collect, next32, Bres.next]
    by_cases hx : b.x > b.endX
    · rw [if_pos hx, if_pos hx]; rfl
    · rw [if_neg hx, if_neg hx, Option.elim_some, Option.elim_some]
      dsimp only
      rw [h1, ih _ h2]

theorem rnd32_sub {a b : Int} (ha : |a| ≤ 2 ^ 22) (hb : |b| ≤ 2 ^ 22) :
    rnd32 ((a : ℚ) - b) = a - b := by
  rw [abs_le] at ha hb
  have := rnd_int (K := ℚ) (p := 24) (emin := -149) (n := a - b) (by norm_num) (by norm_num)
    (by rw [abs_le]; constructor <;> omega)
  push_cast at this
  exact this

theorem mk_small (steep : Bool) {x0 y0 x1 y1 : Int} (h1 : |x0| ≤ 2 ^ 22) (h2 : |y0| ≤ 2 ^ 22)
    (h3 : |x1| ≤ 2 ^ 22) (h4 : |y1| ≤ 2 ^ 22) (hx : x0 ≤ x1) (hd : |y1 - y0| ≤ x1 - x0) :
    mk32 steep x0 y0 x1 y1 = Bres.mk' steep x0 y0 x1 y1 ∧
      Small (Bres.mk' steep x0 y0 x1 y1) (x1 - x0) := by
  have e1 := rnd32_sub h3 h1
  have e2 := rnd32_sub h4 h2
  have g1 := abs_le.1 h1
  have g3 := abs_le.1 h3
  have e3 : rnd32 (((x1 : ℚ) - x0) / 2) = ((x1 : ℚ) - x0) / 2 := by
    have := rnd32_half (n := x1 - x0) (by rw [abs_le]; constructor <;> omega)
    push_cast at this
    exact this
  refine ⟨?_, ?_, ?_, ?_⟩
  · unfold mk32 Bres.mk'
    rw [e1, e2, e3]
  · unfold Bres.mk'; push_cast; rfl
  · refine ⟨|y1 - y0|, ?_, abs_nonneg _, hd⟩
    unfold Bres.mk'; push_cast; rfl
  · refine ⟨x1 - x0, ?_, by omega, by omega⟩
    unfold Bres.mk'; push_cast; rfl

/-- **C118.** In `f32`, the points of a line between integer end points with coordinates up to `2 ^ 22` are
those of exact arithmetic: no rounding takes place.  Together with C42 this gives the exact set of pixels. -/
theorem C118_exact (s e : Int × Int) (h1 : |s.1| ≤ 2 ^ 22) (h2 : |s.2| ≤ 2 ^ 22)
    (h3 : |e.1| ≤ 2 ^ 22) (h4 : |e.2| ≤ 2 ^ 22) :
    bresenham32 ((s.1 : ℚ), (s.2 : ℚ)) ((e.1 : ℚ), (e.2 : ℚ)) =
      bresenham ((s.1 : ℚ), (s.2 : ℚ)) ((e.1 : ℚ), (e.2 : ℚ)) := by
  obtain ⟨sx, sy⟩ := s
  obtain ⟨ex, ey⟩ := e
  dsimp only at *
  have fin : ∀ (b32 b : Bres) (D : Int), D ≤ 2 ^ 23 → b32 = b → Small b D →
      collect32 (b32.endX + 1 - b32.x).toNat b32 = b.toList := by
    intro b32 b D hD e h
    rw [e, collect_small hD _ _ h]
    rfl
  have bx := abs_le.1 h1
  have by' := abs_le.1 h2
  have cx := abs_le.1 h3
  have cy := abs_le.1 h4
  unfold bresenham32 bresenham new32 Bres.new ordered32 Bres.ordered
  dsimp only
  rw [rnd32_sub h4 h2, rnd32_sub h3 h1]
  by_cases hst : |(ey : ℚ) - sy| > |(ex : ℚ) - sx|
  · rw [if_pos hst, if_pos hst]
    have hst' : |ex - sx| < |ey - sy| := by exact_mod_cast hst
    by_cases ho : (sy : ℚ) > ey
    · rw [if_pos ho, if_pos ho]
      have ho' : ey < sy := by exact_mod_cast ho
      obtain ⟨k1, k2⟩ := mk_small true h4 h3 h2 h1 ho'.le
        (by rw [abs_sub_comm ey sy, abs_of_pos (by omega : 0 < sy - ey)] at hst'
            rw [abs_sub_comm]; exact hst'.le)
      exact fin _ _ _ (by omega) k1 k2
    · rw [if_neg ho, if_neg ho]
      have ho' : sy ≤ ey := by
        have := not_lt.1 ho
        exact_mod_cast this
      obtain ⟨k1, k2⟩ := mk_small true h2 h1 h4 h3 ho'
        (by rw [abs_of_nonneg (by omega : 0 ≤ ey - sy)] at hst'; exact hst'.le)
      exact fin _ _ _ (by omega) k1 k2
  · rw [if_neg hst, if_neg hst]
    have hst' : |ey - sy| ≤ |ex - sx| := by
      have := not_lt.1 hst
      exact_mod_cast this
    by_cases ho : (sx : ℚ) > ex
    · rw [if_pos ho, if_pos ho]
      have ho' : ex < sx := by exact_mod_cast ho
      obtain ⟨k1, k2⟩ := mk_small false h3 h4 h1 h2 ho'.le
        (by rw [abs_sub_comm ex sx, abs_of_pos (by omega : 0 < sx - ex)] at hst'
            rw [abs_sub_comm]; exact hst')
      exact fin _ _ _ (by omega) k1 k2
    · rw [if_neg ho, if_neg ho]
      have ho' : sx ≤ ex := by
        have := not_lt.1 ho
        exact_mod_cast this
      obtain ⟨k1, k2⟩ := mk_small false h1 h2 h3 h4 ho'
        (by rw [abs_of_nonneg (by omega : 0 ≤ ex - sx)] at hst'; exact hst')
      exact fin _ _ _ (by omega) k1 k2

/-- **C118.** Drawing such a line in `f32` gives the image of exact arithmetic. -/
theorem C118_draw {α : Type _} (op : α → α → α) (im : Image α) (c : α) (s e : Int × Int)
    (h1 : |s.1| ≤ 2 ^ 22) (h2 : |s.2| ≤ 2 ^ 22) (h3 : |e.1| ≤ 2 ^ 22) (h4 : |e.2| ≤ 2 ^ 22) :
    drawLine32 op im ((s.1 : ℚ), (s.2 : ℚ)) ((e.1 : ℚ), (e.2 : ℚ)) c =
      drawLine op im ((s.1 : ℚ), (s.2 : ℚ)) ((e.1 : ℚ), (e.2 : ℚ)) c := by
  unfold drawLine32 drawLine
  rw [C118_exact s e h1 h2 h3 h4]

/-! ### Arbitrary end points -/

/-- `k` state updates. -/
def adv32 (b : Bres) : Nat → Bres
  | 0 => b
  | k + 1 => step32 (adv32 b k)

theorem adv32_consts (b : Bres) (k : Nat) : (adv32 b k).x = b.x + k ∧ (adv32 b k).endX = b.endX ∧
    (adv32 b k).steep = b.steep ∧ (adv32 b k).dx = b.dx ∧ (adv32 b k).dy = b.dy ∧
    (adv32 b k).yStep = b.yStep := by
  induction k with
  | zero => simp [adv32]
  | succ k ih =>
    obtain ⟨h1, h2, h3, h4, h5, h6⟩ := ih
    rw [adv32]
    generalize adv32 b k = a at *
    unfold step32
    dsimp only
    split <;> refine ⟨by dsimp only; rw [h1]; push_cast; ring, h2, h3, h4, h5, h6⟩

theorem adv32_step (b : Bres) (k : Nat) : adv32 (step32 b) k = adv32 b (k + 1) := by
  induction k with
  | zero => rfl
  | succ k ih => rw [adv32, ih]; rfl

theorem collect32_eq (n : Nat) : ∀ (b : Bres), (n : Int) ≤ b.endX + 1 - b.x →
    collect32 n b = (List.range n).map fun k => (adv32 b k).pt := by
  induction n with
  | zero => intro b _; rfl
  | succ n ih =>
    intro b hb
    push_cast at hb
    rw [collect32, next32, if_neg (by omega), Option.elim_some]
    obtain ⟨c1, c2, -⟩ := adv32_consts b 1
    rw [ih (step32 b) (by
      have c1' : (step32 b).x = b.x + (1 : Nat) := c1
      have c2' : (step32 b).endX = b.endX := c2
      rw [c1', c2']; push_cast; omega), List.range_succ_eq_map,
      List.map_cons, List.map_map]
    congr 1
    refine List.map_congr_left fun k _ => ?_
    rw [adv32_step]; rfl

/-- The points of a started iterator. -/
theorem mem_collect32 (b : Bres) (p : Int × Int) :
    p ∈ collect32 (b.endX + 1 - b.x).toNat b ↔
      ∃ k : Nat, (k : Int) ≤ b.endX - b.x ∧ p = orient b.steep (b.x + k, (adv32 b k).y) := by
  have e3 : ∀ k, (adv32 b k).pt = orient b.steep (b.x + (k : Int), (adv32 b k).y) := by
    intro k
    obtain ⟨c1, _, c3, _⟩ := adv32_consts b k
    rw [Bres.pt_eq, c1, c3]
  by_cases h : 0 ≤ b.endX + 1 - b.x
  · rw [collect32_eq _ _ (by omega), List.mem_map]
    constructor
    · rintro ⟨k, hk, rfl⟩
      rw [List.mem_range] at hk
      exact ⟨k, by omega, e3 k⟩
    · rintro ⟨k, hk, rfl⟩
      exact ⟨k, by rw [List.mem_range]; omega, e3 k⟩
  · rw [show (b.endX + 1 - b.x).toNat = 0 by omega]
    constructor
    · intro hp; simp [collect32] at hp
    · rintro ⟨k, hk, -⟩; omega

/-- The error term under rounding: it stays between 0 and `D` and follows the exact recurrence up to two
roundings per step. -/
theorem adv32_inv (b : Bres) (hdx : Rep 24 (-149) b.dx) (hdy : Rep 24 (-149) b.dy)
    (he : Rep 24 (-149) b.error) (h0 : 0 ≤ b.error) (h1 : b.error ≤ b.dx) (hd0 : 0 ≤ b.dy)
    (hd : b.dy ≤ b.dx) (k : Nat) :
    ∃ m : Int, (adv32 b k).y = b.y + b.yStep * m ∧ 0 ≤ m ∧ m ≤ k ∧
      Rep 24 (-149) (adv32 b k).error ∧
      0 ≤ (adv32 b k).error ∧ (adv32 b k).error ≤ b.dx ∧
      |(adv32 b k).error - (b.error - k * b.dy + m * b.dx)| ≤ 2 * k * (b.dx / 2 ^ 24) := by
  have zp : (2 : ℚ) ^ (-((24 : Nat) : Int)) = 1 / 2 ^ 24 := by norm_num
  induction k with
  | zero =>
    refine ⟨0, by simp [adv32], le_refl _, by simp, he, h0, h1, ?_⟩
    simp [adv32]
  | succ k ih =>
    obtain ⟨m, i1, i2, i3, i4, i5, i6, i7⟩ := ih
    obtain ⟨_, _, _, c4, c5, c6⟩ := adv32_consts b k
    rw [adv32]
    generalize adv32 b k = a at *
    unfold step32
    dsimp only
    rw [c5]
    have s1 := rnd_sub_error (by norm_num) i4 hdy
    have s2 : |a.error - b.dy| ≤ b.dx := by rw [abs_le]; constructor <;> linarith
    rw [zp] at s1
    have s3 : |rnd32 (a.error - b.dy) - (a.error - b.dy)| ≤ b.dx / 2 ^ 24 := by
      refine le_trans s1 ?_
      rw [mul_one_div]
      exact div_le_div_of_nonneg_right s2 (by norm_num)
    have lo : -b.dy ≤ rnd32 (a.error - b.dy) := le_rnd (by norm_num) hdy.neg (by linarith)
    have hi : rnd32 (a.error - b.dy) ≤ a.error := rnd_le (by norm_num) i4 (by linarith)
    have rep1 : Rep 24 (-149) (rnd32 (a.error - b.dy)) := rep_rnd _
    generalize rnd32 (a.error - b.dy) = r at *
    rw [abs_le] at s3 i7
    by_cases hr : r < 0
    · rw [if_pos hr]
      dsimp only
      rw [c4]
      have t1 := rnd_add_error (by norm_num) rep1 hdx
      rw [zp] at t1
      have t2 : |r + b.dx| ≤ b.dx := by rw [abs_le]; constructor <;> linarith
      have t3 : |rnd32 (r + b.dx) - (r + b.dx)| ≤ b.dx / 2 ^ 24 := by
        refine le_trans t1 ?_
        rw [mul_one_div]
        exact div_le_div_of_nonneg_right t2 (by norm_num)
      refine ⟨m + 1, ?_, by omega, by push_cast; omega, rep_rnd _, ?_, ?_, ?_⟩
      · rw [i1, c6]; ring
      · exact rnd_nonneg (by linarith)
      · exact rnd_le (by norm_num) hdx (by linarith)
      · rw [abs_le] at t3 ⊢
        push_cast
        constructor <;> linarith
    · rw [if_neg hr]
      refine ⟨m, i1, i2, by push_cast; omega, rep1, not_lt.1 hr, by dsimp only; linarith, ?_⟩
      dsimp only
      rw [abs_le]
      push_cast
      have : 0 ≤ b.dx / 2 ^ 24 := div_nonneg (by linarith) (by norm_num)
      constructor <;> linarith

/-- The sum of the rounding errors. -/
theorem acc_bound {X Y D d e k m M : ℚ} (MX : X ≤ M) (MY : Y ≤ M) (hX : 0 ≤ X)
    (hm0 : 0 ≤ m) (hmk : m ≤ k) (hk : k ≤ 2 ^ 20 + 1) (eD : |D - X| ≤ X * (1 / 2 ^ 24))
    (ed : |d - Y| ≤ Y * (1 / 2 ^ 24)) (i5 : 0 ≤ e) (i6 : e ≤ D)
    (i7 : |e - (D / 2 - k * d + m * D)| ≤ 2 * k * (D / 2 ^ 24)) : |m * X - k * Y| ≤ M := by
  have M0 : 0 ≤ M := le_trans hX MX
  have hk0 : 0 ≤ k := le_trans hm0 hmk
  have a1 : |X - D| ≤ M * (1 / 2 ^ 24) := by
    rw [abs_sub_comm]
    exact le_trans eD (mul_le_mul_of_nonneg_right MX (by norm_num))
  have a2 : |Y - d| ≤ M * (1 / 2 ^ 24) := by
    rw [abs_sub_comm]
    exact le_trans ed (mul_le_mul_of_nonneg_right MY (by norm_num))
  have D1 : D ≤ M * (1 + 1 / 2 ^ 24) := by
    have := (abs_le.1 a1).1
    linarith
  have w1 : |m * (X - D)| ≤ (2 ^ 20 + 1) * (M * (1 / 2 ^ 24)) := by
    rw [abs_mul, abs_of_nonneg hm0]
    exact mul_le_mul (by linarith) a1 (abs_nonneg _) (by norm_num)
  have w2 : |k * (Y - d)| ≤ (2 ^ 20 + 1) * (M * (1 / 2 ^ 24)) := by
    rw [abs_mul, abs_of_nonneg hk0]
    exact mul_le_mul hk a2 (abs_nonneg _) (by norm_num)
  have w3 : 2 * k * (D / 2 ^ 24) ≤ 2 * (2 ^ 20 + 1) * (M * (1 + 1 / 2 ^ 24) / 2 ^ 24) := by
    refine mul_le_mul (by linarith) ?_ (div_nonneg (by linarith) (by norm_num)) (by norm_num)
    exact div_le_div_of_nonneg_right D1 (by norm_num)
  have key : m * X - k * Y = (m * D - k * d) + m * (X - D) - k * (Y - d) := by ring
  rw [key]
  rw [abs_le] at *
  clear key a1 a2 eD ed
  norm_num at *
  constructor <;> linarith

/-- In (major, minor) coordinates: within three pixels of the ideal line. -/
theorem mk32_near (steep : Bool) {x0 y0 x1 y1 : ℚ} (r1 : Rep 24 (-149) x0) (r2 : Rep 24 (-149) y0)
    (r3 : Rep 24 (-149) x1) (r4 : Rep 24 (-149) y1) (hx : x0 ≤ x1)
    (b1 : |x0| ≤ 2 ^ 19) (b3 : |x1| ≤ 2 ^ 19)
    (hd : |rnd32 (y1 - y0)| ≤ rnd32 (x1 - x0)) (k : Nat) (hk : (k : Int) ≤ truncQ x1 - truncQ x0) :
    |(((adv32 (mk32 steep x0 y0 x1 y1) k).y : ℚ) - y0) * (x1 - x0) -
      ((truncQ x0 : ℚ) + k - x0) * (y1 - y0)| ≤ 3 * max (x1 - x0) |y1 - y0| := by
  have zp : (2 : ℚ) ^ (-((24 : Nat) : Int)) = 1 / 2 ^ 24 := by norm_num
  have hX : 0 ≤ x1 - x0 := by linarith
  set X := x1 - x0 with hXd
  set Y := y1 - y0 with hYd
  set M := max X |Y| with hM
  have MX : X ≤ M := le_max_left _ _
  have MY : |Y| ≤ M := le_max_right _ _
  have M0 : 0 ≤ M := le_trans hX MX
  have hD0 : 0 ≤ rnd32 X := rnd_nonneg hX
  have eD : |rnd32 (x1 - x0) - (x1 - x0)| ≤ |x1 - x0| * 2 ^ (-((24 : Nat) : Int)) :=
    rnd_sub_error (by norm_num) r3 r1
  have ed : |rnd32 (y1 - y0) - (y1 - y0)| ≤ |y1 - y0| * 2 ^ (-((24 : Nat) : Int)) :=
    rnd_sub_error (by norm_num) r4 r2
  rw [zp] at eD ed
  rw [← hXd, abs_of_nonneg hX] at eD
  rw [← hYd] at ed
  have ed' : abs (|rnd32 Y| - |Y|) ≤ |Y| * (1 / 2 ^ 24) := le_trans (abs_abs_sub_abs_le _ _) ed
  have h20 : X ≤ 2 ^ 20 := by
    rw [abs_le] at b1 b3
    linarith [b1.1, b3.2]
  -- the number of steps
  have t0 := abs_lt.1 (truncQ_near x0)
  have t1 := abs_lt.1 (truncQ_near x1)
  have ty := abs_lt.1 (truncQ_near y0)
  have hkQ : (k : ℚ) ≤ truncQ x1 - truncQ x0 := by exact_mod_cast hk
  have hk1 : (k : ℚ) < X + 1 := by
    have a1 := (C75_trunc x0)
    have a2 := (C75_trunc x1)
    rcases le_total 0 x0 with h | h
    · linarith [(a1.1 h).2.2, (a2.1 (by linarith)).2.1]
    · rcases le_total 0 x1 with h' | h'
      · linarith [(a1.2 h).2.1, (a2.1 h').2.1]
      · linarith [(a1.2 h).2.1, (a2.2 h').2.2]
  have hk3 : (k : ℚ) ≤ 2 ^ 20 + 1 := by linarith
  set b := mk32 steep x0 y0 x1 y1 with hb
  have bdx : b.dx = rnd32 X := rfl
  have bdy : b.dy = |rnd32 Y| := rfl
  have ber : b.error = rnd32 (rnd32 X / 2) := rfl
  have by0 : b.y = truncQ y0 := rfl
  have bst : b.yStep = if y0 < y1 then 1 else -1 := rfl
  obtain ⟨m, i1, i2, i3, -, i5, i6, i7⟩ := adv32_inv b (rep_rnd _) (rep_rnd Y).abs (rep_rnd _)
    (by rw [ber]; exact rnd_nonneg (by linarith))
    (by rw [ber, bdx]; exact rnd_le (by norm_num) (rep_rnd _) (by linarith))
    (by rw [bdy]; exact abs_nonneg _) (by rw [bdx, bdy]; exact hd) k
  rw [i1, by0, bst]
  have hm0 : (0 : ℚ) ≤ m := by exact_mod_cast i2
  have hmk : (m : ℚ) ≤ k := by exact_mod_cast i3
  -- the two truncation terms
  have q1 : |((truncQ y0 : ℚ) - y0) * X| ≤ M := by
    rw [abs_mul, abs_of_nonneg hX]
    have : |(truncQ y0 : ℚ) - y0| ≤ 1 := abs_le.2 ⟨by linarith, by linarith⟩
    nlinarith
  have q2 : |(x0 - truncQ x0) * Y| ≤ M := by
    rw [abs_mul]
    have : |x0 - (truncQ x0 : ℚ)| ≤ 1 := abs_le.2 ⟨by linarith, by linarith⟩
    have h0 := abs_nonneg Y
    nlinarith
  -- the accumulated error
  have q3 : abs ((m : ℚ) * X - k * |Y|) ≤ M := by
    rcases lt_or_ge (2 ^ (-125 : Int)) (rnd32 X) with hbig | hsmall
    · have half : b.error = rnd32 X / 2 := by
        rw [ber]
        refine rnd_of_rep (by norm_num) ?_
        obtain ⟨n, j, n1, n2, n3⟩ := (rep_rnd X : Rep 24 (-149) (rnd32 X))
        have n3 : rnd32 X = (n : ℚ) * 2 ^ j := n3
        refine ⟨n, j - 1, n1, ?_, ?_⟩
        · by_contra hc
          have hj : j = -149 := by omega
          rw [hj] at n3
          have : (n : ℚ) ≤ 2 ^ 24 := by
            have : n ≤ 2 ^ 24 := le_trans (le_abs_self n) n1
            exact_mod_cast this
          rw [n3] at hbig
          have := mul_le_mul_of_nonneg_right this (two_zpow_pos ℚ (-149)).le
          have e : (2 : ℚ) ^ 24 * 2 ^ (-149 : Int) = 2 ^ (-125 : Int) := by norm_num
          linarith
        · rw [n3, zpow_sub_one₀ (by norm_num)]; ring
      rw [bdx, bdy, half] at i7
      rw [bdx] at i6
      generalize rnd32 X = D at *
      generalize |rnd32 Y| = d at *
      generalize (adv32 b k).error = e at *
      exact acc_bound MX MY hX hm0 hmk hk3 eD ed' i5 i6 i7
    · have hX1 : X < 1 := by
        rw [abs_le] at eD
        have : (2 : ℚ) ^ (-125 : Int) ≤ 1 / 4 := by
          rw [show (1 / 4 : ℚ) = 2 ^ (-2 : Int) by norm_num]
          exact zpow_le_zpow_right₀ (by norm_num) (by norm_num)
        have h1 := eD.1
        have h2 : X * (1 / 2 ^ 24) ≤ X * (1 / 2) := mul_le_mul_of_nonneg_left (by norm_num) hX
        have h3 : rnd32 X ≤ 1 / 4 := le_trans hsmall this
        clear hsmall this
        linarith
      have hk1' : k < 2 := by
        have : (k : ℚ) < 2 := by linarith
        exact_mod_cast this
      have hY0 := abs_nonneg Y
      have hmk' : m ≤ k := i3
      interval_cases k
      · have : m = 0 := by omega
        rw [this]; norm_num; exact M0
      · have : m = 0 ∨ m = 1 := by omega
        rw [abs_le]
        rcases this with h | h <;> rw [h] <;> push_cast <;> constructor <;> linarith
  have q4 : |((if y0 < y1 then 1 else -1 : Int) : ℚ) * m * X - k * Y| ≤ M := by
    by_cases hy : y0 < y1
    · rw [if_pos hy]
      rw [abs_of_pos (by rw [hYd]; linarith : 0 < Y)] at q3
      rwa [Int.cast_one, one_mul]
    · rw [if_neg hy]
      rw [abs_of_nonpos (by rw [hYd]; linarith : Y ≤ 0)] at q3
      rw [← abs_neg]
      push_cast
      rwa [show -(-1 * (m : ℚ) * X - k * Y) = m * X - k * -Y by ring]
  have e : (((truncQ y0 + (if y0 < y1 then 1 else -1) * m : Int) : ℚ) - y0) * X -
      ((truncQ x0 : ℚ) + k - x0) * Y = ((truncQ y0 : ℚ) - y0) * X + (x0 - truncQ x0) * Y +
      (((if y0 < y1 then 1 else -1 : Int) : ℚ) * m * X - k * Y) := by
    push_cast
    ring
  rw [e]
  rw [abs_le] at q1 q2 q4 ⊢
  constructor <;> linarith

/-- Both swaps together: the state an iterator starts from. -/
theorem new32_cases (s e : ℚ × ℚ) :
    ∃ (steep : Bool) (P Q : ℚ × ℚ), ((P = s ∧ Q = e) ∨ (P = e ∧ Q = s)) ∧
      (if steep then P.2 ≤ Q.2 ∧ |rnd32 (Q.1 - P.1)| < rnd32 (Q.2 - P.2)
        else P.1 ≤ Q.1 ∧ |rnd32 (Q.2 - P.2)| ≤ rnd32 (Q.1 - P.1)) ∧
      (steep = true ↔ |rnd32 (e.1 - s.1)| < |rnd32 (e.2 - s.2)|) ∧
      new32 s e = if steep then mk32 true P.2 P.1 Q.2 Q.1 else mk32 false P.1 P.2 Q.1 Q.2 := by
  have sw : ∀ a b : ℚ, |rnd32 (a - b)| = |rnd32 (b - a)| := by
    intro a b
    rw [← neg_sub b a, rnd32, rnd_neg, abs_neg]
  have ab : ∀ a b : ℚ, a ≤ b → |rnd32 (b - a)| = rnd32 (b - a) := fun a b h =>
    abs_of_nonneg (rnd_nonneg (by linarith))
  unfold new32 ordered32
  by_cases hst : |rnd32 (e.2 - s.2)| > |rnd32 (e.1 - s.1)|
  · rw [if_pos hst]
    by_cases ho : s.2 > e.2
    · rw [if_pos ho]
      refine ⟨true, e, s, Or.inr ⟨rfl, rfl⟩, ?_, ⟨fun _ => hst, fun _ => rfl⟩, rfl⟩
      rw [if_pos rfl]
      refine ⟨ho.le, ?_⟩
      rw [← ab _ _ ho.le, sw s.1, sw s.2]
      exact hst
    · rw [if_neg ho]
      refine ⟨true, s, e, Or.inl ⟨rfl, rfl⟩, ?_, ⟨fun _ => hst, fun _ => rfl⟩, rfl⟩
      rw [if_pos rfl]
      refine ⟨not_lt.1 ho, ?_⟩
      rw [← ab _ _ (not_lt.1 ho)]
      exact hst
  · rw [if_neg hst]
    by_cases ho : s.1 > e.1
    · rw [if_pos ho]
      refine ⟨false, e, s, Or.inr ⟨rfl, rfl⟩, ?_, ⟨fun h => absurd h (by simp), fun h => absurd h hst⟩, rfl⟩
      rw [if_neg (by simp)]
      refine ⟨ho.le, ?_⟩
      rw [← ab _ _ ho.le, sw s.1, sw s.2]
      exact not_lt.1 hst
    · rw [if_neg ho]
      refine ⟨false, s, e, Or.inl ⟨rfl, rfl⟩, ?_, ⟨fun h => absurd h (by simp), fun h => absurd h hst⟩, rfl⟩
      rw [if_neg (by simp)]
      refine ⟨not_lt.1 ho, ?_⟩
      rw [← ab _ _ (not_lt.1 ho)]
      exact not_lt.1 hst

/-- **C118.** For arbitrary `f32` end points with coordinates up to `2 ^ 19`, every point of the line is
within three pixels of the ideal line, measured along the shorter side. -/
theorem C118_near (s e : ℚ × ℚ) (r1 : Rep 24 (-149) s.1) (r2 : Rep 24 (-149) s.2)
    (r3 : Rep 24 (-149) e.1) (r4 : Rep 24 (-149) e.2) (b1 : |s.1| ≤ 2 ^ 19) (b2 : |s.2| ≤ 2 ^ 19)
    (b3 : |e.1| ≤ 2 ^ 19) (b4 : |e.2| ≤ 2 ^ 19) (p : Int × Int) (hp : p ∈ bresenham32 s e) :
    |(p.2 - s.2) * (e.1 - s.1) - (p.1 - s.1) * (e.2 - s.2)| ≤ 3 * max |e.1 - s.1| |e.2 - s.2| := by
  obtain ⟨steep, P, Q, hPQ, hord, -, hnew⟩ := new32_cases s e
  have main : |(p.2 - P.2) * (Q.1 - P.1) - (p.1 - P.1) * (Q.2 - P.2)| ≤
      3 * max |Q.1 - P.1| |Q.2 - P.2| := by
    have reps : Rep 24 (-149) P.1 ∧ Rep 24 (-149) P.2 ∧ Rep 24 (-149) Q.1 ∧ Rep 24 (-149) Q.2 ∧
        |P.1| ≤ 2 ^ 19 ∧ |P.2| ≤ 2 ^ 19 ∧ |Q.1| ≤ 2 ^ 19 ∧ |Q.2| ≤ 2 ^ 19 := by
      rcases hPQ with ⟨rfl, rfl⟩ | ⟨rfl, rfl⟩
      · exact ⟨r1, r2, r3, r4, b1, b2, b3, b4⟩
      · exact ⟨r3, r4, r1, r2, b3, b4, b1, b2⟩
    obtain ⟨p1, p2, p3, p4, c1, c2, c3, c4⟩ := reps
    unfold bresenham32 at hp
    rw [hnew] at hp
    rw [mem_collect32] at hp
    obtain ⟨k, hk, rfl⟩ := hp
    cases steep
    · rw [if_neg (by simp)] at hord hk ⊢
      have := mk32_near false p1 p2 p3 p4 hord.1 c1 c3 hord.2 k hk
      rw [← abs_of_nonneg (by linarith [hord.1] : 0 ≤ Q.1 - P.1)] at this
      have e : |Q.1 - P.1| = Q.1 - P.1 := abs_of_nonneg (by linarith [hord.1])
      rw [e] at this ⊢
      have ex : (mk32 false P.1 P.2 Q.1 Q.2).x = truncQ P.1 := rfl
      have es : (mk32 false P.1 P.2 Q.1 Q.2).steep = false := rfl
      unfold orient
      rw [ex, es, if_neg (by simp)]
      push_cast
      exact this
    · rw [if_pos rfl] at hord hk ⊢
      have := mk32_near true p2 p1 p4 p3 hord.1 c2 c4 hord.2.le k hk
      have e : |Q.2 - P.2| = Q.2 - P.2 := abs_of_nonneg (by linarith [hord.1])
      rw [max_comm, e]
      have ex : (mk32 true P.2 P.1 Q.2 Q.1).x = truncQ P.2 := rfl
      have es : (mk32 true P.2 P.1 Q.2 Q.1).steep = true := rfl
      unfold orient
      rw [ex, es, if_pos rfl]
      push_cast
      rw [abs_sub_comm]
      exact this
  rcases hPQ with ⟨h1, h2⟩ | ⟨h1, h2⟩
  · rwa [h1, h2] at main
  · rw [h1, h2] at main
    rw [abs_sub_comm e.1 s.1, abs_sub_comm e.2 s.2,
      show ((p.2 : ℚ) - s.2) * (e.1 - s.1) - (p.1 - s.1) * (e.2 - s.2) =
        -((p.2 - e.2) * (s.1 - e.1) - (p.1 - e.1) * (s.2 - e.2)) by ring, abs_neg]
    exact main

/-- **C118.** Whatever is rounded, the line has exactly one point for each integer position along its
longer side between the truncated end points, and none elsewhere. -/
theorem C118_once (s e : ℚ × ℚ) :
    (|rnd32 (e.2 - s.2)| ≤ |rnd32 (e.1 - s.1)| → ∀ a : Int,
      (min (truncQ s.1) (truncQ e.1) ≤ a ∧ a ≤ max (truncQ s.1) (truncQ e.1) →
        ∃! b, (a, b) ∈ bresenham32 s e) ∧
      (¬(min (truncQ s.1) (truncQ e.1) ≤ a ∧ a ≤ max (truncQ s.1) (truncQ e.1)) →
        ∀ b, (a, b) ∉ bresenham32 s e)) ∧
    (|rnd32 (e.1 - s.1)| < |rnd32 (e.2 - s.2)| → ∀ b : Int,
      (min (truncQ s.2) (truncQ e.2) ≤ b ∧ b ≤ max (truncQ s.2) (truncQ e.2) →
        ∃! a, (a, b) ∈ bresenham32 s e) ∧
      (¬(min (truncQ s.2) (truncQ e.2) ≤ b ∧ b ≤ max (truncQ s.2) (truncQ e.2)) →
        ∀ a, (a, b) ∉ bresenham32 s e)) := by
  obtain ⟨steep, P, Q, hPQ, hord, hst, hnew⟩ := new32_cases s e
  have mm1 : steep = false → min (truncQ s.1) (truncQ e.1) = truncQ P.1 ∧
      max (truncQ s.1) (truncQ e.1) = truncQ Q.1 := by
    rintro rfl
    rw [if_neg (by simp)] at hord
    have := truncQ_mono hord.1
    rcases hPQ with ⟨rfl, rfl⟩ | ⟨rfl, rfl⟩
    · exact ⟨min_eq_left this, max_eq_right this⟩
    · exact ⟨min_eq_right this, max_eq_left this⟩
  have mm2 : steep = true → min (truncQ s.2) (truncQ e.2) = truncQ P.2 ∧
      max (truncQ s.2) (truncQ e.2) = truncQ Q.2 := by
    rintro rfl
    rw [if_pos rfl] at hord
    have := truncQ_mono hord.1
    rcases hPQ with ⟨rfl, rfl⟩ | ⟨rfl, rfl⟩
    · exact ⟨min_eq_left this, max_eq_right this⟩
    · exact ⟨min_eq_right this, max_eq_left this⟩
  unfold bresenham32
  rw [hnew]
  constructor
  · intro hflat a
    have hs : steep = false := by
      cases steep
      · rfl
      · exact absurd hflat (not_le.2 (hst.1 rfl))
    obtain ⟨e1, e2⟩ := mm1 hs
    subst hs
    rw [if_neg (by simp), e1, e2]
    set b := mk32 false P.1 P.2 Q.1 Q.2
    have ex : b.x = truncQ P.1 := rfl
    have ee : b.endX = truncQ Q.1 := rfl
    have es : b.steep = false := rfl
    have mem : ∀ q : Int × Int, q ∈ collect32 (b.endX + 1 - b.x).toNat b ↔
        ∃ k : Nat, (k : Int) ≤ truncQ Q.1 - truncQ P.1 ∧ q = (truncQ P.1 + k, (adv32 b k).y) := by
      intro q
      rw [mem_collect32, ex, ee, es]
      unfold orient
      simp
    constructor
    · rintro ⟨h1, h2⟩
      refine ⟨(adv32 b (a - truncQ P.1).toNat).y, (mem _).2 ⟨(a - truncQ P.1).toNat, by omega, ?_⟩, ?_⟩
      · congr 1; omega
      · intro y hy
        obtain ⟨k, hk, e⟩ := (mem _).1 hy
        obtain ⟨e1, e2⟩ := Prod.mk.inj e
        rw [e2, show (a - truncQ P.1).toNat = k by omega]
    · intro hno y hy
      obtain ⟨k, hk, e⟩ := (mem _).1 hy
      obtain ⟨e1, e2⟩ := Prod.mk.inj e
      exact hno ⟨by omega, by omega⟩
  · intro hsteep a
    have hs : steep = true := hst.2 hsteep
    obtain ⟨e1, e2⟩ := mm2 hs
    subst hs
    rw [if_pos rfl, e1, e2]
    set b := mk32 true P.2 P.1 Q.2 Q.1
    have ex : b.x = truncQ P.2 := rfl
    have ee : b.endX = truncQ Q.2 := rfl
    have es : b.steep = true := rfl
    have mem : ∀ q : Int × Int, q ∈ collect32 (b.endX + 1 - b.x).toNat b ↔
        ∃ k : Nat, (k : Int) ≤ truncQ Q.2 - truncQ P.2 ∧ q = ((adv32 b k).y, truncQ P.2 + k) := by
      intro q
      rw [mem_collect32, ex, ee, es]
      unfold orient
      simp
    constructor
    · rintro ⟨h1, h2⟩
      refine ⟨(adv32 b (a - truncQ P.2).toNat).y, (mem _).2 ⟨(a - truncQ P.2).toNat, by omega, ?_⟩, ?_⟩
      · congr 1; omega
      · intro y hy
        obtain ⟨k, hk, e⟩ := (mem _).1 hy
        obtain ⟨e1, e2⟩ := Prod.mk.inj e
        rw [e1, show (a - truncQ P.2).toNat = k by omega]
    · intro hno y hy
      obtain ⟨k, hk, e⟩ := (mem _).1 hy
      obtain ⟨e1, e2⟩ := Prod.mk.inj e
      exact hno ⟨by omega, by omega⟩

example : bresenham32 (1 / 2, 1 / 4) (17 / 4, 9 / 4) = [(0, 0), (1, 1), (2, 1), (3, 2), (4, 2)] := by
  decide +kernel

/-- **C118.** Between end points that are not integers rounding can change the drawn points: here with the
`f32` numbers nearest to (0.1, 1) and (1.2, 5.4). -/
theorem C118_rounding_matters :
    bresenham32 (rnd32 (1 / 10), 1) (rnd32 (6 / 5), rnd32 (27 / 5)) =
      [(0, 1), (0, 2), (0, 3), (1, 4), (1, 5)] ∧
    bresenham (rnd32 (1 / 10), 1) (rnd32 (6 / 5), rnd32 (27 / 5)) =
      [(0, 1), (0, 2), (1, 3), (1, 4), (1, 5)] := by
  decide +kernel

end Verif.Float
