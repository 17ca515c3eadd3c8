import Verif.Drawing.LineProps
import Mathlib.Tactic.Linarith
import Mathlib.Tactic.FieldSimp
/-
Property theorem C42 for arbitrary (not only integer) end points.
-/
namespace Verif.Drawing
open Verif.Definitions

theorem truncQ_near (x : ℚ) : |x - truncQ x| < 1 := by
  obtain ⟨h1, h2⟩ := C75_trunc x
  rw [abs_lt]
  rcases le_total 0 x with h | h
  · obtain ⟨-, h3, h4⟩ := h1 h
    constructor <;> linarith
  · obtain ⟨-, h3, h4⟩ := h2 h
    constructor <;> linarith

theorem Bres.adv_invQ (steep : Bool) (x0 y0 x1 y1 : ℚ) (hx : x0 < x1)
    (hd : |y1 - y0| ≤ x1 - x0) (k : Nat) :
    ∃ m : Int, ((Bres.mk' steep x0 y0 x1 y1).adv k).y = truncQ y0 + (if y0 < y1 then 1 else -1) * m ∧
      ((Bres.mk' steep x0 y0 x1 y1).adv k).error = (x1 - x0) / 2 - (k : ℚ) * |y1 - y0| + m * (x1 - x0) ∧
      0 ≤ ((Bres.mk' steep x0 y0 x1 y1).adv k).error ∧
      ((Bres.mk' steep x0 y0 x1 y1).adv k).error < x1 - x0 := by
  have hdy0 : (0 : ℚ) ≤ |y1 - y0| := abs_nonneg _
  induction k with
  | zero =>
    refine ⟨0, ?_, ?_, ?_, ?_⟩
    · simp [Bres.adv, Bres.mk']
    · simp [Bres.adv, Bres.mk']
    · simp only [Bres.adv, Bres.mk']; linarith
    · simp only [Bres.adv, Bres.mk']; linarith
  | succ k ih =>
    obtain ⟨m, h1, h2, h3, h4⟩ := ih
    obtain ⟨_, _, _, c4, c5, c6⟩ := (Bres.mk' steep x0 y0 x1 y1).adv_consts k
    have c4' : ((Bres.mk' steep x0 y0 x1 y1).adv k).dx = x1 - x0 := c4
    have c5' : ((Bres.mk' steep x0 y0 x1 y1).adv k).dy = |y1 - y0| := c5
    have c6' : ((Bres.mk' steep x0 y0 x1 y1).adv k).yStep = if y0 < y1 then 1 else -1 := c6
    rw [Bres.adv]
    generalize (Bres.mk' steep x0 y0 x1 y1).adv k = b at *
    unfold Bres.step
    dsimp only
    rw [c5']
    by_cases he : b.error - |y1 - y0| < 0
    · rw [if_pos he]
      refine ⟨m + 1, ?_, ?_, ?_, ?_⟩
      · dsimp only; rw [h1, c6']; ring
      · dsimp only; rw [h2, c4']; push_cast; ring
      · dsimp only; rw [c4']; linarith
      · dsimp only; rw [c4']; linarith
    · rw [if_neg he]
      refine ⟨m, h1, ?_, ?_, ?_⟩
      · dsimp only; rw [h2]; push_cast; ring
      · dsimp only; linarith
      · dsimp only; linarith

/-- In (major, minor) coordinates: one point for each major coordinate, never far from the ideal line. -/
theorem Bres.runQ (steep : Bool) (x0 y0 x1 y1 : ℚ) (hx : x0 ≤ x1) (hd : |y1 - y0| ≤ x1 - x0) :
    ∃ f : Int → Int,
      (∀ p, p ∈ (Bres.mk' steep x0 y0 x1 y1).toList ↔
        ∃ a, truncQ x0 ≤ a ∧ a ≤ truncQ x1 ∧ p = orient steep (a, f a)) ∧
      ∀ a, truncQ x0 ≤ a → a ≤ truncQ x1 →
        2 * |(f a - y0) * (x1 - x0) - (a - x0) * (y1 - y0)| ≤ 5 * (x1 - x0) ∧
        (x0 = x1 → f a = truncQ y0) := by
  refine ⟨fun a => ((Bres.mk' steep x0 y0 x1 y1).adv (a - truncQ x0).toNat).y, ?_, ?_⟩
  · intro p
    rw [Bres.toList_eq, List.mem_map]
    have e1 : (Bres.mk' steep x0 y0 x1 y1).endX = truncQ x1 := rfl
    have e2 : (Bres.mk' steep x0 y0 x1 y1).x = truncQ x0 := rfl
    have e3 : ∀ k, ((Bres.mk' steep x0 y0 x1 y1).adv k).pt =
        orient steep (truncQ x0 + (k : Int), ((Bres.mk' steep x0 y0 x1 y1).adv k).y) := by
      intro k
      obtain ⟨c1, _, c3, _⟩ := (Bres.mk' steep x0 y0 x1 y1).adv_consts k
      rw [Bres.pt_eq, c1, c3]
      rfl
    constructor
    · rintro ⟨k, hk, rfl⟩
      rw [List.mem_range, e1, e2] at hk
      refine ⟨truncQ x0 + k, by omega, by omega, ?_⟩
      dsimp only
      rw [e3, show (truncQ x0 + (k : Int) - truncQ x0).toNat = k by omega]
    · rintro ⟨a, h1, h2, rfl⟩
      refine ⟨(a - truncQ x0).toNat, ?_, ?_⟩
      · rw [List.mem_range, e1, e2]; omega
      · rw [e3, show truncQ x0 + ((a - truncQ x0).toNat : Int) = a by omega]
  · intro a ha1 ha2
    rcases eq_or_lt_of_le hx with he | hlt
    · subst he
      have e : (a - truncQ x0).toNat = 0 := by omega
      simp only [e]
      refine ⟨?_, fun _ => rfl⟩
      have h0 : y1 - y0 = 0 := by
        rw [sub_self] at hd
        exact abs_eq_zero.1 (le_antisymm hd (abs_nonneg _))
      rw [h0]
      simp
    · refine ⟨?_, fun h => absurd h hlt.ne⟩
      obtain ⟨m, h1, h2, h3, h4⟩ := Bres.adv_invQ steep x0 y0 x1 y1 hlt hd (a - truncQ x0).toNat
      dsimp only
      rw [h1]
      have hk : (((a - truncQ x0).toNat : Nat) : ℚ) = a - truncQ x0 := by
        have : (((a - truncQ x0).toNat : Nat) : Int) = a - truncQ x0 := by omega
        exact_mod_cast this
      rw [hk] at h2
      rw [h2] at h3 h4
      have t0 := abs_lt.1 (truncQ_near x0)
      have t1 := abs_lt.1 (truncQ_near y0)
      set T := (truncQ x0 : ℚ)
      set U := (truncQ y0 : ℚ)
      set D := x1 - x0 with hD
      have hDpos : 0 < D := by rw [hD]; linarith
      have hd' := abs_le.1 hd
      -- the two truncation terms
      have b1 : |(U - y0) * D| ≤ D := by
        rw [abs_mul, abs_of_pos hDpos]
        have : |U - y0| ≤ 1 := abs_le.2 ⟨by linarith, by linarith⟩
        nlinarith
      have b2 : |(x0 - T) * (y1 - y0)| ≤ D := by
        rw [abs_mul]
        have : |x0 - T| ≤ 1 := abs_le.2 ⟨by linarith, by linarith⟩
        have h0 := abs_nonneg (y1 - y0)
        nlinarith
      have b3 : |((if y0 < y1 then 1 else -1 : Int) : ℚ) * m * D - (a - T) * (y1 - y0)| ≤ D / 2 := by
        by_cases hy : y0 < y1
        · rw [if_pos hy]
          rw [abs_of_pos (by linarith)] at h3 h4
          rw [abs_le]
          push_cast
          constructor <;> linarith
        · rw [if_neg hy]
          rw [abs_of_nonpos (by linarith)] at h3 h4
          rw [abs_le]
          push_cast
          constructor <;> linarith
      rw [abs_le] at b1 b2 b3
      have key : |(((truncQ y0 + (if y0 < y1 then 1 else -1) * m : Int) : ℚ) - y0) * D -
          (a - x0) * (y1 - y0)| ≤ 5 / 2 * D := by
        have e : (((truncQ y0 + (if y0 < y1 then 1 else -1) * m : Int) : ℚ) - y0) * D -
            (a - x0) * (y1 - y0) = (U - y0) * D + (x0 - T) * (y1 - y0) +
            (((if y0 < y1 then 1 else -1 : Int) : ℚ) * m * D - (a - T) * (y1 - y0)) := by
          push_cast
          ring
        rw [e, abs_le]
        constructor <;> linarith
      linarith

/-- What the points of a line with arbitrary end points look like: never further than 5/2 pixels from the
ideal line, measured along the shorter side, and exactly one for each integer position along
the longer side between the truncated end points. -/
structure NearLine (s e : ℚ × ℚ) (L : List (Int × Int)) : Prop where
  near : ∀ p ∈ L, 2 * |(p.2 - s.2) * (e.1 - s.1) - (p.1 - s.1) * (e.2 - s.2)| ≤
    5 * max |e.1 - s.1| |e.2 - s.2|
  point : s = e → ∀ p ∈ L, p = (truncQ s.1, truncQ s.2)
  flat : |e.2 - s.2| ≤ |e.1 - s.1| → ∀ a, (∃ b, (a, b) ∈ L) ↔
    min (truncQ s.1) (truncQ e.1) ≤ a ∧ a ≤ max (truncQ s.1) (truncQ e.1)
  flat_unique : |e.2 - s.2| ≤ |e.1 - s.1| → ∀ a b b', (a, b) ∈ L → (a, b') ∈ L → b = b'
  steep : |e.1 - s.1| < |e.2 - s.2| → ∀ b, (∃ a, (a, b) ∈ L) ↔
    min (truncQ s.2) (truncQ e.2) ≤ b ∧ b ≤ max (truncQ s.2) (truncQ e.2)
  steep_unique : |e.1 - s.1| < |e.2 - s.2| → ∀ a a' b, (a, b) ∈ L → (a', b) ∈ L → a = a'

theorem NearLine.symm {s e : ℚ × ℚ} {L : List (Int × Int)} (h : NearLine s e L) : NearLine e s L := by
  refine ⟨?_, ?_, ?_, ?_, ?_, ?_⟩
  · intro p hp
    have := h.near p hp
    rw [abs_sub_comm s.1 e.1, abs_sub_comm s.2 e.2]
    rw [show (p.2 - e.2) * (s.1 - e.1) - (p.1 - e.1) * (s.2 - e.2) =
      -((p.2 - s.2) * (e.1 - s.1) - (p.1 - s.1) * (e.2 - s.2)) by ring, abs_neg]
    exact this
  · intro he p hp
    rw [he]
    exact h.point he.symm p hp
  · intro hd a
    rw [abs_sub_comm s.1 e.1, abs_sub_comm s.2 e.2] at hd
    rw [min_comm, max_comm]
    exact h.flat hd a
  · intro hd
    rw [abs_sub_comm s.1 e.1, abs_sub_comm s.2 e.2] at hd
    exact h.flat_unique hd
  · intro hd b
    rw [abs_sub_comm s.1 e.1, abs_sub_comm s.2 e.2] at hd
    rw [min_comm, max_comm]
    exact h.steep hd b
  · intro hd
    rw [abs_sub_comm s.1 e.1, abs_sub_comm s.2 e.2] at hd
    exact h.steep_unique hd

theorem NearLine.flat_mk (x0 y0 x1 y1 : ℚ) (hx : x0 ≤ x1) (hd : |y1 - y0| ≤ |x1 - x0|) :
    NearLine (x0, y0) (x1, y1) (Bres.mk' false x0 y0 x1 y1).toList := by
  have hd' : |y1 - y0| ≤ x1 - x0 := by rwa [abs_of_nonneg (by linarith : 0 ≤ x1 - x0)] at hd
  obtain ⟨f, h1, h2⟩ := Bres.runQ false x0 y0 x1 y1 hx hd'
  have hm := truncQ_mono hx
  refine ⟨?_, ?_, ?_, ?_, ?_, ?_⟩
  · intro p hp
    obtain ⟨a, ha1, ha2, rfl⟩ := (h1 p).1 hp
    have := (h2 a ha1 ha2).1
    refine this.trans ?_
    have : x1 - x0 ≤ max |x1 - x0| |y1 - y0| := (le_abs_self _).trans (le_max_left _ _)
    dsimp only
    linarith
  · intro he p hp
    obtain ⟨a, ha1, ha2, rfl⟩ := (h1 p).1 hp
    obtain ⟨e1, e2⟩ := Prod.mk.inj he
    have := (h2 a ha1 ha2).2 e1
    rw [← e1] at ha2
    show (a, f a) = _
    rw [this, show a = truncQ x0 by omega]
  · intro _ a
    dsimp only
    rw [min_eq_left hm, max_eq_right hm]
    constructor
    · rintro ⟨b, hb⟩
      obtain ⟨a', ha1, ha2, e⟩ := (h1 _).1 hb
      obtain ⟨rfl, -⟩ := Prod.mk.inj e
      exact ⟨ha1, ha2⟩
    · rintro ⟨ha1, ha2⟩
      exact ⟨f a, (h1 _).2 ⟨a, ha1, ha2, rfl⟩⟩
  · intro _ a b b' hb hb'
    obtain ⟨a1, -, -, e⟩ := (h1 _).1 hb
    obtain ⟨a2, -, -, e'⟩ := (h1 _).1 hb'
    obtain ⟨rfl, rfl⟩ := Prod.mk.inj e
    obtain ⟨rfl, rfl⟩ := Prod.mk.inj e'
    rfl
  · intro h; exact absurd hd (not_le.2 h)
  · intro h; exact absurd hd (not_le.2 h)

theorem NearLine.steep_mk (x0 y0 x1 y1 : ℚ) (hx : x0 ≤ x1) (hd : |y1 - y0| < |x1 - x0|) :
    NearLine (y0, x0) (y1, x1) (Bres.mk' true x0 y0 x1 y1).toList := by
  have hd' : |y1 - y0| ≤ x1 - x0 := by
    rw [abs_of_nonneg (by linarith : 0 ≤ x1 - x0)] at hd
    exact hd.le
  obtain ⟨f, h1, h2⟩ := Bres.runQ true x0 y0 x1 y1 hx hd'
  have hm := truncQ_mono hx
  refine ⟨?_, ?_, ?_, ?_, ?_, ?_⟩
  · intro p hp
    obtain ⟨a, ha1, ha2, rfl⟩ := (h1 p).1 hp
    have h3 := (h2 a ha1 ha2).1
    have h4 : x1 - x0 ≤ max |y1 - y0| |x1 - x0| := (le_abs_self _).trans (le_max_right _ _)
    show 2 * |((a : ℚ) - x0) * (y1 - y0) - (f a - y0) * (x1 - x0)| ≤ 5 * max |y1 - y0| |x1 - x0|
    rw [abs_sub_comm]
    linarith
  · intro he p hp
    obtain ⟨a, ha1, ha2, rfl⟩ := (h1 p).1 hp
    obtain ⟨e1, e2⟩ := Prod.mk.inj he
    have := (h2 a ha1 ha2).2 e2
    rw [← e2] at ha2
    show (f a, a) = _
    rw [this, show a = truncQ x0 by omega]
  · intro h; exact absurd hd (not_lt.2 h)
  · intro h; exact absurd hd (not_lt.2 h)
  · intro _ b
    dsimp only
    rw [min_eq_left hm, max_eq_right hm]
    constructor
    · rintro ⟨a, ha⟩
      obtain ⟨a', ha1, ha2, e⟩ := (h1 _).1 ha
      obtain ⟨-, rfl⟩ := Prod.mk.inj e
      exact ⟨ha1, ha2⟩
    · rintro ⟨ha1, ha2⟩
      exact ⟨f b, (h1 _).2 ⟨b, ha1, ha2, rfl⟩⟩
  · intro _ a a' b hb hb'
    obtain ⟨a1, -, -, e⟩ := (h1 _).1 hb
    obtain ⟨a2, -, -, e'⟩ := (h1 _).1 hb'
    obtain ⟨rfl, rfl⟩ := Prod.mk.inj e
    obtain ⟨rfl, rfl⟩ := Prod.mk.inj e'
    rfl

/-- **C42**, arbitrary real end points in all octants. -/
theorem C42_real (s e : ℚ × ℚ) : NearLine s e (bresenham s e) := by
  obtain ⟨sx, sy⟩ := s
  obtain ⟨ex, ey⟩ := e
  unfold bresenham Bres.new Bres.ordered
  dsimp only
  by_cases hst : |ey - sy| > |ex - sx|
  · rw [if_pos hst]
    by_cases ho : sy > ey
    · rw [if_pos ho]
      rw [abs_sub_comm ey, abs_sub_comm ex] at hst
      exact (NearLine.steep_mk ey ex sy sx ho.le hst).symm
    · rw [if_neg ho]
      exact NearLine.steep_mk sy sx ey ex (not_lt.1 ho) hst
  · rw [if_neg hst]
    by_cases ho : sx > ex
    · rw [if_pos ho]
      rw [abs_sub_comm ey, abs_sub_comm ex] at hst
      exact (NearLine.flat_mk ex ey sx sy ho.le (not_lt.1 hst)).symm
    · rw [if_neg ho]
      exact NearLine.flat_mk sx sy ex ey (not_lt.1 ho) (not_lt.1 hst)

example : bresenham (1 / 2, 1 / 4) (17 / 4, 9 / 4) = [(0, 0), (1, 1), (2, 1), (3, 2), (4, 2)] := by
  decide +kernel

end Verif.Drawing
