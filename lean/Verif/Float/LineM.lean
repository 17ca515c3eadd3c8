import Verif.Float.Line
import Verif.Float.Circle

/-!
C164: the line iterator with `i32` positions (src/drawing/line.rs:8-75). `dbg` says whether overflow checks
are on. End points are finite `f32` values below `2 ^ 127` in absolute value, so that no difference is
infinite.
-/

namespace Verif.Float

open Verif Verif.Definitions Verif.Drawing

/-- `as i32` of a finite `f32`: truncation, saturating. -/
def satI32 (q : ℚ) : Int := max (-2 ^ 31) (min (truncQ q) (2 ^ 31 - 1))

/-- `BresenhamLineIter::new` after the two swaps, line.rs:37-48. -/
def mkM (steep : Bool) (x0 y0 x1 y1 : ℚ) : Bres :=
  { dx := rnd32 (x1 - x0), dy := |rnd32 (y1 - y0)|, x := satI32 x0, y := satI32 y0,
    error := rnd32 (rnd32 (x1 - x0) / 2), endX := satI32 x1, steep := steep,
    yStep := if y0 < y1 then 1 else -1 }

/-- The second swap, line.rs:32-35. -/
def orderedM (steep : Bool) (x0 y0 x1 y1 : ℚ) : Bres :=
  if x0 > x1 then mkM steep x1 y1 x0 y0 else mkM steep x0 y0 x1 y1

/-- `BresenhamLineIter::new`, line.rs:22-49. -/
def newM (s e : ℚ × ℚ) : Bres :=
  if |rnd32 (e.2 - s.2)| > |rnd32 (e.1 - s.1)| then orderedM true s.2 s.1 e.2 e.1
  else orderedM false s.1 s.2 e.1 e.2

/-- The state update of `next`, line.rs:65-70, with `self.x += 1` and `self.y += self.y_step` in `i32`. -/
def stepM (dbg : Bool) (b : Bres) : Option Bres :=
  (mi32 dbg (b.x + 1)).bind fun x =>
  let err := rnd32 (b.error - b.dy)
  if err < 0 then (mi32 dbg (b.y + b.yStep)).map fun y => { b with x := x, y := y, error := rnd32 (err + b.dx) }
  else some { b with x := x, error := err }

/-- `BresenhamLineIter::next`, line.rs:55-74: `none` is a panic, `some none` the end of the iteration. -/
def nextM (dbg : Bool) (b : Bres) : Option (Option ((Int × Int) × Bres)) :=
  if b.x > b.endX then some none else (stepM dbg b).map fun b' => some (b.pt, b')

/-- At most `n` calls of `next`: the items, and whether the iterator has come to its end. -/
def runM (dbg : Bool) : Nat → Bres → Option (List (Int × Int) × Bool)
  | 0, _ => some ([], false)
  | n + 1, b => (nextM dbg b).bind fun r =>
    match r with
    | none => some ([], true)
    | some (p, b') => (runM dbg n b').map fun q => (p :: q.1, q.2)

theorem satI32_range (q : ℚ) : -2 ^ 31 ≤ satI32 q ∧ satI32 q ≤ 2 ^ 31 - 1 := by unfold satI32; omega

theorem satI32_max {q : ℚ} : satI32 q < 2 ^ 31 - 1 ↔ q < 2 ^ 31 - 1 := by
  unfold satI32 truncQ
  constructor
  · intro h
    split at h
    · have : ⌊q⌋ < 2 ^ 31 - 1 := by omega
      exact_mod_cast Int.floor_lt.1 this
    · rename_i h0
      push Not at h0
      exact h0.trans (by norm_num)
  · intro h
    split
    · have : ⌊q⌋ < 2 ^ 31 - 1 := Int.floor_lt.2 (by exact_mod_cast h)
      omega
    · rename_i h0
      push Not at h0
      have : ⌈q⌉ ≤ 0 := Int.ceil_le.2 (by exact_mod_cast h0.le)
      omega

theorem newM_fields (s e : ℚ × ℚ) :
    (-2 ^ 31 ≤ (newM s e).x ∧ (newM s e).x ≤ 2 ^ 31 - 1) ∧ (newM s e).endX =
      satI32 (if |rnd32 (e.1 - s.1)| < |rnd32 (e.2 - s.2)| then max s.2 e.2 else max s.1 e.1) := by
  unfold newM orderedM
  by_cases h1 : |rnd32 (e.1 - s.1)| < |rnd32 (e.2 - s.2)|
  · rw [if_pos h1, if_pos h1]
    by_cases h2 : s.2 > e.2
    · rw [if_pos h2, max_eq_left h2.le]; exact ⟨satI32_range _, rfl⟩
    · rw [if_neg h2, max_eq_right (not_lt.1 h2)]; exact ⟨satI32_range _, rfl⟩
  · rw [if_neg h1, if_neg h1]
    by_cases h2 : s.1 > e.1
    · rw [if_pos h2, max_eq_left h2.le]; exact ⟨satI32_range _, rfl⟩
    · rw [if_neg h2, max_eq_right (not_lt.1 h2)]; exact ⟨satI32_range _, rfl⟩

/-- In a release build the step always succeeds. -/
theorem stepM_release (b : Bres) : ∃ b', stepM false b = some b' ∧ b'.endX = b.endX ∧
    b'.x = Int.bmod (b.x + 1) (2 ^ 32) := by
  unfold stepM
  show ∃ b', ((wrap32 (b.x + 1)).bind _) = _ ∧ _
  unfold wrap32
  rw [Option.bind_some]
  dsimp only
  split
  · show ∃ b', (wrap32 (b.y + b.yStep)).map _ = _ ∧ _
    unfold wrap32
    rw [Option.map_some]
    exact ⟨_, rfl, rfl, rfl⟩
  · exact ⟨_, rfl, rfl, rfl⟩

theorem bmod_range (z : Int) : -2 ^ 31 ≤ Int.bmod z (2 ^ 32) ∧ Int.bmod z (2 ^ 32) ≤ 2 ^ 31 - 1 := by
  have h1 := Int.le_bmod (x := z) (m := 2 ^ 32) (by norm_num)
  have h2 := Int.bmod_lt (x := z) (m := 2 ^ 32) (by norm_num)
  norm_num at h1 h2 ⊢
  omega

theorem runM_hang : ∀ (n : Nat) (b : Bres), b.endX = 2 ^ 31 - 1 → b.x ≤ 2 ^ 31 - 1 →
    ∃ l, runM false n b = some (l, false) ∧ l.length = n
  | 0, _, _, _ => ⟨[], rfl, rfl⟩
  | n + 1, b, he, hx => by
    obtain ⟨b', e, e1, e2⟩ := stepM_release b
    obtain ⟨l, h1, h2⟩ := runM_hang n b' (e1.trans he) (by rw [e2]; exact (bmod_range _).2)
    refine ⟨b.pt :: l, ?_, by rw [List.length_cons, h2]⟩
    unfold runM nextM
    rw [if_neg (by omega), e, Option.map_some, Option.bind_some]
    dsimp only
    rw [h1, Option.map_some]

theorem runM_end : ∀ (n : Nat) (b : Bres), b.endX < 2 ^ 31 - 1 → -2 ^ 31 ≤ b.x → (b.endX + 1 - b.x).toNat ≤ n →
    ∃ l, runM false (n + 1) b = some (l, true) ∧ l.length = (b.endX + 1 - b.x).toNat
  | n, b, he, hx, hn => by
    by_cases h : b.x > b.endX
    · refine ⟨[], ?_, by simp; omega⟩
      unfold runM nextM
      rw [if_pos h]
      rfl
    · obtain ⟨m, rfl⟩ : ∃ m, n = m + 1 := ⟨n - 1, by omega⟩
      obtain ⟨b', e, e1, e2⟩ := stepM_release b
      rw [bmod32 (by omega) (by omega)] at e2
      obtain ⟨l, h1, h2⟩ := runM_end m b' (by omega) (by omega) (by omega)
      refine ⟨b.pt :: l, ?_, by rw [List.length_cons, h2]; omega⟩
      rw [runM, nextM, if_neg h, e, Option.map_some, Option.bind_some]
      dsimp only
      rw [h1, Option.map_some]

theorem runM_panic : ∀ (n : Nat) (b : Bres), b.endX = 2 ^ 31 - 1 → b.x ≤ 2 ^ 31 - 1 → b.endX - b.x < n →
    runM true n b = none
  | 0, b, he, hx, hn => by omega
  | n + 1, b, he, hx, hn => by
    unfold runM nextM
    rw [if_neg (by omega)]
    cases e : stepM true b with
    | none => rfl
    | some b' =>
      rw [Option.map_some, Option.bind_some]
      dsimp only
      have hb : b'.endX = b.endX ∧ b'.x = b.x + 1 ∧ b.x + 1 < 2 ^ 31 := by
        unfold stepM at e
        obtain ⟨x, hx', e⟩ := Option.bind_eq_some_iff.1 e
        have : x = b.x + 1 ∧ b.x + 1 < 2 ^ 31 := by
          have hx'' : chk32 (b.x + 1) = some x := hx'
          unfold chk32 at hx''
          split at hx''
          · rename_i hr
            exact ⟨(Option.some.inj hx'').symm, hr.2⟩
          · cases hx''
        dsimp only at e
        split at e
        · obtain ⟨y, -, e⟩ := Option.map_eq_some_iff.1 e
          subst e
          exact ⟨rfl, this⟩
        · cases e
          exact ⟨rfl, this⟩
      rw [runM_panic n b' (by omega) (by omega) (by omega)]
      rfl

/-- C164 (release builds): the iterator comes to an end exactly if the larger end of the major axis is below `2^31 - 1`.
Otherwise it yields items for ever. -/
theorem C164_terminates (s e : ℚ × ℚ) :
    ((∃ n l, runM false n (newM s e) = some (l, true)) ↔
      (if |rnd32 (e.1 - s.1)| < |rnd32 (e.2 - s.2)| then max s.2 e.2 else max s.1 e.1) < 2 ^ 31 - 1) ∧
    (2 ^ 31 - 1 ≤ (if |rnd32 (e.1 - s.1)| < |rnd32 (e.2 - s.2)| then max s.2 e.2 else max s.1 e.1) →
      ∀ n, ∃ l, runM false n (newM s e) = some (l, false) ∧ l.length = n) := by
  obtain ⟨hx, he⟩ := newM_fields s e
  have hang : 2 ^ 31 - 1 ≤ (if |rnd32 (e.1 - s.1)| < |rnd32 (e.2 - s.2)| then max s.2 e.2 else max s.1 e.1) →
      ∀ n, ∃ l, runM false n (newM s e) = some (l, false) ∧ l.length = n := by
    intro h n
    rw [← not_lt, ← satI32_max, ← he] at h
    have := satI32_range (if |rnd32 (e.1 - s.1)| < |rnd32 (e.2 - s.2)| then max s.2 e.2 else max s.1 e.1)
    exact runM_hang n _ (by omega) hx.2
  refine ⟨⟨?_, ?_⟩, hang⟩
  · rintro ⟨n, l, h⟩
    by_contra hc
    obtain ⟨l', h', -⟩ := hang (not_lt.1 hc) n
    rw [h] at h'
    cases h'
  · intro h
    rw [← satI32_max, ← he] at h
    obtain ⟨l, h1, -⟩ := runM_end _ _ h hx.1 le_rfl
    exact ⟨_, l, h1⟩

/-- C164 (debug builds): in the same cases, consuming the iterator panics. -/
theorem C164_panics (s e : ℚ × ℚ)
    (h : 2 ^ 31 - 1 ≤ (if |rnd32 (e.1 - s.1)| < |rnd32 (e.2 - s.2)| then max s.2 e.2 else max s.1 e.1)) :
    ∃ n, ∀ m, n ≤ m → runM true m (newM s e) = none := by
  obtain ⟨hx, he⟩ := newM_fields s e
  rw [← not_lt, ← satI32_max, ← he] at h
  have := satI32_range (if |rnd32 (e.1 - s.1)| < |rnd32 (e.2 - s.2)| then max s.2 e.2 else max s.1 e.1)
  exact ⟨2 ^ 32, fun m hm => runM_panic m _ (by omega) hx.2 (by omega)⟩

theorem runM_agree (dbg : Bool) : ∀ (n : Nat) (b : Bres), (b.yStep = 1 ∨ b.yStep = -1) → -2 ^ 31 ≤ b.x → b.endX < 2 ^ 31 - 1 →
    |b.y| + (b.endX + 1 - b.x) < 2 ^ 31 → (b.endX + 1 - b.x).toNat ≤ n →
    runM dbg (n + 1) b = some (collect32 (b.endX + 1 - b.x).toNat b, true)
  | n, b, hs, hx, he, hy, hn => by
    by_cases h : b.x > b.endX
    · rw [show (b.endX + 1 - b.x).toNat = 0 by omega]
      unfold runM nextM
      rw [if_pos h]
      rfl
    · obtain ⟨m, rfl⟩ : ∃ m, n = m + 1 := ⟨n - 1, by omega⟩
      have hst : stepM dbg b = some (step32 b) := by
        have a1 := le_abs_self b.y
        have a2 := neg_abs_le b.y
        unfold stepM step32
        rw [mi32_some dbg (by omega) (by omega), Option.bind_some]
        dsimp only
        split
        · rw [mi32_some dbg (by omega) (by omega)]
          rfl
        · rfl
      have hf : (step32 b).x = b.x + 1 ∧ (step32 b).endX = b.endX ∧ (step32 b).yStep = b.yStep ∧ |(step32 b).y| ≤ |b.y| + 1 := by
        unfold step32
        dsimp only
        split
        · refine ⟨rfl, rfl, rfl, ?_⟩
          rcases hs with h | h <;> rw [h]
          · exact (abs_add_le _ _)
          · exact (abs_add_le _ _)
        · exact ⟨rfl, rfl, rfl, by dsimp only; omega⟩
      obtain ⟨f1, f2, f3, f4⟩ := hf
      rw [runM, nextM, if_neg h, hst, Option.map_some, Option.bind_some]
      dsimp only
      rw [runM_agree dbg m (step32 b) (by rw [f3]; exact hs) (by omega) (by omega) (by omega) (by omega), Option.map_some, f1, f2]
      obtain ⟨k, hk⟩ : ∃ k, (b.endX + 1 - b.x).toNat = k + 1 := ⟨(b.endX - b.x).toNat, by omega⟩
      rw [hk, show (b.endX + 1 - (b.x + 1)).toNat = k by omega]
      congr 2
      rw [collect32, next32, if_neg h]
      rfl

theorem satI32_small {q : ℚ} (h : |q| ≤ 2 ^ 29) : satI32 q = truncQ q ∧ |truncQ q| ≤ 2 ^ 29 := by
  rw [abs_le] at h
  have h1 := truncQ_mono h.1
  have h2 := truncQ_mono h.2
  have e1 : truncQ (-2 ^ 29) = -2 ^ 29 := by rw [← truncQ_int (-2 ^ 29)]; norm_num
  have e2 : truncQ (2 ^ 29) = 2 ^ 29 := by rw [← truncQ_int (2 ^ 29)]; norm_num
  rw [e1] at h1
  rw [e2] at h2
  refine ⟨?_, abs_le.2 ⟨h1, h2⟩⟩
  unfold satI32
  omega

/-- C164: up to `2^29` the iterator ends in both builds, with the points of `C118` (one per column or row, near the line). -/
theorem C164_partial (dbg : Bool) (s e : ℚ × ℚ) (h1 : |s.1| ≤ 2 ^ 29) (h2 : |s.2| ≤ 2 ^ 29)
    (h3 : |e.1| ≤ 2 ^ 29) (h4 : |e.2| ≤ 2 ^ 29) :
    ∃ n, ∀ m, n ≤ m → runM dbg m (newM s e) = some (bresenham32 s e, true) := by
  have mk : ∀ (steep : Bool) (x0 y0 x1 y1 : ℚ), |x0| ≤ 2 ^ 29 → |y0| ≤ 2 ^ 29 → |x1| ≤ 2 ^ 29 →
      mkM steep x0 y0 x1 y1 = mk32 steep x0 y0 x1 y1 ∧ ∃ n, ∀ m, n ≤ m → runM dbg m (mk32 steep x0 y0 x1 y1) =
        some (collect32 ((mk32 steep x0 y0 x1 y1).endX + 1 - (mk32 steep x0 y0 x1 y1).x).toNat (mk32 steep x0 y0 x1 y1), true) := by
    intro steep x0 y0 x1 y1 g1 g2 g3
    refine ⟨?_, (2 ^ 31 + 2), fun m hm => ?_⟩
    · unfold mkM mk32
      rw [(satI32_small g1).1, (satI32_small g2).1, (satI32_small g3).1]
    · obtain ⟨k, rfl⟩ : ∃ k, m = k + 1 := ⟨m - 1, by omega⟩
      have a1 := abs_le.1 (satI32_small g1).2
      have a2 := (satI32_small g2).2
      have a3 := abs_le.1 (satI32_small g3).2
      refine runM_agree dbg k _ ?_ ?_ ?_ ?_ ?_
      · unfold mk32
        dsimp only
        split
        · exact Or.inl rfl
        · exact Or.inr rfl
      all_goals (unfold mk32; dsimp only; omega)
  unfold newM bresenham32 new32 orderedM ordered32
  split
  · split
    · obtain ⟨e1, e2⟩ := mk true e.2 e.1 s.2 s.1 h4 h3 h2
      rw [e1]; exact e2
    · obtain ⟨e1, e2⟩ := mk true s.2 s.1 e.2 e.1 h2 h1 h4
      rw [e1]; exact e2
  · split
    · obtain ⟨e1, e2⟩ := mk false e.1 e.2 s.1 s.2 h3 h4 h1
      rw [e1]; exact e2
    · obtain ⟨e1, e2⟩ := mk false s.1 s.2 e.1 e.2 h1 h2 h3
      rw [e1]; exact e2

/-- C164 is false as stated: the line from the origin to `i32::MAX as f32` on the first row never ends in a release
build, and panics in a debug build. -/
theorem C164_negation :
    (∀ n, ∃ l, runM false n (newM (0, 0) (rnd32 2147483647, 0)) = some (l, false) ∧ l.length = n) ∧
    ∃ n, ∀ m, n ≤ m → runM true m (newM (0, 0) (rnd32 2147483647, 0)) = none := by
  have e : rnd32 (2147483647 : ℚ) = 2147483648 := by decide +kernel
  have h : (2 : ℚ) ^ 31 - 1 ≤ (if |rnd32 (((rnd32 2147483647, 0) : ℚ × ℚ).1 - ((0, 0) : ℚ × ℚ).1)| <
      |rnd32 (((rnd32 2147483647, 0) : ℚ × ℚ).2 - ((0, 0) : ℚ × ℚ).2)| then max ((0, 0) : ℚ × ℚ).2 ((rnd32 2147483647, 0) : ℚ × ℚ).2
      else max ((0, 0) : ℚ × ℚ).1 ((rnd32 2147483647, 0) : ℚ × ℚ).1) := by
    dsimp only
    rw [sub_zero, sub_zero, show rnd32 (0 : ℚ) = 0 from rnd_zero, abs_zero, if_neg (not_lt.2 (abs_nonneg _)), e]
    norm_num
  exact ⟨(C164_terminates _ _).2 h, C164_panics _ _ h⟩

example : runM true 5 (newM (1, 1) (3, 2)) = some ([(1, 1), (2, 1), (3, 2)], true) := by decide +kernel

end Verif.Float
