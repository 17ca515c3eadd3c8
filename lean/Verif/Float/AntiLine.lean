import Verif.Float.WarpAccuracy
import Verif.Float.Rotate
import Verif.Float.Line
import Verif.Float.F32
/-
Property C138: antialiased lines in `f32` (src/drawing/line.rs:229-326).  The theorems are for
coordinates up to `2^22`, so that no `i32` operation overflows and no conversion saturates.
-/
namespace Verif.Float
open Verif.Definitions Verif.Drawing

/-- `f32::fract`. -/
def fractF (x : ℚ) : ℚ := rnd32 (x - (truncQ x : ℚ))

/-- `plot_wu_line`, src/drawing/line.rs:270-291, in `f32`; `x = x0 + k`.  For a line of one
point the gradient is NaN, but it is added only after the last pixel. -/
def plotWu32 {α : Type _} (blend : α → α → ℚ → α) (color : α) (steep : Bool) (im : Image α)
    (s e : Int × Int) : Option (Image α) :=
  let gradient : ℚ := rnd32 (rnd32 ((e.2 - s.2 : Int) : ℚ) / rnd32 ((e.1 - s.1 : Int) : ℚ))
  (forRange 0 (e.1 + 1 - s.1).toNat ((im, rnd32 (s.2 : ℚ)) : Image α × ℚ) fun k st =>
    (plot blend color steep st.1 (s.1 + k) (truncQ st.2) (rnd32 (1 - fractF st.2))).bind fun im =>
    (plot blend color steep im (s.1 + k) (truncQ st.2 + 1) (fractF st.2)).map fun im =>
    (im, rnd32 (st.2 + gradient))).map Prod.fst

/-- `draw_antialiased_line_segment_mut`, src/drawing/line.rs:229-268, in `f32`. -/
def drawAntialiased32 {α : Type _} (blend : α → α → ℚ → α) (im : Image α) (s e : Int × Int)
    (color : α) : Option (Image α) :=
  if |e.2 - s.2| > |e.1 - s.1| then
    if s.2 > e.2 then plotWu32 blend color true im (e.2, e.1) (s.2, s.1)
    else plotWu32 blend color true im (s.2, s.1) (e.2, e.1)
  else
    if s.1 > e.1 then plotWu32 blend color false im e s
    else plotWu32 blend color false im s e

/-- The minor coordinate after `k` steps. -/
def wuMinor (y0 : Int) (g : ℚ) : Nat → ℚ
  | 0 => rnd32 (y0 : ℚ)
  | k + 1 => rnd32 (wuMinor y0 g k + g)

/-- What a pixel becomes, given the minor coordinate `v` computed for its column. -/
def wuPixel32 {α : Type _} (blend : α → α → ℚ → α) (c old : α) (v : ℚ) (minor : Int) : α :=
  if minor = truncQ v then blend c old (rnd32 (1 - fractF v))
  else if minor = truncQ v + 1 then blend c old (fractF v) else old

theorem plotWu32_eq {α : Type _} (blend : α → α → ℚ → α) (c : α) (steep : Bool) (im : Image α)
    (s e : Int × Int) (hse : s.1 ≤ e.1) : ∃ out, plotWu32 blend c steep im s e = some out ∧
      out.w = im.w ∧ out.h = im.h ∧ ∀ x y, im.InB x y →
        out.px x y = if s.1 ≤ (orient steep (x, y)).1 ∧ (orient steep (x, y)).1 ≤ e.1 then
          wuPixel32 blend c (im.px x y) (wuMinor s.2
            (rnd32 (rnd32 ((e.2 - s.2 : Int) : ℚ) / rnd32 ((e.1 - s.1 : Int) : ℚ)))
            ((orient steep (x, y)).1 - s.1).toNat)
            (orient steep (x, y)).2 else im.px x y := by
  unfold plotWu32
  dsimp only
  generalize rnd32 (rnd32 ((e.2 - s.2 : Int) : ℚ) / rnd32 ((e.1 - s.1 : Int) : ℚ)) = g
  have key := forRange_spec
    (f := fun (k : Nat) (st : Image α × ℚ) =>
      (plot blend c steep st.1 (s.1 + k) (truncQ st.2) (rnd32 (1 - fractF st.2))).bind fun im =>
      (plot blend c steep im (s.1 + k) (truncQ st.2 + 1) (fractF st.2)).map fun im =>
      (im, rnd32 (st.2 + g)))
    (fun (k : Nat) (st : Image α × ℚ) => st.1.w = im.w ∧ st.1.h = im.h ∧
      st.2 = wuMinor s.2 g k ∧ ∀ x y, im.InB x y →
        st.1.px x y = if s.1 ≤ (orient steep (x, y)).1 ∧ (orient steep (x, y)).1 < s.1 + k then
          wuPixel32 blend c (im.px x y) (wuMinor s.2 g ((orient steep (x, y)).1 - s.1).toNat)
            (orient steep (x, y)).2 else im.px x y)
    (lo := 0) (hi := (e.1 + 1 - s.1).toNat) (s := (im, rnd32 (s.2 : ℚ))) (by omega)
    ⟨rfl, rfl, rfl, fun x y _ => by rw [if_neg (by push_cast; omega)]⟩
  have key := key ?_
  · obtain ⟨r, hr, hI⟩ := key
    rw [hr]
    refine ⟨r.1, rfl, hI.1, hI.2.1, fun x y hxy => ?_⟩
    rw [hI.2.2.2 x y hxy]
    exact if_congr (by omega) rfl rfl
  · rintro k ⟨o, fy⟩ - hk ⟨hw, hh, hfy, hpx⟩
    dsimp only at hw hh hfy hpx
    dsimp only
    obtain ⟨o1, h1, w1, h1', p1⟩ := plot_eq blend c steep o (s.1 + k) (truncQ fy) (rnd32 (1 - fractF fy))
    obtain ⟨o2, h2, w2, h2', p2⟩ := plot_eq blend c steep o1 (s.1 + k) (truncQ fy + 1) (fractF fy)
    rw [h1, Option.bind_some, h2, Option.map_some]
    refine ⟨_, rfl, by dsimp only; omega, by dsimp only; omega, ?_, ?_⟩
    · dsimp only
      rw [hfy]
      rfl
    · intro x y hxy
      dsimp only
      have ho : ∀ m : Int, orient steep (s.1 + k, m) = ((x : Int), (y : Int)) ↔
          (orient steep (x, y)).1 = s.1 + k ∧ (orient steep (x, y)).2 = m := by
        intro m
        constructor
        · intro h; rw [← h, orient_orient]; exact ⟨rfl, rfl⟩
        · rintro ⟨h3, h4⟩; rw [← orient_orient steep (↑x, ↑y), ← h3, ← h4]
      have hb : o.InB x y := ⟨by rw [hw]; exact hxy.1, by rw [hh]; exact hxy.2⟩
      have hb1 : o1.InB x y := ⟨by rw [w1]; exact hb.1, by rw [h1']; exact hb.2⟩
      rw [p2, p1, hpx x y hxy]
      simp only [ho]
      generalize orient steep ((x : Int), (y : Int)) = q at *
      clear p1 p2 hpx key ho
      by_cases hq : q.1 = s.1 + k
      · have hq1 : s.1 ≤ q.1 ∧ q.1 < s.1 + ((k + 1 : Nat) : Int) := by push_cast; omega
        have hq2 : ¬ (s.1 ≤ q.1 ∧ q.1 < s.1 + (k : Int)) := by omega
        rw [if_pos hq1, if_neg hq2, show (q.1 - s.1).toNat = k by omega, ← hfy]
        unfold wuPixel32
        by_cases hm : q.2 = truncQ fy
        · rw [if_neg (by omega), if_pos ⟨hb, hq, hm⟩, if_pos hm]
        · rw [if_neg (c := o.InB x y ∧ _) (fun h => hm h.2.2), if_neg hm]
          exact if_congr ⟨fun h => h.2.2, fun h => ⟨hb1, hq, h⟩⟩ rfl rfl
      · rw [if_neg (fun h => hq h.2.1), if_neg (fun h => hq h.2.1)]
        exact if_congr (by push_cast; omega) rfl rfl

theorem rep_wuMinor (y0 : Int) (g : ℚ) (k : Nat) : Rep 24 (-149) (wuMinor y0 g k) := by
  cases k <;> exact rep_rnd _

/-- The computed minor coordinate and the exact one. -/
theorem wuMinor_error {y0 : Int} {g g0 M : ℚ} {L : Nat} (hy0 : |y0| ≤ 2 ^ 24)
    (hg : |g - g0| ≤ 1 / 2 ^ 24 + 1 / 2 ^ 150) (hM : ∀ k : Nat, k ≤ L → |(y0 : ℚ) + k * g0| ≤ M)
    (hL : (L : ℚ) * (M + 3) ≤ 2 ^ 24) :
    ∀ k : Nat, k ≤ L → |wuMinor y0 g k - (y0 + k * g0)| ≤ k * (M + 3) / 2 ^ 24 := by
  intro k
  induction k with
  | zero =>
    intro _
    rw [wuMinor, rnd32_int hy0]
    simp
  | succ k ih =>
    intro hk
    have ih := ih (by omega)
    have M0 : 0 ≤ M := le_trans (abs_nonneg _) (hM 0 (by omega))
    have kb : (k : ℚ) * (M + 3) ≤ 2 ^ 24 := by
      have : (k : ℚ) ≤ L := by exact_mod_cast (by omega : k ≤ L)
      exact le_trans (mul_le_mul_of_nonneg_right this (by linarith)) hL
    have m1 := hM (k + 1) hk
    push_cast at m1 ⊢
    rw [wuMinor]
    generalize wuMinor y0 g k = v at *
    have e : (y0 : ℚ) + (k + 1) * g0 = y0 + k * g0 + g0 := by ring
    have e2 : ((k : ℚ) + 1) * (M + 3) = k * (M + 3) + (M + 3) := by ring
    rw [e] at m1 ⊢
    rw [e2]
    generalize (y0 : ℚ) + k * g0 = i at *
    generalize (k : ℚ) * (M + 3) = E at *
    rw [abs_le] at hg m1 ih
    have c := rnd32_err (z := v + g) (B := M + 1 + 1 / 2 ^ 23) (by rw [abs_le]; constructor <;> linarith)
    rw [abs_le] at c ⊢
    constructor <;> linarith

theorem gradient_error {s e : Int × Int} (h : s.1 < e.1) (hs : |e.2 - s.2| ≤ e.1 - s.1)
    (hb : e.1 - s.1 ≤ 2 ^ 24) :
    |((e.2 : ℚ) - s.2) / ((e.1 : ℚ) - s.1)| ≤ 1 ∧
    |rnd32 (rnd32 ((e.2 - s.2 : Int) : ℚ) / rnd32 ((e.1 - s.1 : Int) : ℚ)) -
      ((e.2 : ℚ) - s.2) / ((e.1 : ℚ) - s.1)| ≤ 1 / 2 ^ 24 + 1 / 2 ^ 150 := by
  have hd : (0 : ℚ) < (e.1 : ℚ) - s.1 := by
    have : (s.1 : ℚ) < e.1 := by exact_mod_cast h
    linarith
  have h1 : |((e.2 : ℚ) - s.2) / ((e.1 : ℚ) - s.1)| ≤ 1 := by
    rw [abs_div, abs_of_pos hd, div_le_one hd]
    exact_mod_cast hs
  refine ⟨h1, ?_⟩
  rw [rnd32_int (by omega), rnd32_int (by rw [abs_of_nonneg (by omega)]; exact hb)]
  push_cast
  exact rnd32_err h1

/-- Along the line the minor coordinate stays between the end points. -/
theorem ideal_bound {s e : Int × Int} {M : ℚ} (h : s.1 < e.1) (h1 : |(s.2 : ℚ)| ≤ M) (h2 : |(e.2 : ℚ)| ≤ M)
    (k : Nat) (hk : k ≤ (e.1 - s.1).toNat) :
    |(s.2 : ℚ) + k * (((e.2 : ℚ) - s.2) / ((e.1 : ℚ) - s.1))| ≤ M := by
  have hd : (0 : ℚ) < (e.1 : ℚ) - s.1 := by
    have : (s.1 : ℚ) < e.1 := by exact_mod_cast h
    linarith
  have hk' : (k : ℚ) ≤ (e.1 : ℚ) - s.1 := by
    have : (k : Int) ≤ e.1 - s.1 := by omega
    exact_mod_cast this
  have t0 : 0 ≤ (k : ℚ) / ((e.1 : ℚ) - s.1) := by positivity
  have t1 : (k : ℚ) / ((e.1 : ℚ) - s.1) ≤ 1 := (div_le_one hd).2 hk'
  have e' : (s.2 : ℚ) + k * (((e.2 : ℚ) - s.2) / ((e.1 : ℚ) - s.1)) =
      (1 - (k : ℚ) / ((e.1 : ℚ) - s.1)) * s.2 + (k : ℚ) / ((e.1 : ℚ) - s.1) * e.2 := by
    field_simp; ring
  rw [e']
  generalize (k : ℚ) / ((e.1 : ℚ) - s.1) = t at *
  rw [abs_le] at *
  constructor <;> nlinarith

theorem plotWu32_near {s e : Int × Int} {M : ℚ} (h : s.1 ≤ e.1) (hs : |e.2 - s.2| ≤ e.1 - s.1)
    (hb : e.1 - s.1 ≤ 2 ^ 24) (hy : |s.2| ≤ 2 ^ 24) (h1 : |(s.2 : ℚ)| ≤ M) (h2 : |(e.2 : ℚ)| ≤ M)
    (hL : ((e.1 : ℚ) - s.1) * (M + 3) ≤ 2 ^ 24) (a : Int) (ha : s.1 ≤ a) (ha' : a ≤ e.1) :
    |wuMinor s.2 (rnd32 (rnd32 ((e.2 - s.2 : Int) : ℚ) / rnd32 ((e.1 - s.1 : Int) : ℚ))) (a - s.1).toNat -
      idealMinor s e a| ≤ ((a : ℚ) - s.1) * (M + 3) / 2 ^ 24 := by
  by_cases he : s.1 = e.1
  · have : a = s.1 := by omega
    subst this
    rw [sub_self, Int.toNat_zero, wuMinor, rnd32_int hy]
    simp [idealMinor]
  · have hlt : s.1 < e.1 := by omega
    obtain ⟨-, g2⟩ := gradient_error hlt hs hb
    have ek : (((a - s.1).toNat : Nat) : ℚ) = (a : ℚ) - s.1 := by
      have : ((((a - s.1).toNat : Nat) : Int) : ℚ) = ((a - s.1 : Int) : ℚ) := by
        rw [Int.toNat_of_nonneg (by omega)]
      push_cast at this
      exact this
    have eL : (((e.1 - s.1).toNat : Nat) : ℚ) = (e.1 : ℚ) - s.1 := by
      have : ((((e.1 - s.1).toNat : Nat) : Int) : ℚ) = ((e.1 - s.1 : Int) : ℚ) := by
        rw [Int.toNat_of_nonneg (by omega)]
      push_cast at this
      exact this
    have := wuMinor_error (L := (e.1 - s.1).toNat) hy g2 (ideal_bound hlt h1 h2) (by rw [eL]; exact hL)
      (a - s.1).toNat (by omega)
    rw [ek] at this
    exact this

/-- C138: an antialiased line drawn in `f32` changes, in every column (row, if steep) between its
end points, the two pixels at `v` rounded towards zero and the next, where `v` is a
floating-point number within `k (M + 3) / 2^24` of the exact line after `k` steps; `M` bounds the
minor coordinates and `(M + 3)` times the length of the line is at most `2^24`.  All other
pixels are unchanged. -/
theorem C138_line_partial {α : Type _} (blend : α → α → ℚ → α) (im : Image α) (s e : Int × Int) (c : α)
    {S E : Int × Int} (hS : S = orient (isSteep s e) s) (hE : E = orient (isSteep s e) e) {M : ℚ}
    (hMS : |(S.2 : ℚ)| ≤ M) (hME : |(E.2 : ℚ)| ≤ M) (hL : |(E.1 : ℚ) - S.1| * (M + 3) ≤ 2 ^ 24)
    (b1 : |S.2| ≤ 2 ^ 22) (b2 : |E.2| ≤ 2 ^ 22) :
    ∃ out, drawAntialiased32 blend im s e c = some out ∧ out.w = im.w ∧ out.h = im.h ∧
      ∃ v : Int → ℚ, (∀ a, min S.1 E.1 ≤ a → a ≤ max S.1 E.1 → Rep 24 (-149) (v a) ∧
          |v a - idealMinor S E a| ≤ ((a : ℚ) - (min S.1 E.1 : Int)) * (M + 3) / 2 ^ 24) ∧
        ∀ x y, im.InB x y → ∀ p, p = orient (isSteep s e) (x, y) →
          out.px x y = if min S.1 E.1 ≤ p.1 ∧ p.1 ≤ max S.1 E.1 then
            wuPixel32 blend c (im.px x y) (v p.1) p.2 else im.px x y := by
  have M0 : 0 ≤ M := le_trans (abs_nonneg _) hMS
  have hlen : |E.1 - S.1| ≤ 2 ^ 24 := by
    have h3 : |(E.1 : ℚ) - S.1| * 1 ≤ |(E.1 : ℚ) - S.1| * (M + 3) :=
      mul_le_mul_of_nonneg_left (by linarith) (abs_nonneg _)
    have : |(E.1 : ℚ) - S.1| ≤ 2 ^ 24 := by linarith
    exact_mod_cast this
  have hmain : |E.2 - S.2| ≤ |E.1 - S.1| := by
    rw [hS, hE]
    unfold isSteep orient
    by_cases hst : |e.2 - s.2| > |e.1 - s.1|
    · simp only [hst, decide_true, if_true]; omega
    · simp only [hst, decide_false, Bool.false_eq_true, if_false]; omega
  have hdraw : drawAntialiased32 blend im s e c = if S.1 > E.1 then plotWu32 blend c (isSteep s e) im E S
      else plotWu32 blend c (isSteep s e) im S E := by
    unfold drawAntialiased32
    rw [hS, hE]
    by_cases hst : |e.2 - s.2| > |e.1 - s.1|
    · have hs : isSteep s e = true := by simp [isSteep, hst]
      rw [if_pos hst, hs]; rfl
    · have hs : isSteep s e = false := by simp only [isSteep, decide_eq_false_iff_not]; exact hst
      rw [if_neg hst, hs]; rfl
  rw [hdraw]
  clear hdraw
  generalize isSteep s e = st at *
  have core : ∀ A B : Int × Int, A.1 ≤ B.1 → |B.2 - A.2| ≤ B.1 - A.1 → B.1 - A.1 ≤ 2 ^ 24 → |A.2| ≤ 2 ^ 22 →
      |(A.2 : ℚ)| ≤ M → |(B.2 : ℚ)| ≤ M → ((B.1 : ℚ) - A.1) * (M + 3) ≤ 2 ^ 24 →
      ∃ out, plotWu32 blend c st im A B = some out ∧ out.w = im.w ∧ out.h = im.h ∧
      ∃ v : Int → ℚ, (∀ a, A.1 ≤ a → a ≤ B.1 → Rep 24 (-149) (v a) ∧
          |v a - idealMinor A B a| ≤ ((a : ℚ) - A.1) * (M + 3) / 2 ^ 24) ∧
        ∀ x y, im.InB x y → ∀ p, p = orient st (x, y) →
          out.px x y = if A.1 ≤ p.1 ∧ p.1 ≤ B.1 then
            wuPixel32 blend c (im.px x y) (v p.1) p.2 else im.px x y := by
    intro A B h1 h2 h3 h4 h5 h6 h7
    obtain ⟨o, o1, o2, o3, o4⟩ := plotWu32_eq blend c st im A B h1
    refine ⟨o, o1, o2, o3, fun a => wuMinor A.2 (rnd32 (rnd32 ((B.2 - A.2 : Int) : ℚ) /
      rnd32 ((B.1 - A.1 : Int) : ℚ))) (a - A.1).toNat, ?_, ?_⟩
    · intro a ha ha'
      exact ⟨rep_wuMinor _ _ _, plotWu32_near h1 h2 h3 (by omega) h5 h6 h7 a ha ha'⟩
    · intro x y hxy p hp
      rw [o4 x y hxy, hp]
  by_cases ho : S.1 > E.1
  · rw [if_pos ho]
    have e1 : min S.1 E.1 = E.1 := by omega
    have e2 : max S.1 E.1 = S.1 := by omega
    rw [e1, e2]
    have ea : |E.1 - S.1| = S.1 - E.1 := by rw [abs_of_neg (by omega)]; ring
    rw [ea] at hmain hlen
    have := core E S (by omega) (by rw [abs_sub_comm]; exact hmain) hlen b2 hME hMS (by
      rw [abs_sub_comm, abs_of_pos] at hL
      · exact hL
      · have : (E.1 : ℚ) < S.1 := by exact_mod_cast ho
        linarith)
    obtain ⟨o, o1, o2, o3, v, v1, v2⟩ := this
    refine ⟨o, o1, o2, o3, v, ?_, v2⟩
    intro a ha ha'
    rw [idealMinor_swap _ _ _ (by omega)]
    exact v1 a ha ha'
  · rw [if_neg ho]
    have e1 : min S.1 E.1 = S.1 := by omega
    have e2 : max S.1 E.1 = E.1 := by omega
    rw [e1, e2]
    rw [abs_of_nonneg (by omega : 0 ≤ E.1 - S.1)] at hmain hlen
    have hq : (0 : ℚ) ≤ (E.1 : ℚ) - S.1 := by
      have : (S.1 : ℚ) ≤ E.1 := by exact_mod_cast (not_lt.1 ho)
      linarith
    rw [abs_of_nonneg hq] at hL
    exact core S E (by omega) hmain hlen b1 hMS hME hL

/-- C138: at a position that is not negative the two weights are between 0 and 1 and sum to one
up to `2^-25`: the next pixel gets exactly the fraction. -/
theorem C138_weights {α : Type _} (blend : α → α → ℚ → α) (c old : α) {v : ℚ} (hv : Rep 24 (-149) v)
    (h0 : 0 ≤ v) :
    ∃ w1 w2 : ℚ, (∀ m, wuPixel32 blend c old v m = if m = ⌊v⌋ then blend c old w1
        else if m = ⌊v⌋ + 1 then blend c old w2 else old) ∧
      w2 = v - ⌊v⌋ ∧ 0 ≤ w1 ∧ w1 ≤ 1 ∧ |w1 + w2 - 1| ≤ 1 / 2 ^ 25 := by
  have ht : truncQ v = ⌊v⌋ := by unfold truncQ; rw [if_pos h0]
  have hf : fractF v = v - ⌊v⌋ := by
    unfold fractF
    rw [ht]
    exact rnd_of_rep (by norm_num) (rep_fract hv h0)
  have f1 := Int.floor_le v
  have f2 := Int.lt_floor_add_one v
  refine ⟨rnd32 (1 - (v - ⌊v⌋)), v - ⌊v⌋, ?_, rfl, rnd_nonneg (by linarith), ?_, ?_⟩
  · intro m
    unfold wuPixel32
    rw [hf, ht]
  · exact rnd_le (by norm_num) ⟨1, 0, by norm_num, by norm_num, by norm_num⟩ (by linarith)
  · by_cases hz : v - ⌊v⌋ = 0
    · rw [hz, sub_zero, rnd32_oneQ]; norm_num
    · have hp : 0 < v - ⌊v⌋ := lt_of_le_of_ne (by linarith) (Ne.symm hz)
      have := rnd_error_lt (p := 24) (emin := -149) (x := 1 - (v - ⌊v⌋)) (k := 0) (by norm_num)
        (by rw [zpow_zero, abs_lt]; constructor <;> linarith)
      have e : (2 : ℚ) ^ ((0 : Int) - (24 : Nat)) / 2 = 1 / 2 ^ 25 := by norm_num
      rw [e] at this
      rw [show rnd32 (1 - (v - ⌊v⌋)) + (v - ⌊v⌋) - 1 = rnd32 (1 - (v - ⌊v⌋)) - (1 - (v - ⌊v⌋)) by ring]
      exact this

theorem roundEven_low {m : Int} {t : ℚ} (hm : Even m) (h0 : 0 ≤ t) (h1 : t ≤ 1 / 2) :
    roundEven ((m : ℚ) + t) = m := by
  rcases lt_or_eq_of_le h1 with h | h
  · apply roundEven_near
    rw [add_sub_cancel_left, abs_of_nonneg h0]
    exact h
  · have hf : ⌊(m : ℚ) + t⌋ = m := by
      rw [Int.floor_eq_iff]
      constructor <;> linarith
    have hm2 : m % 2 = 0 := Int.even_iff.1 hm
    unfold roundEven
    rw [hf, add_sub_cancel_left, if_neg (by linarith), if_neg (by linarith), if_pos hm2]

/-- Adding at most half a unit in the last place to an even mantissa changes nothing. -/
theorem stuck {y0 : Int} {g : ℚ} {n : Nat} (hn : n ≤ 22) (h1 : (2 : Int) ^ n ≤ y0) (h2 : y0 < 2 ^ (n + 1))
    (g0 : 0 ≤ g) (g1 : g ≤ 2 ^ n / 2 ^ 24) : ∀ k, wuMinor y0 g k = y0 := by
  have hy : |y0| ≤ 2 ^ 24 := by
    have : (2 : Int) ^ (n + 1) ≤ 2 ^ 24 := pow_le_pow_right₀ (by norm_num) (by omega)
    rw [abs_of_nonneg (le_trans (by positivity) h1)]
    omega
  intro k
  induction k with
  | zero => exact rnd32_int hy
  | succ k ih =>
    rw [wuMinor, ih]
    have p1 : ((2 : ℚ) ^ n) ≤ y0 := by exact_mod_cast h1
    have p2 : (y0 : ℚ) + 1 ≤ 2 ^ (n + 1) := by exact_mod_cast h2
    have pn : (0 : ℚ) < 2 ^ n := by positivity
    have pl : (2 : ℚ) ^ n ≤ 2 ^ 23 := pow_le_pow_right₀ (by norm_num) (by omega)
    have gl : g < 1 := by
      have : (2 : ℚ) ^ n / 2 ^ 24 ≤ 2 ^ 23 / 2 ^ 24 := by gcongr
      norm_num at this g1 ⊢
      linarith
    have hpos : (0 : ℚ) < (y0 : ℚ) + g := by linarith
    have hmax : max ((n : Int) + 1 - (24 : Nat)) (-149) = (n : Int) - 23 := by omega
    have hz : (2 : ℚ) ^ ((n : Int) - 23) = 2 ^ n / 2 ^ 23 := by
      rw [zpow_sub₀ (by norm_num), zpow_natCast]; norm_num
    have hj : ((y0 * 2 ^ (23 - n) : Int) : ℚ) * (2 ^ n / 2 ^ 23) = y0 := by
      have : (2 : ℚ) ^ (23 - n) * 2 ^ n = 2 ^ 23 := by rw [← pow_add]; congr 1; omega
      push_cast
      rw [mul_assoc, ← mul_div_assoc, this, div_self (by norm_num), mul_one]
    have pz : (0 : ℚ) < 2 ^ n / 2 ^ 23 := by positivity
    have := rnd_eval (p := 24) (emin := -149) (x := (y0 : ℚ) + g) (n : Int) (y0 * 2 ^ (23 - n))
      (by rw [abs_of_pos hpos, zpow_natCast]; linarith)
      (by
        rw [abs_of_pos hpos, show ((n : Int) + 1) = ((n + 1 : Nat) : Int) by push_cast; ring, zpow_natCast]
        linarith)
      (by
        rw [hmax, hz]
        have e : ((y0 : ℚ) + g) / (2 ^ n / 2 ^ 23) = ((y0 * 2 ^ (23 - n) : Int) : ℚ) + g / (2 ^ n / 2 ^ 23) := by
          rw [add_div]
          congr 1
          rw [div_eq_iff pz.ne', hj]
        rw [e]
        have t0 : 0 ≤ g / (2 ^ n / 2 ^ 23) := div_nonneg g0 pz.le
        have t1 : g / (2 ^ n / 2 ^ 23) ≤ 1 / 2 := by rw [div_le_iff₀ pz]; linarith
        refine roundEven_low ?_ t0 t1
        have : (23 - n) = (22 - n) + 1 := by omega
        rw [this, pow_succ]
        exact ⟨y0 * 2 ^ (22 - n), by ring⟩)
    rw [hmax, hz, hj] at this
    exact this

/-- C138: a line that starts in row `y0`, `2^n ≤ y0 < 2^(n+1)`, and descends by at most one row
in `2^(24-n)` columns never leaves row `y0`, however long it is: in every column row `y0` is
blended with weight one and row `y0 + 1` with weight zero. -/
theorem C138_stuck {α : Type _} (blend : α → α → ℚ → α) (im : Image α) (s e : Int × Int) (c : α) {n : Nat}
    (hn : n ≤ 22) (h1 : (2 : Int) ^ n ≤ s.2) (h2 : s.2 < 2 ^ (n + 1)) (hx : s.1 < e.1)
    (hl : e.1 - s.1 ≤ 2 ^ 24) (hy : s.2 ≤ e.2) (hg : (e.2 - s.2) * 2 ^ 24 ≤ (e.1 - s.1) * 2 ^ n) :
    ∃ out, drawAntialiased32 blend im s e c = some out ∧ out.w = im.w ∧ out.h = im.h ∧
      ∀ x y, im.InB x y → out.px x y =
        if s.1 ≤ x ∧ x ≤ e.1 ∧ (y : Int) = s.2 then blend c (im.px x y) 1
        else if s.1 ≤ x ∧ x ≤ e.1 ∧ (y : Int) = s.2 + 1 then blend c (im.px x y) 0
        else im.px x y := by
  have pn : (0 : Int) < 2 ^ n := by positivity
  have pl : (2 : Int) ^ n ≤ 2 ^ 23 := pow_le_pow_right₀ (by norm_num) (by omega)
  have flat : e.2 - s.2 ≤ e.1 - s.1 := by nlinarith
  have hst : ¬ |e.2 - s.2| > |e.1 - s.1| := by
    rw [abs_of_nonneg (by omega), abs_of_nonneg (by omega)]; omega
  unfold drawAntialiased32
  rw [if_neg hst, if_neg (by omega)]
  obtain ⟨o, o1, o2, o3, o4⟩ := plotWu32_eq blend c false im s e (by omega)
  refine ⟨o, o1, o2, o3, ?_⟩
  intro x y hxy
  rw [o4 x y hxy]
  have hd : (0 : ℚ) < (e.1 : ℚ) - s.1 := by
    have : (s.1 : ℚ) < e.1 := by exact_mod_cast hx
    linarith
  have d0 : (0 : ℚ) ≤ (e.2 : ℚ) - s.2 := by
    have : (s.2 : ℚ) ≤ e.2 := by exact_mod_cast hy
    linarith
  have G : 0 ≤ rnd32 (rnd32 ((e.2 - s.2 : Int) : ℚ) / rnd32 ((e.1 - s.1 : Int) : ℚ)) ∧
      rnd32 (rnd32 ((e.2 - s.2 : Int) : ℚ) / rnd32 ((e.1 - s.1 : Int) : ℚ)) ≤ 2 ^ n / 2 ^ 24 := by
    rw [rnd32_int (by rw [abs_of_nonneg (by omega)]; omega), rnd32_int (by rw [abs_of_nonneg (by omega)]; exact hl)]
    push_cast
    refine ⟨rnd_nonneg (div_nonneg d0 hd.le), ?_⟩
    refine rnd_le (by norm_num) ⟨1, (n : Int) - 24, by norm_num, by omega, ?_⟩ ?_
    · rw [zpow_sub₀ (by norm_num), zpow_natCast]; norm_num
    · rw [div_le_iff₀ hd]
      have : ((e.2 : ℚ) - s.2) * 2 ^ 24 ≤ ((e.1 : ℚ) - s.1) * 2 ^ n := by exact_mod_cast hg
      rw [div_mul_eq_mul_div, le_div_iff₀ (by norm_num)]
      linarith
  have st := stuck hn h1 h2 G.1 G.2 ((orient false ((x : Int), (y : Int))).1 - s.1).toNat
  rw [st]
  have ht : truncQ (s.2 : ℚ) = s.2 := truncQ_int _
  have hf : fractF (s.2 : ℚ) = 0 := by
    unfold fractF
    rw [ht, sub_self, rnd32_zeroQ]
  unfold wuPixel32
  rw [ht, hf, sub_zero, rnd32_oneQ]
  simp only [orient, Bool.false_eq_true, if_false]
  by_cases c1 : s.1 ≤ (x : Int) ∧ (x : Int) ≤ e.1
  · by_cases c2 : (y : Int) = s.2
    · simp only [c1, c2, and_self, if_true]
    · simp only [c1, c2, and_self, and_false, true_and, if_false, if_true]
  · by_cases c2 : s.1 ≤ (x : Int)
    · have c3 : ¬ (x : Int) ≤ e.1 := fun h => c1 ⟨c2, h⟩
      simp only [c2, c3, false_and, and_false, if_false]
    · simp only [c2, false_and, if_false]

/-- C138: the line from (0, 16384) to (10240, 16394) does not reach its end point: in `f32` the
pixel there is left as it was, ten rows below the row that is drawn, whatever the image and the
blending function; in exact arithmetic it gets full weight. -/
theorem C138_negation {α : Type _} (blend : α → α → ℚ → α) (im : Image α) (c : α) (hw : 10240 < im.w)
    (hh : 16394 < im.h) :
    ∃ out out', drawAntialiased32 blend im (0, 16384) (10240, 16394) c = some out ∧
      drawAntialiased blend im (0, 16384) (10240, 16394) c = some out' ∧
      out.px 10240 16394 = im.px 10240 16394 ∧
      out.px 10240 16384 = blend c (im.px 10240 16384) 1 ∧
      out'.px 10240 16394 = blend c (im.px 10240 16394) 1 ∧
      out'.px 10240 16384 = im.px 10240 16384 := by
  obtain ⟨o, o1, -, -, o4⟩ := C138_stuck blend im (0, 16384) (10240, 16394) c (n := 14) (by norm_num)
    (by norm_num) (by norm_num) (by norm_num) (by norm_num) (by norm_num) (by norm_num)
  obtain ⟨r, r1, -, -, r4⟩ := C48_exact blend im (0, 16384) (10240, 16394) c
  have hi : im.InB 10240 16394 := ⟨hw, hh⟩
  have hi' : im.InB 10240 16384 := ⟨hw, by omega⟩
  have hid : idealMinor (0, 16384) (10240, 16394) 10240 = ((16394 : Int) : ℚ) := by
    norm_num [idealMinor]
  refine ⟨o, r, o1, r1, ?_, ?_, ?_, ?_⟩
  · rw [o4 _ _ hi, if_neg (by norm_num), if_neg (by norm_num)]
  · rw [o4 _ _ hi', if_pos (by norm_num)]
  · have := r4 _ _ hi (10240, 16394) (0, 16384) (10240, 16394) rfl rfl rfl
    rw [this, if_pos (by norm_num)]
    dsimp only
    unfold wuPixel
    rw [hid, truncQ_int, if_pos rfl, sub_self, sub_zero]
  · have := r4 _ _ hi' (10240, 16384) (0, 16384) (10240, 16394) rfl rfl rfl
    rw [this, if_pos (by norm_num)]
    dsimp only
    unfold wuPixel
    rw [hid, truncQ_int, if_neg (by norm_num), if_neg (by norm_num)]

/-- C138: the weights are not always between 0 and 1, even inside the image: drawing a white line
from (0, 1) to (3, 0) on a grey image with `interpolate` makes pixel (3, 1), which the exact line
does not touch, darker. -/
theorem C138_negation_weight :
    (drawAntialiased32 (fun c old w => interpolate32 c old w) (Image.new 4 2 fun _ : Fin 1 => 100)
      (0, 1) (3, 0) fun _ => 255).map (fun r => r.px 3 1 0) = some 99 ∧
    wuMinor 1 (rnd32 (-1 / 3)) 3 < 0 := by
  constructor <;> decide +kernel

theorem rep_dyadic {q : Int} {j : Nat} (hq : |q| ≤ 2 ^ 24) (hj : j ≤ 149) :
    Rep 24 (-149) ((q : ℚ) / 2 ^ j) :=
  ⟨q, -j, hq, by omega, by rw [zpow_neg, zpow_natCast, div_eq_mul_inv]⟩

theorem truncQ_abs_le (v : ℚ) : |v - truncQ v| ≤ 1 := by
  unfold truncQ
  split
  · have h1 := Int.floor_le v
    have h2 := Int.lt_floor_add_one v
    rw [abs_le]; constructor <;> linarith
  · have h1 := Int.le_ceil v
    have h2 := Int.ceil_lt_add_one v
    rw [abs_le]; constructor <;> linarith

/-- Positions that are multiples of `2^-j` are blended exactly. -/
theorem wuPixel32_dyadic {α : Type _} (blend : α → α → ℚ → α) (c old : α) {q : Int} {j : Nat} (hj : j ≤ 23)
    (m : Int) : wuPixel32 blend c old ((q : ℚ) / 2 ^ j) m = wuPixel blend c old ((q : ℚ) / 2 ^ j) m := by
  have pj : (0 : ℚ) < 2 ^ j := by positivity
  have pj' : (2 : ℚ) ^ j ≤ 2 ^ 23 := pow_le_pow_right₀ (by norm_num) hj
  have ht := truncQ_abs_le ((q : ℚ) / 2 ^ j)
  have e1 : (q : ℚ) / 2 ^ j - truncQ ((q : ℚ) / 2 ^ j) =
      ((q - truncQ ((q : ℚ) / 2 ^ j) * 2 ^ j : Int) : ℚ) / 2 ^ j := by
    push_cast; field_simp
  have e2 : 1 - ((q : ℚ) / 2 ^ j - truncQ ((q : ℚ) / 2 ^ j)) =
      ((2 ^ j - (q - truncQ ((q : ℚ) / 2 ^ j) * 2 ^ j) : Int) : ℚ) / 2 ^ j := by
    push_cast; field_simp
  have b1 : |q - truncQ ((q : ℚ) / 2 ^ j) * 2 ^ j| ≤ 2 ^ 23 := by
    rw [e1, abs_div, abs_of_pos pj, div_le_one pj] at ht
    have : ((|q - truncQ ((q : ℚ) / 2 ^ j) * 2 ^ j| : Int) : ℚ) ≤ ((2 ^ 23 : Int) : ℚ) := by
      push_cast at ht ⊢
      linarith
    exact_mod_cast this
  have b2 : |2 ^ j - (q - truncQ ((q : ℚ) / 2 ^ j) * 2 ^ j)| ≤ 2 ^ 24 := by
    have pI : (2 : Int) ^ j ≤ 2 ^ 23 := pow_le_pow_right₀ (by norm_num) hj
    have pI0 : (0 : Int) < 2 ^ j := by positivity
    rw [abs_le] at b1 ⊢
    constructor <;> omega
  have f1 : fractF ((q : ℚ) / 2 ^ j) = (q : ℚ) / 2 ^ j - truncQ ((q : ℚ) / 2 ^ j) := by
    unfold fractF
    rw [e1]
    exact rnd_of_rep (by norm_num) (rep_dyadic (by omega) (by omega))
  have f2 : rnd32 (1 - ((q : ℚ) / 2 ^ j - truncQ ((q : ℚ) / 2 ^ j))) =
      1 - ((q : ℚ) / 2 ^ j - truncQ ((q : ℚ) / 2 ^ j)) := by
    rw [e2]
    exact rnd_of_rep (by norm_num) (rep_dyadic b2 (by omega))
  unfold wuPixel32 wuPixel
  rw [f1, f2]

/-- Lines whose slope is a multiple of `2^-j` are computed exactly. -/
theorem wuMinor_dyadic {y0 m : Int} {j : Nat} (hj : j ≤ 23) {L : Nat} (hm : |m| ≤ 2 ^ 24)
    (hb : ∀ k : Nat, k ≤ L → |y0 * 2 ^ j + k * m| ≤ 2 ^ 24) :
    ∀ k : Nat, k ≤ L → wuMinor y0 (rnd32 ((m : ℚ) / 2 ^ j)) k = ((y0 * 2 ^ j + k * m : Int) : ℚ) / 2 ^ j := by
  have pj : (0 : ℚ) < 2 ^ j := by positivity
  have hg : rnd32 ((m : ℚ) / 2 ^ j) = (m : ℚ) / 2 ^ j := rnd_of_rep (by norm_num) (rep_dyadic hm (by omega))
  rw [hg]
  intro k
  induction k with
  | zero =>
    intro h
    have h0 := hb 0 h
    have e : (y0 : ℚ) = ((y0 * 2 ^ j + (0 : Nat) * m : Int) : ℚ) / 2 ^ j := by push_cast; field_simp; ring
    rw [wuMinor]
    rw [e]
    exact rnd_of_rep (by norm_num) (rep_dyadic h0 (by omega))
  | succ k ih =>
    intro h
    rw [wuMinor, ih (by omega)]
    have e : ((y0 * 2 ^ j + (k : Nat) * m : Int) : ℚ) / 2 ^ j + (m : ℚ) / 2 ^ j =
        ((y0 * 2 ^ j + ((k + 1 : Nat) : Int) * m : Int) : ℚ) / 2 ^ j := by
      push_cast; field_simp; ring
    rw [e]
    exact rnd_of_rep (by norm_num) (rep_dyadic (hb _ h) (by omega))

theorem plotWu32_dyadic {α : Type _} (blend : α → α → ℚ → α) (c : α) (st : Bool) (im : Image α)
    {s e : Int × Int} (h : s.1 ≤ e.1) (hs : |e.2 - s.2| ≤ e.1 - s.1) (hl : e.1 - s.1 ≤ 2 ^ 24) {j : Nat}
    (hj : j ≤ 23) {m M : Int} (hm : (e.2 - s.2) * 2 ^ j = m * (e.1 - s.1)) (h1 : |s.2| ≤ M)
    (h2 : |e.2| ≤ M) (hM : M * 2 ^ j ≤ 2 ^ 24) :
    ∃ out out', plotWu32 blend c st im s e = some out ∧ plotWu blend c st im s e = some out' ∧
      out.w = im.w ∧ out.h = im.h ∧ out'.w = im.w ∧ out'.h = im.h ∧
      ∀ x y, im.InB x y → out.px x y = out'.px x y := by
  obtain ⟨o, o1, o2, o3, o4⟩ := plotWu32_eq blend c st im s e h
  obtain ⟨r, r1, r2, r3, r4⟩ := plotWu_eq blend c st im s e h
  refine ⟨o, r, o1, r1, o2, o3, r2, r3, ?_⟩
  intro x y hxy
  rw [o4 x y hxy, r4 x y hxy]
  generalize orient st ((x : Int), (y : Int)) = p
  by_cases hp : s.1 ≤ p.1 ∧ p.1 ≤ e.1
  swap
  · rw [if_neg hp, if_neg hp]
  rw [if_pos hp, if_pos hp]
  have pj : (0 : ℚ) < 2 ^ j := by positivity
  have pjI : (0 : Int) < 2 ^ j := by positivity
  have pjI' : (2 : Int) ^ j ≤ 2 ^ 23 := pow_le_pow_right₀ (by norm_num) hj
  by_cases he : s.1 = e.1
  · have hps : p.1 = s.1 := by omega
    have hyb : |s.2 * 2 ^ j| ≤ 2 ^ 24 := by
      rw [abs_mul, abs_of_pos pjI]
      exact le_trans (mul_le_mul_of_nonneg_right h1 pjI.le) hM
    have hy : |s.2| ≤ 2 ^ 24 := by
      rw [abs_mul, abs_of_pos pjI] at hyb
      nlinarith [abs_nonneg s.2]
    have e0 : (s.2 : ℚ) = ((s.2 * 2 ^ j : Int) : ℚ) / 2 ^ j := by push_cast; field_simp
    rw [hps, sub_self, Int.toNat_zero, wuMinor, rnd32_int hy]
    have ei : idealMinor s e s.1 = s.2 := by simp [idealMinor]
    rw [ei, e0]
    exact wuPixel32_dyadic blend c _ hj _
  · have hlt : s.1 < e.1 := by omega
    have hd : (0 : ℚ) < (e.1 : ℚ) - s.1 := by
      have : (s.1 : ℚ) < e.1 := by exact_mod_cast hlt
      linarith
    have hmq : ((e.2 : ℚ) - s.2) * 2 ^ j = m * ((e.1 : ℚ) - s.1) := by exact_mod_cast hm
    have hg : ((e.2 : ℚ) - s.2) / ((e.1 : ℚ) - s.1) = (m : ℚ) / 2 ^ j := by
      rw [div_eq_div_iff hd.ne' pj.ne']; exact hmq
    have hid : ∀ k : Nat, (s.2 : ℚ) + k * ((m : ℚ) / 2 ^ j) = ((s.2 * 2 ^ j + k * m : Int) : ℚ) / 2 ^ j := by
      intro k; push_cast; field_simp
    have hb : ∀ k : Nat, k ≤ (e.1 - s.1).toNat → |s.2 * 2 ^ j + k * m| ≤ 2 ^ 24 := by
      intro k hk
      have := ideal_bound (M := (M : ℚ)) hlt (by exact_mod_cast h1) (by exact_mod_cast h2) k hk
      rw [hg, hid, abs_div, abs_of_pos pj, div_le_iff₀ pj] at this
      have h3 : |s.2 * 2 ^ j + k * m| ≤ M * 2 ^ j := by exact_mod_cast this
      omega
    have hmb : |m| ≤ 2 ^ 24 := by
      have h3 : |m| * (e.1 - s.1) = |e.2 - s.2| * 2 ^ j := by
        rw [← abs_of_pos pjI, ← abs_mul, hm, abs_mul, abs_of_pos (by omega : 0 < e.1 - s.1)]
      have h4 : |m| * (e.1 - s.1) ≤ 2 ^ j * (e.1 - s.1) := by
        rw [h3, mul_comm]; exact mul_le_mul_of_nonneg_left hs pjI.le
      have h5 : |m| ≤ 2 ^ j := le_of_mul_le_mul_right h4 (by omega)
      omega
    have ek : (((p.1 - s.1).toNat : Nat) : ℚ) = (p.1 : ℚ) - s.1 := by
      have : ((((p.1 - s.1).toNat : Nat) : Int) : ℚ) = ((p.1 - s.1 : Int) : ℚ) := by
        rw [Int.toNat_of_nonneg (by omega)]
      push_cast at this
      exact this
    rw [rnd32_int (by omega), rnd32_int (by rw [abs_of_nonneg (by omega)]; exact hl)]
    push_cast
    have hI : idealMinor s e p.1 = ((s.2 * 2 ^ j + ((p.1 - s.1).toNat : Nat) * m : Int) : ℚ) / 2 ^ j := by
      rw [← hid, ek]
      unfold idealMinor
      rw [hg]
    rw [hg, wuMinor_dyadic hj hmb hb _ (by omega), hI]
    exact wuPixel32_dyadic blend c _ hj _

/-- C138: lines whose slope is a multiple of `2^-j` - horizontal, vertical and diagonal lines and
lines whose length is a power of two among them - are drawn exactly as in exact arithmetic, if
the minor coordinates are at most `2^(24-j)`. -/
theorem C138_exact {α : Type _} (blend : α → α → ℚ → α) (im : Image α) (s e : Int × Int) (c : α)
    {S E : Int × Int} (hS : S = orient (isSteep s e) s) (hE : E = orient (isSteep s e) e) {j : Nat}
    (hj : j ≤ 23) {m M : Int} (hm : (E.2 - S.2) * 2 ^ j = m * (E.1 - S.1)) (h1 : |S.2| ≤ M)
    (h2 : |E.2| ≤ M) (hM : M * 2 ^ j ≤ 2 ^ 24) (hl : |E.1 - S.1| ≤ 2 ^ 24) :
    ∃ out out', drawAntialiased32 blend im s e c = some out ∧ drawAntialiased blend im s e c = some out' ∧
      out.w = im.w ∧ out.h = im.h ∧ out'.w = im.w ∧ out'.h = im.h ∧
      ∀ x y, im.InB x y → out.px x y = out'.px x y := by
  have hmain : |E.2 - S.2| ≤ |E.1 - S.1| := by
    rw [hS, hE]
    unfold isSteep orient
    by_cases hst : |e.2 - s.2| > |e.1 - s.1|
    · simp only [hst, decide_true, if_true]; omega
    · simp only [hst, decide_false, Bool.false_eq_true, if_false]; omega
  have hdraw : drawAntialiased32 blend im s e c = (if S.1 > E.1 then plotWu32 blend c (isSteep s e) im E S
      else plotWu32 blend c (isSteep s e) im S E) ∧
      drawAntialiased blend im s e c = (if S.1 > E.1 then plotWu blend c (isSteep s e) im E S
      else plotWu blend c (isSteep s e) im S E) := by
    unfold drawAntialiased32 drawAntialiased
    rw [hS, hE]
    by_cases hst : |e.2 - s.2| > |e.1 - s.1|
    · have hs : isSteep s e = true := by simp [isSteep, hst]
      rw [if_pos hst, if_pos hst, hs]; exact ⟨rfl, rfl⟩
    · have hs : isSteep s e = false := by simp only [isSteep, decide_eq_false_iff_not]; exact hst
      rw [if_neg hst, if_neg hst, hs]; exact ⟨rfl, rfl⟩
  rw [hdraw.1, hdraw.2]
  by_cases ho : S.1 > E.1
  · rw [if_pos ho, if_pos ho]
    have ea : |E.1 - S.1| = S.1 - E.1 := by rw [abs_of_neg (by omega)]; ring
    rw [ea] at hmain hl
    exact plotWu32_dyadic blend c _ im (by omega) (by rw [abs_sub_comm]; exact hmain) hl hj
      (m := m) (by linear_combination -hm) h2 h1 hM
  · rw [if_neg ho, if_neg ho]
    rw [abs_of_nonneg (by omega : 0 ≤ E.1 - S.1)] at hmain hl
    exact plotWu32_dyadic blend c _ im (by omega) hmain hl hj hm h1 h2 hM

/-- A line of length three in `f32`: the weights after two steps are a few units off. -/
example : wuMinor 0 (rnd32 (1 / 3)) 2 = 11184811 / 2 ^ 24 ∧
    wuMinor 10 (rnd32 (1 / 3)) 3 ≠ 11 ∧ |wuMinor 10 (rnd32 (1 / 3)) 3 - 11| ≤ 3 * (11 + 3) / 2 ^ 24 := by
  decide +kernel

/-- An image with a line of slope one half. -/
example : (drawAntialiased32 (fun c old w => (1 - w) * old + w * c) (Image.new 3 2 (0 : ℚ))
    (2, 1) (0, 0) 100).map Image.rows = some [[100, 50, 0], [0, 50, 100]] := by decide +kernel

end Verif.Float
