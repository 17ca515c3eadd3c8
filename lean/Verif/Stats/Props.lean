import Verif.Stats.Model
import Verif.Stats.Spec
import Mathlib.Tactic.SplitIfs
import Mathlib.Tactic.Ring
import Mathlib.Tactic.Linarith
import Mathlib.Tactic.Positivity
import Mathlib.Data.Rat.Cast.Order
import Mathlib.Algebra.BigOperators.Pi
/- Property theorems C12, C13, C80, C81 (src/stats.rs). -/
namespace Verif.Stats
open Finset

theorem bump_channels (n : Nat) (pix : Nat → Nat) (hist : Hist) (h : ∀ i, i < n → pix i < 256) :
    forRange 0 n hist (fun i hist => bump hist i (pix i)) =
      some fun a b => hist a b + if a < n ∧ pix a = b then 1 else 0 := by
  obtain ⟨s, e, hI⟩ := forRange_spec (f := fun i hist => bump hist i (pix i)) (s := hist)
    (fun k s => s = fun a b => hist a b + if a < k ∧ pix a = b then 1 else 0) (Nat.zero_le n)
    (by simp)
    (by
      intro i s _ hi hs
      refine ⟨_, by rw [bump, if_pos (h i hi)], ?_⟩
      subst hs
      funext a b
      by_cases hab : a = i ∧ b = pix i
      · obtain ⟨rfl, rfl⟩ := hab
        simp
      · rw [if_neg hab]
        dsimp only
        congr 1
        rcases eq_or_ne a i with rfl | ha <;> split_ifs <;> omega)
  rw [e, hI]

theorem histogram_eq (n : Nat) (im : Image (Nat → Nat)) (h : Is8c n im) :
    histogram n im = some fun a b =>
      ((allPx im.w im.h).filter fun p => a < n ∧ im.px p.1 p.2 a = b).card := by
  unfold histogram
  rw [raster_sum (fun x y a b => if a < n ∧ im.px x y a = b then 1 else 0)]
  · congr 1
    funext a b
    simp [Finset.sum_apply, Finset.card_filter]
  · intro x y s hx hy
    rw [Image.get_of_inB hx hy, Option.bind_some, bump_channels _ _ _ (fun i => h x y i hx hy)]
    rfl

/-- C12: histograms exist for every 8-bit image with any number of channels and bin `v` of
channel `c` counts the pixels whose channel `c` is `v`. -/
theorem C12_histogram (n : Nat) (im : Image (Nat → Nat)) (h : Is8c n im) :
    ∃ hist, histogram n im = some hist ∧
      ∀ c v, c < n → hist c v = countPx im (fun pix => pix c = v) := by
  refine ⟨_, histogram_eq n im h, ?_⟩
  intro c v hc
  simp [countPx, hc]

/-- C12: the 256 bins of a channel add up to the number of pixels. -/
theorem C12_histogram_total (n : Nat) (im : Image (Nat → Nat)) (h : Is8c n im) :
    ∃ hist, histogram n im = some hist ∧
      ∀ c, c < n → ∑ v ∈ range 256, hist c v = im.w * im.h := by
  refine ⟨_, histogram_eq n im h, ?_⟩
  intro c hc
  simp only [hc, true_and]
  rw [← Finset.card_eq_sum_card_fiberwise]
  · simp [allPx]
  · intro p hp
    have := mem_allPx.1 hp
    simpa using h p.1 p.2 c this.1 this.2 hc

theorem cum_row (hist : Hist) (c : Nat) :
    forRange 1 256 hist (fun i hist =>
      some fun a b => if a = c ∧ b = i then hist c i + hist c (i - 1) else hist a b) =
    some fun a b => if a = c ∧ b < 256 then ∑ v ∈ range (b + 1), hist c v else hist a b := by
  obtain ⟨s, e, hI⟩ := forRange_spec (lo := 1) (hi := 256) (s := hist) (f := fun i hist =>
      some fun a b => if a = c ∧ b = i then hist c i + hist c (i - 1) else hist a b)
    (fun k s => s = fun a b =>
      if a = c ∧ b < k then ∑ v ∈ range (b + 1), hist c v else hist a b) (by omega)
    (by
      funext a b
      split_ifs with hab
      · obtain ⟨rfl, hb⟩ := hab
        rw [show b = 0 by omega]; simp
      · rfl)
    (by
      intro i s h1 h2 hs
      refine ⟨_, rfl, ?_⟩
      subst hs
      funext a b
      dsimp only
      by_cases hab : a = c ∧ b = i
      · obtain ⟨rfl, rfl⟩ := hab
        rw [if_pos ⟨rfl, rfl⟩, if_neg (by omega), if_pos ⟨rfl, by omega⟩, if_pos ⟨rfl, by omega⟩,
          show b - 1 + 1 = b by omega, sum_range_succ _ b, Nat.add_comm]
      · rw [if_neg hab]
        by_cases h3 : a = c ∧ b < i
        · rw [if_pos h3, if_pos ⟨h3.1, by omega⟩]
        · rw [if_neg h3, if_neg (by omega)])
  rw [e, hI]

theorem cumulative_eq (n : Nat) (im : Image (Nat → Nat)) (h : Is8c n im) :
    ∃ cum, cumulativeHistogram n im = some cum ∧ ∀ c v, c < n → v < 256 →
      cum c v = countPx im (fun pix => pix c ≤ v) := by
  obtain ⟨hist, e, hh⟩ := C12_histogram n im h
  unfold cumulativeHistogram
  rw [e, Option.bind_some]
  simp only [cum_row]
  obtain ⟨s, e2, hI⟩ := forRange_spec (lo := 0) (hi := n) (s := hist) (f := fun c hist =>
      some fun a b => if a = c ∧ b < 256 then ∑ v ∈ range (b + 1), hist c v else hist a b)
    (fun k s => ∀ a b, s a b =
      if a < k ∧ b < 256 then ∑ v ∈ range (b + 1), hist a v else hist a b) (by omega)
    (by intro a b; simp)
    (by
      intro c s _ hc hs
      refine ⟨_, rfl, ?_⟩
      intro a b
      by_cases h1 : a = c ∧ b < 256
      · obtain ⟨rfl, hb⟩ := h1
        rw [if_pos ⟨rfl, hb⟩, if_pos ⟨by omega, hb⟩]
        refine sum_congr rfl fun v _ => ?_
        rw [hs, if_neg (by omega)]
      · rw [if_neg h1, hs]
        by_cases h3 : a < c ∧ b < 256
        · rw [if_pos h3, if_pos ⟨by omega, h3.2⟩]
        · rw [if_neg h3, if_neg (by omega)])
  refine ⟨s, e2, ?_⟩
  intro c v hc hv
  rw [hI, if_pos ⟨hc, hv⟩]
  simp only [hh c _ hc]
  unfold countPx
  rw [Finset.card_eq_sum_card_fiberwise (f := fun p => im.px p.1 p.2 c) (t := range (v + 1))]
  · refine sum_congr rfl fun u hu => ?_
    congr 1
    ext p
    simp only [mem_filter, mem_range] at *
    constructor
    · rintro ⟨a, b⟩; exact ⟨⟨a, by omega⟩, b⟩
    · rintro ⟨⟨a, _⟩, b⟩; exact ⟨a, b⟩
  · intro p hp
    have := (mem_filter.1 hp).2
    simp only [coe_range, Set.mem_Iio]
    omega

/-- C12: bin `v` of channel `c` of the cumulative histogram counts the pixels whose channel `c`
is at most `v`. -/
theorem C12_cumulative_histogram (n : Nat) (im : Image (Nat → Nat)) (h : Is8c n im) :
    ∃ cum, cumulativeHistogram n im = some cum ∧ ∀ c v, c < n → v < 256 →
      cum c v = countPx im (fun pix => pix c ≤ v) := cumulative_eq n im h

example : (histogram 2 (Image.ofRows (fun _ => 0)
    [[fun c => c, fun _ => 1, fun c => 3 * c]])).map (fun h => [h 0 0, h 0 1, h 1 1, h 1 3]) =
    some [2, 1, 2, 1] := by decide

theorem firstIdx_some {ok : Nat → Bool} : ∀ {k i r}, firstIdx ok k i = some r →
    i ≤ r ∧ r < i + k ∧ ok r = true ∧ ∀ j, i ≤ j → j < r → ok j = false
  | 0, i, r, h => by simp [firstIdx] at h
  | k + 1, i, r, h => by
    unfold firstIdx at h
    by_cases hi : ok i = true
    · rw [if_pos hi] at h
      cases h
      exact ⟨by omega, by omega, hi, fun j _ _ => by omega⟩
    · rw [if_neg hi] at h
      obtain ⟨a, b, c, d⟩ := firstIdx_some h
      refine ⟨by omega, by omega, c, ?_⟩
      intro j h1 h2
      by_cases hj : j = i
      · subst hj; simpa using hi
      · exact d j (by omega) h2

theorem firstIdx_none {ok : Nat → Bool} : ∀ {k i}, firstIdx ok k i = none →
    ∀ j, i ≤ j → j < i + k → ok j = false
  | 0, i, _ => by intro j; omega
  | k + 1, i, h => by
    unfold firstIdx at h
    by_cases hi : ok i = true
    · rw [if_pos hi] at h; cases h
    · rw [if_neg hi] at h
      intro j h1 h2
      by_cases hj : j = i
      · subst hj; simpa using hi
      · exact firstIdx_none h j (by omega) (by omega)

theorem is8c_gray {im : Image Nat} (h : Is8 im) : Is8c 1 (gray im) :=
  fun x y _ hx hy _ => h x y hx hy

theorem countPx_gray (im : Image Nat) (P : Nat → Prop) [DecidablePred P] :
    countPx (gray im) (fun pix => P (pix 0)) = countPx im P := rfl

theorem countPx_le {α : Type _} (im : Image α) (P : α → Prop) [DecidablePred P] :
    countPx im P ≤ im.w * im.h := by
  refine (card_filter_le _ _).trans ?_
  simp [allPx]

theorem countPx_all {α : Type _} (im : Image α) (P : α → Prop) [DecidablePred P]
    (h : ∀ x y, x < im.w → y < im.h → P (im.px x y)) : countPx im P = im.w * im.h := by
  unfold countPx
  rw [filter_true_of_mem]
  · simp [allPx]
  · intro p hp
    have := mem_allPx.1 hp
    exact h _ _ this.1 this.2

/-- C13: for a non-empty image and `p ≤ 100` the percentile exists and is the least intensity
`r` such that at least `p` percent of the pixels are `≤ r`. -/
theorem C13_percentile (im : Image Nat) (h8 : Is8 im) (hw : 0 < im.w) (hh : 0 < im.h)
    (p : Nat) (hp : p ≤ 100) :
    ∃ r, percentile im p = some r ∧ r < 256 ∧
      p * (im.w * im.h) ≤ 100 * countPx im (· ≤ r) ∧
      ∀ v, v < r → ¬ p * (im.w * im.h) ≤ 100 * countPx im (· ≤ v) := by
  obtain ⟨cum, e, hc⟩ := C12_cumulative_histogram 1 (gray im) (is8c_gray h8)
  have hc' : ∀ v, v < 256 → cum 0 v = countPx im (· ≤ v) := fun v hv => hc 0 v (by omega) hv
  have ht : cum 0 255 = im.w * im.h := by
    rw [hc' 255 (by omega)]
    exact countPx_all im _ fun x y hx hy => by have := h8 x y hx hy; omega
  have hpos : 0 < im.w * im.h := Nat.mul_pos hw hh
  unfold percentile
  rw [if_pos hp, e, Option.bind_some]
  dsimp only
  rw [ht, if_neg (by omega)]
  have hok : ∀ v, v < 256 → (decide (p ≤ 100 * cum 0 v / (im.w * im.h)) = true ↔
      p * (im.w * im.h) ≤ 100 * countPx im (· ≤ v)) := by
    intro v hv
    rw [decide_eq_true_eq, hc' v hv, Nat.le_div_iff_mul_le hpos]
  cases hf : firstIdx (fun i => decide (p ≤ 100 * cum 0 i / (im.w * im.h))) 256 0 with
  | none =>
    have := firstIdx_none hf 255 (by omega) (by omega)
    have h2 : ¬ p * (im.w * im.h) ≤ 100 * countPx im (· ≤ 255) := by
      rw [← hok 255 (by omega)]; simpa using this
    exfalso
    apply h2
    rw [← hc' 255 (by omega), ht]
    exact Nat.mul_le_mul_right _ hp
  | some r =>
    obtain ⟨_, b, c, d⟩ := firstIdx_some hf
    refine ⟨r, rfl, by omega, (hok r (by omega)).1 c, ?_⟩
    intro v hv
    rw [← hok v (by omega)]
    simpa using d v (by omega) hv

/-- C13: the percentile is monotone in `p`. -/
theorem C13_monotone (im : Image Nat) (h8 : Is8 im) (hw : 0 < im.w) (hh : 0 < im.h)
    (p q r s : Nat) (hpq : p ≤ q) (hr : percentile im p = some r) (hs : percentile im q = some s) :
    r ≤ s := by
  have hq : q ≤ 100 := by
    by_contra hc; unfold percentile at hs; rw [if_neg hc] at hs; cases hs
  obtain ⟨r', e1, _, _, l1⟩ := C13_percentile im h8 hw hh p (by omega)
  obtain ⟨s', e2, _, g2, _⟩ := C13_percentile im h8 hw hh q hq
  rw [hr] at e1; rw [hs] at e2; cases e1; cases e2
  by_contra hc
  exact l1 s (by omega) ((Nat.mul_le_mul_right _ hpq).trans g2)

/-- C13: percentiles above 100 are rejected, and so is the empty image. -/
theorem C13_rejects (im : Image Nat) (h8 : Is8 im) (p : Nat)
    (h : 100 < p ∨ im.w = 0 ∨ im.h = 0) : percentile im p = none := by
  unfold percentile
  by_cases hp : p ≤ 100
  · rw [if_pos hp]
    obtain ⟨cum, e, hc⟩ := C12_cumulative_histogram 1 (gray im) (is8c_gray h8)
    rw [e, Option.bind_some]
    have := hc 0 255 (by omega) (by omega)
    have h0 : cum 0 255 = 0 := by
      have hle := countPx_le (gray im) (fun pix => pix 0 ≤ 255)
      have : (gray im).w * (gray im).h = 0 := by
        show im.w * im.h = 0
        rcases h with h | h | h
        · omega
        · rw [h]; simp
        · rw [h]; simp
      omega
    simp [h0]
  · rw [if_neg hp]

example : percentile (Image.ofRows 0 [[1, 2, 3, 4, 5], [6, 7, 8, 9, 10]]) 15 = some 2 := by
  decide +kernel
example : percentile (Image.ofRows 0 [[1, 2, 3], [6, 7, 8]]) 50 = some 3 := by decide +kernel

/-- One channel update of `min_max`. -/
theorem minMax_pixel (n : Nat) (pix : Nat → Int) (r : Nat → Option Int × Option Int) :
    ∃ r', (forRange 0 n r fun i r =>
      let c := pix i
      let mn := match (r i).1 with
        | none => some c
        | some v => if c < v then some c else some v
      let mx := match (r i).2 with
        | none => some c
        | some v => if v < c then some c else some v
      some fun j => if j = i then (mn, mx) else r j) = some r' ∧
      ∀ j, r' j = if j < n then
        (some (match (r j).1 with | none => pix j | some v => min (pix j) v),
         some (match (r j).2 with | none => pix j | some v => max (pix j) v)) else r j := by
  refine forRange_spec (fun k (s : Nat → Option Int × Option Int) => ∀ j, s j = if j < k then
        (some (match (r j).1 with | none => pix j | some v => min (pix j) v),
         some (match (r j).2 with | none => pix j | some v => max (pix j) v)) else r j)
    (Nat.zero_le n) (by simp) ?_
  intro i s _ hi hs
  refine ⟨_, rfl, ?_⟩
  intro j
  by_cases hj : j = i
  · subst hj
    have := hs j
    rw [if_neg (by omega)] at this
    rw [if_pos rfl, if_pos (by omega), this]
    congr 1
    · cases (r j).1 with
      | none => rfl
      | some v =>
        dsimp only
        split_ifs with h
        · rw [min_eq_left h.le]
        · rw [min_eq_right (not_lt.1 h)]
    · cases (r j).2 with
      | none => rfl
      | some v =>
        dsimp only
        split_ifs with h
        · rw [max_eq_left h.le]
        · rw [max_eq_right (not_lt.1 h)]
  · rw [if_neg hj, hs]
    split_ifs <;> first | rfl | omega

/-- C80: for a non-empty image `min_max` returns, per channel, an attained lower bound and an
attained upper bound of the samples; the empty image is rejected. -/
theorem C80_min_max (n : Nat) (im : Image (Nat → Int)) (hw : 0 < im.w) (hh : 0 < im.h) :
    ∃ r, minMax n im = some r ∧ ∀ c, c < n → ∃ lo hi, r c = (some lo, some hi) ∧
      (∀ x y, x < im.w → y < im.h → lo ≤ im.px x y c ∧ im.px x y c ≤ hi) ∧
      (∃ x y, x < im.w ∧ y < im.h ∧ im.px x y c = lo) ∧
      (∃ x y, x < im.w ∧ y < im.h ∧ im.px x y c = hi) := by
  unfold minMax
  rw [if_neg (by omega)]
  obtain ⟨r, e, hI⟩ := raster_spec (w := im.w) (h := im.h) (s := fun _ => (none, none))
    (f := fun x y r => (im.get x y).bind fun pix => forRange 0 n r fun i r =>
      let c := pix i
      let mn := match (r i).1 with
        | none => some c
        | some v => if c < v then some c else some v
      let mx := match (r i).2 with
        | none => some c
        | some v => if v < c then some c else some v
      some fun j => if j = i then (mn, mx) else r j)
    (fun S r => (∀ p ∈ S, p.1 < im.w ∧ p.2 < im.h) ∧ ∀ c, c < n →
      (S = ∅ ∧ r c = (none, none)) ∨ ∃ lo hi, r c = (some lo, some hi) ∧
      (∀ p ∈ S, lo ≤ im.px p.1 p.2 c ∧ im.px p.1 p.2 c ≤ hi) ∧
      (∃ p ∈ S, im.px p.1 p.2 c = lo) ∧ (∃ p ∈ S, im.px p.1 p.2 c = hi))
    ⟨by simp, fun c _ => Or.inl ⟨rfl, rfl⟩⟩
    (by
      rintro x y S r hx hy hn ⟨hS, hI⟩
      rw [Image.get_of_inB hx hy, Option.bind_some]
      obtain ⟨r', e, hr'⟩ := minMax_pixel n (im.px x y) r
      refine ⟨r', e, ?_, ?_⟩
      · intro p hp
        rcases mem_insert.1 hp with rfl | hp
        · exact ⟨hx, hy⟩
        · exact hS p hp
      · intro c hc
        right
        rw [hr' c, if_pos hc]
        rcases hI c hc with ⟨rfl, h0⟩ | ⟨lo, hi, h0, hb, ⟨p, hp, hl⟩, ⟨q, hq, hu⟩⟩
        · rw [h0]
          exact ⟨_, _, rfl, by simp, ⟨(x, y), by simp⟩, ⟨(x, y), by simp⟩⟩
        · rw [h0]
          refine ⟨_, _, rfl, ?_, ?_, ?_⟩
          · intro p hp
            rcases mem_insert.1 hp with rfl | hp
            · exact ⟨min_le_left _ _, le_max_left _ _⟩
            · have := hb p hp
              exact ⟨(min_le_right _ _).trans this.1, this.2.trans (le_max_right _ _)⟩
          · dsimp only
            rcases Int.le_total (im.px x y c) lo with hle | hle
            · exact ⟨(x, y), by simp, (min_eq_left hle).symm⟩
            · exact ⟨p, by simp [hp], hl.trans (min_eq_right hle).symm⟩
          · dsimp only
            rcases Int.le_total (im.px x y c) hi with hle | hle
            · exact ⟨q, by simp [hq], hu.trans (max_eq_right hle).symm⟩
            · exact ⟨(x, y), by simp, (max_eq_left hle).symm⟩)
  refine ⟨r, e, ?_⟩
  intro c hc
  rcases hI.2 c hc with ⟨h0, _⟩ | ⟨lo, hi, h0, hb, ⟨p, hp, hl⟩, ⟨q, hq, hu⟩⟩
  · have : (0, 0) ∈ allPx im.w im.h := mem_allPx.2 ⟨hw, hh⟩
    rw [h0] at this; simp at this
  · have hp := mem_allPx.1 hp
    have hq := mem_allPx.1 hq
    exact ⟨lo, hi, h0, fun x y hx hy => hb (x, y) (mem_allPx.2 ⟨hx, hy⟩),
      ⟨p.1, p.2, hp.1, hp.2, hl⟩, ⟨q.1, q.2, hq.1, hq.2, hu⟩⟩

/-- C80: the empty image is rejected. -/
theorem C80_empty (n : Nat) (im : Image (Nat → Int)) (h : im.w = 0 ∨ im.h = 0) :
    minMax n im = none := by simp [minMax, h]

example : (minMax 1 (Image.ofRows (fun _ => 0) [[fun _ => 3, fun _ => -2], [fun _ => 7, fun _ => 1]])).map
    (fun r => r 0) = some (some (-2), some 7) := by decide

theorem mse_eq (n : Nat) (a b : Image (Nat → ℚ)) (hw : a.w = b.w) (hh : a.h = b.h) :
    meanSquaredError n a b = some ((∑ p ∈ allPx a.w a.h, ∑ c ∈ range n,
      (a.px p.1 p.2 c - b.px p.1 p.2 c) ^ 2) / ((a.w * a.h * n : Nat) : ℚ)) := by
  unfold meanSquaredError
  rw [if_pos ⟨hw, hh⟩, raster_sum
    (fun x y => ∑ c ∈ range n, (a.px x y c - b.px x y c) ^ 2)]
  · simp
  · intro x y s hx hy
    rw [Image.get_of_inB hx hy, Image.get_of_inB (hw ▸ hx) (hh ▸ hy)]
    simp only [Option.bind_some]
    obtain ⟨t, e, hI⟩ := forRange_spec (lo := 0) (hi := n) (s := s)
      (f := fun i s => some (s + (a.px x y i - b.px x y i) * (a.px x y i - b.px x y i)))
      (fun k t => t = s + ∑ c ∈ range k, (a.px x y c - b.px x y c) ^ 2) (by omega) (by simp)
      (by
        intro i t _ _ ht
        refine ⟨_, rfl, ?_⟩
        rw [ht, sum_range_succ]; ring)
    rw [e, hI]

/-- C81: the mean squared error of two images of the same size is the average of the squared
sample differences; different sizes are rejected. -/
theorem C81_mean_squared_error (n : Nat) (a b : Image (Nat → ℚ)) :
    meanSquaredError n a b = if a.w = b.w ∧ a.h = b.h then
      some ((∑ y ∈ range a.h, ∑ x ∈ range a.w, ∑ c ∈ range n, (a.px x y c - b.px x y c) ^ 2) /
        ((a.w * a.h * n : Nat) : ℚ)) else none := by
  by_cases h : a.w = b.w ∧ a.h = b.h
  · rw [if_pos h, mse_eq n a b h.1 h.2,
      sum_allPx a.w a.h (fun x y => ∑ c ∈ range n, (a.px x y c - b.px x y c) ^ 2)]
  · rw [if_neg h, meanSquaredError, if_neg h]

/-- C81: it is symmetric. -/
theorem C81_symmetric (n : Nat) (a b : Image (Nat → ℚ)) :
    meanSquaredError n a b = meanSquaredError n b a := by
  by_cases h : a.w = b.w ∧ a.h = b.h
  · rw [mse_eq n a b h.1 h.2, mse_eq n b a h.1.symm h.2.symm, h.1, h.2]
    congr 2
    exact sum_congr rfl fun p _ => sum_congr rfl fun c _ => by ring
  · rw [meanSquaredError, if_neg h, meanSquaredError, if_neg (fun g => h ⟨g.1.symm, g.2.symm⟩)]

/-- C81: it is non-negative, and zero exactly for images equal in every sample. -/
theorem C81_zero_iff_equal (n : Nat) (a b : Image (Nat → ℚ)) (hw : a.w = b.w) (hh : a.h = b.h)
    (h1 : 0 < a.w) (h2 : 0 < a.h) (hn : 0 < n) :
    ∃ v, meanSquaredError n a b = some v ∧ 0 ≤ v ∧
      (v = 0 ↔ ∀ x y c, x < a.w → y < a.h → c < n → a.px x y c = b.px x y c) := by
  refine ⟨_, mse_eq n a b hw hh, by positivity, ?_⟩
  have hne : ((a.w * a.h * n : Nat) : ℚ) ≠ 0 := by
    have : 0 < a.w * a.h * n := Nat.mul_pos (Nat.mul_pos h1 h2) hn
    exact_mod_cast this.ne'
  rw [div_eq_zero_iff, or_iff_left hne,
    sum_eq_zero_iff_of_nonneg (fun p _ => sum_nonneg fun c _ => by positivity)]
  constructor
  · intro h x y c hx hy hc
    have := h (x, y) (mem_allPx.2 ⟨hx, hy⟩)
    rw [sum_eq_zero_iff_of_nonneg (fun c _ => by positivity)] at this
    have := this c (by simpa using hc)
    exact sub_eq_zero.1 (pow_eq_zero_iff (by norm_num) |>.1 this)
  · intro h p hp
    have := mem_allPx.1 hp
    refine sum_eq_zero fun c hc => ?_
    rw [h p.1 p.2 c this.1 this.2 (by simpa using hc)]; simp

example : meanSquaredError 1 (Image.ofRows (fun _ => 0) [[fun _ => 1, fun _ => 2]])
    (Image.ofRows (fun _ => 0) [[fun _ => 4, fun _ => 3]]) = some 5 := by
  rw [C81_mean_squared_error]
  norm_num [Image.ofRows, sum_range_succ]

end Verif.Stats
