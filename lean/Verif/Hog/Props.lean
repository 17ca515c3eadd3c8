import Verif.Hog.Histogram
import Mathlib.Analysis.SpecialFunctions.Complex.Arg
import Mathlib.Algebra.Order.Floor.Ring
import Mathlib.Tactic.Positivity
import Mathlib.Tactic.FieldSimp
/-
Property theorems C77 and C91 for the whole descriptor.
-/
namespace Verif.Hog
open Verif.ImageHash Finset

set_option linter.unusedSectionVars false

variable {K : Type _} [Field K] [LinearOrder K] [IsStrictOrderedRing K] [FloorSemiring K]

theorem hat_nonneg (t : K) : 0 ≤ hat t := le_max_left _ _

theorem circHat_nonneg (n : Nat) (p : K) (a : Nat) : 0 ≤ circHat n p a := by
  unfold circHat
  split
  · exact add_nonneg (hat_nonneg _) (hat_nonneg _)
  · rw [add_zero]; exact hat_nonneg _

/-- C91: non-negative magnitudes give non-negative histograms. -/
theorem C91_nonneg (w h : Nat) (m pos : Nat → Nat → K) (s : Spec)
    (hm : ∀ x y, x < w → y < h → 0 ≤ m x y) (a cx cy : Nat) :
    0 ≤ histSpec w h m pos s a cx cy := by
  unfold histSpec
  apply sum_nonneg
  intro p hp
  rw [mem_allPx] at hp
  exact div_nonneg (mul_nonneg (mul_nonneg (mul_nonneg (hat_nonneg _) (hat_nonneg _))
    (circHat_nonneg _ _ _)) (hm _ _ hp.1 hp.2)) (by positivity)

/-- The interpolation weights of the orientation bins sum to 1. -/
theorem sum_circHat (p : K) (hp : 0 ≤ p) {n : Nat} (hn : p < n) :
    ∑ a ∈ range n, circHat n p a = 1 := by
  have hf : ⌊p⌋₊ < n := (Nat.floor_lt hp).mpr hn
  have : ∀ a ∈ range n, circHat n p a = ∑ i ∈ range 2,
      (if (fromPositionWrapping Nat.floor p n).idx i = a then
        (fromPositionWrapping Nat.floor p n).wt i else 0) := fun a ha =>
    (fromPositionWrapping_weight p hp hn (mem_range.mp ha)).symm
  rw [sum_congr rfl this, sum_comm]
  simp only [sum_range_succ, range_zero, sum_empty, zero_add, sum_ite_eq, Interp.idx, Interp.wt,
    fromPositionWrapping, if_true, one_ne_zero, if_false, mem_range]
  rw [if_pos hf, if_pos (by split <;> omega)]
  ring

/-- The interpolation weights of `n` cells never exceed 1, and are exactly 1 for positions up to
the last cell. -/
theorem sum_hat (p : K) (hp : 0 ≤ p) (n : Nat) :
    ∑ c ∈ range n, hat (p - c) ≤ 1 ∧ (p + 1 ≤ n → ∑ c ∈ range n, hat (p - c) = 1) := by
  have h1 := Nat.floor_le hp
  have h2 := Nat.lt_floor_add_one p
  have : ∀ c ∈ range n, hat (p - c) = ∑ i ∈ range 2,
      (if (fromPosition Nat.floor p).idx i = c then (fromPosition Nat.floor p).wt i else 0) :=
    fun c _ => (fromPosition_weight p hp c).symm
  rw [sum_congr rfl this, sum_comm]
  simp only [sum_range_succ, range_zero, sum_empty, zero_add, sum_ite_eq, Interp.idx, Interp.wt,
    fromPosition, if_true, one_ne_zero, if_false, mem_range]
  constructor
  · split <;> split <;> linarith
  · intro hn
    have hf : ⌊p⌋₊ < n := (Nat.floor_lt hp).mpr (by linarith)
    rw [if_pos hf]
    by_cases hf1 : ⌊p⌋₊ + 1 < n
    · rw [if_pos hf1]; ring
    · rw [if_neg hf1]
      have : n = ⌊p⌋₊ + 1 := by omega
      rw [this] at hn
      push_cast at hn
      linarith

/-- C91: the bins of a cell together hold the spatially weighted magnitudes, whatever the
directions: no part of a gradient is lost by binning its direction. -/
theorem C91_bins (w h : Nat) (m pos : Nat → Nat → K) (s : Spec)
    (hpos : ∀ x y, x < w → y < h → 0 ≤ pos x y ∧ pos x y < s.options.orientations) (cx cy : Nat) :
    ∑ a ∈ range s.options.orientations, histSpec w h m pos s a cx cy =
      ∑ p ∈ allPx w h, hat ((p.2 : K) / s.options.cellSide - cy) *
        hat ((p.1 : K) / s.options.cellSide - cx) * m p.1 p.2 /
        (s.options.cellSide * s.options.cellSide) := by
  unfold histSpec
  rw [sum_comm]
  apply sum_congr rfl
  intro p hp
  rw [mem_allPx] at hp
  obtain ⟨h0, h1⟩ := hpos p.1 p.2 hp.1 hp.2
  have := sum_circHat _ h0 h1
  calc _ = ∑ a ∈ range s.options.orientations, hat ((p.2 : K) / s.options.cellSide - cy) *
        hat ((p.1 : K) / s.options.cellSide - cx) * m p.1 p.2 /
        (s.options.cellSide * s.options.cellSide) *
        circHat s.options.orientations (pos p.1 p.2) a := by
        apply sum_congr rfl; intro a _; ring
    _ = _ := by rw [← mul_sum, this, mul_one]

/-- C91: the total over all cells and bins is at most the sum of the magnitudes per cell area, and
pixels left of and above the start of the last cell contribute in full (the votes of later pixels
for the cells beyond the border are dropped). -/
theorem C91_total (w h : Nat) (m pos : Nat → Nat → K) (s : Spec)
    (hc : 0 < s.options.cellSide)
    (hm : ∀ x y, x < w → y < h → 0 ≤ m x y)
    (hpos : ∀ x y, x < w → y < h → 0 ≤ pos x y ∧ pos x y < s.options.orientations) :
    ∑ cy ∈ range s.cellsHigh, ∑ cx ∈ range s.cellsWide, ∑ a ∈ range s.options.orientations,
      histSpec w h m pos s a cx cy ≤
        ∑ p ∈ allPx w h, m p.1 p.2 / (s.options.cellSide * s.options.cellSide) ∧
    ((∀ x y, x < w → y < h → m x y ≠ 0 →
      x ≤ (s.cellsWide - 1) * s.options.cellSide ∧ y ≤ (s.cellsHigh - 1) * s.options.cellSide ∧
      0 < s.cellsWide ∧ 0 < s.cellsHigh) →
      ∑ cy ∈ range s.cellsHigh, ∑ cx ∈ range s.cellsWide, ∑ a ∈ range s.options.orientations,
        histSpec w h m pos s a cx cy =
        ∑ p ∈ allPx w h, m p.1 p.2 / (s.options.cellSide * s.options.cellSide)) := by
  have hcK : (0 : K) < s.options.cellSide := Nat.cast_pos.mpr hc
  have e : ∑ cy ∈ range s.cellsHigh, ∑ cx ∈ range s.cellsWide, ∑ a ∈ range s.options.orientations,
      histSpec w h m pos s a cx cy =
      ∑ p ∈ allPx w h, (∑ cy ∈ range s.cellsHigh, hat ((p.2 : K) / s.options.cellSide - cy)) *
        (∑ cx ∈ range s.cellsWide, hat ((p.1 : K) / s.options.cellSide - cx)) *
        (m p.1 p.2 / (s.options.cellSide * s.options.cellSide)) := by
    have : ∀ cy ∈ range s.cellsHigh, ∑ cx ∈ range s.cellsWide,
        ∑ a ∈ range s.options.orientations, histSpec w h m pos s a cx cy =
        ∑ p ∈ allPx w h, hat ((p.2 : K) / s.options.cellSide - cy) *
        (∑ cx ∈ range s.cellsWide, hat ((p.1 : K) / s.options.cellSide - cx)) *
        (m p.1 p.2 / (s.options.cellSide * s.options.cellSide)) := by
      intro cy _
      rw [sum_congr rfl fun cx _ => C91_bins w h m pos s hpos cx cy, sum_comm]
      apply sum_congr rfl
      intro p _
      rw [mul_sum, sum_mul]
      apply sum_congr rfl
      intro cx _
      ring
    rw [sum_congr rfl this, sum_comm]
    apply sum_congr rfl
    intro p _
    rw [sum_mul, sum_mul]
  rw [e]
  constructor
  · apply sum_le_sum
    intro p hp
    rw [mem_allPx] at hp
    have a1 := (sum_hat ((p.2 : K) / s.options.cellSide) (by positivity) s.cellsHigh).1
    have a2 := (sum_hat ((p.1 : K) / s.options.cellSide) (by positivity) s.cellsWide).1
    have a3 : 0 ≤ ∑ cx ∈ range s.cellsWide, hat ((p.1 : K) / s.options.cellSide - cx) :=
      sum_nonneg fun _ _ => hat_nonneg _
    have a4 : 0 ≤ m p.1 p.2 / (s.options.cellSide * s.options.cellSide : K) :=
      div_nonneg (hm _ _ hp.1 hp.2) (by positivity)
    exact mul_le_of_le_one_left a4 (mul_le_one₀ a1 a3 a2)
  · intro hin
    apply sum_congr rfl
    intro p hp
    rw [mem_allPx] at hp
    by_cases hz : m p.1 p.2 = 0
    · rw [hz]; simp
    · obtain ⟨b1, b2, b3, b4⟩ := hin p.1 p.2 hp.1 hp.2 hz
      have key : ∀ x n : Nat, 0 < n → x ≤ (n - 1) * s.options.cellSide →
          (x : K) / s.options.cellSide + 1 ≤ n := by
        intro x n hn hx
        have : (x : K) ≤ ((n - 1 : ℕ) : K) * s.options.cellSide := by exact_mod_cast hx
        rw [← div_le_iff₀ hcK, Nat.cast_sub hn] at this
        push_cast at this
        linarith
      rw [(sum_hat ((p.2 : K) / s.options.cellSide) (by positivity) s.cellsHigh).2 (key _ _ b4 b2),
        (sum_hat ((p.1 : K) / s.options.cellSide) (by positivity) s.cellsWide).2 (key _ _ b3 b1)]
      ring

/-- C91: directions are folded into the half-open range by a whole number of turns (signed) or half
turns (unsigned); so unsigned histograms do not distinguish opposite gradients. -/
theorem C91_direction (pi d : K) (signed : Bool) (hpi : 0 < pi) (h1 : -pi ≤ d) (h2 : d ≤ pi) :
    0 ≤ foldDirection pi signed d ∧ foldDirection pi signed d < directionRange pi signed ∧
    ∃ k : ℤ, foldDirection pi signed d = d + k * directionRange pi signed := by
  cases signed
  · simp only [foldDirection, directionRange, Bool.false_eq_true, if_false, Bool.not_false, true_and]
    by_cases hd : d < 0
    · rw [if_pos hd, if_neg (by linarith)]
      exact ⟨by linarith, by linarith, 1, by push_cast; ring⟩
    · rw [if_neg hd]
      by_cases hp : pi ≤ d
      · rw [if_pos hp]
        exact ⟨by linarith, by linarith, -1, by push_cast; ring⟩
      · rw [if_neg hp]
        exact ⟨by linarith, by linarith, 0, by push_cast; ring⟩
  · simp only [foldDirection, directionRange, if_true, Bool.not_true, Bool.false_eq_true, false_and,
      if_false]
    by_cases hd : d < 0
    · rw [if_pos hd]
      exact ⟨by linarith, by linarith, 1, by push_cast; ring⟩
    · rw [if_neg hd]
      exact ⟨by linarith, by linarith, 0, by push_cast; ring⟩

/-- The position of a folded direction on the circle of bins. -/
theorem position_range (pi d : K) (signed : Bool) (hpi : 0 < pi) (h1 : -pi ≤ d) (h2 : d ≤ pi)
    {n : Nat} (hn : 0 < n) :
    0 ≤ foldDirection pi signed d / (directionRange pi signed / (n : K)) ∧
    foldDirection pi signed d / (directionRange pi signed / (n : K)) < n := by
  obtain ⟨a, b, -⟩ := C91_direction pi d signed hpi h1 h2
  have hnK : (0 : K) < n := Nat.cast_pos.mpr hn
  have hr : 0 < directionRange pi signed := lt_of_le_of_lt a b
  refine ⟨by positivity, ?_⟩
  rw [div_lt_iff₀ (by positivity), mul_div_cancel₀ _ hnK.ne']
  exact b

/-- C77 (partial: only for fitting options): with at least one orientation bin, the descriptor of an
image is produced without panic and has exactly the announced length; its blocks are the normalised
trilinear histograms. -/
theorem C77_hog_partial (norm : List K → K) (pi : K) (hpi : 0 < pi) {w h : Nat} {o : Options}
    (m d : Nat → Nat → K) (hd : ∀ x y, x < w → y < h → -pi ≤ d x y ∧ d x y ≤ pi)
    (hf : Fits w h o) (ho : 0 < o.orientations) :
    ∃ spec desc, fromOptions w h o = some (.ok spec) ∧
      hog Nat.floor norm pi w h m d o = some (.ok desc) ∧ desc.length = spec.descriptorLength ∧
      ∀ bx by_, bx < spec.blocksWide → by_ < spec.blocksHigh →
        slice desc (spec.blockDescriptorLength * (bx + spec.blocksWide * by_))
          spec.blockDescriptorLength = some (normalise norm (blockVec spec
            (histSpec w h m (fun x y => foldDirection pi o.signed (d x y) /
              (directionRange pi o.signed / (o.orientations : K))) spec) bx by_)) := by
  obtain ⟨spec, hs⟩ := (C77_accept_iff w h o).mpr hf
  obtain ⟨rfl, -, -, -, v⟩ := C77_cover hs
  obtain ⟨grid, h1, h2⟩ := C91_histogram hs m
    (fun x y => foldDirection pi spec.options.signed (d x y) /
      (directionRange pi spec.options.signed / (spec.options.orientations : K)))
    (fun x y hx hy => position_range pi (d x y) _ hpi (hd x y hx hy).1 (hd x y hx hy).2 ho)
  obtain ⟨desc, h3, h4, h5⟩ := C77_layout norm v h2
  refine ⟨spec, desc, hs, ?_, h4, h5⟩
  unfold hog
  rw [hs, Option.bind_some]
  dsimp only
  rw [h1, Option.bind_some, h3, Option.bind_some]

theorem forRange_none_first {σ : Type _} {f : Nat → σ → Option σ} {n : Nat} {s : σ} (hn : 0 < n)
    (h : f 0 s = none) : Verif.forRange 0 n s f = none := by
  obtain ⟨k, rfl⟩ : ∃ k, n = k + 1 := ⟨n - 1, by omega⟩
  simp [forRange, forCount, h]

/-- C77: fitting options with zero orientation bins are accepted, but the descriptor computation of
any non-empty image then panics. -/
theorem C77_zero_orientations (norm : List K → K) (pi : K) {w h : Nat} {o : Options}
    (m d : Nat → Nat → K) (hf : Fits w h o) (ho : o.orientations = 0) (hw : 0 < w) (hh : 0 < h) :
    hog Nat.floor norm pi w h m d o = none := by
  obtain ⟨spec, hs⟩ := (C77_accept_iff w h o).mpr hf
  obtain ⟨rfl, hc, hcw, hch, -⟩ := C77_cover hs
  have hw0 : 0 < spec.cellsWide := Nat.pos_of_ne_zero fun e => by rw [e] at hcw; omega
  have hh0 : 0 < spec.cellsHigh := Nat.pos_of_ne_zero fun e => by rw [e] at hch; omega
  unfold hog
  rw [hs, Option.bind_some]
  dsimp only
  have : ∀ pos : Nat → Nat → K, cellHistograms Nat.floor w h m pos spec = none := by
    intro pos
    unfold cellHistograms forYX
    refine forRange_none_first hh (forRange_none_first hw ?_)
    dsimp only
    refine forRange_none_first (by omega) (forRange_none_first (by omega)
      (forRange_none_first (by omega) ?_))
    rw [if_pos]
    · simp [addAt, dataLength, Spec.cellGridLengths, ho]
    · simp [Interp.idx, fromPosition, Spec.cellGridLengths, hw0, hh0]
  rw [this]
  rfl

/-- C77 for the real-number instance: magnitudes and directions of arbitrary gradient responses
`gx`, `gy` (the Sobel responses of C76), `atan2` being the argument of `gx + i gy`. -/
theorem C77_hog_real {w h : Nat} {o : Options} (gx gy : Nat → Nat → Int) (hf : Fits w h o)
    (ho : 0 < o.orientations) :
    ∃ spec desc, fromOptions w h o = some (.ok spec) ∧
      hog Nat.floor l2Norm Real.pi w h
        (fun x y => Real.sqrt ((gx x y : ℝ) ^ 2 + (gy x y : ℝ) ^ 2))
        (fun x y => Complex.arg ⟨gx x y, gy x y⟩) o = some (.ok desc) ∧
      desc.length = spec.descriptorLength ∧
      ∀ bx by_, bx < spec.blocksWide → by_ < spec.blocksHigh → ∃ b,
        slice desc (spec.blockDescriptorLength * (bx + spec.blocksWide * by_))
          spec.blockDescriptorLength = some b ∧
          ((b.map fun x => x * x).sum = 1 ∨ ∀ x ∈ b, x = 0) := by
  obtain ⟨spec, desc, h1, h2, h3, h4⟩ := C77_hog_partial l2Norm Real.pi Real.pi_pos
    (fun x y => Real.sqrt ((gx x y : ℝ) ^ 2 + (gy x y : ℝ) ^ 2))
    (fun x y => Complex.arg ⟨gx x y, gy x y⟩)
    (fun x y _ _ => ⟨(Complex.neg_pi_lt_arg _).le, Complex.arg_le_pi _⟩) hf ho
  exact ⟨spec, desc, h1, h2, h3, fun bx by_ hbx hby => ⟨_, h4 bx by_ hbx hby, normalise_unit _⟩⟩

/-- A 4 × 2 image with cells of side 2 and four orientations: pixel (1, 0), magnitude 8, position 3.5:
half of its vote goes to cell (0, 0) and half to cell (1, 0), each split between bins 3 and 0. -/
example : cellHistograms (K := ℚ) Nat.floor 4 2
    (fun x y => if x = 1 ∧ y = 0 then 8 else 0) (fun _ _ => 7 / 2)
    ⟨⟨4, true, 2, 1, 1⟩, 2, 1, 2, 1⟩ = some [1/2, 0, 0, 1/2, 1/2, 0, 0, 1/2] := by decide +kernel
/-- The same pixel in the last column: the half vote for the cell beyond the border is dropped. -/
example : cellHistograms (K := ℚ) Nat.floor 4 2
    (fun x y => if x = 3 ∧ y = 0 then 8 else 0) (fun _ _ => 7 / 2)
    ⟨⟨4, true, 2, 1, 1⟩, 2, 1, 2, 1⟩ = some [0, 0, 0, 0, 1/2, 0, 0, 1/2] := by decide +kernel
example : foldDirection (K := ℚ) 3 false (-1) = 2 ∧ foldDirection (K := ℚ) 3 true (-1) = 5 ∧
    foldDirection (K := ℚ) 3 false 3 = 0 ∧ foldDirection (K := ℚ) 3 true 3 = 3 := by decide +kernel
example : Fits 30 30 ⟨8, true, 5, 2, 1⟩ := by constructor <;> decide

end Verif.Hog
