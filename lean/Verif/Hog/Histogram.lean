import Verif.Hog.Descriptor
import Verif.Basic.Raster
import Mathlib.Algebra.Order.Floor.Semiring
import Mathlib.Algebra.Order.BigOperators.Group.Finset
import Mathlib.Algebra.BigOperators.Ring.Finset
import Mathlib.Tactic.Linarith
/-
Property theorem C91: the cell histograms are the trilinear interpolation of the gradient
magnitudes.
-/
namespace Verif.Hog
open Verif.ImageHash Finset

set_option linter.unusedSectionVars false

variable {K : Type _} [Field K] [LinearOrder K] [IsStrictOrderedRing K] [FloorSemiring K]

/-- The hat function: 1 at 0, falling linearly to 0 at distance 1. -/
def hat (t : K) : K := max 0 (1 - |t|)

/-- The hat function around bin `a` on a circle of `n` bins, for positions in `[0, n)`. -/
def circHat (n : Nat) (p : K) (a : Nat) : K := hat (p - a) + if a = 0 then hat (p - n) else 0

/-- What the spec says cell `(cx, cy)` holds in bin `a`. -/
def histSpec (width height : Nat) (m pos : Nat → Nat → K) (s : Spec) (a cx cy : Nat) : K :=
  ∑ p ∈ allPx width height, hat ((p.2 : K) / s.options.cellSide - cy) *
    hat ((p.1 : K) / s.options.cellSide - cx) * circHat s.options.orientations (pos p.1 p.2) a *
    m p.1 p.2 / (s.options.cellSide * s.options.cellSide)

/-- Weights of the two interpolation indices that hit index `c`. -/
theorem fromPosition_weight (p : K) (hp : 0 ≤ p) (c : Nat) :
    ∑ i ∈ range 2, (if (fromPosition Nat.floor p).idx i = c then (fromPosition Nat.floor p).wt i
      else 0) = hat (p - c) := by
  have h1 := Nat.floor_le hp
  have h2 := Nat.lt_floor_add_one p
  simp only [sum_range_succ, range_zero, sum_empty, zero_add, Interp.idx, Interp.wt, fromPosition,
    if_true, one_ne_zero, if_false, hat]
  by_cases e0 : ⌊p⌋₊ = c
  · rw [if_pos e0, if_neg (by omega), add_zero, ← e0, abs_of_nonneg (by linarith),
      max_eq_right (by linarith)]
  · by_cases e1 : ⌊p⌋₊ + 1 = c
    · rw [if_neg e0, if_pos e1, zero_add, ← e1, Nat.cast_add, Nat.cast_one,
        abs_of_nonpos (by linarith), max_eq_right (by linarith)]
      ring
    · rw [if_neg e0, if_neg e1, add_zero, eq_comm, max_eq_left]
      rcases Nat.lt_or_gt_of_ne e0 with h | h
      · have : ((⌊p⌋₊ + 2 : ℕ) : K) ≤ c := Nat.cast_le.mpr (by omega)
        push_cast at this
        rw [abs_of_nonpos (by linarith)]
        linarith
      · have : ((c + 1 : ℕ) : K) ≤ ⌊p⌋₊ := Nat.cast_le.mpr (by omega)
        push_cast at this
        rw [abs_of_nonneg (by linarith)]
        linarith

/-- The same for the wrapping interpolation of orientations. -/
theorem fromPositionWrapping_weight (p : K) (hp : 0 ≤ p) {n : Nat} (hn : p < n) {a : Nat}
    (ha : a < n) :
    ∑ i ∈ range 2, (if (fromPositionWrapping Nat.floor p n).idx i = a then
      (fromPositionWrapping Nat.floor p n).wt i else 0) = circHat n p a := by
  have hf : ⌊p⌋₊ < n := (Nat.floor_lt hp).mpr hn
  have h1 := Nat.floor_le hp
  have h2 := Nat.lt_floor_add_one p
  have key := fromPosition_weight p hp
  simp only [sum_range_succ, range_zero, sum_empty, zero_add, Interp.idx, Interp.wt, fromPosition,
    fromPositionWrapping, if_true, one_ne_zero, if_false] at key ⊢
  unfold circHat
  rw [← key a]
  by_cases hr : ⌊p⌋₊ + 1 ≥ n
  · rw [if_pos hr, add_assoc]
    congr 1
    rw [if_neg (show ¬ ⌊p⌋₊ + 1 = a by omega), zero_add]
    have := key n
    rw [if_neg (by omega), if_pos (by omega), zero_add] at this
    rw [← this]
    exact if_congr eq_comm rfl rfl
  · rw [if_neg hr, add_assoc]
    congr 1
    have := key n
    rw [if_neg (by omega), if_neg (by omega), zero_add] at this
    rw [← this]
    simp

/-- Grid contents as a function, for a fixed spec. -/
def Adds (s : Spec) (f : List K → Option (List K)) (c : Nat → Nat → Nat → K) : Prop :=
  ∀ b grid, IsGrid s b grid → ∃ grid', f grid = some grid' ∧
    IsGrid s (fun a cx cy => b a cx cy + c a cx cy) grid'

theorem IsGrid.congr {s : Spec} {b b' : Nat → Nat → Nat → K} {grid : List K} (h : IsGrid s b grid)
    (he : ∀ a cx cy, a < s.options.orientations → cx < s.cellsWide → cy < s.cellsHigh →
      b a cx cy = b' a cx cy) : IsGrid s b' grid :=
  ⟨h.len, fun a cx cy ha hx hy => by rw [h.val a cx cy ha hx hy, he a cx cy ha hx hy]⟩

theorem Adds.congr {s : Spec} {f : List K → Option (List K)} {c c' : Nat → Nat → Nat → K}
    (h : Adds s f c) (he : ∀ a cx cy, a < s.options.orientations → cx < s.cellsWide →
      cy < s.cellsHigh → c a cx cy = c' a cx cy) : Adds s f c' := by
  intro b grid hg
  obtain ⟨g, h1, h2⟩ := h b grid hg
  exact ⟨g, h1, h2.congr fun a cx cy ha hx hy => by rw [he a cx cy ha hx hy]⟩

theorem Adds.forRange {s : Spec} {n : Nat} {f : Nat → List K → Option (List K)}
    {c : Nat → Nat → Nat → Nat → K} (h : ∀ i, i < n → Adds s (f i) (c i)) :
    Adds s (fun g => Verif.forRange 0 n g f) (fun a cx cy => ∑ i ∈ range n, c i a cx cy) := by
  intro b grid hg
  obtain ⟨g, h1, h2⟩ := forRange_spec (f := f) (s := grid)
    (fun k (g : List K) => IsGrid s (fun a cx cy => b a cx cy + ∑ i ∈ range k, c i a cx cy) g)
    (Nat.zero_le n) (by simpa using hg)
    (fun i g _ hi hI => by
      obtain ⟨g', h1, h2⟩ := h i hi _ g hI
      exact ⟨g', h1, h2.congr fun a cx cy _ _ _ => by rw [sum_range_succ, add_assoc]⟩)
  exact ⟨g, h1, h2⟩

theorem Adds.forYX {s : Spec} {w h : Nat} {f : Nat → Nat → List K → Option (List K)}
    {c : Nat → Nat → Nat → Nat → Nat → K}
    (hf : ∀ x y, x < w → y < h → Adds s (f x y) (c x y)) :
    Adds s (fun g => Verif.forYX 0 h 0 w g f)
      (fun a cx cy => ∑ p ∈ allPx w h, c p.1 p.2 a cx cy) := by
  intro b grid hg
  obtain ⟨g, h1, h2⟩ := raster_spec (f := f) (s := grid) (w := w) (h := h)
    (fun S (g : List K) => IsGrid s (fun a cx cy => b a cx cy + ∑ p ∈ S, c p.1 p.2 a cx cy) g)
    (by simpa using hg)
    (fun x y S g hx hy hS hI => by
      obtain ⟨g', h1, h2⟩ := hf x y hx hy _ g hI
      refine ⟨g', h1, h2.congr fun a cx cy _ _ _ => ?_⟩
      rw [sum_insert hS]
      ring)
  exact ⟨g, h1, h2⟩

theorem Adds.addAt {s : Spec} {a0 x0 y0 : Nat} (ha : a0 < s.options.orientations)
    (hx : x0 < s.cellsWide) (hy : y0 < s.cellsHigh) (v : K) :
    Adds s (fun g => Hog.addAt g (offset s.cellGridLengths a0 x0 y0) v)
      (fun a cx cy => if a0 = a ∧ x0 = cx ∧ y0 = cy then v else 0) := by
  intro b grid hg
  have hoff : offset s.cellGridLengths a0 x0 y0 =
      a0 + s.options.orientations * (x0 + s.cellsWide * y0) := by
    simp only [offset, Spec.cellGridLengths]; ring
  unfold Hog.addAt
  dsimp only
  rw [hoff, hg.val a0 x0 y0 ha hx hy, Option.bind_some]
  refine ⟨_, rfl, ?_, ?_⟩
  · rw [List.length_set, hg.len]
  · intro a cx cy ha' hx' hy'
    have hlt : a0 + s.options.orientations * (x0 + s.cellsWide * y0) < grid.length := by
      rw [hg.len]; exact idx_lt ha (idx_lt hx hy)
    rw [List.getElem?_set]
    by_cases he : a0 + s.options.orientations * (x0 + s.cellsWide * y0) =
        a + s.options.orientations * (cx + s.cellsWide * cy)
    · obtain ⟨rfl, he'⟩ := (idx_inj ha ha').mp he
      obtain ⟨rfl, rfl⟩ := (idx_inj hx hx').mp he'
      rw [if_pos rfl, if_pos hlt]
      simp
    · rw [if_neg he, hg.val a cx cy ha' hx' hy', if_neg, add_zero]
      rintro ⟨rfl, rfl, rfl⟩
      exact he rfl

/-- C91: the histogram of cell `(cx, cy)` holds in bin `a` the sum over all pixels of the gradient
magnitude per cell area, weighted by the hat functions of the pixel's distance to the cell (in cell
units, in both directions) and of its direction's distance to the bin on the circle of bins. -/
theorem C91_histogram {w h : Nat} {o : Options} {s : Spec}
    (hs : fromOptions w h o = some (.ok s)) (m pos : Nat → Nat → K)
    (hpos : ∀ x y, x < w → y < h → 0 ≤ pos x y ∧ pos x y < o.orientations) :
    ∃ grid, cellHistograms Nat.floor w h m pos s = some grid ∧
      IsGrid s (histSpec w h m pos s) grid := by
  obtain ⟨rfl, hc, -⟩ := C77_cover hs
  have hcK : (0 : K) < s.options.cellSide := Nat.cast_pos.mpr hc
  have h0 : IsGrid s (fun _ _ _ => (0 : K))
      (List.replicate (dataLength s.cellGridLengths) 0) := by
    refine ⟨?_, ?_⟩
    · simp only [List.length_replicate, dataLength, Spec.cellGridLengths]; ring
    · intro a cx cy ha hx hy
      have := idx_lt ha (idx_lt hx hy)
      rw [List.getElem?_replicate, if_pos]
      simp only [dataLength, Spec.cellGridLengths]
      calc _ < _ := this
        _ = _ := by ring
  have hpix : ∀ x y, x < w → y < h → Adds s (fun grid =>
      let yi := fromPosition Nat.floor ((y : K) / (s.options.cellSide : K))
      let xi := fromPosition Nat.floor ((x : K) / (s.options.cellSide : K))
      let oi := fromPositionWrapping Nat.floor (pos x y) s.options.orientations
      Verif.forRange 0 2 grid fun iy grid =>
      Verif.forRange 0 2 grid fun ix grid =>
      Verif.forRange 0 2 grid fun io grid =>
        if xi.idx ix < s.cellGridLengths.2.1 ∧ yi.idx iy < s.cellGridLengths.2.2 then
          Hog.addAt grid (offset s.cellGridLengths (oi.idx io) (xi.idx ix) (yi.idx iy))
            (yi.wt iy * xi.wt ix * oi.wt io * m x y / (s.cellArea : K))
        else some grid)
      (fun a cx cy => hat ((y : K) / s.options.cellSide - cy) *
        hat ((x : K) / s.options.cellSide - cx) * circHat s.options.orientations (pos x y) a *
        m x y / (s.options.cellSide * s.options.cellSide)) := by
    intro x y hx hy
    obtain ⟨hp0, hpn⟩ := hpos x y hx hy
    have hfl : ⌊pos x y⌋₊ < s.options.orientations := (Nat.floor_lt hp0).mpr hpn
    have hoi : ∀ i, (fromPositionWrapping Nat.floor (pos x y) s.options.orientations).idx i <
        s.options.orientations := by
      intro i
      unfold fromPositionWrapping Interp.idx
      dsimp only
      split
      · exact hfl
      · split <;> omega
    dsimp only
    let C : Nat → Nat → Nat → Nat → Nat → Nat → K := fun iy ix io a cx cy =>
      (if (fromPosition Nat.floor ((y : K) / (s.options.cellSide : K))).idx iy = cy then
        (fromPosition Nat.floor ((y : K) / (s.options.cellSide : K))).wt iy else 0) *
      (if (fromPosition Nat.floor ((x : K) / (s.options.cellSide : K))).idx ix = cx then
        (fromPosition Nat.floor ((x : K) / (s.options.cellSide : K))).wt ix else 0) *
      (if (fromPositionWrapping Nat.floor (pos x y) s.options.orientations).idx io = a then
        (fromPositionWrapping Nat.floor (pos x y) s.options.orientations).wt io else 0) *
      m x y / (s.options.cellSide * s.options.cellSide)
    refine (Adds.forRange (c := fun iy a cx cy => ∑ ix ∈ range 2, ∑ io ∈ range 2, C iy ix io a cx cy)
      fun iy _ => Adds.forRange (c := fun ix a cx cy => ∑ io ∈ range 2, C iy ix io a cx cy)
      fun ix _ => Adds.forRange (c := fun io a cx cy => C iy ix io a cx cy) fun io _ => ?_).congr ?_
    · by_cases hin : (fromPosition Nat.floor ((x : K) / (s.options.cellSide : K))).idx ix <
          s.cellGridLengths.2.1 ∧ (fromPosition Nat.floor ((y : K) / (s.options.cellSide : K))).idx iy <
          s.cellGridLengths.2.2
      · simp only [if_pos hin]
        refine (Adds.addAt (hoi io) hin.1 hin.2 _).congr ?_
        intro a cx cy _ _ _
        simp only [Spec.cellArea, Nat.cast_mul]
        dsimp only [C]
        split_ifs <;> simp_all
      · simp only [if_neg hin]
        intro b grid hg
        refine ⟨grid, rfl, hg.congr ?_⟩
        intro a cx cy _ hcx hcy
        simp only [Spec.cellGridLengths] at hin
        dsimp only [C]
        by_cases e1 : (fromPosition Nat.floor ((x : K) / (s.options.cellSide : K))).idx ix = cx
        · by_cases e2 : (fromPosition Nat.floor ((y : K) / (s.options.cellSide : K))).idx iy = cy
          · exact absurd ⟨by omega, by omega⟩ hin
          · rw [if_neg e2]; simp
        · rw [if_neg e1]; simp
    · intro a cx cy ha _ _
      dsimp only [C]
      rw [← fromPosition_weight _ (div_nonneg (Nat.cast_nonneg y) hcK.le),
        ← fromPosition_weight _ (div_nonneg (Nat.cast_nonneg x) hcK.le),
        ← fromPositionWrapping_weight _ hp0 hpn ha]
      simp only [sum_range_succ, range_zero, sum_empty, zero_add]
      ring
  obtain ⟨grid, h1, h2⟩ := Adds.forYX hpix _ _ h0
  refine ⟨grid, h1, h2.congr ?_⟩
  intro a cx cy _ _ _
  rw [zero_add]
  rfl

end Verif.Hog
