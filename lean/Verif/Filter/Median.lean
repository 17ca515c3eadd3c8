import Verif.Basic.Clamp
import Verif.Basic.Image
import Mathlib.Algebra.BigOperators.Group.Finset.Basic
import Mathlib.Algebra.BigOperators.Intervals
import Mathlib.Algebra.Order.BigOperators.Group.Finset
import Mathlib.Data.List.Sort
import Mathlib.Data.Nat.Cast.Basic
/-
Model of src/filter/median.rs and property theorem C39.

A pixel with `n` channels is a function `Fin n → Nat` with values below 256 (`u8`).  A histogram
set is a table `channel → value → count`.  Unsigned arithmetic that leaves `u32` is `none` (a
panic in a debug build).  `for d in -r..(r+1)` is the loop `j in 0..2r+1` with `d = j - r`;
`for y in (0..h-1).rev()` is the loop `j in 0..h-1` with `y = h - 2 - j`.
-/
namespace Verif.Filter.Median
open Finset

variable {n : Nat}

/-- `HistSet::data`: one histogram per channel. -/
abbrev Hist (n : Nat) := Fin n → Nat → Nat

/-- `HistSet::incr`, median.rs:332-343. -/
def incr (im : Image (Fin n → Nat)) (x y : Nat) (hist : Hist n) : Option (Hist n) :=
  (im.get x y).map fun p => fun c v => if v = p c then hist c v + 1 else hist c v

/-- `HistSet::decr`, median.rs:346-357: `-= 1` panics at zero. -/
def decr (im : Image (Fin n → Nat)) (x y : Nat) (hist : Hist n) : Option (Hist n) :=
  (im.get x y).bind fun p =>
    if ∀ c, 1 ≤ hist c (p c) then
      some fun c v => if v = p c then hist c v - 1 else hist c v
    else none

/-- `HistSet::channel_median`, median.rs:373-383. -/
def channelMedian (expected : Nat) (hist : Nat → Nat) : Option Nat :=
  (forRange 0 256 ((0, none) : Nat × Option Nat) fun i st =>
    if st.2.isSome then some st else
      let count := st.1 + hist i
      if 4294967296 ≤ 2 * count then none
      else if expected ≤ 2 * count then some (count, some i) else some (count, none)).map
  fun st => st.2.getD 255

/-- `HistSet::set_to_median`, median.rs:360-370. -/
def setToMedian (expected : Nat) (hist : Hist n) (out : Image (Fin n → Nat)) (x y : Nat) :
    Option (Image (Fin n → Nat)) :=
  if ∀ c, (channelMedian expected (hist c)).isSome = true then
    out.put x y fun c => (channelMedian expected (hist c)).getD 0
  else none

/-- `initialise_histogram_for_top_left_pixel`, median.rs:141-174 (without the kernel size). -/
def initHist (im : Image (Fin n → Nat)) (rx ry : Nat) : Option (Hist n) :=
  forRange 0 (2 * ry + 1) (fun _ _ => 0) fun j hist =>
    let py := (min (max 0 ((j : Int) - ry)) ((im.h : Int) - 1)).toNat
    forRange 0 (2 * rx + 1) hist fun i hist =>
      let px := (min (max 0 ((i : Int) - rx)) ((im.w : Int) - 1)).toNat
      incr im px py hist

/-- `slide_right`, median.rs:176-208. -/
def slideRight (im : Image (Fin n → Nat)) (rx ry x y : Nat) (hist : Hist n) : Option (Hist n) :=
  if x < im.w ∧ y < im.h then
    let prevX := (max 0 ((x : Int) - rx - 1)).toNat
    let nextX := (min ((x : Int) + rx) ((im.w : Int) - 1)).toNat
    forRange 0 (2 * ry + 1) hist fun j hist =>
      let py := (min (max 0 ((y : Int) + ((j : Int) - ry))) ((im.h : Int) - 1)).toNat
      (decr im prevX py hist).bind fun hist => incr im nextX py hist
  else none

/-- `slide_down_column`, median.rs:210-260. -/
def slideDown (E : Nat) (im : Image (Fin n → Nat)) (rx ry x : Nat)
    (st : Hist n × Image (Fin n → Nat)) : Option (Hist n × Image (Fin n → Nat)) :=
  if x < im.w then
    (setToMedian E st.1 st.2 x 0).bind fun out =>
    forRange 1 im.h (st.1, out) fun y st =>
      let prevY := (max 0 ((y : Int) - ry - 1)).toNat
      let nextY := (min ((y : Int) + ry) ((im.h : Int) - 1)).toNat
      (forRange 0 (2 * rx + 1) st.1 fun i hist =>
        let px := (min (max 0 ((x : Int) + ((i : Int) - rx))) ((im.w : Int) - 1)).toNat
        (decr im px prevY hist).bind fun hist => incr im px nextY hist).bind fun hist =>
      (setToMedian E hist st.2 x y).map fun out => (hist, out)
  else none

/-- `slide_up_column`, median.rs:262-311. -/
def slideUp (E : Nat) (im : Image (Fin n → Nat)) (rx ry x : Nat)
    (st : Hist n × Image (Fin n → Nat)) : Option (Hist n × Image (Fin n → Nat)) :=
  if x < im.w then
    (setToMedian E st.1 st.2 x (im.h - 1)).bind fun out =>
    forRange 0 (im.h - 1) (st.1, out) fun j st =>
      let y := im.h - 2 - j
      let prevY := (min ((y : Int) + ry + 1) ((im.h : Int) - 1)).toNat
      let nextY := (max 0 ((y : Int) - ry)).toNat
      (forRange 0 (2 * rx + 1) st.1 fun i hist =>
        let px := (min (max 0 ((x : Int) + ((i : Int) - rx))) ((im.w : Int) - 1)).toNat
        (decr im px prevY hist).bind fun hist => incr im px nextY hist).bind fun hist =>
      (setToMedian E hist st.2 x y).map fun out => (hist, out)
  else none

/-- `median_filter`, median.rs:109-139 (and the kernel size of 151-154). -/
def medianFilter (im : Image (Fin n → Nat)) (rx ry : Nat) : Option (Image (Fin n → Nat)) :=
  if im.w = 0 ∨ im.h = 0 then some im
  else if 2147483647 < im.w + rx ∨ 2147483647 < im.h + ry then none
  else if 4294967296 ≤ (2 * rx + 1) * (2 * ry + 1) then none
  else
    let E := (2 * rx + 1) * (2 * ry + 1)
    (initHist im rx ry).bind fun hist =>
    (slideDown E im rx ry 0 (hist, Image.new im.w im.h fun _ => 0)).bind fun st =>
    (forRange 1 im.w st fun x st =>
      if x % 2 = 0 then
        (slideRight im rx ry x 0 st.1).bind fun hist => slideDown E im rx ry x (hist, st.2)
      else
        (slideRight im rx ry x (im.h - 1) st.1).bind fun hist =>
        slideUp E im rx ry x (hist, st.2)).map Prod.snd

/-! ### Specification -/

/-- The values of channel `c` in the clamped `(2rx+1)` by `(2ry+1)` window around `(x, y)`. -/
def windowValues (im : Image (Fin n → Nat)) (rx ry x y : Nat) (c : Fin n) : List Nat :=
  (List.range (2 * ry + 1)).flatMap fun (j : Nat) => (List.range (2 * rx + 1)).map fun (i : Nat) =>
    im.px (clampTo im.w ((x : Int) + i - rx)) (clampTo im.h ((y : Int) + j - ry)) c

/-- `m` is the middle element of the values in increasing order (the number of values is odd). -/
def IsMedian (l : List Nat) (m : Nat) : Prop :=
  ∃ s : List Nat, s.Perm l ∧ s.Pairwise (· ≤ ·) ∧ s[l.length / 2]? = some m

/-! ### Histogram lemmas -/

/-- Indicator that pixel `(x, y)` has value `v` in channel `c`. -/
def ind (im : Image (Fin n → Nat)) (c : Fin n) (v x y : Nat) : Nat :=
  if im.px x y c = v then 1 else 0

/-- Number of window positions with value `v`. -/
def W (im : Image (Fin n → Nat)) (rx ry x y : Nat) (c : Fin n) (v : Nat) : Nat :=
  ∑ j ∈ range (2 * ry + 1), ∑ i ∈ range (2 * rx + 1),
    ind im c v (clampTo im.w ((x : Int) + i - rx)) (clampTo im.h ((y : Int) + j - ry))

theorem incr_spec {im : Image (Fin n → Nat)} {x y : Nat} (hx : x < im.w) (hy : y < im.h)
    (hist : Hist n) : incr im x y hist = some fun c v => hist c v + ind im c v x y := by
  unfold incr
  rw [Image.get_of_inB hx hy, Option.map_some]
  congr 1
  funext c v
  unfold ind
  by_cases h : v = im.px x y c
  · rw [if_pos h, if_pos h.symm]
  · rw [if_neg h, if_neg (fun e => h e.symm)]; rfl

theorem decr_spec {im : Image (Fin n → Nat)} {x y : Nat} (hx : x < im.w) (hy : y < im.h)
    (hist : Hist n) (hp : ∀ c v, ind im c v x y ≤ hist c v) :
    decr im x y hist = some fun c v => hist c v - ind im c v x y := by
  unfold decr
  rw [Image.get_of_inB hx hy, Option.bind_some, if_pos]
  · congr 1
    funext c v
    unfold ind
    by_cases h : v = im.px x y c
    · rw [if_pos h, if_pos h.symm]
    · rw [if_neg h, if_neg (fun e => h e.symm)]; rfl
  · intro c
    have := hp c (im.px x y c)
    simpa [ind] using this

/-- Replacing pixels one at a time: `m` removals and additions. -/
theorem slide_spec (im : Image (Fin n → Nat)) (m : Nat) (dx dy ex ey : Nat → Nat) (hist : Hist n)
    (hd : ∀ i, i < m → dx i < im.w ∧ dy i < im.h) (he : ∀ i, i < m → ex i < im.w ∧ ey i < im.h)
    (hh : ∀ c v, ∑ i ∈ range m, ind im c v (dx i) (dy i) ≤ hist c v) :
    ∃ hist', (forRange 0 m hist fun i hist =>
        (decr im (dx i) (dy i) hist).bind fun hist => incr im (ex i) (ey i) hist) = some hist' ∧
      ∀ c v, hist' c v + ∑ i ∈ range m, ind im c v (dx i) (dy i) =
        hist c v + ∑ i ∈ range m, ind im c v (ex i) (ey i) := by
  refine forRange_spec (s := hist) (fun k hist' => ∀ c v,
    hist' c v + ∑ i ∈ range k, ind im c v (dx i) (dy i) =
        hist c v + ∑ i ∈ range k, ind im c v (ex i) (ey i)) (Nat.zero_le m) (by simp) ?_
  intro k hk _ hkm hI
  have hp : ∀ c v, ind im c v (dx k) (dy k) ≤ hk c v := by
    intro c v
    have h1 := hI c v
    have h2 := hh c v
    have h3 : ∑ i ∈ range (k + 1), ind im c v (dx i) (dy i) ≤
        ∑ i ∈ range m, ind im c v (dx i) (dy i) :=
      sum_le_sum_of_subset (by intro a; simp only [mem_range]; omega)
    rw [sum_range_succ] at h3
    omega
  rw [decr_spec (hd k hkm).1 (hd k hkm).2 hk hp, Option.bind_some,
    incr_spec (he k hkm).1 (he k hkm).2]
  refine ⟨_, rfl, ?_⟩
  intro c v
  have h1 := hI c v
  have h2 := hp c v
  rw [sum_range_succ, sum_range_succ]
  omega

theorem clamp_toNat {n : Nat} (h : 0 < n) (i : Int) :
    (min (max 0 i) ((n : Int) - 1)).toNat = clampTo n i := by
  unfold clampTo; omega

theorem initHist_spec (im : Image (Fin n → Nat)) (rx ry : Nat) (hw : 0 < im.w) (hh : 0 < im.h) :
    ∃ hist, initHist im rx ry = some hist ∧ ∀ c v, hist c v = W im rx ry 0 0 c v := by
  refine forRange_spec (fun k (hist : Hist n) => ∀ c v, hist c v =
    ∑ j ∈ range k, ∑ i ∈ range (2 * rx + 1),
      ind im c v (clampTo im.w (((0 : Nat) : Int) + i - rx))
        (clampTo im.h (((0 : Nat) : Int) + j - ry))) (Nat.zero_le _) (by simp) ?_
  intro j hist _ hj hI
  obtain ⟨hist', e, h⟩ := forRange_spec (lo := 0) (hi := 2 * rx + 1) (s := hist)
    (f := fun i hist => incr im (min (max 0 ((i : Int) - rx)) ((im.w : Int) - 1)).toNat
      (min (max 0 ((j : Int) - ry)) ((im.h : Int) - 1)).toNat hist)
    (fun k (hist' : Hist n) => ∀ c v, hist' c v = hist c v + ∑ i ∈ range k,
      ind im c v (clampTo im.w (((0 : Nat) : Int) + i - rx))
        (clampTo im.h (((0 : Nat) : Int) + j - ry))) (Nat.zero_le _) (by simp)
    (by
      intro i hist' _ hi hI'
      rw [clamp_toNat hw, clamp_toNat hh, incr_spec (clampTo_lt hw _) (clampTo_lt hh _)]
      refine ⟨_, rfl, ?_⟩
      intro c v
      rw [sum_range_succ, hI' c v, show ((0 : Nat) : Int) + (i : Int) - rx = (i : Int) - rx by omega,
        show ((0 : Nat) : Int) + (j : Int) - ry = (j : Int) - ry by omega, Nat.add_assoc])
  refine ⟨hist', e, ?_⟩
  intro c v
  rw [h c v, hI c v, sum_range_succ _ j]

/-- Moving the window one row down (`y` to `y + 1`). -/
theorem W_down (im : Image (Fin n → Nat)) (rx ry x y : Nat) (c : Fin n) (v : Nat) :
    W im rx ry x (y + 1) c v + ∑ i ∈ range (2 * rx + 1),
        ind im c v (clampTo im.w ((x : Int) + i - rx)) (clampTo im.h ((y : Int) - ry)) =
      W im rx ry x y c v + ∑ i ∈ range (2 * rx + 1),
        ind im c v (clampTo im.w ((x : Int) + i - rx)) (clampTo im.h ((y : Int) + 1 + ry)) := by
  unfold W
  rw [sum_range_succ _ (2 * ry), sum_range_succ' _ (2 * ry)]
  have e1 : ∀ j : Nat, (((y + 1 : Nat) : Int) + j - ry) = ((y : Int) + ((j + 1 : Nat) : Int) - ry) := by
    intro j; omega
  have e2 : ((y : Int) + ((0 : Nat) : Int) - ry) = (y : Int) - ry := by omega
  have e3 : (((y + 1 : Nat) : Int) + ((2 * ry : Nat) : Int) - ry) = (y : Int) + 1 + ry := by omega
  simp only [e1, e2]
  rw [show ((y : Int) + ((2 * ry + 1 : Nat) : Int) - ry) = (y : Int) + 1 + ry by omega]
  omega

/-- Moving the window one column right (`x` to `x + 1`). -/
theorem W_right (im : Image (Fin n → Nat)) (rx ry x y : Nat) (c : Fin n) (v : Nat) :
    W im rx ry (x + 1) y c v + ∑ j ∈ range (2 * ry + 1),
        ind im c v (clampTo im.w ((x : Int) - rx)) (clampTo im.h ((y : Int) + j - ry)) =
      W im rx ry x y c v + ∑ j ∈ range (2 * ry + 1),
        ind im c v (clampTo im.w ((x : Int) + 1 + rx)) (clampTo im.h ((y : Int) + j - ry)) := by
  unfold W
  rw [← sum_add_distrib, ← sum_add_distrib]
  refine sum_congr rfl fun j _ => ?_
  rw [sum_range_succ _ (2 * rx), sum_range_succ' _ (2 * rx)]
  have e1 : ∀ j : Nat, (((x + 1 : Nat) : Int) + j - rx) = ((x : Int) + ((j + 1 : Nat) : Int) - rx) := by
    intro j; omega
  have e2 : ((x : Int) + ((0 : Nat) : Int) - rx) = (x : Int) - rx := by omega
  simp only [e1, e2]
  rw [show ((x : Int) + ((2 * rx + 1 : Nat) : Int) - rx) = (x : Int) + 1 + rx by omega]
  omega

theorem row_le_W (im : Image (Fin n → Nat)) (rx ry x y j : Nat) (hj : j < 2 * ry + 1) (c : Fin n)
    (v : Nat) : ∑ i ∈ range (2 * rx + 1), ind im c v (clampTo im.w ((x : Int) + i - rx))
      (clampTo im.h ((y : Int) + j - ry)) ≤ W im rx ry x y c v :=
  single_le_sum (f := fun j : Nat => ∑ i ∈ range (2 * rx + 1), ind im c v
    (clampTo im.w ((x : Int) + i - rx)) (clampTo im.h ((y : Int) + j - ry)))
    (fun _ _ => Nat.zero_le _) (mem_range.2 hj)

theorem col_le_W (im : Image (Fin n → Nat)) (rx ry x y i : Nat) (hi : i < 2 * rx + 1) (c : Fin n)
    (v : Nat) : ∑ j ∈ range (2 * ry + 1), ind im c v (clampTo im.w ((x : Int) + i - rx))
      (clampTo im.h ((y : Int) + j - ry)) ≤ W im rx ry x y c v := by
  unfold W
  refine sum_le_sum fun j _ => ?_
  exact single_le_sum (f := fun i : Nat => ind im c v
    (clampTo im.w ((x : Int) + i - rx)) (clampTo im.h ((y : Int) + j - ry)))
    (fun _ _ => Nat.zero_le _) (mem_range.2 hi)

theorem slideRight_spec (im : Image (Fin n → Nat)) (rx ry x y : Nat) (hx : x + 1 < im.w)
    (hy : y < im.h) (hist : Hist n) (hI : ∀ c v, hist c v = W im rx ry x y c v) :
    ∃ hist', slideRight im rx ry (x + 1) y hist = some hist' ∧
      ∀ c v, hist' c v = W im rx ry (x + 1) y c v := by
  unfold slideRight
  rw [if_pos ⟨hx, hy⟩]
  dsimp only
  have ep : (max 0 (((x + 1 : Nat) : Int) - rx - 1)).toNat = clampTo im.w ((x : Int) - rx) := by
    unfold clampTo; omega
  have en : (min (((x + 1 : Nat) : Int) + rx) ((im.w : Int) - 1)).toNat =
      clampTo im.w ((x : Int) + 1 + rx) := by unfold clampTo; omega
  have ey : ∀ j : Nat, (min (max 0 ((y : Int) + ((j : Int) - ry))) ((im.h : Int) - 1)).toNat =
      clampTo im.h ((y : Int) + j - ry) := by intro j; unfold clampTo; omega
  simp only [ep, en, ey]
  obtain ⟨hist', e, h⟩ := slide_spec im (2 * ry + 1) (fun _ => clampTo im.w ((x : Int) - rx))
    (fun j => clampTo im.h ((y : Int) + j - ry)) (fun _ => clampTo im.w ((x : Int) + 1 + rx))
    (fun j => clampTo im.h ((y : Int) + j - ry)) hist
    (fun _ _ => ⟨clampTo_lt (by omega) _, clampTo_lt (by omega) _⟩)
    (fun _ _ => ⟨clampTo_lt (by omega) _, clampTo_lt (by omega) _⟩)
    (by
      intro c v
      rw [hI c v]
      have := col_le_W im rx ry x y 0 (by omega) c v
      rwa [show ((x : Int) + ((0 : Nat) : Int) - rx) = (x : Int) - rx by omega] at this)
  refine ⟨hist', e, ?_⟩
  intro c v
  have h1 := h c v
  have h2 := W_right im rx ry x y c v
  rw [hI c v] at h1
  omega

/-! ### The median of a histogram -/

/-- Cumulative count: `m` is where the cumulative count first reaches half. -/
def HistMedian (E : Nat) (hist : Nat → Nat) (m : Nat) : Prop :=
  E ≤ 2 * ∑ v ∈ range (m + 1), hist v ∧ 2 * ∑ v ∈ range m, hist v < E

theorem channelMedian_spec (E : Nat) (hist : Nat → Nat) (hE : 0 < E) (hE2 : 2 * E < 4294967296)
    (hs : ∑ v ∈ range 256, hist v = E) :
    ∃ m, channelMedian E hist = some m ∧ m < 256 ∧ HistMedian E hist m := by
  unfold channelMedian
  have hle : ∀ k, k ≤ 256 → ∑ v ∈ range k, hist v ≤ E := by
    intro k hk
    rw [← hs]
    exact sum_le_sum_of_subset (by intro a; simp only [mem_range]; omega)
  obtain ⟨st, e, h⟩ := forRange_spec (lo := 0) (hi := 256) (s := ((0, none) : Nat × Option Nat))
    (f := fun i st =>
      if st.2.isSome then some st else
      let count := st.1 + hist i
      if 4294967296 ≤ 2 * count then none
      else if E ≤ 2 * count then some (count, some i) else some (count, none))
    (fun k st => (∃ m, st.2 = some m ∧ m < 256 ∧ HistMedian E hist m) ∨
      st.2 = none ∧ st.1 = ∑ v ∈ range k, hist v ∧ 2 * ∑ v ∈ range k, hist v < E)
    (Nat.zero_le _) (Or.inr ⟨rfl, by simp, by simpa using hE⟩)
    (by
      rintro k ⟨count, r⟩ _ hk (⟨m, h1, h2⟩ | ⟨h1, h2, h3⟩)
      · dsimp only at h1
        subst h1
        exact ⟨_, rfl, Or.inl ⟨m, rfl, h2⟩⟩
      · dsimp only at h1 h2
        subst h1 h2
        have hs' := sum_range_succ hist k
        have := hle (k + 1) (by omega)
        simp only [Option.isSome_none, Bool.false_eq_true, if_false]
        rw [← hs', if_neg (by omega)]
        by_cases hc : E ≤ 2 * ∑ v ∈ range (k + 1), hist v
        · rw [if_pos hc]
          exact ⟨_, rfl, Or.inl ⟨k, rfl, hk, hc, h3⟩⟩
        · rw [if_neg hc]
          exact ⟨_, rfl, Or.inr ⟨rfl, rfl, by omega⟩⟩)
  rw [e, Option.map_some]
  rcases h with ⟨m, h1, h2, h3⟩ | ⟨h1, h2, h3⟩
  · exact ⟨m, by rw [h1]; rfl, h2, h3⟩
  · rw [hs] at h3; omega

/-- Pixel values fit `u8`. -/
def U8 (im : Image (Fin n → Nat)) : Prop := ∀ x y c, x < im.w → y < im.h → im.px x y c < 256

theorem W_total (im : Image (Fin n → Nat)) (hu : U8 im) (rx ry x y : Nat) (hw : 0 < im.w)
    (hh : 0 < im.h) (c : Fin n) :
    ∑ v ∈ range 256, W im rx ry x y c v = (2 * rx + 1) * (2 * ry + 1) := by
  unfold W
  rw [sum_comm]
  rw [sum_congr rfl (fun j _ => sum_comm)]
  rw [sum_congr rfl (fun j _ => sum_congr rfl (g := fun _ => 1) fun i _ => ?_)]
  · simp [Nat.mul_comm, Nat.cast_id]
  · unfold ind
    rw [sum_ite_eq, if_pos]
    exact mem_range.2 (hu _ _ c (clampTo_lt hw _) (clampTo_lt hh _))

/-- The output pixel is right: every channel is the histogram median of its window. -/
def Good (im : Image (Fin n → Nat)) (rx ry x y : Nat) (p : Fin n → Nat) : Prop :=
  ∀ c, HistMedian ((2 * rx + 1) * (2 * ry + 1)) (W im rx ry x y c) (p c)

theorem setToMedian_spec (im : Image (Fin n → Nat)) (hu : U8 im) (rx ry x y : Nat)
    (hE : 2 * ((2 * rx + 1) * (2 * ry + 1)) < 4294967296) (hx : x < im.w) (hy : y < im.h)
    (hist : Hist n) (hI : ∀ c v, hist c v = W im rx ry x y c v) (out : Image (Fin n → Nat))
    (hw : out.w = im.w) (hh : out.h = im.h) :
    ∃ p, Good im rx ry x y p ∧
      setToMedian ((2 * rx + 1) * (2 * ry + 1)) hist out x y = out.put x y p := by
  have hc : ∀ c, ∃ m, channelMedian ((2 * rx + 1) * (2 * ry + 1)) (hist c) = some m ∧
      HistMedian ((2 * rx + 1) * (2 * ry + 1)) (W im rx ry x y c) m := by
    intro c
    have e : hist c = W im rx ry x y c := by funext v; exact hI c v
    rw [e]
    obtain ⟨m, h1, _, h2⟩ := channelMedian_spec ((2 * rx + 1) * (2 * ry + 1)) (W im rx ry x y c)
      (Nat.mul_pos (by omega) (by omega)) hE (W_total im hu rx ry x y (by omega) (by omega) c)
    exact ⟨m, h1, h2⟩
  refine ⟨fun c => (channelMedian ((2 * rx + 1) * (2 * ry + 1)) (hist c)).getD 0, ?_, ?_⟩
  · intro c
    obtain ⟨m, h1, h2⟩ := hc c
    simpa [h1] using h2
  · unfold setToMedian
    rw [if_pos]
    intro c
    obtain ⟨m, h1, _⟩ := hc c
    rw [h1]; rfl

/-! ### Columns and the whole image -/

/-- Loop invariant: histogram of the window at `(x, y)`, pixels in `S` done. -/
def Inv (im : Image (Fin n → Nat)) (rx ry x y : Nat) (S : Nat → Nat → Prop)
    (st : Hist n × Image (Fin n → Nat)) : Prop :=
  (∀ c v, st.1 c v = W im rx ry x y c v) ∧ st.2.w = im.w ∧ st.2.h = im.h ∧
    ∀ a b, a < im.w → b < im.h → S a b → Good im rx ry a b (st.2.px a b)

theorem Inv.mono {im : Image (Fin n → Nat)} {rx ry x y : Nat} {S T : Nat → Nat → Prop}
    {st : Hist n × Image (Fin n → Nat)} (h : Inv im rx ry x y S st)
    (hT : ∀ a b, a < im.w → b < im.h → T a b → S a b) : Inv im rx ry x y T st :=
  ⟨h.1, h.2.1, h.2.2.1, fun a b ha hb ht => h.2.2.2 a b ha hb (hT a b ha hb ht)⟩

theorem Inv.set {im : Image (Fin n → Nat)} {rx ry x y : Nat} {S T : Nat → Nat → Prop}
    {hist : Hist n} {out : Image (Fin n → Nat)} (hu : U8 im)
    (hE : 2 * ((2 * rx + 1) * (2 * ry + 1)) < 4294967296) (hx : x < im.w) (hy : y < im.h)
    (h : Inv im rx ry x y S (hist, out))
    (hT : ∀ a b, a < im.w → b < im.h → T a b → S a b ∨ a = x ∧ b = y) :
    ∃ out', setToMedian ((2 * rx + 1) * (2 * ry + 1)) hist out x y = some out' ∧
      Inv im rx ry x y T (hist, out') := by
  obtain ⟨h1, h2, h3, h4⟩ := h
  dsimp only at h1 h2 h3 h4
  obtain ⟨p, hp, e⟩ := setToMedian_spec im hu rx ry x y hE hx hy hist h1 out h2 h3
  rw [e, Image.put_of_inB _ (by omega) (by omega)]
  refine ⟨_, rfl, h1, h2, h3, ?_⟩
  intro a b ha hb hab
  dsimp only
  by_cases hxy : a = x ∧ b = y
  · rw [if_pos hxy, hxy.1, hxy.2]; exact hp
  · rw [if_neg hxy]
    rcases hT a b ha hb hab with h | h
    · exact h4 a b ha hb h
    · exact absurd h hxy

theorem slideDown_spec (im : Image (Fin n → Nat)) (hu : U8 im) (rx ry x : Nat)
    (hE : 2 * ((2 * rx + 1) * (2 * ry + 1)) < 4294967296) (hx : x < im.w) (hh : 0 < im.h)
    (st : Hist n × Image (Fin n → Nat)) (hI : Inv im rx ry x 0 (fun a _ => a < x) st) :
    ∃ st', slideDown ((2 * rx + 1) * (2 * ry + 1)) im rx ry x st = some st' ∧
      Inv im rx ry x (im.h - 1) (fun a _ => a < x + 1) st' := by
  obtain ⟨hist, out⟩ := st
  unfold slideDown
  rw [if_pos hx]
  obtain ⟨out1, e1, hI1⟩ := hI.set (T := fun a b => a < x ∨ a = x ∧ b < 1) hu hE hx hh (by omega)
  dsimp only
  rw [e1, Option.bind_some]
  obtain ⟨st', e, h⟩ := forRange_spec (lo := 1) (hi := im.h) (s := (hist, out1))
    (f := fun y st =>
      (forRange 0 (2 * rx + 1) st.1 fun i hist =>
        (decr im (min (max 0 ((x : Int) + ((i : Int) - rx))) ((im.w : Int) - 1)).toNat
          (max 0 ((y : Int) - ry - 1)).toNat hist).bind fun hist =>
        incr im (min (max 0 ((x : Int) + ((i : Int) - rx))) ((im.w : Int) - 1)).toNat
          (min ((y : Int) + ry) ((im.h : Int) - 1)).toNat hist).bind fun hist =>
      (setToMedian ((2 * rx + 1) * (2 * ry + 1)) hist st.2 x y).map fun out => (hist, out))
    (fun y st => Inv im rx ry x (y - 1) (fun a b => a < x ∨ a = x ∧ b < y) st)
    (by omega) hI1
    (by
      rintro y ⟨hist, out⟩ h1 h2 hI
      obtain ⟨y, rfl⟩ : ∃ y', y = y' + 1 := ⟨y - 1, by omega⟩
      rw [Nat.add_sub_cancel] at hI
      have ep : (max 0 (((y + 1 : Nat) : Int) - ry - 1)).toNat = clampTo im.h ((y : Int) - ry) := by
        unfold clampTo; omega
      have en : (min (((y + 1 : Nat) : Int) + ry) ((im.h : Int) - 1)).toNat =
          clampTo im.h ((y : Int) + 1 + ry) := by unfold clampTo; omega
      have ex : ∀ i : Nat, (min (max 0 ((x : Int) + ((i : Int) - rx))) ((im.w : Int) - 1)).toNat =
          clampTo im.w ((x : Int) + i - rx) := by intro j; unfold clampTo; omega
      simp only [ep, en, ex]
      obtain ⟨hist', e, h⟩ := slide_spec im (2 * rx + 1)
        (fun i => clampTo im.w ((x : Int) + i - rx)) (fun _ => clampTo im.h ((y : Int) - ry))
        (fun i => clampTo im.w ((x : Int) + i - rx)) (fun _ => clampTo im.h ((y : Int) + 1 + ry))
        hist
        (fun _ _ => ⟨clampTo_lt (by omega) _, clampTo_lt (by omega) _⟩)
        (fun _ _ => ⟨clampTo_lt (by omega) _, clampTo_lt (by omega) _⟩)
        (by
          intro c v
          have hI1 := hI.1 c v
          dsimp only at hI1
          rw [hI1]
          have := row_le_W im rx ry x y 0 (by omega) c v
          rwa [show ((y : Int) + ((0 : Nat) : Int) - ry) = (y : Int) - ry by omega] at this)
      rw [e, Option.bind_some]
      have hI' : Inv im rx ry x (y + 1) (fun a b => a < x ∨ a = x ∧ b < y + 1) (hist', out) := by
        refine ⟨?_, hI.2⟩
        intro c v
        have h1 := h c v
        have h2 := W_down im rx ry x y c v
        have h3 := hI.1 c v
        dsimp only at h1 h3 ⊢
        omega
      obtain ⟨out', e', hI''⟩ := hI'.set (T := fun a b => a < x ∨ a = x ∧ b < y + 1 + 1) hu hE hx h2
        (by omega)
      rw [e', Option.map_some]
      exact ⟨_, rfl, hI''⟩)
  exact ⟨st', e, h.mono (by omega)⟩

theorem slideUp_spec (im : Image (Fin n → Nat)) (hu : U8 im) (rx ry x : Nat)
    (hE : 2 * ((2 * rx + 1) * (2 * ry + 1)) < 4294967296) (hx : x < im.w) (hh : 0 < im.h)
    (st : Hist n × Image (Fin n → Nat)) (hI : Inv im rx ry x (im.h - 1) (fun a _ => a < x) st) :
    ∃ st', slideUp ((2 * rx + 1) * (2 * ry + 1)) im rx ry x st = some st' ∧
      Inv im rx ry x 0 (fun a _ => a < x + 1) st' := by
  obtain ⟨hist, out⟩ := st
  unfold slideUp
  rw [if_pos hx]
  obtain ⟨out1, e1, hI1⟩ := hI.set (T := fun a b => a < x ∨ a = x ∧ im.h - 1 ≤ b) hu hE hx
    (by omega) (by omega)
  dsimp only
  rw [e1, Option.bind_some]
  obtain ⟨st', e, h⟩ := forRange_spec (lo := 0) (hi := im.h - 1) (s := (hist, out1))
    (f := fun j st =>
      (forRange 0 (2 * rx + 1) st.1 fun i hist =>
        (decr im (min (max 0 ((x : Int) + ((i : Int) - rx))) ((im.w : Int) - 1)).toNat
          (min (((im.h - 2 - j : Nat) : Int) + ry + 1) ((im.h : Int) - 1)).toNat hist).bind fun hist =>
        incr im (min (max 0 ((x : Int) + ((i : Int) - rx))) ((im.w : Int) - 1)).toNat
          (max 0 (((im.h - 2 - j : Nat) : Int) - ry)).toNat hist).bind fun hist =>
      (setToMedian ((2 * rx + 1) * (2 * ry + 1)) hist st.2 x (im.h - 2 - j)).map fun out =>
        (hist, out))
    (fun j st => Inv im rx ry x (im.h - 1 - j) (fun a b => a < x ∨ a = x ∧ im.h - 1 - j ≤ b) st)
    (by omega) hI1
    (by
      rintro j ⟨hist, out⟩ h1 h2 hI
      obtain ⟨y, hy⟩ : ∃ y', im.h = y' + j + 2 := ⟨im.h - 2 - j, by omega⟩
      have hy1 : im.h - 2 - j = y := by omega
      have hy2 : im.h - 1 - j = y + 1 := by omega
      have hy3 : im.h - 1 - (j + 1) = y := by omega
      rw [hy2] at hI
      rw [hy3]
      have ep : (min ((y : Int) + ry + 1) ((im.h : Int) - 1)).toNat =
          clampTo im.h ((y : Int) + 1 + ry) := by unfold clampTo; omega
      have en : (max 0 ((y : Int) - ry)).toNat = clampTo im.h ((y : Int) - ry) := by
        unfold clampTo; omega
      have ex : ∀ i : Nat, (min (max 0 ((x : Int) + ((i : Int) - rx))) ((im.w : Int) - 1)).toNat =
          clampTo im.w ((x : Int) + i - rx) := by intro j; unfold clampTo; omega
      simp only [hy1, ep, en, ex]
      obtain ⟨hist', e, h⟩ := slide_spec im (2 * rx + 1)
        (fun i => clampTo im.w ((x : Int) + i - rx)) (fun _ => clampTo im.h ((y : Int) + 1 + ry))
        (fun i => clampTo im.w ((x : Int) + i - rx)) (fun _ => clampTo im.h ((y : Int) - ry))
        hist
        (fun _ _ => ⟨clampTo_lt (by omega) _, clampTo_lt (by omega) _⟩)
        (fun _ _ => ⟨clampTo_lt (by omega) _, clampTo_lt (by omega) _⟩)
        (by
          intro c v
          have hI1 := hI.1 c v
          dsimp only at hI1
          rw [hI1]
          have := row_le_W im rx ry x (y + 1) (2 * ry) (by omega) c v
          rwa [show (((y + 1 : Nat) : Int) + ((2 * ry : Nat) : Int) - ry) = (y : Int) + 1 + ry
            by omega] at this)
      rw [e, Option.bind_some]
      have hI' : Inv im rx ry x y (fun a b => a < x ∨ a = x ∧ y + 1 ≤ b) (hist', out) := by
        refine ⟨?_, hI.2⟩
        intro c v
        have h1 := h c v
        have h2 := W_down im rx ry x y c v
        have h3 := hI.1 c v
        dsimp only at h1 h3 ⊢
        omega
      obtain ⟨out', e', hI''⟩ := hI'.set (T := fun a b => a < x ∨ a = x ∧ y ≤ b) hu hE hx
        (by omega) (by omega)
      rw [e', Option.map_some]
      exact ⟨_, rfl, hI''⟩)
  refine ⟨st', e, ?_⟩
  rw [Nat.sub_self] at h
  exact h.mono (by omega)

theorem medianFilter_spec (im : Image (Fin n → Nat)) (hu : U8 im) (rx ry : Nat)
    (hw : im.w + rx ≤ 2147483647) (hh : im.h + ry ≤ 2147483647)
    (hE : 2 * ((2 * rx + 1) * (2 * ry + 1)) < 4294967296) :
    ∃ out, medianFilter im rx ry = some out ∧ out.w = im.w ∧ out.h = im.h ∧
      ∀ x y, x < im.w → y < im.h → Good im rx ry x y (out.px x y) := by
  unfold medianFilter
  by_cases h0 : im.w = 0 ∨ im.h = 0
  · rw [if_pos h0]
    exact ⟨im, rfl, rfl, rfl, by omega⟩
  · rw [if_neg h0, if_neg (by omega), if_neg (by omega)]
    dsimp only
    obtain ⟨hist, e1, h1⟩ := initHist_spec im rx ry (by omega) (by omega)
    rw [e1, Option.bind_some]
    obtain ⟨st1, e2, h2⟩ := slideDown_spec im hu rx ry 0 hE (by omega) (by omega)
      (hist, Image.new im.w im.h fun _ => 0) ⟨h1, rfl, rfl, by omega⟩
    rw [e2, Option.bind_some]
    obtain ⟨st2, e3, h3⟩ := forRange_spec (lo := 1) (hi := im.w) (s := st1)
      (f := fun x st =>
        if x % 2 = 0 then
          (slideRight im rx ry x 0 st.1).bind fun hist =>
            slideDown ((2 * rx + 1) * (2 * ry + 1)) im rx ry x (hist, st.2)
        else
          (slideRight im rx ry x (im.h - 1) st.1).bind fun hist =>
          slideUp ((2 * rx + 1) * (2 * ry + 1)) im rx ry x (hist, st.2))
      (fun x st => Inv im rx ry (x - 1) (if x % 2 = 0 then 0 else im.h - 1)
        (fun a _ => a < x) st) (by omega) h2
      (by
        rintro x ⟨hist, out⟩ hx1 hx2 hI
        obtain ⟨x, rfl⟩ : ∃ x', x = x' + 1 := ⟨x - 1, by omega⟩
        rw [Nat.add_sub_cancel] at hI ⊢
        by_cases hx : (x + 1) % 2 = 0
        · rw [if_pos hx] at hI ⊢
          obtain ⟨hist', e, h⟩ := slideRight_spec im rx ry x 0 hx2 (by omega) hist hI.1
          rw [e, Option.bind_some, if_neg (show ¬ (x + 1 + 1) % 2 = 0 by omega)]
          exact slideDown_spec im hu rx ry (x + 1) hE hx2 (by omega) _ ⟨h, hI.2⟩
        · rw [if_neg hx] at hI ⊢
          obtain ⟨hist', e, h⟩ := slideRight_spec im rx ry x (im.h - 1) hx2 (by omega) hist hI.1
          rw [e, Option.bind_some, if_pos (show (x + 1 + 1) % 2 = 0 by omega)]
          exact slideUp_spec im hu rx ry (x + 1) hE hx2 (by omega) _ ⟨h, hI.2⟩)
    rw [e3]
    exact ⟨st2.2, rfl, h3.2.1, h3.2.2.1, fun x y hx hy => h3.2.2.2 x y hx hy hx⟩

/-! ### From cumulative counts to the sorted window -/

theorem W_eq_count (im : Image (Fin n → Nat)) (rx ry x y : Nat) (c : Fin n) (v : Nat) :
    W im rx ry x y c v = (windowValues im rx ry x y c).count v := by
  have hrow : ∀ (m : Nat) (g : Nat → Nat), ((List.range m).map g).count v =
      ∑ i ∈ range m, if g i = v then 1 else 0 := by
    intro m g
    induction m with
    | zero => simp
    | succ m ih =>
      rw [List.range_succ, List.map_append, List.count_append, ih, sum_range_succ]
      simp [List.count_singleton]
  have hcol : ∀ (m : Nat) (g : Nat → List Nat), ((List.range m).flatMap g).count v =
      ∑ i ∈ range m, (g i).count v := by
    intro m g
    induction m with
    | zero => simp
    | succ m ih =>
      rw [List.range_succ, List.flatMap_append, List.count_append, ih, sum_range_succ]
      simp
  unfold W windowValues
  rw [hcol]
  refine sum_congr rfl fun j _ => ?_
  rw [hrow]
  rfl

theorem windowValues_length (im : Image (Fin n → Nat)) (rx ry x y : Nat) (c : Fin n) :
    (windowValues im rx ry x y c).length = (2 * rx + 1) * (2 * ry + 1) := by
  unfold windowValues
  rw [List.length_flatMap]
  simp [Nat.mul_comm, Nat.cast_id]

theorem countP_lt_eq (l : List Nat) (m : Nat) :
    l.countP (· < m) = ∑ v ∈ range m, l.count v := by
  induction l with
  | nil => simp
  | cons a l ih =>
    rw [List.countP_cons, ih]
    simp only [List.count_cons, sum_add_distrib]
    congr 1
    by_cases h : a < m
    · simp [h]
    · rw [sum_eq_zero]
      · simp [h]
      · intro v hv
        have := mem_range.1 hv
        rw [if_neg]
        simp; omega

theorem sorted_get {s : List Nat} (hs : s.Pairwise (· ≤ ·)) (k m : Nat) (hk : k < s.length)
    (h1 : k < s.countP (· < m + 1)) (h2 : s.countP (· < m) ≤ k) : s[k]? = some m := by
  have hle : ∀ i j (hi : i < s.length) (hj : j < s.length), i ≤ j → s[i] ≤ s[j] := by
    intro i j hi hj hij
    rcases Nat.lt_or_eq_of_le hij with h | h
    · exact List.pairwise_iff_getElem.1 hs i j hi hj h
    · subst h; exact Nat.le_refl _
  have split : ∀ q : Nat → Bool, s.countP q = (s.take k).countP q + (s.drop k).countP q := by
    intro q; rw [← List.countP_append, List.take_append_drop]
  rw [List.getElem?_eq_getElem hk]
  congr 1
  apply Nat.le_antisymm
  · by_contra hc
    push Not at hc
    rw [split] at h1
    have : (s.drop k).countP (· < m + 1) = 0 := by
      rw [List.countP_eq_zero]
      intro a ha
      obtain ⟨i, hi, rfl⟩ := List.getElem_of_mem ha
      rw [List.length_drop] at hi
      rw [List.getElem_drop]
      have := hle k (k + i) hk (by omega) (by omega)
      simp; omega
    have h3 : (s.take k).countP (· < m + 1) ≤ (s.take k).length := List.countP_le_length
    rw [List.length_take] at h3
    omega
  · by_contra hc
    push Not at hc
    have : (s.take (k + 1)).countP (· < m) = (s.take (k + 1)).length := by
      rw [List.countP_eq_length]
      intro a ha
      obtain ⟨i, hi, rfl⟩ := List.getElem_of_mem ha
      rw [List.length_take] at hi
      rw [List.getElem_take]
      have := hle i k (by omega) hk (by omega)
      simp; omega
    have h3 : (s.take (k + 1)).countP (· < m) ≤ s.countP (· < m) :=
      (List.take_sublist _ _).countP_le
    rw [this, List.length_take] at h3
    omega

/-- **C39.** For every `u8` image and all radii (windows below 2^31 entries) the median filter
returns an image of equal size in which every channel is the middle element of the sorted values
of the clamped window; no histogram count underflows and no read is out of range. -/
theorem C39_median_filter (im : Image (Fin n → Nat)) (hu : U8 im) (rx ry : Nat)
    (hw : im.w + rx ≤ 2147483647) (hh : im.h + ry ≤ 2147483647)
    (hE : (2 * rx + 1) * (2 * ry + 1) < 2147483648) :
    ∃ out, medianFilter im rx ry = some out ∧ out.w = im.w ∧ out.h = im.h ∧
      ∀ x y, x < im.w → y < im.h → ∀ c,
        IsMedian (windowValues im rx ry x y c) (out.px x y c) := by
  obtain ⟨out, e, h1, h2, h3⟩ := medianFilter_spec im hu rx ry hw hh (by omega)
  refine ⟨out, e, h1, h2, fun x y hx hy c => ?_⟩
  obtain ⟨g1, g2⟩ := h3 x y hx hy c
  have eW : W im rx ry x y c = fun v => (windowValues im rx ry x y c).count v := by
    funext v; exact W_eq_count im rx ry x y c v
  rw [eW] at g1 g2
  rw [← countP_lt_eq] at g1 g2
  have hlen := windowValues_length im rx ry x y c
  generalize windowValues im rx ry x y c = l at *
  have hperm : (l.mergeSort (fun a b => decide (a ≤ b))).Perm l := List.mergeSort_perm l _
  have hodd : l.length % 2 = 1 := by
    rw [hlen, Nat.mul_mod]
    have e1 : (2 * rx + 1) % 2 = 1 := by omega
    have e2 : (2 * ry + 1) % 2 = 1 := by omega
    rw [e1, e2]
  refine ⟨l.mergeSort (fun a b => decide (a ≤ b)), hperm, ?_, ?_⟩
  · have := List.pairwise_mergeSort (le := fun (a b : Nat) => decide (a ≤ b))
      (by intro a b c h1 h2; simp at *; omega) (by intro a b; simp; omega) l
    simpa using this
  · apply sorted_get
    · have := List.pairwise_mergeSort (le := fun (a b : Nat) => decide (a ≤ b))
        (by intro a b c h1 h2; simp at *; omega) (by intro a b; simp; omega) l
      simpa using this
    · rw [hperm.length_eq]; omega
    · rw [hperm.countP_eq]; omega
    · rw [hperm.countP_eq]; omega

/-- The median is unique, so `C39_median_filter` determines every output value. -/
theorem IsMedian.unique {l : List Nat} {a b : Nat} (ha : IsMedian l a) (hb : IsMedian l b) :
    a = b := by
  obtain ⟨s, hs, hp, e⟩ := ha
  obtain ⟨t, ht, hq, e'⟩ := hb
  have : s = t := (hs.trans ht.symm).eq_of_pairwise (by intro a b _ _ h1 h2; omega) hp hq
  subst this
  rw [e] at e'
  exact Option.some.inj e'

/-- **C39.** A window of 2^32 or more entries overflows the `u32` kernel size: the call panics in
a debug build. -/
theorem C39_overflow (im : Image (Fin n → Nat)) (rx ry : Nat) (hw : 0 < im.w) (hh : 0 < im.h)
    (hE : 4294967296 ≤ (2 * rx + 1) * (2 * ry + 1)) : medianFilter im rx ry = none := by
  unfold medianFilter
  rw [if_neg (by omega), if_pos hE, ite_self]

/-- **C39.** A channel that is constant stays constant. -/
theorem C39_constant (im : Image (Fin n → Nat)) (hu : U8 im) (rx ry : Nat)
    (hw : im.w + rx ≤ 2147483647) (hh : im.h + ry ≤ 2147483647)
    (hE : (2 * rx + 1) * (2 * ry + 1) < 2147483648) (c : Fin n) (v : Nat)
    (hc : ∀ x y, x < im.w → y < im.h → im.px x y c = v) :
    ∃ out, medianFilter im rx ry = some out ∧ ∀ x y, x < im.w → y < im.h → out.px x y c = v := by
  obtain ⟨out, e, _, _, h⟩ := C39_median_filter im hu rx ry hw hh hE
  refine ⟨out, e, fun x y hx hy => ?_⟩
  obtain ⟨s, hs, _, hm⟩ := h x y hx hy c
  have hmem : out.px x y c ∈ windowValues im rx ry x y c := by
    rw [← hs.mem_iff]
    exact List.mem_of_getElem? hm
  unfold windowValues at hmem
  simp only [List.mem_flatMap, List.mem_map] at hmem
  obtain ⟨j, _, i, _, h⟩ := hmem
  rw [← h, hc _ _ (clampTo_lt (by omega) _) (clampTo_lt (by omega) _)]

example : (medianFilter (n := 1) (Image.mk 3 2 fun x y _ => [[9, 1, 5], [2, 8, 200]][y]![x]!) 1 0).map
    (fun o => (Image.mk o.w o.h fun x y => o.px x y 0).rows) =
    some [[9, 5, 5], [2, 8, 200]] := by decide +kernel

end Verif.Filter.Median
