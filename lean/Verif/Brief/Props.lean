import Verif.Brief.Match
import Verif.Integral.Props
import Verif.Basic.Raster
import Mathlib.Data.Finset.Card
import Mathlib.Tactic.Ring
/-
Property theorem C71: BRIEF descriptors.
-/
namespace Verif.Brief
open Finset Integral

/-! ### Specification -/

/-- The pixels of the image within `r` rows and columns of `(x, y)`. -/
def box (im : Image Nat) (x y r : Nat) : Finset (Nat × Nat) :=
  (allPx im.w im.h).filter fun p => p.1 ≤ x + r ∧ x ≤ p.1 + r ∧ p.2 ≤ y + r ∧ y ≤ p.2 + r

/-- Rounded-down mean intensity of the pixels near `(x, y)`. -/
def boxMean (im : Image Nat) (x y r : Nat) : Nat :=
  (∑ p ∈ box im x y r, im.px p.1 p.2) / #(box im x y r)

/-- Outcome of a test pair at a keypoint: the smoothed intensity at the first test point is
smaller than at the second.  Test points are relative to the keypoint, the point `(14, 14)` being
the keypoint itself. -/
def outcome (im : Image Nat) (k : Nat × Nat) (t : TestPair) : Prop :=
  boxMean im (k.1 + t.p0.1 - 14) (k.2 + t.p0.2 - 14) 2 <
    boxMean im (k.1 + t.p1.1 - 14) (k.2 + t.p1.2 - 14) 2

instance (im k t) : Decidable (outcome im k t) := by unfold outcome; infer_instance

/-- An 8-bit image whose integral image can be queried without overflow. -/
def Fits (bound : Nat) (im : Image Nat) : Prop :=
  (∀ x y, x < im.w → y < im.h → im.px x y < 256) ∧
    2 * (∑ j ∈ range im.h, ∑ i ∈ range im.w, im.px i j) < bound

/-- Keypoints that are accepted: more than 15 from the left and top edges, at least 15 from the
right and bottom edges. -/
def Inside (im : Image Nat) (k : Nat × Nat) : Prop :=
  15 < k.1 ∧ k.1 + 15 ≤ im.w ∧ 15 < k.2 ∧ k.2 + 15 ≤ im.h

/-- Test points inside the 31 by 31 patch. -/
def InPatch (t : TestPair) : Prop := t.p0.1 < 31 ∧ t.p0.2 < 31 ∧ t.p1.1 < 31 ∧ t.p1.2 < 31

/-! ### Local average -/

theorem box_eq (im : Image Nat) (x y r : Nat) :
    box im x y r = Ico (x - r) (min (x + r + 1) im.w) ×ˢ Ico (y - r) (min (y + r + 1) im.h) := by
  ext ⟨a, b⟩
  simp only [box, mem_filter, mem_allPx, mem_product, mem_Ico]
  omega

theorem rectSum_box (im : Image Nat) {x y r : Nat} (hw : 0 < im.w) (hh : 0 < im.h) :
    ∑ p ∈ box im x y r, im.px p.1 p.2 =
      rectSum im (fun v => v) (x - r) (y - r) (min (x + r + 1) im.w - 1) (min (y + r + 1) im.h - 1) := by
  rw [box_eq, sum_product_right]
  unfold rectSum
  have e : ∀ a b : Nat, 0 < b → Ico a b = Icc a (b - 1) := by
    intro a b hb; ext i; simp only [mem_Ico, mem_Icc]; omega
  rw [e _ _ (by omega), e _ _ (by omega)]

/-- **C71.** The local average is the rounded-down mean of the image pixels within the radius of
the point, clipped to the image. -/
theorem C71_average {bound : Nat} (im I : Image Nat) (hI : integralImage im (fun v => v) = some I)
    (hf : Fits bound im) {x y r : Nat} (hr : 0 < r) (hx : x < im.w + r) (hy : y < im.h + r)
    (hw : 0 < im.w) (hh : 0 < im.h) :
    localPixelAverage bound I x y r = some (boxMean im x y r) := by
  obtain ⟨I', e, iw, ih, ip⟩ := integralImage_spec im (fun v : Nat => v)
  rw [hI] at e; cases e
  have hcard : #(box im x y r) = (min (y + r + 1) im.h - (y - r)) * (min (x + r + 1) im.w - (x - r)) := by
    rw [box_eq, card_product, Nat.card_Ico, Nat.card_Ico, Nat.mul_comm]
  have hpos : 0 < (min (y + r + 1) im.h - (y - r)) * (min (x + r + 1) im.w - (x - r)) :=
    Nat.mul_pos (by omega) (by omega)
  have hs := rectSum_box (x := x) (y := y) (r := r) im hw hh
  have key := prefix_inclusion im (fun v : Nat => v) (l := x - r) (t := y - r)
    (r := min (x + r + 1) im.w - 1) (b := min (y + r + 1) im.h - 1) (by omega) (by omega)
  rw [show min (x + r + 1) im.w - 1 + 1 = min (x + r + 1) im.w by omega,
    show min (y + r + 1) im.h - 1 + 1 = min (y + r + 1) im.h by omega, ← hs] at key
  have m1 := prefixSum_mono im (fun v : Nat => v) (x := min (x + r + 1) im.w)
    (y := min (y + r + 1) im.h) (x' := im.w) (y' := im.h) (by omega) (by omega)
  have m2 := prefixSum_mono im (fun v : Nat => v) (x := x - r) (y := y - r) (x' := im.w) (y' := im.h)
    (by omega) (by omega)
  have htot : prefixSum im (fun v : Nat => v) im.w im.h =
    ∑ j ∈ range im.h, ∑ i ∈ range im.w, im.px i j := rfl
  have hfit := hf.2
  have hle : ∑ p ∈ box im x y r, im.px p.1 p.2 ≤ #(box im x y r) * 255 := by
    rw [show #(box im x y r) * 255 = ∑ _p ∈ box im x y r, 255 by rw [sum_const]; rfl]
    refine sum_le_sum fun p hp => ?_
    have hp := (mem_filter.1 hp).1
    rw [mem_allPx] at hp
    have := hf.1 p.1 p.2 hp.1 hp.2
    omega
  unfold localPixelAverage
  rw [if_neg (by omega)]
  dsimp only
  rw [csub_of_le (by omega), Option.bind_some, csub_of_le (by omega), Option.bind_some, ih, iw,
    Nat.add_sub_cancel, Nat.add_sub_cancel, csub_of_le (by omega), Option.bind_some,
    csub_of_le (by omega), Option.bind_some, if_neg (by omega),
    Image.get_of_inB (by omega) (by omega), Image.get_of_inB (by omega) (by omega),
    Image.get_of_inB (by omega) (by omega), Image.get_of_inB (by omega) (by omega)]
  simp only [Option.bind_some]
  rw [ip _ _ (by omega) (by omega), ip _ _ (by omega) (by omega), ip _ _ (by omega) (by omega),
    ip _ _ (by omega) (by omega)]
  unfold cadd
  rw [if_pos (by omega), Option.bind_some, csub_of_le (by omega), Option.bind_some,
    csub_of_le (by omega), Option.bind_some]
  unfold boxMean
  rw [hcard] at hle ⊢
  congr 1
  rw [show prefixSum im (fun v : Nat => v) (min (x + r + 1) im.w) (min (y + r + 1) im.h) +
      prefixSum im (fun v : Nat => v) (x - r) (y - r) -
      prefixSum im (fun v : Nat => v) (min (x + r + 1) im.w) (y - r) -
      prefixSum im (fun v : Nat => v) (x - r) (min (y + r + 1) im.h) =
      ∑ p ∈ box im x y r, im.px p.1 p.2 by omega]
  apply Nat.mod_eq_of_lt
  rw [Nat.div_lt_iff_lt_mul hpos]
  generalize (min (y + r + 1) im.h - (y - r)) * (min (x + r + 1) im.w - (x - r)) = n at *
  omega

/-! ### Packing -/

theorem testBit_push (c b j : Nat) (hc : c % 2 = 0) (hb : b < 2) :
    ((c + b) * 2 % 2 ^ 128).testBit j =
      if j = 0 then false else if j = 1 then decide (b = 1)
      else decide (j < 128) && c.testBit (j - 1) := by
  rw [Nat.testBit_mod_two_pow, Nat.mul_comm]
  by_cases h0 : j = 0
  · subst h0; simp [Nat.testBit_zero]
  · rw [if_neg h0]
    obtain ⟨i, rfl⟩ : ∃ i, j = i + 1 := ⟨j - 1, by omega⟩
    rw [show 2 * (c + b) = 2 ^ 1 * (c + b) by ring, Nat.testBit_two_pow_mul]
    by_cases h1 : i = 0
    · subst h1
      have : (c + b) % 2 = b := by omega
      simp [Nat.testBit_zero, this]
    · rw [if_neg (by omega)]
      obtain ⟨m, rfl⟩ : ∃ m, i = m + 1 := ⟨i - 1, by omega⟩
      have e : (c + b).testBit (m + 1) = c.testBit (m + 1) := by
        rw [Nat.testBit_succ, Nat.testBit_succ]
        congr 1
        omega
      simp [e]

theorem even_push (n : Nat) : (n * 2 % 2 ^ 128) % 2 = 0 := by
  have : (2 : Nat) ∣ 2 ^ 128 := ⟨2 ^ 127, by decide⟩
  omega

/-- The packed words of a list of test outcomes (before the last chunk is saved): `st.1` are the
full chunks, `st.2` the chunk in progress. -/
def PackInv (ts : List Bool) (st : List Nat × Nat) : Prop :=
  st.1.length = (ts.length - 1) / 128 ∧ st.2 % 2 = 0 ∧ (st.2 < 2 ^ 128 ∧ ∀ w ∈ st.1, w < 2 ^ 128) ∧
  (∀ c (h : c < st.1.length) j, j < 128 →
    st.1[c].testBit j = (decide (j ≠ 0) && ts.getD (128 * c + 128 - j) false)) ∧
  (∀ j, j < 128 → st.2.testBit j =
    (decide (j ≠ 0 ∧ j ≤ ts.length - 128 * st.1.length) && ts.getD (ts.length - j) false))

theorem getD_append_lt (l r : List Bool) {i : Nat} (h : i < l.length) :
    (l ++ r).getD i false = l.getD i false := by
  rw [List.getD_eq_getElem?_getD, List.getD_eq_getElem?_getD, List.getElem?_append_left h]

theorem pack_step (ts : List Bool) (st : List Nat × Nat) (b : Bool) (h : PackInv ts st) :
    let st' := if ts.length ≠ 0 ∧ ts.length % 128 = 0 then (st.1 ++ [st.2], 0) else st
    st'.2 + (if b then 1 else 0) < 2 ^ 128 ∧
      PackInv (ts ++ [b]) (st'.1, (st'.2 + if b then 1 else 0) * 2 % 2 ^ 128) := by
  obtain ⟨h1, h2, h3, h4, h5⟩ := h
  have hb : (if b then 1 else 0) < 2 := by cases b <;> decide
  have hb1 : decide ((if b then 1 else 0) = 1) = b := by cases b <;> rfl
  have e2 : (2 : Nat) ^ 128 % 2 = 0 := by decide
  have hlast : (ts ++ [b]).getD ts.length false = b := by
    rw [List.getD_eq_getElem?_getD, List.getElem?_append_right (Nat.le_refl _)]; simp
  by_cases hc : ts.length ≠ 0 ∧ ts.length % 128 = 0
  · dsimp only
    rw [if_pos hc]
    dsimp only
    refine ⟨by omega, ?_, even_push _, ⟨Nat.mod_lt _ (by decide), ?_⟩, ?_, ?_⟩
    · simp only [List.length_append, List.length_singleton, h1]; omega
    · intro w hw
      rcases List.mem_append.1 hw with hw | hw
      · exact h3.2 w hw
      · rw [List.mem_singleton.1 hw]; exact h3.1
    · intro c hcl j hj
      dsimp only at hcl ⊢
      rw [List.length_append, List.length_singleton] at hcl
      by_cases hcc : c < st.1.length
      · rw [List.getElem_append_left hcc, h4 c hcc j hj]
        by_cases hj0 : j = 0
        · simp [hj0]
        · rw [getD_append_lt _ _ (by omega)]
      · have hce : c = st.1.length := by omega
        rw [List.getElem_append_right (by omega)]
        have : (c - st.1.length) = 0 := by omega
        simp only [this, List.getElem_cons_zero]
        rw [h5 j hj]
        by_cases hj0 : j = 0
        · simp [hj0]
        · rw [getD_append_lt _ _ (by omega)]
          have e : ts.length - 128 * st.1.length = 128 := by omega
          rw [show 128 * c + 128 - j = ts.length - j by omega]
          rw [e, decide_eq_true (by omega : j ≠ 0 ∧ j ≤ 128), decide_eq_true hj0]
    · intro j hj
      dsimp only
      rw [testBit_push _ _ _ (by omega) hb]
      rw [List.length_append, List.length_append, List.length_singleton, List.length_singleton]
      have e : ts.length + 1 - 128 * (st.1.length + 1) = 1 := by omega
      rw [e]
      by_cases hj0 : j = 0
      · simp [hj0]
      · rw [if_neg hj0]
        by_cases hj1 : j = 1
        · subst hj1
          rw [if_pos rfl, hb1, Nat.add_sub_cancel, hlast]; simp
        · rw [if_neg hj1]
          have : ¬ (j ≠ 0 ∧ j ≤ 1) := by omega
          simp [this]
  · dsimp only
    rw [if_neg hc]
    refine ⟨by omega, ?_, even_push _, ⟨Nat.mod_lt _ (by decide), h3.2⟩, ?_, ?_⟩
    · simp only [List.length_append, List.length_singleton, h1]; omega
    · intro c hcl j hj
      dsimp only at hcl ⊢
      rw [h4 c hcl j hj]
      by_cases hj0 : j = 0
      · simp [hj0]
      · rw [getD_append_lt _ _ (by omega)]
    · intro j hj
      dsimp only
      rw [testBit_push _ _ _ h2 hb]
      rw [List.length_append, List.length_singleton]
      by_cases hj0 : j = 0
      · simp [hj0]
      · rw [if_neg hj0]
        by_cases hj1 : j = 1
        · subst hj1
          rw [if_pos rfl, hb1, Nat.add_sub_cancel, hlast]
          rw [decide_eq_true (by omega), Bool.true_and]
        · rw [if_neg hj1, h5 (j - 1) (by omega)]
          by_cases hle : j ≤ ts.length + 1 - 128 * st.1.length
          · rw [getD_append_lt _ _ (by omega), decide_eq_true hj, decide_eq_true (by omega),
              decide_eq_true (by omega), show ts.length - (j - 1) = ts.length + 1 - j by omega]
            simp
          · rw [decide_eq_false (by omega : ¬ (j ≠ 0 ∧ j ≤ ts.length + 1 - 128 * st.1.length)),
              decide_eq_false (by omega : ¬ (j - 1 ≠ 0 ∧ j - 1 ≤ ts.length - 128 * st.1.length))]
            simp

/-! ### C71 -/

/-- Bit `j` of word `c` of a descriptor (false beyond its end). -/
def Desc.bit (d : Desc) (c j : Nat) : Bool := (d.bits.getD c 0).testBit j

theorem briefOne_spec {bound : Nat} {im I : Image Nat} (hI : integralImage im (fun v => v) = some I)
    (hf : Fits bound im) (pairs : List TestPair) (hp : ∀ t ∈ pairs, InPatch t) (k : Nat × Nat)
    (hk : Inside im k) (hne : pairs ≠ []) (hlen : pairs.length % 128 = 0) :
    ∃ d, briefOne bound I pairs k = some d ∧ d.pos = k ∧ d.bits.length = pairs.length / 128 ∧
      (∀ w ∈ d.bits, w < 2 ^ 128) ∧ ∀ c j, c < d.bits.length → j < 128 → d.bit c j =
        (decide (j ≠ 0) && (pairs.map fun t => decide (outcome im k t)).getD (128 * c + 128 - j) false) := by
  obtain ⟨k1, k2, k3, k4⟩ := hk
  have hpos : 0 < pairs.length := List.length_pos_iff.2 hne
  unfold briefOne patchRadius
  rw [csub_of_le (by omega), Option.bind_some, csub_of_le (by omega), Option.bind_some]
  obtain ⟨st, h1, h2⟩ := forList_spec (f := testStep bound I (k.1 - 15) (k.2 - 15))
    (fun pre st => PackInv (pre.map fun t => decide (outcome im k t.1)) st) pairs.zipIdx [] ([], 0)
    (by
      refine ⟨by simp, by simp, ⟨by decide, by simp⟩, fun c h => ?_, fun j hj => by simp⟩
      simp at h)
    (by
      intro p a q st e ih
      have hmem : a ∈ pairs.zipIdx := by rw [List.nil_append] at e; rw [e]; simp
      have hidx : a.2 = p.length := by
        have : pairs.zipIdx[p.length]? = some a := by
          rw [List.nil_append] at e; rw [e]; simp
        rw [List.getElem?_zipIdx] at this
        obtain ⟨t, -, rfl⟩ := Option.map_eq_some_iff.1 this
        simp
      have hin := hp a.1 (by
        obtain ⟨t, i⟩ := a
        exact List.fst_mem_of_mem_zipIdx hmem)
      obtain ⟨q1, q2, q3, q4⟩ := hin
      obtain ⟨s1, s2⟩ := pack_step _ st (decide (outcome im k a.1)) ih
      rw [List.length_map] at s1 s2
      unfold testStep
      dsimp only
      rw [C71_average im I hI hf (by decide) (by omega) (by omega) (by omega) (by omega),
        Option.bind_some,
        C71_average im I hI hf (by decide) (by omega) (by omega) (by omega) (by omega),
        Option.bind_some, hidx]
      have ho : (if boxMean im (a.1.p0.1 + (k.1 - 15) + 1) (a.1.p0.2 + (k.2 - 15) + 1) 2 <
          boxMean im (a.1.p1.1 + (k.1 - 15) + 1) (a.1.p1.2 + (k.2 - 15) + 1) 2 then 1 else 0) =
          if decide (outcome im k a.1) then 1 else 0 := by
        rw [show a.1.p0.1 + (k.1 - 15) + 1 = k.1 + a.1.p0.1 - 14 by omega,
          show a.1.p0.2 + (k.2 - 15) + 1 = k.2 + a.1.p0.2 - 14 by omega,
          show a.1.p1.1 + (k.1 - 15) + 1 = k.1 + a.1.p1.1 - 14 by omega,
          show a.1.p1.2 + (k.2 - 15) + 1 = k.2 + a.1.p1.2 - 14 by omega]
        refine if_congr ?_ rfl rfl
        rw [decide_eq_true_eq]
        exact Iff.rfl
      rw [ho, if_pos s1]
      refine ⟨_, rfl, ?_⟩
      rw [List.map_append]
      exact s2)
  rw [h1, Option.map_some]
  rw [List.nil_append] at h2
  have hmap : (pairs.zipIdx.map fun t => decide (outcome im k t.1)) =
      pairs.map fun t => decide (outcome im k t) := by
    rw [show (fun t : TestPair × Nat => decide (outcome im k t.1)) =
      (fun t => decide (outcome im k t)) ∘ Prod.fst from rfl, ← List.map_map, List.zipIdx_map_fst]
  rw [hmap] at h2
  obtain ⟨i1, i2, i3, i4, i5⟩ := h2
  rw [List.length_map] at i1 i5
  have hl : (st.1 ++ [st.2]).length = pairs.length / 128 := by
    rw [List.length_append, List.length_singleton, i1]; omega
  refine ⟨_, rfl, rfl, hl, ?_, ?_⟩
  · intro w hw
    rcases List.mem_append.1 hw with hw | hw
    · exact i3.2 w hw
    · rw [List.mem_singleton.1 hw]; exact i3.1
  intro c j hc hj
  dsimp only at hc
  unfold Desc.bit
  dsimp only
  rw [List.getD_eq_getElem?_getD]
  rw [List.length_append, List.length_singleton] at hc
  by_cases hcc : c < st.1.length
  · rw [List.getElem?_append_left hcc, List.getElem?_eq_getElem hcc, Option.getD_some]
    exact i4 c hcc j hj
  · rw [List.getElem?_append_right (by omega), show c - st.1.length = 0 by omega]
    simp only [List.getElem?_cons_zero, Option.getD_some]
    rw [i5 j hj]
    by_cases hj0 : j = 0
    · simp [hj0]
    · rw [show 128 * c + 128 - j = pairs.length - j by omega,
        decide_eq_true (by omega : j ≠ 0 ∧ j ≤ pairs.length - 128 * st.1.length), decide_eq_true hj0]

/-- The descriptor of keypoint `k` records, for every test except the first of each group of 128,
its outcome; the remaining bit of each word is zero. -/
def Encodes (im : Image Nat) (pairs : List TestPair) (k : Nat × Nat) (d : Desc) : Prop :=
  d.pos = k ∧ d.bits.length = pairs.length / 128 ∧ (∀ w ∈ d.bits, w < 2 ^ 128) ∧
  (∀ c, c < pairs.length / 128 → d.bit c 0 = false) ∧
  ∀ i (h : i < pairs.length), i % 128 ≠ 0 →
    (d.bit (i / 128) (128 - i % 128) = true ↔ outcome im k pairs[i])

theorem briefOne_encodes {bound : Nat} {im I : Image Nat} (hI : integralImage im (fun v => v) = some I)
    (hf : Fits bound im) (pairs : List TestPair) (hp : ∀ t ∈ pairs, InPatch t) (k : Nat × Nat)
    (hk : Inside im k) (hne : pairs ≠ []) (hlen : pairs.length % 128 = 0) :
    ∃ d, briefOne bound I pairs k = some d ∧ Encodes im pairs k d := by
  obtain ⟨d, h1, h2, h3, hw, h4⟩ := briefOne_spec hI hf pairs hp k hk hne hlen
  refine ⟨d, h1, h2, h3, hw, fun c hc => ?_, fun i hi hmod => ?_⟩
  · rw [h4 c 0 (by omega) (by decide)]; rfl
  · rw [h4 (i / 128) (128 - i % 128) (by omega) (by omega),
      show 128 * (i / 128) + 128 - (128 - i % 128) = i by omega,
      decide_eq_true (by omega : 128 - i % 128 ≠ 0), Bool.true_and,
      List.getD_eq_getElem?_getD, List.getElem?_map, List.getElem?_eq_getElem hi]
    simp

/-- **C71** (without the first test of each group of 128): on every image, all accepted keypoints
and every non-empty list of test pairs in the patch whose length is a multiple of 128, there is
one descriptor per keypoint, recording the outcomes of all tests whose index is not a multiple of
128.  Missing for the full statement: those tests, whose outcomes are lost (`C71_negation`). -/
theorem C71_bits_partial {bound : Nat} (im : Image Nat) (hf : Fits bound im)
    (keypoints : List (Nat × Nat)) (hk : ∀ k ∈ keypoints, Inside im k) (pairs : List TestPair)
    (hp : ∀ t ∈ pairs, InPatch t) (hne : pairs ≠ []) (hlen : pairs.length % 128 = 0) :
    ∃ ds, brief bound im keypoints pairs.length pairs = some (.ok ds) ∧
      List.Forall₂ (Encodes im pairs) keypoints ds := by
  unfold brief
  obtain ⟨I, e, iw, ih, -⟩ := integralImage_spec im (fun v : Nat => v)
  rw [e, Option.bind_some]
  unfold briefImpl
  rw [if_neg (by omega), if_neg (by simp)]
  induction keypoints with
  | nil => exact ⟨[], rfl, List.Forall₂.nil⟩
  | cons k ks ih' =>
    obtain ⟨ds, h1, h2⟩ := ih' fun k' hk' => hk k' (List.mem_cons_of_mem _ hk')
    have hki := hk k (by simp)
    obtain ⟨d, k1, k2⟩ := briefOne_encodes e hf pairs hp k hki hne hlen
    obtain ⟨a1, a2, a3, a4⟩ := hki
    unfold briefLoop patchRadius
    rw [if_neg (by omega), k1, Option.bind_some, h1, Option.map_some]
    exact ⟨d :: ds, rfl, List.Forall₂.cons k2 h2⟩

/-- **C71.** A keypoint close to an edge, a length that is not a multiple of 128 and a length
other than the number of test pairs are reported as errors. -/
theorem C71_errors (bound : Nat) (I : Image Nat) (pairs : List TestPair) (length : Nat) :
    (length % 128 ≠ 0 → ∀ ks, briefImpl bound I ks pairs length = some (.error .notMultiple)) ∧
    (length % 128 = 0 → length ≠ pairs.length → ∀ ks,
      briefImpl bound I ks pairs length = some (.error .wrongCount)) ∧
    (length % 128 = 0 → length = pairs.length → ∀ k ks,
      (k.1 ≤ 15 ∨ I.w ≤ k.1 + 15 ∨ k.2 ≤ 15 ∨ I.h ≤ k.2 + 15) →
      briefImpl bound I (k :: ks) pairs length = some (.error .nearEdge)) := by
  refine ⟨fun h ks => ?_, fun h h' ks => ?_, fun h h' k ks hk => ?_⟩
  · unfold briefImpl; rw [if_pos h]
  · unfold briefImpl; rw [if_neg (by omega), if_pos h']
  · unfold briefImpl briefLoop patchRadius
    rw [if_neg (by omega), if_neg (by omega), if_pos (by omega)]

/-! ### Distance -/

theorem countOnes_eq (n : Nat) : countOnes128 n = #{i ∈ range 128 | n.testBit i = true} := by
  unfold countOnes128
  rw [← List.toFinset_card_of_nodup (List.nodup_range.filter _)]
  congr 1
  ext i
  simp

theorem fold_zip (f : Nat → Nat → Nat) (a b : List Nat) (n : Nat) (h : a.length = b.length) :
    (a.zip b).foldl (fun acc p => acc + f p.1 p.2) n =
      n + ∑ c ∈ range a.length, f (a.getD c 0) (b.getD c 0) := by
  induction a generalizing b n with
  | nil => simp
  | cons x a ih =>
    cases b with
    | nil => simp at h
    | cons y b =>
      rw [List.zip_cons_cons, List.foldl_cons, ih b _ (by simpa using h), List.length_cons,
        sum_range_succ']
      simp only [List.getD_cons_succ, List.getD_cons_zero]
      omega

/-- **C71.** The distance of two descriptors of equal length is the number of bit positions in
which they differ; other descriptors are not comparable. -/
theorem C71_distance (a b : Desc) :
    hammingDistance a b = if a.bits.length = b.bits.length then
      some #{p ∈ range a.bits.length ×ˢ range 128 | a.bit p.1 p.2 ≠ b.bit p.1 p.2} else none := by
  unfold hammingDistance
  by_cases h : a.bits.length = b.bits.length
  · rw [if_pos (by omega), if_pos h, fold_zip (fun x y => countOnes128 (x ^^^ y)) _ _ _ h, Nat.zero_add]
    congr 1
    rw [card_filter, sum_product]
    refine sum_congr rfl fun c _ => ?_
    rw [countOnes_eq, card_filter]
    refine sum_congr rfl fun j _ => ?_
    rw [Nat.testBit_xor]
    unfold Desc.bit
    refine if_congr ?_ rfl rfl
    cases (a.bits.getD c 0).testBit j <;> cases (b.bits.getD c 0).testBit j <;> simp
  · rw [if_neg (by omega), if_neg h]

/-- **C71** (without the first test of each group of 128): the distance between the descriptors
of two keypoints, possibly of different images, is the number of tests, among those whose index
is not a multiple of 128, with different outcomes. -/
theorem C71_differences_partial (im im' : Image Nat) (pairs : List TestPair)
    (hlen : pairs.length % 128 = 0) (k k' : Nat × Nat) (d d' : Desc) (hd : Encodes im pairs k d)
    (hd' : Encodes im' pairs k' d') :
    hammingDistance d d' = some #{i ∈ range pairs.length | i % 128 ≠ 0 ∧
      ∃ h : i < pairs.length, ¬ (outcome im k pairs[i] ↔ outcome im' k' pairs[i])} := by
  obtain ⟨-, l1, -, z1, e1⟩ := hd
  obtain ⟨-, l2, -, z2, e2⟩ := hd'
  rw [C71_distance, if_pos (by omega)]
  congr 1
  rw [l1]
  refine card_bij' (fun p _ => 128 * p.1 + 128 - p.2) (fun i _ => (i / 128, 128 - i % 128)) ?_ ?_ ?_ ?_
  · rintro ⟨c, j⟩ hp
    simp only [mem_filter, mem_product, mem_range] at hp
    obtain ⟨⟨hc, hj⟩, hne⟩ := hp
    have hj0 : j ≠ 0 := by
      rintro rfl
      rw [z1 c hc, z2 c hc] at hne
      exact hne rfl
    have hi : 128 * c + 128 - j < pairs.length := by omega
    simp only [mem_filter, mem_range]
    refine ⟨hi, by omega, hi, fun hiff => hne ?_⟩
    have a1 := e1 _ hi (by omega)
    have a2 := e2 _ hi (by omega)
    rw [show (128 * c + 128 - j) / 128 = c by omega,
      show 128 - (128 * c + 128 - j) % 128 = j by omega] at a1 a2
    rw [Bool.eq_iff_iff, a1, a2]
    exact hiff
  · intro i hi
    simp only [mem_filter, mem_product, mem_range] at hi ⊢
    obtain ⟨-, hmod, h, hne⟩ := hi
    refine ⟨⟨by omega, by omega⟩, fun heq => hne ?_⟩
    rw [← e1 i h hmod, ← e2 i h hmod, heq]
  · rintro ⟨c, j⟩ hp
    simp only [mem_filter, mem_product, mem_range] at hp
    obtain ⟨⟨hc, hj⟩, hne⟩ := hp
    have hj0 : j ≠ 0 := by
      rintro rfl
      rw [z1 c hc, z2 c hc] at hne
      exact hne rfl
    ext <;> dsimp only <;> omega
  · intro i hi
    simp only [mem_filter, mem_range] at hi
    dsimp only
    omega

/-- **C71.** The distance is symmetric and zero between a descriptor and itself. -/
theorem C71_symm (a b : Desc) : hammingDistance a b = hammingDistance b a ∧
    hammingDistance a a = some 0 := by
  constructor
  · rw [C71_distance, C71_distance]
    by_cases h : a.bits.length = b.bits.length
    · rw [if_pos h, if_pos h.symm, h]
      congr 2
      ext p
      simp only [mem_filter, ne_comm]
    · rw [if_neg h, if_neg (fun e => h e.symm)]
  · rw [C71_distance, if_pos rfl]
    simp

/-! ### Bit subsets -/

/-- **C71.** Extracting at most 128 valid bit indices succeeds; the bit for the index at position
`i` of the list ends up `i` places below the top of the list. -/
theorem C71_subset (d : Desc) (bits : List Nat) (hl : bits.length ≤ 128)
    (hb : ∀ b ∈ bits, b < d.bits.length * 128) :
    ∃ s, getBitSubset d bits = some s ∧ s < 2 ^ bits.length ∧
      ∀ i (h : i < bits.length), s.testBit (bits.length - 1 - i) = d.bit (bits[i] / 128) (bits[i] % 128) := by
  unfold getBitSubset
  rw [if_pos hl]
  obtain ⟨s, h1, h2⟩ := forList_spec (f := fun b subset =>
      let subset := subset * 2 % 2 ^ 128
      (d.bits[b / 128]?).bind fun word =>
      let s := subset + (word >>> (b % 128)) % 2
      if s < 2 ^ 128 then some s else none)
    (fun pre s => s < 2 ^ pre.length ∧ ∀ i (h : i < pre.length),
      s.testBit (pre.length - 1 - i) = d.bit (pre[i] / 128) (pre[i] % 128)) bits [] 0
    ⟨by simp, fun i h => by simp at h⟩
    (by
      rintro p a q s e ⟨i1, i2⟩
      have hlen := congrArg List.length e
      simp only [List.nil_append, List.length_append, List.length_cons] at hlen
      have ha := hb a (by rw [List.nil_append] at e; rw [e]; simp)
      have hidx : a / 128 < d.bits.length := by omega
      have hs1 : s * 2 < 2 ^ (p.length + 1) := by rw [pow_succ]; omega
      have hpow : 2 ^ (p.length + 1) ≤ 2 ^ 128 := Nat.pow_le_pow_right (by decide) (by omega)
      have hbit : (d.bits[a / 128] >>> (a % 128)) % 2 = if d.bit (a / 128) (a % 128) then 1 else 0 := by
        unfold Desc.bit
        rw [List.getD_eq_getElem?_getD, List.getElem?_eq_getElem hidx, Option.getD_some]
        have hz : (d.bits[a / 128] >>> (a % 128)).testBit 0 = d.bits[a / 128].testBit (a % 128) := by
          rw [Nat.testBit_shiftRight]; rfl
        rw [← hz, Nat.testBit_zero]
        rcases Nat.mod_two_eq_zero_or_one (d.bits[a / 128] >>> (a % 128)) with h | h <;> simp [h]
      have hle : (if d.bit (a / 128) (a % 128) then 1 else 0) ≤ 1 := by split <;> omega
      have hlt : s * 2 + (if d.bit (a / 128) (a % 128) then 1 else 0) < 2 ^ (p.length + 1) := by
        have : 2 ^ (p.length + 1) = 2 ^ p.length * 2 := pow_succ _ _
        omega
      dsimp only
      rw [List.getElem?_eq_getElem hidx, Option.bind_some, Nat.mod_eq_of_lt (by omega), hbit,
        if_pos (by omega)]
      refine ⟨_, rfl, by simpa using hlt, fun i hi => ?_⟩
      rw [List.length_append, List.length_singleton] at hi
      rw [List.length_append, List.length_singleton]
      by_cases hip : i < p.length
      · rw [List.getElem_append_left hip, ← i2 i hip,
          show p.length + 1 - 1 - i = (p.length - 1 - i) + 1 by omega, Nat.testBit_succ]
        congr 1
        split <;> omega
      · have hie : i = p.length := by omega
        subst hie
        rw [show p.length + 1 - 1 - p.length = 0 by omega, Nat.testBit_zero]
        simp only [List.getElem_concat_length]
        cases d.bit (a / 128) (a % 128) <;> simp)
  exact ⟨s, h1, by simpa using h2⟩

/-! ### C72 for BRIEF descriptors -/

/-- **C72** for BRIEF descriptors: with any choice of at most 128 valid bits per table, matching
descriptors of equal size returns pairs from the two lists at distance below the threshold. -/
theorem C72_brief (choices : List (List Nat)) (d1 d2 : List Desc) (n threshold : Nat)
    (ht : threshold ≤ 2 ^ 32 - 1) (hn : ∀ d, d ∈ d1 ∨ d ∈ d2 → d.bits.length = n)
    (hc : ∀ bits ∈ choices, bits.length ≤ 128 ∧ ∀ b ∈ bits, b < n * 128) :
    ∃ out, matchDescriptors getBitSubset hammingDistance (2 ^ 32 - 1) choices d1 d2 threshold =
        some out ∧
      ∀ p ∈ out, p.1 ∈ d1 ∧ p.2 ∈ d2 ∧ ∃ δ, hammingDistance p.1 p.2 = some δ ∧ δ < threshold := by
  have hdist : ∀ a b, a ∈ d1 ∨ a ∈ d2 → b ∈ d1 ∨ b ∈ d2 →
      hammingDistance a b = some ((hammingDistance a b).getD 0) := by
    intro a b ha hb
    rw [C71_distance, if_pos (by rw [hn a ha, hn b hb])]; rfl
  obtain ⟨out, h1, h2⟩ := C72_pairs (subset := getBitSubset) (dist := hammingDistance)
    (fun d bits => (getBitSubset d bits).getD 0) (fun a b => (hammingDistance a b).getD 0)
    (2 ^ 32 - 1) choices d1 d2 threshold ht
    (by
      intro bits hb d hd
      obtain ⟨s, e, -⟩ := C71_subset d bits (hc bits hb).1 (by rw [hn d hd]; exact (hc bits hb).2)
      rw [e]; rfl) hdist (fun a b => by rw [(C71_symm a b).1])
  refine ⟨out, h1, fun p hp => ?_⟩
  obtain ⟨p1, p2, p3⟩ := h2 p hp
  exact ⟨p1, p2, _, hdist _ _ (Or.inl p1) (Or.inr p2), p3⟩

/-- **C72** for BRIEF descriptors: a query with a bitwise equal descriptor in the (not shorter)
second list is always matched at distance zero. -/
theorem C72_brief_exact (choices : List (List Nat)) (hne : choices ≠ []) (d1 d2 : List Desc)
    (hl : d1.length ≤ d2.length) (n threshold : Nat) (hpos : 0 < threshold)
    (ht : threshold ≤ 2 ^ 32 - 1) (hn : ∀ d, d ∈ d1 ∨ d ∈ d2 → d.bits.length = n)
    (hc : ∀ bits ∈ choices, bits.length ≤ 128 ∧ ∀ b ∈ bits, b < n * 128) (q e : Desc) (hq : q ∈ d1)
    (he : e ∈ d2) (hqe : q.bits = e.bits) :
    ∃ out c, matchDescriptors getBitSubset hammingDistance (2 ^ 32 - 1) choices d1 d2 threshold =
        some out ∧ (q, c) ∈ out ∧ hammingDistance q c = some 0 := by
  have hdist : ∀ a b, a ∈ d1 ∨ a ∈ d2 → b ∈ d1 ∨ b ∈ d2 →
      hammingDistance a b = some ((hammingDistance a b).getD 0) := by
    intro a b ha hb
    rw [C71_distance, if_pos (by rw [hn a ha, hn b hb])]; rfl
  have hsub : ∀ bits ∈ choices, ∀ d, d ∈ d1 ∨ d ∈ d2 →
      getBitSubset d bits = some ((getBitSubset d bits).getD 0) := by
    intro bits hb d hd
    obtain ⟨s, e, -⟩ := C71_subset d bits (hc bits hb).1 (by rw [hn d hd]; exact (hc bits hb).2)
    rw [e]; rfl
  obtain ⟨out, c, h1, h2, h3⟩ := C72_exact (subset := getBitSubset) (dist := hammingDistance)
    (fun d bits => (getBitSubset d bits).getD 0) (fun a b => (hammingDistance a b).getD 0)
    (2 ^ 32 - 1) choices d1 d2 threshold ht hsub hdist hl hne hpos q e hq he
    (by intro bits _; unfold getBitSubset; rw [hqe])
    (by
      have : hammingDistance q e = hammingDistance e e := by unfold hammingDistance; rw [hqe]
      rw [this, (C71_symm e e).2]; rfl)
  refine ⟨out, c, h1, h2, ?_⟩
  obtain ⟨out', k1, k2⟩ := C72_brief choices d1 d2 n threshold ht hn hc
  rw [h1] at k1; cases k1
  obtain ⟨-, hc2, -⟩ := k2 _ h2
  rw [hdist q c (Or.inl hq) (Or.inr hc2), h3]

/-! ### Negation -/

/-- A dark image and an image that is bright from column 20 on. -/
def dark : Image Nat := ⟨40, 40, fun _ _ => 0⟩
def bright : Image Nat := ⟨40, 40, fun x _ => if 20 ≤ x then 100 else 0⟩

/-- 128 tests, of which only the first compares two different points. -/
def oneTest : List TestPair := ⟨(0, 0), (30, 0)⟩ :: List.replicate 127 ⟨(0, 0), (0, 0)⟩

/-- **C71**, negation: the outcome of the first test of a group of 128 is lost.  The two images
differ in the outcome of test 0 at keypoint `(20, 20)`, but the descriptors are equal. -/
theorem C71_negation :
    ∃ d, brief (2 ^ 32) dark [(20, 20)] 128 oneTest = some (.ok [d]) ∧
      brief (2 ^ 32) bright [(20, 20)] 128 oneTest = some (.ok [d]) ∧
      hammingDistance d d = some 0 ∧
      ¬ outcome dark (20, 20) ⟨(0, 0), (30, 0)⟩ ∧ outcome bright (20, 20) ⟨(0, 0), (30, 0)⟩ := by
  have hp : ∀ t ∈ oneTest, InPatch t := by
    intro t ht
    rcases List.mem_cons.1 ht with rfl | ht
    · exact ⟨by decide, by decide, by decide, by decide⟩
    · rw [(List.mem_replicate.1 ht).2]
      exact ⟨by decide, by decide, by decide, by decide⟩
  have hlen : oneTest.length = 128 := by rw [oneTest, List.length_cons, List.length_replicate]
  have hout : ∀ im k i (h : i < oneTest.length), i % 128 ≠ 0 → ¬ outcome im k oneTest[i] := by
    intro im k i h hmod
    have : oneTest[i] = ⟨(0, 0), (0, 0)⟩ := by
      obtain ⟨j, rfl⟩ : ∃ j, i = j + 1 := ⟨i - 1, by omega⟩
      simp only [oneTest, List.getElem_cons_succ, List.getElem_replicate]
    rw [this]
    unfold outcome
    exact Nat.lt_irrefl _
  have run : ∀ im : Image Nat, Fits (2 ^ 32) im → Inside im (20, 20) →
      brief (2 ^ 32) im [(20, 20)] 128 oneTest = some (.ok [⟨[0], (20, 20)⟩]) := by
    intro im hf hk
    obtain ⟨ds, h1, h2⟩ := C71_bits_partial im hf [(20, 20)] (by simpa using hk) oneTest hp
      (by simp [oneTest]) (by rw [hlen])
    rw [hlen] at h1
    rw [h1]
    cases h2 with
    | cons hd hr =>
      cases hr
      rename_i d
      obtain ⟨p1, p2, pw, p3, p4⟩ := hd
      obtain ⟨bs, pos⟩ := d
      dsimp only at p1 p2 pw
      rw [hlen] at p2 p3
      obtain ⟨w, rfl⟩ := List.length_eq_one_iff.1 p2
      subst p1
      have hw : w = 0 := by
        apply Nat.eq_of_testBit_eq
        intro j
        rw [Nat.zero_testBit]
        by_cases hj : j < 128
        · by_cases hj0 : j = 0
          · subst hj0; exact p3 0 (by decide)
          · have h128 : 128 - j < oneTest.length := by rw [hlen]; omega
            have := p4 (128 - j) h128 (by omega)
            rw [show (128 - j) / 128 = 0 by omega, show 128 - (128 - j) % 128 = j by omega] at this
            by_contra hc
            exact hout im (20, 20) _ h128 (by omega) (this.1 (by
              change w.testBit j = true; simpa using hc))
        · exact Nat.testBit_lt_two_pow (lt_of_lt_of_le (pw w (by simp))
            (Nat.pow_le_pow_right (by decide) (by omega)))
      rw [hw]
  refine ⟨⟨[0], (20, 20)⟩, run dark ⟨fun x y _ _ => by change 0 < 256; decide, by decide +kernel⟩
    ⟨by decide, by decide, by decide, by decide⟩,
    run bright ⟨fun x _ _ _ => by
      change (if 20 ≤ x then 100 else 0) < 256
      split <;> decide, by decide +kernel⟩
    ⟨by decide, by decide, by decide, by decide⟩, (C71_symm _ ⟨[0], (20, 20)⟩).2, ?_, ?_⟩
  · unfold outcome boxMean
    rw [box_eq, box_eq]
    decide +kernel
  · unfold outcome boxMean
    rw [box_eq, box_eq]
    decide +kernel

/-- **C71.** A descriptor of zero tests is accepted and still has one (zero) word. -/
theorem C71_zero_length (bound : Nat) (I : Image Nat) (k : Nat × Nat)
    (hk : 15 < k.1 ∧ k.1 + 15 < I.w ∧ 15 < k.2 ∧ k.2 + 15 < I.h) :
    briefImpl bound I [k] [] 0 = some (.ok [⟨[0], k⟩]) := by
  unfold briefImpl
  rw [if_neg (by decide), if_neg (by simp)]
  unfold briefLoop patchRadius
  rw [if_neg (by omega)]
  unfold briefOne patchRadius
  rw [csub_of_le (by omega), Option.bind_some, csub_of_le (by omega)]
  rfl

example : getBitSubset ⟨[5, 2 ^ 127], (0, 0)⟩ [0, 1, 2, 255] = some 11 := by decide +kernel
example : hammingDistance ⟨[5, 2 ^ 127], (0, 0)⟩ ⟨[6, 0], (0, 0)⟩ = some 3 := by decide +kernel
example : localPixelAverage (2 ^ 32) (Image.ofRows 0 [[0, 0, 0, 0], [0, 1, 3, 6], [0, 5, 12, 21],
    [0, 12, 27, 45]]) 0 0 1 = some 3 := by decide +kernel
example : matchDescriptors getBitSubset hammingDistance (2 ^ 32 - 1) [[3], [70]]
    [⟨[9], (0, 0)⟩, ⟨[2 ^ 70], (1, 0)⟩]
    [⟨[2 ^ 70 + 1], (5, 5)⟩, ⟨[8], (6, 6)⟩, ⟨[9], (7, 7)⟩] 2 =
  some [(⟨[9], (0, 0)⟩, ⟨[9], (7, 7)⟩), (⟨[2 ^ 70], (1, 0)⟩, ⟨[2 ^ 70 + 1], (5, 5)⟩)] := by
  decide +kernel

end Verif.Brief
