import Verif.Hog.Layout
import Verif.ImageHash.Transpose
import Mathlib.Algebra.Order.Field.Basic
import Mathlib.Algebra.BigOperators.Group.List.Basic
import Mathlib.Analysis.SpecialFunctions.Pow.Real
/-
Property theorem C77 (second half): layout, length and normalisation of the descriptor.
-/
namespace Verif.Hog
open Verif.ImageHash

variable {K : Type _}

/-- Raster scan rule with a linear index. -/
theorem lin_spec {σ : Type _} {f : Nat → Nat → σ → Option σ} (I : Nat → σ → Prop) {w h : Nat} {s : σ}
    (h0 : I 0 s)
    (hs : ∀ x y s, x < w → y < h → I (x + w * y) s → ∃ s', f x y s = some s' ∧ I (x + w * y + 1) s') :
    ∃ s', forYX 0 h 0 w s f = some s' ∧ I (w * h) s' := by
  obtain ⟨s', h1, h2⟩ := forYX_spec (f := f) (fun x y s => I (x + w * y) s) (Nat.zero_le h)
    (Nat.zero_le w) (by simpa using h0)
    (fun x y s _ hx _ hy hI => by
      obtain ⟨s', a, b⟩ := hs x y s hx hy hI
      exact ⟨s', a, by rw [show x + 1 + w * y = x + w * y + 1 by omega]; exact b⟩)
    (fun y s _ _ hI => by rw [show 0 + w * (y + 1) = w + w * y by ring]; exact hI)
  exact ⟨s', h1, by simpa using h2⟩

theorem slice_some {data : List K} {off len : Nat} (h : off + len ≤ data.length) :
    slice data off len = some ((data.drop off).take len) := by
  simp [slice, h]

theorem length_sl {data : List K} {off len : Nat} (h : off + len ≤ data.length) :
    ((data.drop off).take len).length = len := by
  simp; omega

theorem getElem?_sl (data : List K) (off len i : Nat) :
    ((data.drop off).take len)[i]? = if i < len then data[off + i]? else none := by
  rw [List.getElem?_take, List.getElem?_drop]

theorem length_writeSlice {data src : List K} {off : Nat} (h : off + src.length ≤ data.length) :
    (writeSlice data off src).length = data.length := by
  simp [writeSlice]; omega

theorem getElem?_writeSlice {data src : List K} {off : Nat} (h : off + src.length ≤ data.length)
    (i : Nat) : (writeSlice data off src)[i]? =
      if off ≤ i ∧ i < off + src.length then src[i - off]? else data[i]? := by
  unfold writeSlice
  have hl : (data.take off).length = off := by simp; omega
  by_cases h1 : i < off
  · rw [if_neg (by omega), List.append_assoc, List.getElem?_append_left (by omega),
      List.getElem?_take_of_lt h1]
  · by_cases h2 : i < off + src.length
    · rw [if_pos ⟨by omega, h2⟩, List.getElem?_append_left (by simp; omega),
        List.getElem?_append_right (by omega), hl]
    · rw [if_neg (by omega), List.getElem?_append_right (by simp; omega), List.getElem?_drop]
      congr 1
      simp; omega

/-- The list holds the histogram values `hist bin cx cy` of a grid of cells, innermost dimension
first: a contiguous histogram per cell, cells row by row. -/
structure IsGrid (s : Spec) (hist : Nat → Nat → Nat → K) (grid : List K) : Prop where
  len : grid.length = s.options.orientations * (s.cellsWide * s.cellsHigh)
  val : ∀ a cx cy, a < s.options.orientations → cx < s.cellsWide → cy < s.cellsHigh →
    grid[a + s.options.orientations * (cx + s.cellsWide * cy)]? = some (hist a cx cy)

/-- The vector of the block at `(bx, by)`: all histograms of its cells, row by row. -/
def blockVec (s : Spec) (hist : Nat → Nat → Nat → K) (bx by_ : Nat) : List K :=
  (List.range s.blockDescriptorLength).map fun i =>
    hist (i % s.options.orientations)
      (bx * s.options.blockStride + i / s.options.orientations % s.options.blockSide)
      (by_ * s.options.blockStride + i / s.options.orientations / s.options.blockSide)

@[simp] theorem length_blockVec (s : Spec) (hist : Nat → Nat → Nat → K) (bx by_ : Nat) :
    (blockVec s hist bx by_).length = s.blockDescriptorLength := by simp [blockVec]

/-- Entry `(a, ix, iy)` of the block vector. -/
theorem blockVec_entry (s : Spec) (hist : Nat → Nat → Nat → K) (bx by_ : Nat) {a ix iy : Nat}
    (ha : a < s.options.orientations) (hx : ix < s.options.blockSide)
    (hy : iy < s.options.blockSide) :
    (blockVec s hist bx by_)[a + s.options.orientations * (ix + s.options.blockSide * iy)]? =
      some (hist a (bx * s.options.blockStride + ix) (by_ * s.options.blockStride + iy)) := by
  unfold blockVec
  have : a + s.options.orientations * (ix + s.options.blockSide * iy) < s.blockDescriptorLength := by
    unfold Spec.blockDescriptorLength
    rw [Nat.mul_assoc]
    exact idx_lt ha (idx_lt hx hy)
  rw [List.getElem?_map, List.getElem?_range this, Option.map_some, idx_mod ha, idx_div ha,
    idx_mod hx, idx_div hx]

theorem fillBlock_spec {s : Spec} (v : Valid s) {hist : Nat → Nat → Nat → K} {grid : List K}
    (hg : IsGrid s hist grid) {bx by_ : Nat} (hbx : bx < s.blocksWide) (hby : by_ < s.blocksHigh)
    {block : List K} (hb : block.length = s.blockDescriptorLength) :
    fillBlock s grid bx by_ block = some (blockVec s hist bx by_) := by
  have hL : s.blockDescriptorLength =
      s.options.orientations * (s.options.blockSide * s.options.blockSide) := Nat.mul_assoc ..
  obtain ⟨r, h1, h2, h3⟩ := lin_spec (w := s.options.blockSide) (h := s.options.blockSide) (s := block)
    (f := fun ix iy (block : List K) =>
      (innerSlice block s.blockInternalLengths ix iy).bind fun dst =>
      (innerSlice grid s.cellGridLengths (bx * s.options.blockStride + ix)
        (by_ * s.options.blockStride + iy)).bind fun hist =>
      (copyInto hist dst).bind fun new =>
      some (writeSlice block (offset s.blockInternalLengths 0 ix iy) new))
    (fun n b => b.length = s.blockDescriptorLength ∧
      ∀ i, i < s.options.orientations * n → b[i]? = (blockVec s hist bx by_)[i]?)
    ⟨hb, fun i hi => by omega⟩
    (by
      intro x y b hx hy ⟨hl, hI⟩
      obtain ⟨hcx, hcy⟩ := C77_inside v hbx hby hx hy
      have hoff : offset s.blockInternalLengths 0 x y =
          s.options.orientations * (x + s.options.blockSide * y) := by
        simp only [offset, Spec.blockInternalLengths]; ring
      have hoffg : offset s.cellGridLengths 0 (bx * s.options.blockStride + x)
          (by_ * s.options.blockStride + y) = s.options.orientations *
            (bx * s.options.blockStride + x + s.cellsWide * (by_ * s.options.blockStride + y)) := by
        simp only [offset, Spec.cellGridLengths]; ring
      have hfit : s.options.orientations * (x + s.options.blockSide * y) + s.options.orientations
          ≤ b.length := by
        rw [hl, hL]
        calc _ = s.options.orientations * (x + s.options.blockSide * y + 1) := by ring
          _ ≤ _ := Nat.mul_le_mul_left _ (idx_lt hx hy)
      have hfitg : s.options.orientations * (bx * s.options.blockStride + x +
          s.cellsWide * (by_ * s.options.blockStride + y)) + s.options.orientations
          ≤ grid.length := by
        rw [hg.len]
        calc _ = s.options.orientations * (bx * s.options.blockStride + x +
            s.cellsWide * (by_ * s.options.blockStride + y) + 1) := by ring
          _ ≤ _ := Nat.mul_le_mul_left _ (idx_lt hcx hcy)
      unfold innerSlice
      rw [hoff, hoffg]
      simp only [Spec.blockInternalLengths, Spec.cellGridLengths]
      rw [slice_some hfit, slice_some hfitg, Option.bind_some, Option.bind_some]
      unfold copyInto
      rw [length_sl hfit, slice_some (by rw [length_sl hfitg]; omega), Option.bind_some]
      refine ⟨_, rfl, ?_⟩
      have hnl : ((((grid.drop (s.options.orientations * (bx * s.options.blockStride + x +
          s.cellsWide * (by_ * s.options.blockStride + y)))).take s.options.orientations).drop 0).take
          s.options.orientations).length = s.options.orientations :=
        length_sl (by rw [length_sl hfitg]; omega)
      refine ⟨by rw [length_writeSlice (by rw [hnl]; exact hfit), hl], ?_⟩
      intro i hi
      rw [getElem?_writeSlice (by rw [hnl]; exact hfit), hnl]
      have hmul : s.options.orientations * (x + s.options.blockSide * y + 1) =
          s.options.orientations * (x + s.options.blockSide * y) + s.options.orientations := by ring
      rw [hmul] at hi
      by_cases hlt : i < s.options.orientations * (x + s.options.blockSide * y)
      · rw [if_neg (by omega)]
        exact hI i hlt
      · rw [if_pos ⟨by omega, hi⟩, getElem?_sl, if_pos (by omega), Nat.zero_add, getElem?_sl,
          if_pos (by omega)]
        obtain ⟨a, rfl⟩ : ∃ a, i = a + s.options.orientations * (x + s.options.blockSide * y) :=
          ⟨i - s.options.orientations * (x + s.options.blockSide * y), by omega⟩
        have ha : a < s.options.orientations := by omega
        rw [blockVec_entry s hist bx by_ ha hx hy, Nat.add_sub_cancel, Nat.add_comm,
          hg.val _ _ _ ha hcx hcy])
  unfold fillBlock
  rw [h1]
  congr 1
  apply List.ext_getElem?
  intro i
  by_cases hi : i < s.options.orientations * (s.options.blockSide * s.options.blockSide)
  · exact h3 i hi
  · rw [List.getElem?_eq_none (by rw [h2, hL]; omega),
      List.getElem?_eq_none (by rw [length_blockVec, hL]; omega)]

/-- Scale a block to the given norm when that is positive (the documented normalisation). -/
def normalise [Zero K] [LT K] [DecidableLT K] [Div K] (norm : List K → K) (b : List K) : List K :=
  if 0 < norm b then b.map (· / norm b) else b

theorem length_normalise [Zero K] [LT K] [DecidableLT K] [Div K] (norm : List K → K) (b : List K) :
    (normalise norm b).length = b.length := by
  unfold normalise; split <;> simp

/-- The list is the row by row concatenation of the first `n` block vectors. -/
theorem C77_layout [Zero K] [LT K] [DecidableLT K] [Div K] (norm : List K → K) {s : Spec}
    (v : Valid s) {hist : Nat → Nat → Nat → K} {grid : List K} (hg : IsGrid s hist grid) :
    ∃ d, descriptorFromGrid norm grid s = some d ∧ d.length = s.descriptorLength ∧
      ∀ bx by_, bx < s.blocksWide → by_ < s.blocksHigh →
        slice d (s.blockDescriptorLength * (bx + s.blocksWide * by_)) s.blockDescriptorLength =
          some (normalise norm (blockVec s hist bx by_)) := by
  have hD : s.descriptorLength = s.blockDescriptorLength * (s.blocksWide * s.blocksHigh) := by
    unfold Spec.descriptorLength; ring
  have hoff : ∀ x y, offset s.blockGridLengths 0 x y =
      s.blockDescriptorLength * (x + s.blocksWide * y) := fun x y => by
    simp only [offset, Spec.blockGridLengths]; ring
  have hfit : ∀ x y (d : List K), x < s.blocksWide → y < s.blocksHigh →
      d.length = s.descriptorLength →
      s.blockDescriptorLength * (x + s.blocksWide * y) + s.blockDescriptorLength ≤ d.length := by
    intro x y d hx hy hd
    rw [hd, hD]
    calc _ = s.blockDescriptorLength * (x + s.blocksWide * y + 1) := by ring
      _ ≤ _ := Nat.mul_le_mul_left _ (idx_lt hx hy)
  have hmul : ∀ x y, s.blockDescriptorLength * (x + s.blocksWide * y + 1) =
      s.blockDescriptorLength * (x + s.blocksWide * y) + s.blockDescriptorLength := fun x y => by ring
  -- what entry `i` of the descriptor must be, before and after normalisation
  obtain ⟨d1, e1, l1, v1⟩ := lin_spec (w := s.blocksWide) (h := s.blocksHigh)
    (s := List.replicate (dataLength s.blockGridLengths) (0 : K))
    (f := fun bx by_ (data : List K) =>
      (innerSlice data s.blockGridLengths bx by_).bind fun block =>
      (fillBlock s grid bx by_ block).bind fun block =>
      some (writeSlice data (offset s.blockGridLengths 0 bx by_) block))
    (fun n d => d.length = s.descriptorLength ∧ ∀ x y, x < s.blocksWide → y < s.blocksHigh →
      x + s.blocksWide * y < n → ∀ i, i < s.blockDescriptorLength →
        d[s.blockDescriptorLength * (x + s.blocksWide * y) + i]? = (blockVec s hist x y)[i]?)
    ⟨by simp only [List.length_replicate, dataLength, Spec.blockGridLengths]; rw [hD]; ring,
      fun x y _ _ h => by omega⟩
    (by
      intro x y d hx hy ⟨hl, hI⟩
      unfold innerSlice
      rw [hoff]
      simp only [Spec.blockGridLengths]
      rw [slice_some (hfit x y d hx hy hl), Option.bind_some,
        fillBlock_spec v hg hx hy (length_sl (hfit x y d hx hy hl)), Option.bind_some]
      have hf' : s.blockDescriptorLength * (x + s.blocksWide * y) +
          (blockVec s hist x y).length ≤ d.length := by
        rw [length_blockVec]; exact hfit x y d hx hy hl
      refine ⟨_, rfl, by rw [length_writeSlice hf', hl], ?_⟩
      intro x' y' hx' hy' hlt i hi
      rw [getElem?_writeSlice hf', length_blockVec]
      by_cases he : x' + s.blocksWide * y' = x + s.blocksWide * y
      · obtain ⟨rfl, rfl⟩ := (idx_inj hx' hx).mp he
        rw [if_pos (by omega), Nat.add_sub_cancel_left]
      · have : s.blockDescriptorLength * (x' + s.blocksWide * y' + 1) ≤
            s.blockDescriptorLength * (x + s.blocksWide * y) := Nat.mul_le_mul_left _ (by omega)
        rw [hmul] at this
        rw [if_neg (by omega)]
        exact hI x' y' hx' hy' (by omega) i hi)
  obtain ⟨d2, e2, l2, v2, _⟩ := lin_spec (w := s.blocksWide) (h := s.blocksHigh) (s := d1)
    (f := fun bx by_ (data : List K) =>
      (innerSlice data s.blockGridLengths bx by_).bind fun block =>
      let n := norm block
      if 0 < n then
        some (writeSlice data (offset s.blockGridLengths 0 bx by_) (block.map (· / n)))
      else some data)
    (fun n d => d.length = s.descriptorLength ∧ (∀ x y, x < s.blocksWide → y < s.blocksHigh →
      x + s.blocksWide * y < n → ∀ i, i < s.blockDescriptorLength →
        d[s.blockDescriptorLength * (x + s.blocksWide * y) + i]? =
          (normalise norm (blockVec s hist x y))[i]?) ∧
      ∀ x y, x < s.blocksWide → y < s.blocksHigh → n ≤ x + s.blocksWide * y →
        ∀ i, i < s.blockDescriptorLength →
        d[s.blockDescriptorLength * (x + s.blocksWide * y) + i]? = (blockVec s hist x y)[i]?)
    ⟨l1, fun x y _ _ h => by omega, fun x y hx hy _ => v1 x y hx hy (idx_lt hx hy)⟩
    (by
      intro x y d hx hy ⟨hl, hI, hI'⟩
      unfold innerSlice
      rw [hoff]
      simp only [Spec.blockGridLengths]
      rw [slice_some (hfit x y d hx hy hl), Option.bind_some]
      have hblk : ((d.drop (s.blockDescriptorLength * (x + s.blocksWide * y))).take
          s.blockDescriptorLength) = blockVec s hist x y := by
        apply List.ext_getElem?
        intro i
        rw [getElem?_sl]
        by_cases hi : i < s.blockDescriptorLength
        · rw [if_pos hi]; exact hI' x y hx hy (Nat.le_refl _) i hi
        · rw [if_neg hi, List.getElem?_eq_none (by rw [length_blockVec]; omega)]
      rw [hblk]
      have hsep : ∀ x' y', x' < s.blocksWide → x' + s.blocksWide * y' ≠ x + s.blocksWide * y →
          ∀ i, i < s.blockDescriptorLength →
          ¬ (s.blockDescriptorLength * (x + s.blocksWide * y) ≤
              s.blockDescriptorLength * (x' + s.blocksWide * y') + i ∧
            s.blockDescriptorLength * (x' + s.blocksWide * y') + i <
              s.blockDescriptorLength * (x + s.blocksWide * y) + s.blockDescriptorLength) := by
        intro x' y' _ hne i hi
        rcases Nat.lt_or_gt_of_ne hne with h | h
        · have : s.blockDescriptorLength * (x' + s.blocksWide * y' + 1) ≤
            s.blockDescriptorLength * (x + s.blocksWide * y) := Nat.mul_le_mul_left _ (by omega)
          rw [hmul] at this
          omega
        · have : s.blockDescriptorLength * (x + s.blocksWide * y + 1) ≤
            s.blockDescriptorLength * (x' + s.blocksWide * y') := Nat.mul_le_mul_left _ (by omega)
          rw [hmul] at this
          omega
      by_cases hn : 0 < norm (blockVec s hist x y)
      · rw [if_pos hn]
        have hf' : s.blockDescriptorLength * (x + s.blocksWide * y) +
            ((blockVec s hist x y).map (· / norm (blockVec s hist x y))).length ≤ d.length := by
          rw [List.length_map, length_blockVec]; exact hfit x y d hx hy hl
        refine ⟨_, rfl, by rw [length_writeSlice hf', hl], ?_, ?_⟩
        · intro x' y' hx' hy' hlt i hi
          rw [getElem?_writeSlice hf', List.length_map, length_blockVec]
          by_cases he : x' + s.blocksWide * y' = x + s.blocksWide * y
          · obtain ⟨rfl, rfl⟩ := (idx_inj hx' hx).mp he
            rw [if_pos (by omega), Nat.add_sub_cancel_left, normalise, if_pos hn]
          · rw [if_neg (hsep x' y' hx' he i hi)]
            exact hI x' y' hx' hy' (by omega) i hi
        · intro x' y' hx' hy' hlt i hi
          rw [getElem?_writeSlice hf', List.length_map, length_blockVec,
            if_neg (hsep x' y' hx' (by omega) i hi)]
          exact hI' x' y' hx' hy' (by omega) i hi
      · rw [if_neg hn]
        refine ⟨_, rfl, hl, ?_, fun x' y' hx' hy' hlt => hI' x' y' hx' hy' (by omega)⟩
        intro x' y' hx' hy' hlt i hi
        by_cases he : x' + s.blocksWide * y' = x + s.blocksWide * y
        · obtain ⟨rfl, rfl⟩ := (idx_inj hx' hx).mp he
          rw [normalise, if_neg hn]
          exact hI' x' y' hx' hy' (by omega) i hi
        · exact hI x' y' hx' hy' (by omega) i hi)
  refine ⟨d2, ?_, l2, ?_⟩
  · unfold descriptorFromGrid
    rw [e1, Option.bind_some]
    exact e2
  · intro bx by_ hbx hby
    rw [slice_some (hfit bx by_ d2 hbx hby l2)]
    congr 1
    apply List.ext_getElem?
    intro i
    rw [getElem?_sl]
    by_cases hi : i < s.blockDescriptorLength
    · rw [if_pos hi]; exact v2 bx by_ hbx hby (idx_lt hbx hby) i hi
    · rw [if_neg hi, List.getElem?_eq_none (by rw [length_normalise, length_blockVec]; omega)]

/-- C77: entry `(bin, ix, iy)` of block `(bx, by)` of the descriptor is the value of that bin in
the cell `(bx · stride + ix, by · stride + iy)`, divided by the norm of the block if positive. -/
theorem C77_entry [Zero K] [LT K] [DecidableLT K] [Div K] (norm : List K → K) {s : Spec}
    (v : Valid s) {hist : Nat → Nat → Nat → K} {grid : List K} (hg : IsGrid s hist grid) :
    ∃ d, descriptorFromGrid norm grid s = some d ∧ d.length = s.descriptorLength ∧
      ∀ bx by_ a ix iy, bx < s.blocksWide → by_ < s.blocksHigh → a < s.options.orientations →
        ix < s.options.blockSide → iy < s.options.blockSide →
        d[s.blockDescriptorLength * (bx + s.blocksWide * by_) +
          (a + s.options.orientations * (ix + s.options.blockSide * iy))]? = some
          (let h := hist a (bx * s.options.blockStride + ix) (by_ * s.options.blockStride + iy)
           let n := norm (blockVec s hist bx by_)
           if 0 < n then h / n else h) := by
  obtain ⟨d, h1, h2, h3⟩ := C77_layout norm v hg
  refine ⟨d, h1, h2, ?_⟩
  intro bx by_ a ix iy hbx hby ha hx hy
  have hb := h3 bx by_ hbx hby
  have hi : a + s.options.orientations * (ix + s.options.blockSide * iy) <
      s.blockDescriptorLength := by
    unfold Spec.blockDescriptorLength
    rw [Nat.mul_assoc]
    exact idx_lt ha (idx_lt hx hy)
  have hsl : slice d (s.blockDescriptorLength * (bx + s.blocksWide * by_)) s.blockDescriptorLength =
      some ((d.drop (s.blockDescriptorLength * (bx + s.blocksWide * by_))).take
        s.blockDescriptorLength) := by
    unfold slice at hb ⊢
    split at hb
    · rename_i hle
      rw [if_pos hle]
    · simp at hb
  rw [hb, Option.some.injEq] at hsl
  have he := congrArg (·[a + s.options.orientations * (ix + s.options.blockSide * iy)]?) hsl
  rw [getElem?_sl, if_pos hi] at he
  rw [← he, normalise]
  by_cases hn : 0 < norm (blockVec s hist bx by_)
  · rw [if_pos hn, if_pos hn, List.getElem?_map, blockVec_entry s hist bx by_ ha hx hy,
      Option.map_some]
  · rw [if_neg hn, if_neg hn, blockVec_entry s hist bx by_ ha hx hy]

/-- math.rs l.9-11 `l2_norm`. -/
noncomputable def l2Norm (xs : List ℝ) : ℝ := Real.sqrt (xs.foldl (fun acc x => acc + x * x) 0)

theorem foldl_sq (xs : List ℝ) (a : ℝ) :
    xs.foldl (fun acc x => acc + x * x) a = a + (xs.map fun x => x * x).sum := by
  induction xs generalizing a with
  | nil => simp
  | cons x xs ih => rw [List.foldl_cons, ih, List.map_cons, List.sum_cons]; ring

theorem sum_sq_nonneg (xs : List ℝ) : 0 ≤ (xs.map fun x => x * x).sum := by
  induction xs with
  | nil => simp
  | cons x xs ih => rw [List.map_cons, List.sum_cons]; have := mul_self_nonneg x; linarith

theorem sum_sq_zero {xs : List ℝ} (h : (xs.map fun x => x * x).sum ≤ 0) : ∀ x ∈ xs, x = 0 := by
  induction xs with
  | nil => simp
  | cons x xs ih =>
    rw [List.map_cons, List.sum_cons] at h
    have h1 := mul_self_nonneg x
    have h2 := sum_sq_nonneg xs
    intro z hz
    rcases List.mem_cons.mp hz with rfl | hz
    · exact mul_self_eq_zero.mp (by linarith)
    · exact ih (by linarith) z hz

theorem normalise_unit (b : List ℝ) :
    ((normalise l2Norm b).map fun x => x * x).sum = 1 ∨ ∀ x ∈ normalise l2Norm b, x = 0 := by
  unfold normalise
  by_cases hn : 0 < l2Norm b
  · left
    rw [if_pos hn, List.map_map]
    have hsq : l2Norm b * l2Norm b = (b.map fun x => x * x).sum := by
      unfold l2Norm
      rw [foldl_sq, zero_add, Real.mul_self_sqrt (sum_sq_nonneg b)]
    have : (b.map ((fun x => x * x) ∘ fun x => x / l2Norm b)) =
        b.map fun x => (x * x) * (l2Norm b * l2Norm b)⁻¹ := by
      apply List.map_congr_left
      intro x _
      simp only [Function.comp]
      field_simp
    rw [this, List.sum_map_mul_right, ← hsq, mul_inv_cancel₀ (by positivity)]
  · right
    rw [if_neg hn]
    apply sum_sq_zero
    unfold l2Norm at hn
    rw [foldl_sq, zero_add, Real.sqrt_pos] at hn
    linarith

/-- C77: with the Euclidean norm, every block of the descriptor is a unit vector or zero. -/
theorem C77_unit {s : Spec} (v : Valid s) {hist : Nat → Nat → Nat → ℝ} {grid : List ℝ}
    (hg : IsGrid s hist grid) :
    ∃ d, descriptorFromGrid l2Norm grid s = some d ∧
      ∀ bx by_, bx < s.blocksWide → by_ < s.blocksHigh → ∃ b,
        slice d (s.blockDescriptorLength * (bx + s.blocksWide * by_)) s.blockDescriptorLength =
          some b ∧ ((b.map fun x => x * x).sum = 1 ∨ ∀ x ∈ b, x = 0) := by
  obtain ⟨d, h1, _, h3⟩ := C77_layout l2Norm v hg
  exact ⟨d, h1, fun bx by_ hbx hby => ⟨_, h3 bx by_ hbx hby, normalise_unit _⟩⟩

/-- Two orientations, a 2 × 2 grid of cells and one 2 × 2 block, with the sum of
the entries standing for the norm. -/
example : descriptorFromGrid (K := ℚ) (fun l => l.sum) [1, 2, 3, 4, 5, 6, 7, 12]
    ⟨⟨2, true, 1, 2, 1⟩, 2, 2, 1, 1⟩ =
    some [1/40, 1/20, 3/40, 1/10, 1/8, 3/20, 7/40, 3/10] := by decide +kernel
/-- A 3 × 1 grid with three one-cell blocks. -/
example : descriptorFromGrid (K := ℚ) (fun l => l.sum) [1, 3, 0, 0, 5, 5]
    ⟨⟨2, true, 1, 1, 1⟩, 3, 1, 3, 1⟩ = some [1/4, 3/4, 0, 0, 1/2, 1/2] := by decide +kernel

end Verif.Hog
