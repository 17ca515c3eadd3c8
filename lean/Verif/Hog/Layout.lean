import Verif.Hog.Model
import Mathlib.Tactic.Ring
import Mathlib.Data.Nat.Basic
/-
Property theorem C77 (first half): which options are accepted, rejected, or panic, and where the
blocks lie.
-/
namespace Verif.Hog

/-- Options that fit a `w × h` image: cells tile the image, at least one block fits in the grid of
cells in each direction, and the strides end exactly at the last cell. -/
structure Fits (w h : Nat) (o : Options) : Prop where
  cell_pos : 0 < o.cellSide
  stride_pos : 0 < o.blockStride
  cell_w : o.cellSide ∣ w
  cell_h : o.cellSide ∣ h
  side_w : o.blockSide ≤ w / o.cellSide
  side_h : o.blockSide ≤ h / o.cellSide
  stride_w : o.blockStride ∣ w / o.cellSide - o.blockSide
  stride_h : o.blockStride ∣ h / o.cellSide - o.blockSide

theorem cmod_pos {a b : Nat} (h : 0 < b) : cmod a b = some (a % b) := by
  simp [cmod, Nat.pos_iff_ne_zero.mp h]

theorem nmod {a b : Nat} (h : ¬ b ∣ a) : ¬ a % b = 0 := fun e => h (Nat.dvd_of_mod_eq_zero e)

theorem cmod_zero (a : Nat) : cmod a 0 = none := rfl

theorem csub_none {a b : Nat} (h : a < b) : csub a b = none := by
  simp [csub, show ¬ b ≤ a by omega]

theorem numBlocks_eq {n s t : Nat} (ht : 0 < t) (h : s ≤ n) (hd : t ∣ n - s) :
    numBlocks n s t = some ((n - s) / t + 1) := by
  obtain ⟨q, hq⟩ := hd
  unfold numBlocks
  rw [csub_of_le (by omega), Option.bind_some, if_neg (by omega),
    show n + t - s = (n - s) + t by omega, Nat.add_div_right _ ht]

theorem checkedCell_ok {w h : Nat} {o : Options} (hc : 0 < o.cellSide) (hw : o.cellSide ∣ w)
    (hh : o.cellSide ∣ h) :
    checkedCellDimensions w h o = some (.ok (w / o.cellSide, h / o.cellSide)) := by
  unfold checkedCellDimensions
  rw [cmod_pos hc, cmod_pos hc, Nat.mod_eq_zero_of_dvd hw, Nat.mod_eq_zero_of_dvd hh]
  simp

/-- The messages for a grid of cells that does not tile the image. -/
def cellReasons (w h : Nat) (o : Options) : List Reason :=
  (if o.cellSide ∣ w then [] else [Reason.cellWidth]) ++
  (if o.cellSide ∣ h then [] else [Reason.cellHeight])

/-- The messages for blocks that do not end at the last cell. -/
def blockReasons (w h : Nat) (o : Options) : List Reason :=
  (if o.blockStride ∣ w / o.cellSide - o.blockSide then [] else [Reason.blockWidth]) ++
  (if o.blockStride ∣ h / o.cellSide - o.blockSide then [] else [Reason.blockHeight])

theorem checkedCell_err {w h : Nat} {o : Options} (hc : 0 < o.cellSide)
    (hn : ¬ (o.cellSide ∣ w ∧ o.cellSide ∣ h)) :
    checkedCellDimensions w h o = some (.error (cellReasons w h o)) := by
  unfold checkedCellDimensions cellReasons
  rw [cmod_pos hc, cmod_pos hc]
  by_cases h1 : o.cellSide ∣ w <;> by_cases h2 : o.cellSide ∣ h
  · exact absurd ⟨h1, h2⟩ hn
  · have this := nmod h2
    simp [h1, h2, Nat.mod_eq_zero_of_dvd h1, this]
  · have this := nmod h1
    simp [h1, h2, Nat.mod_eq_zero_of_dvd h2, this]
  · have a1 := nmod h1
    have a2 := nmod h2
    simp [h1, h2, a1, a2]

/-- C77: fitting options are accepted, with the cell counts of the tiling and as many blocks as
strides fit. -/
theorem C77_accept {w h : Nat} {o : Options} (f : Fits w h o) :
    fromOptions w h o = some (.ok ⟨o, w / o.cellSide, h / o.cellSide,
      (w / o.cellSide - o.blockSide) / o.blockStride + 1,
      (h / o.cellSide - o.blockSide) / o.blockStride + 1⟩) := by
  unfold fromOptions
  rw [checkedCell_ok f.cell_pos f.cell_w f.cell_h, Option.bind_some]
  dsimp only
  unfold checkedBlockDimensions
  rw [csub_of_le f.side_w, csub_of_le f.side_h]
  simp only [Option.bind_some]
  rw [cmod_pos f.stride_pos, cmod_pos f.stride_pos, Nat.mod_eq_zero_of_dvd f.stride_w,
    Nat.mod_eq_zero_of_dvd f.stride_h, numBlocks_eq f.stride_pos f.side_w f.stride_w,
    numBlocks_eq f.stride_pos f.side_h f.stride_h]
  simp

/-- C77: exactly the options that panic: a zero cell side, or a tiling grid of cells combined with
a block larger than the grid or a zero stride. -/
theorem C77_panic (w h : Nat) (o : Options) :
    fromOptions w h o = none ↔ o.cellSide = 0 ∨ (o.cellSide ∣ w ∧ o.cellSide ∣ h ∧
      (w / o.cellSide < o.blockSide ∨ h / o.cellSide < o.blockSide ∨ o.blockStride = 0)) := by
  by_cases hc : o.cellSide = 0
  · simp [fromOptions, checkedCellDimensions, hc, cmod_zero]
  by_cases hd : o.cellSide ∣ w ∧ o.cellSide ∣ h
  · simp only [hc, false_or, hd.1, hd.2, true_and]
    unfold fromOptions
    rw [checkedCell_ok (Nat.pos_of_ne_zero hc) hd.1 hd.2, Option.bind_some]
    dsimp only
    unfold checkedBlockDimensions
    by_cases h1 : w / o.cellSide < o.blockSide
    · simp [csub_none h1, h1]
    by_cases h3 : o.blockStride = 0
    · simp [csub_of_le (Nat.le_of_not_lt h1), h3, cmod_zero]
    by_cases h2 : h / o.cellSide < o.blockSide
    · simp [csub_of_le (Nat.le_of_not_lt h1), csub_none h2, h2, cmod_pos (Nat.pos_of_ne_zero h3)]
    · simp only [h1, h2, h3, or_self, iff_false]
      rw [csub_of_le (Nat.le_of_not_lt h1), csub_of_le (Nat.le_of_not_lt h2)]
      simp only [Option.bind_some]
      rw [cmod_pos (Nat.pos_of_ne_zero h3), cmod_pos (Nat.pos_of_ne_zero h3)]
      simp only [Option.bind_some]
      by_cases e1 : (w / o.cellSide - o.blockSide) % o.blockStride = 0 <;>
      by_cases e2 : (h / o.cellSide - o.blockSide) % o.blockStride = 0
      · rw [numBlocks_eq (Nat.pos_of_ne_zero h3) (Nat.le_of_not_lt h1) (Nat.dvd_of_mod_eq_zero e1),
          numBlocks_eq (Nat.pos_of_ne_zero h3) (Nat.le_of_not_lt h2) (Nat.dvd_of_mod_eq_zero e2)]
        simp [e1, e2]
      all_goals simp [e1, e2]
  · have : ¬ (o.cellSide ∣ w ∧ o.cellSide ∣ h ∧
      (w / o.cellSide < o.blockSide ∨ h / o.cellSide < o.blockSide ∨ o.blockStride = 0)) :=
      fun e => hd ⟨e.1, e.2.1⟩
    simp only [hc, this, or_self, iff_false]
    unfold fromOptions
    rw [checkedCell_err (Nat.pos_of_ne_zero hc) hd]
    simp

/-- C77: the options reported as an error, with the listed reasons. -/
theorem C77_error (w h : Nat) (o : Options) (hc : 0 < o.cellSide) :
    (¬ (o.cellSide ∣ w ∧ o.cellSide ∣ h) →
      fromOptions w h o = some (.error (cellReasons w h o))) ∧
    (o.cellSide ∣ w → o.cellSide ∣ h → o.blockSide ≤ w / o.cellSide →
      o.blockSide ≤ h / o.cellSide → 0 < o.blockStride → ¬ Fits w h o →
      fromOptions w h o = some (.error (blockReasons w h o))) := by
  constructor
  · intro hd
    unfold fromOptions
    rw [checkedCell_err hc hd, Option.bind_some]
  · intro hw hh h1 h2 h3 hf
    unfold fromOptions
    rw [checkedCell_ok hc hw hh, Option.bind_some]
    dsimp only
    unfold checkedBlockDimensions blockReasons
    rw [csub_of_le h1, csub_of_le h2]
    simp only [Option.bind_some]
    rw [cmod_pos h3, cmod_pos h3]
    simp only [Option.bind_some]
    by_cases e1 : o.blockStride ∣ w / o.cellSide - o.blockSide <;>
    by_cases e2 : o.blockStride ∣ h / o.cellSide - o.blockSide
    · exact absurd ⟨hc, h3, hw, hh, h1, h2, e1, e2⟩ hf
    · have a := nmod e2
      simp [e1, e2, Nat.mod_eq_zero_of_dvd e1, a]
    · have a := nmod e1
      simp [e1, e2, Nat.mod_eq_zero_of_dvd e2, a]
    · have a := nmod e1
      have b := nmod e2
      simp [e1, e2, a, b]

/-- C77: only fitting options are accepted. -/
theorem C77_accept_iff (w h : Nat) (o : Options) :
    (∃ s, fromOptions w h o = some (.ok s)) ↔ Fits w h o := by
  constructor
  · rintro ⟨s, hs⟩
    have hp := (C77_panic w h o).not.mp (by rw [hs]; simp)
    push Not at hp
    obtain ⟨hc, hp⟩ := hp
    have hc := Nat.pos_of_ne_zero hc
    obtain ⟨he1, he2⟩ := C77_error w h o hc
    by_cases hd : o.cellSide ∣ w ∧ o.cellSide ∣ h
    · obtain ⟨a, b, c⟩ := hp hd.1 hd.2
      by_contra hf
      have := he2 hd.1 hd.2 a b (Nat.pos_of_ne_zero c) hf
      rw [hs] at this
      simp at this
    · have := he1 hd
      rw [hs] at this
      simp at this
  · intro f
    exact ⟨_, C77_accept f⟩

/-- An accepted specification: what the rest of the module relies on. -/
structure Valid (s : Spec) : Prop where
  stride_pos : 0 < s.options.blockStride
  wide_pos : 0 < s.blocksWide
  high_pos : 0 < s.blocksHigh
  wide : (s.blocksWide - 1) * s.options.blockStride + s.options.blockSide = s.cellsWide
  high : (s.blocksHigh - 1) * s.options.blockStride + s.options.blockSide = s.cellsHigh

/-- C77: in an accepted specification the cells tile the image, the first block starts at the first
cell and the last block ends exactly at the last cell. -/
theorem C77_cover {w h : Nat} {o : Options} {s : Spec} (hs : fromOptions w h o = some (.ok s)) :
    s.options = o ∧ 0 < o.cellSide ∧ s.cellsWide * o.cellSide = w ∧ s.cellsHigh * o.cellSide = h ∧
      Valid s := by
  have f := (C77_accept_iff w h o).mp ⟨s, hs⟩
  rw [C77_accept f] at hs
  simp only [Option.some.injEq, Except.ok.injEq] at hs
  subst hs
  have := f.side_w
  have := f.side_h
  refine ⟨rfl, f.cell_pos, Nat.div_mul_cancel f.cell_w, Nat.div_mul_cancel f.cell_h, f.stride_pos,
    Nat.succ_pos _, Nat.succ_pos _, ?_, ?_⟩
  · dsimp only
    rw [Nat.add_sub_cancel, Nat.div_mul_cancel f.stride_w]
    omega
  · dsimp only
    rw [Nat.add_sub_cancel, Nat.div_mul_cancel f.stride_h]
    omega

/-- A block position lies inside the grid. -/
theorem block_inside {n b t s i : Nat} (h : (n - 1) * t + s = b) {k : Nat} (hk : k < n)
    (hi : i < s) : k * t + i < b := by
  have : k * t ≤ (n - 1) * t := Nat.mul_le_mul_right _ (by omega)
  omega

/-- C77: every cell of every block lies inside the grid of cells. -/
theorem C77_inside {s : Spec} (v : Valid s) {bx by_ ix iy : Nat} (hbx : bx < s.blocksWide)
    (hby : by_ < s.blocksHigh) (hix : ix < s.options.blockSide) (hiy : iy < s.options.blockSide) :
    bx * s.options.blockStride + ix < s.cellsWide ∧
    by_ * s.options.blockStride + iy < s.cellsHigh :=
  ⟨block_inside v.wide hbx hix, block_inside v.high hby hiy⟩

/-- C77: when the stride is at most the block side, every cell belongs to some block. -/
theorem C77_all_cells {s : Spec} (v : Valid s) (h : s.options.blockStride ≤ s.options.blockSide)
    {cx cy : Nat} (hx : cx < s.cellsWide) (hy : cy < s.cellsHigh) :
    ∃ bx by_ ix iy, bx < s.blocksWide ∧ by_ < s.blocksHigh ∧ ix < s.options.blockSide ∧
      iy < s.options.blockSide ∧ cx = bx * s.options.blockStride + ix ∧
      cy = by_ * s.options.blockStride + iy := by
  have key : ∀ n b c, 0 < n → (n - 1) * s.options.blockStride + s.options.blockSide = b → c < b →
      ∃ k i, k < n ∧ i < s.options.blockSide ∧ c = k * s.options.blockStride + i := by
    intro n b c hn hb hc
    have hp := v.stride_pos
    have hdm := Nat.div_add_mod c s.options.blockStride
    have hm := Nat.mod_lt c hp
    rw [Nat.mul_comm] at hdm
    by_cases hk : c / s.options.blockStride < n
    · exact ⟨_, c % s.options.blockStride, hk, by omega, hdm.symm⟩
    · refine ⟨n - 1, c - (n - 1) * s.options.blockStride, by omega, ?_, ?_⟩
      · have : (n - 1) * s.options.blockStride ≤ c / s.options.blockStride * s.options.blockStride :=
          Nat.mul_le_mul_right _ (by omega)
        omega
      · have : (n - 1) * s.options.blockStride ≤ c / s.options.blockStride * s.options.blockStride :=
          Nat.mul_le_mul_right _ (by omega)
        omega
  obtain ⟨bx, ix, a1, a2, a3⟩ := key _ _ cx v.wide_pos v.wide hx
  obtain ⟨by_, iy, b1, b2, b3⟩ := key _ _ cy v.high_pos v.high hy
  exact ⟨bx, by_, ix, iy, a1, b1, a2, b2, a3, b3⟩

/-- C77 is false as stated: options that cannot fit the image panic instead of being reported:
a block larger than the grid of cells, a zero stride, and a zero cell side. -/
theorem C77_negation :
    fromOptions 10 10 ⟨8, true, 5, 3, 1⟩ = none ∧ fromOptions 10 10 ⟨8, true, 5, 2, 0⟩ = none ∧
    fromOptions 10 10 ⟨8, true, 0, 2, 1⟩ = none := by decide

example : fromOptions 30 30 ⟨8, true, 5, 2, 1⟩ = some (.ok ⟨⟨8, true, 5, 2, 1⟩, 6, 6, 5, 5⟩) := by
  decide
example : fromOptions 31 29 ⟨8, true, 5, 2, 1⟩ =
    some (.error [.cellWidth, .cellHeight]) := by decide
example : fromOptions 30 35 ⟨8, true, 5, 3, 2⟩ = some (.error [.blockWidth]) := by decide
/-- With a stride above the block side some cells belong to no block. -/
example : fromOptions 7 7 ⟨8, true, 1, 1, 3⟩ = some (.ok ⟨⟨8, true, 1, 1, 3⟩, 7, 7, 3, 3⟩) := by
  decide

end Verif.Hog
