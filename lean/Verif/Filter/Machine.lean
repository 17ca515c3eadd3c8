import Verif.Filter.Box
import Verif.Filter.Median
import Verif.Contrast.Machine
/-
Property C159: `box_filter` (src/filter/box_filter.rs) and `median_filter` (src/filter/median.rs) with large radii, in the `u32` arithmetic of
both build profiles: `dbg = true` checks for overflow (`none` is the panic), `dbg = false` wraps.
-/
namespace Verif.Filter.Machine
open Finset Verif.Integral Verif.Machine Verif.Filter.Box

/-- The loops of the running sums (integral_image.rs:366-379, 443-461) in `u32`. -/
def sumLoopM (dbg : Bool) (lo hi : Nat) (f : Nat → Option Nat) (st : Buf × Nat) : Option (Buf × Nat) :=
  forRange lo hi st fun i st =>
    (f i).bind fun v =>
    (red dbg (2 ^ 32) (st.2 + v)).bind fun sum =>
    (st.1.set i sum).map fun b => (b, sum)

/-- `row_running_sum`, integral_image.rs:348-380; lengths are `usize`. -/
def rowRunningSumM (dbg : Bool) (im : Image Nat) (row : Nat) (buffer : Buf) (padding : Nat) : Option Buf :=
  if im.w + 2 * padding ≤ buffer.len ∧ row < im.h ∧ 0 < im.w then
    (im.get 0 row).bind fun first =>
    (im.get (im.w - 1) row).bind fun last =>
    (sumLoopM dbg 0 padding (fun _ => some first) (buffer, 0)).bind fun st =>
    (sumLoopM dbg padding (padding + im.w) (fun i => im.get (i - padding) row) st).bind fun st =>
    (sumLoopM dbg (padding + im.w) buffer.len (fun _ => some last) st).bind fun st =>
    some st.1
  else none

/-- `column_running_sum`, integral_image.rs:413-462. -/
def columnRunningSumM (dbg : Bool) (im : Image Nat) (column : Nat) (buffer : Buf) (padding : Nat) : Option Buf :=
  if im.h + 2 * padding ≤ buffer.len ∧ column < im.w ∧ 0 < im.h then
    (im.get column 0).bind fun first =>
    (im.get column (im.h - 1)).bind fun last =>
    (sumLoopM dbg 0 padding (fun _ => some first) (buffer, 0)).bind fun st =>
    (sumLoopM dbg padding (padding + im.h) (fun i => im.get column (i - padding)) st).bind fun st =>
    (sumLoopM dbg (padding + im.h) buffer.len (fun _ => some last) st).bind fun st =>
    some st.1
  else none

/-- The writes of one row, box_filter.rs:32-48; `two` is `2 * x_radius` and `k` is `kernel_width`. -/
def rowPassM (dbg : Bool) (out : Image Nat) (buf : Buf) (y w two k : Nat) : Option (Image Nat) :=
  (bufGet buf two).bind fun v =>
  (if k = 0 then none else out.put 0 y (v / k % 256)).bind fun out =>
  forRange 1 w out fun x out =>
    (red dbg (2 ^ 32) (x + two)).bind fun ix =>
    (bufGet buf ix).bind fun u =>
    (bufGet buf (x - 1)).bind fun l =>
    (subM dbg (2 ^ 32) u l).bind fun d =>
    out.put x y (d / k % 256)

/-- The writes of one column, box_filter.rs:53-68. -/
def colPassM (dbg : Bool) (out : Image Nat) (buf : Buf) (x h two k : Nat) : Option (Image Nat) :=
  (bufGet buf two).bind fun v =>
  (if k = 0 then none else out.put x 0 (v / k % 256)).bind fun out =>
  forRange 1 h out fun y out =>
    (red dbg (2 ^ 32) (y + two)).bind fun iy =>
    (bufGet buf iy).bind fun u =>
    (bufGet buf (y - 1)).bind fun l =>
    (subM dbg (2 ^ 32) u l).bind fun d =>
    out.put x y (d / k % 256)

/-- `box_filter`, box_filter.rs:19-72. -/
def boxFilterM (dbg : Bool) (im : Image Nat) (rx ry : Nat) : Option (Image Nat) :=
  if im.w = 0 ∨ im.h = 0 then some (Image.new im.w im.h 0)
  else
    (red dbg (2 ^ 32) (2 * rx)).bind fun twoX => (red dbg (2 ^ 32) (twoX + 1)).bind fun kw =>
    (red dbg (2 ^ 32) (2 * ry)).bind fun twoY => (red dbg (2 ^ 32) (twoY + 1)).bind fun kh =>
    (red dbg (2 ^ 32) (im.w + twoX)).bind fun lenX =>
    (forRange 0 im.h ((⟨lenX, fun _ => 0⟩, Image.new im.w im.h 0) : Buf × Image Nat)
      fun y st =>
        (rowRunningSumM dbg im y st.1 rx).bind fun buf =>
        (rowPassM dbg st.2 buf y im.w twoX kw).map fun out => (buf, out)).bind fun st =>
    (red dbg (2 ^ 32) (im.h + twoY)).bind fun lenY =>
    (forRange 0 im.w ((⟨lenY, fun _ => 0⟩, st.2) : Buf × Image Nat)
      fun x st =>
        (columnRunningSumM dbg st.2 x st.1 ry).bind fun buf =>
        (colPassM dbg st.2 buf x im.h twoY kh).map fun out => (buf, out)).map Prod.snd

/-! ### Running sums -/

theorem sumLoopM_spec {dbg : Bool} (lo hi n : Nat) (f : Nat → Option Nat) (g : Nat → Nat) (st : Buf × Nat)
    (hfit : dbg = true → ∑ i ∈ range n, g i < 2 ^ 32) (hg : ∀ i, g i < 2 ^ 32)
    (hle : lo ≤ hi) (hn : st.1.len = n) (hhi : hi ≤ n) (hf : ∀ i, lo ≤ i → i < hi → f i = some (g i))
    (h0 : st.2 = R dbg (2 ^ 32) (∑ i ∈ range lo, g i))
    (hb : ∀ k, k < lo → st.1.at' k = R dbg (2 ^ 32) (∑ i ∈ range (k + 1), g i)) :
    ∃ st', sumLoopM dbg lo hi f st = some st' ∧ st'.1.len = n ∧ st'.2 = R dbg (2 ^ 32) (∑ i ∈ range hi, g i) ∧
      ∀ k, k < hi → st'.1.at' k = R dbg (2 ^ 32) (∑ i ∈ range (k + 1), g i) := by
  refine forRange_spec (fun i (st : Buf × Nat) => st.1.len = n ∧ st.2 = R dbg (2 ^ 32) (∑ j ∈ range i, g j) ∧
      ∀ k, k < i → st.1.at' k = R dbg (2 ^ 32) (∑ j ∈ range (k + 1), g j)) hle ⟨hn, h0, hb⟩ ?_
  intro i s h1 h2 ⟨h3, h4, h5⟩
  have hm : ∑ j ∈ range (i + 1), g j ≤ ∑ j ∈ range n, g j :=
    sum_le_sum_of_subset (by intro a; simp only [mem_range]; omega)
  have hR : g i = R dbg (2 ^ 32) (g i) := by
    cases dbg
    · exact (Nat.mod_eq_of_lt (hg i)).symm
    · rfl
  have hs := sum_range_succ g i
  rw [hf i h1 h2, Option.bind_some, h4, hR, red_add (fun hd => by have := hfit hd; omega), Option.bind_some, ← hs]
  simp only [Buf.set, h3]
  rw [if_pos (by omega), Option.map_some]
  refine ⟨_, rfl, rfl, rfl, ?_⟩
  intro k hk
  dsimp only
  by_cases hki : k = i
  · rw [if_pos hki, hki]
  · rw [if_neg hki]; exact h5 k (by omega)

theorem rowRunningSumM_spec {dbg : Bool} (im : Image Nat) (row padding : Nat) (buffer : Buf)
    (hu : ∀ x y, x < im.w → y < im.h → im.px x y < 256)
    (hfit : dbg = true → ∑ j ∈ range buffer.len, im.px (clampTo im.w ((j : Int) - padding)) row < 2 ^ 32)
    (hrow : row < im.h) (hw : 0 < im.w) (hlen : im.w + 2 * padding ≤ buffer.len) :
    ∃ out, rowRunningSumM dbg im row buffer padding = some out ∧ out.len = buffer.len ∧
      ∀ k, k < buffer.len → out.at' k =
        R dbg (2 ^ 32) (∑ j ∈ range (k + 1), im.px (clampTo im.w ((j : Int) - padding)) row) := by
  have hg : ∀ j : Nat, im.px (clampTo im.w ((j : Int) - padding)) row < 2 ^ 32 := fun j => by
    have := hu _ row (clampTo_lt hw ((j : Int) - padding)) hrow
    omega
  unfold rowRunningSumM
  rw [if_pos ⟨hlen, hrow, hw⟩, Image.get_of_inB hw hrow, Image.get_of_inB (by omega) hrow]
  simp only [Option.bind_some]
  obtain ⟨s1, e1, l1, t1, b1⟩ := sumLoopM_spec 0 padding buffer.len (fun _ => some (im.px 0 row))
    (fun j => im.px (clampTo im.w ((j : Int) - padding)) row) (buffer, 0) hfit hg (by omega) rfl (by omega)
    (by
      intro i _ hi
      rw [show clampTo im.w ((i : Int) - padding) = 0 by unfold clampTo; omega])
    (by rw [sum_range_zero, R_zero]) (by intro k hk; omega)
  obtain ⟨s2, e2, l2, t2, b2⟩ := sumLoopM_spec padding (padding + im.w) buffer.len
    (fun i => im.get (i - padding) row)
    (fun j => im.px (clampTo im.w ((j : Int) - padding)) row) s1 hfit hg (by omega) l1 (by omega)
    (by
      intro i h1 h2
      rw [Image.get_of_inB (by omega) hrow,
        show clampTo im.w ((i : Int) - padding) = i - padding by unfold clampTo; omega])
    t1 b1
  obtain ⟨s3, e3, l3, t3, b3⟩ := sumLoopM_spec (padding + im.w) buffer.len buffer.len
    (fun _ => some (im.px (im.w - 1) row))
    (fun j => im.px (clampTo im.w ((j : Int) - padding)) row) s2 hfit hg (by omega) l2 (by omega)
    (by
      intro i h1 h2
      rw [show clampTo im.w ((i : Int) - padding) = im.w - 1 by unfold clampTo; omega]) t2 b2
  exact ⟨s3.1, by rw [e1, Option.bind_some, e2, Option.bind_some, e3, Option.bind_some], l3, b3⟩

theorem columnRunningSumM_spec {dbg : Bool} (im : Image Nat) (column padding : Nat) (buffer : Buf)
    (hu : ∀ x y, x < im.w → y < im.h → im.px x y < 256)
    (hfit : dbg = true → ∑ j ∈ range buffer.len, im.px column (clampTo im.h ((j : Int) - padding)) < 2 ^ 32)
    (hcol : column < im.w) (hh : 0 < im.h) (hlen : im.h + 2 * padding ≤ buffer.len) :
    ∃ out, columnRunningSumM dbg im column buffer padding = some out ∧ out.len = buffer.len ∧
      ∀ k, k < buffer.len → out.at' k =
        R dbg (2 ^ 32) (∑ j ∈ range (k + 1), im.px column (clampTo im.h ((j : Int) - padding))) := by
  have hg : ∀ j : Nat, im.px column (clampTo im.h ((j : Int) - padding)) < 2 ^ 32 := fun j => by
    have := hu column _ hcol (clampTo_lt hh ((j : Int) - padding))
    omega
  unfold columnRunningSumM
  rw [if_pos ⟨hlen, hcol, hh⟩, Image.get_of_inB hcol hh, Image.get_of_inB hcol (by omega)]
  simp only [Option.bind_some]
  obtain ⟨s1, e1, l1, t1, b1⟩ := sumLoopM_spec 0 padding buffer.len (fun _ => some (im.px column 0))
    (fun j => im.px column (clampTo im.h ((j : Int) - padding))) (buffer, 0) hfit hg (by omega) rfl (by omega)
    (by
      intro i _ hi
      rw [show clampTo im.h ((i : Int) - padding) = 0 by unfold clampTo; omega])
    (by rw [sum_range_zero, R_zero]) (by intro k hk; omega)
  obtain ⟨s2, e2, l2, t2, b2⟩ := sumLoopM_spec padding (padding + im.h) buffer.len
    (fun i => im.get column (i - padding))
    (fun j => im.px column (clampTo im.h ((j : Int) - padding))) s1 hfit hg (by omega) l1 (by omega)
    (by
      intro i h1 h2
      rw [Image.get_of_inB hcol (by omega),
        show clampTo im.h ((i : Int) - padding) = i - padding by unfold clampTo; omega])
    t1 b1
  obtain ⟨s3, e3, l3, t3, b3⟩ := sumLoopM_spec (padding + im.h) buffer.len buffer.len
    (fun _ => some (im.px column (im.h - 1)))
    (fun j => im.px column (clampTo im.h ((j : Int) - padding))) s2 hfit hg (by omega) l2 (by omega)
    (by
      intro i h1 h2
      rw [show clampTo im.h ((i : Int) - padding) = im.h - 1 by unfold clampTo; omega]) t2 b2
  exact ⟨s3.1, by rw [e1, Option.bind_some, e2, Option.bind_some, e3, Option.bind_some], l3, b3⟩

theorem subM_R {dbg : Bool} {u l : Nat} (h : l ≤ u) (h' : u - l < 2 ^ 32) :
    subM dbg (2 ^ 32) (R dbg (2 ^ 32) u) (R dbg (2 ^ 32) l) = some (u - l) := by
  cases dbg
  · simp only [subM, R, Bool.false_eq_true, if_false, Option.some.injEq]
    omega
  · exact csub_of_le h

theorem R_small {dbg : Bool} {v : Nat} (h : v < 2 ^ 32) : R dbg (2 ^ 32) v = v := by
  cases dbg
  · exact Nat.mod_eq_of_lt h
  · rfl

/-! ### The passes -/

/-- Sums over a window of bytes. -/
theorem window_le (r : Nat) (f : Nat → Nat) (hf : ∀ i, f i ≤ 255) : ∑ i ∈ range (2 * r + 1), f i ≤ 255 * (2 * r + 1) := by
  have := sum_le_card_nsmul (range (2 * r + 1)) f 255 fun i _ => hf i
  rw [card_range, smul_eq_mul] at this
  exact this.trans (Nat.le_of_eq (Nat.mul_comm _ _))

theorem rowPassM_eq {dbg : Bool} (out : Image Nat) (buf bufM : Buf) (y w r : Nat) (f : Int → Nat) (hf : ∀ i, f i ≤ 255)
    (hr : 255 * (2 * r + 1) < 2 ^ 32) (hw0 : 0 < w) (hw : w + 2 * r < 2 ^ 32) (hl : buf.len = w + 2 * r) (hlM : bufM.len = w + 2 * r)
    (hb : ∀ k, k < buf.len → buf.at' k = ∑ j ∈ range (k + 1), f ((j : Int) - r))
    (hbM : ∀ k, k < buf.len → bufM.at' k = R dbg (2 ^ 32) (buf.at' k)) :
    rowPassM dbg out bufM y w (2 * r) (2 * r + 1) = rowPass out buf y w r := by
  unfold rowPassM rowPass bufGet
  rw [if_pos (by omega), if_pos (by omega), Option.bind_some, Option.bind_some, if_neg (by omega), hbM _ (by omega),
    R_small (by rw [hb _ (by omega)]; have := window_le r (fun j => f ((j : Int) - r)) (fun _ => hf _); omega)]
  congr 1
  funext o
  refine Verif.Float.forRange_congr o fun x s h1 h2 => ?_
  rw [red32 (by omega), Option.bind_some, if_pos (by omega), if_pos (by omega), Option.bind_some, Option.bind_some,
    if_pos (by omega), if_pos (by omega), Option.bind_some, Option.bind_some, hbM _ (by omega), hbM _ (by omega)]
  obtain ⟨x, rfl⟩ : ∃ x', x = x' + 1 := ⟨x - 1, by omega⟩
  have hs := window_sum r x f
  have hle := window_le r (fun i => f (((x + 1 : Nat) : Int) + i - r)) (fun _ => hf _)
  rw [← hb _ (by omega), ← hb _ (by omega)] at hs
  rw [Nat.add_sub_cancel, subM_R (by omega) (by omega), csub_of_le (by omega)]

theorem colPassM_eq {dbg : Bool} (out : Image Nat) (buf bufM : Buf) (x h r : Nat) (f : Int → Nat) (hf : ∀ i, f i ≤ 255)
    (hr : 255 * (2 * r + 1) < 2 ^ 32) (hh0 : 0 < h) (hh : h + 2 * r < 2 ^ 32) (hl : buf.len = h + 2 * r) (hlM : bufM.len = h + 2 * r)
    (hb : ∀ k, k < buf.len → buf.at' k = ∑ j ∈ range (k + 1), f ((j : Int) - r))
    (hbM : ∀ k, k < buf.len → bufM.at' k = R dbg (2 ^ 32) (buf.at' k)) :
    colPassM dbg out bufM x h (2 * r) (2 * r + 1) = colPass out buf x h r := by
  unfold colPassM colPass bufGet
  rw [if_pos (by omega), if_pos (by omega), Option.bind_some, Option.bind_some, if_neg (by omega), hbM _ (by omega),
    R_small (by rw [hb _ (by omega)]; have := window_le r (fun j => f ((j : Int) - r)) (fun _ => hf _); omega)]
  congr 1
  funext o
  refine Verif.Float.forRange_congr o fun y s h1 h2 => ?_
  rw [red32 (by omega), Option.bind_some, if_pos (by omega), if_pos (by omega), Option.bind_some, Option.bind_some,
    if_pos (by omega), if_pos (by omega), Option.bind_some, Option.bind_some, hbM _ (by omega), hbM _ (by omega)]
  obtain ⟨y, rfl⟩ : ∃ y', y = y' + 1 := ⟨y - 1, by omega⟩
  have hs := window_sum r y f
  have hle := window_le r (fun i => f (((y + 1 : Nat) : Int) + i - r)) (fun _ => hf _)
  rw [← hb _ (by omega), ← hb _ (by omega)] at hs
  rw [Nat.add_sub_cancel, subM_R (by omega) (by omega), csub_of_le (by omega)]

/-- C159: the box filter is exact (C40) while the window sums fit 32 bits in release builds, and while the sums of the extended rows and columns
fit in debug builds. -/
theorem C159_box (dbg : Bool) (im : Image Nat) (rx ry : Nat)
    (hu : ∀ x y, x < im.w → y < im.h → im.px x y < 256)
    (hw : im.w + 2 * rx < 2 ^ 32) (hh : im.h + 2 * ry < 2 ^ 32)
    (hrx : 255 * (2 * rx + 1) < 2 ^ 32) (hry : 255 * (2 * ry + 1) < 2 ^ 32)
    (hdx : dbg = true → 255 * (im.w + 2 * rx) < 2 ^ 32) (hdy : dbg = true → 255 * (im.h + 2 * ry) < 2 ^ 32) :
    ∃ out, boxFilterM dbg im rx ry = some out ∧ out.w = im.w ∧ out.h = im.h ∧
      ∀ x y, x < im.w → y < im.h → out.px x y = boxSpec im rx ry x y := by
  have hsum : ∀ (n : Nat) (f : Nat → Nat), (∀ i, f i ≤ 255) → ∑ i ∈ range n, f i ≤ 255 * n := by
    intro n f hf
    have := sum_le_card_nsmul (range n) f 255 fun i _ => hf i
    rw [card_range, smul_eq_mul] at this
    exact this.trans (Nat.le_of_eq (Nat.mul_comm _ _))
  unfold boxFilterM
  by_cases h0 : im.w = 0 ∨ im.h = 0
  · rw [if_pos h0]
    exact ⟨_, rfl, rfl, rfl, by omega⟩
  · rw [if_neg h0, red32 (by omega), Option.bind_some, red32 (by omega), Option.bind_some, red32 (by omega), Option.bind_some,
      red32 (by omega), Option.bind_some, red32 (by omega), Option.bind_some]
    obtain ⟨st1, e1, g0, g1, g2, g3⟩ := forRange_spec (lo := 0) (hi := im.h)
      (s := ((⟨im.w + 2 * rx, fun _ => 0⟩, Image.new im.w im.h 0) : Buf × Image Nat))
      (f := fun y st =>
        (rowRunningSumM dbg im y st.1 rx).bind fun buf =>
        (rowPassM dbg st.2 buf y im.w (2 * rx) (2 * rx + 1)).map fun out => (buf, out))
      (fun y st => st.1.len = im.w + 2 * rx ∧ st.2.w = im.w ∧ st.2.h = im.h ∧
        ∀ a b, a < im.w → b < y → st.2.px a b = meanOf im.w rx (fun a => im.px a b) a)
      (Nat.zero_le _) ⟨rfl, rfl, rfl, by omega⟩
      (by
        rintro y ⟨buf, out⟩ _ hy ⟨g0, g1, g2, g3⟩
        dsimp only at g0 g1 g2 g3 ⊢
        have hf : ∀ i : Int, im.px (clampTo im.w i) y ≤ 255 := fun i => by
          have := hu _ y (clampTo_lt (by omega) i) hy
          omega
        obtain ⟨buf', e, hl, hb⟩ := rowRunningSumM_spec (dbg := dbg) im y rx buf hu
          (fun hd => by
            have := hsum buf.len (fun j => im.px (clampTo im.w ((j : Int) - rx)) y) fun _ => hf _
            have := hdx hd
            rw [g0] at *
            omega) hy (by omega) (by omega)
        rw [e, Option.bind_some, rowPassM_eq out
          ⟨im.w + 2 * rx, fun k => ∑ j ∈ range (k + 1), im.px (clampTo im.w ((j : Int) - rx)) y⟩ buf' y im.w rx
          (fun i => im.px (clampTo im.w i) y) hf hrx (by omega) hw rfl (by omega) (fun _ _ => rfl)
          (fun k hk => hb k (by dsimp only at hk; omega))]
        obtain ⟨out', e', k1, k2, k3⟩ := rowPass_spec (fun a => im.px a y) im.w rx y (by omega)
          (fun i hi => hu i y hi hy)
          ⟨im.w + 2 * rx, fun k => ∑ j ∈ range (k + 1), im.px (clampTo im.w ((j : Int) - rx)) y⟩ rfl (fun k hk => rfl)
          out g1 (by omega)
        rw [e', Option.map_some]
        refine ⟨_, rfl, hl.trans g0, k1, k2.trans g2, ?_⟩
        intro a b ha hb
        dsimp only
        rw [k3 a b ha]
        by_cases hby : b = y
        · rw [if_pos hby, hby]
        · rw [if_neg hby]; exact g3 a b ha (by omega))
    rw [e1, Option.bind_some, red32 (by omega), Option.bind_some]
    have hmean : ∀ a b, a < im.w → b < im.h → meanOf im.w rx (fun a => im.px a b) a < 256 := by
      intro a b _ hb
      have := mean_le im.w rx (fun a => im.px a b) a 255 (by omega)
        (fun i hi => by have := hu i b hi hb; omega)
      omega
    have hbox : ∀ a b, a < im.w → b < im.h → boxSpec im rx ry a b < 256 := by
      intro a b ha _
      have := mean_le im.h ry (fun b => meanOf im.w rx (fun a => im.px a b) a) b 255 (by omega)
        (fun i hi => by have := hmean a i ha hi; omega)
      unfold boxSpec
      omega
    obtain ⟨st2, e2, k0, k1, k2, k3⟩ := forRange_spec (lo := 0) (hi := im.w)
      (s := ((⟨im.h + 2 * ry, fun _ => 0⟩, st1.2) : Buf × Image Nat))
      (f := fun x st =>
        (columnRunningSumM dbg st.2 x st.1 ry).bind fun buf =>
        (colPassM dbg st.2 buf x im.h (2 * ry) (2 * ry + 1)).map fun out => (buf, out))
      (fun x st => st.1.len = im.h + 2 * ry ∧ st.2.w = im.w ∧ st.2.h = im.h ∧
        ∀ a b, a < im.w → b < im.h → st.2.px a b = if a < x then boxSpec im rx ry a b else
          meanOf im.w rx (fun a => im.px a b) a)
      (Nat.zero_le _) ⟨rfl, g1, g2, fun a b ha hb => by
        rw [if_neg (by omega)]; exact g3 a b ha hb⟩
      (by
        rintro x ⟨buf, out⟩ _ hx ⟨g0, g1, g2, g3⟩
        dsimp only at g0 g1 g2 g3 ⊢
        have hou : ∀ a b, a < out.w → b < out.h → out.px a b < 256 := by
          intro a b ha hb
          rw [g3 a b (by omega) (by omega)]
          split
          · exact hbox a b (by omega) (by omega)
          · exact hmean a b (by omega) (by omega)
        have hf : ∀ i : Int, out.px x (clampTo out.h i) ≤ 255 := fun i => by
          have := hou x _ (by omega) (clampTo_lt (by omega) i)
          omega
        obtain ⟨buf', e, hl, hb⟩ := columnRunningSumM_spec (dbg := dbg) out x ry buf hou
          (fun hd => by
            have := hsum buf.len (fun j => out.px x (clampTo out.h ((j : Int) - ry))) fun _ => hf _
            have := hdy hd
            rw [g0] at *
            omega) (by omega) (by omega) (by omega)
        rw [e, Option.bind_some, colPassM_eq out
          ⟨im.h + 2 * ry, fun k => ∑ j ∈ range (k + 1), out.px x (clampTo out.h ((j : Int) - ry))⟩ buf' x im.h ry
          (fun i => out.px x (clampTo out.h i)) hf hry (by omega) hh rfl (by omega) (fun _ _ => rfl)
          (fun k hk => hb k (by dsimp only at hk; omega))]
        obtain ⟨out', e', k1, k2, k3⟩ := colPass_spec
          (fun b => meanOf im.w rx (fun a => im.px a b) x) im.h ry x (by omega)
          (fun i hi => hmean x i hx hi)
          ⟨im.h + 2 * ry, fun k => ∑ j ∈ range (k + 1), out.px x (clampTo out.h ((j : Int) - ry))⟩ rfl
          (by
            intro k hk
            dsimp only
            refine sum_congr rfl fun j _ => ?_
            rw [g2, g3 x _ hx (clampTo_lt (by omega) _), if_neg (by omega)]) out g2 (by omega)
        rw [e', Option.map_some]
        refine ⟨_, rfl, hl.trans g0, k1.trans g1, k2, ?_⟩
        intro a b ha hb
        dsimp only
        rw [k3 a b hb]
        by_cases hax : a = x
        · rw [if_pos hax, if_pos (by omega), hax]; rfl
        · rw [if_neg hax, g3 a b ha hb]
          exact if_congr (by omega) rfl rfl)
    rw [e2]
    refine ⟨st2.2, rfl, k1, k2, ?_⟩
    intro x y hx hy
    rw [k3 x y hx hy, if_pos hx]

theorem forRange_fail {σ : Type _} {f : Nat → σ → Option σ} (I : Nat → σ → Prop) {n i : Nat} {s : σ} (hi : i < n) (h0 : I 0 s)
    (hs : ∀ k s s', I k s → f k s = some s' → I (k + 1) s') (hf : ∀ s, I i s → f i s = none) :
    forRange 0 n s f = none := by
  by_contra hc
  obtain ⟨r, hr⟩ := Option.ne_none_iff_exists'.1 hc
  have := forRange_inv (f := f) (fun k s => I k s ∧ ¬ i < k) (Nat.zero_le n) ⟨h0, by omega⟩
    (by
      rintro k s s' _ _ ⟨h1, h2⟩ h3
      refine ⟨hs k s s' h1 h3, fun h4 => ?_⟩
      have : k = i := by omega
      subst this
      rw [hf s h1] at h3
      cases h3) hr
  exact this.2 hi

/-- Failure in the first iteration. -/
theorem forRange_fail_first {σ : Type _} {f : Nat → σ → Option σ} {n : Nat} {s : σ} (hn : 0 < n) (hf : f 0 s = none) :
    forRange 0 n s f = none :=
  forRange_fail (fun k t => k = 0 → t = s) hn (fun _ => rfl) (fun _ _ _ _ _ h => absurd h (Nat.succ_ne_zero _))
    (fun t h => by rw [h rfl]; exact hf)

theorem put_dims {α : Type _} {im out : Image α} {x y : Nat} {v : α} (h : im.put x y v = some out) :
    out.w = im.w ∧ out.h = im.h := by
  unfold Image.put at h
  split at h
  · cases h; exact ⟨rfl, rfl⟩
  · cases h

theorem rowPassM_dims {dbg : Bool} {out out' : Image Nat} {buf : Buf} {y w two k : Nat}
    (h : rowPassM dbg out buf y w two k = some out') : out'.w = out.w ∧ out'.h = out.h := by
  unfold rowPassM at h
  obtain ⟨v, -, h⟩ := Option.bind_eq_some_iff.1 h
  obtain ⟨o, e, h⟩ := Option.bind_eq_some_iff.1 h
  have h1 : o.w = out.w ∧ o.h = out.h := by
    split at e
    · cases e
    · exact put_dims e
  by_cases hw : 1 ≤ w
  · refine forRange_inv (fun _ (s : Image Nat) => s.w = out.w ∧ s.h = out.h) hw h1 ?_ h
    intro i s s' _ _ hs e
    obtain ⟨_, -, e⟩ := Option.bind_eq_some_iff.1 e
    obtain ⟨_, -, e⟩ := Option.bind_eq_some_iff.1 e
    obtain ⟨_, -, e⟩ := Option.bind_eq_some_iff.1 e
    obtain ⟨_, -, e⟩ := Option.bind_eq_some_iff.1 e
    have := put_dims e
    omega
  · rw [forRange_empty (by omega)] at h
    cases h
    exact h1

theorem sumLoopM_some {lo hi : Nat} {f : Nat → Option Nat} {st st' : Buf × Nat} {dbg : Bool} (hle : lo ≤ hi)
    (h : sumLoopM dbg lo hi f st = some st') : st'.1.len = st.1.len := by
  refine forRange_inv (fun _ (s : Buf × Nat) => s.1.len = st.1.len) hle rfl ?_ h
  intro i s s' _ _ hs e
  obtain ⟨_, -, e⟩ := Option.bind_eq_some_iff.1 e
  obtain ⟨_, -, e⟩ := Option.bind_eq_some_iff.1 e
  obtain ⟨b, e1, e⟩ := Option.map_eq_some_iff.1 e
  subst e
  unfold Buf.set at e1
  split at e1
  · cases e1; exact hs
  · cases e1

/-- In debug builds the running sums fit. -/
theorem sumLoopM_true {lo hi : Nat} {f : Nat → Option Nat} {g : Nat → Nat} {st st' : Buf × Nat} (hle : lo ≤ hi)
    (hf : ∀ i, lo ≤ i → i < hi → f i = some (g i)) (h : sumLoopM true lo hi f st = some st')
    (h0 : st.2 = ∑ i ∈ range lo, g i) : st'.2 = ∑ i ∈ range hi, g i ∧ (lo < hi → st'.2 < 2 ^ 32) := by
  have := forRange_inv (fun i (s : Buf × Nat) => s.2 = ∑ j ∈ range i, g j ∧ (lo < i → s.2 < 2 ^ 32)) hle ⟨h0, by omega⟩
    (by
      intro i s s' h1 h2 ⟨h3, h4⟩ e
      rw [hf i h1 h2, Option.bind_some] at e
      obtain ⟨t, e1, e⟩ := Option.bind_eq_some_iff.1 e
      obtain ⟨b, e2, e⟩ := Option.map_eq_some_iff.1 e
      subst e
      obtain ⟨e3, e4⟩ := red_true e1
      dsimp only
      exact ⟨by rw [e3, h3, sum_range_succ], fun _ => by omega⟩) h
  exact this

theorem rowRunningSumM_len {dbg : Bool} {im : Image Nat} {row padding : Nat} {buffer out : Buf}
    (h : rowRunningSumM dbg im row buffer padding = some out) : out.len = buffer.len := by
  unfold rowRunningSumM at h
  split at h
  · next hc =>
    obtain ⟨_, -, h⟩ := Option.bind_eq_some_iff.1 h
    obtain ⟨_, -, h⟩ := Option.bind_eq_some_iff.1 h
    obtain ⟨s1, e1, h⟩ := Option.bind_eq_some_iff.1 h
    obtain ⟨s2, e2, h⟩ := Option.bind_eq_some_iff.1 h
    obtain ⟨s3, e3, h⟩ := Option.bind_eq_some_iff.1 h
    cases h
    rw [sumLoopM_some (by omega) e3, sumLoopM_some (by omega) e2, sumLoopM_some (by omega) e1]
  · cases h

theorem rowRunningSumM_true {im : Image Nat} {row padding : Nat} {buffer out : Buf}
    (h : rowRunningSumM true im row buffer padding = some out) :
    ∑ j ∈ range buffer.len, im.px (clampTo im.w ((j : Int) - padding)) row < 2 ^ 32 := by
  unfold rowRunningSumM at h
  split at h
  · next hc =>
    obtain ⟨h1, h2, h3⟩ := hc
    rw [Image.get_of_inB h3 h2, Image.get_of_inB (by omega) h2, Option.bind_some, Option.bind_some] at h
    obtain ⟨s1, e1, h⟩ := Option.bind_eq_some_iff.1 h
    obtain ⟨s2, e2, h⟩ := Option.bind_eq_some_iff.1 h
    obtain ⟨s3, e3, h⟩ := Option.bind_eq_some_iff.1 h
    obtain ⟨t1, -⟩ := sumLoopM_true (g := fun j => im.px (clampTo im.w ((j : Int) - padding)) row) (by omega)
      (by
        intro i _ hi
        rw [show clampTo im.w ((i : Int) - padding) = 0 by unfold clampTo; omega]) e1 (by rw [sum_range_zero])
    obtain ⟨t2, u2⟩ := sumLoopM_true (g := fun j => im.px (clampTo im.w ((j : Int) - padding)) row) (by omega)
      (by
        intro i h4 h5
        rw [Image.get_of_inB (by omega) h2,
          show clampTo im.w ((i : Int) - padding) = i - padding by unfold clampTo; omega]) e2 t1
    obtain ⟨t3, u3⟩ := sumLoopM_true (g := fun j => im.px (clampTo im.w ((j : Int) - padding)) row) (by omega)
      (by
        intro i h4 h5
        rw [show clampTo im.w ((i : Int) - padding) = im.w - 1 by unfold clampTo; omega]) e3 t2
    rw [← t3]
    by_cases hl : padding + im.w < buffer.len
    · exact u3 hl
    · rw [t3, show buffer.len = padding + im.w by omega, ← t2]
      exact u2 (by omega)
  · cases h

theorem red_none {v : Nat} (h : 2 ^ 32 ≤ v) : red true (2 ^ 32) v = none := by
  unfold red
  rw [if_pos rfl, if_neg (by omega)]

/-- C159: both profiles panic when an extended side does not fit 32 bits. -/
theorem C159_box_panics (dbg : Bool) (im : Image Nat) (rx ry : Nat) (hw : 0 < im.w) (hh : 0 < im.h)
    (h : 2 ^ 32 ≤ im.w + 2 * rx ∨ 2 ^ 32 ≤ im.h + 2 * ry) : boxFilterM dbg im rx ry = none := by
  unfold boxFilterM
  rw [if_neg (by omega)]
  cases e1 : red dbg (2 ^ 32) (2 * rx) with
  | none => rfl
  | some twoX =>
  rw [Option.bind_some]
  cases e2 : red dbg (2 ^ 32) (twoX + 1) with
  | none => rfl
  | some kw =>
  rw [Option.bind_some]
  cases e3 : red dbg (2 ^ 32) (2 * ry) with
  | none => rfl
  | some twoY =>
  rw [Option.bind_some]
  cases e4 : red dbg (2 ^ 32) (twoY + 1) with
  | none => rfl
  | some kh =>
  rw [Option.bind_some]
  cases e5 : red dbg (2 ^ 32) (im.w + twoX) with
  | none => rfl
  | some lenX =>
  rw [Option.bind_some]
  have small : ∀ {a b c d : Nat}, red dbg (2 ^ 32) (2 * a) = some b → red dbg (2 ^ 32) (c + b) = some d →
      2 ^ 32 ≤ c + 2 * a → d < c + 2 * a := by
    intro a b c d h1 h2 h3
    cases dbg
    · simp only [red, Bool.false_eq_true, if_false, Option.some.injEq] at h1 h2
      have := Nat.mod_lt (c + b) (show 0 < 2 ^ 32 by norm_num)
      omega
    · obtain ⟨g1, -⟩ := red_true h1
      obtain ⟨g2, g3⟩ := red_true h2
      omega
  by_cases hx : 2 ^ 32 ≤ im.w + 2 * rx
  · rw [forRange_fail_first hh]
    · rfl
    · have := small e1 e5 hx
      unfold rowRunningSumM
      dsimp only
      rw [if_neg (by omega)]
      rfl
  · cases e6 : (forRange 0 im.h ((⟨lenX, fun _ => 0⟩, Image.new im.w im.h 0) : Buf × Image Nat)
      fun y st =>
        (rowRunningSumM dbg im y st.1 rx).bind fun buf =>
        (rowPassM dbg st.2 buf y im.w twoX kw).map fun out => (buf, out)) with
    | none => rfl
    | some st =>
      have hd := forRange_inv (fun _ (s : Buf × Image Nat) => s.2.w = im.w ∧ s.2.h = im.h) (Nat.zero_le _) ⟨rfl, rfl⟩
        (by
          intro i s s' _ _ hs e
          obtain ⟨_, -, e⟩ := Option.bind_eq_some_iff.1 e
          obtain ⟨o, e1, e⟩ := Option.map_eq_some_iff.1 e
          subst e
          have := rowPassM_dims e1
          dsimp only
          omega) e6
      rw [Option.bind_some]
      cases e7 : red dbg (2 ^ 32) (im.h + twoY) with
      | none => rfl
      | some lenY =>
        rw [Option.bind_some, forRange_fail_first hw]
        · rfl
        · have := small e3 e7 (by omega)
          unfold columnRunningSumM
          dsimp only
          rw [if_neg (by omega)]
          rfl

/-- C159: debug builds panic when the sum of an extended row does not fit 32 bits. -/
theorem C159_box_debug_panics (im : Image Nat) (rx ry y : Nat) (hw : 0 < im.w) (hy : y < im.h)
    (h : 2 ^ 32 ≤ ∑ j ∈ range (im.w + 2 * rx), im.px (clampTo im.w ((j : Int) - rx)) y) :
    boxFilterM true im rx ry = none := by
  unfold boxFilterM
  rw [if_neg (by omega)]
  cases e1 : red true (2 ^ 32) (2 * rx) with
  | none => rfl
  | some twoX =>
  rw [Option.bind_some]
  cases e2 : red true (2 ^ 32) (twoX + 1) with
  | none => rfl
  | some kw =>
  rw [Option.bind_some]
  cases e3 : red true (2 ^ 32) (2 * ry) with
  | none => rfl
  | some twoY =>
  rw [Option.bind_some]
  cases e4 : red true (2 ^ 32) (twoY + 1) with
  | none => rfl
  | some kh =>
  rw [Option.bind_some]
  cases e5 : red true (2 ^ 32) (im.w + twoX) with
  | none => rfl
  | some lenX =>
  obtain ⟨g1, -⟩ := red_true e1
  obtain ⟨g2, -⟩ := red_true e5
  rw [Option.bind_some, forRange_fail (fun _ (s : Buf × Image Nat) => s.1.len = im.w + 2 * rx) hy]
  · rfl
  · dsimp only; omega
  · intro k s s' hs e
    obtain ⟨b, e6, e⟩ := Option.bind_eq_some_iff.1 e
    obtain ⟨o, -, e⟩ := Option.map_eq_some_iff.1 e
    subst e
    exact (rowRunningSumM_len e6).trans hs
  · intro s hs
    cases e6 : rowRunningSumM true im y s.1 rx with
    | none => rfl
    | some b =>
      have := rowRunningSumM_true e6
      rw [hs] at this
      omega

/-! ### The median filter in release builds -/

open Verif.Filter.Median in
/-- `HistSet::channel_median`, median.rs:373-383, wrapping. -/
def channelMedianR (expected : Nat) (hist : Nat → Nat) : Option Nat :=
  (forRange 0 256 ((0, none) : Nat × Option Nat) fun i st =>
    if st.2.isSome then some st else
      let count := (st.1 + hist i) % 2 ^ 32
      if expected ≤ 2 * count % 2 ^ 32 then some (count, some i) else some (count, none)).map
  fun st => st.2.getD 255

section
open Verif.Filter.Median
variable {n : Nat}

/-- `HistSet::set_to_median`, median.rs:360-370. -/
def setToMedianR (expected : Nat) (hist : Hist n) (out : Image (Fin n → Nat)) (x y : Nat) :
    Option (Image (Fin n → Nat)) :=
  if ∀ c, (channelMedianR expected (hist c)).isSome = true then
    out.put x y fun c => (channelMedianR expected (hist c)).getD 0
  else none

/-- `slide_down_column`, median.rs:210-260. -/
def slideDownR (E : Nat) (im : Image (Fin n → Nat)) (rx ry x : Nat)
    (st : Hist n × Image (Fin n → Nat)) : Option (Hist n × Image (Fin n → Nat)) :=
  if x < im.w then
    (setToMedianR E st.1 st.2 x 0).bind fun out =>
    forRange 1 im.h (st.1, out) fun y st =>
      let prevY := (max 0 ((y : Int) - ry - 1)).toNat
      let nextY := (min ((y : Int) + ry) ((im.h : Int) - 1)).toNat
      (forRange 0 (2 * rx + 1) st.1 fun i hist =>
        let px := (min (max 0 ((x : Int) + ((i : Int) - rx))) ((im.w : Int) - 1)).toNat
        (decr im px prevY hist).bind fun hist => incr im px nextY hist).bind fun hist =>
      (setToMedianR E hist st.2 x y).map fun out => (hist, out)
  else none

/-- `slide_up_column`, median.rs:262-311. -/
def slideUpR (E : Nat) (im : Image (Fin n → Nat)) (rx ry x : Nat)
    (st : Hist n × Image (Fin n → Nat)) : Option (Hist n × Image (Fin n → Nat)) :=
  if x < im.w then
    (setToMedianR E st.1 st.2 x (im.h - 1)).bind fun out =>
    forRange 0 (im.h - 1) (st.1, out) fun j st =>
      let y := im.h - 2 - j
      let prevY := (min ((y : Int) + ry + 1) ((im.h : Int) - 1)).toNat
      let nextY := (max 0 ((y : Int) - ry)).toNat
      (forRange 0 (2 * rx + 1) st.1 fun i hist =>
        let px := (min (max 0 ((x : Int) + ((i : Int) - rx))) ((im.w : Int) - 1)).toNat
        (decr im px prevY hist).bind fun hist => incr im px nextY hist).bind fun hist =>
      (setToMedianR E hist st.2 x y).map fun out => (hist, out)
  else none

/-- `median_filter`, median.rs:109-139 in a release build.  Kernels of `2 ^ 32` pixels and more, for which the size and the counts wrap, are left out
(`none`); below that the counts of a histogram never exceed the kernel size and so do not wrap. -/
def medianFilterR (im : Image (Fin n → Nat)) (rx ry : Nat) : Option (Image (Fin n → Nat)) :=
  if im.w = 0 ∨ im.h = 0 then some im
  else if 2147483647 < im.w + rx ∨ 2147483647 < im.h + ry then none
  else if 4294967296 ≤ (2 * rx + 1) * (2 * ry + 1) then none
  else
    let E := (2 * rx + 1) * (2 * ry + 1)
    (initHist im rx ry).bind fun hist =>
    (slideDownR E im rx ry 0 (hist, Image.new im.w im.h fun _ => 0)).bind fun st =>
    (forRange 1 im.w st fun x st =>
      if x % 2 = 0 then
        (slideRight im rx ry x 0 st.1).bind fun hist => slideDownR E im rx ry x (hist, st.2)
      else
        (slideRight im rx ry x (im.h - 1) st.1).bind fun hist =>
        slideUpR E im rx ry x (hist, st.2)).map Prod.snd

theorem channelMedianR_of {E m : Nat} {hist : Nat → Nat} (h : channelMedian E hist = some m) : channelMedianR E hist = some m := by
  unfold channelMedian at h
  unfold channelMedianR
  obtain ⟨st, e, h⟩ := Option.map_eq_some_iff.1 h
  rw [forRange_refine _ e, Option.map_some, h]
  intro i s s' e
  dsimp only at e ⊢
  split_ifs at e ⊢ <;> first | exact e | (cases e)
  all_goals first | (exfalso; omega) | skip
  all_goals
    rw [Nat.mod_eq_of_lt (by omega)]
    try exact e

theorem setToMedianR_of {E : Nat} {hist : Hist n} {out out' : Image (Fin n → Nat)} {x y : Nat}
    (h : setToMedian E hist out x y = some out') : setToMedianR E hist out x y = some out' := by
  unfold setToMedian at h
  split at h
  · next hc =>
    have hm : ∀ c, channelMedianR E (hist c) = channelMedian E (hist c) := by
      intro c
      obtain ⟨m, e⟩ := Option.isSome_iff_exists.1 (hc c)
      rw [e, channelMedianR_of e]
    unfold setToMedianR
    simp only [hm]
    rw [if_pos hc, h]
  · cases h

theorem slideDownR_of {E : Nat} {im : Image (Fin n → Nat)} {rx ry x : Nat} {st st' : Hist n × Image (Fin n → Nat)}
    (h : slideDown E im rx ry x st = some st') : slideDownR E im rx ry x st = some st' := by
  unfold slideDown at h
  unfold slideDownR
  split at h
  · next hc =>
    rw [if_pos hc]
    obtain ⟨o, e, h⟩ := Option.bind_eq_some_iff.1 h
    rw [setToMedianR_of e, Option.bind_some]
    refine forRange_refine ?_ h
    intro i s s' e
    obtain ⟨hist, e1, e⟩ := Option.bind_eq_some_iff.1 e
    obtain ⟨o, e2, e⟩ := Option.map_eq_some_iff.1 e
    dsimp only at e1 ⊢
    rw [e1, Option.bind_some, setToMedianR_of e2, Option.map_some, e]
  · cases h

theorem slideUpR_of {E : Nat} {im : Image (Fin n → Nat)} {rx ry x : Nat} {st st' : Hist n × Image (Fin n → Nat)}
    (h : slideUp E im rx ry x st = some st') : slideUpR E im rx ry x st = some st' := by
  unfold slideUp at h
  unfold slideUpR
  split at h
  · next hc =>
    rw [if_pos hc]
    obtain ⟨o, e, h⟩ := Option.bind_eq_some_iff.1 h
    rw [setToMedianR_of e, Option.bind_some]
    refine forRange_refine ?_ h
    intro i s s' e
    obtain ⟨hist, e1, e⟩ := Option.bind_eq_some_iff.1 e
    obtain ⟨o, e2, e⟩ := Option.map_eq_some_iff.1 e
    dsimp only at e1 ⊢
    rw [e1, Option.bind_some, setToMedianR_of e2, Option.map_some, e]
  · cases h

/-- C159: release builds return the median whenever the kernel has fewer than `2 ^ 31` pixels. -/
theorem C159_median (im : Image (Fin n → Nat)) (hu : U8 im) (rx ry : Nat)
    (hw : im.w + rx ≤ 2147483647) (hh : im.h + ry ≤ 2147483647)
    (hE : (2 * rx + 1) * (2 * ry + 1) < 2147483648) :
    ∃ out, medianFilterR im rx ry = some out ∧ out.w = im.w ∧ out.h = im.h ∧
      ∀ x y, x < im.w → y < im.h → ∀ c,
        IsMedian (windowValues im rx ry x y c) (out.px x y c) := by
  obtain ⟨out, e, h⟩ := C39_median_filter im hu rx ry hw hh hE
  refine ⟨out, ?_, h⟩
  unfold medianFilter at e
  unfold medianFilterR
  by_cases h0 : im.w = 0 ∨ im.h = 0
  · rw [if_pos h0] at e ⊢
    exact e
  rw [if_neg h0, if_neg (by omega), if_neg (by omega)] at e ⊢
  dsimp only at e ⊢
  obtain ⟨hist, e1, e⟩ := Option.bind_eq_some_iff.1 e
  obtain ⟨st, e2, e⟩ := Option.bind_eq_some_iff.1 e
  obtain ⟨st', e3, e⟩ := Option.map_eq_some_iff.1 e
  rw [e1, Option.bind_some, slideDownR_of e2, Option.bind_some, forRange_refine _ e3, Option.map_some, e]
  intro i s s' e
  split
  · next hc =>
    rw [if_pos hc] at e
    obtain ⟨hist, e1, e⟩ := Option.bind_eq_some_iff.1 e
    rw [e1, Option.bind_some]
    exact slideDownR_of e
  · next hc =>
    rw [if_neg hc] at e
    obtain ⟨hist, e1, e⟩ := Option.bind_eq_some_iff.1 e
    rw [e1, Option.bind_some]
    exact slideUpR_of e

theorem channelMedianR_large {E v : Nat} (hE : 2 ^ 31 ≤ E) (hE' : E < 2 ^ 32) :
    channelMedianR E (fun u => if u = v then E else 0) = some 255 := by
  unfold channelMedianR
  obtain ⟨st, e, h1, h2⟩ := forRange_spec
    (f := fun i (st : Nat × Option Nat) =>
      if st.2.isSome then some st else
      let count := (st.1 + if i = v then E else 0) % 2 ^ 32
      if E ≤ 2 * count % 2 ^ 32 then some (count, some i) else some (count, none))
    (fun k (st : Nat × Option Nat) => st.2 = none ∧ st.1 = if v < k then E else 0) (lo := 0) (hi := 256) (s := (0, none))
    (by norm_num) ⟨rfl, by rw [if_neg (by omega)]⟩
    (by
      rintro i ⟨c, o⟩ _ _ ⟨h1, h2⟩
      dsimp only at h1 h2 ⊢
      subst h1 h2
      have hc : ((if v < i then E else 0) + if i = v then E else 0) % 2 ^ 32 = if v < i + 1 then E else 0 := by
        split_ifs <;> omega
      rw [hc, if_neg (by simp), if_neg (by split_ifs <;> omega)]
      exact ⟨_, rfl, rfl, rfl⟩)
  rw [e, Option.map_some, h1]
  rfl

theorem channelMedian_large {E v : Nat} (hE : 2 ^ 31 ≤ E) (hv : v < 256) :
    channelMedian E (fun u => if u = v then E else 0) = none := by
  unfold channelMedian
  rw [forRange_fail (fun k (st : Nat × Option Nat) => k ≤ v → st.2 = none ∧ st.1 = 0) hv]
  · rfl
  · exact fun _ => ⟨rfl, rfl⟩
  · rintro i ⟨c, o⟩ s' h e hi
    obtain ⟨h1, h2⟩ := h (by omega)
    dsimp only at h1 h2 e
    subst h1 h2
    rw [if_neg (by simp), if_neg (show ¬ i = v by omega), if_neg (by omega), if_neg (by omega)] at e
    cases e
    exact ⟨rfl, rfl⟩
  · rintro ⟨c, o⟩ h
    obtain ⟨h1, h2⟩ := h le_rfl
    dsimp only at h1 h2 ⊢
    subst h1 h2
    rw [if_neg (by simp), if_pos rfl, if_pos (by omega)]

theorem W_single (p : Fin n → Nat) (rx ry : Nat) (c : Fin n) :
    W (Image.new 1 1 p) rx ry 0 0 c = fun v => if v = p c then (2 * rx + 1) * (2 * ry + 1) else 0 := by
  funext v
  have h : ∀ a b : Nat, ind (Image.new 1 1 p) c v a b = if v = p c then 1 else 0 := by
    intro a b
    unfold ind
    by_cases h : v = p c
    · rw [if_pos h]; exact if_pos h.symm
    · rw [if_neg h]; exact if_neg (Ne.symm h)
  unfold W
  simp only [h]
  rw [sum_const, sum_const, card_range, card_range, smul_eq_mul, smul_eq_mul]
  by_cases h : v = p c
  · rw [if_pos h, if_pos h, Nat.mul_one, Nat.mul_comm]
  · rw [if_neg h, if_neg h, Nat.mul_zero, Nat.mul_zero]

/-- C159 (false in general): with a kernel of at least `2 ^ 31` pixels (radii from 23170 on), the median of a single pixel, whatever its value, is 255 in
release builds, and a panic in debug builds. -/
theorem C159_median_single (p : Fin n → Nat) (hp : ∀ c, p c < 256) (rx ry : Nat) (hrx : rx < 2147483647) (hry : ry < 2147483647)
    (hE : 2 ^ 31 ≤ (2 * rx + 1) * (2 * ry + 1)) (hE' : (2 * rx + 1) * (2 * ry + 1) < 2 ^ 32) :
    (∃ out, medianFilterR (Image.new 1 1 p) rx ry = some out ∧ ∀ c, out.px 0 0 c = 255) ∧
    (0 < n → medianFilter (Image.new 1 1 p) rx ry = none) := by
  obtain ⟨hist, e, h⟩ := initHist_spec (Image.new 1 1 p) rx ry (by simp [Image.new]) (by simp [Image.new])
  have hh : ∀ c, hist c = fun v => if v = p c then (2 * rx + 1) * (2 * ry + 1) else 0 := fun c => by
    rw [← W_single p rx ry c]
    funext v
    exact h c v
  have w1 : (Image.new 1 1 p).w = 1 := rfl
  have h1 : (Image.new 1 1 p).h = 1 := rfl
  constructor
  · unfold medianFilterR
    rw [w1, h1, if_neg (by omega), if_neg (by omega), if_neg (by omega)]
    dsimp only
    rw [e, Option.bind_some]
    have hs : setToMedianR ((2 * rx + 1) * (2 * ry + 1)) hist (Image.new 1 1 fun _ => 0) 0 0 =
        (Image.new 1 1 fun _ => 0).put 0 0 fun _ => 255 := by
      unfold setToMedianR
      simp only [hh, channelMedianR_large hE hE']
      simp
    unfold slideDownR
    rw [w1, h1, if_pos (by omega)]
    dsimp only
    rw [hs, Image.put_of_inB _ (by simp [Image.new]) (by simp [Image.new]), Option.bind_some, forRange_empty le_rfl,
      Option.bind_some, forRange_empty le_rfl, Option.map_some]
    exact ⟨_, rfl, fun c => rfl⟩
  · intro hn
    unfold medianFilter
    rw [w1, h1, if_neg (by omega), if_neg (by omega), if_neg (by omega)]
    dsimp only
    rw [e, Option.bind_some]
    have hs : setToMedian ((2 * rx + 1) * (2 * ry + 1)) hist (Image.new 1 1 fun _ => 0) 0 0 = none := by
      unfold setToMedian
      rw [if_neg]
      intro hc
      have := hc ⟨0, hn⟩
      rw [hh, channelMedian_large hE (hp _)] at this
      cases this
    unfold slideDown
    rw [w1, h1, if_pos (by omega)]
    dsimp only
    rw [hs]
    rfl

end

/-- C159: what a release build computes for a single pixel of value `v`: the extended row has the sum `v * (2 * rx + 1)`, which wraps. -/
theorem C159_box_single (v rx : Nat) (hv : v < 256) (hrx : 2 * rx + 1 < 2 ^ 32) :
    ∃ out, boxFilterM false (Image.new 1 1 v) rx 0 = some out ∧ out.px 0 0 = v * (2 * rx + 1) % 2 ^ 32 / (2 * rx + 1) % 256 := by
  have f1 : ∀ {σ : Type} (s : σ) (f : Nat → σ → Option σ), forRange 0 1 s f = f 0 s := by
    intro σ s f
    rw [forRange_succ_last le_rfl, forRange_empty le_rfl, Option.bind_some]
  have w1 : (Image.new 1 1 v).w = 1 := rfl
  have h1 : (Image.new 1 1 v).h = 1 := rfl
  unfold boxFilterM
  rw [w1, h1, if_neg (by omega), red32 (by omega), Option.bind_some, red32 (by omega), Option.bind_some, red32 (by omega), Option.bind_some,
    red32 (by omega), Option.bind_some, red32 (by omega), Option.bind_some, f1]
  obtain ⟨b, e, hl, hb⟩ := rowRunningSumM_spec (dbg := false) (Image.new 1 1 v) 0 rx ⟨1 + 2 * rx, fun _ => 0⟩ (fun _ _ _ _ => hv)
    (fun h => by cases h) (by simp [Image.new]) (by simp [Image.new]) (by simp [Image.new])
  dsimp only at e hl hb ⊢
  rw [e, Option.bind_some]
  have hb0 : b.at' (2 * rx) = v * (2 * rx + 1) % 2 ^ 32 := by
    rw [hb _ (by omega)]
    have : ∑ j ∈ range (2 * rx + 1), (Image.new 1 1 v).px (clampTo (Image.new 1 1 v).w ((j : Int) - rx)) 0 = v * (2 * rx + 1) := by
      rw [show (fun j : Nat => (Image.new 1 1 v).px (clampTo (Image.new 1 1 v).w ((j : Int) - rx)) 0) = fun _ => v from rfl, sum_const, card_range,
        smul_eq_mul, Nat.mul_comm]
    rw [this]
    rfl
  generalize hq : v * (2 * rx + 1) % 2 ^ 32 / (2 * rx + 1) % 256 = q
  have hq' : q < 256 := by omega
  unfold rowPassM
  rw [show bufGet b (2 * rx) = some (b.at' (2 * rx)) by unfold bufGet; rw [if_pos (by omega)], Option.bind_some, hb0, if_neg (by omega), hq,
    Image.put_of_inB _ (by simp [Image.new]) (by simp [Image.new]), Option.bind_some, forRange_empty le_rfl, Option.map_some, Option.bind_some,
    Option.bind_some, f1]
  dsimp only
  obtain ⟨o, ho⟩ : ∃ o : Image Nat, o = { w := (Image.new 1 1 0).w, h := (Image.new 1 1 0).h, px := fun a b => if a = 0 ∧ b = 0 then q else (Image.new 1 1 0).px a b } :=
    ⟨_, rfl⟩
  have ow : o.w = 1 := by rw [ho]; rfl
  have oh : o.h = 1 := by rw [ho]; rfl
  have oq : o.px 0 0 = q := by rw [ho]; rfl
  rw [← ho]
  clear ho
  obtain ⟨b', e', hl', hb'⟩ := columnRunningSumM_spec (dbg := false) o 0 0 ⟨2 * 0 + 1, fun _ => 0⟩
    (fun x y hx hy => by rw [show x = 0 by omega, show y = 0 by omega, oq]; exact hq')
    (fun h => by cases h) (by omega) (by omega) (by dsimp only; omega)
  dsimp only at e' hl' hb'
  have hb0' : b'.at' 0 = q := by
    rw [hb' 0 (by omega), sum_range_one, show clampTo o.h (((0 : Nat) : Int) - (0 : Nat)) = 0 by unfold clampTo; omega, oq]
    exact Nat.mod_eq_of_lt (by omega)
  rw [e', Option.bind_some]
  unfold colPassM
  rw [show bufGet b' (2 * 0) = some (b'.at' 0) by unfold bufGet; rw [if_pos (by omega)], Option.bind_some, hb0', if_neg (by omega),
    Image.put_of_inB _ (by omega) (by omega), Option.bind_some, forRange_empty le_rfl, Option.map_some, Option.map_some]
  refine ⟨_, rfl, ?_⟩
  dsimp only
  rw [if_pos ⟨rfl, rfl⟩, Nat.mul_zero, Nat.zero_add, Nat.div_one, Nat.mod_eq_of_lt hq']

/-- C159 (false in general): on a single white pixel with x radius 8421505, release builds of the box filter return black and debug builds panic; the
median of a black pixel with radii 23170 is white. -/
theorem C159_negation :
    (∃ out, boxFilterM false (Image.new 1 1 255) 8421505 0 = some out ∧ out.px 0 0 = 0) ∧
    boxFilterM true (Image.new 1 1 255) 8421505 0 = none ∧
    ∃ out, medianFilterR (Image.new 1 1 (fun _ : Fin 1 => 0)) 23170 23170 = some out ∧ out.px 0 0 0 = 255 := by
  refine ⟨?_, ?_, ?_⟩
  · obtain ⟨out, e, h⟩ := C159_box_single 255 8421505 (by norm_num) (by norm_num)
    exact ⟨out, e, h⟩
  · refine C159_box_debug_panics _ _ _ 0 (by simp [Image.new]) (by simp [Image.new]) ?_
    simp [Image.new]
  · obtain ⟨out, e, h⟩ := (C159_median_single (fun _ : Fin 1 => 0) (by simp) 23170 23170 (by norm_num) (by norm_num) (by norm_num)
      (by norm_num)).1
    exact ⟨out, e, h 0⟩

/-- The hypotheses of the positive claim hold for a ramp with radii larger than the image: release and debug builds agree with the specification. -/
example (dbg : Bool) : ∃ out, boxFilterM dbg ⟨3, 2, fun x y => 100 * x + 7 * y⟩ 1000 5 = some out ∧
    out.px 1 0 = boxSpec ⟨3, 2, fun x y => 100 * x + 7 * y⟩ 1000 5 1 0 := by
  obtain ⟨out, e, -, -, h⟩ := C159_box dbg ⟨3, 2, fun x y => 100 * x + 7 * y⟩ 1000 5 (by intro x y hx hy; dsimp only at *; omega)
    (by norm_num) (by norm_num) (by norm_num) (by norm_num) (fun _ => by norm_num) (fun _ => by norm_num)
  exact ⟨out, e, h 1 0 (by norm_num) (by norm_num)⟩

end Verif.Filter.Machine
