import Verif.Integral.Props
/-
Model of src/filter/box_filter.rs and property theorem C40.  Grey values are naturals below 256
and the running sums are naturals (`u32` sums do not overflow below 2^32 / 255 columns).
-/
namespace Verif.Filter.Box
open Finset Verif.Integral

/-- `buffer[i]`, panics out of range. -/
def bufGet (b : Buf) (i : Nat) : Option Nat := if i < b.len then some (b.at' i) else none

/-- The writes of one row, box_filter.rs:32-48. -/
def rowPass (out : Image Nat) (buf : Buf) (y w rx : Nat) : Option (Image Nat) :=
  (bufGet buf (2 * rx)).bind fun v =>
  (out.put 0 y (v / (2 * rx + 1) % 256)).bind fun out =>
  forRange 1 w out fun x out =>
    (bufGet buf (x + 2 * rx)).bind fun u =>
    (bufGet buf (x - 1)).bind fun l =>
    (csub u l).bind fun d =>
    out.put x y (d / (2 * rx + 1) % 256)

/-- The writes of one column, box_filter.rs:53-68. -/
def colPass (out : Image Nat) (buf : Buf) (x h ry : Nat) : Option (Image Nat) :=
  (bufGet buf (2 * ry)).bind fun v =>
  (out.put x 0 (v / (2 * ry + 1) % 256)).bind fun out =>
  forRange 1 h out fun y out =>
    (bufGet buf (y + 2 * ry)).bind fun u =>
    (bufGet buf (y - 1)).bind fun l =>
    (csub u l).bind fun d =>
    out.put x y (d / (2 * ry + 1) % 256)

/-- `box_filter`, box_filter.rs:19-72.  `val as u8` is reduction modulo 256. -/
def boxFilter (im : Image Nat) (rx ry : Nat) : Option (Image Nat) :=
  if im.w = 0 ∨ im.h = 0 then some (Image.new im.w im.h 0)
  else
    (forRange 0 im.h ((⟨im.w + 2 * rx, fun _ => 0⟩, Image.new im.w im.h 0) : Buf × Image Nat)
      fun y st =>
        (rowRunningSum im y st.1 rx).bind fun buf =>
        (rowPass st.2 buf y im.w rx).map fun out => (buf, out)).bind fun st =>
    (forRange 0 im.w ((⟨im.h + 2 * ry, fun _ => 0⟩, st.2) : Buf × Image Nat)
      fun x st =>
        (columnRunningSum st.2 x st.1 ry).bind fun buf =>
        (colPass st.2 buf x im.h ry).map fun out => (buf, out)).map Prod.snd

/-! ### Specification -/

/-- Floor of the mean of `f` over the clamped window of radius `r` around `x` in `0..n-1`. -/
def meanOf (n r : Nat) (f : Nat → Nat) (x : Nat) : Nat :=
  (∑ i ∈ range (2 * r + 1), f (clampTo n ((x : Int) + i - r))) / (2 * r + 1)

/-- Horizontal floor mean, then vertical floor mean of the result. -/
def boxSpec (im : Image Nat) (rx ry x y : Nat) : Nat :=
  meanOf im.h ry (fun b => meanOf im.w rx (fun a => im.px a b) x) y

theorem mean_le (n r : Nat) (f : Nat → Nat) (x M : Nat) (hn : 0 < n)
    (h : ∀ i, i < n → f i ≤ M) : meanOf n r f x ≤ M := by
  unfold meanOf
  refine Nat.div_le_of_le_mul ?_
  calc ∑ i ∈ range (2 * r + 1), f (clampTo n ((x : Int) + i - r))
      ≤ ∑ _i ∈ range (2 * r + 1), M := sum_le_sum fun i _ => h _ (clampTo_lt hn _)
    _ = (2 * r + 1) * M := by rw [sum_const, card_range]; rfl

theorem le_mean (n r : Nat) (f : Nat → Nat) (x M : Nat) (hn : 0 < n)
    (h : ∀ i, i < n → M ≤ f i) : M ≤ meanOf n r f x := by
  unfold meanOf
  rw [Nat.le_div_iff_mul_le (by omega)]
  calc M * (2 * r + 1) = ∑ _i ∈ range (2 * r + 1), M := by
        rw [sum_const, card_range, Nat.mul_comm]; rfl
    _ ≤ _ := sum_le_sum fun i _ => h _ (clampTo_lt hn _)

/-- A window sum is a difference of two running sums. -/
theorem window_sum (r x : Nat) (f : Int → Nat) :
    ∑ j ∈ range (x + 1 + 2 * r + 1), f ((j : Int) - r) =
      ∑ j ∈ range (x + 1), f ((j : Int) - r) +
        ∑ i ∈ range (2 * r + 1), f (((x + 1 : Nat) : Int) + i - r) := by
  rw [show x + 1 + 2 * r + 1 = (x + 1) + (2 * r + 1) by omega, sum_range_add]
  congr 1

theorem rowPass_spec (f : Nat → Nat) (w rx y : Nat) (hw : 0 < w) (hf : ∀ i, i < w → f i < 256)
    (buf : Buf) (hl : buf.len = w + 2 * rx)
    (hb : ∀ k, k < buf.len → buf.at' k = ∑ j ∈ range (k + 1), f (clampTo w ((j : Int) - rx)))
    (out : Image Nat) (h1 : out.w = w) (h2 : y < out.h) :
    ∃ out', rowPass out buf y w rx = some out' ∧ out'.w = w ∧ out'.h = out.h ∧
      ∀ a b, a < w → out'.px a b = if b = y then meanOf w rx f a else out.px a b := by
  have hm : ∀ x, meanOf w rx f x % 256 = meanOf w rx f x := by
    intro x
    have := mean_le w rx f x 255 hw (fun i hi => by have := hf i hi; omega)
    omega
  unfold rowPass bufGet
  rw [if_pos (by omega), Option.bind_some, Image.put_of_inB _ (by omega) h2, Option.bind_some]
  have e0 : buf.at' (2 * rx) / (2 * rx + 1) % 256 = meanOf w rx f 0 := by
    rw [← hm 0, hb _ (by omega)]
    unfold meanOf
    congr 2
    refine sum_congr rfl fun i _ => ?_
    congr 2
    omega
  rw [e0]
  obtain ⟨out', e, g1, g2, g3⟩ := forRange_spec (lo := 1) (hi := w)
    (s := { out with px := fun a b => if a = 0 ∧ b = y then meanOf w rx f 0 else out.px a b })
    (f := fun x out =>
      (if x + 2 * rx < buf.len then some (buf.at' (x + 2 * rx)) else none).bind fun u =>
      (if x - 1 < buf.len then some (buf.at' (x - 1)) else none).bind fun l =>
      (csub u l).bind fun d =>
      out.put x y (d / (2 * rx + 1) % 256))
    (fun x out' => out'.w = w ∧ out'.h = out.h ∧ ∀ a b, a < w →
      out'.px a b = if b = y ∧ a < x then meanOf w rx f a else out.px a b)
    (by omega)
    (by
      refine ⟨h1, rfl, ?_⟩
      intro a b ha
      dsimp only
      by_cases hc : a = 0 ∧ b = y
      · rw [if_pos hc, if_pos (by omega), hc.1]
      · rw [if_neg hc, if_neg (by omega)])
    (by
      rintro x out' hx1 hx2 ⟨g1, g2, g3⟩
      obtain ⟨x, rfl⟩ : ∃ x', x = x' + 1 := ⟨x - 1, by omega⟩
      rw [if_pos (by omega), Option.bind_some, if_pos (by omega), Option.bind_some,
        Nat.add_sub_cancel, hb _ (by omega), hb _ (by omega),
        window_sum rx x (fun j => f (clampTo w j)), csub_of_le (by omega), Option.bind_some,
        Nat.add_sub_cancel_left]
      have : (∑ i ∈ range (2 * rx + 1), f (clampTo w (((x + 1 : Nat) : Int) + i - rx))) /
          (2 * rx + 1) % 256 = meanOf w rx f (x + 1) := hm (x + 1)
      rw [this, Image.put_of_inB _ (by omega) (by omega)]
      refine ⟨_, rfl, g1, g2, ?_⟩
      intro a b ha
      dsimp only
      by_cases hc : a = x + 1 ∧ b = y
      · rw [if_pos hc, if_pos (by omega), hc.1]
      · rw [if_neg hc, g3 a b ha]
        exact if_congr (by omega) rfl rfl)
  refine ⟨out', e, g1, g2, ?_⟩
  intro a b ha
  rw [g3 a b ha]
  exact if_congr (by omega) rfl rfl

theorem colPass_spec (f : Nat → Nat) (h ry x : Nat) (hh : 0 < h) (hf : ∀ i, i < h → f i < 256)
    (buf : Buf) (hl : buf.len = h + 2 * ry)
    (hb : ∀ k, k < buf.len → buf.at' k = ∑ j ∈ range (k + 1), f (clampTo h ((j : Int) - ry)))
    (out : Image Nat) (h1 : out.h = h) (h2 : x < out.w) :
    ∃ out', colPass out buf x h ry = some out' ∧ out'.w = out.w ∧ out'.h = h ∧
      ∀ a b, b < h → out'.px a b = if a = x then meanOf h ry f b else out.px a b := by
  have hm : ∀ y, meanOf h ry f y % 256 = meanOf h ry f y := by
    intro y
    have := mean_le h ry f y 255 hh (fun i hi => by have := hf i hi; omega)
    omega
  unfold colPass bufGet
  rw [if_pos (by omega), Option.bind_some, Image.put_of_inB _ h2 (by omega), Option.bind_some]
  have e0 : buf.at' (2 * ry) / (2 * ry + 1) % 256 = meanOf h ry f 0 := by
    rw [← hm 0, hb _ (by omega)]
    unfold meanOf
    congr 2
    refine sum_congr rfl fun i _ => ?_
    congr 2
    omega
  rw [e0]
  obtain ⟨out', e, g1, g2, g3⟩ := forRange_spec (lo := 1) (hi := h)
    (s := { out with px := fun a b => if a = x ∧ b = 0 then meanOf h ry f 0 else out.px a b })
    (f := fun y out =>
      (if y + 2 * ry < buf.len then some (buf.at' (y + 2 * ry)) else none).bind fun u =>
      (if y - 1 < buf.len then some (buf.at' (y - 1)) else none).bind fun l =>
      (csub u l).bind fun d =>
      out.put x y (d / (2 * ry + 1) % 256))
    (fun y out' => out'.w = out.w ∧ out'.h = h ∧ ∀ a b, b < h →
      out'.px a b = if a = x ∧ b < y then meanOf h ry f b else out.px a b)
    (by omega)
    (by
      refine ⟨rfl, h1, ?_⟩
      intro a b ha
      dsimp only
      by_cases hc : a = x ∧ b = 0
      · rw [if_pos hc, if_pos (by omega), hc.2]
      · rw [if_neg hc, if_neg (by omega)])
    (by
      rintro y out' hy1 hy2 ⟨g1, g2, g3⟩
      obtain ⟨y, rfl⟩ : ∃ y', y = y' + 1 := ⟨y - 1, by omega⟩
      rw [if_pos (by omega), Option.bind_some, if_pos (by omega), Option.bind_some,
        Nat.add_sub_cancel, hb _ (by omega), hb _ (by omega),
        window_sum ry y (fun j => f (clampTo h j)), csub_of_le (by omega), Option.bind_some,
        Nat.add_sub_cancel_left]
      have : (∑ i ∈ range (2 * ry + 1), f (clampTo h (((y + 1 : Nat) : Int) + i - ry))) /
          (2 * ry + 1) % 256 = meanOf h ry f (y + 1) := hm (y + 1)
      rw [this, Image.put_of_inB _ (by omega) (by omega)]
      refine ⟨_, rfl, g1, g2, ?_⟩
      intro a b ha
      dsimp only
      by_cases hc : a = x ∧ b = y + 1
      · rw [if_pos hc, if_pos (by omega), hc.2]
      · rw [if_neg hc, g3 a b ha]
        exact if_congr (by omega) rfl rfl)
  refine ⟨out', e, g1, g2, ?_⟩
  intro a b ha
  rw [g3 a b ha]
  exact if_congr (by omega) rfl rfl

/-- **C40.** For every grey image and all radii the box filter succeeds (no running-sum
subtraction underflows) and every pixel is the floor mean over the clamped vertical window of the
floor means over the clamped horizontal windows. -/
theorem C40_box_filter (im : Image Nat) (rx ry : Nat)
    (hu : ∀ x y, x < im.w → y < im.h → im.px x y < 256) :
    ∃ out, boxFilter im rx ry = some out ∧ out.w = im.w ∧ out.h = im.h ∧
      ∀ x y, x < im.w → y < im.h → out.px x y = boxSpec im rx ry x y := by
  unfold boxFilter
  by_cases h0 : im.w = 0 ∨ im.h = 0
  · rw [if_pos h0]
    exact ⟨_, rfl, rfl, rfl, by omega⟩
  · rw [if_neg h0]
    obtain ⟨st1, e1, g0, g1, g2, g3⟩ := forRange_spec (lo := 0) (hi := im.h)
      (s := ((⟨im.w + 2 * rx, fun _ => 0⟩, Image.new im.w im.h 0) : Buf × Image Nat))
      (f := fun y st =>
        (rowRunningSum im y st.1 rx).bind fun buf =>
        (rowPass st.2 buf y im.w rx).map fun out => (buf, out))
      (fun y st => st.1.len = im.w + 2 * rx ∧ st.2.w = im.w ∧ st.2.h = im.h ∧
        ∀ a b, a < im.w → b < y → st.2.px a b = meanOf im.w rx (fun a => im.px a b) a)
      (Nat.zero_le _) ⟨rfl, rfl, rfl, by omega⟩
      (by
        rintro y ⟨buf, out⟩ _ hy ⟨g0, g1, g2, g3⟩
        dsimp only at g0 g1 g2 g3 ⊢
        obtain ⟨buf', e, hl, hb⟩ := C11_row_running_sum im y rx buf hy (by omega) (by omega)
        rw [e, Option.bind_some]
        obtain ⟨out', e', k1, k2, k3⟩ := rowPass_spec (fun a => im.px a y) im.w rx y (by omega)
          (fun i hi => hu i y hi hy) buf' (by omega) (fun k hk => hb k (by omega)) out g1 (by omega)
        rw [e', Option.map_some]
        refine ⟨_, rfl, hl.trans g0, k1, k2.trans g2, ?_⟩
        intro a b ha hb
        dsimp only
        rw [k3 a b ha]
        by_cases hby : b = y
        · rw [if_pos hby, hby]
        · rw [if_neg hby]; exact g3 a b ha (by omega))
    rw [e1, Option.bind_some]
    have hmean : ∀ a b, a < im.w → b < im.h → meanOf im.w rx (fun a => im.px a b) a < 256 := by
      intro a b _ hb
      have := mean_le im.w rx (fun a => im.px a b) a 255 (by omega)
        (fun i hi => by have := hu i b hi hb; omega)
      omega
    obtain ⟨st2, e2, k0, k1, k2, k3⟩ := forRange_spec (lo := 0) (hi := im.w)
      (s := ((⟨im.h + 2 * ry, fun _ => 0⟩, st1.2) : Buf × Image Nat))
      (f := fun x st =>
        (columnRunningSum st.2 x st.1 ry).bind fun buf =>
        (colPass st.2 buf x im.h ry).map fun out => (buf, out))
      (fun x st => st.1.len = im.h + 2 * ry ∧ st.2.w = im.w ∧ st.2.h = im.h ∧
        ∀ a b, a < im.w → b < im.h → st.2.px a b = if a < x then boxSpec im rx ry a b else
          meanOf im.w rx (fun a => im.px a b) a)
      (Nat.zero_le _) ⟨rfl, g1, g2, fun a b ha hb => by
        rw [if_neg (by omega)]; exact g3 a b ha hb⟩
      (by
        rintro x ⟨buf, out⟩ _ hx ⟨g0, g1, g2, g3⟩
        dsimp only at g0 g1 g2 g3 ⊢
        obtain ⟨buf', e, hl, hb⟩ := C11_column_running_sum out x ry buf (by omega) (by omega)
          (by omega)
        rw [e, Option.bind_some]
        obtain ⟨out', e', k1, k2, k3⟩ := colPass_spec
          (fun b => meanOf im.w rx (fun a => im.px a b) x) im.h ry x (by omega)
          (fun i hi => hmean x i hx hi) buf' (by omega)
          (by
            intro k hk
            rw [hb k (by omega)]
            refine sum_congr rfl fun j _ => ?_
            rw [g2, g3 x _ hx (clampTo_lt (by omega) _), if_neg (by omega)]) out g2 (by omega)
        rw [e', Option.map_some]
        refine ⟨_, rfl, hl.trans g0, k1.trans g1, k2, ?_⟩
        intro a b ha hb
        dsimp only
        rw [k3 a b hb]
        by_cases hax : a = x
        · rw [if_pos hax, if_pos (by omega), hax]; rfl
        · rw [if_neg hax, g3 a b ha hb]
          exact if_congr (by omega) rfl rfl)
    rw [e2]
    refine ⟨st2.2, rfl, k1, k2, ?_⟩
    intro x y hx hy
    rw [k3 x y hx hy, if_pos hx]

/-- **C40.** The result stays between any bounds of the input. -/
theorem C40_range (im : Image Nat) (rx ry lo hi : Nat) (hhi : hi < 256)
    (hb : ∀ x y, x < im.w → y < im.h → lo ≤ im.px x y ∧ im.px x y ≤ hi) :
    ∃ out, boxFilter im rx ry = some out ∧
      ∀ x y, x < im.w → y < im.h → lo ≤ out.px x y ∧ out.px x y ≤ hi := by
  obtain ⟨out, e, _, _, h⟩ := C40_box_filter im rx ry
    (fun x y hx hy => by have := hb x y hx hy; omega)
  refine ⟨out, e, fun x y hx hy => ?_⟩
  rw [h x y hx hy]
  unfold boxSpec
  exact ⟨le_mean _ _ _ _ _ (by omega) fun j hj => le_mean _ _ _ _ _ (by omega) fun i hi =>
      (hb i j hi hj).1,
    mean_le _ _ _ _ _ (by omega) fun j hj => mean_le _ _ _ _ _ (by omega) fun i hi =>
      (hb i j hi hj).2⟩

/-- **C40.** The two floor divisions differ from the exact box mean by less than two grey levels,
and never exceed it. -/
theorem C40_rounding (im : Image Nat) (rx ry x y : Nat) :
    boxSpec im rx ry x y * ((2 * rx + 1) * (2 * ry + 1)) ≤
      ∑ j ∈ range (2 * ry + 1), ∑ i ∈ range (2 * rx + 1),
        im.px (clampTo im.w ((x : Int) + i - rx)) (clampTo im.h ((y : Int) + j - ry)) ∧
    ∑ j ∈ range (2 * ry + 1), ∑ i ∈ range (2 * rx + 1),
        im.px (clampTo im.w ((x : Int) + i - rx)) (clampTo im.h ((y : Int) + j - ry)) <
      (boxSpec im rx ry x y + 2) * ((2 * rx + 1) * (2 * ry + 1)) := by
  generalize hkx : 2 * rx + 1 = kx
  generalize hky : 2 * ry + 1 = ky
  have hx0 : 0 < kx := by omega
  have hy0 : 0 < ky := by omega
  generalize hR : (fun j : Nat => ∑ i ∈ range kx, im.px (clampTo im.w ((x : Int) + i - rx))
    (clampTo im.h ((y : Int) + j - ry))) = R
  have hbox : boxSpec im rx ry x y = (∑ j ∈ range ky, R j / kx) / ky := by
    unfold boxSpec meanOf
    rw [hkx, hky, ← hR]
  rw [hbox]
  generalize hS : ∑ j ∈ range ky, R j / kx = S
  have h1 : S * kx ≤ ∑ j ∈ range ky, R j := by
    rw [← hS, sum_mul]
    exact sum_le_sum fun j _ => Nat.div_mul_le_self _ _
  have h2 : ∑ j ∈ range ky, R j < (S + ky) * kx := by
    have h3 : ∑ j ∈ range ky, R j < ∑ j ∈ range ky, (R j / kx + 1) * kx := by
      refine sum_lt_sum_of_nonempty (by simpa using hy0.ne') fun j _ => ?_
      exact Nat.lt_mul_of_div_lt (Nat.lt_succ_self _) hx0
    rwa [← sum_mul, sum_add_distrib, hS, sum_const, card_range,
      show ky • (1 : Nat) = ky from Nat.mul_one ky] at h3
  have h3 : S / ky * ky ≤ S := Nat.div_mul_le_self _ _
  have h4 : S < (S / ky + 1) * ky := Nat.lt_mul_of_div_lt (Nat.lt_succ_self _) hy0
  constructor
  · calc S / ky * (kx * ky) = S / ky * ky * kx := by rw [Nat.mul_comm kx, Nat.mul_assoc]
      _ ≤ S * kx := Nat.mul_le_mul_right _ h3
      _ ≤ _ := h1
  · refine Nat.lt_of_lt_of_le h2 ?_
    calc (S + ky) * kx ≤ ((S / ky + 1) * ky + ky) * kx :=
          Nat.mul_le_mul_right _ (by omega)
      _ = _ := by ring

example : (boxFilter (Image.ofRows 0 [[10, 20, 60], [1, 2, 3]]) 1 1).map Image.rows =
    some [[9, 20, 31], [5, 11, 16]] := by decide

end Verif.Filter.Box
