import Verif.Filter.Props
import Verif.Drawing.FillMachine
import Verif.Suppress.Machine
/-
`horizontal_filter` (src/filter/mod.rs) with its `i32` coordinates, in debug builds (overflow
panics) and release builds (overflow wraps), on images of every width a `u32` allows.  Property
theorem C204.
-/
namespace Verif.Filter
open Verif.Drawing (i32 i32_ok)
open Verif.Float (forRange_congr)
variable {ι σ K : Type _}

/-! ### The model -/

/-- `n as i32` for a `u32`. -/
def asI32 (n : Nat) : Int := Int.bmod n (2 ^ 32)

/-- One pixel of `horizontal_filter`, see `hPixel`; `fix` may panic.  Kernels are shorter than
`2^31`, so `i as i32` and `half_k` are exact. -/
def hPixelM [Zero K] [Add K] [Mul K] (dbg : Bool) (into : σ → K) (clamp : K → σ)
    (im : Image (ι → σ)) (kernel : List K) (fix : Int → Option Int) (x y : Nat)
    (st : Image (ι → σ) × (ι → K)) : Option (Image (ι → σ) × (ι → K)) :=
  (forRange 0 kernel.length st.2 fun i acc =>
    (i32 dbg (asI32 x + i)).bind fun a =>
    (i32 dbg (a - (kernel.length : Int) / 2)).bind fun u => (fix u).bind fun v =>
    (im.get (asU32 v) y).bind fun p =>
    (kernel[i]?).bind fun k =>
    some (accumulate into acc p k)).bind fun acc =>
  (st.1.put x y fun c => clamp (acc c)).map fun out => (out, fun _ => 0)

/-- `horizontal_filter`, filter/mod.rs:234-316.  After line 252 the width is larger than the
kernel as an `i32`, so the ranges of lines 273, 287 and 301 are exact. -/
def horizontalFilterM [Zero K] [Add K] [Mul K] (dbg : Bool) (into : σ → K) (clamp : K → σ) (zt : σ)
    (im : Image (ι → σ)) (kernel : List K) : Option (Image (ι → σ)) :=
  let half := kernel.length / 2
  let st0 : Image (ι → σ) × (ι → K) := (Image.new im.w im.h fun _ => zt, fun _ => (0 : K))
  if asI32 im.w ≤ kernel.length then
    (forYX 0 im.h 0 im.w st0 fun x y st =>
      hPixelM dbg into clamp im kernel (fun u =>
        (i32 dbg (asI32 im.w - 1)).map fun hi => max 0 (min u hi)) x y st).map Prod.fst
  else
    (forRange 0 im.h st0 fun y st =>
      (forRange 0 half st fun x st =>
        hPixelM dbg into clamp im kernel (fun u => some (max 0 u)) x y st).bind fun st =>
      (forRange half (im.w - half) st fun x st =>
        hPixelM dbg into clamp im kernel (fun u => some u) x y st).bind fun st =>
      forRange (im.w - half) im.w st fun x st =>
        hPixelM dbg into clamp im kernel (fun u =>
          (i32 dbg (asI32 im.w - 1)).map fun hi => min u hi) x y st).map Prod.fst

/-! ### Proofs -/

theorem asI32_small {n : Nat} (h : n < 2 ^ 31) : asI32 n = n := by
  unfold asI32
  rw [Int.bmod_def]
  split_ifs <;> omega

theorem asI32_large {n : Nat} (h : 2 ^ 31 ≤ n) (h2 : n < 2 ^ 32) : asI32 n = (n : Int) - 2 ^ 32 := by
  unfold asI32
  rw [Int.bmod_def]
  split_ifs <;> omega

/-- The sums needed for a pixel fit: in debug builds also the intermediate one. -/
def Fits (dbg : Bool) (w len : Nat) : Prop :=
  len < 2 ^ 31 ∧ if dbg then w + len ≤ 2 ^ 31 + 1 else w + len ≤ 2 ^ 31 + 1 + len / 2

theorem i32_two (dbg : Bool) {w len x i : Nat} (hf : Fits dbg w len) (hw : w < 2 ^ 31) (hx : x < w)
    (hi : i < len) : ∃ a, i32 dbg (asI32 x + i) = some a ∧
      i32 dbg (a - (len : Int) / 2) = some ((x : Int) + i - (len : Int) / 2) := by
  obtain ⟨hl, hf⟩ := hf
  rw [asI32_small (by omega)]
  by_cases hc : x + i < 2 ^ 31
  · exact ⟨_, i32_ok dbg (by omega) (by omega), i32_ok dbg (by omega) (by
      cases dbg <;> simp at hf <;> omega)⟩
  · cases dbg
    · rw [if_neg (by simp)] at hf
      refine ⟨(x : Int) + i - 2 ^ 32, ?_, ?_⟩
      · unfold Drawing.i32
        rw [if_neg (by omega), if_neg (by simp), Int.bmod_def]
        have : (((x : Int) + (i : Int)) % ((2 ^ 32 : Nat) : Int)) = (x : Int) + i := by omega
        rw [this, if_neg (by omega)]
        norm_num
      · unfold Drawing.i32
        by_cases hz : -2 ^ 31 ≤ (x : Int) + i - 2 ^ 32 - (len : Int) / 2
        · exfalso; omega
        · rw [if_neg (by omega), if_neg (by simp), Int.bmod_def]
          have : (((x : Int) + (i : Int) - 2 ^ 32 - (len : Int) / 2) % ((2 ^ 32 : Nat) : Int)) =
            (x : Int) + i - (len : Int) / 2 := by omega
          rw [this, if_pos (by omega)]
    · exfalso
      rw [if_pos rfl] at hf
      omega

theorem hPixelM_eq [Zero K] [Add K] [Mul K] (dbg : Bool) (into : σ → K) (clamp : K → σ)
    (im : Image (ι → σ)) (kernel : List K) (fix : Int → Option Int) (fix' : Int → Int)
    (hf : ∀ u, fix u = some (fix' u)) {x : Nat} (hw : im.w < 2 ^ 31)
    (hx : x < im.w) (hfit : Fits dbg im.w kernel.length) (y : Nat)
    (st : Image (ι → σ) × (ι → K)) :
    hPixelM dbg into clamp im kernel fix x y st = hPixel into clamp im kernel fix' x y st := by
  unfold hPixelM hPixel
  refine congrArg₂ Option.bind ?_ rfl
  refine forRange_congr _ fun i acc _ hi => ?_
  obtain ⟨a, e1, e2⟩ := i32_two dbg hfit hw hx hi
  rw [e1, Option.bind_some, e2, Option.bind_some, hf, Option.bind_some]

/-- C204 (partial: fewer than `2^31` columns, and the rightmost column read for the last pixel
below `2^31`, in debug builds even before half the kernel is subtracted): then both build profiles
compute the filter on unbounded coordinates. -/
theorem C204_fits_partial [Zero K] [Add K] [Mul K] (dbg : Bool) (into : σ → K) (clamp : K → σ)
    (zt : σ) (im : Image (ι → σ)) (kernel : List K) (hw31 : im.w < 2 ^ 31)
    (hk : kernel.length < 2 ^ 31) (hd : dbg = true → im.w + kernel.length ≤ 2 ^ 31 + 1)
    (hr : im.w + kernel.length ≤ 2 ^ 31 + 1 + kernel.length / 2) :
    horizontalFilterM dbg into clamp zt im kernel = horizontalFilter into clamp zt im kernel := by
  have hfit : Fits dbg im.w kernel.length := by
    refine ⟨hk, ?_⟩
    cases dbg
    · rw [if_neg (by simp)]; exact hr
    · rw [if_pos rfl]; exact hd rfl
  have hfix : i32 dbg (asI32 im.w - 1) = some ((im.w : Int) - 1) := by
    rw [asI32_small hw31, i32_ok dbg (by omega) (by omega)]
  unfold horizontalFilterM horizontalFilter
  dsimp only
  by_cases hc : im.w ≤ kernel.length
  · rw [if_pos (by rw [asI32_small hw31]; omega), if_pos hc]
    refine congrArg (Option.map Prod.fst) ?_
    refine Suppress.forYX_congr _ fun x y st hx hy => ?_
    exact hPixelM_eq dbg into clamp im kernel _ _ (fun u => by rw [hfix]; rfl) hw31 (by omega) hfit y st
  · rw [if_neg (by rw [asI32_small hw31]; omega), if_neg hc]
    refine congrArg (Option.map Prod.fst) ?_
    refine forRange_congr _ fun y st _ _ => ?_
    rw [forRange_congr (g := fun x st => hPixel into clamp im kernel (fun i => max 0 i) x y st) st
      (fun x s _ hx => hPixelM_eq dbg into clamp im kernel _ _ (fun u => rfl) hw31 (by omega) hfit y s)]
    refine congrArg₂ Option.bind rfl ?_
    funext st
    rw [forRange_congr (g := fun x st => hPixel into clamp im kernel (fun i => i) x y st) st
      (fun x s _ hx => hPixelM_eq dbg into clamp im kernel _ _ (fun u => rfl) hw31 (by omega) hfit y s)]
    refine congrArg₂ Option.bind rfl ?_
    funext st
    exact forRange_congr st
      (fun x s _ hx => hPixelM_eq dbg into clamp im kernel _ _ (fun u => by rw [hfix]; rfl)
        hw31 hx hfit y s)

/-- In release builds the two sums of a pixel wrap to the true position or to `2^32` less. -/
theorem i32_wrap {len x i : Nat} (hl : len < 2 ^ 31) (hx : x < 2 ^ 31) (hi : i < len) :
    ∃ a u, i32 false (asI32 x + i) = some a ∧ i32 false (a - (len : Int) / 2) = some u ∧
      u = if x + i < 2 ^ 31 + len / 2 then (x : Int) + i - (len : Int) / 2
        else (x : Int) + i - (len : Int) / 2 - 2 ^ 32 := by
  rw [asI32_small hx]
  by_cases hc : x + i < 2 ^ 31
  · exact ⟨_, _, i32_ok false (by omega) (by omega), i32_ok false (by omega) (by omega), by
      rw [if_pos (by omega)]⟩
  · refine ⟨(x : Int) + i - 2 ^ 32, if x + i < 2 ^ 31 + len / 2 then (x : Int) + i - (len : Int) / 2
        else (x : Int) + i - (len : Int) / 2 - 2 ^ 32, ?_, ?_, rfl⟩
    · unfold Drawing.i32
      rw [if_neg (by omega), if_neg (by simp), Int.bmod_def]
      have : (((x : Int) + (i : Int)) % ((2 ^ 32 : Nat) : Int)) = (x : Int) + i := by omega
      rw [this, if_neg (by omega)]
      norm_num
    · by_cases hz : x + i < 2 ^ 31 + len / 2
      · rw [if_pos hz]
        unfold Drawing.i32
        rw [if_neg (by omega), if_neg (by simp), Int.bmod_def]
        have : (((x : Int) + (i : Int) - 2 ^ 32 - (len : Int) / 2) % ((2 ^ 32 : Nat) : Int)) =
          (x : Int) + i - (len : Int) / 2 := by omega
        rw [this, if_pos (by omega)]
      · rw [if_neg hz, i32_ok false (by omega) (by omega)]
        exact congrArg some (by omega)

theorem i32_last {n : Nat} (h : n = 2 ^ 31) : i32 false (asI32 n - 1) = some (2 ^ 31 - 1) := by
  rw [asI32_large (by omega) (by omega)]
  unfold Drawing.i32
  rw [if_neg (by omega), if_neg (by simp), Int.bmod_def]
  have : (((n : Int) - 2 ^ 32 - 1) % ((2 ^ 32 : Nat) : Int)) = 2 ^ 31 - 1 := by omega
  rw [this, if_pos (by norm_num)]

/-- C205 (what a release build does on images of exactly `2^31` columns): left of the image the first
column is continued as it should be, but so it is to its right, in place of the last column. -/
theorem C204_edge [Semiring K] (into : σ → K) (clamp : K → σ) (zt : σ) (im : Image (ι → σ))
    (kernel : List K) (hw : im.w = 2 ^ 31) (hk : kernel.length < 2 ^ 31) :
    ∃ out, horizontalFilterM false into clamp zt im kernel = some out ∧ out.w = im.w ∧
      out.h = im.h ∧ ∀ x y c, x < im.w → y < im.h →
        out.px x y c = clamp (((List.range kernel.length).map fun i =>
          into (im.px (if kernel.length / 2 ≤ x + i ∧ x + i < 2 ^ 31 + kernel.length / 2 then
            x + i - kernel.length / 2 else 0) y c) * kernel.getD i 0).sum) := by
  have hcond : asI32 im.w ≤ kernel.length := by rw [asI32_large (by omega) (by omega)]; omega
  have hl := i32_last hw
  generalize hg : (fun x y c i => into (im.px (if kernel.length / 2 ≤ x + i ∧
    x + i < 2 ^ 31 + kernel.length / 2 then x + i - kernel.length / 2 else 0) y c) *
      kernel.getD i 0) = g
  have hg' : ∀ x y c i, g x y c i = into (im.px (if kernel.length / 2 ≤ x + i ∧
    x + i < 2 ^ 31 + kernel.length / 2 then x + i - kernel.length / 2 else 0) y c) *
      kernel.getD i 0 := fun x y c i => by rw [← hg]
  have hloop : ∀ x y, x < im.w → y < im.h →
      ∃ acc, (forRange 0 kernel.length (fun _ => (0 : K)) fun i acc =>
      (i32 false (asI32 x + i)).bind fun a =>
      (i32 false (a - (kernel.length : Int) / 2)).bind fun u =>
      ((i32 false (asI32 im.w - 1)).map fun hi => max 0 (min u hi)).bind fun v =>
      (im.get (asU32 v) y).bind fun p => (kernel[i]?).bind fun k =>
      some (accumulate into acc p k)) = some acc ∧
      ∀ c, acc c = ((List.range kernel.length).map (g x y c)).sum := by
    intro x y hx hy
    exact forRange_spec (lo := 0) (hi := kernel.length) (s := fun _ : ι => (0 : K))
      (f := fun i acc =>
        (i32 false (asI32 x + i)).bind fun a =>
        (i32 false (a - (kernel.length : Int) / 2)).bind fun u =>
        ((i32 false (asI32 im.w - 1)).map fun hi => max 0 (min u hi)).bind fun v =>
        (im.get (asU32 v) y).bind fun p => (kernel[i]?).bind fun k =>
        some (accumulate into acc p k))
      (fun i acc => ∀ c, acc c = ((List.range i).map (g x y c)).sum) (by omega)
      (fun c => by simp)
      (fun i acc _ hi ih => by
        obtain ⟨a, u, ha, hu, hv⟩ := i32_wrap hk (show x < 2 ^ 31 by omega) hi
        have hrow : asU32 (max 0 (min u (2 ^ 31 - 1))) =
            if kernel.length / 2 ≤ x + i ∧ x + i < 2 ^ 31 + kernel.length / 2 then
              x + i - kernel.length / 2 else 0 := by
          unfold asU32
          split_ifs at hv ⊢ <;> omega
        rw [ha, Option.bind_some, hu, Option.bind_some, hl, Option.map_some, Option.bind_some,
          hrow, Image.get_of_inB (by split_ifs <;> omega) hy, Option.bind_some,
          List.getElem?_eq_getElem hi, Option.bind_some]
        refine ⟨_, rfl, fun c => ?_⟩
        rw [accumulate, ih c, List.range_succ, List.map_append, List.sum_append, List.map_singleton,
          List.sum_singleton, hg', List.getD_eq_getElem _ _ hi])
  unfold horizontalFilterM
  dsimp only
  rw [if_pos hcond]
  obtain ⟨st, e, h1, h2, h3, h4⟩ := forYX_spec (y0 := 0) (y1 := im.h) (x0 := 0) (x1 := im.w)
    (s := ((Image.new im.w im.h fun _ => zt, fun _ => (0 : K)) : Image (ι → σ) × (ι → K)))
    (f := fun x y st => hPixelM false into clamp im kernel (fun u =>
        (i32 false (asI32 im.w - 1)).map fun hi => max 0 (min u hi)) x y st)
    (fun x y st => st.1.w = im.w ∧ st.1.h = im.h ∧ st.2 = (fun _ => 0) ∧
      ∀ a b c, a < im.w → (b < y ∨ b = y ∧ a < x) →
        st.1.px a b c = clamp (((List.range kernel.length).map (g a b c)).sum))
    (by omega) (by omega) ⟨rfl, rfl, rfl, fun a b c _ h => by omega⟩
    (by
      rintro x y st _ hx _ hy ⟨h1, h2, h3, h4⟩
      obtain ⟨acc, ea, ha⟩ := hloop x y hx hy
      unfold hPixelM
      rw [h3, ea, Option.bind_some, Image.put_of_inB _ (by omega) (by omega), Option.map_some]
      refine ⟨_, rfl, h1, h2, rfl, fun a b c hab h => ?_⟩
      dsimp only
      by_cases hc : a = x ∧ b = y
      · rw [if_pos hc, ha, hc.1, hc.2]
      · rw [if_neg hc]; exact h4 a b c hab (by omega))
    (by
      rintro y st _ hy ⟨h1, h2, h3, h4⟩
      exact ⟨h1, h2, h3, fun a b c ha h => h4 a b c ha (by omega)⟩)
  refine ⟨st.1, by rw [e]; rfl, h1, h2, fun x y c hx hy => ?_⟩
  rw [h4 x y c hx (Or.inl hy)]
  subst hg
  rfl

/-- C204 (what a release build does on images more than `2^31` columns wide): every pixel becomes
the leftmost pixel of its row times the sum of the kernel; nothing else is read. -/
theorem C204_wide [Semiring K] (into : σ → K) (clamp : K → σ) (zt : σ) (im : Image (ι → σ))
    (kernel : List K) (hw : 2 ^ 31 < im.w) (hw2 : im.w < 2 ^ 32) (hk : kernel.length < 2 ^ 31) :
    ∃ out, horizontalFilterM false into clamp zt im kernel = some out ∧ out.w = im.w ∧
      out.h = im.h ∧ ∀ x y c, x < im.w → y < im.h →
        out.px x y c = clamp (into (im.px 0 y c) * kernel.sum) := by
  have hcond : asI32 im.w ≤ kernel.length := by rw [asI32_large (by omega) hw2]; omega
  obtain ⟨last, hl, hl0⟩ : ∃ l, i32 false (asI32 im.w - 1) = some l ∧ l < 0 := by
    rw [asI32_large (by omega) hw2]
    exact ⟨_, i32_ok false (by omega) (by omega), by omega⟩
  have htot : ∀ z, ∃ v, i32 false z = some v := by
    intro z
    unfold Drawing.i32
    by_cases hz : -2 ^ 31 ≤ z ∧ z < 2 ^ 31
    · exact ⟨_, if_pos hz⟩
    · rw [if_neg hz]
      exact ⟨_, if_neg (by simp)⟩
  have hloop : ∀ x y, y < im.h → ∃ acc, (forRange 0 kernel.length (fun _ => (0 : K)) fun i acc =>
      (i32 false (asI32 x + i)).bind fun a =>
      (i32 false (a - (kernel.length : Int) / 2)).bind fun u =>
      ((i32 false (asI32 im.w - 1)).map fun hi => max 0 (min u hi)).bind fun v =>
      (im.get (asU32 v) y).bind fun p => (kernel[i]?).bind fun k =>
      some (accumulate into acc p k)) = some acc ∧
      ∀ c, acc c = into (im.px 0 y c) * kernel.sum := by
    intro x y hy
    obtain ⟨acc, e, h⟩ := forRange_spec (lo := 0) (hi := kernel.length) (s := fun _ : ι => (0 : K))
      (f := fun i acc =>
        (i32 false (asI32 x + i)).bind fun a =>
        (i32 false (a - (kernel.length : Int) / 2)).bind fun u =>
        ((i32 false (asI32 im.w - 1)).map fun hi => max 0 (min u hi)).bind fun v =>
        (im.get (asU32 v) y).bind fun p => (kernel[i]?).bind fun k =>
        some (accumulate into acc p k))
      (fun i acc => ∀ c, acc c = into (im.px 0 y c) * (kernel.take i).sum) (by omega)
      (fun c => by simp)
      (fun i acc _ hi ih => by
        obtain ⟨a, ha⟩ := htot (asI32 x + i)
        obtain ⟨u, hu⟩ := htot (a - (kernel.length : Int) / 2)
        rw [ha, Option.bind_some, hu, Option.bind_some, hl, Option.map_some, Option.bind_some,
          show max 0 (min u last) = 0 by omega, show asU32 0 = 0 from rfl,
          Image.get_of_inB (by omega) hy, Option.bind_some, List.getElem?_eq_getElem hi,
          Option.bind_some]
        refine ⟨_, rfl, fun c => ?_⟩
        rw [accumulate, ih c, List.take_succ_eq_append_getElem hi, List.sum_append,
          List.sum_singleton, mul_add])
    refine ⟨acc, e, fun c => ?_⟩
    rw [h c, List.take_length]
  unfold horizontalFilterM
  dsimp only
  rw [if_pos hcond]
  obtain ⟨st, e, h1, h2, h3, h4⟩ := forYX_spec (y0 := 0) (y1 := im.h) (x0 := 0) (x1 := im.w)
    (s := ((Image.new im.w im.h fun _ => zt, fun _ => (0 : K)) : Image (ι → σ) × (ι → K)))
    (f := fun x y st => hPixelM false into clamp im kernel (fun u =>
        (i32 false (asI32 im.w - 1)).map fun hi => max 0 (min u hi)) x y st)
    (fun x y st => st.1.w = im.w ∧ st.1.h = im.h ∧ st.2 = (fun _ => 0) ∧
      ∀ a b c, a < im.w → (b < y ∨ b = y ∧ a < x) →
        st.1.px a b c = clamp (into (im.px 0 b c) * kernel.sum))
    (by omega) (by omega) ⟨rfl, rfl, rfl, fun a b c _ h => by omega⟩
    (by
      rintro x y st _ hx _ hy ⟨h1, h2, h3, h4⟩
      obtain ⟨acc, ea, ha⟩ := hloop x y hy
      unfold hPixelM
      rw [h3, ea, Option.bind_some, Image.put_of_inB _ (by omega) (by omega), Option.map_some]
      refine ⟨_, rfl, h1, h2, rfl, fun a b c hab h => ?_⟩
      dsimp only
      by_cases hc : a = x ∧ b = y
      · rw [if_pos hc, ha, hc.2]
      · rw [if_neg hc]; exact h4 a b c hab (by omega))
    (by
      rintro y st _ hy ⟨h1, h2, h3, h4⟩
      exact ⟨h1, h2, h3, fun a b c ha h => h4 a b c ha (by omega)⟩)
  refine ⟨st.1, by rw [e]; rfl, h1, h2, fun x y c hx hy => h4 x y c hx (Or.inl hy)⟩

/-- C204: with a kernel of at least two weights a debug build panics on every image with a row
and `2^31` columns or more. -/
theorem C204_debug [Zero K] [Add K] [Mul K] (into : σ → K) (clamp : K → σ) (zt : σ)
    (im : Image (ι → σ)) (kernel : List K) (hw : 2 ^ 31 ≤ im.w) (hw2 : im.w < 2 ^ 32)
    (hk : 2 ≤ kernel.length) (hh : 0 < im.h) :
    horizontalFilterM true into clamp zt im kernel = none := by
  have hcond : asI32 im.w ≤ kernel.length := by rw [asI32_large hw hw2]; omega
  unfold horizontalFilterM
  dsimp only
  rw [if_pos hcond]
  rcases e : forYX 0 im.h 0 im.w
    ((Image.new im.w im.h fun _ => zt, fun _ => (0 : K)) : Image (ι → σ) × (ι → K))
    (fun x y st => hPixelM true into clamp im kernel (fun u =>
        (i32 true (asI32 im.w - 1)).map fun hi => max 0 (min u hi)) x y st) with _ | r
  · rfl
  exfalso
  -- the pixel `(2^31 - 1, 0)` cannot be computed
  have bad : ∀ y st, hPixelM true into clamp im kernel (fun u =>
        (i32 true (asI32 im.w - 1)).map fun hi => max 0 (min u hi)) (2 ^ 31 - 1) y st = none := by
    intro y st
    unfold hPixelM
    rcases e2 : forRange 0 kernel.length st.2 (fun i acc =>
      (i32 true (asI32 (2 ^ 31 - 1) + i)).bind fun a =>
      (i32 true (a - (kernel.length : Int) / 2)).bind fun u =>
      ((i32 true (asI32 im.w - 1)).map fun hi => max 0 (min u hi)).bind fun v =>
      (im.get (asU32 v) y).bind fun p => (kernel[i]?).bind fun k =>
      some (accumulate into acc p k)) with _ | t
    · rfl
    · exfalso
      refine (forRange_inv (fun i _ => i ≤ 1) (Nat.zero_le _) (Nat.zero_le _) ?_ e2 : kernel.length ≤ 1).not_gt hk
      intro i s s' _ hi h1 hs
      rcases Nat.lt_or_ge i 1 with h | h
      · omega
      · have : i = 1 := by omega
        subst this
        rw [asI32_small (by omega), Drawing.i32, if_neg (by norm_num)] at hs
        simp at hs
  have := forYX_inv (fun x y _ => y = 0 ∧ x ≤ 2 ^ 31 - 1) (by omega) (by omega) ⟨rfl, by omega⟩
    (by
      rintro x y s s' _ hx _ hy ⟨h1, h2⟩ hs
      refine ⟨h1, ?_⟩
      by_contra hc
      have : x = 2 ^ 31 - 1 := by omega
      rw [this, bad] at hs
      cases hs)
    (by rintro y s _ _ ⟨h1, h2⟩; omega) e
  omega

theorem forRange_mem_none {τ : Type _} {f : Nat → τ → Option τ} {lo hi k : Nat} {s : τ} (h1 : lo ≤ k)
    (h2 : k < hi) (h : ∀ s, f k s = none) : forRange lo hi s f = none := by
  rcases e : forRange lo hi s f with _ | r
  · rfl
  · exfalso
    have : hi ≤ k := forRange_inv (fun i _ => i ≤ k) (by omega) h1 (fun i s s' _ _ hi hs => by
      by_contra hc
      have : i = k := by omega
      rw [this, h] at hs
      cases hs) e
    omega

/-- C204 (just below `2^31` columns): if the kernel reaches a column `2^31` or more past the right
edge, a debug build panics, and a release build reads outside the image: the wrapped column is
negative, so limiting it from above does nothing, and the read is unchecked. -/
theorem C204_unsafe [Zero K] [Add K] [Mul K] (dbg : Bool) (into : σ → K) (clamp : K → σ) (zt : σ)
    (im : Image (ι → σ)) (kernel : List K) (hw : im.w < 2 ^ 31) (hlen : kernel.length < im.w)
    (hb : 2 ^ 31 + 2 + kernel.length / 2 ≤ im.w + kernel.length) (hh : 0 < im.h) :
    horizontalFilterM dbg into clamp zt im kernel = none := by
  unfold horizontalFilterM
  dsimp only
  rw [if_neg (by rw [asI32_small hw]; omega), forRange_mem_none (k := 0) le_rfl hh]
  · rfl
  intro st
  have hbad : ∀ st, hPixelM dbg into clamp im kernel (fun u =>
      (i32 dbg (asI32 im.w - 1)).map fun hi => min u hi) (im.w - 1) 0 st = none := by
    intro st
    unfold hPixelM
    rw [forRange_mem_none (k := kernel.length - 1) (by omega) (by omega)]
    · rfl
    intro acc
    rw [asI32_small (by omega), asI32_small hw]
    cases dbg
    · obtain ⟨v, hv, hv1, hv2⟩ : ∃ v, i32 false (((im.w - 1 : Nat) : Int) + ((kernel.length - 1 : Nat) : Int)) =
          some v ∧ v = (im.w : Int) + kernel.length - 2 - 2 ^ 32 ∧ v < 0 := by
        refine ⟨_, ?_, rfl, by omega⟩
        unfold Drawing.i32
        rw [if_neg (by omega), if_neg (by simp), Int.bmod_def]
        have : ((((im.w - 1 : Nat) : Int) + ((kernel.length - 1 : Nat) : Int)) % ((2 ^ 32 : Nat) : Int)) =
          (im.w : Int) + kernel.length - 2 := by omega
        rw [this, if_neg (by omega)]
        norm_num
      rw [hv, Option.bind_some, i32_ok false (by omega) (by omega), Option.bind_some,
        i32_ok false (by omega) (by omega)]
      simp only [Option.map_some, Option.bind_some]
      rw [Image.get, if_neg]
      · rfl
      · unfold Image.InB asU32
        rw [min_eq_left (by omega)]
        omega
    · rw [Drawing.i32, if_neg (by omega), if_pos rfl]
      rfl
  have hlast : ∀ st, (forRange (im.w - kernel.length / 2) im.w st fun x st =>
      hPixelM dbg into clamp im kernel (fun u =>
        (i32 dbg (asI32 im.w - 1)).map fun hi => min u hi) x 0 st) = none := fun st =>
    forRange_mem_none (k := im.w - 1) (by omega) (by omega) hbad
  simp only [hlast]
  rcases forRange 0 (kernel.length / 2) st fun x st =>
    hPixelM dbg into clamp im kernel (fun u => some (max 0 u)) x 0 st with _ | s1
  · rfl
  · rw [Option.bind_some]
    rcases forRange (kernel.length / 2) (im.w - kernel.length / 2) s1 fun x st =>
      hPixelM dbg into clamp im kernel (fun u => some u) x 0 st with _ | s2 <;> rfl

example : 2 ^ 31 + 2 + 5 / 2 ≤ (2 ^ 31 - 1) + 5 := by norm_num

/-- C204 is false of the code: on a black row of 2^31 + 1 columns with one white pixel the
filter with the kernel `[1]` should change nothing, but a release build removes the white pixel. -/
theorem C204_negation :
    ¬ ∀ (im : Image (Unit → Nat)) (x y : Nat), im.w < 2 ^ 32 → im.h < 2 ^ 32 → x < im.w → y < im.h →
      ∃ out, horizontalFilterM false (fun v : Nat => v) (fun v : Nat => v) 0 im [1] = some out ∧
        out.px x y () = im.px x y () := by
  intro h
  obtain ⟨out, e, p⟩ := h ⟨2 ^ 31 + 1, 1, fun x _ _ => if x = 5 then 255 else 0⟩ 5 0
    (by norm_num) (by norm_num) (by norm_num) (by norm_num)
  obtain ⟨out', e', -, -, p'⟩ := C204_wide (fun v : Nat => v) (fun v : Nat => v) 0
    (⟨2 ^ 31 + 1, 1, fun x _ _ => if x = 5 then 255 else 0⟩ : Image (Unit → Nat)) [1] (by norm_num)
    (by norm_num) (by norm_num)
  rw [e] at e'
  cases e'
  have := p' 5 0 () (by norm_num) (by norm_num)
  rw [this] at p
  simp at p

example : (horizontalFilterM true (fun v : Nat => v) (fun v : Nat => v) 0
    (⟨4, 1, fun x _ _ => x + 1⟩ : Image (Unit → Nat)) [1, 0, 2]).map
    (fun o => (List.range 4).map fun x => o.px x 0 ()) = some [5, 7, 10, 11] := by decide +kernel

end Verif.Filter
