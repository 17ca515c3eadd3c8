import Verif.Filter.Wide
/-
`vertical_filter` (src/filter/mod.rs) with its `i32` coordinates, in debug builds (overflow
panics) and release builds (overflow wraps), on images of every height a `u32` allows.  Property
theorem C205.
-/
namespace Verif.Filter
open Verif.Drawing (i32 i32_ok)
open Verif.Float (forRange_congr)
variable {ι σ K : Type _}

/-! ### The model -/

/-- One pixel of `vertical_filter`, see `vPixel`; `fix` may panic.  Kernels are shorter than
`2^31`, so `i as i32` and `half_k` are exact. -/
def vPixelM [Zero K] [Add K] [Mul K] (dbg : Bool) (into : σ → K) (clamp : K → σ)
    (im : Image (ι → σ)) (kernel : List K) (fix : Int → Option Int) (x y : Nat)
    (st : Image (ι → σ) × (ι → K)) : Option (Image (ι → σ) × (ι → K)) :=
  (forRange 0 kernel.length st.2 fun i acc =>
    (i32 dbg (asI32 y + i)).bind fun a =>
    (i32 dbg (a - (kernel.length : Int) / 2)).bind fun u => (fix u).bind fun v =>
    (im.get x (asU32 v)).bind fun p =>
    (kernel[i]?).bind fun k =>
    some (accumulate into acc p k)).bind fun acc =>
  (st.1.put x y fun c => clamp (acc c)).map fun out => (out, fun _ => 0)

/-- `vertical_filter`, filter/mod.rs:321-407.  After line 339 the height is larger than the kernel
as an `i32`, so the ranges of the three zones are exact. -/
def verticalFilterM [Zero K] [Add K] [Mul K] (dbg : Bool) (into : σ → K) (clamp : K → σ) (zt : σ)
    (im : Image (ι → σ)) (kernel : List K) : Option (Image (ι → σ)) :=
  let half := kernel.length / 2
  let st0 : Image (ι → σ) × (ι → K) := (Image.new im.w im.h fun _ => zt, fun _ => (0 : K))
  if asI32 im.h ≤ kernel.length then
    (forYX 0 im.h 0 im.w st0 fun x y st =>
      vPixelM dbg into clamp im kernel (fun u =>
        (i32 dbg (asI32 im.h - 1)).map fun hi => max 0 (min u hi)) x y st).map Prod.fst
  else
    ((forYX 0 half 0 im.w st0 fun x y st =>
      vPixelM dbg into clamp im kernel (fun u => some (max 0 u)) x y st).bind fun st =>
    (forYX half (im.h - half) 0 im.w st fun x y st =>
      vPixelM dbg into clamp im kernel (fun u => some u) x y st).bind fun st =>
    forYX (im.h - half) im.h 0 im.w st fun x y st =>
      vPixelM dbg into clamp im kernel (fun u =>
        (i32 dbg (asI32 im.h - 1)).map fun hi => min u hi) x y st).map Prod.fst

/-! ### Proofs -/

theorem vPixelM_eq [Zero K] [Add K] [Mul K] (dbg : Bool) (into : σ → K) (clamp : K → σ)
    (im : Image (ι → σ)) (kernel : List K) (fix : Int → Option Int) (fix' : Int → Int)
    (hf : ∀ u, fix u = some (fix' u)) {y : Nat} (hh : im.h < 2 ^ 31)
    (hy : y < im.h) (hfit : Fits dbg im.h kernel.length) (x : Nat)
    (st : Image (ι → σ) × (ι → K)) :
    vPixelM dbg into clamp im kernel fix x y st = vPixel into clamp im kernel fix' x y st := by
  unfold vPixelM vPixel
  refine congrArg₂ Option.bind ?_ rfl
  refine forRange_congr _ fun i acc _ hi => ?_
  obtain ⟨a, e1, e2⟩ := i32_two dbg hfit hh hy hi
  rw [e1, Option.bind_some, e2, Option.bind_some, hf, Option.bind_some]

/-- C205 (partial: fewer than `2^31` rows, and the lowest row read for the last pixel below
`2^31`, in debug builds even before half the kernel is subtracted): then both build profiles
compute the filter on unbounded coordinates. -/
theorem C205_fits_partial [Zero K] [Add K] [Mul K] (dbg : Bool) (into : σ → K) (clamp : K → σ)
    (zt : σ) (im : Image (ι → σ)) (kernel : List K) (hh31 : im.h < 2 ^ 31)
    (hk : kernel.length < 2 ^ 31) (hd : dbg = true → im.h + kernel.length ≤ 2 ^ 31 + 1)
    (hr : im.h + kernel.length ≤ 2 ^ 31 + 1 + kernel.length / 2) :
    verticalFilterM dbg into clamp zt im kernel = verticalFilter into clamp zt im kernel := by
  have hfit : Fits dbg im.h kernel.length := by
    refine ⟨hk, ?_⟩
    cases dbg
    · rw [if_neg (by simp)]; exact hr
    · rw [if_pos rfl]; exact hd rfl
  have hfix : i32 dbg (asI32 im.h - 1) = some ((im.h : Int) - 1) := by
    rw [asI32_small hh31, i32_ok dbg (by omega) (by omega)]
  unfold verticalFilterM verticalFilter
  dsimp only
  by_cases hc : im.h ≤ kernel.length
  · rw [if_pos (by rw [asI32_small hh31]; omega), if_pos hc]
    refine congrArg (Option.map Prod.fst) ?_
    refine Suppress.forYX_congr _ fun x y st hx hy => ?_
    exact vPixelM_eq dbg into clamp im kernel _ _ (fun u => by rw [hfix]; rfl) hh31 hy hfit x st
  · rw [if_neg (by rw [asI32_small hh31]; omega), if_neg hc]
    refine congrArg (Option.map Prod.fst) ?_
    rw [Suppress.forYX_congr (g := fun x y st => vPixel into clamp im kernel (fun i => max 0 i) x y st) _
      (fun x y s _ hy => vPixelM_eq dbg into clamp im kernel _ _ (fun u => rfl) hh31 (by omega) hfit x s)]
    refine congrArg₂ Option.bind rfl ?_
    funext st
    rw [Suppress.forYX_congr (g := fun x y st => vPixel into clamp im kernel (fun i => i) x y st) _
      (fun x y s _ hy => vPixelM_eq dbg into clamp im kernel _ _ (fun u => rfl) hh31 (by omega) hfit x s)]
    refine congrArg₂ Option.bind rfl ?_
    funext st
    exact Suppress.forYX_congr st
      (fun x y s _ hy => vPixelM_eq dbg into clamp im kernel _ _ (fun u => by rw [hfix]; rfl)
        hh31 hy hfit x s)

/-- C205 (what a release build does on images more than `2^31` rows high): every pixel becomes
the topmost pixel of its column times the sum of the kernel; nothing else is read. -/
theorem C205_tall [Semiring K] (into : σ → K) (clamp : K → σ) (zt : σ) (im : Image (ι → σ))
    (kernel : List K) (hh : 2 ^ 31 < im.h) (hh2 : im.h < 2 ^ 32) (hk : kernel.length < 2 ^ 31) :
    ∃ out, verticalFilterM false into clamp zt im kernel = some out ∧ out.w = im.w ∧
      out.h = im.h ∧ ∀ x y c, x < im.w → y < im.h →
        out.px x y c = clamp (into (im.px x 0 c) * kernel.sum) := by
  have hcond : asI32 im.h ≤ kernel.length := by rw [asI32_large (by omega) hh2]; omega
  obtain ⟨last, hl, hl0⟩ : ∃ l, i32 false (asI32 im.h - 1) = some l ∧ l < 0 := by
    rw [asI32_large (by omega) hh2]
    exact ⟨_, i32_ok false (by omega) (by omega), by omega⟩
  have htot : ∀ z, ∃ v, i32 false z = some v := by
    intro z
    unfold Drawing.i32
    by_cases hz : -2 ^ 31 ≤ z ∧ z < 2 ^ 31
    · exact ⟨_, if_pos hz⟩
    · rw [if_neg hz]
      exact ⟨_, if_neg (by simp)⟩
  have hloop : ∀ x y, x < im.w → ∃ acc, (forRange 0 kernel.length (fun _ => (0 : K)) fun i acc =>
      (i32 false (asI32 y + i)).bind fun a =>
      (i32 false (a - (kernel.length : Int) / 2)).bind fun u =>
      ((i32 false (asI32 im.h - 1)).map fun hi => max 0 (min u hi)).bind fun v =>
      (im.get x (asU32 v)).bind fun p => (kernel[i]?).bind fun k =>
      some (accumulate into acc p k)) = some acc ∧
      ∀ c, acc c = into (im.px x 0 c) * kernel.sum := by
    intro x y hx
    obtain ⟨acc, e, h⟩ := forRange_spec (lo := 0) (hi := kernel.length) (s := fun _ : ι => (0 : K))
      (f := fun i acc =>
        (i32 false (asI32 y + i)).bind fun a =>
        (i32 false (a - (kernel.length : Int) / 2)).bind fun u =>
        ((i32 false (asI32 im.h - 1)).map fun hi => max 0 (min u hi)).bind fun v =>
        (im.get x (asU32 v)).bind fun p => (kernel[i]?).bind fun k =>
        some (accumulate into acc p k))
      (fun i acc => ∀ c, acc c = into (im.px x 0 c) * (kernel.take i).sum) (by omega)
      (fun c => by simp)
      (fun i acc _ hi ih => by
        obtain ⟨a, ha⟩ := htot (asI32 y + i)
        obtain ⟨u, hu⟩ := htot (a - (kernel.length : Int) / 2)
        rw [ha, Option.bind_some, hu, Option.bind_some, hl, Option.map_some, Option.bind_some,
          show max 0 (min u last) = 0 by omega, show asU32 0 = 0 from rfl,
          Image.get_of_inB hx (by omega), Option.bind_some, List.getElem?_eq_getElem hi,
          Option.bind_some]
        refine ⟨_, rfl, fun c => ?_⟩
        rw [accumulate, ih c, List.take_succ_eq_append_getElem hi, List.sum_append,
          List.sum_singleton, mul_add])
    refine ⟨acc, e, fun c => ?_⟩
    rw [h c, List.take_length]
  unfold verticalFilterM
  dsimp only
  rw [if_pos hcond]
  obtain ⟨st, e, h1, h2, h3, h4⟩ := forYX_spec (y0 := 0) (y1 := im.h) (x0 := 0) (x1 := im.w)
    (s := ((Image.new im.w im.h fun _ => zt, fun _ => (0 : K)) : Image (ι → σ) × (ι → K)))
    (f := fun x y st => vPixelM false into clamp im kernel (fun u =>
        (i32 false (asI32 im.h - 1)).map fun hi => max 0 (min u hi)) x y st)
    (fun x y st => st.1.w = im.w ∧ st.1.h = im.h ∧ st.2 = (fun _ => 0) ∧
      ∀ a b c, a < im.w → (b < y ∨ b = y ∧ a < x) →
        st.1.px a b c = clamp (into (im.px a 0 c) * kernel.sum))
    (by omega) (by omega) ⟨rfl, rfl, rfl, fun a b c _ h => by omega⟩
    (by
      rintro x y st _ hx _ hy ⟨h1, h2, h3, h4⟩
      obtain ⟨acc, ea, ha⟩ := hloop x y hx
      unfold vPixelM
      rw [h3, ea, Option.bind_some, Image.put_of_inB _ (by omega) (by omega), Option.map_some]
      refine ⟨_, rfl, h1, h2, rfl, fun a b c hab h => ?_⟩
      dsimp only
      by_cases hc : a = x ∧ b = y
      · rw [if_pos hc, ha, hc.1]
      · rw [if_neg hc]; exact h4 a b c hab (by omega))
    (by
      rintro y st _ hy ⟨h1, h2, h3, h4⟩
      exact ⟨h1, h2, h3, fun a b c ha h => h4 a b c ha (by omega)⟩)
  refine ⟨st.1, by rw [e]; rfl, h1, h2, fun x y c hx hy => h4 x y c hx (Or.inl hy)⟩

/-- C205 (what a release build does on images of exactly `2^31` rows): above the image the first
row is continued as it should be, but so it is below the image, in place of the last row. -/
theorem C205_edge [Semiring K] (into : σ → K) (clamp : K → σ) (zt : σ) (im : Image (ι → σ))
    (kernel : List K) (hh : im.h = 2 ^ 31) (hk : kernel.length < 2 ^ 31) :
    ∃ out, verticalFilterM false into clamp zt im kernel = some out ∧ out.w = im.w ∧
      out.h = im.h ∧ ∀ x y c, x < im.w → y < im.h →
        out.px x y c = clamp (((List.range kernel.length).map fun i =>
          into (im.px x (if kernel.length / 2 ≤ y + i ∧ y + i < 2 ^ 31 + kernel.length / 2 then
            y + i - kernel.length / 2 else 0) c) * kernel.getD i 0).sum) := by
  have hcond : asI32 im.h ≤ kernel.length := by rw [asI32_large (by omega) (by omega)]; omega
  have hl := i32_last hh
  generalize hg : (fun x y c i => into (im.px x (if kernel.length / 2 ≤ y + i ∧
    y + i < 2 ^ 31 + kernel.length / 2 then y + i - kernel.length / 2 else 0) c) *
      kernel.getD i 0) = g
  have hg' : ∀ x y c i, g x y c i = into (im.px x (if kernel.length / 2 ≤ y + i ∧
    y + i < 2 ^ 31 + kernel.length / 2 then y + i - kernel.length / 2 else 0) c) *
      kernel.getD i 0 := fun x y c i => by rw [← hg]
  have hloop : ∀ x y, x < im.w → y < im.h →
      ∃ acc, (forRange 0 kernel.length (fun _ => (0 : K)) fun i acc =>
      (i32 false (asI32 y + i)).bind fun a =>
      (i32 false (a - (kernel.length : Int) / 2)).bind fun u =>
      ((i32 false (asI32 im.h - 1)).map fun hi => max 0 (min u hi)).bind fun v =>
      (im.get x (asU32 v)).bind fun p => (kernel[i]?).bind fun k =>
      some (accumulate into acc p k)) = some acc ∧
      ∀ c, acc c = ((List.range kernel.length).map (g x y c)).sum := by
    intro x y hx hy
    exact forRange_spec (lo := 0) (hi := kernel.length) (s := fun _ : ι => (0 : K))
      (f := fun i acc =>
        (i32 false (asI32 y + i)).bind fun a =>
        (i32 false (a - (kernel.length : Int) / 2)).bind fun u =>
        ((i32 false (asI32 im.h - 1)).map fun hi => max 0 (min u hi)).bind fun v =>
        (im.get x (asU32 v)).bind fun p => (kernel[i]?).bind fun k =>
        some (accumulate into acc p k))
      (fun i acc => ∀ c, acc c = ((List.range i).map (g x y c)).sum) (by omega)
      (fun c => by simp)
      (fun i acc _ hi ih => by
        obtain ⟨a, u, ha, hu, hv⟩ := i32_wrap hk (show y < 2 ^ 31 by omega) hi
        have hrow : asU32 (max 0 (min u (2 ^ 31 - 1))) =
            if kernel.length / 2 ≤ y + i ∧ y + i < 2 ^ 31 + kernel.length / 2 then
              y + i - kernel.length / 2 else 0 := by
          unfold asU32
          split_ifs at hv ⊢ <;> omega
        rw [ha, Option.bind_some, hu, Option.bind_some, hl, Option.map_some, Option.bind_some,
          hrow, Image.get_of_inB hx (by split_ifs <;> omega), Option.bind_some,
          List.getElem?_eq_getElem hi, Option.bind_some]
        refine ⟨_, rfl, fun c => ?_⟩
        rw [accumulate, ih c, List.range_succ, List.map_append, List.sum_append, List.map_singleton,
          List.sum_singleton, hg', List.getD_eq_getElem _ _ hi])
  unfold verticalFilterM
  dsimp only
  rw [if_pos hcond]
  obtain ⟨st, e, h1, h2, h3, h4⟩ := forYX_spec (y0 := 0) (y1 := im.h) (x0 := 0) (x1 := im.w)
    (s := ((Image.new im.w im.h fun _ => zt, fun _ => (0 : K)) : Image (ι → σ) × (ι → K)))
    (f := fun x y st => vPixelM false into clamp im kernel (fun u =>
        (i32 false (asI32 im.h - 1)).map fun hi => max 0 (min u hi)) x y st)
    (fun x y st => st.1.w = im.w ∧ st.1.h = im.h ∧ st.2 = (fun _ => 0) ∧
      ∀ a b c, a < im.w → (b < y ∨ b = y ∧ a < x) →
        st.1.px a b c = clamp (((List.range kernel.length).map (g a b c)).sum))
    (by omega) (by omega) ⟨rfl, rfl, rfl, fun a b c _ h => by omega⟩
    (by
      rintro x y st _ hx _ hy ⟨h1, h2, h3, h4⟩
      obtain ⟨acc, ea, ha⟩ := hloop x y hx hy
      unfold vPixelM
      rw [h3, ea, Option.bind_some, Image.put_of_inB _ (by omega) (by omega), Option.map_some]
      refine ⟨_, rfl, h1, h2, rfl, fun a b c hab h => ?_⟩
      dsimp only
      by_cases hc : a = x ∧ b = y
      · rw [if_pos hc, ha, hc.1, hc.2]
      · rw [if_neg hc]; exact h4 a b c hab (by omega))
    (by
      rintro y st _ hy ⟨h1, h2, h3, h4⟩
      exact ⟨h1, h2, h3, fun a b c ha h => h4 a b c ha (by omega)⟩)
  refine ⟨st.1, by rw [e]; rfl, h1, h2, fun x y c hx hy => ?_⟩
  rw [h4 x y c hx (Or.inl hy)]
  subst hg
  rfl

theorem forYX_mem_none {τ : Type _} {f : Nat → Nat → τ → Option τ} {y0 y1 x0 x1 a b : Nat} {s : τ}
    (h1 : y0 ≤ b) (h2 : b < y1) (h3 : x0 ≤ a) (h4 : a < x1) (h : ∀ s, f a b s = none) :
    forYX y0 y1 x0 x1 s f = none := by
  unfold forYX
  exact forRange_mem_none h1 h2 fun s => forRange_mem_none h3 h4 h

/-- C205: with a kernel of at least two weights a debug build panics on every image with a column
and `2^31` rows or more. -/
theorem C205_debug [Zero K] [Add K] [Mul K] (into : σ → K) (clamp : K → σ) (zt : σ)
    (im : Image (ι → σ)) (kernel : List K) (hh : 2 ^ 31 ≤ im.h) (hh2 : im.h < 2 ^ 32)
    (hk : 2 ≤ kernel.length) (hw : 0 < im.w) :
    verticalFilterM true into clamp zt im kernel = none := by
  have hcond : asI32 im.h ≤ kernel.length := by rw [asI32_large hh hh2]; omega
  unfold verticalFilterM
  dsimp only
  rw [if_pos hcond, forYX_mem_none (a := 0) (b := 2 ^ 31 - 1) (by omega) (by omega) le_rfl hw]
  · rfl
  intro st
  unfold vPixelM
  rw [forRange_mem_none (k := 1) (by omega) (by omega)]
  · rfl
  intro acc
  rw [asI32_small (by omega), Drawing.i32, if_neg (by norm_num), if_pos rfl]
  rfl

/-- C205 (just below `2^31` rows): if the kernel reaches a row `2^31` or more past the bottom
edge, a debug build panics, and a release build reads outside the image: the wrapped row is
negative, so limiting it from above does nothing, and the read is unchecked. -/
theorem C205_unsafe [Zero K] [Add K] [Mul K] (dbg : Bool) (into : σ → K) (clamp : K → σ) (zt : σ)
    (im : Image (ι → σ)) (kernel : List K) (hh : im.h < 2 ^ 31) (hlen : kernel.length < im.h)
    (hb : 2 ^ 31 + 2 + kernel.length / 2 ≤ im.h + kernel.length) (hw : 0 < im.w) :
    verticalFilterM dbg into clamp zt im kernel = none := by
  unfold verticalFilterM
  dsimp only
  rw [if_neg (by rw [asI32_small hh]; omega)]
  have hbad : ∀ st, vPixelM dbg into clamp im kernel (fun u =>
      (i32 dbg (asI32 im.h - 1)).map fun hi => min u hi) 0 (im.h - 1) st = none := by
    intro st
    unfold vPixelM
    rw [forRange_mem_none (k := kernel.length - 1) (by omega) (by omega)]
    · rfl
    intro acc
    rw [asI32_small (by omega), asI32_small hh]
    cases dbg
    · obtain ⟨v, hv, hv1, hv2⟩ : ∃ v, i32 false (((im.h - 1 : Nat) : Int) + ((kernel.length - 1 : Nat) : Int)) =
          some v ∧ v = (im.h : Int) + kernel.length - 2 - 2 ^ 32 ∧ v < 0 := by
        refine ⟨_, ?_, rfl, by omega⟩
        unfold Drawing.i32
        rw [if_neg (by omega), if_neg (by simp), Int.bmod_def]
        have : ((((im.h - 1 : Nat) : Int) + ((kernel.length - 1 : Nat) : Int)) % ((2 ^ 32 : Nat) : Int)) =
          (im.h : Int) + kernel.length - 2 := by omega
        rw [this, if_neg (by omega)]
        norm_num
      rw [hv, Option.bind_some, i32_ok false (by omega) (by omega), Option.bind_some,
        i32_ok false (by omega) (by omega)]
      simp only [Option.map_some, Option.bind_some]
      rw [Image.get, if_neg]
      · rfl
      · unfold Image.InB asU32
        rw [min_eq_left (by omega)]
        omega
    · rw [Drawing.i32, if_neg (by omega), if_pos rfl]
      rfl
  have hlast : ∀ st, (forYX (im.h - kernel.length / 2) im.h 0 im.w st fun x y st =>
      vPixelM dbg into clamp im kernel (fun u =>
        (i32 dbg (asI32 im.h - 1)).map fun hi => min u hi) x y st) = none := fun st =>
    forYX_mem_none (a := 0) (b := im.h - 1) (by omega) (by omega) le_rfl hw hbad
  simp only [hlast]
  rcases forYX 0 (kernel.length / 2) 0 im.w
    ((Image.new im.w im.h fun _ => zt, fun _ => (0 : K)) : Image (ι → σ) × (ι → K)) fun x y st =>
    vPixelM dbg into clamp im kernel (fun u => some (max 0 u)) x y st with _ | s1
  · rfl
  · rw [Option.bind_some]
    rcases forYX (kernel.length / 2) (im.h - kernel.length / 2) 0 im.w s1 fun x y st =>
      vPixelM dbg into clamp im kernel (fun u => some u) x y st with _ | s2 <;> rfl

/-- C205 is false of the code: on a black column of 2^31 + 1 rows with one white pixel the filter
with the kernel `[1]` should change nothing, but a release build removes the white pixel. -/
theorem C205_negation :
    ¬ ∀ (im : Image (Unit → Nat)) (x y : Nat), im.w < 2 ^ 32 → im.h < 2 ^ 32 → x < im.w → y < im.h →
      ∃ out, verticalFilterM false (fun v : Nat => v) (fun v : Nat => v) 0 im [1] = some out ∧
        out.px x y () = im.px x y () := by
  intro h
  obtain ⟨out, e, p⟩ := h ⟨1, 2 ^ 31 + 1, fun _ y _ => if y = 5 then 255 else 0⟩ 0 5
    (by norm_num) (by norm_num) (by norm_num) (by norm_num)
  obtain ⟨out', e', -, -, p'⟩ := C205_tall (fun v : Nat => v) (fun v : Nat => v) 0
    (⟨1, 2 ^ 31 + 1, fun _ y _ => if y = 5 then 255 else 0⟩ : Image (Unit → Nat)) [1] (by norm_num)
    (by norm_num) (by norm_num)
  rw [e] at e'
  cases e'
  have := p' 0 5 () (by norm_num) (by norm_num)
  rw [this] at p
  simp at p

example : (verticalFilterM true (fun v : Nat => v) (fun v : Nat => v) 0
    (⟨1, 4, fun _ y _ => y + 1⟩ : Image (Unit → Nat)) [1, 0, 2]).map
    (fun o => (List.range 4).map fun y => o.px 0 y ()) = some [5, 7, 10, 11] := by decide +kernel

end Verif.Filter
