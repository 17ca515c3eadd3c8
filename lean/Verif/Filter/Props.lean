import Verif.Basic.Clamp
import Verif.Filter.Model
import Mathlib.Algebra.BigOperators.Group.Finset.Basic
import Mathlib.Algebra.BigOperators.Ring.Finset
import Mathlib.Algebra.BigOperators.Intervals
import Mathlib.Data.Rat.Defs
/-
Property theorems C37 (2d filtering) and C38 (1d filters).
-/
namespace Verif.Filter
open Finset

variable {ι σ τ K : Type _}

/-! ### Specification -/

/-- Kernel positions `(kx, ky)` in row-major order. -/
def kpos (w h : Nat) : List (Nat × Nat) :=
  (List.range h).flatMap fun ky => (List.range w).map fun kx => (kx, ky)

/-- Clamped-border correlation of channel `c` at `(x, y)` with a `kw` by `kh` table of weights,
summed left to right in row-major kernel order (so it is meaningful for rounding arithmetic). -/
def corr [Zero K] [Add K] [Mul K] (into : σ → K) (im : Image (ι → σ)) (kw kh : Nat)
    (wt : Nat → Nat → K) (x y : Nat) (c : ι) : K :=
  (kpos kw kh).foldl (fun a p =>
    a + into (im.px (clampTo im.w ((x : Int) + p.1 - (kw : Int) / 2))
      (clampTo im.h ((y : Int) + p.2 - (kh : Int) / 2)) c) * wt p.1 p.2) 0

/-- Row-major weights of a list. -/
def weights [Zero K] (data : List K) (kw : Nat) : Nat → Nat → K := fun kx ky =>
  data.getD (ky * kw + kx) 0

/-! ### Loops that only accumulate -/

theorem forRange_foldl {s : Type _} (n : Nat) (f : Nat → s → Option s) (g : s → Nat → s) :
    ∀ (a : s), (∀ i a, i < n → f i a = some (g a i)) →
      forRange 0 n a f = some ((List.range n).foldl g a) := by
  induction n with
  | zero => intro a _; rfl
  | succ n ih =>
    intro a hf
    rw [forRange_succ_last (Nat.zero_le _), ih a (fun i a hi => hf i a (by omega)),
      Option.bind_some, hf n _ (by omega), List.range_succ, List.foldl_append]
    rfl

theorem foldl_flatMap' {α β s : Type _} (l : List α) (f : α → List β) (g : s → β → s) (a : s) :
    (l.flatMap f).foldl g a = l.foldl (fun a x => (f x).foldl g a) a := by
  induction l generalizing a with
  | nil => rfl
  | cons x l ih => simp [List.flatMap_cons, ih]

/-- A fold of channel vectors is the fold of each channel. -/
theorem foldl_channel {β : Type _} (l : List β) (g : ι → K → β → K) (a : ι → K) (c : ι) :
    l.foldl (fun a b => fun c => g c (a c) b) a c = l.foldl (g c) (a c) := by
  induction l generalizing a with
  | nil => rfl
  | cons b l ih => simp only [List.foldl_cons]; rw [ih]

theorem asU32_clamp {n : Nat} (h : 0 < n) (hn : n < 2147483648) (i : Int) :
    asU32 (min ((n : Int) - 1) (max 0 i)) = clampTo n i := by
  unfold asU32 clampTo; omega

theorem Kernel.get_new {data : List K} {w h : Nat} {k : Kernel K} [Zero K]
    (hk : Kernel.new data w h = some k) {x y : Nat} (hx : x < w) (hy : y < h) :
    k.get x y = some (weights data w x y) := by
  unfold Kernel.new at hk
  split at hk
  · split at hk
    · rename_i hlen
      cases hk
      have : y * w + x < data.length := by
        rw [← hlen]
        calc y * w + x < y * w + w := by omega
          _ = (y + 1) * w := by rw [Nat.add_mul, Nat.one_mul]
          _ ≤ h * w := Nat.mul_le_mul_right w hy
          _ = w * h := Nat.mul_comm _ _
      simp [Kernel.get, weights, this]
    · cases hk
  · cases hk

theorem Kernel.new_dims {data : List K} {w h : Nat} {k : Kernel K}
    (hk : Kernel.new data w h = some k) : k.w = w ∧ k.h = h ∧ 0 < w ∧ 0 < h := by
  unfold Kernel.new at hk
  split at hk
  · split at hk
    · cases hk; rename_i h1 _; exact ⟨rfl, rfl, h1⟩
    · cases hk
  · cases hk

theorem kernelLoops_spec [Zero K] [Add K] [Mul K] (into : σ → K) (im : Image (ι → σ))
    {data : List K} {kw kh : Nat} {k : Kernel K} (hk : Kernel.new data kw kh = some k)
    (hw : im.w < 2147483648) (hh : im.h < 2147483648) {x y : Nat} (hx : x < im.w) (hy : y < im.h) :
    kernelLoops into im k x y (fun _ => 0) =
      some (fun c => corr into im kw kh (weights data kw) x y c) := by
  obtain ⟨e1, e2, _, _⟩ := Kernel.new_dims hk
  unfold kernelLoops
  rw [e1, e2]
  rw [forRange_foldl kh _ (fun acc (ky : Nat) => (List.range kw).foldl (fun acc (kx : Nat) =>
      fun c => acc c + into (im.px (clampTo im.w ((x : Int) + kx - (kw : Int) / 2))
      (clampTo im.h ((y : Int) + ky - (kh : Int) / 2)) c) * weights data kw kx ky) acc)]
  · congr 1
    funext c
    unfold corr kpos
    rw [foldl_flatMap']
    have := foldl_channel (List.range kh) (fun c a (ky : Nat) => (List.range kw).foldl (fun a (kx : Nat) =>
      a + into (im.px (clampTo im.w ((x : Int) + kx - (kw : Int) / 2))
      (clampTo im.h ((y : Int) + ky - (kh : Int) / 2)) c) * weights data kw kx ky) a)
      (fun _ => (0 : K)) c
    simp only [List.foldl_map]
    rw [← this]
    refine congrFun (congrFun (congrFun (congrArg List.foldl ?_) _) _) c
    funext a ky
    funext c
    exact foldl_channel (List.range kw) (fun c a (kx : Nat) =>
      a + into (im.px (clampTo im.w ((x : Int) + kx - (kw : Int) / 2))
      (clampTo im.h ((y : Int) + ky - (kh : Int) / 2)) c) * weights data kw kx ky) a c
  · intro ky acc hky
    refine forRange_foldl kw _ _ acc ?_
    intro kx acc hkx
    simp only []
    rw [asU32_clamp (by omega) hw, asU32_clamp (by omega) hh,
      Image.get_of_inB (clampTo_lt (by omega) _) (clampTo_lt (by omega) _), Option.bind_some,
      Kernel.get_new hk hkx hky, Option.bind_some]
    rfl

/-- A raster scan with a scratch accumulator that is zero between pixels. -/
theorem scan_put {β : Type _} [Zero K] {w h : Nat} (g : Nat → Nat → β)
    (f : Nat → Nat → Image β × (ι → K) → Option (Image β × (ι → K))) (out0 : Image β)
    (hw : out0.w = w) (hh : out0.h = h)
    (hf : ∀ x y out, x < w → y < h → out.w = w → out.h = h →
      f x y (out, fun _ => 0) = (out.put x y (g x y)).map fun o => (o, fun _ => 0)) :
    ∃ out, forYX 0 h 0 w (out0, fun _ => 0) f = some (out, fun _ => 0) ∧ out.w = w ∧ out.h = h ∧
      ∀ x y, x < w → y < h → out.px x y = g x y := by
  obtain ⟨st, e, hz, h1, h2, h3⟩ := forYX_spec (f := f) (y0 := 0) (y1 := h) (x0 := 0) (x1 := w)
    (s := (out0, fun _ => 0))
    (fun x y st => st.2 = (fun _ => 0) ∧ st.1.w = w ∧ st.1.h = h ∧
      (∀ a b, a < w → b < h → b < y ∨ b = y ∧ a < x → st.1.px a b = g a b))
    (Nat.zero_le _) (Nat.zero_le _) ⟨rfl, hw, hh, by omega⟩
    (by
      rintro x y ⟨out, acc⟩ _ hx _ hy ⟨h0, h1, h2, h3⟩
      dsimp only at h0 h1 h2 h3
      subst h0
      rw [hf x y out hx hy h1 h2, Image.put_of_inB _ (by omega) (by omega)]
      refine ⟨_, rfl, rfl, h1, h2, ?_⟩
      intro a b ha hb hab
      dsimp only
      by_cases hxy : a = x ∧ b = y
      · rw [if_pos hxy, hxy.1, hxy.2]
      · rw [if_neg hxy]; exact h3 a b ha hb (by omega))
    (by
      rintro y st _ hy ⟨h0, h1, h2, h3⟩
      exact ⟨h0, h1, h2, fun a b ha hb hab => h3 a b ha hb (by omega)⟩)
  obtain ⟨out, acc⟩ := st
  dsimp only at hz
  subst hz
  exact ⟨out, e, h1, h2, fun x y hx hy => h3 x y hx hy (by omega)⟩

/-- **C37.** Filtering never fails and returns an image of equal size whose pixel `(x, y)` is, in
every channel, the output conversion of the clamped-border correlation. -/
theorem C37_filter [Zero K] [Add K] [Mul K] (into : σ → K) (zt : τ) (im : Image (ι → σ))
    {data : List K} {kw kh : Nat} {k : Kernel K} (hk : Kernel.new data kw kh = some k) (f : K → τ)
    (hw : im.w < 2147483648) (hh : im.h < 2147483648) :
    ∃ out, filter into zt im k f = some out ∧ out.w = im.w ∧ out.h = im.h ∧
      ∀ x y, x < im.w → y < im.h → ∀ c,
        out.px x y c = f (corr into im kw kh (weights data kw) x y c) := by
  obtain ⟨out, e, h1, h2, h3⟩ := scan_put (K := K) (ι := ι) (w := im.w) (h := im.h)
    (fun x y => fun c => f (corr into im kw kh (weights data kw) x y c))
    (fun x y (st : Image (ι → τ) × (ι → K)) =>
      (kernelLoops into im k x y st.2).bind fun acc =>
      (st.1.put x y fun c => f (acc c)).map fun out => (out, fun _ => 0))
    (Image.new im.w im.h fun _ => zt) rfl rfl
    (by
      intro x y out hx hy h1 h2
      dsimp only
      rw [kernelLoops_spec into im hk hw hh hx hy, Option.bind_some])
  refine ⟨out, ?_, h1, h2, fun x y hx hy c => by rw [h3 x y hx hy]⟩
  unfold filter
  rw [e]; rfl

theorem fold_add [AddCommMonoid K] (n : Nat) (g : Nat → K) (a : K) :
    (List.range n).foldl (fun a i => a + g i) a = a + ∑ i ∈ range n, g i := by
  induction n with
  | zero => simp
  | succ n ih => rw [List.range_succ, List.foldl_append, ih, sum_range_succ]; simp [add_assoc]

/-- Over a semiring the left-to-right sum is the double sum of weight times pixel. -/
theorem corr_eq_sum [CommSemiring K] (into : σ → K) (im : Image (ι → σ)) (kw kh : Nat)
    (wt : Nat → Nat → K) (x y : Nat) (c : ι) :
    corr into im kw kh wt x y c = ∑ ky ∈ range kh, ∑ kx ∈ range kw,
      wt kx ky * into (im.px (clampTo im.w ((x : Int) + kx - (kw : Int) / 2))
        (clampTo im.h ((y : Int) + ky - (kh : Int) / 2)) c) := by
  unfold corr kpos
  rw [foldl_flatMap']
  simp only [List.foldl_map, fold_add]
  rw [zero_add]
  refine sum_congr rfl fun ky _ => sum_congr rfl fun kx _ => ?_
  rw [mul_comm]

/-- **C37**, exact arithmetic: the pixel is the double sum of weight times clamped input pixel. -/
theorem C37_filter_sum [CommSemiring K] (into : σ → K) (zt : τ) (im : Image (ι → σ))
    {data : List K} {kw kh : Nat} {k : Kernel K} (hk : Kernel.new data kw kh = some k) (f : K → τ)
    (hw : im.w < 2147483648) (hh : im.h < 2147483648) :
    ∃ out, filter into zt im k f = some out ∧ out.w = im.w ∧ out.h = im.h ∧
      ∀ x y, x < im.w → y < im.h → ∀ c,
        out.px x y c = f (∑ ky ∈ range kh, ∑ kx ∈ range kw, data.getD (ky * kw + kx) 0 *
          into (im.px (clampTo im.w ((x : Int) + kx - (kw : Int) / 2))
            (clampTo im.h ((y : Int) + ky - (kh : Int) / 2)) c)) := by
  obtain ⟨out, e, h1, h2, h3⟩ := C37_filter into zt im hk f hw hh
  refine ⟨out, e, h1, h2, fun x y hx hy c => ?_⟩
  rw [h3 x y hx hy, corr_eq_sum]; rfl

theorem filterRow_spec [Zero K] [Add K] [Mul K] (into : σ → K) (im : Image (ι → σ))
    {data : List K} {kw kh : Nat} {k : Kernel K} (hk : Kernel.new data kw kh = some k) (f : K → τ)
    (hw : im.w < 2147483648) (hh : im.h < 2147483648) {y : Nat} (hy : y < im.h) :
    filterRow into im k f y = some ((List.range im.w).map fun x => fun c =>
      f (corr into im kw kh (weights data kw) x y c)) := by
  obtain ⟨st, e, h1, h2⟩ := forRange_spec (lo := 0) (hi := im.w)
    (s := (([] : List (ι → τ)), fun _ => (0 : K)))
    (f := fun x (st : List (ι → τ) × (ι → K)) =>
      (kernelLoops into im k x y st.2).map fun acc =>
        (st.1 ++ [fun c => f (acc c)], fun _ => 0))
    (fun x st => st.1 = ((List.range x).map fun x => fun c =>
      f (corr into im kw kh (weights data kw) x y c)) ∧ st.2 = fun _ => 0)
    (Nat.zero_le _) ⟨rfl, rfl⟩
    (by
      rintro x ⟨l, acc⟩ _ hx ⟨h1, h2⟩
      dsimp only at h1 h2 ⊢
      subst h1 h2
      rw [kernelLoops_spec into im hk hw hh hx hy]
      exact ⟨_, rfl, by simp [List.range_succ], rfl⟩)
  unfold filterRow
  rw [e, Option.map_some, h1]

/-- **C37**, parallel version: for every order in which the rows are computed the result is the
image `filter` returns. -/
theorem C37_filter_parallel [Zero K] [Add K] [Mul K] [Inhabited τ] (into : σ → K) (zt : τ)
    (im : Image (ι → σ)) {data : List K} {kw kh : Nat} {k : Kernel K}
    (hk : Kernel.new data kw kh = some k) (f : K → τ) (hw : im.w < 2147483648)
    (hh : im.h < 2147483648) (sched : List Nat) (hs : sched.Perm (List.range im.h)) :
    ∃ out out', filterParallel into im k f sched = some out ∧ filter into zt im k f = some out' ∧
      Image.Same out out' := by
  have hmem : ∀ y, y ∈ sched ↔ y < im.h := fun y => by rw [hs.mem_iff, List.mem_range]
  obtain ⟨rows, e, h1⟩ := forList_spec (σ := Nat → Option (List (ι → τ)))
    (f := fun y tbl =>
      (filterRow into im k f y).map fun r => fun b => if b = y then some r else tbl b)
    (fun pre tbl => ∀ y ∈ pre, tbl y = some ((List.range im.w).map fun x => fun c =>
      f (corr into im kw kh (weights data kw) x y c)))
    sched [] (fun _ => none) (by simp)
    (by
      intro p a q tbl hp hI
      have ha : a < im.h := (hmem a).1 (by
        rw [show sched = [] ++ sched from rfl, hp]; simp)
      rw [filterRow_spec into im hk f hw hh ha]
      refine ⟨_, rfl, ?_⟩
      intro y hy
      by_cases hya : y = a
      · simp [hya]
      · dsimp only
        rw [if_neg hya]
        exact hI y (by simpa [hya] using hy))
  simp only [List.nil_append] at h1
  obtain ⟨out, e2, g1, g2, g3⟩ := Image.fromFn_of_some (w := im.w) (h := im.h)
    (f := fun x y => (rows y).bind fun r => r[x]?)
    (g := fun x y c => f (corr into im kw kh (weights data kw) x y c))
    (by
      intro x y hx hy
      rw [h1 y ((hmem y).2 hy)]
      simp [hx])
  obtain ⟨out', e3, k1, k2, k3⟩ := C37_filter into zt im hk f hw hh
  refine ⟨out, out', ?_, e3, g1.trans k1.symm, g2.trans k2.symm, ?_⟩
  · unfold filterParallel
    rw [e, Option.bind_some]
    exact e2
  · intro x y hx hy
    rw [g3 x y (g1 ▸ hx) (g2 ▸ hy)]
    funext c
    rw [k3 x y (g1 ▸ hx) (g2 ▸ hy)]

/-- **C37.** A kernel value of the wrong length or with an empty side is rejected. -/
theorem C37_kernel_new (data : List K) (kw kh : Nat) :
    (Kernel.new data kw kh).isSome = true ↔ 0 < kw ∧ 0 < kh ∧ kw * kh = data.length := by
  unfold Kernel.new
  split
  · split <;> simp_all
  · rename_i h; simp only [Option.isSome_none, Bool.false_eq_true, false_iff]; tauto

example : (Kernel.new [1, 2, 3, 4, 5, 6] 3 2).bind (fun k =>
    (filter (ι := Unit) (fun (v : Nat) => (v : Int)) (0 : Int)
      ⟨2, 2, fun x y _ => 10 * y + x + 1⟩ k id).map fun o =>
      (Image.mk o.w o.h fun x y => o.px x y ()).rows) = some [[30, 37], [180, 187]] := by
  decide

/-! ### C38 -/

theorem hLoop_spec [Zero K] [Add K] [Mul K] (into : σ → K) (clamp : K → σ) (im : Image (ι → σ))
    (kernel : List K) (fix : Int → Int) {x y : Nat} (hx : x < im.w) (hy : y < im.h)
    (hfix : ∀ i, i < kernel.length → asU32 (fix ((x : Int) + i - (kernel.length : Int) / 2)) =
      clampTo im.w ((x : Int) + i - (kernel.length : Int) / 2)) (out : Image (ι → σ)) :
    hPixel into clamp im kernel fix x y (out, fun _ => 0) =
      (out.put x y fun c => clamp (corr into im kernel.length 1
        (weights kernel kernel.length) x y c)).map fun o => (o, fun _ => 0) := by
  unfold hPixel
  rw [forRange_foldl kernel.length _ (fun acc i => fun c => acc c +
    into (im.px (clampTo im.w ((x : Int) + i - (kernel.length : Int) / 2)) y c) *
      kernel.getD i 0)]
  · rw [Option.bind_some]
    congr 2
    funext c
    congr 1
    rw [foldl_channel (List.range kernel.length) (fun c a i => a +
      into (im.px (clampTo im.w ((x : Int) + i - (kernel.length : Int) / 2)) y c) *
      kernel.getD i 0)]
    unfold corr kpos weights
    simp [List.foldl_map, clampTo_of_mem hy]
  · intro i acc hi
    rw [hfix i hi, Image.get_of_inB (clampTo_lt (by omega) _) hy, Option.bind_some,
      List.getElem?_eq_getElem hi, Option.bind_some]
    simp [hi]; rfl

theorem vLoop_spec [Zero K] [Add K] [Mul K] (into : σ → K) (clamp : K → σ) (im : Image (ι → σ))
    (kernel : List K) (fix : Int → Int) {x y : Nat} (hx : x < im.w) (hy : y < im.h)
    (hfix : ∀ i, i < kernel.length → asU32 (fix ((y : Int) + i - (kernel.length : Int) / 2)) =
      clampTo im.h ((y : Int) + i - (kernel.length : Int) / 2)) (out : Image (ι → σ)) :
    vPixel into clamp im kernel fix x y (out, fun _ => 0) =
      (out.put x y fun c => clamp (corr into im 1 kernel.length
        (weights kernel 1) x y c)).map fun o => (o, fun _ => 0) := by
  unfold vPixel
  rw [forRange_foldl kernel.length _ (fun acc i => fun c => acc c +
    into (im.px x (clampTo im.h ((y : Int) + i - (kernel.length : Int) / 2)) c) *
      kernel.getD i 0)]
  · rw [Option.bind_some]
    congr 2
    funext c
    congr 1
    rw [foldl_channel (List.range kernel.length) (fun c a i => a +
      into (im.px x (clampTo im.h ((y : Int) + i - (kernel.length : Int) / 2)) c) *
      kernel.getD i 0)]
    unfold corr kpos weights
    rw [foldl_flatMap']
    simp [clampTo_of_mem hx]
  · intro i acc hi
    rw [hfix i hi, Image.get_of_inB hx (clampTo_lt (by omega) _), Option.bind_some,
      List.getElem?_eq_getElem hi, Option.bind_some]
    simp [hi]; rfl

/-- The loop state of the 1d filters between pixels: the accumulator is zero and the pixels of
`S` hold their final value. -/
def Done {β : Type _} [Zero K] (w h : Nat) (g : Nat → Nat → β) (S : Nat → Nat → Prop)
    (st : Image β × (ι → K)) : Prop :=
  st.2 = (fun _ => 0) ∧ st.1.w = w ∧ st.1.h = h ∧
    ∀ a b, a < w → b < h → S a b → st.1.px a b = g a b

theorem Done.mono {β : Type _} [Zero K] {w h : Nat} {g : Nat → Nat → β} {S T : Nat → Nat → Prop}
    {st : Image β × (ι → K)} (hd : Done w h g S st) (hST : ∀ a b, a < w → b < h → T a b → S a b) :
    Done w h g T st :=
  ⟨hd.1, hd.2.1, hd.2.2.1, fun a b ha hb hT => hd.2.2.2 a b ha hb (hST a b ha hb hT)⟩

theorem Done.step {β : Type _} [Zero K] {w h : Nat} {g : Nat → Nat → β} {S T : Nat → Nat → Prop}
    {f : Nat → Nat → Image β × (ι → K) → Option (Image β × (ι → K))} {x y : Nat}
    {st : Image β × (ι → K)} (hx : x < w) (hy : y < h)
    (hf : ∀ out : Image β, f x y (out, fun _ => 0) =
      (out.put x y (g x y)).map fun o => (o, fun _ => 0))
    (hd : Done w h g S st) (hT : ∀ a b, a < w → b < h → T a b → S a b ∨ a = x ∧ b = y) :
    ∃ st', f x y st = some st' ∧ Done w h g T st' := by
  obtain ⟨out, acc⟩ := st
  obtain ⟨h0, h1, h2, h3⟩ := hd
  dsimp only at h0 h1 h2 h3
  subst h0
  rw [hf out, Image.put_of_inB _ (by omega) (by omega)]
  refine ⟨_, rfl, rfl, h1, h2, ?_⟩
  intro a b ha hb hab
  dsimp only
  by_cases hxy : a = x ∧ b = y
  · rw [if_pos hxy, hxy.1, hxy.2]
  · rw [if_neg hxy]
    rcases hT a b ha hb hab with h | h
    · exact h3 a b ha hb h
    · exact absurd h hxy

/-- **C38**, rows: for every kernel length, horizontal filtering reads no pixel outside the image
and returns the clamped-border correlation with the one-row kernel. -/
theorem C38_horizontal [Zero K] [Add K] [Mul K] (into : σ → K) (clamp : K → σ) (zt : σ)
    (im : Image (ι → σ)) (kernel : List K) (hw : im.w < 2147483648) :
    ∃ out, horizontalFilter into clamp zt im kernel = some out ∧ out.w = im.w ∧ out.h = im.h ∧
      ∀ x y, x < im.w → y < im.h → ∀ c, out.px x y c =
        clamp (corr into im kernel.length 1 (weights kernel kernel.length) x y c) := by
  generalize hg : (fun x y => fun c => clamp (corr into im kernel.length 1
    (weights kernel kernel.length) x y c)) = g
  have hpx : ∀ fix x y (_ : x < im.w) (_ : y < im.h), (∀ i, i < kernel.length →
      asU32 (fix ((x : Int) + i - (kernel.length : Int) / 2)) =
      clampTo im.w ((x : Int) + i - (kernel.length : Int) / 2)) → ∀ out,
      hPixel into clamp im kernel fix x y (out, fun _ => 0) =
        (out.put x y (g x y)).map fun o => (o, fun _ => 0) := by
    intro fix x y hx hy hfix out
    rw [hLoop_spec into clamp im kernel fix hx hy hfix out, ← hg]
  suffices h : ∃ st : Image (ι → σ) × (ι → K),
      horizontalFilter into clamp zt im kernel = some st.1 ∧
      Done im.w im.h g (fun _ _ => True) st by
    obtain ⟨st, e, _, h1, h2, h3⟩ := h
    refine ⟨st.1, e, h1, h2, fun x y hx hy c => ?_⟩
    rw [h3 x y hx hy trivial, ← hg]
  unfold horizontalFilter
  dsimp only
  by_cases hk : im.w ≤ kernel.length
  · rw [if_pos hk]
    obtain ⟨st, e, hd⟩ := forYX_spec
      (s := ((Image.new im.w im.h fun _ => zt, fun _ => 0) : Image (ι → σ) × (ι → K)))
      (f := fun x y st => hPixel into clamp im kernel
        (fun i => max 0 (min i ((im.w : Int) - 1))) x y st)
      (fun x y st => Done im.w im.h g (fun a b => b < y ∨ b = y ∧ a < x) st)
      (Nat.zero_le im.h) (Nat.zero_le im.w) ⟨rfl, rfl, rfl, by omega⟩
      (by
        intro x y st _ hx _ hy hd
        refine Done.step (f := fun x y st => hPixel into clamp im kernel
          (fun i => max 0 (min i ((im.w : Int) - 1))) x y st) hx hy
          (hpx _ x y hx hy ?_) hd (by omega)
        intro i _
        unfold asU32 clampTo
        omega)
      (by intro y st _ _ hd; exact hd.mono (by omega))
    rw [e]
    exact ⟨st, rfl, hd.mono (by omega)⟩
  · rw [if_neg hk]
    obtain ⟨st, e, hd⟩ := forRange_spec
      (s := ((Image.new im.w im.h fun _ => zt, fun _ => 0) : Image (ι → σ) × (ι → K)))
      (f := fun y st =>
        (forRange 0 (kernel.length / 2) st fun x st =>
          hPixel into clamp im kernel (fun i => max 0 i) x y st).bind fun st =>
        (forRange (kernel.length / 2) (im.w - kernel.length / 2) st fun x st =>
          hPixel into clamp im kernel (fun i => i) x y st).bind fun st =>
        forRange (im.w - kernel.length / 2) im.w st fun x st =>
          hPixel into clamp im kernel (fun i => min i ((im.w : Int) - 1)) x y st)
      (fun y st => Done im.w im.h g (fun _ b => b < y) st)
      (Nat.zero_le im.h) ⟨rfl, rfl, rfl, by omega⟩
      (by
        intro y st _ hy hd
        obtain ⟨st1, e1, hd1⟩ := forRange_spec (lo := 0) (hi := kernel.length / 2) (s := st)
          (f := fun x st => hPixel into clamp im kernel (fun i => max 0 i) x y st)
          (fun x st => Done im.w im.h g (fun a b => b < y ∨ b = y ∧ a < x) st)
          (Nat.zero_le _) (hd.mono (by omega))
          (by
            intro x st _ hx hd
            refine Done.step (f := fun x y st => hPixel into clamp im kernel
              (fun i => max 0 i) x y st) (by omega) hy
              (hpx _ x y (by omega) hy ?_) hd (by omega)
            intro i _
            unfold asU32 clampTo
            omega)
        obtain ⟨st2, e2, hd2⟩ := forRange_spec (lo := kernel.length / 2)
          (hi := im.w - kernel.length / 2) (s := st1)
          (f := fun x st => hPixel into clamp im kernel (fun i => i) x y st)
          (fun x st => Done im.w im.h g (fun a b => b < y ∨ b = y ∧ a < x) st)
          (by omega) hd1
          (by
            intro x st _ hx hd
            refine Done.step (f := fun x y st => hPixel into clamp im kernel
              (fun i => i) x y st) (by omega) hy
              (hpx _ x y (by omega) hy ?_) hd (by omega)
            intro i _
            unfold asU32 clampTo
            omega)
        obtain ⟨st3, e3, hd3⟩ := forRange_spec (lo := im.w - kernel.length / 2)
          (hi := im.w) (s := st2)
          (f := fun x st => hPixel into clamp im kernel (fun i => min i ((im.w : Int) - 1)) x y st)
          (fun x st => Done im.w im.h g (fun a b => b < y ∨ b = y ∧ a < x) st)
          (by omega) hd2
          (by
            intro x st _ hx hd
            refine Done.step (f := fun x y st => hPixel into clamp im kernel
              (fun i => min i ((im.w : Int) - 1)) x y st) (by omega) hy
              (hpx _ x y (by omega) hy ?_) hd (by omega)
            intro i _
            unfold asU32 clampTo
            omega)
        refine ⟨st3, ?_, hd3.mono (by omega)⟩
        rw [e1, Option.bind_some, e2, Option.bind_some, e3])
    rw [e]
    exact ⟨st, rfl, hd.mono (by omega)⟩

/-- **C38**, columns: for every kernel length, vertical filtering reads no pixel outside the image
and returns the clamped-border correlation with the one-column kernel. -/
theorem C38_vertical [Zero K] [Add K] [Mul K] (into : σ → K) (clamp : K → σ) (zt : σ)
    (im : Image (ι → σ)) (kernel : List K) (hh : im.h < 2147483648) :
    ∃ out, verticalFilter into clamp zt im kernel = some out ∧ out.w = im.w ∧ out.h = im.h ∧
      ∀ x y, x < im.w → y < im.h → ∀ c, out.px x y c =
        clamp (corr into im 1 kernel.length (weights kernel 1) x y c) := by
  generalize hg : (fun x y => fun c => clamp (corr into im 1 kernel.length
    (weights kernel 1) x y c)) = g
  have hpx : ∀ fix x y (_ : x < im.w) (_ : y < im.h), (∀ i, i < kernel.length →
      asU32 (fix ((y : Int) + i - (kernel.length : Int) / 2)) =
      clampTo im.h ((y : Int) + i - (kernel.length : Int) / 2)) → ∀ out,
      vPixel into clamp im kernel fix x y (out, fun _ => 0) =
        (out.put x y (g x y)).map fun o => (o, fun _ => 0) := by
    intro fix x y hx hy hfix out
    rw [vLoop_spec into clamp im kernel fix hx hy hfix out, ← hg]
  suffices h : ∃ st : Image (ι → σ) × (ι → K),
      verticalFilter into clamp zt im kernel = some st.1 ∧
      Done im.w im.h g (fun _ _ => True) st by
    obtain ⟨st, e, _, h1, h2, h3⟩ := h
    refine ⟨st.1, e, h1, h2, fun x y hx hy c => ?_⟩
    rw [h3 x y hx hy trivial, ← hg]
  have zone : ∀ (fix : Int → Int) (lo hi : Nat) (st : Image (ι → σ) × (ι → K)), lo ≤ hi →
      hi ≤ im.h →
      (∀ y i, lo ≤ y → y < hi → i < kernel.length →
        asU32 (fix ((y : Int) + i - (kernel.length : Int) / 2)) =
        clampTo im.h ((y : Int) + i - (kernel.length : Int) / 2)) →
      Done im.w im.h g (fun _ b => b < lo) st →
      ∃ st', (forYX lo hi 0 im.w st fun x y st => vPixel into clamp im kernel fix x y st) =
        some st' ∧ Done im.w im.h g (fun _ b => b < hi) st' := by
    intro fix lo hi st hle hhi hfix hd
    obtain ⟨st', e, hd'⟩ := forYX_spec (s := st)
      (f := fun x y st => vPixel into clamp im kernel fix x y st)
      (fun x y st => Done im.w im.h g (fun a b => b < y ∨ b = y ∧ a < x) st)
      hle (Nat.zero_le im.w) (hd.mono (by omega))
      (by
        intro x y st _ hx hy1 hy hd
        exact Done.step (f := fun x y st => vPixel into clamp im kernel fix x y st) hx (by omega)
          (hpx _ x y hx (by omega) (fun i hi' => hfix y i hy1 hy hi')) hd (by omega))
      (by intro y st _ _ hd; exact hd.mono (by omega))
    exact ⟨st', e, hd'.mono (by omega)⟩
  unfold verticalFilter
  dsimp only
  by_cases hk : im.h ≤ kernel.length
  · rw [if_pos hk]
    obtain ⟨st, e, hd⟩ := zone (fun i => max 0 (min i ((im.h : Int) - 1))) 0 im.h
      (Image.new im.w im.h fun _ => zt, fun _ => 0) (Nat.zero_le _) (le_refl _)
      (by intro y i _ _ _; unfold asU32 clampTo; omega) ⟨rfl, rfl, rfl, by omega⟩
    rw [e]
    exact ⟨st, rfl, hd.mono (by omega)⟩
  · rw [if_neg hk]
    obtain ⟨st1, e1, hd1⟩ := zone (fun i => max 0 i) 0 (kernel.length / 2)
      (Image.new im.w im.h fun _ => zt, fun _ => 0) (Nat.zero_le _) (by omega)
      (by intro y i _ _ _; unfold asU32 clampTo; omega) ⟨rfl, rfl, rfl, by omega⟩
    obtain ⟨st2, e2, hd2⟩ := zone (fun i => i) (kernel.length / 2) (im.h - kernel.length / 2) st1
      (by omega) (by omega) (by intro y i _ _ _; unfold asU32 clampTo; omega) hd1
    obtain ⟨st3, e3, hd3⟩ := zone (fun i => min i ((im.h : Int) - 1)) (im.h - kernel.length / 2)
      im.h st2 (by omega) (by omega) (by intro y i _ _ _; unfold asU32 clampTo; omega) hd2
    rw [e1, Option.bind_some, e2, Option.bind_some, e3]
    exact ⟨st3, rfl, hd3.mono (by omega)⟩

/-- **C38.** Horizontal filtering is `filter` with the one-row kernel. -/
theorem C38_horizontal_eq_filter [Zero K] [Add K] [Mul K] (into : σ → K) (clamp : K → σ) (zt : σ)
    (im : Image (ι → σ)) {kernel : List K} {k : Kernel K}
    (hk : Kernel.new kernel kernel.length 1 = some k)
    (hw : im.w < 2147483648) (hh : im.h < 2147483648) :
    ∃ out out', horizontalFilter into clamp zt im kernel = some out ∧
      filter into zt im k clamp = some out' ∧ Image.Same out out' := by
  obtain ⟨out, e, h1, h2, h3⟩ := C38_horizontal into clamp zt im kernel hw
  obtain ⟨out', e', k1, k2, k3⟩ := C37_filter into zt im hk clamp hw hh
  refine ⟨out, out', e, e', h1.trans k1.symm, h2.trans k2.symm, fun x y hx hy => ?_⟩
  funext c
  rw [h3 x y (h1 ▸ hx) (h2 ▸ hy), k3 x y (h1 ▸ hx) (h2 ▸ hy)]

/-- **C38.** Vertical filtering is `filter` with the one-column kernel. -/
theorem C38_vertical_eq_filter [Zero K] [Add K] [Mul K] (into : σ → K) (clamp : K → σ) (zt : σ)
    (im : Image (ι → σ)) {kernel : List K} {k : Kernel K}
    (hk : Kernel.new kernel 1 kernel.length = some k)
    (hw : im.w < 2147483648) (hh : im.h < 2147483648) :
    ∃ out out', verticalFilter into clamp zt im kernel = some out ∧
      filter into zt im k clamp = some out' ∧ Image.Same out out' := by
  obtain ⟨out, e, h1, h2, h3⟩ := C38_vertical into clamp zt im kernel hh
  obtain ⟨out', e', k1, k2, k3⟩ := C37_filter into zt im hk clamp hw hh
  refine ⟨out, out', e, e', h1.trans k1.symm, h2.trans k2.symm, fun x y hx hy => ?_⟩
  funext c
  rw [h3 x y (h1 ▸ hx) (h2 ▸ hy), k3 x y (h1 ▸ hx) (h2 ▸ hy)]

example : (horizontalFilter (ι := Unit) (fun (v : Int) => v) id 0
      ⟨5, 1, fun x _ _ => x + 1⟩ [1, 10, 100, 1000]).map (fun o =>
      (Image.mk o.w o.h fun x y => o.px x y ()).rows) =
    some [[2111, 3211, 4321, 5432, 5543]] := by decide

example : (verticalFilter (ι := Unit) (fun (v : Int) => v) id 0
      ⟨1, 2, fun _ y _ => y + 1⟩ [1, 10, 100]).map (fun o =>
      (Image.mk o.w o.h fun x y => o.px x y ()).rows) = some [[211], [221]] := by decide

end Verif.Filter
