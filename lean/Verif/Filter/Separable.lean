import Verif.Filter.Props
import Mathlib.Algebra.Order.BigOperators.Ring.Finset
import Mathlib.Algebra.BigOperators.Field
import Mathlib.Algebra.Order.Field.Basic
import Mathlib.Algebra.Order.Field.Rat
import Mathlib.Tactic.Linarith
import Mathlib.Tactic.FieldSimp
/-
Property theorems C87 (separable filtering) and C88 (Gaussian blur).
-/
namespace Verif.Filter
open Finset

variable {ι σ τ K : Type _}

/-- What `separable_filter` computes: the vertical pass applied to the *clamped* result of the
horizontal pass. -/
theorem separable_spec [Zero K] [Add K] [Mul K] (into : σ → K) (clamp : K → σ) (zt : σ)
    (im : Image (ι → σ)) (hk vk : List K) (hl : hk.length = vk.length)
    (hw : im.w < 2147483648) (hh : im.h < 2147483648) :
    ∃ out, separableFilter into clamp zt im hk vk = some out ∧ out.w = im.w ∧ out.h = im.h ∧
      ∀ x y, x < im.w → y < im.h → ∀ c, out.px x y c =
        clamp (corr into ⟨im.w, im.h, fun x y c =>
          clamp (corr into im hk.length 1 (weights hk hk.length) x y c)⟩ 1 vk.length
          (weights vk 1) x y c) := by
  obtain ⟨h, e1, a1, a2, a3⟩ := C38_horizontal into clamp zt im hk hw
  obtain ⟨out, e2, b1, b2, b3⟩ := C38_vertical into clamp zt h vk (by omega)
  refine ⟨out, ?_, by omega, by omega, ?_⟩
  · unfold separableFilter
    rw [if_pos hl, e1, Option.bind_some, e2]
  · intro x y hx hy c
    rw [b3 x y (by omega) (by omega)]
    congr 1
    unfold corr
    have hfold : ∀ (l : List (Nat × Nat)) (f g : K → Nat × Nat → K) (a : K),
        (∀ a p, p ∈ l → f a p = g a p) → l.foldl f a = l.foldl g a := by
      intro l f g
      induction l with
      | nil => intro a _; rfl
      | cons p l ih =>
        intro a hfg
        rw [List.foldl_cons, List.foldl_cons, hfg a p (by simp)]
        exact ih _ fun a q hq => hfg a q (by simp [hq])
    refine hfold _ _ _ _ fun a p _ => ?_
    dsimp only
    rw [a1, a2, a3 _ _ (clampTo_lt (by omega) _) (clampTo_lt (by omega) _)]
    rfl

/-- **C87.** The two lengths must agree. -/
theorem C87_rejects [Zero K] [Add K] [Mul K] (into : σ → K) (clamp : K → σ) (zt : σ)
    (im : Image (ι → σ)) (hk vk : List K) (hl : hk.length ≠ vk.length) :
    separableFilter into clamp zt im hk vk = none := if_neg hl

/-- **C87** (partial: the documented claim is false for narrow pixel types, see
`C87_negation`).  When the pixel type represents intermediate sums exactly, separable filtering
is correlation with the outer product of the two kernels. -/
theorem C87_outer_product_partial [CommSemiring K] (into : σ → K) (clamp : K → σ) (zt : σ)
    (hexact : ∀ v, into (clamp v) = v)
    (im : Image (ι → σ)) (hk vk : List K) (hl : hk.length = vk.length)
    (hw : im.w < 2147483648) (hh : im.h < 2147483648) :
    ∃ out, separableFilter into clamp zt im hk vk = some out ∧ out.w = im.w ∧ out.h = im.h ∧
      ∀ x y, x < im.w → y < im.h → ∀ c, out.px x y c =
        clamp (corr into im hk.length vk.length (fun kx ky => hk.getD kx 0 * vk.getD ky 0)
          x y c) := by
  obtain ⟨out, e, h1, h2, h3⟩ := separable_spec into clamp zt im hk vk hl hw hh
  refine ⟨out, e, h1, h2, fun x y hx hy c => ?_⟩
  rw [h3 x y hx hy]
  congr 1
  rw [corr_eq_sum, corr_eq_sum]
  refine sum_congr rfl fun ky _ => ?_
  have hx0 : clampTo im.w ((x : Int) + ((0 : Nat) : Int) - ((1 : Nat) : Int) / 2) = x := by
    have : ((x : Int) + ((0 : Nat) : Int) - ((1 : Nat) : Int) / 2) = x := by omega
    rw [this, clampTo_of_mem hx]
  rw [sum_range_one]
  dsimp only
  rw [hx0, hexact, corr_eq_sum, sum_range_one, mul_sum]
  refine sum_congr rfl fun kx _ => ?_
  have hy0 : ∀ b : Nat, b < im.h →
      clampTo im.h ((b : Int) + ((0 : Nat) : Int) - ((1 : Nat) : Int) / 2) = b := by
    intro b hb
    have : ((b : Int) + ((0 : Nat) : Int) - ((1 : Nat) : Int) / 2) = b := by omega
    rw [this, clampTo_of_mem hb]
  rw [hy0 _ (clampTo_lt (by omega) _)]
  simp only [weights]
  rw [Nat.mul_one, Nat.add_zero, Nat.zero_mul, Nat.zero_add]
  rw [mul_left_comm, mul_assoc]

/-- `u8` clamping of an integer, for the counterexample. -/
def clampU8 (v : Int) : Nat := (max 0 (min v 255)).toNat

/-- **C87, the documented claim is false for `u8` images**: with the kernel `[-1]` twice the outer
product is `[1]`, which is the identity, but the result is black because the intermediate image
is clamped. -/
theorem C87_negation :
    (separableFilter (ι := Unit) (fun (v : Nat) => (v : Int)) clampU8 0
      ⟨1, 1, fun _ _ _ => 7⟩ [-1] [-1]).map (fun o => o.px 0 0 ()) = some 0 ∧
    (Kernel.new [(-1 : Int) * (-1)] 1 1).bind (fun k =>
      (filter (ι := Unit) (fun (v : Nat) => (v : Int)) 0 ⟨1, 1, fun _ _ _ => 7⟩ k clampU8).map
        (fun o => o.px 0 0 ())) = some 7 := by
  constructor <;> decide

/-! ### Gaussian kernel -/

/-- **C88**, kernel.  The Gaussian kernel has odd length `2 r + 1` and its entry `j` is
`pdf |j - r|` divided by the total, so it is symmetric. -/
theorem C88_kernel [Field K] (pdf : Nat → K) (radius : Nat) :
    ∃ ker, gaussianKernel pdf radius = some ker ∧ ker.length = 2 * radius + 1 ∧
      ∀ j, j < 2 * radius + 1 → ker.getD j 0 =
        pdf ((j : Int) - radius).natAbs / ∑ i ∈ range (2 * radius + 1),
          pdf ((i : Int) - radius).natAbs := by
  obtain ⟨data, e, hlen, hval⟩ := forRange_spec (lo := 0) (hi := radius + 1)
    (s := List.replicate (2 * radius + 1) (0 : K))
    (f := fun i data =>
      if radius + i < data.length ∧ radius - i < data.length then
        some ((data.set (radius + i) (pdf i)).set (radius - i) (pdf i))
      else none)
    (fun i data => data.length = 2 * radius + 1 ∧
      ∀ (j : Nat) (h : j < data.length), ((j : Int) - radius).natAbs < i →
        data[j] = pdf ((j : Int) - radius).natAbs)
    (Nat.zero_le _) ⟨by simp, by omega⟩
    (by
      rintro i data _ hi ⟨h1, h2⟩
      rw [if_pos (by omega)]
      refine ⟨_, rfl, by simp [h1], ?_⟩
      intro j hj hji
      simp only [List.length_set] at hj
      rw [List.getElem_set]
      by_cases hc : radius - i = j
      · rw [if_pos hc]
        congr 1; omega
      · rw [if_neg hc, List.getElem_set]
        by_cases hc2 : radius + i = j
        · rw [if_pos hc2]; congr 1; omega
        · rw [if_neg hc2]
          exact h2 j hj (by omega))
  have hsum : data.foldl (· + ·) 0 =
      ∑ i ∈ range (2 * radius + 1), pdf ((i : Int) - radius).natAbs := by
    have hd : data = (List.range (2 * radius + 1)).map fun (i : Nat) =>
        pdf ((i : Int) - radius).natAbs := by
      apply List.ext_getElem
      · simp [hlen]
      · intro j hj _
        rw [hval j hj (by omega)]
        simp
    rw [hd, List.foldl_map, fold_add, zero_add]
  refine ⟨_, by unfold gaussianKernel; rw [e]; rfl, by simp [hlen], ?_⟩
  intro j hj
  dsimp only
  rw [hsum, List.getD_eq_getElem?_getD, List.getElem?_map,
    List.getElem?_eq_getElem (by omega), Option.map_some, Option.getD_some,
    hval j (by omega) (by omega)]

/-- **C88**, kernel: nonnegative samples with a positive centre give a nonnegative kernel of total
weight one. -/
theorem C88_kernel_normalised [Field K] [LinearOrder K] [IsStrictOrderedRing K] (pdf : Nat → K)
    (radius : Nat) (h0 : 0 < pdf 0) (hp : ∀ i, 0 ≤ pdf i) :
    ∃ ker, gaussianKernel pdf radius = some ker ∧ ker.length = 2 * radius + 1 ∧
      (∀ j, 0 ≤ ker.getD j 0) ∧ ∑ j ∈ range ker.length, ker.getD j 0 = 1 := by
  obtain ⟨ker, e, hl, hv⟩ := C88_kernel pdf radius
  have hpos : 0 < ∑ i ∈ range (2 * radius + 1), pdf ((i : Int) - radius).natAbs := by
    refine sum_pos' (fun i _ => hp _) ⟨radius, by simp; omega, ?_⟩
    simpa using h0
  refine ⟨ker, e, hl, ?_, ?_⟩
  · intro j
    by_cases hj : j < 2 * radius + 1
    · rw [hv j hj]; exact div_nonneg (hp _) hpos.le
    · rw [List.getD_eq_getElem?_getD, List.getElem?_eq_none (by omega), Option.getD_none]
  · rw [hl, sum_congr rfl fun j hj => hv j (mem_range.1 hj), ← sum_div, div_self hpos.ne']

/-- A weighted mean with nonnegative weights of total one stays in the range of its values. -/
theorem mean_bounds [Field K] [LinearOrder K] [IsStrictOrderedRing K] (n : Nat) (w v : Nat → K)
    (a b : K) (hw : ∀ j, 0 ≤ w j) (hs : ∑ j ∈ range n, w j = 1)
    (hv : ∀ j, j < n → a ≤ v j ∧ v j ≤ b) :
    a ≤ ∑ j ∈ range n, w j * v j ∧ ∑ j ∈ range n, w j * v j ≤ b := by
  constructor
  · calc a = ∑ j ∈ range n, w j * a := by rw [← sum_mul, hs, one_mul]
      _ ≤ _ := sum_le_sum fun j hj => mul_le_mul_of_nonneg_left (hv j (mem_range.1 hj)).1 (hw j)
  · calc _ ≤ ∑ j ∈ range n, w j * b :=
          sum_le_sum fun j hj => mul_le_mul_of_nonneg_left (hv j (mem_range.1 hj)).2 (hw j)
      _ = b := by rw [← sum_mul, hs, one_mul]

/-- **C88.** In exact arithmetic Gaussian blurring never leaves the range of the input: if every
value of channel `c` is between `into a` and `into b`, so is every value of the result, provided
conversion to the pixel type does not cross the representable values `a` and `b`. -/
theorem C88_blur_range [Field K] [LinearOrder K] [IsStrictOrderedRing K] (into : σ → K)
    (clamp : K → σ) (zt : σ)
    (pdf : Nat → K) (radius : Nat) (h0 : 0 < pdf 0) (hp : ∀ i, 0 ≤ pdf i)
    (im : Image (ι → σ)) (hw : im.w < 2147483648) (hh : im.h < 2147483648) :
    ∃ out, ((gaussianKernel pdf radius).bind fun ker =>
        separableFilter into clamp zt im ker ker) = some out ∧ out.w = im.w ∧ out.h = im.h ∧
      ∀ c a b, (∀ v, into a ≤ v → into a ≤ into (clamp v)) →
        (∀ v, v ≤ into b → into (clamp v) ≤ into b) →
        (∀ x y, x < im.w → y < im.h → into a ≤ into (im.px x y c) ∧
        into (im.px x y c) ≤ into b) → ∀ x y, x < im.w → y < im.h →
        into a ≤ into (out.px x y c) ∧ into (out.px x y c) ≤ into b := by
  obtain ⟨ker, e, hl, hn, hs⟩ := C88_kernel_normalised pdf radius h0 hp
  obtain ⟨out, e2, h1, h2, h3⟩ := separable_spec into clamp zt im ker ker rfl hw hh
  refine ⟨out, by rw [e, Option.bind_some, e2], h1, h2, ?_⟩
  intro c a b hlo hhi hab x y hx hy
  have hpass : ∀ x y, x < im.w → y < im.h →
      into a ≤ into (clamp (corr into im ker.length 1 (weights ker ker.length) x y c)) ∧
      into (clamp (corr into im ker.length 1 (weights ker ker.length) x y c)) ≤ into b := by
    intro x y hx hy
    have := mean_bounds ker.length (fun j => ker.getD j 0)
      (fun j => into (im.px (clampTo im.w ((x : Int) + j - (ker.length : Int) / 2))
        (clampTo im.h ((y : Int) + ((0 : Nat) : Int) - ((1 : Nat) : Int) / 2)) c))
      (into a) (into b) hn hs
      (fun j _ => hab _ _ (clampTo_lt (by omega) _) (clampTo_lt (by omega) _))
    rw [corr_eq_sum, sum_range_one]
    simp only [weights, Nat.zero_mul, Nat.zero_add]
    exact ⟨hlo _ this.1, hhi _ this.2⟩
  rw [h3 x y hx hy, corr_eq_sum]
  simp only [sum_range_one, weights, Nat.mul_one, Nat.add_zero]
  have := mean_bounds ker.length (fun j => ker.getD j 0)
    (fun j => into (clamp (corr into im ker.length 1 (weights ker ker.length)
      (clampTo im.w ((x : Int) + ((0 : Nat) : Int) - ((1 : Nat) : Int) / 2))
      (clampTo im.h ((y : Int) + j - (ker.length : Int) / 2)) c)))
    (into a) (into b) hn hs
    (fun j _ => hpass _ _ (clampTo_lt (by omega) _) (clampTo_lt (by omega) _))
  exact ⟨hlo _ this.1, hhi _ this.2⟩

/-- **C88.** A channel that is constant in the input is unchanged by Gaussian blurring. -/
theorem C88_blur_constant [Field K] [LinearOrder K] [IsStrictOrderedRing K] (into : σ → K)
    (hinj : Function.Injective into)
    (clamp : K → σ) (zt : σ)
    (pdf : Nat → K) (radius : Nat) (h0 : 0 < pdf 0) (hp : ∀ i, 0 ≤ pdf i)
    (im : Image (ι → σ)) (hw : im.w < 2147483648) (hh : im.h < 2147483648) (c : ι) (v : σ)
    (hlo : ∀ u, into v ≤ u → into v ≤ into (clamp u)) (hhi : ∀ u, u ≤ into v → into (clamp u) ≤ into v)
    (hc : ∀ x y, x < im.w → y < im.h → im.px x y c = v) :
    ∃ out, ((gaussianKernel pdf radius).bind fun ker =>
        separableFilter into clamp zt im ker ker) = some out ∧
      ∀ x y, x < im.w → y < im.h → out.px x y c = v := by
  obtain ⟨out, e, _, _, h3⟩ := C88_blur_range into clamp zt pdf radius h0 hp im hw hh
  refine ⟨out, e, fun x y hx hy => hinj ?_⟩
  have := h3 c v v hlo hhi (fun x y hx hy => by rw [hc x y hx hy]; exact ⟨le_refl _, le_refl _⟩) x y hx hy
  exact le_antisymm this.2 this.1

example : gaussianKernel (fun i => if i = 0 then (6 : ℚ) else 1) 1 =
    some [1 / 8, 3 / 4, 1 / 8] := by decide +kernel

example : ((gaussianKernel (fun i => if i = 0 then (6 : ℚ) else 1) 1).bind fun ker =>
    separableFilter (ι := Unit) (fun v : ℚ => v) id 0 ⟨3, 1, fun x _ _ => if x = 1 then 8 else 0⟩
      ker ker).map (fun o => (Image.mk o.w o.h fun x y => o.px x y ()).rows) =
    some [[1, 6, 1]] := by decide +kernel

end Verif.Filter
