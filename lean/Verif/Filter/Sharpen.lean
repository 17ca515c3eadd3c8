import Verif.Gradients.Props
import Verif.Filter.Separable
import Verif.Map.Model
/-
Model of `/repo/src/filter/sharpen.rs` and property theorem C103.  Pixels are single-channel
(`ι = Unit`); `f32` arithmetic is exact rational arithmetic.
-/
namespace Verif.Filter
open Verif.Definitions Finset

variable {ι : Type _}

/-- `sharpen3x3`, sharpen.rs:13-16, with `filter_clamped` (filter/mod.rs:204-212) from `u8` through
`i32` to `u8`. -/
def sharpen3x3 (im : Image (ι → Nat)) : Option (Image (ι → Int)) :=
  (Kernel.new [0, -1, 0, -1, 5, -1, 0, -1, (0 : Int)] 3 3).bind fun k =>
  filter (fun v : Nat => (v : Int)) 0 im k (clampInt 0 255)

/-- `sharpen3x3_parallel`, sharpen.rs:20-23; the rows are computed in the order `sched`. -/
def sharpen3x3Parallel (im : Image (ι → Nat)) (sched : List Nat) : Option (Image (ι → Int)) :=
  (Kernel.new [0, -1, 0, -1, 5, -1, 0, -1, (0 : Int)] 3 3).bind fun k =>
  filterParallel (fun v : Nat => (v : Int)) im k (clampInt 0 255) sched

/-- `sharpen_gaussian`, sharpen.rs:31-38: convert to `f32` (line 32), blur (33, `gaussian_blur_f32` filter/mod.rs:158-166
with `f32` pixels, which are not clamped), combine (34-37; the two images have the same
size, so `map_pixels2` pairs equal coordinates, see C74).  `pdf`, `radius` as in `gaussianKernel`. -/
def sharpenGaussian (pdf : Nat → ℚ) (radius : Nat) (im : Image (ι → Nat)) (amount : ℚ) :
    Option (Image (ι → Int)) :=
  let image : Image (ι → ℚ) := ⟨im.w, im.h, fun x y c => (im.px x y c : ℚ)⟩
  ((gaussianKernel pdf radius).bind fun ker => separableFilter id id 0 image ker ker).map fun smooth =>
  ⟨image.w, image.h, fun x y c =>
    clampQ 0 255 ((1 + amount) * image.px x y c - amount * smooth.px x y c)⟩

open Verif.Gradients

/-- **C103.** For every 8-bit image `sharpen3x3` returns at each pixel five times its value minus its
four neighbours (pixels beyond the border continue the image), clamped to 0..255. -/
theorem C103_sharpen3x3 (im : Image (ι → Nat)) (hw : im.w < 2147483648) (hh : im.h < 2147483648) :
    ∃ out, sharpen3x3 im = some out ∧ out.w = im.w ∧ out.h = im.h ∧
      ∀ x y, x < im.w → y < im.h → ∀ c, out.px x y c =
        max 0 (min 255 (5 * at' im c x y 0 0 - at' im c x y 0 (-1) - at' im c x y 0 1 -
          at' im c x y (-1) 0 - at' im c x y 1 0)) := by
  obtain ⟨out, e, h1, h2, h3⟩ := C37_filter_sum (fun v : Nat => (v : Int)) (0 : Int) im
    (data := [0, -1, 0, -1, 5, -1, 0, -1, 0]) (kw := 3) (kh := 3) rfl (clampInt 0 255) hw hh
  refine ⟨out, e, h1, h2, fun x y hx hy c => ?_⟩
  rw [h3 x y hx hy c]
  have hc : ∀ v : Int, clampInt 0 255 v = max 0 (min 255 v) := by
    intro v
    obtain ⟨a1, a2, a3⟩ := C75_int 0 255 v (by decide)
    by_cases g1 : v < 0
    · rw [a2 g1]; omega
    · by_cases g2 : 255 < v
      · rw [a3 g2]; omega
      · rw [a1 (by omega) (by omega)]; omega
  rw [hc]
  congr 2
  simp only [Finset.sum_range_succ, Finset.sum_range_zero, at']
  norm_num
  simp only [add_sub_assoc]
  norm_num
  ring_nf

/-- **C103.** The parallel version returns the same image for every order in which the rows are computed. -/
theorem C103_parallel (im : Image (ι → Nat)) (hw : im.w < 2147483648) (hh : im.h < 2147483648)
    (sched : List Nat) (hs : sched.Perm (List.range im.h)) :
    ∃ out out', sharpen3x3Parallel im sched = some out ∧ sharpen3x3 im = some out' ∧
      Image.Same out out' :=
  C37_filter_parallel (fun v : Nat => (v : Int)) (0 : Int) im
    (data := [0, -1, 0, -1, 5, -1, 0, -1, 0]) (kw := 3) (kh := 3) rfl (clampInt 0 255) hw hh sched hs

/-- **C103.** Where a pixel equals its four neighbours `sharpen3x3` leaves it unchanged; a pixel at least as bright as all of them
does not get darker and one at most as bright does not get brighter. -/
theorem C103_flat (im : Image (ι → Nat)) (hu : IsU8 im) :
    ∃ out, sharpen3x3 im = some out ∧ ∀ x y, x < im.w → y < im.h → ∀ c,
      let nb := [at' im c x y 0 (-1), at' im c x y 0 1, at' im c x y (-1) 0, at' im c x y 1 0]
      ((∀ v ∈ nb, v ≤ im.px x y c) → (im.px x y c : Int) ≤ out.px x y c) ∧
      ((∀ v ∈ nb, (im.px x y c : Int) ≤ v) → out.px x y c ≤ im.px x y c) := by
  obtain ⟨out, e, -, -, h3⟩ := C103_sharpen3x3 im hu.1 hu.2.1
  refine ⟨out, e, fun x y hx hy c => ?_⟩
  have e0 : at' im c x y 0 0 = im.px x y c := by
    unfold at'
    rw [add_zero, add_zero, clampTo_of_mem hx, clampTo_of_mem hy]
  have := hu.2.2 x y c hx hy
  rw [h3 x y hx hy c, e0]
  simp only [List.mem_cons, List.not_mem_nil, or_false, forall_eq_or_imp, forall_eq]
  constructor <;> (rintro ⟨h1, h2, h3, h4⟩; omega)

/-- **C103.** For every 8-bit image, nonnegative samples of the Gaussian with a positive centre, and every
amount, `sharpen_gaussian` returns `p + amount * (p - b)` clamped to 0..255 (fractions are dropped), where `b` is the mean of the
pixels around `p` weighted by a symmetric separable kernel of total weight one, with the image continued beyond its
border. -/
theorem C103_sharpen_gaussian (pdf : Nat → ℚ) (radius : Nat) (h0 : 0 < pdf 0) (hp : ∀ i, 0 ≤ pdf i)
    (im : Image (ι → Nat)) (hw : im.w < 2147483648) (hh : im.h < 2147483648) (amount : ℚ) :
    ∃ (out : Image (ι → Int)) (k : Nat → ℚ), sharpenGaussian pdf radius im amount = some out ∧
      out.w = im.w ∧ out.h = im.h ∧ (∀ j, 0 ≤ k j) ∧ ∑ j ∈ range (2 * radius + 1), k j = 1 ∧
      (∀ j ≤ 2 * radius, k j = k (2 * radius - j)) ∧
      (∀ i j, pdf i * k (radius + j) = pdf j * k (radius + i) ∨ radius < i ∨ radius < j) ∧
      ∀ x y, x < im.w → y < im.h → ∀ c, ∃ b : ℚ,
        b = ∑ j ∈ range (2 * radius + 1), k j * ∑ i ∈ range (2 * radius + 1), k i *
          (at' im c x y ((i : Int) - radius) ((j : Int) - radius) : ℚ) ∧
        (let v := (im.px x y c : ℚ) + amount * ((im.px x y c : ℚ) - b)
         (v < 0 → out.px x y c = 0) ∧ (255 < v → out.px x y c = 255) ∧
         (0 ≤ v → v ≤ 255 → (out.px x y c : ℚ) ≤ v ∧ v < out.px x y c + 1)) := by
  obtain ⟨ker, e, hl, hv⟩ := C88_kernel pdf radius
  obtain ⟨ker', e', -, hn, hs⟩ := C88_kernel_normalised pdf radius h0 hp
  have : ker' = ker := by rw [e] at e'; exact (Option.some.inj e').symm
  subst this
  obtain ⟨out, e2, h1, h2, h3⟩ := separable_spec (ι := ι) (id : ℚ → ℚ) id 0
    ⟨im.w, im.h, fun x y c => (im.px x y c : ℚ)⟩ ker' ker' rfl hw hh
  refine ⟨_, fun j => ker'.getD j 0, by unfold sharpenGaussian; dsimp only; rw [e, Option.bind_some, e2]; rfl,
    rfl, rfl, hn, by rw [← hl]; exact hs, fun j hj => ?_, fun i j => ?_, fun x y hx hy c => ⟨_, rfl, ?_⟩⟩
  · dsimp only
    rw [hv j (by omega), hv _ (by omega)]
    congr 2
    omega
  · by_cases hi : radius < i
    · exact Or.inr (Or.inl hi)
    by_cases hj : radius < j
    · exact Or.inr (Or.inr hj)
    left
    dsimp only
    rw [hv _ (by omega), hv _ (by omega), show (((radius + j : Nat) : Int) - radius).natAbs = j by omega,
      show (((radius + i : Nat) : Int) - radius).natAbs = i by omega]
    ring
  · have hx' := h3 x y hx hy c
    have hb : out.px x y c = ∑ j ∈ range (2 * radius + 1), ker'.getD j 0 *
        ∑ i ∈ range (2 * radius + 1), ker'.getD i 0 *
          (at' im c x y ((i : Int) - radius) ((j : Int) - radius) : ℚ) := by
      have hcy : ∀ t : Int, clampTo im.h ((clampTo im.h t : Int) + ((0 : Nat) : Int) -
          ((1 : Nat) : Int) / 2) = clampTo im.h t := by
        intro t
        have := clampTo_lt (show 0 < im.h by omega) t
        rw [show ((clampTo im.h t : Int) + ((0 : Nat) : Int) - ((1 : Nat) : Int) / 2) =
          ((clampTo im.h t : Nat) : Int) by omega, clampTo_of_mem this]
      have hcx : clampTo im.w ((x : Int) + ((0 : Nat) : Int) - ((1 : Nat) : Int) / 2) = x := by
        rw [show ((x : Int) + ((0 : Nat) : Int) - ((1 : Nat) : Int) / 2) = x by omega,
          clampTo_of_mem hx]
      have hsub : ∀ (z i : Nat), (z : Int) + i - ((2 * radius + 1 : Nat) : Int) / 2 =
          z + ((i : Int) - radius) := by intro z i; omega
      rw [hx', id, corr_eq_sum, hl]
      refine sum_congr rfl fun j hj => ?_
      rw [sum_range_one]
      unfold weights
      rw [Nat.mul_one, Nat.add_zero]
      congr 1
      dsimp only [id]
      rw [corr_eq_sum, sum_range_one]
      refine sum_congr rfl fun i hi => ?_
      rw [Nat.zero_mul, Nat.zero_add]
      congr 1
      dsimp only
      rw [hcx, hcy, hsub, hsub]
      unfold at'
      push_cast
      rfl
    intro v
    have ev : v = (1 + amount) * (im.px x y c : ℚ) - amount * out.px x y c := by
      rw [hb]; ring
    obtain ⟨-, k1, k2, k3⟩ := C75_float 0 255 v (by decide)
    dsimp only
    rw [← ev]
    refine ⟨fun g => k2 (by exact_mod_cast g), fun g => k3 (by exact_mod_cast g), fun g1 g2 => ?_⟩
    rw [k1 (by exact_mod_cast g1) (by exact_mod_cast g2)]
    exact ((C75_trunc v).1 g1).2

/-- **C103.** With amount 0 `sharpen_gaussian` returns the image, and for any amount a channel that is constant in
the image is unchanged. -/
theorem C103_identity (pdf : Nat → ℚ) (radius : Nat) (h0 : 0 < pdf 0) (hp : ∀ i, 0 ≤ pdf i)
    (im : Image (ι → Nat)) (hu : IsU8 im) (amount : ℚ) :
    ∃ out, sharpenGaussian pdf radius im amount = some out ∧ ∀ c,
      amount = 0 ∨ (∃ v, ∀ x y, x < im.w → y < im.h → im.px x y c = v) →
      ∀ x y, x < im.w → y < im.h → out.px x y c = im.px x y c := by
  obtain ⟨out, k, e, -, -, -, hs, -, -, h⟩ := C103_sharpen_gaussian pdf radius h0 hp im hu.1 hu.2.1 amount
  refine ⟨out, e, fun c hc x y hx hy => ?_⟩
  obtain ⟨b, hb, -, -, h3⟩ := h x y hx hy c
  have hz : amount * ((im.px x y c : ℚ) - b) = 0 := by
    rcases hc with hc | ⟨v, hc⟩
    · rw [hc, zero_mul]
    · have : b = im.px x y c := by
        rw [hb, hc x y hx hy]
        have e1 : ∀ i j : Nat, (at' im c x y ((i : Int) - radius) ((j : Int) - radius) : ℚ) = v := by
          intro i j
          unfold at'
          rw [hc _ _ (clampTo_lt (by omega) _) (clampTo_lt (by omega) _)]
          push_cast; rfl
        simp only [e1, ← Finset.sum_mul, hs, one_mul]
      rw [this, sub_self, mul_zero]
  rw [hz, add_zero] at h3
  have hle := hu.2.2 x y c hx hy
  obtain ⟨g1, g2⟩ := h3 (by positivity) (by exact_mod_cast hle)
  have g1' : out.px x y c ≤ im.px x y c := by exact_mod_cast g1
  have g2' : (im.px x y c : Int) < out.px x y c + 1 := by exact_mod_cast g2
  omega

example : (sharpen3x3 (ι := Unit) ⟨3, 3, fun x y _ => if x = 1 ∧ y = 1 then 20 else 10⟩).map
    (fun o => (Image.mk o.w o.h fun x y => o.px x y ()).rows) =
    some [[10, 0, 10], [0, 60, 0], [10, 0, 10]] := by decide
example : (sharpenGaussian (ι := Unit) (fun i => if i = 0 then 6 else 1) 1
    ⟨3, 1, fun x _ _ => if x = 1 then 80 else 8⟩ (1 / 2)).map
    (fun o => (Image.mk o.w o.h fun x y => o.px x y ()).rows) = some [[3, 89, 3]] := by decide +kernel

end Verif.Filter
