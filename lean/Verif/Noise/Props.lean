import Verif.Basic.Raster
import Verif.Definitions.Clamp
/-
Model and properties of src/noise.rs (C78, C84).  The random generator is an arbitrary stream of
samples, consumed in order; `f64` is replaced by exact rationals.
-/
namespace Verif.Noise
open Definitions

variable {α : Type _}

/-- `salt_and_pepper_noise_mut` (src/noise.rs:47-61).  The state carries the number of samples
drawn so far from the stream `rng`. -/
def saltAndPepper (im : Image α) (rate : ℚ) (white black : α) (rng : Nat → ℚ) :
    Option (Image α × Nat) :=
  forYX 0 im.h 0 im.w (im, 0) fun x y s =>
    if rng s.2 > rate then some (s.1, s.2 + 1)
    else (s.1.put x y (if rng (s.2 + 1) ≥ 1 / 2 then white else black)).map fun o => (o, s.2 + 2)

/-- `gaussian_noise_mut` (src/noise.rs:20-34) on a single-channel image with values `0..=mx`;
`normal.sample` is an arbitrary stream. -/
def gaussianNoise (mx : Nat) (im : Image Nat) (rng : Nat → ℚ) : Option (Image Nat × Nat) :=
  forYX 0 im.h 0 im.w (im, 0) fun x y s =>
    (s.1.get x y).bind fun c =>
    (s.1.put x y (clampQ 0 mx (c + rng s.2)).toNat).map fun o => (o, s.2 + 1)

/-- C78: for every random stream and rate the noise never fails, keeps the size, and every pixel
of the result is the old pixel, white or black. -/
theorem C78_salt_and_pepper (im : Image α) (rate : ℚ) (white black : α) (rng : Nat → ℚ) :
    ∃ out n, saltAndPepper im rate white black rng = some (out, n) ∧ out.w = im.w ∧ out.h = im.h ∧
      ∀ x y, x < im.w → y < im.h →
        out.px x y = im.px x y ∨ out.px x y = white ∨ out.px x y = black := by
  obtain ⟨⟨out, n⟩, e, h1, h2, h3⟩ := raster_spec (w := im.w) (h := im.h) (s := (im, 0))
    (f := fun x y (s : Image α × Nat) =>
      if rng s.2 > rate then some (s.1, s.2 + 1)
      else (s.1.put x y (if rng (s.2 + 1) ≥ 1 / 2 then white else black)).map fun o => (o, s.2 + 2))
    (fun _ s => s.1.w = im.w ∧ s.1.h = im.h ∧ ∀ x y, x < im.w → y < im.h →
        s.1.px x y = im.px x y ∨ s.1.px x y = white ∨ s.1.px x y = black)
    ⟨rfl, rfl, fun _ _ _ _ => Or.inl rfl⟩
    (by
      rintro x y S ⟨o, k⟩ hx hy _ ⟨h1, h2, h3⟩
      dsimp only at *
      split
      · exact ⟨_, rfl, h1, h2, h3⟩
      · rw [Image.put_of_inB _ (by omega) (by omega)]
        refine ⟨_, rfl, h1, h2, ?_⟩
        intro a b ha hb
        dsimp only
        split
        · split
          · exact Or.inr (Or.inl rfl)
          · exact Or.inr (Or.inr rfl)
        · exact h3 a b ha hb)
  exact ⟨out, n, e, h1, h2, h3⟩

/-- C78, in full: pixels are visited in raster order, each with fresh samples.  A pixel whose first
sample exceeds the rate is left alone and uses up that one sample; any other pixel uses up a second
one, and becomes white if that is at least one half and black if not. -/
theorem C78_exact (im : Image α) (rate : ℚ) (white black : α) (rng : Nat → ℚ) :
    ∃ (k : Nat → Nat) (out : Image α), k 0 = 0 ∧
      (∀ i, k (i + 1) = k i + if rate < rng (k i) then 1 else 2) ∧
      saltAndPepper im rate white black rng = some (out, k (im.w * im.h)) ∧ out.w = im.w ∧
      out.h = im.h ∧ ∀ x y, x < im.w → y < im.h → out.px x y =
        if rate < rng (k (y * im.w + x)) then im.px x y
        else if 1 / 2 ≤ rng (k (y * im.w + x) + 1) then white else black := by
  obtain ⟨k, hk0, hk⟩ : ∃ k : Nat → Nat, k 0 = 0 ∧
      ∀ i, k (i + 1) = k i + if rate < rng (k i) then 1 else 2 :=
    ⟨fun i => Nat.rec 0 (fun _ v => v + if rate < rng v then 1 else 2) i, rfl, fun _ => rfl⟩
  obtain ⟨⟨out, n⟩, e, h1, h2, h3, h4, _⟩ := forYX_spec
    (y0 := 0) (y1 := im.h) (x0 := 0) (x1 := im.w) (s := (im, 0))
    (f := fun x y (s : Image α × Nat) =>
      if rng s.2 > rate then some (s.1, s.2 + 1)
      else (s.1.put x y (if rng (s.2 + 1) ≥ 1 / 2 then white else black)).map fun o => (o, s.2 + 2))
    (fun x y (s : Image α × Nat) => s.1.w = im.w ∧ s.1.h = im.h ∧ s.2 = k (y * im.w + x) ∧
      (∀ a b, a < im.w → b < y ∨ b = y ∧ a < x → s.1.px a b =
        if rate < rng (k (b * im.w + a)) then im.px a b
        else if 1 / 2 ≤ rng (k (b * im.w + a) + 1) then white else black) ∧
      (∀ a b, y < b ∨ b = y ∧ x ≤ a → s.1.px a b = im.px a b))
    (Nat.zero_le _) (Nat.zero_le _)
    ⟨rfl, rfl, by simp [hk0], by omega, fun _ _ _ => rfl⟩
    (by
      rintro x y ⟨o, j⟩ _ hx _ hy ⟨h1, h2, h3, h4, h5⟩
      dsimp only at *
      have hs := hk (y * im.w + x)
      by_cases hr : rate < rng j
      · rw [if_pos hr]
        rw [if_pos (by rw [← h3]; exact hr)] at hs
        refine ⟨_, rfl, h1, h2, by dsimp only; rw [← Nat.add_assoc, hs, h3], ?_, ?_⟩
        · intro a b ha hab
          dsimp only
          by_cases hxy : a = x ∧ b = y
          · obtain ⟨rfl, rfl⟩ := hxy
            rw [if_pos (by rw [← h3]; exact hr), h5 a b (by omega)]
          · exact h4 a b ha (by omega)
        · exact fun a b hab => h5 a b (by omega)
      · rw [if_neg hr, Image.put_of_inB _ (by omega) (by omega)]
        rw [if_neg (by rw [← h3]; exact hr)] at hs
        refine ⟨_, rfl, h1, h2, by dsimp only; rw [← Nat.add_assoc, hs, h3], ?_, ?_⟩
        · intro a b ha hab
          dsimp only
          by_cases hxy : a = x ∧ b = y
          · obtain ⟨rfl, rfl⟩ := hxy
            rw [if_pos ⟨rfl, rfl⟩, ← h3, if_neg hr]
          · rw [if_neg hxy]; exact h4 a b ha (by omega)
        · intro a b hab
          dsimp only
          rw [if_neg (by omega)]
          exact h5 a b (by omega))
    (by
      rintro y ⟨o, j⟩ _ hy ⟨h1, h2, h3, h4, h5⟩
      dsimp only at *
      exact ⟨h1, h2, by rw [h3, Nat.succ_mul]; rfl, fun a b ha hab => h4 a b ha (by omega),
        fun a b hab => h5 a b (by omega)⟩)
  dsimp only at *
  refine ⟨k, out, hk0, hk, ?_, h1, h2, fun x y hx hy => h4 x y hx (Or.inl hy)⟩
  rw [Nat.mul_comm, show k (im.h * im.w) = n by rw [h3]; rfl]
  exact e

example : (saltAndPepper (⟨3, 1, fun _ _ => 7⟩ : Image Nat) (1/2) 255 0
    (fun i => [9/10, 1/10, 4/5, 2/5, 1/5].getD i 0)).map (fun r => (r.1.rows, r.2)) =
    some ([[7, 255, 0]], 5) := by decide +kernel

/-- C78 (partial for rate 0: the stream must not contain the sample 0, see the negation): if every
sample exceeds the rate the image is unchanged and one sample per pixel was drawn. -/
theorem C78_rate_zero_partial (im : Image α) (rate : ℚ) (white black : α) (rng : Nat → ℚ)
    (hr : ∀ k, rate < rng k) :
    ∃ n, saltAndPepper im rate white black rng = some (im, n) := by
  obtain ⟨⟨out, n⟩, e, h1⟩ := raster_spec (w := im.w) (h := im.h) (s := (im, 0))
    (f := fun x y (s : Image α × Nat) =>
      if rng s.2 > rate then some (s.1, s.2 + 1)
      else (s.1.put x y (if rng (s.2 + 1) ≥ 1 / 2 then white else black)).map fun o => (o, s.2 + 2))
    (fun _ s => s.1 = im) rfl
    (by
      rintro x y S ⟨o, k⟩ hx hy _ h1
      dsimp only at *
      rw [if_pos (hr k)]
      exact ⟨_, rfl, h1⟩)
  dsimp only at h1
  exact ⟨n, by unfold saltAndPepper; rw [e, h1]⟩

/-- C78: at rate at least 1 every pixel becomes white or black (samples are below 1). -/
theorem C78_rate_one (im : Image α) (rate : ℚ) (white black : α) (rng : Nat → ℚ)
    (hr : ∀ k, rng k ≤ rate) :
    ∃ out n, saltAndPepper im rate white black rng = some (out, n) ∧
      ∀ x y, x < im.w → y < im.h → out.px x y = white ∨ out.px x y = black := by
  obtain ⟨⟨out, n⟩, e, h1, h2, h3⟩ := raster_spec (w := im.w) (h := im.h) (s := (im, 0))
    (f := fun x y (s : Image α × Nat) =>
      if rng s.2 > rate then some (s.1, s.2 + 1)
      else (s.1.put x y (if rng (s.2 + 1) ≥ 1 / 2 then white else black)).map fun o => (o, s.2 + 2))
    (fun S s => s.1.w = im.w ∧ s.1.h = im.h ∧ ∀ x y, (x, y) ∈ S →
        s.1.px x y = white ∨ s.1.px x y = black)
    ⟨rfl, rfl, by simp⟩
    (by
      rintro x y S ⟨o, k⟩ hx hy _ ⟨h1, h2, h3⟩
      dsimp only at *
      rw [if_neg (not_lt.2 (hr k)), Image.put_of_inB _ (by omega) (by omega)]
      refine ⟨_, rfl, h1, h2, ?_⟩
      intro a b hab
      dsimp only
      by_cases hxy : a = x ∧ b = y
      · rw [if_pos hxy]
        split
        · exact Or.inl rfl
        · exact Or.inr rfl
      · rw [if_neg hxy]
        rw [Finset.mem_insert, Prod.mk.injEq] at hab
        exact h3 a b (hab.resolve_left hxy))
  exact ⟨out, n, e, fun x y hx hy => h3 x y (by simp [hx, hy])⟩

/-- C78 is false of the code at rate 0: the samples are uniform on `[0, 1)`, which includes 0, and
a sample equal to 0 is not greater than the rate. -/
theorem C78_negation_rate_zero :
    (saltAndPepper (⟨1, 1, fun _ _ => 7⟩ : Image Nat) 0 255 0 (fun _ => 0)).map (·.1.px 0 0) =
      some 0 := by decide +kernel

/-- C84: Gaussian noise keeps the size, draws one sample per pixel in raster order, and every
result is the clamped sum, hence in range. -/
theorem C84_gaussian_noise (mx : Nat) (im : Image Nat) (rng : Nat → ℚ) :
    ∃ out, gaussianNoise mx im rng = some (out, im.w * im.h) ∧ out.w = im.w ∧ out.h = im.h ∧
      ∀ x y, x < im.w → y < im.h →
        out.px x y = (clampQ 0 mx (im.px x y + rng (y * im.w + x))).toNat ∧ out.px x y ≤ mx := by
  obtain ⟨⟨out, n⟩, e, h1, h2, h3, h4, _⟩ := forYX_spec
    (y0 := 0) (y1 := im.h) (x0 := 0) (x1 := im.w) (s := (im, 0))
    (f := fun x y (s : Image Nat × Nat) =>
      (s.1.get x y).bind fun c =>
      (s.1.put x y (clampQ 0 mx (c + rng s.2)).toNat).map fun o => (o, s.2 + 1))
    (fun x y (s : Image Nat × Nat) => s.1.w = im.w ∧ s.1.h = im.h ∧ s.2 = y * im.w + x ∧
      (∀ a b, a < im.w → b < y ∨ b = y ∧ a < x →
        s.1.px a b = (clampQ 0 mx (im.px a b + rng (b * im.w + a))).toNat) ∧
      (∀ a b, y < b ∨ b = y ∧ x ≤ a → s.1.px a b = im.px a b))
    (Nat.zero_le _) (Nat.zero_le _)
    ⟨rfl, rfl, by simp, by omega, fun _ _ _ => rfl⟩
    (by
      rintro x y ⟨o, k⟩ _ hx _ hy ⟨h1, h2, h3, h4, h5⟩
      dsimp only at *
      rw [Image.get_of_inB (by omega) (by omega), Option.bind_some,
        Image.put_of_inB _ (by omega) (by omega)]
      refine ⟨_, rfl, h1, h2, by dsimp only; omega, ?_, ?_⟩
      · intro a b ha hab
        dsimp only
        by_cases hxy : a = x ∧ b = y
        · rw [if_pos hxy, hxy.1, hxy.2, h3, h5 x y (by omega)]
        · rw [if_neg hxy]; exact h4 a b ha (by omega)
      · intro a b hab
        dsimp only
        rw [if_neg (by omega)]
        exact h5 a b (by omega))
    (by
      rintro y ⟨o, k⟩ _ hy ⟨h1, h2, h3, h4, h5⟩
      dsimp only at *
      exact ⟨h1, h2, by rw [h3, Nat.succ_mul]; omega, fun a b ha hab => h4 a b ha (by omega),
        fun a b hab => h5 a b (by omega)⟩)
  dsimp only at *
  refine ⟨out, ?_, h1, h2, ?_⟩
  · rw [show im.w * im.h = n by rw [h3, Nat.mul_comm]; omega]; exact e
  · intro x y hx hy
    rw [h4 x y hx (Or.inl hy)]
    refine ⟨rfl, ?_⟩
    have := (C75_float_mono 0 mx (im.px x y + rng (y * im.w + x)) 0 (by omega)).2.2.2
    omega

/-- C84: noise that is constantly zero leaves an in-range image unchanged. -/
theorem C84_zero_noise (mx : Nat) (im : Image Nat) (hmx : ∀ x y, x < im.w → y < im.h → im.px x y ≤ mx) :
    ∃ out n, gaussianNoise mx im (fun _ => 0) = some (out, n) ∧ out.Same im := by
  obtain ⟨out, e, h1, h2, h3⟩ := C84_gaussian_noise mx im (fun _ => 0)
  refine ⟨out, _, e, h1, h2, ?_⟩
  intro x y hx hy
  rw [(h3 x y (by omega) (by omega)).1]
  have := (C75_float 0 mx ((im.px x y : ℚ) + 0) (by omega)).1 (im.px x y) (by push_cast; simp)
    (by omega) (by have := hmx x y (by omega) (by omega); omega)
  rw [this]; rfl

example : (saltAndPepper (⟨2, 1, fun x _ => x + 7⟩ : Image Nat) (1 / 10) 255 0
    (fun k => [1 / 2, 1 / 20, 3 / 4].getD k 1)).map (fun r => (r.1.rows, r.2)) =
    some ([[7, 255]], 3) := by decide +kernel
example : (gaussianNoise 255 (⟨2, 1, fun x _ => x + 7⟩ : Image Nat)
    (fun k => [1 / 2, -20].getD k 1)).map (fun r => (r.1.rows, r.2)) =
    some ([[7, 0]], 2) := by decide +kernel

end Verif.Noise
