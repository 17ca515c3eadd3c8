import Verif.Integral.Model
import Verif.Integral.Spec
import Mathlib.Tactic.Ring
import Mathlib.Tactic.Linarith
/- Lemmas about integral images. -/
namespace Verif.Integral
open Finset

theorem prefixSum_succ {α M : Type _} [AddCommMonoid M] (im : Image α) (val : α → M) (x y : Nat) :
    prefixSum im val x (y + 1) = prefixSum im val x y + ∑ i ∈ range x, val (im.px i y) := by
  simp [prefixSum, sum_range_succ]

theorem prefixSum_zero_left {α M : Type _} [AddCommMonoid M] (im : Image α) (val : α → M)
    (y : Nat) : prefixSum im val 0 y = 0 := by simp [prefixSum]

theorem prefixSum_zero_right {α M : Type _} [AddCommMonoid M] (im : Image α) (val : α → M)
    (x : Nat) : prefixSum im val x 0 = 0 := by simp [prefixSum]

theorem integralRow {α M : Type _} [AddCommMonoid M] (im : Image α) (val : α → M) (y : Nat)
    (hy : y < im.h) (out : Image M) (ow : out.w = im.w + 1) (oh : out.h = im.h + 1)
    (ho : ∀ a b, a ≤ im.w → out.px a b = if b ≤ y then prefixSum im val a b else 0) :
    ∃ st, forRange 0 im.w (out, (0 : M)) (integralStep im val y) = some st ∧
      st.1.w = im.w + 1 ∧ st.1.h = im.h + 1 ∧
      (∀ a b, a ≤ im.w → st.1.px a b = if b ≤ y + 1 then prefixSum im val a b else 0) := by
  obtain ⟨st, e, h1, h2, h3, h4⟩ := forRange_spec (f := integralStep im val y)
    (fun x (st : Image M × M) => st.1.w = im.w + 1 ∧ st.1.h = im.h + 1 ∧
      st.2 = ∑ i ∈ range x, val (im.px i y) ∧
      ∀ a b, a ≤ im.w → st.1.px a b =
        if b ≤ y ∨ (b = y + 1 ∧ a ≤ x) then prefixSum im val a b else 0)
    (lo := 0) (hi := im.w) (s := (out, (0 : M))) (by omega)
    ⟨ow, oh, by simp, by
      intro a b ha
      rw [ho a b ha]
      by_cases hb : b ≤ y
      · simp [hb]
      · rw [if_neg hb]
        split
        · next h =>
          have : a = 0 := by omega
          rw [this, prefixSum_zero_left]
        · rfl⟩
    (by
      intro x st _ hx ⟨h1, h2, h3, h4⟩
      simp only [integralStep]
      rw [Image.get_of_inB hx hy, Option.bind_some,
        Image.get_of_inB (by omega) (by omega), Option.bind_some,
        Image.put_of_inB _ (by omega) (by omega), Option.map_some]
      refine ⟨_, rfl, h1, h2, ?_, ?_⟩
      · dsimp only; rw [h3, sum_range_succ]
      · intro a b ha
        dsimp only
        by_cases hab : a = x + 1 ∧ b = y + 1
        · rw [if_pos hab, if_pos (by omega), h4 (x + 1) y (by omega), if_pos (by omega), h3,
            hab.1, hab.2, prefixSum_succ, sum_range_succ]
        · rw [if_neg hab, h4 a b ha]
          by_cases hc : b ≤ y ∨ (b = y + 1 ∧ a ≤ x)
          · rw [if_pos hc, if_pos (by omega)]
          · rw [if_neg hc, if_neg (by omega)])
  refine ⟨st, e, h1, h2, ?_⟩
  intro a b ha
  rw [h4 a b ha]
  by_cases hc : b ≤ y + 1
  · rw [if_pos hc, if_pos (by omega)]
  · rw [if_neg hc, if_neg (by omega)]

theorem integralImage_spec {α M : Type _} [AddCommMonoid M] (im : Image α) (val : α → M) :
    ∃ out, integralImage im val = some out ∧ out.w = im.w + 1 ∧ out.h = im.h + 1 ∧
      ∀ x y, x ≤ im.w → y ≤ im.h → out.px x y = prefixSum im val x y := by
  unfold integralImage
  dsimp only
  split
  · next h0 =>
    refine ⟨_, rfl, rfl, rfl, ?_⟩
    intro x y hx hy
    have : x = 0 ∨ y = 0 := by omega
    rcases this with rfl | rfl
    · rw [prefixSum_zero_left]; rfl
    · rw [prefixSum_zero_right]; rfl
  · obtain ⟨out, e, h1, h2, h3⟩ := forRange_spec
      (f := fun y out => (forRange 0 im.w (out, (0 : M)) (integralStep im val y)).map Prod.fst)
      (fun y (out : Image M) => out.w = im.w + 1 ∧ out.h = im.h + 1 ∧
        ∀ a b, a ≤ im.w → out.px a b = if b ≤ y then prefixSum im val a b else 0)
      (lo := 0) (hi := im.h) (s := Image.new (im.w + 1) (im.h + 1) (0 : M)) (by omega)
      ⟨rfl, rfl, by
        intro a b _
        split
        · next h =>
          have : b = 0 := by omega
          rw [this, prefixSum_zero_right]; rfl
        · rfl⟩
      (by
        intro y s _ hy ⟨h1, h2, h3⟩
        obtain ⟨st, e, h⟩ := integralRow im val y hy s h1 h2 h3
        exact ⟨st.1, by rw [e]; rfl, h⟩)
    refine ⟨out, e, h1, h2, ?_⟩
    intro x y hx hy
    rw [h3 x y hx, if_pos hy]

theorem row_split {M : Type _} [AddCommMonoid M] (f : Nat → M) {l r : Nat} (h : l ≤ r + 1) :
    ∑ i ∈ range (r + 1), f i = ∑ i ∈ range l, f i + ∑ i ∈ Icc l r, f i := by
  rw [← Finset.sum_range_add_sum_Ico f h]
  rfl

theorem prefix_inclusion {α : Type _} (im : Image α) (val : α → Nat) {l t r b : Nat}
    (hl : l ≤ r + 1) (ht : t ≤ b + 1) :
    prefixSum im val (r + 1) (b + 1) + prefixSum im val l t =
      rectSum im val l t r b + prefixSum im val (r + 1) t + prefixSum im val l (b + 1) := by
  unfold prefixSum rectSum
  rw [row_split (fun j => ∑ i ∈ range (r + 1), val (im.px i j)) ht,
    row_split (fun j => ∑ i ∈ range l, val (im.px i j)) ht]
  have : ∑ j ∈ Icc t b, ∑ i ∈ range (r + 1), val (im.px i j) =
      ∑ j ∈ Icc t b, ∑ i ∈ range l, val (im.px i j) +
        ∑ j ∈ Icc t b, ∑ i ∈ Icc l r, val (im.px i j) := by
    rw [← Finset.sum_add_distrib]
    exact Finset.sum_congr rfl fun j _ => row_split _ hl
  rw [this]
  ring

theorem prefixSum_mono {α : Type _} (im : Image α) (val : α → Nat) {x y x' y' : Nat}
    (hx : x ≤ x') (hy : y ≤ y') : prefixSum im val x y ≤ prefixSum im val x' y' := by
  unfold prefixSum
  calc ∑ j ∈ range y, ∑ i ∈ range x, val (im.px i j)
      ≤ ∑ j ∈ range y, ∑ i ∈ range x', val (im.px i j) :=
        Finset.sum_le_sum fun j _ => Finset.sum_le_sum_of_subset (Finset.range_mono hx)
    _ ≤ _ := Finset.sum_le_sum_of_subset (Finset.range_mono hy)

/-- What an integral table is, as far as lookups are concerned. -/
def IsIntegral {α : Type _} (im : Image α) (val : α → Nat) (I : Image Nat) : Prop :=
  I.w = im.w + 1 ∧ I.h = im.h + 1 ∧
    ∀ x y, x ≤ im.w → y ≤ im.h → I.px x y = prefixSum im val x y

theorem sumImagePixels_spec {α : Type _} (im : Image α) (val : α → Nat) (I : Image Nat)
    (hI : IsIntegral im val I) {bound l t r b : Nat} (hl : l ≤ r) (hr : r < im.w) (ht : t ≤ b)
    (hb : b < im.h)
    (hbound : prefixSum im val (r + 1) (b + 1) + prefixSum im val l t < bound) :
    sumImagePixels bound I l t r b = some (rectSum im val l t r b) := by
  obtain ⟨iw, ih, ip⟩ := hI
  have key := prefix_inclusion im val (l := l) (t := t) (r := r) (b := b) (by omega) (by omega)
  unfold sumImagePixels
  rw [Image.get_of_inB (by omega) (by omega), Image.get_of_inB (by omega) (by omega),
    Image.get_of_inB (by omega) (by omega), Image.get_of_inB (by omega) (by omega),
    ip _ _ (by omega) (by omega), ip _ _ (by omega) (by omega), ip _ _ (by omega) (by omega),
    ip _ _ (by omega) (by omega)]
  simp only [Option.bind_some, cadd, hbound, if_true, csub]
  rw [if_pos (by omega), Option.bind_some, if_pos (by omega)]
  congr 1
  omega

/-- Partial sums of a sequence. -/
theorem sumLoop_spec (lo hi n : Nat) (f : Nat → Option Nat) (g : Nat → Nat) (st : Buf × Nat)
    (hle : lo ≤ hi) (hn : st.1.len = n) (hhi : hi ≤ n) (hf : ∀ i, lo ≤ i → i < hi → f i = some (g i))
    (h0 : st.2 = ∑ i ∈ range lo, g i) (hb : ∀ k, k < lo → st.1.at' k = ∑ i ∈ range (k + 1), g i) :
    ∃ st', sumLoop lo hi f st = some st' ∧ st'.1.len = n ∧ st'.2 = ∑ i ∈ range hi, g i ∧
      ∀ k, k < hi → st'.1.at' k = ∑ i ∈ range (k + 1), g i := by
  refine forRange_spec (fun i (st : Buf × Nat) => st.1.len = n ∧ st.2 = ∑ j ∈ range i, g j ∧
      ∀ k, k < i → st.1.at' k = ∑ j ∈ range (k + 1), g j) hle ⟨hn, h0, hb⟩ ?_
  intro i s h1 h2 ⟨h3, h4, h5⟩
  rw [hf i h1 h2]
  simp only [Option.bind_some, Buf.set, h3]
  rw [if_pos (by omega)]
  refine ⟨_, rfl, rfl, ?_, ?_⟩
  · simp only; rw [h4, sum_range_succ]
  · intro k hk
    simp only
    by_cases hki : k = i
    · rw [if_pos hki, hki, h4, sum_range_succ]
    · rw [if_neg hki]; exact h5 k (by omega)

end Verif.Integral
