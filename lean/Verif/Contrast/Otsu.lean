import Verif.Contrast.Model
import Verif.Stats.Props
/- Property theorem C15 (Otsu level). -/
namespace Verif.Contrast
open Finset Verif.Stats

/-- Sum of the intensities of the pixels satisfying `P`. -/
def sumPx (im : Image Nat) (P : Nat → Prop) [DecidablePred P] : Nat :=
  ∑ p ∈ (allPx im.w im.h).filter (fun p => P (im.px p.1 p.2)), im.px p.1 p.2

/-- Between-class variance (times the squared number of pixels) of the split into pixels `≤ t`
and pixels `> t`: product of the class sizes times the squared difference of the class means. -/
def betweenClass (im : Image Nat) (t : Nat) : ℚ :=
  (countPx im (· ≤ t) : ℚ) * (countPx im (t < ·) : ℚ) *
    ((sumPx im (· ≤ t) : ℚ) / (countPx im (· ≤ t) : ℚ) -
     (sumPx im (t < ·) : ℚ) / (countPx im (t < ·) : ℚ)) ^ 2

theorem count_split (im : Image Nat) (t : Nat) :
    countPx im (· ≤ t) + countPx im (t < ·) = im.w * im.h := by
  unfold countPx
  simp only [← not_le]
  rw [card_filter_add_card_filter_not]
  simp [allPx]

theorem sum_split (im : Image Nat) (t : Nat) :
    sumPx im (· ≤ t) + sumPx im (t < ·) = ∑ p ∈ allPx im.w im.h, im.px p.1 p.2 := by
  unfold sumPx
  simp only [← not_le]
  rw [sum_filter_add_sum_filter_not]

theorem count_le_succ (im : Image Nat) (t : Nat) :
    countPx im (· ≤ t) = countPx im (· < t) + countPx im (· = t) := by
  unfold countPx
  rw [← card_union_of_disjoint, ← filter_or]
  · congr 1; ext p; simp only [mem_filter, and_congr_right_iff]; intros; omega
  · rw [disjoint_filter]; intros; omega

theorem sum_le_succ (im : Image Nat) (t : Nat) :
    sumPx im (· ≤ t) = sumPx im (· < t) + t * countPx im (· = t) := by
  unfold sumPx countPx
  have h : ∑ p ∈ (allPx im.w im.h).filter (fun p => im.px p.1 p.2 = t), im.px p.1 p.2 =
      t * ((allPx im.w im.h).filter (fun p => im.px p.1 p.2 = t)).card := by
    rw [sum_congr rfl (g := fun _ => t) (fun p hp => (mem_filter.1 hp).2), sum_const, smul_eq_mul,
      Nat.mul_comm]
  rw [← h, ← sum_union]
  · rw [← filter_or]
    congr 1; ext p; simp only [mem_filter, and_congr_right_iff]; intros; omega
  · rw [disjoint_filter]; intros; omega

theorem lt_succ_count (im : Image Nat) (t : Nat) :
    countPx im (· < t + 1) = countPx im (· ≤ t) := by
  unfold countPx; congr 1; ext p; simp only [mem_filter, and_congr_right_iff]; intros; omega

theorem lt_succ_sum (im : Image Nat) (t : Nat) :
    sumPx im (· < t + 1) = sumPx im (· ≤ t) := by
  unfold sumPx; congr 1; ext p; simp only [mem_filter, and_congr_right_iff]; intros; omega

theorem sum_eq_zero_of_count (im : Image Nat) (t : Nat) (h : countPx im (· ≤ t) = 0) :
    sumPx im (· ≤ t) = 0 := by
  unfold countPx at h
  unfold sumPx
  rw [card_eq_zero.1 h]; simp

theorem count_mono (im : Image Nat) {s t : Nat} (h : s ≤ t) :
    countPx im (· ≤ s) ≤ countPx im (· ≤ t) := by
  apply card_le_card
  intro p
  simp only [mem_filter]
  exact fun hp => ⟨hp.1, by omega⟩

theorem betweenClass_zero (im : Image Nat) (t : Nat)
    (h : countPx im (· ≤ t) = 0 ∨ countPx im (t < ·) = 0) : betweenClass im t = 0 := by
  unfold betweenClass
  rcases h with h | h <;> rw [h] <;> simp

theorem betweenClass_nonneg (im : Image Nat) (t : Nat) : 0 ≤ betweenClass im t := by
  unfold betweenClass; positivity

theorem sumPx_le (im : Image Nat) (P : Nat → Prop) [DecidablePred P] :
    sumPx im P ≤ ∑ p ∈ allPx im.w im.h, im.px p.1 p.2 :=
  sum_le_sum_of_subset (filter_subset _ _)

/-- The sum of all intensities is below `255` times the number of pixels. -/
theorem total_le (im : Image Nat) (h8 : Is8 im) :
    ∑ p ∈ allPx im.w im.h, im.px p.1 p.2 ≤ 255 * (im.w * im.h) := by
  have : (allPx im.w im.h).card = im.w * im.h := by simp [allPx]
  rw [← this, Nat.mul_comm, ← smul_eq_mul, ← sum_const]
  refine sum_le_sum fun p hp => ?_
  have := mem_allPx.1 hp
  have := h8 _ _ this.1 this.2
  omega

/-- The number of pixels fits in a `u32`, and so does, for every level, the level times the number of its pixels. -/
def OtsuFits (im : Image Nat) : Prop :=
  im.w * im.h < 2 ^ 32 ∧ ∀ v, v < 256 → v * countPx im (· = v) < 2 ^ 32

theorem otsuFits_of_small {im : Image Nat} (h : 255 * (im.w * im.h) < 2 ^ 32) : OtsuFits im :=
  ⟨by omega, fun v hv => lt_of_le_of_lt (Nat.mul_le_mul (by omega) (countPx_le im _)) h⟩

/-- What the scan knows after the bins below `t`. -/
structure OtsuInv (im : Image Nat) (W : Nat → ℚ) (t : Nat) (s : OtsuState) : Prop where
  bw : s.bw = countPx im (· < t)
  bsum : s.bsum = (sumPx im (· < t) : ℚ)
  best : s.best < 256
  nonneg : 0 ≤ s.largest
  zero : t = 0 → s.largest = 0 ∧ s.best = 0
  val : 0 < t → s.largest = W s.best
  max : ∀ u, u < t → W u ≤ s.largest
  first : ∀ u, u < s.best → W u < s.largest

/-- The scan finds the smallest maximiser of the computed variance `W`, if the sums are exact. -/
theorem otsuScan_spec (r : ℚ → ℚ) (hr : ∀ n : Nat, n < 2 ^ 40 → r (n : ℚ) = n)
    (val : Nat → Nat → ℚ → ℚ → ℚ) (W : Nat → ℚ) (im : Image Nat) (h8 : Is8 im)
    (hfit : OtsuFits im)
    (hW : ∀ t, 0 < countPx im (· ≤ t) → 0 < countPx im (t < ·) →
      W t = val (countPx im (· ≤ t)) (countPx im (t < ·)) (sumPx im (· ≤ t)) (sumPx im (t < ·)))
    (hW0 : ∀ t, countPx im (· ≤ t) = 0 ∨ countPx im (t < ·) = 0 → W t = 0) (hWn : ∀ t, 0 ≤ W t)
    (hist : Nat → Nat) (hh : ∀ v, hist v = countPx im (· = v)) :
    ∀ k t s, t + k = 256 → OtsuInv im W t s →
      ∃ o, otsuScanWith r val hist (im.w * im.h) ((∑ p ∈ allPx im.w im.h, im.px p.1 p.2 : Nat) : ℚ) k t s =
        some o ∧ o.best < 256 ∧ o.largest = W o.best ∧
        (∀ u, u < 256 → W u ≤ o.largest) ∧
        ∀ u, u < o.best → W u < o.largest
  | 0, t, s, ht, hI => ⟨s, rfl, hI.best, hI.val (by omega), fun u hu => hI.max u (by omega), hI.first⟩
  | k + 1, t, s, ht, hI => by
    have ebw : s.bw + hist t = countPx im (· ≤ t) := by rw [count_le_succ, hI.bw, hh]
    have hsplit := count_split im t
    have val' : W t ≤ s.largest → s.largest = W s.best := by
      intro hv
      rcases Nat.eq_zero_or_pos t with rfl | hpos
      · obtain ⟨z1, z2⟩ := hI.zero rfl
        rw [z1] at hv
        rw [z1, z2]
        exact le_antisymm (hWn 0) hv
      · exact hI.val hpos
    unfold otsuScanWith
    dsimp only
    rw [ebw]
    by_cases h0 : countPx im (· ≤ t) = 0
    · rw [if_pos h0]
      apply otsuScan_spec r hr val W im h8 hfit hW hW0 hWn hist hh k (t + 1) _ (by omega)
      have hz : W t = 0 := hW0 t (Or.inl h0)
      exact {
        bw := by rw [lt_succ_count]
        bsum := by
          rw [lt_succ_sum, hI.bsum]
          have h1 := sum_le_succ im t
          have h2 := sum_eq_zero_of_count im t h0
          have : sumPx im (· < t) = 0 := by omega
          rw [h2, this]
        best := hI.best
        nonneg := hI.nonneg
        zero := by intro h; omega
        val := fun _ => val' (hz.le.trans hI.nonneg)
        max := by
          intro u hu
          by_cases hut : u = t
          · subst hut
            rw [hz]
            exact hI.nonneg
          · exact hI.max u (by omega)
        first := hI.first }
    · rw [if_neg h0, csub_of_le (by omega), Option.bind_some]
      have efw : im.w * im.h - countPx im (· ≤ t) = countPx im (t < ·) := by omega
      rw [efw]
      by_cases h1 : countPx im (t < ·) = 0
      · rw [if_pos h1]
        refine ⟨_, rfl, hI.best, val' ((hW0 t (Or.inr h1)).le.trans hI.nonneg), ?_, hI.first⟩
        intro u hu
        by_cases hut : u < t
        · exact hI.max u hut
        · have hc := count_mono im (show t ≤ u by omega)
          have hs := count_split im u
          rw [hW0 u (Or.inr (by omega))]
          exact hI.nonneg
      · rw [if_neg h1, cmul32, if_pos, Option.bind_some]
        swap
        · rw [hh]; exact hfit.2 t (by omega)
        have ebs : s.bsum + ((t * hist t : Nat) : ℚ) = (sumPx im (· ≤ t) : ℚ) := by
          rw [sum_le_succ, hI.bsum, hh]; push_cast; rfl
        have efs : ((∑ p ∈ allPx im.w im.h, im.px p.1 p.2 : Nat) : ℚ) - (sumPx im (· ≤ t) : ℚ) =
            (sumPx im (t < ·) : ℚ) := by
          rw [← sum_split im t]; push_cast; ring
        have hle : sumPx im (· ≤ t) + sumPx im (t < ·) < 2 ^ 40 := by
          rw [sum_split]
          have := total_le im h8
          have := hfit.1
          omega
        rw [ebs, hr _ (by omega), efs, hr _ (by omega), ← hW t (by omega) (by omega)]
        change ∃ o, otsuScanWith r val hist (im.w * im.h) _ k (t + 1)
          (if W t > s.largest then
            ⟨countPx im (· ≤ t), (sumPx im (· ≤ t) : ℚ), W t, t⟩ else _) = _ ∧ _
        apply otsuScan_spec r hr val W im h8 hfit hW hW0 hWn hist hh k (t + 1) _ (by omega)
        by_cases hv : W t > s.largest
        · rw [if_pos hv]
          exact {
            bw := by rw [lt_succ_count]
            bsum := by rw [lt_succ_sum]
            best := by dsimp only; omega
            nonneg := hI.nonneg.trans hv.le
            zero := by intro h; omega
            val := fun _ => rfl
            max := by
              intro u hu
              by_cases hut : u = t
              · rw [hut]
              · exact (hI.max u (by omega)).trans hv.le
            first := fun u hu => (hI.max u hu).trans_lt hv }
        · rw [if_neg hv]
          exact {
            bw := by rw [lt_succ_count]
            bsum := by rw [lt_succ_sum]
            best := hI.best
            nonneg := hI.nonneg
            zero := by intro h; omega
            val := fun _ => val' (not_lt.1 hv)
            max := by
              intro u hu
              by_cases hut : u = t
              · rw [hut]; exact not_lt.1 hv
              · exact hI.max u (by omega)
            first := hI.first }

/-- The level returned for a computation of the variance with exact sums. -/
theorem otsuLevelWith_spec (r : ℚ → ℚ) (hr : ∀ n : Nat, n < 2 ^ 40 → r (n : ℚ) = n)
    (val : Nat → Nat → ℚ → ℚ → ℚ) (W : Nat → ℚ) (im : Image Nat) (h8 : Is8 im)
    (hfit : OtsuFits im)
    (hW : ∀ t, 0 < countPx im (· ≤ t) → 0 < countPx im (t < ·) →
      W t = val (countPx im (· ≤ t)) (countPx im (t < ·)) (sumPx im (· ≤ t)) (sumPx im (t < ·)))
    (hW0 : ∀ t, countPx im (· ≤ t) = 0 ∨ countPx im (t < ·) = 0 → W t = 0) (hWn : ∀ t, 0 ≤ W t) :
    ∃ l, otsuLevelWith r val im = some l ∧ l < 256 ∧ (∀ u, u < 256 → W u ≤ W l) ∧
      ∀ u, u < l → W u < W l := by
  obtain ⟨hist, e, hh⟩ := C12_histogram 1 (gray im) (is8c_gray h8)
  have hh' : ∀ v, hist 0 v = countPx im (· = v) := fun v => hh 0 v (by omega)
  unfold otsuLevelWith
  rw [e, Option.bind_some, cmul32, if_pos hfit.1, Option.bind_some]
  have hts : (forRange 0 256 (0 : ℚ) fun t sum =>
      (cmul32 t (hist 0 t)).map fun p => r (sum + (p : ℚ))) =
      some ((∑ p ∈ allPx im.w im.h, im.px p.1 p.2 : Nat) : ℚ) := by
    obtain ⟨s, e, hs⟩ := forRange_spec (lo := 0) (hi := 256) (s := (0 : ℚ))
      (f := fun t sum => (cmul32 t (hist 0 t)).map fun p => r (sum + (p : ℚ)))
      (fun t s => s = (sumPx im (· < t) : ℚ)) (by omega) (by simp [sumPx])
      (by
        intro t s _ ht hs
        have h3 : t * hist 0 t < 2 ^ 32 := by rw [hh']; exact hfit.2 t ht
        have hsz := hfit.1
        rw [cmul32, if_pos h3]
        refine ⟨_, rfl, ?_⟩
        have hle := le_trans (sumPx_le im (· ≤ t)) (total_le im h8)
        rw [lt_succ_sum, sum_le_succ] at *
        rw [hs, hh']
        change r ((sumPx im (· < t) : ℚ) + ((t * countPx im (· = t) : Nat) : ℚ)) = _
        rw [show (sumPx im (· < t) : ℚ) + ((t * countPx im (· = t) : Nat) : ℚ) =
          ((sumPx im (· < t) + t * countPx im (· = t) : Nat) : ℚ) by push_cast; rfl,
          hr _ (by omega)])
    rw [e, hs]
    congr 2
    unfold sumPx
    rw [filter_true_of_mem]
    intro p hp
    have := mem_allPx.1 hp
    exact h8 _ _ this.1 this.2
  rw [hts, Option.bind_some]
  obtain ⟨o, er, h1, h2, h3, h4⟩ := otsuScan_spec r hr val W im h8 hfit hW hW0 hWn (hist 0) hh' 256 0 ⟨0, 0, 0, 0⟩ (by omega)
    { bw := by simp [countPx]
      bsum := by simp [sumPx]
      best := by decide
      nonneg := le_refl _
      zero := fun _ => ⟨rfl, rfl⟩
      val := by intro h; omega
      max := by intro u hu; omega
      first := by intro u hu; exact absurd hu (Nat.not_lt_zero u) }
  refine ⟨o.best, by rw [er]; rfl, h1, ?_, ?_⟩
  · rw [← h2]; exact h3
  · rw [← h2]; exact h4

/-- C15: the Otsu level exists for every 8-bit image below 2^32/255 pixels, attains the maximum
of the between-class variance over all 256 levels and is the smallest level attaining it. -/
theorem C15_otsu (im : Image Nat) (h8 : Is8 im) (hfit : 255 * (im.w * im.h) < 2 ^ 32) :
    ∃ r, otsuLevel im = some r ∧ r < 256 ∧
      (∀ u, u < 256 → betweenClass im u ≤ betweenClass im r) ∧
      ∀ u, u < r → betweenClass im u < betweenClass im r :=
  otsuLevelWith_spec (fun x => x) (fun _ _ => rfl) otsuVal (betweenClass im) im h8 (otsuFits_of_small hfit)
    (fun _ _ _ => rfl) (betweenClass_zero im) (betweenClass_nonneg im)

/-- C15: in particular the level is 0 when no level separates anything. -/
theorem C15_otsu_zero (im : Image Nat) (h8 : Is8 im) (hfit : 255 * (im.w * im.h) < 2 ^ 32)
    (h : ∀ u, u < 256 → betweenClass im u = 0) : otsuLevel im = some 0 := by
  obtain ⟨r, e, h1, _, h3⟩ := C15_otsu im h8 hfit
  rcases Nat.eq_zero_or_pos r with rfl | hr
  · exact e
  · have := h3 0 hr
    rw [h 0 (by omega), h r h1] at this
    exact absurd this (lt_irrefl _)

example : otsuLevel (Image.ofRows 0 [[10, 12, 200], [11, 198, 10]]) = some 12 := by decide +kernel

/-- C15: the size condition is needed: on 16,843,010 white pixels the `u32` product overflows. -/
theorem C15_large_image_overflows (im : Image Nat) (hw : im.w = 16843010) (hh : im.h = 1)
    (hp : ∀ x y, x < im.w → y < im.h → im.px x y = 255) : otsuLevel im = none := by
  have h8 : Is8 im := fun x y hx hy => by rw [hp x y hx hy]; omega
  obtain ⟨hist, e, hh'⟩ := C12_histogram 1 (gray im) (is8c_gray h8)
  unfold otsuLevel otsuLevelWith
  rw [e, Option.bind_some, cmul32, hw, hh, if_pos (by norm_num), Option.bind_some]
  have h255 : hist 0 255 = 16843010 := by
    rw [hh' 0 255 (by omega)]
    have := countPx_all im (· = 255) hp
    rw [hw, hh] at this
    exact this
  have : (forRange 0 256 (0 : ℚ) fun t sum =>
      (cmul32 t (hist 0 t)).map fun p => sum + (p : ℚ)) = none := by
    rw [forRange_succ_last (by omega)]
    cases forRange 0 255 (0 : ℚ) fun t sum =>
      (cmul32 t (hist 0 t)).map fun p => sum + (p : ℚ) with
    | none => rfl
    | some s =>
      rw [Option.bind_some, h255, cmul32, if_neg (by norm_num)]
      rfl
  rw [this]
  rfl

end Verif.Contrast
