import Verif.Contrast.Model
import Verif.Stats.Props
import Verif.Contrast.Otsu
/- Property theorems C18 (histogram equalisation) and C19 (histogram matching). -/
namespace Verif.Contrast
open Finset Verif.Stats

/-- C18: every pixel of value `v` becomes the floor of `255` times the fraction of pixels `≤ v`. -/
theorem C18_equalize (im : Image Nat) (h8 : Is8 im) :
    ∃ out, equalize im = some out ∧ out.w = im.w ∧ out.h = im.h ∧
      ∀ x y, x < im.w → y < im.h →
        out.px x y = 255 * countPx im (· ≤ im.px x y) / (im.w * im.h) := by
  obtain ⟨cum, e, hc⟩ := C12_cumulative_histogram 1 (gray im) (is8c_gray h8)
  have hc' : ∀ v, v < 256 → cum 0 v = countPx im (· ≤ v) := fun v hv => hc 0 v (by omega) hv
  unfold equalize
  rw [e]
  refine ⟨_, rfl, rfl, rfl, ?_⟩
  intro x y hx hy
  dsimp only
  rw [hc' _ (h8 x y hx hy), hc' 255 (by omega), countPx_all im (· ≤ 255)
    (fun a b ha hb => by have := h8 a b ha hb; omega)]
  have hpos : 0 < im.w * im.h := Nat.mul_pos (by omega) (by omega)
  have hle : countPx im (· ≤ im.px x y) ≤ im.w * im.h := countPx_le im _
  rw [min_eq_right]
  · rw [← mul_div_assoc, show (255 : ℚ) * (countPx im (· ≤ im.px x y) : ℚ) =
      ((255 * countPx im (· ≤ im.px x y) : Nat) : ℚ) by push_cast; rfl,
      Rat.floor_natCast_div_natCast]
    rfl
  · have h1 : (0 : ℚ) < ((im.w * im.h : Nat) : ℚ) := by exact_mod_cast hpos
    have h2 : (countPx im (· ≤ im.px x y) : ℚ) ≤ ((im.w * im.h : Nat) : ℚ) := by exact_mod_cast hle
    have h3 : (countPx im (· ≤ im.px x y) : ℚ) / ((im.w * im.h : Nat) : ℚ) ≤ 1 := by
      rw [div_le_one h1]; exact h2
    linarith

/-- C18: results stay in `0..255`, order of pixels is preserved, and a brightest pixel becomes
255. -/
theorem C18_monotone_and_full (im out : Image Nat) (h8 : Is8 im) (he : equalize im = some out) :
    (∀ x y, x < im.w → y < im.h → out.px x y ≤ 255) ∧
    (∀ x y x' y', x < im.w → y < im.h → x' < im.w → y' < im.h →
      im.px x y ≤ im.px x' y' → out.px x y ≤ out.px x' y') ∧
    (∀ x y, x < im.w → y < im.h → (∀ x' y', x' < im.w → y' < im.h → im.px x' y' ≤ im.px x y) →
      out.px x y = 255) := by
  obtain ⟨out', e, _, _, hp⟩ := C18_equalize im h8
  rw [he] at e; cases e
  refine ⟨?_, ?_, ?_⟩
  · intro x y hx hy
    rw [hp x y hx hy]
    refine Nat.div_le_of_le_mul ?_
    rw [Nat.mul_comm]
    exact Nat.mul_le_mul_right _ (countPx_le im _)
  · intro x y x' y' hx hy hx' hy' h
    rw [hp x y hx hy, hp x' y' hx' hy']
    exact Nat.div_le_div_right (Nat.mul_le_mul_left _ (count_mono im h))
  · intro x y hx hy h
    rw [hp x y hx hy, countPx_all im _ h]
    exact Nat.mul_div_cancel _ (Nat.mul_pos (by omega) (by omega))

example : (equalize (Image.ofRows 0 [[1, 2], [2, 9]])).map Image.rows =
    some [[63, 191], [191, 255]] := by decide +kernel

/-- Fraction of the pixels of `im` that are at most `v`. -/
def fraction (im : Image Nat) (v : Nat) : ℚ := (countPx im (· ≤ v) : ℚ) / ((im.w * im.h : Nat) : ℚ)

theorem fraction_mono (im : Image Nat) {u v : Nat} (h : u ≤ v) : fraction im u ≤ fraction im v := by
  unfold fraction
  apply div_le_div_of_nonneg_right _ (by positivity)
  exact_mod_cast count_mono im h

theorem fraction_255 (im : Image Nat) (h8 : Is8 im) (hw : 0 < im.w) (hh : 0 < im.h) :
    fraction im 255 = 1 := by
  unfold fraction
  rw [countPx_all im (· ≤ 255) (fun a b ha hb => by have := h8 a b ha hb; omega)]
  have : ((im.w * im.h : Nat) : ℚ) ≠ 0 := by exact_mod_cast (Nat.mul_pos hw hh).ne'
  exact div_self this

theorem fraction_le_one (im : Image Nat) (hw : 0 < im.w) (hh : 0 < im.h) (v : Nat) :
    fraction im v ≤ 1 := by
  unfold fraction
  have : (0 : ℚ) < ((im.w * im.h : Nat) : ℚ) := by exact_mod_cast (Nat.mul_pos hw hh)
  rw [div_le_one this]
  exact_mod_cast countPx_le im _

/-- The inner `while`: ends at the first index `≥ y` whose target reaches the source. -/
theorem lutAdvance_spec (T : Nat → ℚ) (S : ℚ) (hT : S ≤ T 255) :
    ∀ k y prev, y ≤ 255 → 255 ≤ y + k → (0 < y → prev = T (y - 1)) →
      ∃ z pz, lutAdvance T S k (y, prev) = (z, pz) ∧ y ≤ z ∧ z ≤ 255 ∧ S ≤ T z ∧
        (∀ j, y ≤ j → j < z → T j < S) ∧ (0 < z → pz = T (z - 1))
  | 0, y, prev, h1, h2, h3 => by
    have : y = 255 := by omega
    subst this
    exact ⟨255, prev, rfl, by omega, by omega, hT, by intro j; omega, h3⟩
  | k + 1, y, prev, h1, h2, h3 => by
    unfold lutAdvance
    by_cases hc : S > T y ∧ y < 255
    · rw [if_pos hc]
      obtain ⟨z, pz, e, a, b, c, d, f⟩ := lutAdvance_spec T S hT k (y + 1) (T y) (by omega)
        (by omega) (by intro _; simp)
      refine ⟨z, pz, e, by omega, b, c, ?_, f⟩
      intro j hj1 hj2
      by_cases hj : j = y
      · subst hj; exact hc.1
      · exact d j (by omega) hj2
    · rw [if_neg hc]
      refine ⟨y, prev, rfl, le_refl _, h1, ?_, by intro j; omega, h3⟩
      by_contra hlt
      have : ¬ y < 255 := fun h => hc ⟨not_le.1 hlt, h⟩
      have : y = 255 := by omega
      subst this
      exact hlt hT

/-- The scan of `histogram_lut` over monotone fractions. -/
theorem lut_spec (S T : Nat → ℚ) (hS : ∀ u v, u ≤ v → v < 256 → S u ≤ S v)
    (hT : ∀ u v, u ≤ v → v < 256 → T u ≤ T v)
    (hS1 : ∀ v, v < 256 → S v ≤ 1) (hT1 : T 255 = 1) :
    ∃ lut, (forRange 0 256 ((0, 0), fun _ => 0) fun s (st : (Nat × ℚ) × (Nat → Nat)) =>
      let (y, prev) := lutAdvance T (S s) 255 st.1
      let v := if y = 0 then y
        else if |prev - S s| < |T y - S s| then y - 1 else y
      some ((y, prev), fun i => if i = s then v else st.2 i)).map Prod.snd = some lut ∧
    (∀ s, s < 256 → lut s < 256 ∧ ∀ v, v < 256 → |T (lut s) - S s| ≤ |T v - S s|) ∧
    ∀ s s', s ≤ s' → s' < 256 → lut s ≤ lut s' := by
  obtain ⟨st, e, hst⟩ := forRange_spec (lo := 0) (hi := 256)
    (s := (((0 : Nat), (0 : ℚ)), fun _ : Nat => (0 : Nat)))
    (f := fun s (st : (Nat × ℚ) × (Nat → Nat)) =>
      let (y, prev) := lutAdvance T (S s) 255 st.1
      let v := if y = 0 then y
        else if |prev - S s| < |T y - S s| then y - 1 else y
      some ((y, prev), fun i => if i = s then v else st.2 i))
    (fun k st => st.1.1 ≤ 255 ∧ (0 < st.1.1 → st.1.2 = T (st.1.1 - 1)) ∧
      (∀ j, j < st.1.1 → ∀ s, k ≤ s + 1 → s < 256 → T j < S s) ∧
      (∀ s, s < k → st.2 s < 256 ∧ ∀ v, v < 256 → |T (st.2 s) - S s| ≤ |T v - S s|) ∧
      (∀ s s', s ≤ s' → s' < k → st.2 s ≤ st.2 s') ∧
      (∀ s, s < k → st.2 s ≤ st.1.1 ∧ (st.2 s = st.1.1 → 0 < st.1.1 →
        |T st.1.1 - S s| ≤ |T (st.1.1 - 1) - S s|)))
    (by omega) (by simp)
    (by
      rintro k ⟨⟨y, prev⟩, lut⟩ _ hk ⟨h1, h2, h3, h4, h5, h6⟩
      dsimp only at h1 h2 h3 h4 h5 h6 ⊢
      obtain ⟨z, pz, ez, a, b, c, d, f⟩ := lutAdvance_spec T (S k) (by rw [hT1]; exact hS1 k hk) 255 y
        prev h1 (by omega) h2
      rw [ez]
      have hlow : ∀ j, j < z → T j < S k := by
        intro j hj
        by_cases hjy : j < y
        · exact h3 j hjy k (by omega) hk
        · exact d j (by omega) hj
      -- the value written
      obtain ⟨v, hv⟩ : ∃ v, v = (if z = 0 then z
        else if |pz - S k| < |T z - S k| then z - 1 else z) := ⟨_, rfl⟩
      have hvz : v = z ∨ (v + 1 = z ∧ |T v - S k| < |T z - S k|) := by
        by_cases h0 : z = 0
        · left; rw [hv, if_pos h0]
        · rw [if_neg h0] at hv
          by_cases hlt : |pz - S k| < |T z - S k|
          · right
            rw [if_pos hlt] at hv
            rw [f (by omega)] at hlt
            subst hv
            exact ⟨by omega, hlt⟩
          · left; rw [hv, if_neg hlt]
      have hvz2 : v = z → 0 < z → |T z - S k| ≤ |T (z - 1) - S k| := by
        intro e1 e2
        rw [if_neg (by omega)] at hv
        by_cases hlt : |pz - S k| < |T z - S k|
        · rw [if_pos hlt] at hv; omega
        · rw [f e2] at hlt; exact not_lt.1 hlt
      have hopt : ∀ u, u < 256 → |T v - S k| ≤ |T u - S k| := by
        intro u hu
        have key : |T v - S k| ≤ |T z - S k| ∧ (0 < z → |T v - S k| ≤ |T (z - 1) - S k|) := by
          rcases hvz with e1 | ⟨e1, e2⟩
          · subst e1; exact ⟨le_refl _, fun h => hvz2 rfl h⟩
          · refine ⟨e2.le, fun _ => ?_⟩
            rw [show z - 1 = v by omega]
        by_cases huz : u < z
        · refine (key.2 (by omega)).trans ?_
          have e1 := hT u (z - 1) (by omega) (by omega)
          have e2 := hlow (z - 1) (by omega)
          rw [abs_of_nonpos (by linarith), abs_of_nonpos (by linarith)]
          linarith
        · refine key.1.trans ?_
          have e1 := hT z u (by omega) hu
          rw [abs_of_nonneg (by linarith), abs_of_nonneg (by linarith)]
          linarith
      refine ⟨_, rfl, b, f, ?_, ?_, ?_, ?_⟩
      · intro j hj s hs hs'
        exact (hlow j hj).trans_le (hS k s (by omega) hs')
      · intro s hs
        dsimp only
        rw [← hv]
        by_cases hsk : s = k
        · subst hsk; rw [if_pos rfl]; exact ⟨by omega, hopt⟩
        · rw [if_neg hsk]; exact h4 s (by omega)
      · intro s s' hss hs'
        dsimp only
        rw [← hv]
        by_cases hsk : s' = k
        · subst hsk
          rw [if_pos rfl]
          by_cases hs : s = s'
          · rw [if_pos hs]
          · rw [if_neg hs]
            obtain ⟨q1, q2⟩ := h6 s (by omega)
            rcases hvz with e1 | ⟨e1, e2⟩
            · omega
            · by_cases hyz : y < z
              · omega
              · have hyz : y = z := by omega
                subst hyz
                by_cases hq : lut s = y
                · exfalso
                  have q3 := q2 hq (by omega)
                  rw [show y - 1 = v by omega] at q3
                  have m1 := hS s s' hss hk
                  have m2 := hlow v (by omega)
                  have m3 : T v < S s ∨ S s ≤ T v := lt_or_ge _ _
                  have m4 := hT v y (by omega) (by omega)
                  rw [abs_of_nonpos (show T v - S s' ≤ 0 by linarith),
                    abs_of_nonneg (show 0 ≤ T y - S s' by linarith)] at e2
                  rw [abs_of_nonneg (show 0 ≤ T y - S s by linarith)] at q3
                  rcases m3 with m3 | m3
                  · rw [abs_of_nonpos (show T v - S s ≤ 0 by linarith)] at q3
                    linarith
                  · rw [abs_of_nonneg (show 0 ≤ T v - S s by linarith)] at q3
                    linarith
                · omega
        · rw [if_neg hsk, if_neg (by omega)]; exact h5 s s' hss (by omega)
      · intro s hs
        dsimp only
        rw [← hv]
        by_cases hsk : s = k
        · subst hsk; rw [if_pos rfl]
          refine ⟨by omega, hvz2⟩
        · rw [if_neg hsk]
          obtain ⟨q1, q2⟩ := h6 s (by omega)
          refine ⟨by omega, ?_⟩
          intro e1 e2
          have : y = z := by omega
          subst this
          exact q2 e1 e2)
  obtain ⟨_, _, _, h4, h5, _⟩ := hst
  exact ⟨st.2, by rw [e]; rfl, h4, h5⟩

/-- C19: matching sends every pixel of value `v` to a level whose cumulative fraction in the
target image is as close as possible to the cumulative fraction of `v` in the source, and it
preserves the order of pixels. -/
theorem C19_match_histogram (im target : Image Nat) (h8 : Is8 im) (h8t : Is8 target)
    (hw : 0 < im.w) (hh : 0 < im.h) (htw : 0 < target.w) (hth : 0 < target.h) :
    ∃ out, matchHistogram im target = some out ∧ out.w = im.w ∧ out.h = im.h ∧
      (∀ x y, x < im.w → y < im.h → out.px x y < 256 ∧ ∀ v, v < 256 →
        |fraction target (out.px x y) - fraction im (im.px x y)| ≤
        |fraction target v - fraction im (im.px x y)|) ∧
      ∀ x y x' y', x < im.w → y < im.h → x' < im.w → y' < im.h → im.px x y ≤ im.px x' y' →
        out.px x y ≤ out.px x' y' := by
  obtain ⟨a, ea, ha⟩ := C12_cumulative_histogram 1 (gray im) (is8c_gray h8)
  obtain ⟨b, eb, hb⟩ := C12_cumulative_histogram 1 (gray target) (is8c_gray h8t)
  have ha' : ∀ v, v < 256 → a 0 v = countPx im (· ≤ v) := fun v hv => ha 0 v (by omega) hv
  have hb' : ∀ v, v < 256 → b 0 v = countPx target (· ≤ v) := fun v hv => hb 0 v (by omega) hv
  have hat : a 0 255 = im.w * im.h := by
    rw [ha' 255 (by omega)]
    exact countPx_all im _ (fun a b ha hb => by have := h8 a b ha hb; omega)
  have hbt : b 0 255 = target.w * target.h := by
    rw [hb' 255 (by omega)]
    exact countPx_all target _ (fun a b ha hb => by have := h8t a b ha hb; omega)
  have eS : ∀ v, v < 256 → (a 0 v : ℚ) / (a 0 255 : ℚ) = fraction im v := by
    intro v hv; rw [ha' v hv, hat]; rfl
  have eT : ∀ v, v < 256 → (b 0 v : ℚ) / (b 0 255 : ℚ) = fraction target v := by
    intro v hv; rw [hb' v hv, hbt]; rfl
  obtain ⟨lut, e, h1, h2⟩ := lut_spec (fun v => (a 0 v : ℚ) / (a 0 255 : ℚ))
    (fun v => (b 0 v : ℚ) / (b 0 255 : ℚ))
    (by
      intro u v huv hv
      rw [eS u (by omega), eS v hv]; exact fraction_mono im huv)
    (by
      intro u v huv hv
      rw [eT u (by omega), eT v hv]; exact fraction_mono target huv)
    (by intro v hv; rw [eS v hv]; exact fraction_le_one im hw hh v)
    (by rw [eT 255 (by omega)]; exact fraction_255 target h8t htw hth)
  refine ⟨{ im with px := fun x y => lut (im.px x y) }, ?_, rfl, rfl, ?_, ?_⟩
  · unfold matchHistogram histogramLut
    rw [ea, eb]
    simp only [Option.bind_some]
    dsimp only at e
    rw [e]
    rfl
  · intro x y hx hy
    have hp := h8 x y hx hy
    obtain ⟨g1, g2⟩ := h1 _ hp
    refine ⟨g1, ?_⟩
    intro v hv
    have := g2 v hv
    dsimp only at this ⊢
    rw [eT _ g1, eT v hv, eS _ hp] at this
    exact this
  · intro x y x' y' hx hy hx' hy' hle
    exact h2 _ _ hle (h8 x' y' hx' hy')

example : (matchHistogram (Image.ofRows 0 [[1, 2], [2, 9]]) (Image.ofRows 0 [[7, 7, 30, 200]])).map
    Image.rows = some [[7, 30], [30, 200]] := by decide +kernel

end Verif.Contrast
