import Verif.Float.Contrast
import Mathlib.Data.Finset.Max
/-
`match_histogram` in single precision (src/contrast.rs:413-463; model `matchHistogram32` in
Float/Contrast.lean): which level is chosen, matching twice, and matching an image to its own
histogram.  Property theorem C191.
-/
namespace Verif.Float
open Verif.Contrast Verif.Stats Finset

/-- The level for the fraction `q`: the first level `z` of the target whose fraction reaches `q`, or
the one below if its fraction is closer (distances computed in `f32`). -/
def IsLevel (T : Nat → ℚ) (q : ℚ) (v : Nat) : Prop :=
  ∃ z, z < 256 ∧ q ≤ T z ∧ (∀ j, j < z → T j < q) ∧
    v = if z = 0 then z else if |rnd32 (T (z - 1) - q)| < |rnd32 (T z - q)| then z - 1 else z

theorem IsLevel.unique {T : Nat → ℚ} {q : ℚ} {v v' : Nat} (h : IsLevel T q v) (h' : IsLevel T q v') :
    v = v' := by
  obtain ⟨z, -, a, b, rfl⟩ := h
  obtain ⟨z', -, a', b', rfl⟩ := h'
  have : z = z' := by
    rcases lt_trichotomy z z' with g | g | g
    · exact absurd (b' z g) (not_lt.2 a)
    · exact g
    · exact absurd (b z' g) (not_lt.2 a')
  rw [this]

/-- The scan of `histogram_lut` writes that level for every source fraction. -/
theorem lut_level (S T : Nat → ℚ) (hS : ∀ u v, u ≤ v → v < 256 → S u ≤ S v)
    (hS1 : ∀ v, v < 256 → S v ≤ 1) (hT1 : T 255 = 1) :
    ∃ lut, (forRange 0 256 ((0, 0), fun _ => 0) fun s (st : (Nat × ℚ) × (Nat → Nat)) =>
      let (y, prev) := lutAdvance T (S s) 255 st.1
      let v := if y = 0 then y
        else if |rnd32 (prev - S s)| < |rnd32 (T y - S s)| then y - 1 else y
      some ((y, prev), fun i => if i = s then v else st.2 i)).map Prod.snd = some lut ∧
    ∀ s, s < 256 → IsLevel T (S s) (lut s) := by
  obtain ⟨st, e, hst⟩ := forRange_spec (lo := 0) (hi := 256)
    (s := (((0 : Nat), (0 : ℚ)), fun _ : Nat => (0 : Nat)))
    (f := fun s (st : (Nat × ℚ) × (Nat → Nat)) =>
      let (y, prev) := lutAdvance T (S s) 255 st.1
      let v := if y = 0 then y
        else if |rnd32 (prev - S s)| < |rnd32 (T y - S s)| then y - 1 else y
      some ((y, prev), fun i => if i = s then v else st.2 i))
    (fun k st => st.1.1 ≤ 255 ∧ (0 < st.1.1 → st.1.2 = T (st.1.1 - 1)) ∧
      (∀ j, j < st.1.1 → ∀ s, k ≤ s + 1 → s < 256 → T j < S s) ∧
      (∀ s, s < k → IsLevel T (S s) (st.2 s)))
    (by omega) (by simp)
    (by
      rintro k ⟨⟨y, prev⟩, lut⟩ _ hk ⟨h1, h2, h3, h4⟩
      dsimp only at h1 h2 h3 h4 ⊢
      obtain ⟨z, pz, ez, a, b, c, d, f⟩ := Verif.Contrast.lutAdvance_spec T (S k)
        (by rw [hT1]; exact hS1 k hk) 255 y prev h1 (by omega) h2
      rw [ez]
      have hlow : ∀ j, j < z → T j < S k := by
        intro j hj
        by_cases hjy : j < y
        · exact h3 j hjy k (by omega) hk
        · exact d j (by omega) hj
      refine ⟨_, rfl, b, f, ?_, ?_⟩
      · intro j hj s hs hs'
        exact (hlow j hj).trans_le (hS k s (by omega) hs')
      · intro s hs
        dsimp only
        by_cases hsk : s = k
        · subst hsk
          rw [if_pos rfl]
          refine ⟨z, by omega, c, hlow, ?_⟩
          by_cases h0 : z = 0
          · rw [if_pos h0, if_pos h0]
          · rw [if_neg h0, if_neg h0, f (by omega)]
        · rw [if_neg hsk]; exact h4 s (by omega))
  exact ⟨st.2, by rw [e]; rfl, hst.2.2.2⟩

/-- Every pixel of a matched image has the level chosen for the pixel's fraction. -/
theorem match32_level (im target : Image Nat) (h8 : Is8 im) (h8t : Is8 target)
    (hw : 0 < im.w) (hh : 0 < im.h) (htw : 0 < target.w) (hth : 0 < target.h) :
    ∃ out, matchHistogram32 im target = some out ∧ out.w = im.w ∧ out.h = im.h ∧
      ∀ x y, im.InB x y → IsLevel (frac32 target) (frac32 im (im.px x y)) (out.px x y) := by
  obtain ⟨a, ea, ha⟩ := C12_cumulative_histogram 1 (gray im) (is8c_gray h8)
  obtain ⟨b, eb, hb⟩ := C12_cumulative_histogram 1 (gray target) (is8c_gray h8t)
  have ha' : ∀ v, v < 256 → a 0 v = countPx im (· ≤ v) := fun v hv => ha 0 v (by omega) hv
  have hb' : ∀ v, v < 256 → b 0 v = countPx target (· ≤ v) := fun v hv => hb 0 v (by omega) hv
  have hat : a 0 255 = im.w * im.h := by
    rw [ha' 255 (by omega)]
    exact countPx_all im _ (fun a b ha hb => by have := h8 a b ha hb; omega)
  have hbt : b 0 255 = target.w * target.h := by
    rw [hb' 255 (by omega)]
    exact countPx_all target _ (fun a b ha hb => by have := h8t a b ha hb; omega)
  have tp : 0 < im.w * im.h := Nat.mul_pos hw hh
  have ttp : 0 < target.w * target.h := Nat.mul_pos htw hth
  obtain ⟨lut, e, h1⟩ := lut_level
    (fun v => fraction32 (a 0 v) (a 0 255)) (fun v => fraction32 (b 0 v) (b 0 255))
    (by
      intro u v huv hv
      rw [ha' u (by omega), ha' v hv, hat]
      exact fraction32_mono tp (count_mono im huv))
    (by
      intro v hv
      rw [ha' v hv, hat]
      exact fraction32_le_one tp (countPx_le im _))
    (by rw [hbt]; exact fraction32_self ttp)
  refine ⟨{ im with px := fun x y => lut (im.px x y) }, ?_, rfl, rfl, ?_⟩
  · unfold matchHistogram32 histogramLut32
    rw [ea, eb]
    simp only [Option.bind_some]
    rw [e]
    rfl
  · intro x y hp
    have h9 := h8 x y hp.1 hp.2
    obtain ⟨z, hz, q1, q2, q3⟩ := h1 _ h9
    have eS : fraction32 (a 0 (im.px x y)) (a 0 255) = frac32 im (im.px x y) := by
      rw [ha' _ h9, hat]; rfl
    have eT : ∀ v, v < 256 → fraction32 (b 0 v) (b 0 255) = frac32 target v := fun v hv => by
      rw [hb' _ hv, hbt]; rfl
    simp only [eS, eT z hz, eT (z - 1) (by omega)] at q1 q2 q3
    refine ⟨z, hz, q1, fun j hj => by rw [← eT j (by omega)]; exact q2 j hj, ?_⟩
    show lut (im.px x y) = _
    exact q3

/-- Whether a level occurs in an image. -/
def Occurs (im : Image Nat) (v : Nat) : Prop := ∃ x y, im.InB x y ∧ im.px x y = v

theorem occurs_of_count_lt {im : Image Nat} {u v : Nat}
    (h : countPx im (· ≤ u) < countPx im (· ≤ v)) : ∃ s, u < s ∧ s ≤ v ∧ Occurs im s := by
  by_contra hn
  push Not at hn
  refine absurd h (not_lt.2 (card_le_card fun p hp => ?_))
  rw [mem_filter] at hp ⊢
  refine ⟨hp.1, ?_⟩
  by_contra hu
  exact hn (im.px p.1 p.2) (by omega) hp.2 ⟨p.1, p.2, (mem_allPx.1 hp.1), rfl⟩

theorem count_lt_of_occurs {im : Image Nat} {u v : Nat} (huv : u < v) (h : Occurs im v) :
    countPx im (· ≤ u) < countPx im (· ≤ v) := by
  obtain ⟨x, y, hp, rfl⟩ := h
  refine card_lt_card ⟨fun p hp => ?_, fun hs => ?_⟩
  · rw [mem_filter] at hp ⊢
    exact ⟨hp.1, by have := hp.2; omega⟩
  · have := hs (mem_filter.2 ⟨mem_allPx.2 (show ((x, y) : Nat × Nat).1 < im.w ∧ _ from hp), le_refl _⟩)
    have := (mem_filter.1 this).2
    dsimp only at this
    omega

/-- C191: matching again with the same target changes nothing, whatever the sizes of the images. -/
theorem C191_idempotent (im target : Image Nat) (h8 : Is8 im) (h8t : Is8 target)
    (hw : 0 < im.w) (hh : 0 < im.h) (htw : 0 < target.w) (hth : 0 < target.h) :
    ∃ out out2, matchHistogram32 im target = some out ∧ matchHistogram32 out target = some out2 ∧
      out2.w = out.w ∧ out2.h = out.h ∧ ∀ x y, out.InB x y → out2.px x y = out.px x y := by
  obtain ⟨out, e, ow, oh, lev⟩ := match32_level im target h8 h8t hw hh htw hth
  obtain ⟨out', e', -, -, small, mono⟩ := match32_spec im target h8 h8t hw hh htw hth
  rw [e] at e'
  simp only [Option.some.injEq] at e'
  subst e'
  have o8 : Is8 out := fun x y hx hy => (small x y (ow ▸ hx) (oh ▸ hy)).1
  obtain ⟨out2, e2, w2, h2, lev2⟩ := match32_level out target o8 h8t (by omega) (by omega) htw hth
  refine ⟨out, out2, e, e2, w2, h2, fun x y hp => ?_⟩
  have hp' : im.InB x y := ⟨ow ▸ hp.1, oh ▸ hp.2⟩
  -- a brightest pixel among those that came out at most as bright
  obtain ⟨⟨a, b⟩, hq, hmax⟩ := exists_max_image
    ((allPx im.w im.h).filter fun p => out.px p.1 p.2 ≤ out.px x y) (fun p => im.px p.1 p.2)
    ⟨(x, y), mem_filter.2 ⟨mem_allPx.2 hp', le_refl _⟩⟩
  rw [mem_filter, mem_allPx] at hq
  obtain ⟨hq, hqv⟩ := hq
  have same : out.px a b = out.px x y := le_antisymm hqv
    (mono x y a b hp'.1 hp'.2 hq.1 hq.2 (hmax (x, y) (mem_filter.2 ⟨mem_allPx.2 hp', le_refl _⟩)))
  have cnt : countPx out (· ≤ out.px x y) = countPx im (· ≤ im.px a b) := by
    unfold countPx
    rw [ow, oh]
    congr 1
    ext p
    rw [mem_filter, mem_filter]
    refine and_congr_right fun hp => ⟨fun h => hmax p (mem_filter.2 ⟨hp, h⟩), fun h => ?_⟩
    exact (mono p.1 p.2 a b (mem_allPx.1 hp).1 (mem_allPx.1 hp).2 hq.1 hq.2 h).trans hqv
  have fr : frac32 out (out.px x y) = frac32 im (im.px a b) := by
    unfold frac32
    rw [cnt, ow, oh]
  have l2 := lev2 x y hp
  rw [fr] at l2
  have l1 := lev a b hq
  rw [same] at l1
  exact l2.unique l1

theorem fraction32_lt {c c' t : Nat} (h : c < c') (h' : c' ≤ t) (ht : t ≤ 2 ^ 24) :
    fraction32 c t < fraction32 c' t := by
  have t0 : (0 : ℚ) < t := by
    have : 0 < t := by omega
    exact_mod_cast this
  unfold fraction32
  rw [rnd32_natQ ht, rnd32_natQ (h'.trans ht), rnd32_natQ ((h.le.trans h').trans ht)]
  have hc : (c : ℚ) + 1 ≤ c' := by exact_mod_cast h
  have hc' : (c' : ℚ) ≤ t := by exact_mod_cast h'
  rcases eq_or_lt_of_le ht with e | hlt
  · have ex : ∀ k : Nat, k ≤ 2 ^ 24 → rnd32 ((k : ℚ) / t) = (k : ℚ) / t := by
      intro k hk
      rcases eq_or_lt_of_le hk with hk | hk
      · rw [hk, e]
        have : ((2 ^ 24 : Nat) : ℚ) / ((2 ^ 24 : Nat) : ℚ) = 1 := by norm_num
        rw [this]
        exact rnd_of_rep (by norm_num) rep_one
      · refine rnd_of_rep (by norm_num) ⟨k, -24, ?_, by norm_num, ?_⟩
        · have : ((k : Int)).natAbs < 2 ^ 24 := by omega
          first | exact_mod_cast this | (rw [abs_of_nonneg (by positivity)]; exact_mod_cast hk.le)
        · rw [e]
          push_cast
          rw [zpow_neg]
          norm_num [div_eq_mul_inv]
    rw [ex c (by omega), ex c' (by omega)]
    exact div_lt_div_of_pos_right (by linarith) t0
  · have e1 := abs_le.1 (rnd32_err_unit (x := (c : ℚ) / t) (by positivity)
      ((div_le_one t0).2 (by linarith)))
    have e2 := abs_le.1 (rnd32_err_unit (x := (c' : ℚ) / t) (by positivity)
      ((div_le_one t0).2 (by linarith)))
    have gap : (c : ℚ) / t + 1 / 2 ^ 24 < (c' : ℚ) / t := by
      have k1 : (c : ℚ) / t + 1 / t ≤ (c' : ℚ) / t := by
        rw [← add_div]
        exact div_le_div_of_nonneg_right hc t0.le
      have k2 : (1 : ℚ) / 2 ^ 24 < 1 / t := by
        refine one_div_lt_one_div_of_lt t0 ?_
        exact_mod_cast hlt
      linarith
    have : (1 : ℚ) / 2 ^ 24 = 1 / 2 ^ 25 + 1 / 2 ^ 25 := by norm_num
    linarith [e1.2, e2.1]

/-- Matching an image with an image of the same histogram gives every pixel the first level of the
same computed fraction. -/
theorem self_level {F : Nat → ℚ} {s v : Nat} (hF : ∀ u v, u ≤ v → F u ≤ F v)
    (h : IsLevel F (F s) v) : v ≤ s ∧ F v = F s ∧ ∀ j, j < v → F j < F s := by
  obtain ⟨z, hz, q1, q2, q3⟩ := h
  have zs : z ≤ s := by
    by_contra hn
    exact lt_irrefl _ (q2 s (by omega))
  have eq : F z = F s := le_antisymm (hF z s zs) q1
  have : v = z := by
    rw [q3]
    split_ifs with h0 h1
    · rfl
    · rw [eq, sub_self] at h1
      have z0 : rnd32 (0 : ℚ) = 0 := rnd_zero
      rw [z0, abs_zero] at h1
      exact absurd h1 (not_lt.2 (abs_nonneg _))
    · rfl
  subst this
  exact ⟨zs, eq, q2⟩

/-- C191: an image of at most `2^24` pixels is not changed by matching it with an image of the same
histogram, in particular with itself. -/
theorem C191_own_histogram_partial (im target : Image Nat) (h8 : Is8 im) (h8t : Is8 target)
    (hw : 0 < im.w) (hh : 0 < im.h) (hsize : im.w * im.h ≤ 2 ^ 24)
    (hsame : ∀ v, countPx im (· ≤ v) = countPx target (· ≤ v)) :
    ∃ out, matchHistogram32 im target = some out ∧ out.w = im.w ∧ out.h = im.h ∧
      ∀ x y, im.InB x y → out.px x y = im.px x y := by
  have total : im.w * im.h = target.w * target.h := by
    have a := countPx_all im (· ≤ 255) (fun a b ha hb => by have := h8 a b ha hb; omega)
    have b := countPx_all target (· ≤ 255) (fun a b ha hb => by have := h8t a b ha hb; omega)
    rw [← a, ← b]
    exact hsame 255
  have tp : 0 < im.w * im.h := Nat.mul_pos hw hh
  have tw : 0 < target.w ∧ 0 < target.h := by
    rw [total] at tp
    exact ⟨Nat.pos_of_mul_pos_right tp, Nat.pos_of_mul_pos_left tp⟩
  obtain ⟨out, e, ow, oh, lev⟩ := match32_level im target h8 h8t hw hh tw.1 tw.2
  refine ⟨out, e, ow, oh, fun x y hp => ?_⟩
  have fr : frac32 target = frac32 im := by
    funext v
    unfold frac32
    rw [hsame, total]
  have l := lev x y hp
  rw [fr] at l
  obtain ⟨a, b, -⟩ := self_level
    (fun u v huv => fraction32_mono tp (count_mono im huv)) l
  rcases eq_or_lt_of_le a with h | h
  · exact h
  · exact absurd b (ne_of_lt (fraction32_lt (count_lt_of_occurs h ⟨x, y, hp, rfl⟩)
      (countPx_le im _) hsize))

/-- C191 is false of larger images: in a row of `2^24` black pixels and a white one, matching the
image with itself turns the white pixel black. -/
theorem C191_negation_self : ∃ out, matchHistogram32 (step (2 ^ 24 + 1) (2 ^ 24)) (step (2 ^ 24 + 1) (2 ^ 24))
      = some out ∧ (step (2 ^ 24 + 1) (2 ^ 24)).px (2 ^ 24) 0 = 255 ∧ out.px (2 ^ 24) 0 = 0 := by
  have h8 : Is8 (step (2 ^ 24 + 1) (2 ^ 24)) := by
    intro x y _ _
    show (if x < 2 ^ 24 then 0 else 255) < 256
    split_ifs <;> omega
  obtain ⟨out, e, ow, oh, lev⟩ := match32_level _ _ h8 h8 (show 0 < 2 ^ 24 + 1 by norm_num)
    Nat.zero_lt_one (show 0 < 2 ^ 24 + 1 by norm_num) Nat.zero_lt_one
  refine ⟨out, e, rfl, ?_⟩
  have l := lev (2 ^ 24) 0 ⟨(show 2 ^ 24 < 2 ^ 24 + 1 by norm_num), Nat.zero_lt_one⟩
  have hw : (step (2 ^ 24 + 1) (2 ^ 24)).w * (step (2 ^ 24 + 1) (2 ^ 24)).h = 2 ^ 24 + 1 := Nat.mul_one _
  have f0 : frac32 (step (2 ^ 24 + 1) (2 ^ 24)) 0 = 1 := by
    unfold frac32
    rw [count_step (by norm_num), hw]
    unfold fraction32
    rw [show rnd32 ((2 ^ 24 + 1 : Nat) : ℚ) = 16777216 by decide +kernel,
      show rnd32 ((2 ^ 24 : Nat) : ℚ) = 16777216 by decide +kernel]
    decide +kernel
  obtain ⟨-, b, c⟩ := self_level
    (fun u v huv => fraction32_mono (by rw [hw]; norm_num) (count_mono _ huv)) l
  by_contra hn
  have : frac32 (step (2 ^ 24 + 1) (2 ^ 24)) 0 < frac32 (step (2 ^ 24 + 1) (2 ^ 24)) 255 := c 0 (by omega)
  rw [f0] at this
  exact absurd (frac32_unit _ (by rw [hw]; norm_num) 255).2 (not_le.2 this)

/-- C191: every pixel of a matched image has a level of the target or the level just below one. -/
theorem C191_levels (im target : Image Nat) (h8 : Is8 im) (h8t : Is8 target)
    (hw : 0 < im.w) (hh : 0 < im.h) (htw : 0 < target.w) (hth : 0 < target.h)
    (hsize : im.w * im.h ≤ 2 ^ 64) :
    ∃ out, matchHistogram32 im target = some out ∧
      ∀ x y, im.InB x y → Occurs target (out.px x y) ∨ Occurs target (out.px x y + 1) := by
  obtain ⟨out, e, ow, oh, lev⟩ := match32_level im target h8 h8t hw hh htw hth
  refine ⟨out, e, fun x y hp => ?_⟩
  obtain ⟨z, hz, q1, q2, q3⟩ := lev x y hp
  have tp : 0 < im.w * im.h := Nat.mul_pos hw hh
  have ttp : 0 < target.w * target.h := Nat.mul_pos htw hth
  have occ : Occurs target z := by
    rcases Nat.eq_zero_or_pos z with h0 | h0
    · subst h0
      -- the pixel itself is counted, so its fraction is positive
      have c1 : 1 ≤ countPx im (· ≤ im.px x y) := card_pos.2
        ⟨(x, y), mem_filter.2 ⟨mem_allPx.2 hp, le_refl _⟩⟩
      have pos : 0 < frac32 im (im.px x y) := by
        unfold frac32 fraction32
        have k1 : (1 : ℚ) ≤ rnd32 ((countPx im (· ≤ im.px x y) : Nat) : ℚ) := rnd32_nat_pos c1
        have k2 : rnd32 ((im.w * im.h : Nat) : ℚ) ≤ 2 ^ 64 := by
          refine rnd_le (by norm_num) ⟨1, 64, by norm_num, by norm_num, by norm_num⟩ ?_
          exact_mod_cast hsize
        have k3 := rnd32_nat_pos tp
        refine lt_of_lt_of_le (show (0 : ℚ) < 1 / 2 ^ 64 by norm_num) (le_rnd (by norm_num)
          ⟨1, -64, by norm_num, by norm_num, by norm_num [zpow_neg]⟩ ?_)
        exact div_le_div₀ (by linarith) k1 (by linarith) k2
      have := lt_of_lt_of_le pos q1
      by_contra hn
      have c0 : countPx target (· ≤ 0) = 0 := by
        unfold countPx
        rw [card_eq_zero, filter_eq_empty_iff]
        intro p hp h
        exact hn ⟨p.1, p.2, mem_allPx.1 hp, by omega⟩
      unfold frac32 fraction32 at this
      rw [c0] at this
      have z0 : rnd32 (0 : ℚ) = 0 := rnd_zero
      rw [Nat.cast_zero, z0, zero_div, z0] at this
      exact lt_irrefl _ this
    · have lt : frac32 target (z - 1) < frac32 target z := (q2 (z - 1) (by omega)).trans_le q1
      have : countPx target (· ≤ z - 1) < countPx target (· ≤ z) := by
        by_contra hn
        exact absurd lt (not_lt.2 (fraction32_mono ttp (not_lt.1 hn)))
      obtain ⟨s, a, b, c⟩ := occurs_of_count_lt this
      rwa [show s = z by omega] at c
  rw [q3]
  split_ifs with h0 h1
  · exact Or.inl occ
  · right
    rwa [show z - 1 + 1 = z by omega]
  · exact Or.inl occ

/-- C191 is false of the levels: a matched image can have levels that the target has not.  Of three
pixels two are dark; matched with a target that is half black and half white they become 254. -/
theorem C191_negation_levels : ∃ out,
    matchHistogram32 ⟨3, 1, fun x _ => if x < 2 then 10 else 200⟩ (step 2 1) = some out ∧
    out.px 0 0 = 254 ∧ ¬ Occurs (step 2 1) 254 := by
  have h8 : Is8 ⟨3, 1, fun x _ => if x < 2 then 10 else 200⟩ := by
    intro x y _ _
    show (if x < 2 then 10 else 200) < 256
    split_ifs <;> omega
  have h8t : Is8 (step 2 1) := by
    intro x y _ _
    show (if x < 1 then 0 else 255) < 256
    split_ifs <;> omega
  obtain ⟨out, e, ow, oh, lev⟩ := match32_level _ _ h8 h8t (show 0 < 3 by norm_num)
    Nat.zero_lt_one (show 0 < 2 by norm_num) Nat.zero_lt_one
  refine ⟨out, e, ?_, ?_⟩
  · have l := lev 0 0 ⟨(show 0 < 3 by norm_num), Nat.zero_lt_one⟩
    refine l.unique ?_
    have hc : ∀ v, v < 255 → countPx (step 2 1) (· ≤ v) = 1 := by
      intro v hv
      have : countPx (step 2 1) (· ≤ v) = countPx (step 2 1) (· ≤ 0) := by
        refine congrArg Finset.card (filter_congr fun p _ => ?_)
        show (if p.1 < 1 then 0 else 255) ≤ v ↔ (if p.1 < 1 then 0 else 255) ≤ 0
        split_ifs <;> omega
      rw [this, count_step (by norm_num)]
    have hT : ∀ v, v < 255 → frac32 (step 2 1) v = 1 / 2 := by
      intro v hv
      unfold frac32
      rw [hc v hv]
      show fraction32 1 2 = 1 / 2
      decide +kernel
    have hq : frac32 ⟨3, 1, fun x _ => if x < 2 then 10 else 200⟩ 10 = 11184811 / 16777216 := by
      unfold frac32
      rw [show countPx (⟨3, 1, fun x _ => if x < 2 then 10 else 200⟩ : Image Nat) (· ≤ 10) = 2 by decide]
      show fraction32 2 3 = _
      decide +kernel
    have hT1 : frac32 (step 2 1) 255 = 1 := by
      unfold frac32
      rw [countPx_all (step 2 1) (· ≤ 255) (fun a b ha hb => by have := h8t a b ha hb; omega)]
      exact fraction32_self (show 0 < 2 * 1 by norm_num)
    show IsLevel _ (frac32 _ 10) 254
    rw [hq]
    refine ⟨255, by norm_num, by rw [hT1]; norm_num, fun j hj => by rw [hT j hj]; norm_num, ?_⟩
    rw [if_neg (by norm_num), hT1, hT (255 - 1) (by norm_num), if_pos (by decide +kernel)]
  · rintro ⟨x, y, -, h⟩
    have : (if x < 1 then 0 else 255) = 254 := h
    split_ifs at this ; omega

-- The hypotheses of `C191_own_histogram_partial` hold of an image with four levels.
example : ∃ out, matchHistogram32 (Image.ofFn 2 2 fun x y => 7 + x + 90 * y)
    (Image.ofFn 2 2 fun x y => 7 + x + 90 * y) = some out ∧ ∀ x y, x < 2 → y < 2 →
      out.px x y = 7 + x + 90 * y := by
  have h8 : Is8 (Image.ofFn 2 2 fun x y => 7 + x + 90 * y) := fun x y hx hy => by
    have : x < 2 := hx
    have : y < 2 := hy
    show 7 + x + 90 * y < 256
    omega
  obtain ⟨out, e, -, -, h⟩ := C191_own_histogram_partial _ _ h8 h8 Nat.zero_lt_two Nat.zero_lt_two
    (show 2 * 2 ≤ 2 ^ 24 by norm_num) (fun _ => rfl)
  exact ⟨out, e, fun x y hx hy => h x y ⟨hx, hy⟩⟩

end Verif.Float
