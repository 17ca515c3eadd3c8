import Verif.Contrast.Equalize
import Verif.Contrast.Kapur
import Verif.Float.Contrast
import Verif.Float.Kapur
import Verif.Float.Otsu
/-
C175: histograms, percentiles, Otsu's and Kapur's levels and the maps of histogram equalisation and
matching depend only on how often each value occurs.  C176: equalising twice is equalising once, no
strictly increasing brightness curve before equalisation is visible after it, and matching an image
with itself changes nothing.  C177: the automatic levels move along with the brightness.
-/
namespace Verif.Relations
open Finset Verif.Stats Verif.Contrast

/-- Specification: every value occurs in both images equally often. -/
def SameValues (im im' : Image Nat) : Prop := ∀ v, countPx im (· = v) = countPx im' (· = v)

theorem same_histogram {im im' : Image Nat} (h : SameValues im im') (h8 : Is8 im) (h8' : Is8 im') :
    histogram 1 (gray im) = histogram 1 (gray im') := by
  rw [histogram_eq 1 _ (is8c_gray h8), histogram_eq 1 _ (is8c_gray h8')]
  congr 1
  funext a b
  by_cases ha : a < 1
  · simp only [ha, true_and]
    exact h b
  · simp only [ha, false_and, filter_false, card_empty]

theorem count_lt_zero {im : Image Nat} {v : Nat} (h : countPx im (· = v) ≠ 0) :
    ∃ x y, x < im.w ∧ y < im.h ∧ im.px x y = v := by
  obtain ⟨p, hp⟩ := card_pos.mp (Nat.pos_of_ne_zero h)
  rw [mem_filter, mem_allPx] at hp
  exact ⟨p.1, p.2, hp.1.1, hp.1.2, hp.2⟩

theorem count_ne_zero {im : Image Nat} {P : Nat → Prop} [DecidablePred P] {x y : Nat} (hx : x < im.w)
    (hy : y < im.h) (h : P (im.px x y)) : countPx im P ≠ 0 := by
  have hm : (x, y) ∈ (allPx im.w im.h).filter fun p => P (im.px p.1 p.2) :=
    mem_filter.mpr ⟨mem_allPx.mpr ⟨hx, hy⟩, h⟩
  exact (card_pos.mpr ⟨_, hm⟩).ne'

theorem SameValues.is8 {im im' : Image Nat} (h : SameValues im im') (h8 : Is8 im) : Is8 im' := by
  intro x y hx hy
  have : countPx im' (· = im'.px x y) ≠ 0 := count_ne_zero hx hy rfl
  rw [← h] at this
  obtain ⟨a, b, ha, hb, e⟩ := count_lt_zero this
  rw [← e]
  exact h8 a b ha hb

theorem SameValues.size {im im' : Image Nat} (h : SameValues im im') (h8 : Is8 im) :
    im.w * im.h = im'.w * im'.h := by
  obtain ⟨a, ea, ha⟩ := C12_histogram_total 1 (gray im) (is8c_gray h8)
  obtain ⟨b, eb, hb⟩ := C12_histogram_total 1 (gray im') (is8c_gray (h.is8 h8))
  rw [same_histogram h h8 (h.is8 h8), eb] at ea
  obtain rfl := Option.some.inj ea
  exact (ha 0 (by omega)).symm.trans (hb 0 (by omega))

theorem same_cumulative {im im' : Image Nat} (h : SameValues im im') (h8 : Is8 im) :
    cumulativeHistogram 1 (gray im) = cumulativeHistogram 1 (gray im') := by
  unfold cumulativeHistogram
  rw [same_histogram h h8 (h.is8 h8)]

theorem cmul32_congr {a b c d : Nat} (h : a * b = c * d) : cmul32 a b = cmul32 c d := by
  unfold cmul32
  rw [h]

/-- Histogram, cumulative histogram, percentiles, Otsu's level (exactly and in double precision) and
Kapur's level (likewise) are the same for both images. -/
theorem C175_levels {im im' : Image Nat} (h : SameValues im im') (h8 : Is8 im) (p : Nat)
    (ln : ℝ → ℝ) :
    histogram 1 (gray im) = histogram 1 (gray im') ∧
    cumulativeHistogram 1 (gray im) = cumulativeHistogram 1 (gray im') ∧
    percentile im p = percentile im' p ∧ otsuLevel im = otsuLevel im' ∧
    Float.otsuLevel64 im = Float.otsuLevel64 im' ∧ kapurLevel im = kapurLevel im' ∧
    Float.kapurLevel64 ln im = Float.kapurLevel64 ln im' := by
  have h1 := same_histogram h h8 (h.is8 h8)
  have h2 := same_cumulative h h8
  have h3 := cmul32_congr (h.size h8)
  refine ⟨h1, h2, ?_, ?_, ?_, ?_, ?_⟩
  · unfold percentile; rw [h2]
  · unfold otsuLevel otsuLevelWith; rw [h1, h3]
  · unfold Float.otsuLevel64 otsuLevelWith; rw [h1, h3]
  · unfold kapurLevel; rw [h1, h3]
  · unfold Float.kapurLevel64; rw [h1, h3]

/-- Pixels of equal value get equal values when the two images are equalised (exactly or in single
precision) or matched, and replacing the target image by the other one changes nothing. -/
theorem C175_maps {im im' : Image Nat} (h : SameValues im im') (h8 : Is8 im) :
    (∃ o o', equalize im = some o ∧ equalize im' = some o' ∧
      ∀ x y x' y', im.px x y = im'.px x' y' → o.px x y = o'.px x' y') ∧
    (∃ o o', Float.equalize32 im = some o ∧ Float.equalize32 im' = some o' ∧
      ∀ x y x' y', im.px x y = im'.px x' y' → o.px x y = o'.px x' y') ∧
    (∀ t, Is8 t → ∀ o o', matchHistogram im t = some o → matchHistogram im' t = some o' →
      ∀ x y x' y', im.px x y = im'.px x' y' → o.px x y = o'.px x' y') ∧
    ∀ s, matchHistogram s im = matchHistogram s im' ∧
      Float.matchHistogram32 s im = Float.matchHistogram32 s im' := by
  have h2 := same_cumulative h h8
  obtain ⟨c, ec, -⟩ := C12_cumulative_histogram 1 (gray im) (is8c_gray h8)
  have ec' := h2.symm.trans ec
  refine ⟨⟨_, _, by unfold equalize; rw [ec]; rfl, by unfold equalize; rw [ec']; rfl, ?_⟩,
    ⟨_, _, by unfold Float.equalize32; rw [ec]; rfl, by unfold Float.equalize32; rw [ec']; rfl, ?_⟩,
    ?_, ?_⟩
  · intro x y x' y' e
    dsimp only
    rw [e]
  · intro x y x' y' e
    dsimp only
    rw [e]
  · intro t ht o o' eo eo' x y x' y' e
    unfold matchHistogram at eo eo'
    rw [ec, Option.bind_some] at eo
    rw [ec', Option.bind_some] at eo'
    obtain ⟨d, ed, -⟩ := C12_cumulative_histogram 1 (gray t) (is8c_gray ht)
    rw [ed, Option.bind_some] at eo eo'
    obtain ⟨l, el, rfl⟩ := Option.map_eq_some_iff.mp eo
    obtain ⟨l', el', rfl⟩ := Option.map_eq_some_iff.mp eo'
    rw [el] at el'
    obtain rfl := Option.some.inj el'
    dsimp only
    rw [e]
  · intro s
    constructor
    · unfold matchHistogram; rw [h2]
    · unfold Float.matchHistogram32; rw [h2]

/-! ### Equalisation -/

/-- Remapping every value by an increasing function of the number of pixels up to it a second time
changes nothing. -/
theorem equalized_fixed (im out : Image Nat) (g : Nat → Nat) (hg : ∀ a b, a ≤ b → g a ≤ g b)
    (hw : out.w = im.w) (hh : out.h = im.h)
    (h : ∀ x y, x < im.w → y < im.h → out.px x y = g (countPx im (· ≤ im.px x y)))
    {x y : Nat} (hx : x < im.w) (hy : y < im.h) :
    g (countPx out (· ≤ out.px x y)) = out.px x y := by
  have mono : ∀ a b a' b', a < im.w → b < im.h → a' < im.w → b' < im.h → im.px a b ≤ im.px a' b' →
      out.px a b ≤ out.px a' b' := by
    intro a b a' b' ha hb ha' hb' hle
    rw [h a b ha hb, h a' b' ha' hb']
    exact hg _ _ (count_mono im hle)
  obtain ⟨p, hp, hmax⟩ := exists_max_image
    ((allPx im.w im.h).filter fun p => out.px p.1 p.2 ≤ out.px x y) (fun p => im.px p.1 p.2)
    ⟨(x, y), mem_filter.mpr ⟨mem_allPx.mpr ⟨hx, hy⟩, le_rfl⟩⟩
  rw [mem_filter, mem_allPx] at hp
  have e : countPx out (· ≤ out.px x y) = countPx im (· ≤ im.px p.1 p.2) := by
    unfold countPx
    rw [hw, hh]
    congr 1
    refine filter_congr fun q hq => ?_
    rw [mem_allPx] at hq
    constructor
    · intro hle
      exact hmax q (mem_filter.mpr ⟨mem_allPx.mpr hq, hle⟩)
    · intro hle
      exact (mono _ _ _ _ hq.1 hq.2 hp.1.1 hp.1.2 hle).trans hp.2
  rw [e, ← h _ _ hp.1.1 hp.1.2]
  refine le_antisymm hp.2 (mono _ _ _ _ hx hy hp.1.1 hp.1.2 ?_)
  exact hmax (x, y) (mem_filter.mpr ⟨mem_allPx.mpr ⟨hx, hy⟩, le_rfl⟩)

/-- Equalising an equalised image changes nothing. -/
theorem C176_idempotent (im : Image Nat) (h8 : Is8 im) :
    ∃ o o', equalize im = some o ∧ equalize o = some o' ∧ o'.w = o.w ∧ o'.h = o.h ∧
      ∀ x y, x < im.w → y < im.h → o'.px x y = o.px x y := by
  obtain ⟨o, e, h1, h2, h3⟩ := C18_equalize im h8
  obtain ⟨k, -, -⟩ := C18_monotone_and_full im o h8 e
  have h8o : Is8 o := fun x y hx hy => by
    have := k x y (h1 ▸ hx) (h2 ▸ hy)
    omega
  obtain ⟨o', e', h1', h2', h3'⟩ := C18_equalize o h8o
  refine ⟨o, o', e, e', h1', h2', fun x y hx hy => ?_⟩
  rw [h3' x y (h1 ▸ hx) (h2 ▸ hy), h1, h2]
  exact equalized_fixed im o (fun c => 255 * c / (im.w * im.h))
    (fun a b hab => Nat.div_le_div_right (Nat.mul_le_mul_left _ hab)) h1 h2 h3 hx hy

/-- The same in single precision, for images of any size. -/
theorem C176_idempotent_single (im : Image Nat) (h8 : Is8 im) :
    ∃ o o', Float.equalize32 im = some o ∧ Float.equalize32 o = some o' ∧ o'.w = o.w ∧
      o'.h = o.h ∧ ∀ x y, x < im.w → y < im.h → o'.px x y = o.px x y := by
  obtain ⟨o, e, h1, h2, h3⟩ := Float.equalize32_spec im h8
  obtain ⟨q, eq, -, -, k, -⟩ := Float.C120_general im h8
  obtain rfl := Option.some.inj (eq.symm.trans e)
  have h8o : Is8 q := fun x y hx hy => by
    have := (k x y (h1 ▸ hx) (h2 ▸ hy)).2.2
    omega
  obtain ⟨o', e', h1', h2', h3'⟩ := Float.equalize32_spec q h8o
  refine ⟨q, o', e, e', h1', h2', fun x y hx hy => ?_⟩
  rw [h3' x y (h1 ▸ hx) (h2 ▸ hy), h1, h2]
  exact equalized_fixed im q (fun c => Float.equalizeLevel32 c (im.w * im.h))
    (fun a b hab => Float.equalizeLevel32_mono (Nat.mul_pos (by omega) (by omega)) hab) h1 h2 h3 hx hy

/-- A strictly increasing brightness curve before equalisation does not change the result. -/
theorem C176_curve (im im' : Image Nat) (f : Nat → Nat) (h8 : Is8 im) (h8' : Is8 im')
    (hw : im'.w = im.w) (hh : im'.h = im.h)
    (hf : ∀ u v, u < v → v < 256 → f u < f v)
    (hp : ∀ x y, x < im.w → y < im.h → im'.px x y = f (im.px x y)) :
    (∃ o o', equalize im = some o ∧ equalize im' = some o' ∧
      ∀ x y, x < im.w → y < im.h → o'.px x y = o.px x y) ∧
    ∃ o o', Float.equalize32 im = some o ∧ Float.equalize32 im' = some o' ∧
      ∀ x y, x < im.w → y < im.h → o'.px x y = o.px x y := by
  have key : ∀ x y, x < im.w → y < im.h →
      countPx im' (· ≤ im'.px x y) = countPx im (· ≤ im.px x y) := by
    intro x y hx hy
    unfold countPx
    rw [hw, hh]
    congr 1
    refine filter_congr fun q hq => ?_
    rw [mem_allPx] at hq
    rw [hp _ _ hq.1 hq.2, hp x y hx hy]
    constructor
    · intro hle
      by_contra hc
      have := hf _ _ (not_le.mp hc) (h8 _ _ hq.1 hq.2)
      omega
    · intro hle
      rcases Nat.lt_or_ge (im.px q.1 q.2) (im.px x y) with hlt | hge
      · exact (hf _ _ hlt (h8 x y hx hy)).le
      · rw [le_antisymm hle hge]
  constructor
  · obtain ⟨o, e, -, -, h3⟩ := C18_equalize im h8
    obtain ⟨o', e', -, -, h3'⟩ := C18_equalize im' h8'
    refine ⟨o, o', e, e', fun x y hx hy => ?_⟩
    rw [h3 x y hx hy, h3' x y (by omega) (by omega), key x y hx hy, hw, hh]
  · obtain ⟨o, e, -, -, h3⟩ := Float.equalize32_spec im h8
    obtain ⟨o', e', -, -, h3'⟩ := Float.equalize32_spec im' h8'
    refine ⟨o, o', e, e', fun x y hx hy => ?_⟩
    rw [h3 x y hx hy, h3' x y (by omega) (by omega), key x y hx hy, hw, hh]

/-! ### Automatic levels and brightness -/

section shift
variable {im im' : Image Nat} {c : Nat}

/-- Specification: `im'` is `im` made brighter by `c`, without saturation. -/
structure Brighter (c : Nat) (im im' : Image Nat) : Prop where
  w : im'.w = im.w
  h : im'.h = im.h
  px : ∀ x y, x < im.w → y < im.h → im'.px x y = im.px x y + c

theorem Brighter.filter (B : Brighter c im im') {P Q : Nat → Prop} [DecidablePred P]
    [DecidablePred Q] (hPQ : ∀ v, Q (v + c) ↔ P v) :
    ((allPx im'.w im'.h).filter fun p => Q (im'.px p.1 p.2)) =
      (allPx im.w im.h).filter fun p => P (im.px p.1 p.2) := by
  rw [B.w, B.h]
  refine filter_congr fun q hq => ?_
  rw [mem_allPx] at hq
  rw [B.px _ _ hq.1 hq.2, hPQ]

theorem Brighter.count (B : Brighter c im im') {P Q : Nat → Prop} [DecidablePred P]
    [DecidablePred Q] (hPQ : ∀ v, Q (v + c) ↔ P v) : countPx im' Q = countPx im P := by
  unfold countPx
  rw [B.filter hPQ]

theorem Brighter.sum (B : Brighter c im im') {P Q : Nat → Prop} [DecidablePred P]
    [DecidablePred Q] (hPQ : ∀ v, Q (v + c) ↔ P v) :
    sumPx im' Q = sumPx im P + c * countPx im P := by
  unfold sumPx countPx
  rw [B.filter hPQ, mul_comm, ← smul_eq_mul (Finset.card _), ← sum_const, ← sum_add_distrib]
  refine sum_congr rfl fun q hq => ?_
  rw [mem_filter, mem_allPx] at hq
  exact B.px _ _ hq.1.1 hq.1.2

theorem Brighter.between (B : Brighter c im im') (t : Nat) :
    betweenClass im' (t + c) = betweenClass im t := by
  have a : ∀ v, v + c ≤ t + c ↔ v ≤ t := fun v => by omega
  have b : ∀ v, t + c < v + c ↔ t < v := fun v => by omega
  by_cases h : countPx im (· ≤ t) = 0 ∨ countPx im (t < ·) = 0
  · rw [betweenClass_zero im t h, betweenClass_zero im' (t + c)]
    rwa [B.count a, B.count b]
  · push Not at h
    unfold betweenClass
    rw [B.count a, B.count b, B.sum a, B.sum b]
    have h1 : (countPx im (· ≤ t) : ℚ) ≠ 0 := by exact_mod_cast h.1
    have h2 : (countPx im (t < ·) : ℚ) ≠ 0 := by exact_mod_cast h.2
    congr 2
    push_cast
    field_simp
    ring

theorem between_pos {t : Nat} (h1 : countPx im (· ≤ t) ≠ 0) (h2 : countPx im (t < ·) ≠ 0) :
    0 < betweenClass im t := by
  have s1 : sumPx im (· ≤ t) ≤ t * countPx im (· ≤ t) := by
    unfold sumPx countPx
    rw [mul_comm, ← smul_eq_mul]
    exact sum_le_card_nsmul _ _ _ fun q hq => (mem_filter.mp hq).2
  have s2 : (t + 1) * countPx im (t < ·) ≤ sumPx im (t < ·) := by
    unfold sumPx countPx
    rw [mul_comm, ← smul_eq_mul]
    exact card_nsmul_le_sum _ _ _ fun q hq => (mem_filter.mp hq).2
  unfold betweenClass
  have c1 : (0 : ℚ) < countPx im (· ≤ t) := by exact_mod_cast Nat.pos_of_ne_zero h1
  have c2 : (0 : ℚ) < countPx im (t < ·) := by exact_mod_cast Nat.pos_of_ne_zero h2
  have m1 : (sumPx im (· ≤ t) : ℚ) / countPx im (· ≤ t) ≤ t := by
    rw [div_le_iff₀ c1]; exact_mod_cast s1
  have m2 : (t : ℚ) + 1 ≤ (sumPx im (t < ·) : ℚ) / countPx im (t < ·) := by
    rw [le_div_iff₀ c2]; exact_mod_cast s2
  have : (sumPx im (· ≤ t) : ℚ) / countPx im (· ≤ t) -
      (sumPx im (t < ·) : ℚ) / countPx im (t < ·) ≠ 0 := by linarith
  positivity

theorem exists_split {x y x' y' : Nat} (hx : x < im.w) (hy : y < im.h) (hx' : x' < im.w)
    (hy' : y' < im.h) (h : im.px x y < im.px x' y') :
    countPx im (· ≤ im.px x y) ≠ 0 ∧ countPx im (im.px x y < ·) ≠ 0 :=
  ⟨count_ne_zero hx hy le_rfl, count_ne_zero hx' hy' h⟩

theorem above_lt {t : Nat} (h8 : Is8 im') (B : Brighter c im im') (h : countPx im (t < ·) ≠ 0) :
    t + c < 255 := by
  obtain ⟨p, hp⟩ := card_pos.mp (Nat.pos_of_ne_zero h)
  rw [mem_filter, mem_allPx] at hp
  have := h8 p.1 p.2 (by rw [B.w]; exact hp.1.1) (by rw [B.h]; exact hp.1.2)
  rw [B.px _ _ hp.1.1 hp.1.2] at this
  have := hp.2
  omega

theorem low_zero {u : Nat} (B : Brighter c im im') (hu : u < c) : countPx im' (· ≤ u) = 0 := by
  unfold countPx
  rw [card_eq_zero, filter_eq_empty_iff]
  intro q hq
  rw [mem_allPx, B.w, B.h] at hq
  rw [B.px _ _ hq.1 hq.2]
  omega

/-- Making an image that is not of a single value brighter by `c` moves Otsu's level by `c`. -/
theorem C177_otsu (B : Brighter c im im') (h8 : Is8 im) (h8' : Is8 im')
    (hfit : 255 * (im.w * im.h) < 2 ^ 32)
    (hne : ∃ x y x' y', x < im.w ∧ y < im.h ∧ x' < im.w ∧ y' < im.h ∧ im.px x y < im.px x' y') :
    ∃ r, otsuLevel im = some r ∧ otsuLevel im' = some (r + c) := by
  obtain ⟨r, e, r1, r2, r3⟩ := C15_otsu im h8 hfit
  obtain ⟨r', e', s1, s2, s3⟩ := C15_otsu im' h8' (by rw [B.w, B.h]; exact hfit)
  obtain ⟨x, y, x', y', hx, hy, hx', hy', hlt⟩ := hne
  obtain ⟨c1, c2⟩ := exists_split hx hy hx' hy' hlt
  have hpos : 0 < betweenClass im r :=
    lt_of_lt_of_le (between_pos c1 c2) (r2 _ (h8 x y hx hy))
  have hr : r + c < 255 := by
    refine above_lt h8' B fun h => ?_
    rw [betweenClass_zero im r (Or.inr h)] at hpos
    exact lt_irrefl _ hpos
  have k := s2 (r + c) (by omega)
  rw [B.between] at k
  have hc : c ≤ r' := by
    by_contra hc
    rw [betweenClass_zero im' r' (Or.inl (low_zero B (not_le.mp hc)))] at k
    exact absurd hpos (not_lt.mpr k)
  obtain ⟨u, rfl⟩ := Nat.exists_eq_add_of_le' hc
  rw [B.between] at k s3
  have hur : r ≤ u := by
    by_contra h
    exact absurd (r3 u (not_le.mp h)) (not_lt.mpr k)
  have hru : u ≤ r := by
    by_contra h
    have := s3 (r + c) (by omega)
    rw [B.between] at this
    exact absurd (r2 u (by omega)) (not_le.mpr this)
  refine ⟨r, e, ?_⟩
  rw [e', le_antisymm hur hru]

theorem Brighter.entropy (B : Brighter c im im') (h8 : Is8 im) (h8' : Is8 im') {P Q : Nat → Prop}
    [DecidablePred P] [DecidablePred Q] (hPQ : ∀ v, Q (v + c) ↔ P v) :
    classEntropy im' Q = classEntropy im P := by
  unfold classEntropy
  rw [B.count hPQ]
  symm
  have hcount : ∀ v, countPx im' (· = v + c) = countPx im (· = v) :=
    fun v => B.count fun u => by omega
  refine sum_bij_ne_zero (fun v _ _ => v + c) ?_ ?_ ?_ ?_
  · intro v hv hne
    rw [mem_filter, mem_range] at hv
    have hz : countPx im (· = v) ≠ 0 := by
      intro h
      rw [h] at hne
      simp at hne
    obtain ⟨x, y, hx, hy, e⟩ := count_lt_zero hz
    have := h8' x y (by rw [B.w]; exact hx) (by rw [B.h]; exact hy)
    rw [B.px x y hx hy, e] at this
    exact mem_filter.mpr ⟨mem_range.mpr this, (hPQ v).mpr hv.2⟩
  · intro a _ _ b _ _ h
    omega
  · intro v hv hne
    rw [mem_filter, mem_range] at hv
    have hz : countPx im' (· = v) ≠ 0 := by
      intro h
      rw [h] at hne
      simp at hne
    obtain ⟨x, y, hx, hy, e⟩ := count_lt_zero hz
    rw [B.w] at hx
    rw [B.h] at hy
    rw [B.px x y hx hy] at e
    refine ⟨im.px x y, mem_filter.mpr ⟨mem_range.mpr (h8 x y hx hy), (hPQ _).mp (e ▸ hv.2)⟩, ?_, e⟩
    rw [← hcount, e]
    exact hne
  · intro v hv hne
    rw [hcount]

/-- The same for Kapur's level. -/
theorem C177_kapur (B : Brighter c im im') (h8 : Is8 im) (h8' : Is8 im')
    (hfit : im.w * im.h < 2 ^ 32)
    (hne : ∃ x y x' y', x < im.w ∧ y < im.h ∧ x' < im.w ∧ y' < im.h ∧ im.px x y < im.px x' y') :
    ∃ r, kapurLevel im = some r ∧ kapurLevel im' = some (r + c) := by
  obtain ⟨r, e, r1, -, r2⟩ := C96_kapur im h8 hfit
  obtain ⟨r', e', s1, -, s2⟩ := C96_kapur im' h8' (by rw [B.w, B.h]; exact hfit)
  obtain ⟨x, y, x', y', hx, hy, hx', hy', hlt⟩ := hne
  obtain ⟨c1, c2⟩ := exists_split hx hy hx' hy' hlt
  have a : ∀ t v, v + c ≤ t + c ↔ v ≤ t := fun t v => by omega
  have b : ∀ t v, t + c < v + c ↔ t < v := fun t v => by omega
  have hsep : ∀ t, Separates im' (t + c) ↔ Separates im t := by
    intro t
    unfold Separates
    rw [B.count (a t), B.count (b t)]
  have hent : ∀ t, totalEntropy im' (t + c) = totalEntropy im t := by
    intro t
    unfold totalEntropy
    rw [B.entropy h8 h8' (a t), B.entropy h8 h8' (b t)]
  have hs : Separates im r :=
    (r2 (im.px x y) (h8 x y hx hy) ⟨Nat.pos_of_ne_zero c1, Nat.pos_of_ne_zero c2⟩).1
  have hr : r + c < 255 := above_lt h8' B hs.2.ne'
  obtain ⟨k1, k2, k3⟩ := s2 (r + c) (by omega) ((hsep r).mpr hs)
  have hc : c ≤ r' := by
    by_contra hc
    have := k1.1
    rw [low_zero B (not_le.mp hc)] at this
    exact absurd this (lt_irrefl 0)
  obtain ⟨u, rfl⟩ := Nat.exists_eq_add_of_le' hc
  obtain ⟨m1, m2, m3⟩ := r2 u (by omega) ((hsep u).mp k1)
  rw [hent, hent] at k2
  refine ⟨r, e, ?_⟩
  rw [e']
  congr 1
  rcases Nat.lt_trichotomy u r with h | h | h
  · exact absurd (m3 h) (not_lt.mpr k2)
  · rw [h]
  · have := k3 (by omega)
    rw [hent, hent] at this
    exact absurd m2 (not_le.mpr this)

end shift

/-! ### Matching an image with itself -/

theorem lutAdvance_le (T : Nat → ℚ) (s : Nat) : ∀ k y prev, y ≤ s →
    (lutAdvance T (T s) k (y, prev)).1 ≤ s := by
  intro k
  induction k with
  | zero => intro y prev h; exact h
  | succ k ih =>
    intro y prev h
    unfold lutAdvance
    split
    · rename_i hc
      refine ih _ _ ?_
      rcases Nat.lt_or_ge y s with h' | h'
      · exact h'
      · rw [le_antisymm h h'] at hc
        exact absurd hc.1 (lt_irrefl _)
    · exact h

theorem lut_self_le (a : Nat → Nat) (lut : Nat → Nat) (e : histogramLut a a = some lut) (s : Nat)
    (hs : s < 256) : lut s ≤ s := by
  unfold histogramLut at e
  obtain ⟨st, e', rfl⟩ := Option.map_eq_some_iff.mp e
  obtain ⟨st', e'', h⟩ := forRange_spec (lo := 0) (hi := 256)
    (s := (((0 : Nat), (0 : ℚ)), fun _ : Nat => (0 : Nat)))
    (f := fun s (st : (Nat × ℚ) × (Nat → Nat)) =>
      let sf : ℚ := (a s : ℚ) / (a 255 : ℚ)
      let (y, prev) := lutAdvance (fun y => (a y : ℚ) / (a 255 : ℚ)) sf 255 st.1
      let v := if y = 0 then y
        else if |prev - sf| < |(a y : ℚ) / (a 255 : ℚ) - sf| then y - 1 else y
      some ((y, prev), fun i => if i = s then v else st.2 i))
    (fun k st => (st.1.1 ≤ k) ∧ ∀ s, s < k → st.2 s ≤ s) (by omega) (by simp)
    (by
      rintro k ⟨⟨y, prev⟩, lut⟩ _ hk ⟨h1, h2⟩
      dsimp only at h1 h2 ⊢
      have h3 := lutAdvance_le (fun y => (a y : ℚ) / (a 255 : ℚ)) k 255 y prev h1
      generalize lutAdvance (fun y => (a y : ℚ) / (a 255 : ℚ)) ((a k : ℚ) / (a 255 : ℚ)) 255
        (y, prev) = z at h3
      refine ⟨_, rfl, by dsimp only; omega, fun s hs => ?_⟩
      dsimp only
      split
      · rename_i h; subst h
        split
        · omega
        · split <;> omega
      · exact h2 s (by omega))
  rw [e''] at e'
  obtain rfl := Option.some.inj e'
  exact h.2 s hs

/-- Matching an image with itself, or with an image with the same values, changes nothing. -/
theorem C176_match_self (im t : Image Nat) (h : SameValues t im) (h8 : Is8 im) (hw : 0 < im.w)
    (hh : 0 < im.h) :
    ∃ out, matchHistogram im t = some out ∧ out.w = im.w ∧ out.h = im.h ∧
      ∀ x y, x < im.w → y < im.h → out.px x y = im.px x y := by
  have h' : SameValues im t := fun v => (h v).symm
  obtain ⟨-, -, -, k⟩ := C175_maps h' h8
  rw [← (k im).1]
  obtain ⟨out, e, o1, o2, o3, -⟩ := C19_match_histogram im im h8 h8 hw hh hw hh
  refine ⟨out, e, o1, o2, fun x y hx hy => ?_⟩
  obtain ⟨c1, c2⟩ := o3 x y hx hy
  have hz := c2 (im.px x y) (h8 x y hx hy)
  rw [sub_self, abs_zero] at hz
  have hz : fraction im (out.px x y) = fraction im (im.px x y) := by
    have := abs_eq_zero.mp (le_antisymm hz (abs_nonneg _))
    linarith
  have hle : out.px x y ≤ im.px x y := by
    unfold matchHistogram at e
    obtain ⟨a, ea, e⟩ := Option.bind_eq_some_iff.mp e
    rw [ea, Option.bind_some] at e
    obtain ⟨lut, el, rfl⟩ := Option.map_eq_some_iff.mp e
    exact lut_self_le _ _ el _ (h8 x y hx hy)
  refine le_antisymm hle ?_
  by_contra hc
  push Not at hc
  have hlt : countPx im (· ≤ out.px x y) < countPx im (· ≤ im.px x y) := by
    refine card_lt_card ⟨fun p hp => ?_, fun hsub => ?_⟩
    · rw [mem_filter] at hp ⊢
      exact ⟨hp.1, hp.2.trans hle⟩
    · have hm : (x, y) ∈ (allPx im.w im.h).filter fun p => im.px p.1 p.2 ≤ im.px x y :=
        mem_filter.mpr ⟨mem_allPx.mpr ⟨hx, hy⟩, le_rfl⟩
      have := hsub hm
      rw [mem_filter] at this
      have := this.2
      dsimp only at this
      omega
  unfold fraction at hz
  have hn : (0 : ℚ) < ((im.w * im.h : Nat) : ℚ) := by exact_mod_cast Nat.mul_pos hw hh
  rw [div_left_inj' hn.ne'] at hz
  have : countPx im (· ≤ out.px x y) = countPx im (· ≤ im.px x y) := by exact_mod_cast hz
  omega

example : SameValues (Image.ofRows 0 [[3, 1, 1]]) (Image.ofRows 0 [[1], [3], [1]]) := by
  intro v
  by_cases h : v < 4
  · revert v; decide
  have k1 : ∀ p ∈ allPx 3 1, (Image.ofRows 0 [[3, 1, 1]]).px p.1 p.2 < 4 := by decide
  have k2 : ∀ p ∈ allPx 1 3, (Image.ofRows 0 [[1], [3], [1]]).px p.1 p.2 < 4 := by decide
  unfold countPx
  rw [filter_eq_empty_iff.mpr, filter_eq_empty_iff.mpr]
  · intro p hp
    have := k2 p hp
    dsimp only
    omega
  · intro p hp
    have := k1 p hp
    dsimp only
    omega

example : ((equalize (Image.ofRows 0 [[1, 2], [2, 9]])).bind equalize).map Image.rows =
    some [[63, 191], [191, 255]] := by decide +kernel

example : otsuLevel (Image.ofRows 0 [[10, 12, 200], [11, 198, 10]]) = some 12 ∧
    otsuLevel (Image.ofRows 0 [[40, 42, 230], [41, 228, 40]]) = some 42 := by decide +kernel

end Verif.Relations
