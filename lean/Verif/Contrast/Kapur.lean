import Verif.Contrast.Otsu
import Mathlib.Algebra.BigOperators.Field
import Mathlib.Analysis.SpecialFunctions.Log.NegMulLog
/-
Model of `kapur_level` (src/contrast.rs:109-171) over exact reals, and property C96.

`f64` is ℝ.  In the code rounding can leave `cum_p` slightly below 1 above the largest occurring
level; exact arithmetic does not show this.  For an empty image the code computes with NaN, fails
every comparison and returns 0; here 0 / 0 = 0 leads to the same result.
-/
namespace Verif.Contrast
open Finset Verif.Stats

/-- `f64::MIN`. -/
noncomputable def f64Min : ℝ := -((2 ^ 53 - 1) * 2 ^ 971)

/-- `a[i] = v`. -/
def updR (a : Nat → ℝ) (i : Nat) (v : ℝ) : Nat → ℝ := fun j => if j = i then v else a j

/-- `cum_p` (src/contrast.rs:130-134). -/
def cumProb (p : Nat → ℝ) : Option (Nat → ℝ) :=
  forRange 1 256 (updR (fun _ => 0) 0 (p 0)) fun i c => some (updR c i (c (i - 1) + p i))

/-- `h` (src/contrast.rs:138-148). -/
noncomputable def cumEntropy (p : Nat → ℝ) : Option (Nat → ℝ) :=
  forRange 1 256 (if p 0 > 0 then updR (fun _ => 0) 0 (-p 0 * Real.log (p 0)) else fun _ => 0)
    fun s h => some (updR h s (if p s > 0 then h (s - 1) - p s * Real.log (p s) else h (s - 1)))

/-- The search (src/contrast.rs:150-168). -/
noncomputable def kapurScan (cumP h : Nat → ℝ) : Option (ℝ × Nat) :=
  forRange 0 256 (f64Min, 0) fun s b =>
    let pq := cumP s * (1 - cumP s)
    if pq ≤ 0 then some b
    else
      let psi := Real.log pq + h s / cumP s + (h 255 - h s) / (1 - cumP s)
      if psi > b.1 then some (psi, s) else some b

/-- `kapur_level` (src/contrast.rs:109-171). -/
noncomputable def kapurLevel (im : Image Nat) : Option Nat :=
  (histogram 1 (gray im)).bind fun hist =>
  (cmul32 im.w im.h).bind fun total =>
  let p : Nat → ℝ := fun i => (hist 0 i : ℝ) / (total : ℝ)
  (cumProb p).bind fun cumP => (cumEntropy p).bind fun h =>
  (kapurScan cumP h).map Prod.snd

/-! ### Specification -/

/-- Shannon entropy of the intensity distribution of the pixels whose intensity satisfies `P`
(`negMulLog q` is `-q ln q`, and 0 for `q = 0`). -/
noncomputable def classEntropy (im : Image Nat) (P : Nat → Prop) [DecidablePred P] : ℝ :=
  ∑ v ∈ (range 256).filter P, Real.negMulLog ((countPx im (· = v) : ℝ) / (countPx im P : ℝ))

/-- Both classes of the split at `t` are non-empty. -/
def Separates (im : Image Nat) (t : Nat) : Prop :=
  0 < countPx im (· ≤ t) ∧ 0 < countPx im (t < ·)

/-- Total entropy of the two classes of the split at `t`. -/
noncomputable def totalEntropy (im : Image Nat) (t : Nat) : ℝ :=
  classEntropy im (· ≤ t) + classEntropy im (t < ·)

/-! ### Lemmas -/

theorem cumProb_spec (p : Nat → ℝ) :
    ∃ c, cumProb p = some c ∧ ∀ i, i < 256 → c i = ∑ v ∈ range (i + 1), p v := by
  unfold cumProb
  obtain ⟨c, e, h⟩ := forRange_spec (lo := 1) (hi := 256) (s := updR (fun _ => 0) 0 (p 0))
    (f := fun i c => some (updR c i (c (i - 1) + p i)))
    (fun n c => ∀ i, i < n → c i = ∑ v ∈ range (i + 1), p v) (by omega)
    (by intro i hi; obtain rfl : i = 0 := by omega
        simp [updR])
    (by
      intro n c h1 _ hc
      refine ⟨_, rfl, ?_⟩
      intro i hi
      unfold updR
      by_cases h : i = n
      · subst h
        rw [if_pos rfl, sum_range_succ, hc (i - 1) (by omega), show i - 1 + 1 = i by omega]
      · rw [if_neg h]
        exact hc i (by omega))
  exact ⟨c, e, h⟩

theorem cumEntropy_spec (p : Nat → ℝ) (hp : ∀ v, 0 ≤ p v) :
    ∃ h, cumEntropy p = some h ∧ ∀ i, i < 256 → h i = ∑ v ∈ range (i + 1), Real.negMulLog (p v) := by
  have key : ∀ v, ¬ p v > 0 → Real.negMulLog (p v) = 0 := by
    intro v hv
    rw [le_antisymm (not_lt.1 hv) (hp v), Real.negMulLog_zero]
  unfold cumEntropy
  obtain ⟨c, e, h⟩ := forRange_spec (lo := 1) (hi := 256)
    (s := if p 0 > 0 then updR (fun _ => 0) 0 (-p 0 * Real.log (p 0)) else fun _ => 0)
    (f := fun s h => some (updR h s (if p s > 0 then h (s - 1) - p s * Real.log (p s) else h (s - 1))))
    (fun n c => ∀ i, i < n → c i = ∑ v ∈ range (i + 1), Real.negMulLog (p v)) (by omega)
    (by
      intro i hi; obtain rfl : i = 0 := by omega
      rw [sum_range_one]
      by_cases h : p 0 > 0
      · rw [if_pos h]; simp [updR, Real.negMulLog]
      · rw [if_neg h, key 0 h])
    (by
      intro n c h1 _ hc
      refine ⟨_, rfl, ?_⟩
      intro i hi
      unfold updR
      by_cases h : i = n
      · subst h
        rw [if_pos rfl, sum_range_succ, hc (i - 1) (by omega), show i - 1 + 1 = i by omega]
        by_cases h : p i > 0
        · rw [if_pos h]; simp only [Real.negMulLog]; ring
        · rw [if_neg h, key i h, add_zero]
      · rw [if_neg h]
        exact hc i (by omega))
  exact ⟨c, e, h⟩

/-- The entropy of a conditioned distribution, equation (17) of the article. -/
theorem entropy_scaled (s : Finset Nat) (p : Nat → ℝ) (hp : ∀ v, 0 ≤ p v) (P : ℝ) (hP : 0 < P)
    (hsum : ∑ v ∈ s, p v = P) :
    ∑ v ∈ s, Real.negMulLog (p v / P) = Real.log P + (∑ v ∈ s, Real.negMulLog (p v)) / P := by
  have h1 : ∀ v, Real.negMulLog (p v / P) = p v / P * Real.log P + Real.negMulLog (p v) / P := by
    intro v
    rcases (hp v).eq_or_lt with h | h
    · rw [← h]; simp
    · simp only [Real.negMulLog]
      rw [Real.log_div h.ne' hP.ne']
      ring
  rw [sum_congr rfl (fun v _ => h1 v), sum_add_distrib, ← sum_mul, ← sum_div, ← sum_div, hsum,
    div_self hP.ne', one_mul]

theorem count_eq_sum (im : Image Nat) (h8 : Is8 im) (P : Nat → Prop) [DecidablePred P] :
    countPx im P = ∑ v ∈ (range 256).filter P, countPx im (· = v) := by
  unfold countPx
  rw [← card_biUnion]
  · congr 1
    ext p
    simp only [mem_filter, mem_biUnion, mem_range]
    constructor
    · rintro ⟨h1, h2⟩
      have := mem_allPx.1 h1
      exact ⟨_, ⟨h8 _ _ this.1 this.2, h2⟩, h1, rfl⟩
    · rintro ⟨v, ⟨_, h2⟩, h3, h4⟩
      exact ⟨h3, h4 ▸ h2⟩
  · intro a _ b _ hab
    simp only [Function.onFun]
    rw [disjoint_filter]
    intro p _ h1 h2
    exact hab (h1.symm.trans h2)

theorem filter_le_eq (t : Nat) (ht : t < 256) :
    (range 256).filter (· ≤ t) = range (t + 1) := by
  ext v; simp only [mem_filter, mem_range]; omega

theorem sum_gt (f : Nat → ℝ) (t : Nat) (ht : t < 256) :
    ∑ v ∈ (range 256).filter (t < ·), f v =
      ∑ v ∈ range 256, f v - ∑ v ∈ range (t + 1), f v := by
  rw [← filter_le_eq t ht, eq_sub_iff_add_eq, add_comm]
  simp only [← not_le]
  exact sum_filter_add_sum_filter_not _ _ _

theorem classEntropy_nonneg (im : Image Nat) (h8 : Is8 im) (P : Nat → Prop) [DecidablePred P] :
    0 ≤ classEntropy im P := by
  apply sum_nonneg
  intro v hv
  have h := count_eq_sum im h8 P
  have h2 : countPx im (· = v) ≤ countPx im P := by
    rw [h]; exact single_le_sum (f := fun v => countPx im (· = v)) (fun _ _ => Nat.zero_le _) hv
  apply Real.negMulLog_nonneg (by positivity)
  apply div_le_one_of_le₀ (by exact_mod_cast h2) (by positivity)

/-- The value computed by the search is the total entropy of the two classes. -/
theorem psi_eq (im : Image Nat) (h8 : Is8 im) (t : Nat) (ht : t < 256) (hs : Separates im t)
    (p : Nat → ℝ) (hp : ∀ v, p v = (countPx im (· = v) : ℝ) / ((im.w * im.h : Nat) : ℝ)) :
    let c := ∑ v ∈ range (t + 1), p v
    let h := ∑ v ∈ range (t + 1), Real.negMulLog (p v)
    let hn := ∑ v ∈ range 256, Real.negMulLog (p v)
    Real.log (c * (1 - c)) + h / c + (hn - h) / (1 - c) = totalEntropy im t := by
  dsimp only
  have hN : 0 < ((im.w * im.h : Nat) : ℝ) := by
    have := count_split im t; have := hs.1
    exact_mod_cast (show 0 < im.w * im.h by omega)
  have hp0 : ∀ v, 0 ≤ p v := fun v => by rw [hp]; positivity
  have e1 : ∑ v ∈ range (t + 1), p v = (countPx im (· ≤ t) : ℝ) / ((im.w * im.h : Nat) : ℝ) := by
    rw [count_eq_sum im h8 (· ≤ t), filter_le_eq t ht, sum_congr rfl (fun v _ => hp v), ← sum_div]
    push_cast; rfl
  have e2 : ∑ v ∈ (range 256).filter (t < ·), p v =
      (countPx im (t < ·) : ℝ) / ((im.w * im.h : Nat) : ℝ) := by
    rw [count_eq_sum im h8 (t < ·), sum_congr rfl (fun v _ => hp v), ← sum_div]
    push_cast; rfl
  have e3 : 1 - ∑ v ∈ range (t + 1), p v = ∑ v ∈ (range 256).filter (t < ·), p v := by
    rw [e1, e2, eq_div_iff hN.ne', sub_mul, div_mul_cancel₀ _ hN.ne', one_mul]
    have := count_split im t
    have h : ((im.w * im.h : Nat) : ℝ) = countPx im (· ≤ t) + countPx im (t < ·) := by
      rw [← this]; push_cast; rfl
    rw [h]; ring
  have c1 : 0 < ∑ v ∈ range (t + 1), p v := by
    rw [e1]; exact div_pos (by exact_mod_cast hs.1) hN
  have c2 : 0 < ∑ v ∈ (range 256).filter (t < ·), p v := by
    rw [e2]; exact div_pos (by exact_mod_cast hs.2) hN
  have q : ∀ (a : Nat) (v : Nat), (countPx im (· = v) : ℝ) / (a : ℝ) =
      p v / ((a : ℝ) / ((im.w * im.h : Nat) : ℝ)) := by
    intro a v
    rw [hp, div_div_div_cancel_right₀ hN.ne']
  rw [e3, Real.log_mul c1.ne' c2.ne', ← sum_gt _ t ht]
  have t1 := entropy_scaled (range (t + 1)) p hp0 _ c1 rfl
  have t2 := entropy_scaled ((range 256).filter (t < ·)) p hp0 _ c2 rfl
  unfold totalEntropy classEntropy
  have u1 : ∀ v, Real.negMulLog ((countPx im (· = v) : ℝ) / (countPx im (· ≤ t) : ℝ)) =
      Real.negMulLog (p v / ∑ v ∈ range (t + 1), p v) := fun v => by rw [q, ← e1]
  have u2 : ∀ v, Real.negMulLog ((countPx im (· = v) : ℝ) / (countPx im (t < ·) : ℝ)) =
      Real.negMulLog (p v / ∑ v ∈ (range 256).filter (t < ·), p v) := fun v => by rw [q, ← e2]
  rw [filter_le_eq t ht, sum_congr rfl (fun v _ => u1 v), sum_congr rfl (fun v _ => u2 v), t1, t2]
  ring

/-- C96: the Kapur level of every 8-bit image (below 2^32 pixels) separates the image into two
non-empty classes whenever some level does, maximises the total entropy of the two classes among
the levels that do, and is the smallest such level; otherwise it is 0. -/
theorem C96_kapur (im : Image Nat) (h8 : Is8 im) (hfit : im.w * im.h < 2 ^ 32) :
    ∃ r, kapurLevel im = some r ∧ r < 256 ∧
      ((∀ u, u < 256 → ¬ Separates im u) → r = 0) ∧
      ∀ u, u < 256 → Separates im u → Separates im r ∧ totalEntropy im u ≤ totalEntropy im r ∧
        (u < r → totalEntropy im u < totalEntropy im r) := by
  obtain ⟨hist, e, hh⟩ := C12_histogram 1 (gray im) (is8c_gray h8)
  have hh' : ∀ v, hist 0 v = countPx im (· = v) := fun v => hh 0 v (by omega)
  unfold kapurLevel
  rw [e, Option.bind_some, cmul32, if_pos hfit, Option.bind_some]
  dsimp only
  simp only [hh']
  set p : Nat → ℝ := fun i => (countPx im (· = i) : ℝ) / ((im.w * im.h : Nat) : ℝ) with hpdef
  have hp0 : ∀ v, 0 ≤ p v := fun v => by rw [hpdef]; positivity
  obtain ⟨c, ec, hc⟩ := cumProb_spec p
  obtain ⟨h, eh, hhh⟩ := cumEntropy_spec p hp0
  rw [ec, Option.bind_some, eh, Option.bind_some]
  have csep : ∀ t, t < 256 → (c t * (1 - c t) ≤ 0 ↔ ¬ Separates im t) := by
    intro t ht
    have e1 : c t = (countPx im (· ≤ t) : ℝ) / ((im.w * im.h : Nat) : ℝ) := by
      rw [hc t ht, count_eq_sum im h8 (· ≤ t), filter_le_eq t ht, hpdef, ← sum_div]
      push_cast; rfl
    have hsp := count_split im t
    rcases Nat.eq_zero_or_pos (im.w * im.h) with h0 | hpos
    · rw [e1, h0]
      unfold Separates
      simp only [Nat.cast_zero, div_zero, zero_mul, le_refl, true_iff]
      omega
    · have hN : 0 < ((im.w * im.h : Nat) : ℝ) := by exact_mod_cast hpos
      have e2 : 1 - c t = (countPx im (t < ·) : ℝ) / ((im.w * im.h : Nat) : ℝ) := by
        rw [e1, eq_div_iff hN.ne', sub_mul, div_mul_cancel₀ _ hN.ne', one_mul]
        have h : ((im.w * im.h : Nat) : ℝ) = countPx im (· ≤ t) + countPx im (t < ·) := by
          rw [← hsp]; push_cast; rfl
        rw [h]; ring
      rw [e2, e1]
      unfold Separates
      constructor
      · intro hle ⟨a1, a2⟩
        have b1 : (0 : ℝ) < countPx im (· ≤ t) := by exact_mod_cast a1
        have b2 : (0 : ℝ) < countPx im (t < ·) := by exact_mod_cast a2
        exact absurd hle (not_le.2 (mul_pos (div_pos b1 hN) (div_pos b2 hN)))
      · intro hns
        have : countPx im (· ≤ t) = 0 ∨ countPx im (t < ·) = 0 := by omega
        rcases this with h | h <;> rw [h] <;> simp
  unfold kapurScan
  obtain ⟨r, er, h1, h2, h3⟩ := forRange_spec (lo := 0) (hi := 256) (s := (f64Min, 0))
    (f := fun s (b : ℝ × Nat) =>
      let pq := c s * (1 - c s)
      if pq ≤ 0 then some b
      else
        let psi := Real.log pq + h s / c s + (h 255 - h s) / (1 - c s)
        if psi > b.1 then some (psi, s) else some b)
    (fun n b => (b.2 < n ∨ b.2 = 0) ∧
      ((∀ u, u < n → ¬ Separates im u) → b = (f64Min, 0)) ∧
      ∀ u, u < n → Separates im u → Separates im b.2 ∧ b.1 = totalEntropy im b.2 ∧
        totalEntropy im u ≤ totalEntropy im b.2 ∧
        (u < b.2 → totalEntropy im u < totalEntropy im b.2)) (by omega)
    (by
      refine ⟨Or.inr rfl, fun _ => rfl, ?_⟩
      intro u hu; omega)
    (by
      rintro n b - hn ⟨i1, i2, i3⟩
      dsimp only
      by_cases hsep : Separates im n
      · rw [if_neg (fun hle => (csep n hn).1 hle hsep), hc n hn, hhh n hn, hhh 255 (by omega)]
        have hpsi := psi_eq im h8 n hn hsep p (fun _ => rfl)
        dsimp only at hpsi
        rw [hpsi]
        have hnn : f64Min < totalEntropy im n := by
          have a1 := classEntropy_nonneg im h8 (· ≤ n)
          have a2 := classEntropy_nonneg im h8 (n < ·)
          have a3 : f64Min < 0 := by unfold f64Min; norm_num
          unfold totalEntropy; linarith
        by_cases hgt : totalEntropy im n > b.1
        · rw [if_pos hgt]
          refine ⟨_, rfl, Or.inl (by dsimp only; omega), fun hall => absurd hsep (hall n (by omega)), ?_⟩
          intro u hu hus
          refine ⟨hsep, rfl, ?_⟩
          by_cases hun : u = n
          · subst hun; exact ⟨le_rfl, fun h => absurd h (lt_irrefl _)⟩
          · obtain ⟨j1, j2, j3, j4⟩ := i3 u (by omega) hus
            rw [j2] at hgt
            exact ⟨(j3.trans_lt hgt).le, fun _ => j3.trans_lt hgt⟩
        · rw [if_neg hgt]
          refine ⟨_, rfl, by omega, fun hall => absurd hsep (hall n (by omega)), ?_⟩
          by_cases hex : ∃ u, u < n ∧ Separates im u
          · obtain ⟨u0, hu0, hs0⟩ := hex
            obtain ⟨j1, j2, j3, j4⟩ := i3 u0 hu0 hs0
            have hble : b.2 < n := by omega
            intro u hu hus
            by_cases hun : u = n
            · subst hun
              refine ⟨j1, j2, ?_, fun h => by omega⟩
              rw [← j2]; exact not_lt.1 hgt
            · exact i3 u (by omega) hus
          · have hb := i2 (fun u hu hs => hex ⟨u, hu, hs⟩)
            rw [hb] at hgt
            exact absurd hnn hgt
      · rw [if_pos ((csep n hn).2 hsep)]
        refine ⟨_, rfl, by omega, ?_, ?_⟩
        · intro hall; exact i2 (fun u hu => hall u (by omega))
        · intro u hu hus
          by_cases hun : u = n
          · subst hun; exact absurd hus hsep
          · exact i3 u (by omega) hus)
  refine ⟨r.2, by rw [er]; rfl, by omega, ?_, ?_⟩
  · intro hall; rw [h2 hall]
  · intro u hu hus
    obtain ⟨j1, _, j3, j4⟩ := h3 u hu hus
    exact ⟨j1, j3, j4⟩

/-- Four pixels with intensities 0, 1, 2, 2. -/
def kapurIm : Image Nat := ⟨4, 1, fun x _ => min x 2⟩

theorem kapurIm_class (P : Nat → Prop) [DecidablePred P] :
    classEntropy kapurIm P = ∑ v ∈ (range 3).filter P,
      Real.negMulLog ((countPx kapurIm (· = v) : ℝ) / (countPx kapurIm P : ℝ)) := by
  unfold classEntropy
  symm
  apply sum_subset
  · intro v hv
    rw [mem_filter, mem_range] at hv ⊢
    exact ⟨by omega, hv.2⟩
  · intro v hv hn
    have h0 : countPx kapurIm (· = v) = 0 := by
      unfold countPx
      rw [card_eq_zero, filter_eq_empty_iff]
      intro q _ h
      simp only [mem_filter, mem_range, not_and] at hv hn
      have : v < 3 := by simp only [kapurIm] at h; omega
      exact hn this hv.2
    rw [h0]; simp

/-- Splitting 0, 1, 2, 2 after 1 gives entropy ln 2 + 0, splitting after 0 gives less, and no other
split is possible: the level is 1. -/
example : kapurLevel kapurIm = some 1 := by
  obtain ⟨r, e, hr, -, h⟩ := C96_kapur kapurIm (by intro x y _ _; simp only [kapurIm]; omega)
    (by decide)
  have s1 : Separates kapurIm 1 := by unfold Separates; decide +kernel
  obtain ⟨h1, h2, -⟩ := h 1 (by omega) s1
  have hr2 : r < 2 := by
    by_contra hc
    have h4 : countPx kapurIm (r < ·) = 0 := by
      unfold countPx
      rw [card_eq_zero, filter_eq_empty_iff]
      intro q _ h
      simp only [kapurIm] at h; omega
    have := h1.2
    omega
  have hne : r ≠ 0 := by
    rintro rfl
    unfold totalEntropy at h2
    simp only [kapurIm_class] at h2
    have c0 : countPx kapurIm (· = 0) = 1 := by decide +kernel
    have c1 : countPx kapurIm (· = 1) = 1 := by decide +kernel
    have c2 : countPx kapurIm (· = 2) = 2 := by decide +kernel
    have d0 : countPx kapurIm (· ≤ 0) = 1 := by decide +kernel
    have d1 : countPx kapurIm (· ≤ 1) = 2 := by decide +kernel
    have d2 : countPx kapurIm (0 < ·) = 3 := by decide +kernel
    have d3 : countPx kapurIm (1 < ·) = 2 := by decide +kernel
    have f0 : (range 3).filter (· ≤ 0) = {0} := by decide
    have f1 : (range 3).filter (· ≤ 1) = {0, 1} := by decide
    have f2 : (range 3).filter (0 < ·) = {1, 2} := by decide
    have f3 : (range 3).filter (1 < ·) = {2} := by decide
    rw [f0, f1, f2, f3, d0, d1, d2, d3, sum_singleton, sum_singleton, sum_pair (by decide),
      sum_pair (by decide), c0, c1, c2] at h2
    have l3 : Real.log (2 / 3) = Real.log 2 - Real.log 3 := Real.log_div (by norm_num) (by norm_num)
    simp only [Real.negMulLog, Nat.cast_one, Nat.cast_ofNat, div_self (two_ne_zero' ℝ), l3,
      one_div, Real.log_inv, div_one, Real.log_one] at h2
    have h5 : 5 * Real.log 2 ≤ 3 * Real.log 3 := by linarith
    have e1 : 5 * Real.log 2 = Real.log 32 := by
      rw [show (32 : ℝ) = 2 ^ 5 by norm_num, Real.log_pow]; norm_num
    have e2 : 3 * Real.log 3 = Real.log 27 := by
      rw [show (27 : ℝ) = 3 ^ 3 by norm_num, Real.log_pow]; norm_num
    rw [e1, e2] at h5
    exact absurd h5 (not_le.2 (Real.log_lt_log (by norm_num) (by norm_num)))
  rw [e, show r = 1 by omega]

end Verif.Contrast
