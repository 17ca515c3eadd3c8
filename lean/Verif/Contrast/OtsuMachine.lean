import Verif.Contrast.Otsu
import Verif.Stats.Machine
/-
`otsu_level` (src/contrast.rs:52-103) with the `u32` arithmetic of its counts, weights and products, in debug
builds (overflow panics) and release builds (overflow wraps).  Property theorem C193.
-/
namespace Verif.Contrast
open Finset Verif.Stats

/-! ### The model -/

/-- `a - b` in `u32`. -/
def sub32 (dbg : Bool) (a b : Nat) : Option Nat :=
  if b ≤ a then some (a - b) else if dbg then none else some ((a + 2 ^ 32 - b) % 2 ^ 32)

/-- The scan of `otsu_level` (src/contrast.rs:75-100) in `u32`; see `otsuScanWith`. -/
def otsuScan32 (dbg : Bool) (r : ℚ → ℚ) (val : Nat → Nat → ℚ → ℚ → ℚ) (hist : Nat → Nat) (totalWeight : Nat)
    (totalSum : ℚ) : Nat → Nat → OtsuState → Option OtsuState
  | 0, _, s => some s
  | k + 1, t, s =>
    (u32 dbg (s.bw + hist t)).bind fun bw =>
    if bw = 0 then otsuScan32 dbg r val hist totalWeight totalSum k (t + 1) { s with bw := bw }
    else
      (sub32 dbg totalWeight bw).bind fun fw =>
      if fw = 0 then some { s with bw := bw }
      else
        (u32 dbg (t * hist t)).bind fun prod =>
        let bsum := r (s.bsum + (prod : ℚ))
        let fsum := r (totalSum - bsum)
        let v := val bw fw bsum fsum
        otsuScan32 dbg r val hist totalWeight totalSum k (t + 1)
          (if v > s.largest then ⟨bw, bsum, v, t⟩ else ⟨bw, bsum, s.largest, s.best⟩)

/-- `otsu_level` (src/contrast.rs:52-103) in `u32`; rounding and variance as parameters. -/
def otsuLevel32With (dbg : Bool) (r : ℚ → ℚ) (val : Nat → Nat → ℚ → ℚ → ℚ) (im : Image Nat) : Option Nat :=
  (histogram32 dbg 1 (gray im)).bind fun hist =>
  (u32 dbg (im.w * im.h)).bind fun totalWeight =>
  (forRange 0 256 (0 : ℚ) fun t sum => (u32 dbg (t * hist 0 t)).map fun p => r (sum + (p : ℚ))).bind
    fun totalSum =>
  (otsuScan32 dbg r val (hist 0) totalWeight totalSum 256 0 ⟨0, 0, 0, 0⟩).map OtsuState.best

/-- `otsu_level` (src/contrast.rs:52-103) in `u32`, with `f64` as rationals. -/
def otsuLevel32 (dbg : Bool) (im : Image Nat) : Option Nat := otsuLevel32With dbg (fun x => x) otsuVal im

/-! ### Images that fit -/

theorem otsuScan32_eq (dbg : Bool) (r : ℚ → ℚ) (val : Nat → Nat → ℚ → ℚ → ℚ) (hist : Nat → Nat) (W : Nat)
    (S : ℚ) (hW : W < 2 ^ 32) : ∀ (k t : Nat) (s : OtsuState), s.bw + ∑ i ∈ range k, hist (t + i) ≤ W →
      (∀ i, i < k → (t + i) * hist (t + i) < 2 ^ 32) →
      otsuScan32 dbg r val hist W S k t s = otsuScanWith r val hist W S k t s
  | 0, _, _, _, _ => rfl
  | k + 1, t, s, h, hp => by
    rw [sum_range_succ'] at h
    simp only [Nat.add_zero] at h
    have hb : s.bw + hist t ≤ W := by omega
    have h' : (s.bw + hist t) + ∑ i ∈ range k, hist (t + 1 + i) ≤ W := by
      simp only [Nat.add_right_comm t 1, ← Nat.add_assoc] at h ⊢
      omega
    have hp' : ∀ i, i < k → (t + 1 + i) * hist (t + 1 + i) < 2 ^ 32 := by
      intro i hi
      have := hp (i + 1) (by omega)
      rwa [show t + (i + 1) = t + 1 + i by omega] at this
    have ih := otsuScan32_eq dbg r val hist W S hW k (t + 1)
    rw [otsuScan32, otsuScanWith, u32_of_lt (by omega), Option.bind_some]
    dsimp only
    have hp0 : t * hist t < 2 ^ 32 := by simpa using hp 0 (by omega)
    rw [sub32, if_pos hb, csub_of_le hb, Option.bind_some, Option.bind_some]
    by_cases h0 : s.bw + hist t = 0
    · rw [if_pos h0, if_pos h0]
      exact ih _ h' hp'
    rw [if_neg h0, if_neg h0]
    by_cases h1 : W - (s.bw + hist t) = 0
    · rw [if_pos h1, if_pos h1]
    rw [if_neg h1, if_neg h1, u32_of_lt hp0, cmul32, if_pos hp0, Option.bind_some, Option.bind_some]
    refine ih _ ?_ hp'
    split_ifs <;> exact h'

theorem sum_hist (im : Image Nat) : ∀ n, ∑ v ∈ range n, countPx im (· = v) = countPx im (· < n)
  | 0 => by simp [countPx]
  | n + 1 => by rw [sum_range_succ, sum_hist im n, lt_succ_count, count_le_succ]

/-- **C193.** While the number of pixels and every level times the number of its pixels fit in a `u32`, both build
profiles compute what unbounded integers give, with any rounding of the floating-point operations. -/
theorem C193_fits (dbg : Bool) (r : ℚ → ℚ) (val : Nat → Nat → ℚ → ℚ → ℚ) (im : Image Nat) (h8 : Is8 im)
    (hf : OtsuFits im) : otsuLevel32With dbg r val im = otsuLevelWith r val im := by
  obtain ⟨hist, e, hh⟩ := C12_histogram 1 (gray im) (is8c_gray h8)
  have hh' : ∀ v, hist 0 v = countPx im (· = v) := fun v => hh 0 v (by omega)
  obtain ⟨hist', e', hh2⟩ := C190_histogram_fits dbg 1 (gray im) (is8c_gray h8)
    (fun c v _ => lt_of_le_of_lt (countPx_le _ _) hf.1)
  have heq : hist' 0 = hist 0 := funext fun v => by rw [hh 0 v (by omega), hh2 0 v (by omega)]
  unfold otsuLevel32With otsuLevelWith
  rw [e, e', Option.bind_some, Option.bind_some, u32_of_lt hf.1, cmul32, if_pos hf.1, Option.bind_some,
    Option.bind_some, heq]
  have hl : (forRange 0 256 (0 : ℚ) fun t sum => (u32 dbg (t * hist 0 t)).map fun p => r (sum + (p : ℚ))) =
      forRange 0 256 (0 : ℚ) fun t sum => (cmul32 t (hist 0 t)).map fun p => r (sum + (p : ℚ)) := by
    refine (forCount_image id 256 0 (0 : ℚ) fun t sum _ ht => ?_).trans Option.map_id'
    have := hf.2 t (by omega)
    rw [← hh'] at this
    rw [id_eq, u32_of_lt this, cmul32, if_pos this, Option.map_id_fun, id_eq]
  rw [hl]
  congr 1
  funext S
  rw [otsuScan32_eq dbg r val (hist 0) (im.w * im.h) S hf.1 256 0 ⟨0, 0, 0, 0⟩]
  · simp only [Nat.zero_add, hh', sum_hist]
    exact countPx_le im _
  · intro i hi
    rw [Nat.zero_add, hh']
    exact hf.2 i hi

/-- **C193.** So for these images the level is the smallest maximiser of the between-class variance. -/
theorem C193_otsu (dbg : Bool) (im : Image Nat) (h8 : Is8 im) (hf : OtsuFits im) :
    ∃ l, otsuLevel32 dbg im = some l ∧ l < 256 ∧
      (∀ u, u < 256 → betweenClass im u ≤ betweenClass im l) ∧
      ∀ u, u < l → betweenClass im u < betweenClass im l := by
  unfold otsuLevel32
  rw [C193_fits dbg _ _ im h8 hf]
  exact otsuLevelWith_spec (fun x => x) (fun _ _ => rfl) otsuVal (betweenClass im) im h8 hf
    (fun _ _ _ => rfl) (betweenClass_zero im) (betweenClass_nonneg im)

/-! ### Images that do not fit -/

theorem forCount_step {σ : Type _} {f : Nat → σ → Option σ} : ∀ (k i : Nat) (s t : σ), forCount f k i s = some t →
    ∀ v, i ≤ v → v < i + k → ∃ a b, f v a = some b
  | 0, i, s, t, _, v, h1, h2 => by omega
  | k + 1, i, s, t, e, v, h1, h2 => by
    simp only [forCount, Option.bind_eq_some_iff] at e
    obtain ⟨u, e1, e2⟩ := e
    rcases Nat.eq_or_lt_of_le h1 with rfl | h
    · exact ⟨s, u, e1⟩
    · exact forCount_step k (i + 1) u t e2 v (by omega) (by omega)

/-- **C193.** A debug build panics on every other image. -/
theorem C193_panics (r : ℚ → ℚ) (val : Nat → Nat → ℚ → ℚ → ℚ) (im : Image Nat) (h8 : Is8 im)
    (hf : ¬ OtsuFits im) : otsuLevel32With true r val im = none := by
  unfold otsuLevel32With
  by_cases hsz : im.w * im.h < 2 ^ 32
  · obtain ⟨hist, e, hh⟩ := C190_histogram_fits true 1 (gray im) (is8c_gray h8)
      (fun c v _ => lt_of_le_of_lt (countPx_le _ _) hsz)
    rw [e, Option.bind_some, u32_of_lt hsz, Option.bind_some]
    cases e2 : (forRange 0 256 (0 : ℚ) fun t sum =>
      (u32 true (t * hist 0 t)).map fun p => r (sum + (p : ℚ))) with
    | none => rfl
    | some S =>
      refine absurd ⟨hsz, fun v hv => ?_⟩ hf
      obtain ⟨a, b, e3⟩ := forCount_step _ _ _ _ e2 v (Nat.zero_le _) (by omega)
      by_contra hc
      rw [u32_debug_none (by rw [hh 0 v (by omega)]; exact hc)] at e3
      cases e3
  · cases histogram32 true 1 (gray im) with
    | none => rfl
    | some hist => rw [Option.bind_some, u32_debug_none hsz]; rfl

example : otsuLevel32 false (Image.ofRows 0 [[10, 12, 200], [11, 198, 10]]) = some 12 ∧
    otsuLevel32 true (Image.ofRows 0 [[10, 12, 200], [11, 198, 10]]) = some 12 := by decide +kernel

/-- A picture of `4105 × 8315` pixels (34 million): 4200 black rows, 10 rows of level 100, 4105 white rows. -/
def bands : Image Nat := Image.ofFn 4105 8315 fun _ y => if y < 4200 then 0 else if y < 4210 then 100 else 255

theorem bands_px (x y : Nat) : bands.px x y = if y < 4200 then 0 else if y < 4210 then 100 else 255 := rfl

theorem bands_sum (g : Nat → Nat) : ∑ p ∈ allPx bands.w bands.h, g (bands.px p.1 p.2) =
    4105 * (4200 * g 0 + 10 * g 100 + 4105 * g 255) := by
  have h1 : ∑ y ∈ range 8315, g (bands.px 0 y) = 4200 * g 0 + 10 * g 100 + 4105 * g 255 := by
    rw [range_eq_Ico, ← sum_Ico_consecutive _ (show 0 ≤ 4210 by norm_num) (show 4210 ≤ 8315 by norm_num),
      ← sum_Ico_consecutive _ (show 0 ≤ 4200 by norm_num) (show 4200 ≤ 4210 by norm_num),
      sum_congr rfl (g := fun _ => g 0), sum_congr (s₁ := Ico 4200 4210) rfl (g := fun _ => g 100),
      sum_congr (s₁ := Ico 4210 8315) rfl (g := fun _ => g 255)]
    · simp only [sum_const, Nat.card_Ico, smul_eq_mul]
    · intro y hy
      have := mem_Ico.1 hy
      rw [bands_px, if_neg (by omega), if_neg (by omega)]
    · intro y hy
      have := mem_Ico.1 hy
      rw [bands_px, if_neg (by omega), if_pos (by omega)]
    · intro y hy
      have := mem_Ico.1 hy
      rw [bands_px, if_pos (by omega)]
  rw [← h1]
  unfold allPx
  rw [sum_product]
  show ∑ x ∈ range 4105, ∑ y ∈ range 8315, g (bands.px 0 y) = _
  rw [sum_const, card_range, smul_eq_mul]

theorem bands_count (P : Nat → Prop) [DecidablePred P] : countPx bands P =
    4105 * (4200 * (if P 0 then 1 else 0) + 10 * (if P 100 then 1 else 0) + 4105 * (if P 255 then 1 else 0)) := by
  unfold countPx
  rw [card_filter]
  exact bands_sum fun v => if P v then 1 else 0

theorem bands_sumPx (P : Nat → Prop) [DecidablePred P] : sumPx bands P =
    4105 * (4200 * (if P 0 then 0 else 0) + 10 * (if P 100 then 100 else 0) +
      4105 * (if P 255 then 255 else 0)) := by
  unfold sumPx
  rw [sum_filter]
  exact bands_sum fun v => if P v then v else 0

theorem bands_is8 : Is8 bands := by
  intro x y _ _
  rw [bands_px]
  split_ifs <;> omega

/-- The counts of `bands`. -/
def bandsHist (v : Nat) : Nat :=
  if v = 0 then 17241000 else if v = 100 then 41050 else if v = 255 then 16851025 else 0

theorem bands_hist (v : Nat) : countPx bands (· = v) = bandsHist v := by
  rw [bands_count, bandsHist]
  by_cases h0 : v = 0
  · subst h0; norm_num
  by_cases h1 : v = 100
  · subst h1; norm_num
  by_cases h2 : v = 255
  · subst h2; norm_num
  rw [if_neg (by omega), if_neg (by omega), if_neg (by omega), if_neg h0, if_neg h1, if_neg h2]

/-- **C193, negation.** On the 34 million pixels of `bands` the product for white wraps in a release build, which
returns level 0 although level 100 separates better; a debug build panics. -/
theorem C193_negation : otsuLevel32 true bands = none ∧ otsuLevel32 false bands = some 0 ∧
    betweenClass bands 0 < betweenClass bands 100 := by
  refine ⟨?_, ?_, ?_⟩
  · refine C193_panics _ _ bands bands_is8 fun h => ?_
    have := h.2 255 (by norm_num)
    rw [bands_hist] at this
    revert this
    decide
  · obtain ⟨hist, e, hh⟩ := C190_histogram_fits false 1 (gray bands) (is8c_gray bands_is8)
      (fun c v _ => lt_of_le_of_lt (countPx_le _ _) (by show 4105 * 8315 < 2 ^ 32; norm_num))
    have heq : hist 0 = bandsHist := funext fun v => by
      rw [hh 0 v (by omega)]; exact bands_hist v
    unfold otsuLevel32 otsuLevel32With
    rw [e, Option.bind_some, show bands.w = 4105 from rfl, show bands.h = 8315 from rfl, heq]
    decide +kernel
  · unfold betweenClass
    simp only [bands_count, bands_sumPx]
    norm_num

end Verif.Contrast
