import Verif.Stats.Props
import Verif.Hough.Votes
/-
`histogram`, `cumulative_histogram`, `percentile`, `mean_squared_error` (src/stats.rs) and
`detect_lines` (src/hough.rs) with the `u32` arithmetic of their counters and sizes, in debug
builds (overflow panics) and release builds (overflow wraps).  Property theorem C190.
-/
namespace Verif.Stats
open Finset

/-! ### The model -/

/-- A `u32` result: debug builds (`dbg`) panic when it does not fit, release builds wrap. -/
def u32 (dbg : Bool) (z : Nat) : Option Nat :=
  if z < 2 ^ 32 then some z else if dbg then none else some (z % 2 ^ 32)

/-- `hist[i][c] += 1` on `u32` counters (src/stats.rs:91). -/
def bump32 (dbg : Bool) (hist : Hist) (i c : Nat) : Option Hist :=
  if c < 256 then (u32 dbg (hist i c + 1)).map fun v a b =>
    if a = i ∧ b = c then v else hist a b else none

/-- `histogram` (src/stats.rs:83-96) on `u32` counters. -/
def histogram32 (dbg : Bool) (n : Nat) (im : Image (Nat → Nat)) : Option Hist :=
  forYX 0 im.h 0 im.w (fun _ _ => 0) fun x y hist =>
    (im.get x y).bind fun pix => forRange 0 n hist fun i hist => bump32 dbg hist i (pix i)

/-- `cumulative_histogram` (src/stats.rs:105-120) on `u32` counters. -/
def cumulativeHistogram32 (dbg : Bool) (n : Nat) (im : Image (Nat → Nat)) : Option Hist :=
  (histogram32 dbg n im).bind fun hist =>
    forRange 0 n hist fun c hist => forRange 1 256 hist fun i hist =>
      (u32 dbg (hist c i + hist c (i - 1))).map fun v a b =>
        if a = c ∧ b = i then v else hist a b

/-- `percentile` (src/stats.rs:156-169) on `u32` counters; the division itself is done in `u64`,
where `100 * u32` always fits. -/
def percentile32 (dbg : Bool) (im : Image Nat) (p : Nat) : Option Nat :=
  if p ≤ 100 then
    (cumulativeHistogram32 dbg 1 (gray im)).bind fun cum =>
      let total := cum 0 255
      if total = 0 then none
      else firstIdx (fun i => decide (p ≤ 100 * cum 0 i / total)) 256 0
  else none

/-- `mean_squared_error` (src/stats.rs:201-221): the sum of squared differences and the `u32`
number it is divided by (l.218).  The two are returned separately, since a divisor of 0 gives
infinity or NaN in the code. -/
def meanSquaredError32 (dbg : Bool) (n : Nat) (a b : Image (Nat → ℚ)) : Option (ℚ × Nat) :=
  if a.w = b.w ∧ a.h = b.h then
    (forYX 0 a.h 0 a.w (0 : ℚ) fun x y s =>
      (a.get x y).bind fun p => (b.get x y).bind fun q =>
        forRange 0 n s fun i s => some (s + (p i - q i) * (p i - q i))).bind fun s =>
    (u32 dbg (a.w * a.h)).bind fun wh => (u32 dbg (wh * n)).map fun count => (s, count)
  else none

theorem u32_of_lt {dbg : Bool} {z : Nat} (h : z < 2 ^ 32) : u32 dbg z = some z := by
  rw [u32, if_pos h]

theorem u32_debug_none {z : Nat} (h : ¬ z < 2 ^ 32) : u32 true z = none := by
  rw [u32, if_neg h]; rfl

theorem u32_release (z : Nat) : u32 false z = some (z % 2 ^ 32) := by
  by_cases h : z < 2 ^ 32
  · rw [u32_of_lt h, Nat.mod_eq_of_lt h]
  · rw [u32, if_neg h]; rfl

/-! ### Loops with a bound -/

/-- A bound on the result of a loop goes back to its start when each step takes it back. -/
theorem forCount_back {σ : Type _} (P : σ → Prop) {g : Nat → σ → Option σ} :
    ∀ (k i : Nat) (s r : σ), (∀ j s t, i ≤ j → j < i + k → g j s = some t → P t → P s) →
      forCount g k i s = some r → P r → P s
  | 0, i, s, r, _, e, hr => by simp only [forCount, Option.some.injEq] at e; rwa [e]
  | k + 1, i, s, r, hm, e, hr => by
    simp only [forCount, Option.bind_eq_some_iff] at e
    obtain ⟨u, e1, e2⟩ := e
    exact hm i s u (le_refl _) (by omega) e1
      (forCount_back P k (i + 1) u r (fun j s t a b => hm j s t (by omega) (by omega)) e2 hr)

/-- A loop whose steps give up when a bound is exceeded, next to the same loop without bound. -/
theorem forCount_guard {σ : Type _} (P : σ → Prop) [DecidablePred P] {f g : Nat → σ → Option σ} :
    ∀ (k i : Nat) (s : σ), P s →
      (∀ j s, i ≤ j → j < i + k → P s → f j s = (g j s).bind fun t => if P t then some t else none) →
      (∀ j s t, i ≤ j → j < i + k → g j s = some t → P t → P s) →
      forCount f k i s = (forCount g k i s).bind fun t => if P t then some t else none
  | 0, i, s, h, _, _ => by simp [forCount, h]
  | k + 1, i, s, h, hf, hm => by
    simp only [forCount]
    rw [hf i s (le_refl _) (by omega) h]
    cases e : g i s with
    | none => rfl
    | some t =>
      simp only [Option.bind_some]
      by_cases ht : P t
      · rw [if_pos ht, Option.bind_some]
        exact forCount_guard P k (i + 1) t ht (fun j s a b => hf j s (by omega) (by omega))
          (fun j s u a b => hm j s u (by omega) (by omega))
      · rw [if_neg ht, Option.bind_none]
        cases e2 : forCount g k (i + 1) t with
        | none => rfl
        | some r =>
          rw [Option.bind_some, if_neg]
          intro hr
          exact ht (forCount_back P k (i + 1) t r (fun j s u a b => hm j s u (by omega) (by omega)) e2 hr)

/-- A loop that runs on an image of the state of another loop. -/
theorem forCount_image {σ τ : Type _} (φ : σ → τ) {f : Nat → τ → Option τ} {g : Nat → σ → Option σ} :
    ∀ (k i : Nat) (s : σ), (∀ j s, i ≤ j → j < i + k → f j (φ s) = (g j s).map φ) →
      forCount f k i (φ s) = (forCount g k i s).map φ
  | 0, _, _, _ => rfl
  | k + 1, i, s, h => by
    simp only [forCount]
    rw [h i s (le_refl _) (by omega)]
    cases g i s with
    | none => rfl
    | some t =>
      exact forCount_image φ k (i + 1) t (fun j s a b => h j s (by omega) (by omega))

/-- All bins fit in `u32`. -/
def Fits (n : Nat) (hist : Hist) : Prop := ∀ c v, c < n → v < 256 → hist c v < 2 ^ 32

noncomputable instance (n : Nat) : DecidablePred (Fits n) := fun _ => Classical.propDecidable _

/-- The bins modulo `2^32`. -/
def wrapped (hist : Hist) : Hist := fun c v => hist c v % 2 ^ 32

theorem bump32_debug {n : Nat} {hist : Hist} {i c : Nat} (hi : i < n) (h : Fits n hist) :
    bump32 true hist i c = (bump hist i c).bind fun t => if Fits n t then some t else none := by
  unfold bump32 bump
  by_cases hc : c < 256
  · rw [if_pos hc, if_pos hc, Option.bind_some]
    by_cases hf : hist i c + 1 < 2 ^ 32
    · rw [u32_of_lt hf, if_pos]
      · rfl
      · intro a b ha hb
        dsimp only
        split_ifs
        · exact hf
        · exact h a b ha hb
    · rw [u32_debug_none hf, if_neg]
      · rfl
      · intro ht
        have := ht i c hi hc
        dsimp only at this
        rw [if_pos ⟨rfl, rfl⟩] at this
        exact hf this
  · rw [if_neg hc, if_neg hc]; rfl

theorem bump_back {n : Nat} {hist t : Hist} {i c : Nat} (e : bump hist i c = some t)
    (h : Fits n t) : Fits n hist := by
  unfold bump at e
  split at e
  · simp only [Option.some.injEq] at e
    subst e
    intro a b ha hb
    have := h a b ha hb
    dsimp only at this
    split_ifs at this with hab
    · rw [hab.1, hab.2]; omega
    · exact this
  · exact absurd e (by simp)

theorem bump32_release (hist : Hist) (i c : Nat) :
    bump32 false (wrapped hist) i c = (bump hist i c).map wrapped := by
  unfold bump32 bump wrapped
  by_cases hc : c < 256
  · rw [if_pos hc, if_pos hc]
    rw [u32_release]
    simp only [Option.map_some, Option.some.injEq]
    funext a b
    split_ifs
    · omega
    · rfl
  · rw [if_neg hc, if_neg hc]; rfl

theorem histogram32_debug (n : Nat) (im : Image (Nat → Nat)) :
    histogram32 true n im = (histogram n im).bind fun t => if Fits n t then some t else none := by
  have pixel_back : ∀ (pix : Nat → Nat) (s t : Hist),
      (forRange 0 n s fun i hist => bump hist i (pix i)) = some t → Fits n t → Fits n s :=
    fun pix s t e h => forCount_back (Fits n) _ _ _ _ (fun j s t _ _ e h => bump_back e h) e h
  have get_back : ∀ x y (s t : Hist), ((im.get x y).bind fun pix =>
      forRange 0 n s fun i hist => bump hist i (pix i)) = some t → Fits n t → Fits n s := by
    intro x y s t e h
    obtain ⟨pix, -, e2⟩ := Option.bind_eq_some_iff.1 e
    exact pixel_back pix s t e2 h
  unfold histogram32 histogram forYX
  refine forCount_guard (Fits n) _ _ _ (fun _ _ _ _ => by norm_num) ?_ ?_
  · intro y s _ _ hs
    refine forCount_guard (Fits n) _ _ _ hs ?_ (fun x s t _ _ e h => get_back x y s t e h)
    intro x s _ _ hs
    dsimp only
    cases im.get x y with
    | none => rfl
    | some pix =>
      simp only [Option.bind_some]
      exact forCount_guard (Fits n) _ _ _ hs (fun i s _ hi hs => bump32_debug (by omega) hs)
        (fun i s t _ _ e h => bump_back e h)
  · intro y s t _ _ e h
    exact forCount_back (Fits n) _ _ _ _ (fun x s t _ _ e h => get_back x y s t e h) e h

theorem histogram32_release (n : Nat) (im : Image (Nat → Nat)) :
    histogram32 false n im = (histogram n im).map wrapped := by
  unfold histogram32 histogram forYX
  refine (congrArg (fun s => forRange 0 im.h s _) (show (fun _ _ => 0 : Hist) =
    wrapped fun _ _ => 0 from rfl)).trans ?_
  refine forCount_image wrapped _ _ _ fun y s _ _ => ?_
  refine forCount_image wrapped _ _ _ fun x s _ _ => ?_
  dsimp only
  cases im.get x y with
  | none => rfl
  | some pix =>
    exact forCount_image wrapped _ _ _ fun i s _ _ => bump32_release s i (pix i)

/-- The cumulative histogram from the histogram, as in the exact model. -/
private def cumStep (c i : Nat) (hist : Hist) : Option Hist :=
  some fun a b => if a = c ∧ b = i then hist c i + hist c (i - 1) else hist a b

private theorem cumStep_back {n c i : Nat} {s t : Hist} (e : cumStep c i s = some t)
    (h : Fits n t) : Fits n s := by
  unfold cumStep at e
  simp only [Option.some.injEq] at e
  subst e
  intro a b ha hb
  have := h a b ha hb
  dsimp only at this
  split_ifs at this with hab
  · rw [hab.1, hab.2]; omega
  · exact this

theorem cumulative32_debug (n : Nat) (im : Image (Nat → Nat)) :
    cumulativeHistogram32 true n im =
      (cumulativeHistogram n im).bind fun t => if Fits n t then some t else none := by
  unfold cumulativeHistogram32 cumulativeHistogram
  rw [histogram32_debug]
  cases histogram n im with
  | none => rfl
  | some hist =>
    simp only [Option.bind_some]
    by_cases hf : Fits n hist
    · rw [if_pos hf, Option.bind_some]
      refine forCount_guard (Fits n) _ _ _ hf ?_ ?_
      · intro c s _ hc hs
        refine forCount_guard (Fits n) _ _ _ hs ?_ (fun i s t _ _ e h => cumStep_back e h)
        intro i s _ hi hs
        rw [Option.bind_some]
        by_cases h : s c i + s c (i - 1) < 2 ^ 32
        · rw [u32_of_lt h, if_pos]
          · rfl
          · intro a b ha hb
            dsimp only
            split_ifs
            · exact h
            · exact hs a b ha hb
        · rw [u32_debug_none h, if_neg]
          · rfl
          · intro ht
            have := ht c i (by omega) (by omega)
            dsimp only at this
            rw [if_pos ⟨rfl, rfl⟩] at this
            exact h this
      · intro c s t _ _ e h
        exact forCount_back (Fits n) _ _ _ _ (fun i s t _ _ e h => cumStep_back e h) e h
    · rw [if_neg hf, Option.bind_none]
      cases e : (forRange 0 n hist fun c hist => forRange 1 256 hist fun i hist =>
        some fun a b => if a = c ∧ b = i then hist c i + hist c (i - 1) else hist a b) with
      | none => rfl
      | some r =>
        rw [Option.bind_some, if_neg]
        intro hr
        refine hf (forCount_back (Fits n) _ _ _ _ ?_ e hr)
        intro c s t _ _ e h
        exact forCount_back (Fits n) _ _ _ _ (fun i s t _ _ e h => cumStep_back e h) e h

theorem cumulative32_release (n : Nat) (im : Image (Nat → Nat)) :
    cumulativeHistogram32 false n im = (cumulativeHistogram n im).map wrapped := by
  unfold cumulativeHistogram32 cumulativeHistogram
  rw [histogram32_release]
  cases histogram n im with
  | none => rfl
  | some hist =>
    refine forCount_image wrapped _ _ _ fun c s _ _ => ?_
    refine forCount_image wrapped _ _ _ fun i s _ _ => ?_
    unfold wrapped
    rw [u32_release]
    simp only [Option.map_some, Option.some.injEq]
    funext a b
    split_ifs
    · omega
    · rfl

/-! ### Histograms -/

/-- C190: while no intensity occurs `2^32` times in a channel, the histogram is exact in every
build profile. -/
theorem C190_histogram_fits (dbg : Bool) (n : Nat) (im : Image (Nat → Nat)) (h : Is8c n im)
    (hf : ∀ c v, c < n → countPx im (fun pix => pix c = v) < 2 ^ 32) :
    ∃ hist, histogram32 dbg n im = some hist ∧
      ∀ c v, c < n → hist c v = countPx im (fun pix => pix c = v) := by
  obtain ⟨hist, e, hh⟩ := C12_histogram n im h
  cases dbg
  · refine ⟨wrapped hist, by rw [histogram32_release, e]; rfl, fun c v hc => ?_⟩
    rw [wrapped, hh c v hc, Nat.mod_eq_of_lt (hf c v hc)]
  · refine ⟨hist, ?_, hh⟩
    rw [histogram32_debug, e, Option.bind_some, if_pos]
    intro c v hc _
    rw [hh c v hc]
    exact hf c v hc

/-- C190: otherwise debug builds panic, -/
theorem C190_histogram_panics (n : Nat) (im : Image (Nat → Nat)) (h : Is8c n im) (c v : Nat)
    (hc : c < n) (hv : v < 256) (ho : 2 ^ 32 ≤ countPx im (fun pix => pix c = v)) :
    histogram32 true n im = none := by
  obtain ⟨hist, e, hh⟩ := C12_histogram n im h
  rw [histogram32_debug, e, Option.bind_some, if_neg]
  intro hF
  have := hF c v hc hv
  rw [hh c v hc] at this
  omega

/-- C190: and release builds return the counts modulo `2^32`. -/
theorem C190_histogram_wraps (n : Nat) (im : Image (Nat → Nat)) (h : Is8c n im) :
    ∃ hist, histogram32 false n im = some hist ∧
      ∀ c v, c < n → hist c v = countPx im (fun pix => pix c = v) % 2 ^ 32 := by
  obtain ⟨hist, e, hh⟩ := C12_histogram n im h
  exact ⟨wrapped hist, by rw [histogram32_release, e]; rfl, fun c v hc => by rw [wrapped, hh c v hc]⟩

/-- C190: the cumulative histogram of an image with fewer than `2^32` pixels is exact, -/
theorem C190_cumulative_fits (dbg : Bool) (n : Nat) (im : Image (Nat → Nat)) (h : Is8c n im)
    (hf : im.w * im.h < 2 ^ 32) :
    ∃ cum, cumulativeHistogram32 dbg n im = some cum ∧ ∀ c v, c < n → v < 256 →
      cum c v = countPx im (fun pix => pix c ≤ v) := by
  obtain ⟨cum, e, hh⟩ := C12_cumulative_histogram n im h
  have small : Fits n cum := by
    intro c v hc hv
    rw [hh c v hc hv]
    exact lt_of_le_of_lt (countPx_le im _) hf
  cases dbg
  · refine ⟨wrapped cum, by rw [cumulative32_release, e]; rfl, fun c v hc hv => ?_⟩
    rw [wrapped, Nat.mod_eq_of_lt (small c v hc hv), hh c v hc hv]
  · exact ⟨cum, by rw [cumulative32_debug, e, Option.bind_some, if_pos small], hh⟩

theorem cumulative_total {n : Nat} {im : Image (Nat → Nat)} (h : Is8c n im) {cum : Hist} {c : Nat}
    (hc : c < n) (hh : ∀ c v, c < n → v < 256 → cum c v = countPx im (fun pix => pix c ≤ v)) :
    cum c 255 = im.w * im.h := by
  rw [hh c 255 hc (by norm_num)]
  refine countPx_all im _ fun x y hx hy => ?_
  have := h x y c hx hy hc
  omega

/-- C190: with `2^32` pixels or more debug builds panic, -/
theorem C190_cumulative_panics (n : Nat) (im : Image (Nat → Nat)) (h : Is8c n im) (hn : 0 < n)
    (ho : 2 ^ 32 ≤ im.w * im.h) : cumulativeHistogram32 true n im = none := by
  obtain ⟨cum, e, hh⟩ := C12_cumulative_histogram n im h
  rw [cumulative32_debug, e, Option.bind_some, if_neg]
  intro hF
  have := hF 0 255 hn (by norm_num)
  rw [cumulative_total h hn hh] at this
  omega

/-- C190: and release builds count modulo `2^32`. -/
theorem C190_cumulative_wraps (n : Nat) (im : Image (Nat → Nat)) (h : Is8c n im) :
    ∃ cum, cumulativeHistogram32 false n im = some cum ∧ ∀ c v, c < n → v < 256 →
      cum c v = countPx im (fun pix => pix c ≤ v) % 2 ^ 32 := by
  obtain ⟨cum, e, hh⟩ := C12_cumulative_histogram n im h
  exact ⟨wrapped cum, by rw [cumulative32_release, e]; rfl,
    fun c v hc hv => by rw [wrapped, hh c v hc hv]⟩

theorem firstIdx_congr {ok ok' : Nat → Bool} : ∀ (k i : Nat),
    (∀ j, i ≤ j → j < i + k → ok j = ok' j) → firstIdx ok k i = firstIdx ok' k i
  | 0, _, _ => rfl
  | k + 1, i, h => by
    rw [firstIdx, firstIdx, h i (le_refl _) (by omega),
      firstIdx_congr k (i + 1) (fun j a b => h j (by omega) (by omega))]

/-- C190: percentiles of an image with fewer than `2^32` pixels are those of the exact model, so
everything said in C13 holds of them in every build profile. -/
theorem C190_percentile_fits (dbg : Bool) (im : Image Nat) (h8 : Is8 im) (hf : im.w * im.h < 2 ^ 32)
    (p : Nat) : percentile32 dbg im p = percentile im p := by
  obtain ⟨cum, e, hh⟩ := C12_cumulative_histogram 1 (gray im) (is8c_gray h8)
  obtain ⟨cum', e', hh'⟩ := C190_cumulative_fits dbg 1 (gray im) (is8c_gray h8) hf
  have same : ∀ v, v < 256 → cum' 0 v = cum 0 v := fun v hv => by
    rw [hh 0 v (by norm_num) hv, hh' 0 v (by norm_num) hv]
  unfold percentile32 percentile
  rw [e, e', Option.bind_some, Option.bind_some]
  simp only [same 255 (by norm_num)]
  rw [firstIdx_congr 256 0 (ok' := fun i => decide (p ≤ 100 * cum 0 i / cum 0 255))]
  intro j _ hj
  simp only [same j (by omega)]

/-- C190: with `2^32` pixels or more, debug builds panic; release builds divide by the number of
pixels modulo `2^32`, so they panic too when that is 0. -/
theorem C190_percentile_panics (dbg : Bool) (im : Image Nat) (h8 : Is8 im)
    (ho : 2 ^ 32 ≤ im.w * im.h) (hd : dbg = true ∨ im.w * im.h % 2 ^ 32 = 0) (p : Nat) :
    percentile32 dbg im p = none := by
  have ho' : 2 ^ 32 ≤ (gray im).w * (gray im).h := ho
  unfold percentile32
  split_ifs
  · cases dbg
    · obtain ⟨cum, e, hh⟩ := C190_cumulative_wraps 1 (gray im) (is8c_gray h8)
      rw [e, Option.bind_some]
      have : cum 0 255 = 0 := by
        obtain ⟨cum0, e0, hh0⟩ := C12_cumulative_histogram 1 (gray im) (is8c_gray h8)
        rw [hh 0 255 (by norm_num) (by norm_num), ← hh0 0 255 (by norm_num) (by norm_num),
          cumulative_total (is8c_gray h8) (by norm_num) hh0]
        rcases hd with hd | hd
        · exact absurd hd (by simp)
        · exact hd
      simp only [this, if_true]
    · rw [C190_cumulative_panics 1 (gray im) (is8c_gray h8) (by norm_num) ho']
      rfl
  · rfl

/-! ### Mean squared error -/

/-- C190: two images of the same size are compared exactly while the number of their samples fits. -/
theorem C190_mse_fits (dbg : Bool) (n : Nat) (a b : Image (Nat → ℚ)) (hn : 0 < n)
    (hf : a.w * a.h * n < 2 ^ 32) :
    (meanSquaredError32 dbg n a b).map (fun r => r.1 / (r.2 : ℚ)) = meanSquaredError n a b := by
  have h1 : a.w * a.h < 2 ^ 32 := lt_of_le_of_lt (Nat.le_mul_of_pos_right _ hn) hf
  unfold meanSquaredError32 meanSquaredError
  split_ifs
  · simp only [u32_of_lt h1, u32_of_lt hf, Option.bind_some, Option.map_some]
    generalize forYX 0 a.h 0 a.w (0 : ℚ) _ = r
    cases r <;> rfl
  · rfl

/-- C190: otherwise debug builds panic, -/
theorem C190_mse_panics (n : Nat) (a b : Image (Nat → ℚ)) (ho : 2 ^ 32 ≤ a.w * a.h * n) :
    meanSquaredError32 true n a b = none := by
  unfold meanSquaredError32
  split_ifs
  · have : ((u32 true (a.w * a.h)).bind fun wh => u32 true (wh * n)) = none := by
      by_cases h : a.w * a.h < 2 ^ 32
      · rw [u32_of_lt h, Option.bind_some, u32_debug_none (by omega)]
      · rw [u32_debug_none h]; rfl
    generalize forYX 0 a.h 0 a.w (0 : ℚ) _ = r
    cases r with
    | none => rfl
    | some s =>
      simp only [Option.bind_some]
      cases e : u32 true (a.w * a.h) with
      | none => rfl
      | some wh =>
        rw [e, Option.bind_some] at this
        rw [Option.bind_some, this]; rfl
  · rfl

/-- C190: and release builds divide the exact sum by the number of samples modulo `2^32`. -/
theorem C190_mse_wraps (n : Nat) (a b : Image (Nat → ℚ)) (hw : a.w = b.w) (hh : a.h = b.h) :
    meanSquaredError32 false n a b = some
      (∑ y ∈ range a.h, ∑ x ∈ range a.w, ∑ c ∈ range n, (a.px x y c - b.px x y c) ^ 2,
        a.w * a.h * n % 2 ^ 32) := by
  unfold meanSquaredError32
  rw [if_pos ⟨hw, hh⟩, raster_sum (fun x y => ∑ c ∈ range n, (a.px x y c - b.px x y c) ^ 2)]
  · simp only [Option.bind_some, u32_release, Option.map_some, zero_add, Nat.mod_mul_mod]
    rw [sum_allPx a.w a.h (fun x y => ∑ c ∈ range n, (a.px x y c - b.px x y c) ^ 2)]
  · intro x y s hx hy
    rw [Image.get_of_inB hx hy, Image.get_of_inB (hw ▸ hx) (hh ▸ hy)]
    simp only [Option.bind_some]
    obtain ⟨t, e, hI⟩ := forRange_spec (lo := 0) (hi := n) (s := s)
      (f := fun i s => some (s + (a.px x y i - b.px x y i) * (a.px x y i - b.px x y i)))
      (fun k t => t = s + ∑ c ∈ range k, (a.px x y c - b.px x y c) ^ 2) (by omega) (by simp)
      (by
        intro i t _ _ ht
        refine ⟨_, rfl, ?_⟩
        rw [ht, sum_range_succ]; ring)
    rw [e, hI]

/-- C190 is false in general.  A black 65536 x 65536 grayscale image: debug builds panic, and in a
release build the histogram is empty and no percentile exists.  Two RGBA images of 32768 x 32768
pixels: the sum of squared differences is divided by 0. -/
theorem C190_negation (dbg : Bool) (p : Nat) (a b : Image (Nat → ℚ)) (ha : a.w = 32768 ∧ a.h = 32768)
    (hb : b.w = 32768 ∧ b.h = 32768) :
    histogram32 true 1 (gray (Image.ofFn 65536 65536 fun _ _ => 0)) = none ∧
    (∃ hist, histogram32 false 1 (gray (Image.ofFn 65536 65536 fun _ _ => 0)) = some hist ∧
      ∀ v, hist 0 v = 0) ∧
    percentile32 dbg (Image.ofFn 65536 65536 fun _ _ => 0) p = none ∧
    ∃ s, meanSquaredError32 false 4 a b = some (s, 0) := by
  have h8 : Is8 (Image.ofFn 65536 65536 fun _ _ => 0) := fun x y _ _ => by
    show (0 : Nat) < 256; norm_num
  have all : ∀ v, countPx (gray (Image.ofFn 65536 65536 fun _ _ => 0)) (fun pix => pix 0 = v) =
      if v = 0 then 2 ^ 32 else 0 := by
    intro v
    split_ifs with hv
    · subst hv
      exact countPx_all _ _ fun x y _ _ => rfl
    · unfold countPx
      rw [Finset.card_eq_zero, Finset.filter_eq_empty_iff]
      intro q _ hq
      exact hv hq.symm
  refine ⟨?_, ?_, ?_, ?_⟩
  · refine C190_histogram_panics 1 _ (is8c_gray h8) 0 0 (by norm_num) (by norm_num) ?_
    rw [all, if_pos rfl]
  · obtain ⟨hist, e, hh⟩ := C190_histogram_wraps 1 _ (is8c_gray h8)
    refine ⟨hist, e, fun v => ?_⟩
    rw [hh 0 v (by norm_num), all]
    split_ifs <;> norm_num
  · exact C190_percentile_panics dbg _ h8 (by show 2 ^ 32 ≤ 65536 * 65536; norm_num)
      (Or.inr (by show 65536 * 65536 % 2 ^ 32 = 0; norm_num)) p
  · have := C190_mse_wraps 4 a b (by omega) (by omega)
    rw [ha.1, ha.2] at this
    exact ⟨_, this⟩

-- Both profiles agree on small images.
example : (histogram32 true 1 (gray (Image.ofRows 0 [[3, 3, 7]]))).map (fun h => [h 0 3, h 0 7]) =
    some [2, 1] := by decide
example : percentile32 false (Image.ofRows 0 [[3, 3, 7]]) 67 = some 7 := by decide +kernel

end Verif.Stats

namespace Verif.Hough
variable {K : Type _} [Add K] [Mul K] [NatCast K]

/-- The diagonal of the image in a release build (src/hough.rs:43): the `u32` products and their
sum wrap. -/
def diagonalWrap (w h : Nat) : Nat := Nat.sqrt ((w * w % 2 ^ 32 + h * h % 2 ^ 32) % 2 ^ 32)

/-- `detect_lines` (src/hough.rs:39-94) in a release build. -/
def detectLinesRelease (toI : K → Int) (lut : Nat → K × K) (im : Image Nat)
    (voteThreshold radius : Nat) : Option (List (Int × Nat)) :=
  let rmax := diagonalWrap im.w im.h
  (forYX 0 im.h 0 im.w (Image.new (2 * rmax + 1) 180 0) fun x y acc =>
    (im.get x y).bind fun p =>
    if p > 0 then vote toI lut rmax x y acc else some acc).bind fun acc =>
  (Suppress.suppressNonMaximum acc 0 radius).bind fun sup =>
  forYX 0 sup.h 0 sup.w [] fun r m lines =>
    (sup.get r m).bind fun votes =>
    if votes ≥ voteThreshold then some (lines ++ [((r : Int) - rmax, m)]) else some lines

/-- C190: lines are detected alike in debug and release builds while the squared diagonal fits. -/
theorem C190_lines_fit (toI : K → Int) (lut : Nat → K × K) (im : Image Nat) (t radius : Nat)
    (hs : im.w * im.w + im.h * im.h < 2 ^ 32) :
    detectLinesRelease toI lut im t radius = detectLines toI lut im t radius := by
  have e : diagonalWrap im.w im.h = Nat.sqrt (im.w * im.w + im.h * im.h) := by
    unfold diagonalWrap
    rw [← Nat.add_mod, Nat.mod_eq_of_lt hs]
  unfold detectLinesRelease detectLines accumulate diagonal
  simp only [if_pos hs, Option.bind_some, e]

/-- C190: in a release build every reported line lies within the wrapped diagonal. -/
theorem C190_lines_wrap (toI : K → Int) (lut : Nat → K × K) (im : Image Nat) (t radius : Nat) :
    ∃ lines, detectLinesRelease toI lut im t radius = some lines ∧
      ∀ l ∈ lines, l.1.natAbs ≤ Nat.sqrt ((im.w * im.w + im.h * im.h) % 2 ^ 32) := by
  have e : diagonalWrap im.w im.h = Nat.sqrt ((im.w * im.w + im.h * im.h) % 2 ^ 32) := by
    unfold diagonalWrap
    rw [← Nat.add_mod]
  unfold detectLinesRelease
  simp only [e]
  generalize Nat.sqrt ((im.w * im.w + im.h * im.h) % 2 ^ 32) = R
  obtain ⟨acc, e1, hw, hh⟩ := forYX_spec (s := Image.new (2 * R + 1) 180 0)
    (f := fun x y (acc : Image Nat) => (im.get x y).bind fun p =>
      if p > 0 then vote toI lut R x y acc else some acc)
    (fun _ _ acc => acc.w = 2 * R + 1 ∧ acc.h = 180) (Nat.zero_le im.h) (Nat.zero_le im.w)
    ⟨rfl, rfl⟩
    (by
      intro x y acc _ hx _ hy ⟨h1, h2⟩
      rw [Image.get_of_inB hx hy, Option.bind_some]
      split_ifs
      · obtain ⟨out, e, w, h, -⟩ := vote_spec toI lut R x y acc h1 h2
        exact ⟨out, e, by omega, by omega⟩
      · exact ⟨acc, rfl, h1, h2⟩)
    (fun _ _ _ _ h => h)
  rw [e1, Option.bind_some]
  obtain ⟨sup, e2, w2, h2, -⟩ := Suppress.C29_suppress_non_maximum acc 0 radius
  rw [e2, Option.bind_some]
  refine forYX_spec (fun _ _ (l : List (Int × Nat)) => ∀ p ∈ l, p.1.natAbs ≤ R)
    (Nat.zero_le sup.h) (Nat.zero_le sup.w) (by simp) ?_ (fun _ _ _ _ h => h)
  intro r m l _ hr _ hm hl
  rw [Image.get_of_inB hr hm, Option.bind_some]
  split_ifs
  · refine ⟨_, rfl, fun p hp => ?_⟩
    rcases List.mem_append.1 hp with hp | hp
    · exact hl p hp
    · rw [List.mem_singleton] at hp
      subst hp
      show ((r : Int) - R).natAbs ≤ R
      omega
  · exact ⟨l, rfl, hl⟩

/-- C190 is false of line detection: in an image of 65536 columns and one row a release build never
reports a line more than one pixel away from the origin, and a debug build panics. -/
theorem C190_lines_negation (toI : K → Int) (lut : Nat → K × K) (im : Image Nat) (hw : im.w = 65536)
    (hh : im.h = 1) (t radius : Nat) :
    detectLines toI lut im t radius = none ∧
    ∃ lines, detectLinesRelease toI lut im t radius = some lines ∧ ∀ l ∈ lines, l.1.natAbs ≤ 1 := by
  refine ⟨C58_oversized toI lut im t radius (by rw [hw, hh]; norm_num), ?_⟩
  have := C190_lines_wrap toI lut im t radius
  rwa [hw, hh, show Nat.sqrt ((65536 * 65536 + 1 * 1) % 2 ^ 32) = 1 by norm_num] at this

end Verif.Hough
