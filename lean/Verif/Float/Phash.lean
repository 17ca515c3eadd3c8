import Verif.ImageHash.Phash
import Verif.Float.Rotate
/-
Property C150: the comparison with the mean in the perceptual hash, in `f32`
(src/image_hash/phash.rs:54-77).  The resampling and the one-dimensional transform are parameters,
so the coefficients are arbitrary `f32` values.  Overflow is not modelled.
-/
namespace Verif.Float
open Verif.ImageHash

/-- `iter().reduce(|a, b| a + b).unwrap() / len as f32` (src/image_hash/phash.rs:73-74) in `f32`. -/
def mean32 (a : ℚ) (l : List ℚ) : ℚ :=
  rnd32 (l.foldl (fun s v => rnd32 (s + v)) a / rnd32 (((a :: l).length : Nat) : ℚ))

/-- `phash` (src/image_hash/phash.rs:54-77) in `f32`. -/
def phash32 (resize : Image ℚ → Image ℚ) (dct : Nat → List ℚ → List ℚ) (im : Image ℚ) :
    Option (BitVec 64) :=
  (dct2d dct (resize im)).bind fun d => (Compose.crop d 1 1 8 8).bind fun c =>
  match toBuf c with
  | [] => none
  | a :: l =>
    if (toBuf c).length = 64 then
      bitsNew ((toBuf c).map fun x => decide (mean32 a l < x))
    else none

/-- The 64 coefficients in reading order. -/
def low (dct : Nat → List ℚ → List ℚ) (im : Image ℚ) (k : Nat) : ℚ := coef dct im (1 + k % 8) (1 + k / 8)

/-- The hash is given by the coefficients and their computed mean. -/
theorem phash32_bits (resize : Image ℚ → Image ℚ) (dct : Nat → List ℚ → List ℚ) (im : Image ℚ)
    (hw : (resize im).w = 32) (hh : (resize im).h = 32) :
    ∃ b, phash32 resize dct im = some b ∧ ∀ k, k < 64 →
      (b.getLsbD k = true ↔ mean32 (low dct (resize im) 0)
        ((List.range 63).map fun k => low dct (resize im) (k + 1)) < low dct (resize im) k) := by
  unfold phash32
  obtain ⟨d, h1, h2, h3, h4⟩ := C90_dct2d dct (resize im)
  rw [h1, Option.bind_some]
  obtain ⟨c, k1, k2, k3, k4⟩ := Compose.C20_crop d 1 1 8 8 (by omega) (by omega)
  rw [k1, Option.bind_some]
  have hbuf : toBuf c = (List.range 64).map fun k => low dct (resize im) k := by
    unfold toBuf
    rw [k2, k3]
    apply List.map_congr_left
    intro k hk
    have hk := List.mem_range.1 hk
    rw [k4 _ _ (by omega) (by omega), h4 _ _ (by omega) (by omega)]
    rfl
  have hlen : (toBuf c).length = 64 := by rw [hbuf]; simp
  have hcons : toBuf c = low dct (resize im) 0 :: (List.range 63).map fun k => low dct (resize im) (k + 1) := by
    rw [hbuf, show (64 : Nat) = 63 + 1 from rfl, List.range_succ_eq_map]
    simp [List.map_map, Function.comp_def]
  rw [hcons]
  dsimp only
  rw [← hcons, if_pos hlen]
  obtain ⟨b, e1, e2⟩ := C69_new ((toBuf c).map fun x => decide (mean32 (low dct (resize im) 0)
    ((List.range 63).map fun k => low dct (resize im) (k + 1)) < x)) (by rw [List.length_map, hlen])
  refine ⟨b, e1, fun k hk => ?_⟩
  have := e2 k (by rw [List.length_map, hlen]; exact hk)
  rw [this]
  simp only [List.getElem_map, hbuf, List.getElem_range, decide_eq_true_eq]

/-- Rounding errors of a sum of terms up to `M`. -/
theorem foldl_error {M : ℚ} (hM : 0 ≤ M) (l : List ℚ) (hl : ∀ v ∈ l, |v| ≤ M) (a s : ℚ) (n : Nat)
    (hn : n + l.length ≤ 64) (hs : |s| ≤ n * M) (ha : |a - s| ≤ n * (64 * M / 2 ^ 23 + 1 / 2 ^ 149)) :
    |l.foldl (fun s v => rnd32 (s + v)) a - (s + l.sum)| ≤
      (n + l.length) * (64 * M / 2 ^ 23 + 1 / 2 ^ 149) := by
  induction l generalizing a s n with
  | nil => simpa using ha
  | cons v l ih =>
    have hv := hl v (by simp)
    rw [List.foldl_cons, List.sum_cons]
    rw [List.length_cons] at hn ⊢
    have nq : (n : ℚ) + 1 ≤ 64 := by exact_mod_cast (by omega : n + 1 ≤ 64)
    have n0 : (0 : ℚ) ≤ n := by positivity
    have hs' : |s + v| ≤ ((n + 1 : Nat) : ℚ) * M := by
      push_cast
      exact (abs_add_le _ _).trans (by linarith)
    have bd : |a + v| ≤ 128 * M + 1 / 2 ^ 140 := by
      have e1 : |a + v| ≤ |a - s| + |s + v| := by
        have := abs_add_le (a - s) (s + v)
        rwa [show a - s + (s + v) = a + v by ring] at this
      have e2 : ((n + 1 : Nat) : ℚ) * M ≤ 64 * M := mul_le_mul_of_nonneg_right (by push_cast; exact nq) hM
      have e3 : (n : ℚ) * (64 * M / 2 ^ 23 + 1 / 2 ^ 149) ≤ 64 * (64 * M / 2 ^ 23 + 1 / 2 ^ 149) :=
        mul_le_mul_of_nonneg_right (by linarith) (by positivity)
      norm_num at *
      linarith
    have r := rnd32_err (le_refl |a + v|)
    have bd' : |a + v| / 2 ^ 24 ≤ 64 * M / 2 ^ 23 + 1 / 2 ^ 164 := by
      have := div_le_div_of_nonneg_right bd (by norm_num : (0 : ℚ) ≤ 2 ^ 24)
      norm_num at *
      linarith
    have ha' : |rnd32 (a + v) - (s + v)| ≤ ((n + 1 : Nat) : ℚ) * (64 * M / 2 ^ 23 + 1 / 2 ^ 149) := by
      have e1 := abs_add_le (rnd32 (a + v) - (a + v)) (a - s)
      rw [show rnd32 (a + v) - (a + v) + (a - s) = rnd32 (a + v) - (s + v) by ring] at e1
      push_cast
      norm_num at *
      linarith
    have := ih (fun u hu => hl u (by simp [hu])) (rnd32 (a + v)) (s + v) (n + 1) (by omega) hs' ha'
    rw [← add_assoc]
    refine this.trans (le_of_eq ?_)
    push_cast
    ring

/-- The computed mean of 64 coefficients up to `M`. -/
theorem mean32_error {M : ℚ} {f : Nat → ℚ} (h : ∀ k, k < 64 → |f k| ≤ M) :
    |mean32 (f 0) ((List.range 63).map fun k => f (k + 1)) - (∑ k ∈ Finset.range 64, f k) / 64| ≤
      M / 2 ^ 16 + 1 / 2 ^ 140 := by
  have hM : 0 ≤ M := le_trans (abs_nonneg _) (h 0 (by norm_num))
  have E := foldl_error hM ((List.range 63).map fun k => f (k + 1)) (by
    intro v hv
    obtain ⟨k, hk, rfl⟩ := List.mem_map.1 hv
    exact h _ (by have := List.mem_range.1 hk; omega)) (f 0) (f 0) 1 (by simp) (by
      simpa using h 0 (by norm_num)) (by simp; positivity)
  have S : f 0 + ((List.range 63).map fun k => f (k + 1)).sum = ∑ k ∈ Finset.range 64, f k := by
    rw [sum_map_range, Finset.sum_range_succ' f 63, add_comm]
  have SB : |∑ k ∈ Finset.range 64, f k| ≤ 64 * M := by
    refine (Finset.abs_sum_le_sum_abs _ _).trans ?_
    refine (Finset.sum_le_sum fun k hk => h k (Finset.mem_range.1 hk)).trans ?_
    rw [Finset.sum_const, Finset.card_range]
    simp
  rw [S] at E
  have len : ((f 0 :: (List.range 63).map fun k => f (k + 1)).length) = 64 := by simp
  unfold mean32
  rw [len, show rnd32 ((64 : Nat) : ℚ) = 64 by rw [rnd32_natQ (by norm_num)]; norm_num]
  generalize ((List.range 63).map fun k => f (k + 1)).foldl (fun s v => rnd32 (s + v)) (f 0) = A at *
  generalize (∑ k ∈ Finset.range 64, f k) = B at *
  simp only [List.length_map, List.length_range, Nat.cast_one] at E
  have q1 : |A / 64| ≤ 2 * M + 1 / 2 ^ 141 := by
    rw [abs_le] at *
    norm_num at *
    constructor <;> linarith
  have r := rnd32_err q1
  generalize rnd32 (A / 64) = m at *
  rw [abs_le] at *
  norm_num at *
  constructor <;> linarith

/-- C150 (margin): if the 64 coefficients are at most `M` in absolute value, the bit of every
coefficient whose distance from their exact mean is more than `M / 2^16 + 2^-140` is right. -/
theorem C150_margin_partial (resize : Image ℚ → Image ℚ) (dct : Nat → List ℚ → List ℚ) (im : Image ℚ)
    (hw : (resize im).w = 32) (hh : (resize im).h = 32) {M : ℚ}
    (hM : ∀ k, k < 64 → |coef dct (resize im) (1 + k % 8) (1 + k / 8)| ≤ M) :
    ∃ b, phash32 resize dct im = some b ∧ ∀ k, k < 64 →
      M / 2 ^ 16 + 1 / 2 ^ 140 <
        |coef dct (resize im) (1 + k % 8) (1 + k / 8) - meanCoef dct (resize im)| →
      (b.getLsbD k = true ↔
        meanCoef dct (resize im) < coef dct (resize im) (1 + k % 8) (1 + k / 8)) := by
  obtain ⟨b, h1, h2⟩ := phash32_bits resize dct im hw hh
  refine ⟨b, h1, fun k hk hd => ?_⟩
  rw [h2 k hk]
  have E := mean32_error (f := low dct (resize im)) hM
  have e : meanCoef dct (resize im) = (∑ k ∈ Finset.range 64, low dct (resize im) k) / 64 := rfl
  have e' : coef dct (resize im) (1 + k % 8) (1 + k / 8) = low dct (resize im) k := rfl
  rw [e'] at hd ⊢
  rw [e] at hd ⊢
  generalize mean32 (low dct (resize im) 0) _ = m at *
  generalize (∑ k ∈ Finset.range 64, low dct (resize im) k) / 64 = q at *
  generalize low dct (resize im) k = c at *
  rw [abs_le] at E
  rw [lt_abs] at hd
  constructor
  · intro h
    rcases hd with hd | hd
    · linarith
    · linarith
  · intro h
    rcases hd with hd | hd
    · linarith
    · linarith

/-- Sums of whole numbers are exact. -/
theorem foldl_whole (l : List Int) (a : Int) (h : |a| + (l.map abs).sum ≤ 2 ^ 24) :
    (l.map (Int.cast : Int → ℚ)).foldl (fun s v => rnd32 (s + v)) (a : ℚ) = ((a + l.sum : Int) : ℚ) := by
  induction l generalizing a with
  | nil => simp
  | cons v l ih =>
    rw [List.map_cons, List.sum_cons] at h
    have hp : 0 ≤ (l.map abs).sum := List.sum_nonneg (by
      intro x hx
      obtain ⟨y, -, rfl⟩ := List.mem_map.1 hx
      exact abs_nonneg y)
    have h3 := abs_add_le a v
    have r : rnd32 ((a : ℚ) + v) = ((a + v : Int) : ℚ) := by
      rw [← Int.cast_add]
      exact rnd_of_rep (by norm_num) ⟨a + v, 0, by exact_mod_cast (by omega : |a + v| ≤ 2 ^ 24), by norm_num, by simp⟩
    rw [List.map_cons, List.foldl_cons, r, ih _ (by omega), List.sum_cons, add_assoc]

/-- C150 (whole numbers): if the 64 coefficients are whole numbers with absolute values adding up to
at most 2^24, every bit is right. -/
theorem C150_whole (resize : Image ℚ → Image ℚ) (dct : Nat → List ℚ → List ℚ) (im : Image ℚ)
    (hw : (resize im).w = 32) (hh : (resize im).h = 32) (f : Nat → Int)
    (hf : ∀ k, k < 64 → coef dct (resize im) (1 + k % 8) (1 + k / 8) = f k)
    (hs : ∑ k ∈ Finset.range 64, |f k| ≤ 2 ^ 24) :
    ∃ b, phash32 resize dct im = some b ∧ ∀ k, k < 64 →
      (b.getLsbD k = true ↔
        meanCoef dct (resize im) < coef dct (resize im) (1 + k % 8) (1 + k / 8)) := by
  obtain ⟨b, h1, h2⟩ := phash32_bits resize dct im hw hh
  refine ⟨b, h1, fun k hk => ?_⟩
  rw [h2 k hk]
  have e : meanCoef dct (resize im) = ((∑ k ∈ Finset.range 64, f k : Int) : ℚ) / 64 := by
    unfold meanCoef
    rw [Finset.sum_congr rfl fun k hk => hf k (Finset.mem_range.1 hk)]
    push_cast; rfl
  rw [e]
  have hl : (List.range 63).map (fun k => low dct (resize im) (k + 1)) =
      ((List.range 63).map fun k => f (k + 1)).map (Int.cast : Int → ℚ) := by
    rw [List.map_map]
    apply List.map_congr_left
    intro k hk
    exact hf _ (by have := List.mem_range.1 hk; omega)
  have SA : |f 0| + (((List.range 63).map fun k => f (k + 1)).map abs).sum = ∑ k ∈ Finset.range 64, |f k| := by
    rw [List.map_map]
    show |f 0| + ((List.range 63).map fun k => |f (k + 1)|).sum = _
    rw [sum_map_range, Finset.sum_range_succ' (fun k => |f k|) 63, add_comm]
  have S : f 0 + ((List.range 63).map fun k => f (k + 1)).sum = ∑ k ∈ Finset.range 64, f k := by
    rw [sum_map_range, Finset.sum_range_succ' f 63, add_comm]
  have m : mean32 (low dct (resize im) 0) ((List.range 63).map fun k => low dct (resize im) (k + 1)) =
      ((∑ k ∈ Finset.range 64, f k : Int) : ℚ) / 64 := by
    unfold mean32
    rw [hl, show low dct (resize im) 0 = f 0 from hf 0 (by norm_num), foldl_whole _ _ (by rw [SA]; exact hs), S]
    have len : (((f 0 : Int) : ℚ) :: ((List.range 63).map fun k => f (k + 1)).map (Int.cast : Int → ℚ)).length = 64 := by
      simp
    rw [len, show rnd32 ((64 : Nat) : ℚ) = 64 by rw [rnd32_natQ (by norm_num)]; norm_num]
    have b : |∑ k ∈ Finset.range 64, f k| ≤ 2 ^ 24 := (Finset.abs_sum_le_sum_abs _ _).trans hs
    refine rnd_of_rep (by norm_num) ⟨_, -6, by exact_mod_cast b, by norm_num, ?_⟩
    rw [div_eq_mul_inv]
    norm_num
  rw [m]
  rfl

theorem mean32_tenths : mean32 (rnd32 (1 / 10)) ((List.range 63).map fun _ => rnd32 (1 / 10)) <
    (rnd32 (1 / 10) : ℚ) := by decide +kernel

/-- C150 (negation): if all 64 coefficients equal the `f32` value of 0.1, no coefficient exceeds the
mean but every bit is set. -/
theorem C150_negation (resize : Image ℚ → Image ℚ) (dct : Nat → List ℚ → List ℚ) (im : Image ℚ)
    (hw : (resize im).w = 32) (hh : (resize im).h = 32)
    (hf : ∀ k, k < 64 → coef dct (resize im) (1 + k % 8) (1 + k / 8) = rnd32 (1 / 10)) :
    ∃ b, phash32 resize dct im = some b ∧ ∀ k, k < 64 → b.getLsbD k = true ∧
      ¬ meanCoef dct (resize im) < coef dct (resize im) (1 + k % 8) (1 + k / 8) := by
  obtain ⟨b, h1, h2⟩ := phash32_bits resize dct im hw hh
  refine ⟨b, h1, fun k hk => ⟨?_, ?_⟩⟩
  · rw [h2 k hk]
    have hl : (List.range 63).map (fun k => low dct (resize im) (k + 1)) =
        (List.range 63).map fun _ => (rnd32 (1 / 10) : ℚ) := by
      apply List.map_congr_left
      intro k hk
      exact hf _ (by have := List.mem_range.1 hk; omega)
    rw [hl, show low dct (resize im) 0 = rnd32 (1 / 10) from hf 0 (by norm_num),
      show low dct (resize im) k = rnd32 (1 / 10) from hf k hk]
    exact mean32_tenths
  · rw [hf k hk]
    have e : meanCoef dct (resize im) = rnd32 (1 / 10) := by
      unfold meanCoef
      rw [Finset.sum_congr rfl fun k hk => hf k (Finset.mem_range.1 hk), Finset.sum_const, Finset.card_range]
      simp
    rw [e]
    exact lt_irrefl _

/-- A resampler and a transform with all coefficients equal exist. -/
example : ∃ (dct : Nat → List ℚ → List ℚ) (im : Image ℚ), im.w = 32 ∧ im.h = 32 ∧
    ∀ k, k < 64 → coef dct im (1 + k % 8) (1 + k / 8) = rnd32 (1 / 10) :=
  ⟨fun n _ => List.replicate n (rnd32 (1 / 10)), ⟨32, 32, fun _ _ => 0⟩, rfl, rfl, by
    intro k hk
    unfold coef
    simp only [List.getD_eq_getElem?_getD, List.getElem?_replicate]
    rw [if_pos (by show 1 + k % 8 < 32; omega)]
    rfl⟩

end Verif.Float
