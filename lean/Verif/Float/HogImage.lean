import Verif.Float.Hog
import Mathlib.Analysis.Real.Pi.Bounds
import Mathlib.Analysis.SpecialFunctions.Trigonometric.Bounds
/-
`hog` in single precision for whole 8-bit images: gradients, directions, histograms and normalisation.  Property
theorem C134, second half.
-/
namespace Verif.Float
open Verif.Hog Verif.ImageHash Verif.Filter Verif.Gradients Finset

/-! ### Gradients -/

theorem filter3_32 (im : Image (Unit → Nat)) (h : IsU8 im) (k0 k1 k2 k3 k4 k5 k6 k7 k8 : Int)
    (g : Unit → Nat → Nat → Int)
    (hg : ∀ c x y, x < im.w → y < im.h → g c x y =
      k0 * at' im c x y (-1) (-1) + k1 * at' im c x y 0 (-1) + k2 * at' im c x y 1 (-1) +
      k3 * at' im c x y (-1) 0 + k4 * at' im c x y 0 0 + k5 * at' im c x y 1 0 +
      k6 * at' im c x y (-1) 1 + k7 * at' im c x y 0 1 + k8 * at' im c x y 1 1)
    (hr : ∀ c x y, x < im.w → y < im.h → |g c x y| ≤ 1020) :
    Computes (filterI32 im ⟨[k0, k1, k2, k3, k4, k5, k6, k7, k8], 3, 3⟩) im g := by
  obtain ⟨out, e, h1, h2, h3⟩ := C37_filter_sum (fun v : Nat => (v : Int)) (0 : Int) im
    (data := [k0, k1, k2, k3, k4, k5, k6, k7, k8]) (kw := 3) (kh := 3) rfl
    (Definitions.clampInt (-2147483648) 2147483647) h.1 h.2.1
  refine ⟨out, e, h1, h2, fun x y hx hy c => ?_⟩
  rw [h3 x y hx hy c]
  obtain ⟨r1, r2⟩ := abs_le.1 (hr c x y hx hy)
  have id32 : Definitions.clampInt (-2147483648) 2147483647 (g c x y) = g c x y := by
    unfold Definitions.clampInt
    rw [if_pos (by omega : g c x y < 2147483647), if_pos (by omega : g c x y > -2147483648)]
  rw [← id32, hg c x y hx hy]
  congr 1
  simp only [Finset.sum_range_succ, Finset.sum_range_zero, at']
  norm_num
  simp only [add_sub_assoc]
  norm_num
  ring_nf

theorem sobel_bounds {im : Image (Unit → Nat)} (h : IsU8 im) (c : Unit) {x y : Nat} (hx : x < im.w)
    (hy : y < im.h) : |hDiff 1 2 im c x y| ≤ 1020 ∧ |vDiff 1 2 im c x y| ≤ 1020 := by
  have r := at_range h c hx hy
  unfold hDiff vDiff
  have := r 1 (-1)
  have := r (-1) (-1)
  have := r 1 0
  have := r (-1) 0
  have := r 1 1
  have := r (-1) 1
  have := r 0 1
  have := r 0 (-1)
  rw [abs_le, abs_le]
  omega

/-- The two responses of the Sobel kernels are exact. -/
theorem sobel32 {im : Image (Unit → Nat)} (h : IsU8 im) :
    Computes (filterI32 im sobelH) im (hDiff 1 2 im) ∧ Computes (filterI32 im sobelV) im (vDiff 1 2 im) :=
  ⟨filter3_32 im h _ _ _ _ _ _ _ _ _ _ (fun c x y _ _ => by unfold hDiff; ring)
      fun c _ _ hx hy => (sobel_bounds h c hx hy).1,
    filter3_32 im h _ _ _ _ _ _ _ _ _ _ (fun c x y _ _ => by unfold vDiff; ring)
      fun c _ _ hx hy => (sobel_bounds h c hx hy).2⟩

theorem sq_sum_le {h v : Int} (hh : |h| ≤ 1020) (hv : |v| ≤ 1020) : h * h + v * v ≤ 2080800 := by
  obtain ⟨a, b⟩ := abs_le.1 hh
  obtain ⟨c, d⟩ := abs_le.1 hv
  nlinarith

/-- The length of the gradient is the correctly rounded Euclidean length; it is zero or at least one. -/
theorem length32_eq {h v : Int} (hh : |h| ≤ 1020) (hv : |v| ≤ 1020) :
    (length32 h v).val = rnd32 (√((h : ℝ) ^ 2 + (v : ℝ) ^ 2)) ∧ Big 0 (length32 h v).val ∧
      Rel 1 (length32 h v).val (√((h : ℝ) ^ 2 + (v : ℝ) ^ 2)) := by
  have hs := sq_sum_le hh hv
  have h0 : 0 ≤ h * h := mul_self_nonneg h
  have v0 : 0 ≤ v * v := mul_self_nonneg v
  have ri : ∀ z : Int, 0 ≤ z → z ≤ 2080800 → rnd32 (z : ℝ) = z := fun z z0 z1 =>
    rnd_int (by norm_num) (by norm_num) (by rw [abs_of_nonneg z0]; norm_num; omega)
  have e : (length32 h v).val = rnd32 (√((h : ℝ) ^ 2 + (v : ℝ) ^ 2)) := by
    unfold length32
    dsimp only
    rw [← Int.cast_mul, ← Int.cast_mul, ri _ h0 (by omega), ri _ v0 (by omega), ← Int.cast_add,
      ri _ (by omega) hs]
    push_cast
    rw [pow_two, pow_two]
  have b : Big 0 (√((h : ℝ) ^ 2 + (v : ℝ) ^ 2)) := by
    have e2 : (h : ℝ) ^ 2 + (v : ℝ) ^ 2 = ((h * h + v * v : Int) : ℝ) := by push_cast; ring
    rw [e2]
    rcases (show 0 ≤ h * h + v * v by omega).eq_or_lt with z | z
    · left; rw [← z]; simp
    · right
      have : (1 : ℝ) ≤ ((h * h + v * v : Int) : ℝ) := by exact_mod_cast z
      rw [pow_zero, div_one]
      exact Real.one_le_sqrt.2 this
  refine ⟨e, by rw [e]; exact b.rnd (by norm_num), ?_⟩
  rw [e]
  exact rel_rnd_big (by norm_num) b

/-! ### Directions -/

/-- The direction of a gradient in radians, between zero and a full turn, or between zero and half a turn when
signs are ignored. -/
noncomputable def direction (signed : Bool) (h v : Int) : ℝ :=
  let a := Complex.arg ⟨h, v⟩
  if signed then (if a < 0 then a + 2 * Real.pi else a)
  else if a < 0 then a + Real.pi else if a = Real.pi then 0 else a

/-- A full or half turn. -/
noncomputable def turn (signed : Bool) : ℝ := if signed then 2 * Real.pi else Real.pi

/-- The position on the axis of orientation bins, src/hog.rs:280-289, 320-331. -/
noncomputable def position32 (atan2 : Int → Int → F32 ℝ) (signed : Bool) (n : Nat) (h v : Int) : F32 ℝ :=
  foldDirection ⟨hogPi⟩ signed (atan2 v h) / (directionRange ⟨hogPi⟩ signed / (n : F32 ℝ))

/-- A direction off the horizontal axis keeps its distance from the axis. -/
theorem arg_bounds {h v : Int} (hh : |h| ≤ 1020) (hv : |v| ≤ 1020) (v0 : v ≠ 0) :
    1 / 1443 ≤ |Complex.arg ⟨h, v⟩| ∧ |Complex.arg ⟨h, v⟩| ≤ Real.pi - 1 / 1443 := by
  have hs := sq_sum_le hh hv
  have hn : ‖(⟨h, v⟩ : ℂ)‖ ≤ 1443 := by
    rw [Complex.norm_def, Complex.normSq_mk]
    rw [Real.sqrt_le_left (by norm_num)]
    have : (h : ℝ) * h + v * v ≤ 2080800 := by exact_mod_cast hs
    linarith
  have hn0 : 0 < ‖(⟨h, v⟩ : ℂ)‖ := by
    rw [norm_pos_iff]
    intro he
    have := congrArg Complex.im he
    simp only [Complex.zero_im] at this
    exact v0 (by exact_mod_cast this)
  have v1 : (1 : ℝ) ≤ |(v : ℝ)| := by exact_mod_cast Int.one_le_abs v0
  have sa : 1 / 1443 ≤ |Real.sin (Complex.arg ⟨h, v⟩)| := by
    rw [Complex.sin_arg, abs_div, abs_of_pos hn0, div_le_div_iff₀ (by norm_num) hn0]
    nlinarith
  have l1 := Complex.neg_pi_lt_arg ⟨h, v⟩
  have l2 := Complex.arg_le_pi ⟨h, v⟩
  generalize Complex.arg ⟨h, v⟩ = a at *
  rcases le_or_gt 0 a with ha | ha
  · rw [abs_of_nonneg (Real.sin_nonneg_of_nonneg_of_le_pi ha l2)] at sa
    rw [abs_of_nonneg ha]
    have k1 := Real.sin_le ha
    have k2 := Real.sin_le (show 0 ≤ Real.pi - a by linarith)
    rw [Real.sin_pi_sub] at k2
    constructor <;> linarith
  · have hneg : Real.sin a ≤ 0 := Real.sin_nonpos_of_nonpos_of_neg_pi_le ha.le l1.le
    rw [abs_of_nonpos hneg] at sa
    rw [abs_of_neg ha]
    have k1 := Real.sin_le (show 0 ≤ -a by linarith)
    have k2 := Real.sin_le (show 0 ≤ Real.pi - -a by linarith)
    rw [Real.sin_pi_sub] at k2
    rw [Real.sin_neg] at k1 k2
    constructor <;> linarith

theorem rep_pi : Rep (K := ℝ) 24 (-149) hogPi := ⟨13176795, -22, by norm_num, by norm_num, by norm_num [hogPi]⟩
theorem rep_two_pi : Rep (K := ℝ) 24 (-149) (hogPi + hogPi) :=
  ⟨13176795, -21, by norm_num, by norm_num, by norm_num [hogPi]⟩

theorem hogPi_close : |(hogPi : ℝ) - Real.pi| ≤ 1 / 2 ^ 20 := by
  have := Real.pi_gt_d6
  have := Real.pi_lt_d6
  unfold hogPi
  rw [abs_le]
  constructor <;> norm_num <;> linarith

theorem range32 (signed : Bool) : (directionRange (⟨hogPi⟩ : F32 ℝ) signed).val =
    if signed then hogPi + hogPi else hogPi := by
  cases signed
  · rfl
  · exact rnd_of_rep (by norm_num) rep_two_pi

theorem F32.lt_iff (a b : F32 ℝ) : a < b ↔ a.val < b.val := Iff.rfl
theorem F32.le_iff (a b : F32 ℝ) : a ≤ b ↔ a.val ≤ b.val := Iff.rfl
theorem F32.zero_val : (0 : F32 ℝ).val = 0 := rfl

/-- The folded direction is close to the true one, and keeps away from the end of the range. -/
theorem fold32 {atan2 : Int → Int → F32 ℝ} (ok : Atan2Ok atan2) (signed : Bool) {h v : Int}
    (hh : |h| ≤ 1020) (hv : |v| ≤ 1020) :
    ∀ d, d = (foldDirection (⟨hogPi⟩ : F32 ℝ) signed (atan2 v h)).val →
    (d = 0 ∨ 1 / 1600 ≤ d) ∧ d ≤ (if signed then hogPi + hogPi else hogPi) - 1 / 1600 ∧
      |d - direction signed h v| ≤ 1 / 2 ^ 18 := by
  intro d hd
  obtain ⟨rp, z1, z2, er⟩ := ok v h hv hh
  have P1 : (31415 / 10000 : ℝ) ≤ hogPi := by unfold hogPi; norm_num
  have P2 : (hogPi : ℝ) ≤ 31416 / 10000 := by unfold hogPi; norm_num
  have pc := abs_le.1 hogPi_close
  by_cases v0 : v = 0
  · subst v0
    rcases le_or_gt 0 h with h0 | h0
    · have za := z1 rfl h0
      have ea : Complex.arg ⟨h, (0 : Int)⟩ = 0 := by
        have : (⟨(h : ℝ), ((0 : Int) : ℝ)⟩ : ℂ) = (((h : ℝ)) : ℂ) := by
          apply Complex.ext <;> simp
        rw [this, Complex.arg_ofReal_of_nonneg (by exact_mod_cast h0)]
      have e0 : d = 0 := by
        rw [hd]
        unfold foldDirection
        dsimp only
        have n0 : ¬ atan2 0 h < 0 := by rw [F32.lt_iff, za, F32.zero_val]; exact lt_irrefl _
        rw [if_neg n0, if_neg (by
            rintro ⟨-, hc⟩
            rw [F32.le_iff, za] at hc
            change hogPi ≤ (0 : ℝ) at hc
            linarith), za]
      have ed : direction signed h 0 = 0 := by
        unfold direction
        dsimp only
        rw [ea]
        have := Real.pi_pos
        cases signed
        · rw [if_neg (by simp), if_neg (lt_irrefl _), if_neg (by linarith)]
        · rw [if_pos rfl, if_neg (lt_irrefl _)]
      refine ⟨Or.inl e0, ?_, ?_⟩
      · rw [e0]
        split_ifs <;> linarith
      · rw [e0, ed]; norm_num
    · have za := z2 rfl h0
      have ea : Complex.arg ⟨h, (0 : Int)⟩ = Real.pi := by
        have : (⟨(h : ℝ), ((0 : Int) : ℝ)⟩ : ℂ) = (((h : ℝ)) : ℂ) := by
          apply Complex.ext <;> simp
        rw [this, Complex.arg_ofReal_of_neg (by exact_mod_cast h0)]
      have n0 : ¬ atan2 0 h < 0 := by
        rw [F32.lt_iff, za, F32.zero_val]
        linarith
      cases signed
      · have e0 : d = 0 := by
          rw [hd]
          unfold foldDirection
          dsimp only
          rw [if_neg n0, if_pos ⟨rfl, by rw [F32.le_iff, za]⟩]
          change rnd32 ((atan2 0 h).val - hogPi) = 0
          rw [za, sub_self]
          exact rnd_zero
        have ed : direction false h 0 = 0 := by
          unfold direction
          dsimp only
          rw [ea, if_neg (by simp), if_neg (by linarith [Real.pi_pos]), if_pos rfl]
        refine ⟨Or.inl e0, ?_, ?_⟩
        · rw [e0, if_neg (by simp)]
          linarith
        · rw [e0, ed]; norm_num
      · have e0 : d = hogPi := by
          rw [hd]
          unfold foldDirection
          dsimp only
          rw [if_neg n0, if_neg (by simp), za]
        have ed : direction true h 0 = Real.pi := by
          unfold direction
          dsimp only
          rw [ea, if_pos rfl, if_neg (by linarith [Real.pi_pos])]
        refine ⟨Or.inr (by linarith), ?_, ?_⟩
        · rw [e0, if_pos rfl]
          linarith
        · rw [e0, ed]
          exact hogPi_close.trans (by norm_num)
  · obtain ⟨b1, b2⟩ := arg_bounds hh hv v0
    obtain ⟨e1, e2⟩ := abs_le.1 er
    unfold direction
    dsimp only
    have ea : directionRange (⟨hogPi⟩ : F32 ℝ) signed = ⟨if signed then hogPi + hogPi else hogPi⟩ := by
      have := range32 signed
      cases hr : directionRange (⟨hogPi⟩ : F32 ℝ) signed
      rw [hr] at this
      rw [F32.mk.injEq]
      exact this
    unfold foldDirection at hd
    dsimp only at hd
    rw [ea] at hd
    generalize Complex.arg ⟨h, v⟩ = a at *
    set t := (atan2 v h).val with ht
    norm_num at e1 e2 pc
    rcases le_or_gt 0 a with ha | ha
    · rw [abs_of_nonneg ha] at b1 b2
      have t0 : 0 ≤ t := by linarith
      have ed : d = t := by
        have n0 : ¬ atan2 v h < 0 := by rw [F32.lt_iff, F32.zero_val, ← ht]; exact not_lt.2 t0
        rw [hd, if_neg n0, if_neg]
        rintro ⟨-, hc⟩
        rw [F32.le_iff, ← ht] at hc
        dsimp only at hc
        linarith
      rw [ed]
      refine ⟨Or.inr (by linarith), ?_, ?_⟩
      · split_ifs <;> linarith
      · have : ¬ a = Real.pi := by intro e; linarith
        simp only [if_neg (not_lt.2 ha), if_neg this, ite_self]
        norm_num [abs_le]
        constructor <;> linarith
    · rw [abs_of_neg ha] at b1 b2
      have t0 : t < 0 := by linarith
      rw [if_pos (show atan2 v h < 0 by rw [F32.lt_iff, F32.zero_val, ← ht]; exact t0)] at hd
      have vv : ∀ R : ℝ, (atan2 v h + (⟨R⟩ : F32 ℝ)).val = rnd32 (t + R) := fun R => rfl
      cases signed
      · have er := rnd_add_error (p := 24) (by norm_num) rp rep_pi
        rw [abs_of_nonneg (show 0 ≤ t + hogPi by linarith)] at er
        obtain ⟨r1, r2⟩ := abs_le.1 er
        have ed : d = rnd32 (t + hogPi) := by
          rw [hd, if_neg (by simp : ¬ (false = true)), if_neg, vv]
          rintro ⟨-, hc⟩
          rw [F32.le_iff, vv] at hc
          change hogPi ≤ rnd 24 (-149) (t + hogPi) at hc
          norm_num at r2
          linarith
        have ed' : d = rnd 24 (-149) (t + hogPi) := ed
        rw [ed']
        generalize rnd 24 (-149) (t + hogPi) = r at *
        norm_num at r1 r2
        simp only [if_pos ha]
        norm_num [abs_le]
        refine ⟨Or.inr (by linarith), by linarith, by linarith, by linarith⟩
      · have er := rnd_add_error (p := 24) (by norm_num) rp rep_two_pi
        rw [abs_of_nonneg (show 0 ≤ t + (hogPi + hogPi) by linarith)] at er
        obtain ⟨r1, r2⟩ := abs_le.1 er
        have ed : d = rnd32 (t + (hogPi + hogPi)) := by
          rw [hd, if_pos rfl, if_neg (by simp), vv]
        have ed' : d = rnd 24 (-149) (t + (hogPi + hogPi)) := ed
        rw [ed']
        generalize rnd 24 (-149) (t + (hogPi + hogPi)) = r at *
        norm_num at r1 r2
        simp only [if_pos ha]
        norm_num [abs_le]
        refine ⟨Or.inr (by linarith), by linarith, by linarith, by linarith⟩

/-- **C134.** The position of a gradient on the axis of `n` orientation bins lies within the axis, and it is
accurate to `n / 2 ^ 17`. -/
theorem C134_position {atan2 : Int → Int → F32 ℝ} (ok : Atan2Ok atan2) (signed : Bool) {h v : Int}
    (hh : |h| ≤ 1020) (hv : |v| ≤ 1020) {n : Nat} (hn : 0 < n) (hn2 : n < 2 ^ 64) :
    Pos32 (position32 atan2 signed n h v) ∧ (position32 atan2 signed n h v).val < n ∧
      |(position32 atan2 signed n h v).val - direction signed h v / turn signed * n| ≤ n / 2 ^ 17 := by
  obtain ⟨d0, d1, d2⟩ := fold32 ok signed hh hv _ rfl
  have er : (position32 atan2 signed n h v).val =
      rnd32 ((foldDirection (⟨hogPi⟩ : F32 ℝ) signed (atan2 v h)).val /
        rnd32 ((directionRange (⟨hogPi⟩ : F32 ℝ) signed).val / rnd32 (n : ℝ))) := rfl
  rw [range32] at er
  rw [er]
  have hp : Rep (K := ℝ) 24 (-149) ((position32 atan2 signed n h v).val) := rep_rnd _
  rw [er] at hp
  have P1 : (31415 / 10000 : ℝ) ≤ hogPi := by unfold hogPi; norm_num
  have P2 : (hogPi : ℝ) ≤ 31416 / 10000 := by unfold hogPi; norm_num
  have pc := abs_le.1 hogPi_close
  have R1 : (3 : ℝ) ≤ (if signed = true then hogPi + hogPi else hogPi) := by split_ifs <;> linarith
  have R2 : (if signed = true then hogPi + hogPi else hogPi : ℝ) ≤ 63 / 10 := by split_ifs <;> linarith
  have RT : |(if signed = true then hogPi + hogPi else hogPi : ℝ) - turn signed| ≤ 1 / 2 ^ 19 := by
    unfold turn
    rw [abs_le]
    norm_num at pc ⊢
    split_ifs <;> constructor <;> linarith
  have T0 : (3 : ℝ) ≤ turn signed := by
    have := Real.pi_gt_three
    unfold turn
    split_ifs <;> linarith
  have D1 : direction signed h v ≤ turn signed := by
    unfold direction turn
    have l1 := Complex.neg_pi_lt_arg ⟨h, v⟩
    have l2 := Complex.arg_le_pi ⟨h, v⟩
    dsimp only
    split_ifs <;> linarith
  have D0 : 0 ≤ direction signed h v := by
    unfold direction
    have l1 := Complex.neg_pi_lt_arg ⟨h, v⟩
    have l2 := Complex.arg_le_pi ⟨h, v⟩
    dsimp only
    split_ifs <;> linarith
  generalize (foldDirection (⟨hogPi⟩ : F32 ℝ) signed (atan2 v h)).val = d at *
  generalize (if signed = true then hogPi + hogPi else hogPi : ℝ) = R at *
  generalize direction signed h v = θ at *
  generalize turn signed = T at *
  have hn1 : (1 : ℝ) ≤ n := by exact_mod_cast hn
  have n64 : (n : ℝ) ≤ 2 ^ 64 := by exact_mod_cast hn2.le
  have c1 : (1 : ℝ) ≤ rnd32 (n : ℝ) := le_rnd (by norm_num) rep_one_sum hn1
  have c2 : rnd32 (n : ℝ) ≤ 2 ^ 64 := rnd_le (by norm_num) ⟨1, 64, by norm_num, by norm_num, by norm_num⟩ n64
  have rn := rel_rnd_nat n
  generalize rnd32 (n : ℝ) = N at *
  have N0 : 0 < N := by linarith
  have bi : Big 63 (R / N) := by
    right
    rw [div_le_div_iff₀ (by positivity) N0]
    nlinarith
  have ri : Rel 2 (rnd32 (R / N)) (R / n) := by
    have := (rel_rnd_big (by norm_num) bi).trans ((Rel.refl (show (0 : ℝ) ≤ R by linarith)).div rn)
    exact this.mono (by norm_num)
  have i7 : rnd32 (R / N) ≤ 7 := by
    refine rnd_le (by norm_num) ⟨7, 0, by norm_num, by norm_num, by norm_num⟩ ?_
    rw [div_le_iff₀ N0]
    nlinarith
  have i0 : 0 < rnd32 (R / N) := by
    rcases bi.rnd (by norm_num) with h | h
    · exfalso
      rw [h] at ri
      obtain ⟨-, -, q, -⟩ := ri
      have : 0 < (1 - u32 : ℝ) ^ 2 * (R / n) := mul_pos (pow_pos base_pos 2) (by positivity)
      linarith
    · exact lt_of_lt_of_le (by positivity) h
  generalize rnd32 (R / N) = I at *
  have dn : 0 ≤ d := by rcases d0 with h | h <;> linarith
  have bp : Big 14 (d / I) := by
    rcases d0 with h | h
    · left; rw [h, zero_div]
    · right
      rw [div_le_div_iff₀ (by positivity) i0]
      norm_num
      linarith
  have rp : Rel 3 (rnd32 (d / I)) (d / (R / n)) :=
    ((rel_rnd_big (by norm_num) bp).trans ((Rel.refl dn).div ri)).mono (by norm_num)
  have ee := rp.error (by norm_num)
  have R0 : 0 < R := by linarith
  have T1 : 0 < T := by linarith
  rw [div_div_eq_mul_div, mul_comm d, mul_div_assoc] at ee
  have q1 : d / R ≤ 1 - 1 / 12000 := by
    rw [div_le_iff₀ R0]
    nlinarith
  have q0 : 0 ≤ d / R := by positivity
  obtain ⟨u1, u2⟩ := abs_le.1 ee
  -- the quotient of the two ranges
  have q2 : |d / R - θ / T| ≤ 1 / 2 ^ 18 := by
    have : d / R - θ / T = (d - θ) / R + θ / T * ((T - R) / R) := by field_simp; ring
    rw [this]
    refine (abs_add_le _ _).trans ?_
    have a1 : |(d - θ) / R| ≤ 1 / 2 ^ 18 / 3 := by
      rw [abs_div, abs_of_pos R0]
      exact div_le_div₀ (by positivity) d2 (by norm_num) R1
    have a2 : |θ / T * ((T - R) / R)| ≤ 1 / 2 ^ 19 / 3 := by
      rw [abs_mul, abs_of_nonneg (by positivity : 0 ≤ θ / T), abs_div, abs_of_pos R0, abs_sub_comm]
      have : |R - T| / R ≤ 1 / 2 ^ 19 / 3 := div_le_div₀ (by positivity) RT (by norm_num) R1
      have k : θ / T ≤ 1 := (div_le_one T1).2 D1
      calc θ / T * (|R - T| / R) ≤ 1 * (|R - T| / R) := mul_le_mul_of_nonneg_right k (by positivity)
        _ ≤ _ := by rw [one_mul]; exact this
    norm_num at a1 a2 ⊢
    linarith
  refine ⟨⟨by rw [er]; exact hp, by rw [er]; exact (bp.rnd (by norm_num)).mono (by norm_num)⟩, ?_, ?_⟩
  · have : rnd32 (d / I) ≤ n * (d / R) * (1 + 3 / 2 ^ 23) := by
      push_cast at u2
      linarith
    have k : d / R * (1 + 3 / 2 ^ 23) < 1 := by
      norm_num at q1 ⊢
      nlinarith
    calc _ ≤ n * (d / R) * (1 + 3 / 2 ^ 23) := this
      _ = n * (d / R * (1 + 3 / 2 ^ 23)) := by ring
      _ < n * 1 := by
        refine mul_lt_mul_of_pos_left k (by linarith)
      _ = n := mul_one _
  · have e : rnd32 (d / I) - θ / T * n = (rnd32 (d / I) - n * (d / R)) + n * (d / R - θ / T) := by ring
    rw [e]
    refine (abs_add_le _ _).trans ?_
    have a2 : |(n : ℝ) * (d / R - θ / T)| ≤ n * (1 / 2 ^ 18) := by
      rw [abs_mul, abs_of_nonneg (by positivity : (0 : ℝ) ≤ n)]
      exact mul_le_mul_of_nonneg_left q2 (by positivity)
    have a1 : |rnd32 (d / I) - n * (d / R)| ≤ n * (3 / 2 ^ 23) := by
      refine ee.trans ?_
      push_cast
      have : (n : ℝ) * (d / R) ≤ n * 1 := mul_le_mul_of_nonneg_left (by linarith) (by linarith)
      linarith
    norm_num at a1 a2 ⊢
    linarith

/-! ### Histograms of images -/

theorem hat_nonneg' (t : ℝ) : 0 ≤ hat t := le_max_left _ _
theorem hat_le_one' (t : ℝ) : hat t ≤ 1 := max_le (by norm_num) (by linarith [abs_nonneg t])

theorem hat_lip (s t : ℝ) : |hat s - hat t| ≤ |s - t| := by
  unfold hat
  rw [max_comm 0, max_comm 0]
  refine (abs_max_sub_max_le_abs _ _ _).trans ?_
  rw [sub_sub_sub_cancel_left, abs_sub_comm s t]
  exact abs_abs_sub_abs_le t s

theorem circHat_range {n : Nat} (hn : 0 < n) {p : ℝ} (h0 : 0 ≤ p) (h1 : p ≤ n) (a : Nat) :
    0 ≤ circHat n p a ∧ circHat n p a ≤ 1 := by
  have hn1 : (1 : ℝ) ≤ n := by exact_mod_cast hn
  unfold circHat
  split_ifs with ha
  · refine ⟨add_nonneg (hat_nonneg' _) (hat_nonneg' _), ?_⟩
    subst ha
    unfold hat
    rw [Nat.cast_zero, sub_zero, abs_of_nonneg h0, abs_of_nonpos (by linarith : p - n ≤ 0)]
    rcases max_cases 0 (1 - p) with ⟨e, _⟩ | ⟨e, _⟩ <;>
      rcases max_cases 0 (1 - -(p - n)) with ⟨e', _⟩ | ⟨e', _⟩ <;> rw [e, e'] <;> linarith
  · rw [add_zero]
    exact ⟨hat_nonneg' _, hat_le_one' _⟩

theorem circHat_lip (n : Nat) (p q : ℝ) (a : Nat) : |circHat n p a - circHat n q a| ≤ 2 * |p - q| := by
  have h1 := hat_lip (p - a) (q - a)
  have h2 := hat_lip (p - n) (q - n)
  rw [sub_sub_sub_cancel_right] at h1 h2
  unfold circHat
  split_ifs
  · rw [add_sub_add_comm]
    exact (abs_add_le _ _).trans (by linarith)
  · rw [add_zero, add_zero]
    linarith [abs_nonneg (p - q)]

/-- Only the two neighbouring cells are voted for. -/
theorem hat_votes {cs x c : Nat} {p : ℝ} (h0 : 0 ≤ p) (hf : ⌊p⌋₊ = x / cs) :
    hat (p - c) ≤ votes cs c x ∧ (votes cs c x = 0 → hat (p - c) = 0) := by
  have l1 := Nat.floor_le h0
  have l2 := Nat.lt_floor_add_one p
  rw [hf] at l1 l2
  have hz : ¬ (x / cs = c) → ¬ (x / cs + 1 = c) → hat (p - c) = 0 := by
    intro h1 h2
    unfold hat
    refine max_eq_left ?_
    rcases lt_or_gt_of_ne h1 with h | h
    · have : ((x / cs : Nat) : ℝ) + 2 ≤ c := by exact_mod_cast (by omega : x / cs + 2 ≤ c)
      rw [abs_of_nonpos (by linarith)]
      linarith
    · have : (c : ℝ) + 1 ≤ ((x / cs : Nat) : ℝ) := by exact_mod_cast h
      rw [abs_of_nonneg (by linarith)]
      linarith
  unfold votes
  split_ifs with h1 h2 h2
  · omega
  · exact ⟨by simpa using hat_le_one' _, by simp⟩
  · exact ⟨by simpa using hat_le_one' _, by simp⟩
  · rw [hz h1 h2]
    simp

theorem prod_diff {a b c a' b' c' : ℝ} (hb : 0 ≤ b ∧ b ≤ 1) (hc : 0 ≤ c ∧ c ≤ 1)
    (ha' : 0 ≤ a' ∧ a' ≤ 1) (hb' : 0 ≤ b' ∧ b' ≤ 1) :
    |a * b * c - a' * b' * c'| ≤ |a - a'| + |b - b'| + |c - c'| := by
  have e : a * b * c - a' * b' * c' = (a - a') * (b * c) + (b - b') * (a' * c) + (c - c') * (a' * b') := by ring
  rw [e]
  have k : ∀ u v w : ℝ, 0 ≤ v ∧ v ≤ 1 → 0 ≤ w ∧ w ≤ 1 → |u * (v * w)| ≤ |u| := by
    intro u v w hv hw
    rw [abs_mul, abs_of_nonneg (mul_nonneg hv.1 hw.1)]
    have : v * w ≤ 1 := mul_le_one₀ hv.2 hw.1 hw.2
    exact mul_le_of_le_one_right (abs_nonneg u) this
  refine (abs_add_le _ _).trans (add_le_add ((abs_add_le _ _).trans (add_le_add ?_ ?_)) ?_)
  · exact k _ _ _ hb hc
  · exact k _ _ _ ha' hc
  · exact k _ _ _ ha' hb'

theorem Rel.finsum {β : Type _} {k : Nat} {r e : β → ℝ} (S : Finset β) (h : ∀ b ∈ S, Rel k (r b) (e b)) :
    Rel k (∑ b ∈ S, r b) (∑ b ∈ S, e b) := by
  refine ⟨sum_nonneg fun b hb => (h b hb).1, sum_nonneg fun b hb => (h b hb).2.1, ?_, ?_⟩
  · rw [mul_sum]
    exact sum_le_sum fun b hb => (h b hb).2.2.1
  · rw [mul_sum]
    exact sum_le_sum fun b hb => (h b hb).2.2.2

/-- The length of the Sobel gradient. -/
noncomputable def gradLength (im : Image (Unit → Nat)) (x y : Nat) : ℝ :=
  √((hDiff 1 2 im () x y : ℝ) ^ 2 + (vDiff 1 2 im () x y : ℝ) ^ 2)

/-- The histograms of an image in real arithmetic: the trilinear interpolation of `C91_histogram`, of the lengths
and directions of the Sobel gradients. -/
noncomputable def idealHist (im : Image (Unit → Nat)) (s : Spec) (a cx cy : Nat) : ℝ :=
  histSpec im.w im.h (gradLength im)
    (fun x y => direction s.options.signed (hDiff 1 2 im () x y) (vDiff 1 2 im () x y) /
      turn s.options.signed * s.options.orientations) s a cx cy

theorem gradLength_le {im : Image (Unit → Nat)} (h : IsU8 im) {x y : Nat} (hx : x < im.w) (hy : y < im.h) :
    0 ≤ gradLength im x y ∧ gradLength im x y ≤ 1443 := by
  obtain ⟨b1, b2⟩ := sobel_bounds h () hx hy
  have hs := sq_sum_le b1 b2
  refine ⟨Real.sqrt_nonneg _, ?_⟩
  unfold gradLength
  rw [Real.sqrt_le_left (by norm_num)]
  have : (hDiff 1 2 im () x y : ℝ) * hDiff 1 2 im () x y + vDiff 1 2 im () x y * vDiff 1 2 im () x y ≤
    2080800 := by exact_mod_cast hs
  nlinarith

theorem direction_range (signed : Bool) (h v : Int) :
    0 ≤ direction signed h v / turn signed ∧ direction signed h v / turn signed ≤ 1 := by
  have l1 := Complex.neg_pi_lt_arg ⟨h, v⟩
  have l2 := Complex.arg_le_pi ⟨h, v⟩
  have l3 := Real.pi_pos
  have T0 : 0 < turn signed := by unfold turn; split_ifs <;> linarith
  rw [div_le_one T0]
  have D1 : direction signed h v ≤ turn signed := by
    unfold direction turn
    dsimp only
    split_ifs <;> linarith
  have D0 : 0 ≤ direction signed h v := by
    unfold direction
    dsimp only
    split_ifs <;> linarith
  exact ⟨by positivity, D1⟩

/-- Sums over the pixels that vote for a cell. -/
theorem sum_votes_le {cs w h cx cy : Nat} (hc : 0 < cs) (f : Nat × Nat → ℝ) {B : ℝ} (hB : 0 ≤ B)
    (hf : ∀ p ∈ allPx w h, |f p| ≤ votes cs cx p.1 * votes cs cy p.2 * (B / (cs * cs))) :
    |∑ p ∈ allPx w h, f p| ≤ 4 * B := by
  refine (abs_sum_le_sum_abs _ _).trans ((sum_le_sum hf).trans ?_)
  rw [← sum_mul]
  have e : ∑ p ∈ allPx w h, (votes cs cx p.1 : ℝ) * votes cs cy p.2 =
      ((∑ x ∈ range w, votes cs cx x : Nat) : ℝ) * ((∑ y ∈ range h, votes cs cy y : Nat) : ℝ) := by
    push_cast
    rw [sum_mul_sum]
    exact sum_product _ _ _
  rw [e]
  have v1 : ((∑ x ∈ range w, votes cs cx x : Nat) : ℝ) ≤ 2 * cs := by exact_mod_cast votes_sum hc w cx
  have v2 : ((∑ y ∈ range h, votes cs cy y : Nat) : ℝ) ≤ 2 * cs := by exact_mod_cast votes_sum hc h cy
  have hcs : (0 : ℝ) < cs := by exact_mod_cast hc
  calc _ ≤ (2 * cs * (2 * cs) : ℝ) * (B / (cs * cs)) :=
        mul_le_mul_of_nonneg_right (mul_le_mul v1 v2 (by positivity) (by positivity)) (by positivity)
    _ = 4 * B := by field_simp; ring

/-- The error of the positions changes the histograms by little. -/
theorem hist_close {im : Image (Unit → Nat)} (hu : IsU8 im) {o : Options} {s : Spec}
    (hs : fromOptions im.w im.h o = some (.ok s)) (hw0 : 0 < im.w) (hw : im.w ≤ 2 ^ 24) (hh : im.h ≤ 2 ^ 24)
    {atan2 : Int → Int → F32 ℝ} (ok : Atan2Ok atan2) (ho : 0 < o.orientations) (ho2 : o.orientations < 2 ^ 64)
    (a cx cy : Nat) :
    let A := histAt im.w im.h (gradLength im) (fun x y =>
      (position32 atan2 o.signed o.orientations (hDiff 1 2 im () x y) (vDiff 1 2 im () x y)).val) s a cx cy
    0 ≤ A ∧ A ≤ 5772 ∧
    |A - idealHist im s a cx cy| ≤ 5772 * (o.orientations / 2 ^ 16 + (s.cellsWide + s.cellsHigh) / 2 ^ 23) := by
  obtain ⟨rfl, hc, hcw, hch, -⟩ := C77_cover hs
  have hc2 : s.options.cellSide ≤ 2 ^ 24 := by
    refine le_trans ?_ hw
    rcases Nat.eq_zero_or_pos s.cellsWide with h0 | h0
    · rw [h0] at hcw; omega
    · rw [← hcw]; exact Nat.le_mul_of_pos_left _ h0
  have hcs : (0 : ℝ) < s.options.cellSide := by exact_mod_cast hc
  have cp : ∀ x C : Nat, x < 2 ^ 24 → x < C * s.options.cellSide →
      0 ≤ (cellPos s.options.cellSide x).val ∧ ⌊(cellPos s.options.cellSide x).val⌋₊ = x / s.options.cellSide ∧
      ⌊(x : ℝ) / s.options.cellSide⌋₊ = x / s.options.cellSide ∧
      |(cellPos s.options.cellSide x).val - (x : ℝ) / s.options.cellSide| ≤ C / 2 ^ 23 := by
    intro x C h1 h2
    obtain ⟨p, r⟩ := cellPos_big hc hc2 h1.le
    refine ⟨p.big.nonneg, cellPos_floor hc hc2 h1, Nat.floor_div_eq_div .., ?_⟩
    have hx : (x : ℝ) / s.options.cellSide ≤ C := by
      rw [div_le_iff₀ hcs]
      exact_mod_cast h2.le
    refine (r.error (by norm_num)).trans ?_
    push_cast
    rw [div_mul_eq_mul_div, one_mul]
    exact div_le_div_of_nonneg_right hx (by positivity)
  have pos : ∀ x y, x < im.w → y < im.h → _ := fun x y hx hy =>
    C134_position ok s.options.signed (sobel_bounds hu () hx hy).1 (sobel_bounds hu () hx hy).2 ho ho2
  have n0 : (0 : ℝ) ≤ s.options.orientations := by positivity
  dsimp only
  refine ⟨?_, ?_, ?_⟩
  · unfold histAt
    refine sum_nonneg fun p hp => ?_
    obtain ⟨hx, hy⟩ := mem_allPx.1 hp
    obtain ⟨q1, q2, q3⟩ := pos p.1 p.2 hx hy
    have := (circHat_range ho q1.big.nonneg q2.le a).1
    have := (gradLength_le hu hx hy).1
    have := hat_nonneg' ((cellPos s.options.cellSide p.2).val - cy)
    have := hat_nonneg' ((cellPos s.options.cellSide p.1).val - cx)
    positivity
  · have := sum_votes_le (w := im.w) (h := im.h) (cx := cx) (cy := cy) hc (fun p =>
      hat ((cellPos s.options.cellSide p.2).val - cy) *
      hat ((cellPos s.options.cellSide p.1).val - cx) * circHat s.options.orientations
        (position32 atan2 s.options.signed s.options.orientations (hDiff 1 2 im () p.1 p.2)
          (vDiff 1 2 im () p.1 p.2)).val a *
      gradLength im p.1 p.2 / (s.options.cellSide * s.options.cellSide)) (B := 1443) (by norm_num) (by
        intro p hp
        obtain ⟨hx, hy⟩ := mem_allPx.1 hp
        obtain ⟨q1, q2, q3⟩ := pos p.1 p.2 hx hy
        obtain ⟨c0, c1⟩ := circHat_range ho q1.big.nonneg q2.le a
        obtain ⟨g0, g1⟩ := gradLength_le hu hx hy
        obtain ⟨x0, x1, -, -⟩ := cp p.1 s.cellsWide (by omega) (by omega)
        obtain ⟨y0, y1, -, -⟩ := cp p.2 s.cellsHigh (by omega) (by omega)
        have hx' := (hat_votes (c := cx) x0 x1).1
        have hy' := (hat_votes (c := cy) y0 y1).1
        have hxn := hat_nonneg' ((cellPos s.options.cellSide p.1).val - cx)
        have hyn := hat_nonneg' ((cellPos s.options.cellSide p.2).val - cy)
        rw [abs_of_nonneg (by positivity), mul_div_assoc]
        refine mul_le_mul ?_ (div_le_div_of_nonneg_right g1 (by positivity)) (by positivity) (by positivity)
        calc _ ≤ (votes s.options.cellSide cy p.2 : ℝ) * votes s.options.cellSide cx p.1 * 1 :=
              mul_le_mul (mul_le_mul hy' hx' hxn (by positivity)) c1 c0 (by positivity)
          _ = _ := by ring)
    refine (le_abs_self _).trans (this.trans (by norm_num))
  · unfold idealHist histAt histSpec
    rw [← sum_sub_distrib]
    refine (sum_votes_le (cs := s.options.cellSide) (cx := cx) (cy := cy) hc _ (B := 1443 *
      ((s.options.orientations : ℝ) / 2 ^ 16 + (s.cellsWide + s.cellsHigh) / 2 ^ 23)) (by positivity) ?_).trans
      (le_of_eq (by ring))
    intro p hp
    dsimp only
    obtain ⟨hx, hy⟩ := mem_allPx.1 hp
    obtain ⟨q1, q2, q3⟩ := pos p.1 p.2 hx hy
    obtain ⟨d0, d1⟩ := direction_range s.options.signed (hDiff 1 2 im () p.1 p.2) (vDiff 1 2 im () p.1 p.2)
    have c := circHat_range ho q1.big.nonneg q2.le a
    obtain ⟨g0, g1⟩ := gradLength_le hu hx hy
    obtain ⟨x0, x1, x2, x3⟩ := cp p.1 s.cellsWide (by omega) (by omega)
    obtain ⟨y0, y1, y2, y3⟩ := cp p.2 s.cellsHigh (by omega) (by omega)
    have lc := circHat_lip s.options.orientations
      (position32 atan2 s.options.signed s.options.orientations (hDiff 1 2 im () p.1 p.2)
        (vDiff 1 2 im () p.1 p.2)).val
      (direction s.options.signed (hDiff 1 2 im () p.1 p.2) (vDiff 1 2 im () p.1 p.2) /
        turn s.options.signed * s.options.orientations) a
    generalize (position32 atan2 s.options.signed s.options.orientations (hDiff 1 2 im () p.1 p.2)
        (vDiff 1 2 im () p.1 p.2)).val = P at *
    generalize direction s.options.signed (hDiff 1 2 im () p.1 p.2) (vDiff 1 2 im () p.1 p.2) /
        turn s.options.signed * s.options.orientations = Q at *
    by_cases hv : votes s.options.cellSide cx p.1 = 0 ∨ votes s.options.cellSide cy p.2 = 0
    · rcases hv with hv | hv
      · rw [(hat_votes (c := cx) x0 x1).2 hv, (hat_votes (c := cx) (by positivity) x2).2 hv]
        simp [hv]
      · rw [(hat_votes (c := cy) y0 y1).2 hv, (hat_votes (c := cy) (by positivity) y2).2 hv]
        simp [hv]
    · have v1 : (1 : ℝ) ≤ votes s.options.cellSide cx p.1 := by
        exact_mod_cast (by omega : 1 ≤ votes s.options.cellSide cx p.1)
      have v2 : (1 : ℝ) ≤ votes s.options.cellSide cy p.2 := by
        exact_mod_cast (by omega : 1 ≤ votes s.options.cellSide cy p.2)
      rw [← sub_div, ← sub_mul, abs_div, abs_mul, abs_of_nonneg g0, abs_of_nonneg (by positivity :
        (0 : ℝ) ≤ s.options.cellSide * s.options.cellSide)]
      have pd := prod_diff (a := hat ((cellPos s.options.cellSide p.2).val - cy))
        (b := hat ((cellPos s.options.cellSide p.1).val - cx)) (c := circHat s.options.orientations P a)
        (a' := hat ((p.2 : ℝ) / s.options.cellSide - cy)) (b' := hat ((p.1 : ℝ) / s.options.cellSide - cx))
        (c' := circHat s.options.orientations Q a) ⟨hat_nonneg' _, hat_le_one' _⟩
        c ⟨hat_nonneg' _, hat_le_one' _⟩ ⟨hat_nonneg' _, hat_le_one' _⟩
      have l1 := hat_lip ((cellPos s.options.cellSide p.2).val - cy) ((p.2 : ℝ) / s.options.cellSide - cy)
      have l2 := hat_lip ((cellPos s.options.cellSide p.1).val - cx) ((p.1 : ℝ) / s.options.cellSide - cx)
      rw [sub_sub_sub_cancel_right] at l1 l2
      have tot := pd.trans (show _ ≤ (s.options.orientations : ℝ) / 2 ^ 16 +
        (s.cellsWide + s.cellsHigh) / 2 ^ 23 by
          have : (s.options.orientations : ℝ) / 2 ^ 16 = 2 * (s.options.orientations / 2 ^ 17) := by ring
          rw [this, add_div]
          linarith)
      have vv : (1 : ℝ) ≤ (votes s.options.cellSide cx p.1 : ℝ) * votes s.options.cellSide cy p.2 := by nlinarith
      refine le_trans ?_ (le_mul_of_one_le_left (by positivity) vv)
      refine div_le_div_of_nonneg_right ?_ (by positivity)
      rw [mul_comm]
      exact mul_le_mul g1 tot (abs_nonneg _) (by norm_num)

/-! ### The descriptor -/

/-- **C134.** `hog` of an 8-bit image in `f32`.  For options that fit the image, with at least one orientation, there
is no panic and the descriptor has the announced length.  It consists of the blocks of cell histograms, normalised in
`f32`.  The histograms are those of real arithmetic, up to an error that grows with the cell area, the number of
orientations and the number of cells.  Images have at most `2 ^ 24` columns and rows and cells a side of at most 724
pixels. -/
theorem C134_hog {atan2 : Int → Int → F32 ℝ} (ok : Atan2Ok atan2) {im : Image (Unit → Nat)} (hu : IsU8 im)
    {o : Options} (hf : Fits im.w im.h o) (ho : 0 < o.orientations) (ho2 : o.orientations < 2 ^ 64)
    (hw0 : 0 < im.w) (hw : im.w ≤ 2 ^ 24) (hh : im.h ≤ 2 ^ 24) :
    ∃ s desc hist, fromOptions im.w im.h o = some (.ok s) ∧ hog32 atan2 im o = some (.ok desc) ∧
      desc.length = s.descriptorLength ∧
      (∀ bx by_, bx < s.blocksWide → by_ < s.blocksHigh →
        slice desc (s.blockDescriptorLength * (bx + s.blocksWide * by_)) s.blockDescriptorLength =
          some (normalise norm32 (blockVec s hist bx by_))) ∧
      ∀ a cx cy, a < o.orientations → cx < s.cellsWide → cy < s.cellsHigh →
        Rep 24 (-149) (hist a cx cy).val ∧ 0 ≤ (hist a cx cy).val ∧
        (o.cellSide ≤ 724 → |(hist a cx cy).val - idealHist im s a cx cy| ≤ 5772 *
          ((8 * o.cellSide ^ 2 + 9) / 2 ^ 23 + o.orientations / 2 ^ 16 + (s.cellsWide + s.cellsHigh) / 2 ^ 23)) := by
  obtain ⟨s, hs⟩ := (C77_accept_iff im.w im.h o).mpr hf
  have hcover := C77_cover hs
  obtain ⟨rfl, -, -, -, v⟩ := hcover
  obtain ⟨⟨hor, e1, e2, e3, e4⟩, ⟨ver, f1, f2, f3, f4⟩⟩ := sobel32 hu
  have lens : ∀ x y, x < im.w → y < im.h → _ := fun x y hx hy =>
    length32_eq (sobel_bounds hu () hx hy).1 (sobel_bounds hu () hx hy).2
  have pos : ∀ x y, x < im.w → y < im.h → _ := fun x y hx hy =>
    C134_position ok s.options.signed (sobel_bounds hu () hx hy).1 (sobel_bounds hu () hx hy).2 ho ho2
  obtain ⟨grid, g1, g2⟩ := C134_histogram hs hw0 hw hh
    (fun x y => length32 (hor.px x y ()) (ver.px x y ()))
    (fun x y => foldDirection ⟨hogPi⟩ s.options.signed (atan2 (ver.px x y ()) (hor.px x y ())) /
      (directionRange ⟨hogPi⟩ s.options.signed / (s.options.orientations : F32 ℝ)))
    (by
      intro x y hx hy
      rw [e4 x y hx hy, f4 x y hx hy]
      exact (lens x y hx hy).2.1)
    (by
      intro x y hx hy
      rw [e4 x y hx hy, f4 x y hx hy]
      exact ⟨(pos x y hx hy).1, (pos x y hx hy).2.1⟩)
  have hist : ∃ hist : Nat → Nat → Nat → F32 ℝ, IsGrid s hist grid ∧ ∀ a cx cy, a < s.options.orientations →
      cx < s.cellsWide → cy < s.cellsHigh → Rep 24 (-149) (hist a cx cy).val ∧
        Rel (8 + 8 * (s.options.cellSide * s.options.cellSide)) (hist a cx cy).val
          (histAt im.w im.h (fun x y => (length32 (hor.px x y ()) (ver.px x y ())).val)
            (fun x y => (foldDirection ⟨hogPi⟩ s.options.signed (atan2 (ver.px x y ()) (hor.px x y ())) /
              (directionRange ⟨hogPi⟩ s.options.signed / (s.options.orientations : F32 ℝ))).val) s a cx cy) := by
    refine ⟨fun a cx cy => (grid[a + s.options.orientations * (cx + s.cellsWide * cy)]?).getD 0,
      ⟨g2.len, ?_⟩, ?_⟩
    · intro a cx cy ha hx hy
      obtain ⟨v, h1, -, -⟩ := g2.val a cx cy ha hx hy
      rw [h1]
      rfl
    · intro a cx cy ha hx hy
      obtain ⟨v, h1, h2, h3⟩ := g2.val a cx cy ha hx hy
      dsimp only
      rw [h1]
      exact ⟨h2, h3⟩
  obtain ⟨hist, hg, hr⟩ := hist
  obtain ⟨desc, d1, d2, d3⟩ := C77_layout norm32 v hg
  refine ⟨s, desc, hist, hs, ?_, d2, d3, ?_⟩
  · unfold hog32
    rw [hs, Option.bind_some]
    dsimp only
    rw [e1, Option.bind_some, f1, Option.bind_some]
    unfold hog
    rw [hs, Option.bind_some]
    dsimp only
    rw [g1, Option.bind_some, d1, Option.bind_some]
  · intro a cx cy ha hx hy
    obtain ⟨r1, r2⟩ := hr a cx cy ha hx hy
    refine ⟨r1, r2.1, fun h724 => ?_⟩
    obtain ⟨A0, A1, A2⟩ := hist_close hu hs hw0 hw hh ok ho ho2 a cx cy
    -- exchange the rounded lengths for the exact ones
    have rl : Rel 1 (histAt im.w im.h (fun x y => (length32 (hor.px x y ()) (ver.px x y ())).val)
            (fun x y => (foldDirection ⟨hogPi⟩ s.options.signed (atan2 (ver.px x y ()) (hor.px x y ())) /
              (directionRange ⟨hogPi⟩ s.options.signed / (s.options.orientations : F32 ℝ))).val) s a cx cy)
        (histAt im.w im.h (gradLength im) (fun x y => (position32 atan2 s.options.signed s.options.orientations
          (hDiff 1 2 im () x y) (vDiff 1 2 im () x y)).val) s a cx cy) := by
      unfold histAt
      refine Rel.finsum _ fun p hp => ?_
      obtain ⟨px, py⟩ := mem_allPx.1 hp
      dsimp only
      rw [e4 _ _ px py, f4 _ _ px py]
      obtain ⟨q1, q2, -⟩ := pos p.1 p.2 px py
      have c0 := (circHat_range ho q1.big.nonneg q2.le a).1
      have k := ((Rel.refl (mul_nonneg (mul_nonneg (hat_nonneg' ((cellPos s.options.cellSide p.2).val - cy))
        (hat_nonneg' ((cellPos s.options.cellSide p.1).val - cx))) c0)).mul (lens p.1 p.2 px py).2.2).div
        (Rel.refl (show (0 : ℝ) ≤ s.options.cellSide * s.options.cellSide by positivity))
      exact k
    have er := (r2.trans rl).error (by
      have : s.options.cellSide * s.options.cellSide ≤ 724 * 724 := Nat.mul_le_mul h724 h724
      omega)
    generalize histAt im.w im.h (gradLength im) _ s a cx cy = A at *
    have k : |(hist a cx cy).val - A| ≤ 5772 * ((8 * s.options.cellSide ^ 2 + 9) / 2 ^ 23) := by
      refine er.trans ?_
      push_cast
      have : ((8 : ℝ) + 8 * (s.options.cellSide * s.options.cellSide) + 1) / 2 ^ 23 * A ≤
          (8 + 8 * (s.options.cellSide * s.options.cellSide) + 1) / 2 ^ 23 * 5772 :=
        mul_le_mul_of_nonneg_left A1 (by positivity)
      refine this.trans (le_of_eq (by ring))
    have e : (hist a cx cy).val - idealHist im s a cx cy =
      ((hist a cx cy).val - A) + (A - idealHist im s a cx cy) := by ring
    rw [e]
    refine (abs_add_le _ _).trans ((add_le_add k A2).trans (le_of_eq (by ring)))

/-- The assumption on `atan2` holds for the correctly rounded function. -/
example : Atan2Ok fun v h =>
    if v = 0 then (if 0 ≤ h then 0 else ⟨hogPi⟩) else ⟨rnd32 (Complex.arg ⟨h, v⟩)⟩ := by
  intro v h hv hh
  dsimp only
  by_cases v0 : v = 0
  · subst v0
    have ez : (⟨(h : ℝ), ((0 : Int) : ℝ)⟩ : ℂ) = (((h : ℝ)) : ℂ) := by apply Complex.ext <;> simp
    rw [if_pos rfl, ez]
    rcases le_or_gt 0 h with h0 | h0
    · rw [if_pos h0, Complex.arg_ofReal_of_nonneg (by exact_mod_cast h0)]
      refine ⟨rep_zero, fun _ _ => rfl, fun _ h1 => by omega, ?_⟩
      rw [F32.zero_val]
      norm_num
    · rw [if_neg (by omega), Complex.arg_ofReal_of_neg (by exact_mod_cast h0)]
      exact ⟨rep_pi, fun _ h1 => by omega, fun _ _ => rfl, hogPi_close⟩
  · obtain ⟨b1, b2⟩ := arg_bounds hh hv v0
    rw [if_neg v0]
    refine ⟨rep_rnd _, fun h1 => absurd h1 v0, fun h1 => absurd h1 v0, ?_⟩
    have := rnd_error_rel (K := ℝ) (p := 24) (emin := -149) (x := Complex.arg ⟨h, v⟩)
      (le_trans (by norm_num) b1)
    refine this.trans ?_
    have := Real.pi_lt_d6
    norm_num
    linarith
/-- A vertical edge points to position zero, a horizontal one a quarter turn further: of 8 signed bins, bin 2. -/
example : direction true 1020 0 / turn true * 8 = 0 ∧ direction true 0 1020 / turn true * 8 = 2 := by
  have e1 : (⟨((1020 : Int) : ℝ), ((0 : Int) : ℝ)⟩ : ℂ) = ((1020 : ℝ) : ℂ) := by apply Complex.ext <;> simp
  have e2 : (⟨((0 : Int) : ℝ), ((1020 : Int) : ℝ)⟩ : ℂ) = ((1020 : ℝ) : ℂ) * Complex.I := by
    apply Complex.ext <;> simp
  have := Real.pi_pos
  unfold direction turn
  dsimp only
  rw [e1, e2, Complex.arg_real_mul _ (by norm_num), Complex.arg_I, Complex.arg_ofReal_of_nonneg (by norm_num)]
  rw [if_pos rfl, if_neg (lt_irrefl _), if_pos rfl, if_pos rfl, if_neg (by linarith)]
  constructor
  · simp
  · field_simp
    norm_num
/-- The error bound for cells of side 8, 8 orientations and 64 by 64 cells, in units of the gradient length. -/
example : 5772 * ((8 * (8 : ℚ) ^ 2 + 9) / 2 ^ 23 + 8 / 2 ^ 16 + (64 + 64) / 2 ^ 23) < 12 / 10 := by norm_num

end Verif.Float
