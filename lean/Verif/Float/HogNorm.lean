import Verif.Float.Hog
/-
Normalisation of the blocks of `hog` in single precision (`l2_norm`, src/math.rs:9-11, and src/hog.rs:229-239).
Property theorem C134, third part.
-/
namespace Verif.Float
open Verif.Hog Finset

theorem log_scale {x : ℝ} (hx : 0 < x) (j : Nat) : Int.log 2 (x / 2 ^ j) = Int.log 2 x - j := by
  have h2 : (1 : Nat) < 2 := by norm_num
  have l1 := Int.zpow_log_le_self h2 hx
  have l2 := Int.lt_zpow_succ_log_self h2 x
  have hp : (0 : ℝ) < 2 ^ j := by positivity
  have hx' : 0 < x / 2 ^ j := div_pos hx hp
  have a : Int.log 2 x - j ≤ Int.log 2 (x / 2 ^ j) := by
    rw [← Int.zpow_le_iff_le_log h2 hx', le_div_iff₀ hp, ← zpow_natCast ((2 : ℝ)) j]
    push_cast at l1 ⊢
    rw [← zpow_add₀ (by norm_num), sub_add_cancel]
    exact l1
  have b : Int.log 2 (x / 2 ^ j) < Int.log 2 x - j + 1 := by
    rw [← Int.lt_zpow_iff_log_lt h2 hx', div_lt_iff₀ hp, ← zpow_natCast ((2 : ℝ)) j]
    push_cast at l2 ⊢
    rw [← zpow_add₀ (by norm_num), show Int.log 2 x - j + 1 + j = Int.log 2 x + 1 by ring]
    exact l2
  omega

/-- Rounding commutes with scaling down, away from the subnormal numbers. -/
theorem rnd_scale {x : ℝ} (hx : 1 ≤ x) {j : Nat} (hj : j ≤ 126) : rnd32 (x / 2 ^ j) = rnd32 x / 2 ^ j := by
  have x0 : 0 < x := by linarith
  have hp : (0 : ℝ) < 2 ^ j := by positivity
  have l0 : 0 ≤ Int.log 2 x := by
    rw [← Int.zpow_le_iff_le_log (by norm_num) x0]
    simpa using hx
  have e1 : ulpExp 24 (-149) x = Int.log 2 x - 23 := by
    unfold ulpExp
    rw [abs_of_pos x0]
    omega
  have e2 : ulpExp 24 (-149) (x / 2 ^ j) = Int.log 2 x - 23 - j := by
    unfold ulpExp
    rw [abs_of_pos (div_pos x0 hp), log_scale x0]
    omega
  change rnd 24 (-149) (x / 2 ^ j) = rnd 24 (-149) x / 2 ^ j
  unfold rnd
  rw [if_neg x0.ne', if_neg (div_pos x0 hp).ne', e1, e2]
  have z : (2 : ℝ) ^ (Int.log 2 x - 23 - j) = 2 ^ (Int.log 2 x - 23) / 2 ^ j := by
    rw [zpow_sub₀ (by norm_num), zpow_natCast]
  rw [z, div_div_div_cancel_right₀ hp.ne', mul_div_assoc]

/-- The square root of the square of a number that is not tiny is the number itself. -/
theorem sqrt_sq_small {x : ℝ} (hx : Rep 24 (-149) x) (h1 : 1 / 2 ^ 60 ≤ x) :
    rnd32 (√(rnd32 (x * x))) = x := by
  have y1 : 1 ≤ x * 2 ^ 60 := by
    rw [div_le_iff₀ (by positivity)] at h1
    exact h1
  have ry : Rep 24 (-149) (x * 2 ^ 60) := by
    obtain ⟨m, k, hm, hk, e⟩ := hx
    refine ⟨m, k + 60, hm, by omega, ?_⟩
    rw [e, zpow_add₀ (by norm_num), mul_assoc]
    norm_num
  have key := sqrt_sq_exact ry y1
  generalize hy : x * 2 ^ 60 = y at *
  have ex : x = y / 2 ^ 60 := by rw [← hy]; field_simp
  have yy : 1 ≤ y * y := by nlinarith
  have e1 : rnd32 (x * x) = rnd32 (y * y) / 2 ^ 120 := by
    rw [← rnd_scale yy (by norm_num), ex]
    congr 1
    rw [div_mul_div_comm]
    norm_num
  have r1 : 1 ≤ rnd32 (y * y) := le_rnd (by norm_num) rep_one_sum yy
  have e2 : √(rnd32 (x * x)) = √(rnd32 (y * y)) / 2 ^ 60 := by
    rw [e1, Real.sqrt_div' _ (by positivity), show ((2 : ℝ) ^ 120) = (2 ^ 60) ^ 2 by norm_num,
      Real.sqrt_sq (by positivity)]
  rw [e2, rnd_scale (Real.one_le_sqrt.2 r1) (by norm_num), key, ← ex]

theorem norm32_eq (xs : List (F32 ℝ)) :
    (norm32 xs).val = rnd32 (√(fsum (xs.map fun x => rnd32 (x.val * x.val)))) := by
  have : ∀ (xs : List (F32 ℝ)) (a : F32 ℝ), (xs.foldl (fun acc x => acc + x * x) a).val =
      (xs.map fun x => rnd32 (x.val * x.val)).foldl (fun s v => rnd32 (s + v)) a.val := by
    intro xs
    induction xs with
    | nil => intro a; rfl
    | cons x xs ih => intro a; rw [List.foldl_cons, ih]; rfl
  unfold norm32 fsum
  dsimp only
  rw [this]
  rfl

/-- A sum is at least each of its terms. -/
theorem le_fsum (l : List ℝ) (h : ∀ v ∈ l, 0 ≤ v) {v : ℝ} (hv : v ∈ l) (hr : Rep 24 (-149) v) :
    v ≤ fsum l := by
  have : ∀ (l : List ℝ) (a : ℝ), (∀ u ∈ l, 0 ≤ u) → 0 ≤ a → (v ≤ a ∨ v ∈ l) →
      v ≤ l.foldl (fun s v => rnd32 (s + v)) a := by
    intro l
    induction l with
    | nil =>
      intro a _ _ h
      rcases h with h | h
      · exact h
      · exact absurd h List.not_mem_nil
    | cons u l ih =>
      intro a hl ha h
      rw [List.foldl_cons]
      have u0 := hl u (by simp)
      have a0 : 0 ≤ rnd32 (a + u) := rnd_nonneg (by linarith)
      refine ih _ (fun w hw => hl w (by simp [hw])) a0 ?_
      rcases h with h | h
      · exact Or.inl (le_rnd (by norm_num) hr (by linarith))
      · rcases List.mem_cons.1 h with rfl | h
        · exact Or.inl (le_rnd (by norm_num) hr (by linarith))
        · exact Or.inr h
  exact this l 0 h (le_refl _) (Or.inr hv)

/-- The computed norm is at least every entry. -/
theorem le_norm32 {b : List (F32 ℝ)} {x : F32 ℝ} (hx : x ∈ b) (hr : Rep 24 (-149) x.val)
    (h : 1 / 2 ^ 60 ≤ x.val) : x.val ≤ (norm32 b).val := by
  rw [norm32_eq, ← sqrt_sq_small hr h]
  refine rnd_mono (by norm_num) (Real.sqrt_le_sqrt ?_)
  refine le_fsum _ ?_ (List.mem_map.2 ⟨x, hx, ?_⟩) (rep_rnd _)
  · intro v hv
    obtain ⟨u, -, rfl⟩ := List.mem_map.1 hv
    exact rnd_nonneg (mul_self_nonneg _)
  · rfl

/-- **C134.** Entries of a normalised block: none is above one, whenever the histogram entry is zero or at least
`2 ^ -60`. -/
theorem C134_at_most_one {b : List (F32 ℝ)} {i : Nat} {x : F32 ℝ} (hi : b[i]? = some x) (hr : Rep 24 (-149) x.val)
    (hb : Big 60 x.val) : ∃ e, (normalise norm32 b)[i]? = some e ∧ 0 ≤ e.val ∧ e.val ≤ 1 := by
  have hm := List.mem_of_getElem? hi
  unfold normalise
  by_cases hn : 0 < norm32 b
  · rw [if_pos hn, List.getElem?_map, hi]
    refine ⟨_, rfl, ?_, ?_⟩
    · exact rnd_nonneg (div_nonneg hb.nonneg (le_of_lt hn))
    · change rnd32 (x.val / (norm32 b).val) ≤ 1
      refine rnd_le (by norm_num) rep_one_sum ?_
      rw [div_le_one hn]
      rcases hb with h | h
      · rw [h]; exact le_of_lt hn
      · exact le_norm32 hm hr h
  · rw [if_neg hn]
    refine ⟨x, hi, hb.nonneg, ?_⟩
    rcases hb with h | h
    · rw [h]; norm_num
    · have := le_norm32 hm hr h
      exact absurd (lt_of_lt_of_le (lt_of_lt_of_le (by positivity) h) this) hn

theorem Rel.le_mul {k : Nat} {r e : ℝ} (h : Rel k r e) (hk : k ≤ 2 ^ 22) : r ≤ 2 * e := by
  have := (abs_le.1 (h.error hk)).2
  have hk' : (k : ℝ) / 2 ^ 23 ≤ 1 := by
    rw [div_le_one (by positivity)]
    exact_mod_cast hk.trans (by norm_num)
  have := mul_le_mul_of_nonneg_right hk' h.2.1
  linarith

/-- **C134.** A normalised block has length one, up to rounding: the squares of its `L` entries sum to one, up to
`(L + 6) / 2 ^ 23`.  A block of zeros stays unchanged.  The histogram entries are zero or between `2 ^ -60` and
`2 ^ 20`, and there are at most `2 ^ 21` of them. -/
theorem C134_unit {b : List (F32 ℝ)}
    (hb : ∀ x ∈ b, Rep 24 (-149) x.val ∧ Big 60 x.val ∧ x.val ≤ 2 ^ 20) (hl : b.length ≤ 2 ^ 21) :
    (∀ x ∈ normalise norm32 b, x.val = 0) ∨
      |((normalise norm32 b).map fun x => x.val ^ 2).sum - 1| ≤ ((b.length : ℝ) + 6) / 2 ^ 23 := by
  by_cases hz : ∀ x ∈ b, x.val = 0
  · left
    have n0 : (norm32 b).val = 0 := by
      rw [norm32_eq]
      have z : rnd32 (0 : ℝ) = 0 := rnd_zero
      have : b.map (fun x => rnd32 (x.val * x.val)) = b.map fun _ => ((0 : Nat) : ℝ) := by
        refine List.map_congr_left fun x hx => ?_
        rw [hz x hx, mul_zero, z, Nat.cast_zero]
      have f0 := fsum_exact (K := ℝ) (b.map fun _ => 0) (by simp)
      rw [List.map_map] at f0
      rw [this]
      change rnd32 (√(fsum (b.map (Nat.cast ∘ fun _ => 0)))) = 0
      rw [f0]
      simp only [List.map_const', List.sum_replicate, smul_zero, Nat.cast_zero, Real.sqrt_zero]
      exact z
    unfold normalise
    rw [if_neg (show ¬ (0 : F32 ℝ) < norm32 b from fun h => by
      change (0 : ℝ) < (norm32 b).val at h
      rw [n0] at h
      exact lt_irrefl _ h)]
    exact hz
  · right
    push Not at hz
    obtain ⟨x0, hx0, hne⟩ := hz
    have hx0b : 1 / 2 ^ 60 ≤ x0.val := by
      rcases (hb x0 hx0).2.1 with h | h
      · exact absurd h hne
      · exact h
    have hpos : 0 < (norm32 b).val := lt_of_lt_of_le (lt_of_lt_of_le (by positivity) hx0b)
      (le_norm32 hx0 (hb x0 hx0).1 hx0b)
    -- the sum of squares
    set S : ℝ := (b.map fun x => x.val * x.val).sum with hS
    have rs : Rel (b.length + 1) (fsum (b.map fun x => rnd32 (x.val * x.val))) S := by
      have r1 := rel_fsum (b.map fun x => rnd32 (x.val * x.val)) (by
        intro v hv
        obtain ⟨u, -, rfl⟩ := List.mem_map.1 hv
        exact ⟨rnd_nonneg (mul_self_nonneg _), rep_rnd _⟩)
      rw [List.length_map] at r1
      refine r1.trans (Rel.sum b _ _ fun x hx => ?_)
      exact rel_rnd_big (j := 120) (by norm_num) ((hb x hx).2.1.mul (hb x hx).2.1)
    set k := b.length / 2 + 1 with hk
    have rq := (rs.mono (show b.length + 1 ≤ 2 * k by omega)).sqrt
    have bq : Big 60 (√(fsum (b.map fun x => rnd32 (x.val * x.val)))) := by
      right
      have : rnd32 (x0.val * x0.val) ≤ fsum (b.map fun x => rnd32 (x.val * x.val)) := by
        refine le_fsum _ ?_ (List.mem_map.2 ⟨x0, hx0, rfl⟩) (rep_rnd _)
        intro v hv
        obtain ⟨u, -, rfl⟩ := List.mem_map.1 hv
        exact rnd_nonneg (mul_self_nonneg _)
      refine Real.le_sqrt_of_sq_le (le_trans ?_ this)
      refine le_rnd (by norm_num) ?_ ?_
      · refine ⟨1, -120, by norm_num, by norm_num, by norm_num⟩
      · rw [pow_two]
        exact mul_le_mul hx0b hx0b (by positivity) (by linarith [(hb x0 hx0).2.1.nonneg])
    have rn : Rel (k + 1) (norm32 b).val (√S) := by
      rw [norm32_eq]
      exact ((rel_rnd_big (by norm_num) bq).trans rq).mono (by omega)
    have S0 : 0 < S := by
      have := rn.2.2.2
      by_contra hc
      have s0 : √S = 0 := Real.sqrt_eq_zero_of_nonpos (not_lt.1 hc)
      rw [s0] at this
      have := mul_pos (pow_pos base_pos (k + 1)) hpos
      linarith
    have Sle : S ≤ 2 ^ 61 := by
      have : S ≤ (b.map fun _ => (2 : ℝ) ^ 40).sum := by
        refine List.sum_le_sum fun x hx => ?_
        have h0 := (hb x hx).2.1.nonneg
        have h1 := (hb x hx).2.2
        calc x.val * x.val ≤ 2 ^ 20 * 2 ^ 20 := mul_le_mul h1 h1 h0 (by positivity)
          _ = 2 ^ 40 := by norm_num
      refine this.trans ?_
      rw [List.map_const', List.sum_replicate, nsmul_eq_mul]
      have hl' : (b.length : ℝ) ≤ 2 ^ 21 := by exact_mod_cast hl
      calc (b.length : ℝ) * 2 ^ 40 ≤ 2 ^ 21 * 2 ^ 40 := mul_le_mul_of_nonneg_right hl' (by positivity)
        _ = 2 ^ 61 := by norm_num
    have nle : (norm32 b).val ≤ 2 ^ 32 := by
      refine (rn.le_mul (by omega)).trans ?_
      have : √S ≤ 2 ^ 31 := by
        rw [Real.sqrt_le_left (by norm_num)]
        exact Sle.trans (by norm_num)
      linarith
    unfold normalise
    rw [if_pos (show (0 : F32 ℝ) < norm32 b from hpos), List.map_map]
    have rt : Rel (b.length + 6) ((b.map ((fun x => x.val ^ 2) ∘ fun x => x / norm32 b)).sum)
        ((b.map fun x => x.val * x.val / S).sum) := by
      refine Rel.sum b _ _ fun x hx => ?_
      have hx' := (hb x hx).2.1
      have bd : Big 92 (x.val / (norm32 b).val) := by
        rcases hx' with h | h
        · left; rw [h, zero_div]
        · right
          rw [div_le_div_iff₀ (by positivity) hpos]
          calc 1 * (norm32 b).val ≤ 2 ^ 32 := by rw [one_mul]; exact nle
            _ = 1 / 2 ^ 60 * 2 ^ 92 := by norm_num
            _ ≤ x.val * 2 ^ 92 := mul_le_mul_of_nonneg_right h (by positivity)
      have re : Rel (k + 2) (x / norm32 b).val (x.val / √S) :=
        ((rel_rnd_big (by norm_num) bd).trans ((Rel.refl hx'.nonneg).div rn)).mono (by omega)
      have r2 := re.mul re
      rw [div_mul_div_comm, Real.mul_self_sqrt S0.le] at r2
      change Rel _ ((x / norm32 b).val ^ 2) _
      rw [pow_two]
      exact r2.mono (by omega)
    have one : (b.map fun x => x.val * x.val / S).sum = 1 := by
      have : (b.map fun x => x.val * x.val / S) = (b.map fun x => x.val * x.val).map (· / S) := by
        rw [List.map_map]; rfl
      rw [this]
      have hd : ∀ l : List ℝ, (l.map (· / S)).sum = l.sum / S := by
        intro l
        induction l with
        | nil => simp
        | cons a l ih => rw [List.map_cons, List.sum_cons, List.sum_cons, ih, add_div]
      rw [hd, ← hS, div_self S0.ne']
    rw [one] at rt
    have := rt.error (by omega)
    rw [mul_one] at this
    push_cast at this
    exact this

/-- Two histogram entries, 3 and 4, of norm 5: the entries of the block are the `f32` numbers nearest to 0.6 and
0.8, which does not make the length exactly one. -/
example : norm32 [⟨3⟩, ⟨4⟩] = ⟨5⟩ := by
  have e : norm32 [⟨3⟩, ⟨4⟩] = ⟨(norm32 [⟨3⟩, ⟨4⟩]).val⟩ := rfl
  rw [e, norm32_eq]
  have i : ∀ z : Nat, z ≤ 2 ^ 24 → rnd32 (z : ℝ) = z := fun z hz => by
    have := rnd_int (K := ℝ) (p := 24) (emin := -149) (n := z) (by norm_num) (by norm_num)
      (by rw [abs_of_nonneg (by positivity)]; exact_mod_cast hz)
    exact_mod_cast this
  have i9 : rnd32 ((3 : ℝ) * 3) = 9 := by have := i 9 (by norm_num); norm_num at this ⊢; exact this
  have i16 : rnd32 ((4 : ℝ) * 4) = 16 := by have := i 16 (by norm_num); norm_num at this ⊢; exact this
  have f := fsum_exact (K := ℝ) [9, 16] (by norm_num)
  simp only [List.map_cons, List.map_nil, i9, i16]
  norm_num at f
  rw [f, show (25 : ℝ) = 5 ^ 2 by norm_num, Real.sqrt_sq (by norm_num)]
  have := i 5 (by norm_num)
  norm_num at this
  exact congrArg F32.mk this
example : rnd32 (3 / 5 : ℚ) = 10066330 / 2 ^ 24 ∧ rnd32 (4 / 5 : ℚ) = 13421773 / 2 ^ 24 := by decide +kernel
example : (10066330 / 2 ^ 24 : ℚ) ^ 2 + (13421773 / 2 ^ 24) ^ 2 ≠ 1 := by norm_num

end Verif.Float
