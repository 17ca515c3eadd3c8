import Verif.Float.F32
import Verif.Basic.Raster
import Mathlib.Analysis.Real.Sqrt
/-
Running sums and square roots in single precision.
-/
set_option linter.unusedSectionVars false
namespace Verif.Float

variable {K : Type _} [Field K] [LinearOrder K] [IsStrictOrderedRing K] [FloorRing K]

/-! ### Raster loops as folds -/

/-- The positions of a `w × h` rectangle in raster order. -/
def cells (w h : Nat) : List (Nat × Nat) :=
  (List.range h).flatMap fun y => (List.range w).map fun x => (x, y)

theorem mem_cells {w h : Nat} {p : Nat × Nat} : p ∈ cells w h ↔ p.1 < w ∧ p.2 < h := by
  obtain ⟨x, y⟩ := p
  simp only [cells, List.mem_flatMap, List.mem_range, List.mem_map, Prod.mk.injEq]
  constructor
  · rintro ⟨b, hb, a, ha, rfl, rfl⟩; exact ⟨ha, hb⟩
  · rintro ⟨ha, hb⟩; exact ⟨y, hb, x, ha, rfl, rfl⟩

theorem length_cells (w h : Nat) : (cells w h).length = w * h := by
  unfold cells
  rw [List.length_flatMap]
  simp [Nat.mul_comm]

theorem sum_cells {M : Type _} [AddCommMonoid M] (w h : Nat) (g : Nat × Nat → M) :
    ((cells w h).map g).sum = ∑ y ∈ Finset.range h, ∑ x ∈ Finset.range w, g (x, y) := by
  unfold cells
  induction h with
  | zero => rfl
  | succ h ih =>
    rw [List.range_succ, List.flatMap_append, List.map_append, List.sum_append, ih,
      Finset.sum_range_succ]
    congr 1
    simp only [List.flatMap_cons, List.flatMap_nil, List.append_nil, List.map_map]
    induction w with
    | zero => rfl
    | succ w ihw =>
      rw [List.range_succ, List.map_append, List.sum_append, Finset.sum_range_succ]
      simp only [List.map_cons, List.map_nil, List.sum_singleton]
      congr 1

theorem forRange_fold {σ : Type _} {n : Nat} {f : Nat → σ → Option σ} {g : Nat → σ → σ}
    (hf : ∀ i s, i < n → f i s = some (g i s)) (s : σ) :
    forRange 0 n s f = some ((List.range n).foldl (fun s i => g i s) s) := by
  obtain ⟨s', e, h⟩ := forRange_spec (f := f) (s := s)
    (fun i t => t = (List.range i).foldl (fun s i => g i s) s) (Nat.zero_le n) rfl
    (by
      intro i t _ hi ht
      refine ⟨_, hf i t hi, ?_⟩
      rw [List.range_succ, List.foldl_append, ht]
      rfl)
  rw [e, h]

/-- A raster loop whose steps do not fail is a fold. -/
theorem forYX_fold {σ : Type _} {w h : Nat} {f : Nat → Nat → σ → Option σ} {g : Nat → Nat → σ → σ}
    (hf : ∀ x y s, x < w → y < h → f x y s = some (g x y s)) (s : σ) :
    forYX 0 h 0 w s f = some ((cells w h).foldl (fun s p => g p.1 p.2 s) s) := by
  unfold forYX
  rw [forRange_fold (g := fun y s => (List.range w).foldl (fun s x => g x y s) s) (by
    intro y s hy
    exact forRange_fold (fun x s hx => hf x y s hx hy) s)]
  unfold cells
  rw [List.foldl_flatMap]
  simp only [List.foldl_map]

/-! ### Running sums -/

/-- `let mut s = 0; for v in l { s += v }` in single precision. -/
def fsum (l : List K) : K := l.foldl (fun s v => rnd32 (s + v)) 0

theorem foldl_F32 (l : List K) (a : K) :
    ((l.map F32.mk).foldl (· + ·) (⟨a⟩ : F32 K)).val = l.foldl (fun s v => rnd32 (s + v)) a := by
  induction l generalizing a with
  | nil => rfl
  | cons b l ih => exact ih _

theorem foldl_sum (l : List K) (a : K) :
    (l.map F32.mk).foldl (fun e b => e + b.val) a = a + l.sum := by
  induction l generalizing a with
  | nil => simp
  | cons b l ih =>
    rw [List.map_cons, List.foldl_cons, ih, List.sum_cons, add_assoc]

/-- A sum of non-negative numbers is accurate up to one rounding for each. -/
theorem fsum_bounds (l : List K) (h : ∀ v ∈ l, 0 ≤ v ∧ Rep 24 (-149) v) :
    Rep 24 (-149) (fsum l) ∧ (1 - u32) ^ l.length * l.sum ≤ fsum l ∧
      fsum l ≤ (1 + u32) ^ l.length * l.sum := by
  have := fold_add_bounds (l.map F32.mk) (by
    intro b hb
    obtain ⟨v, hv, rfl⟩ := List.mem_map.1 hb
    exact h v hv) (⟨0⟩ : F32 K) 0 0 rep_zero (le_refl _) (by simp) (by simp)
  dsimp only at this
  rw [foldl_F32, foldl_sum, zero_add, zero_add, List.length_map] at this
  exact ⟨this.1, this.2.2.1, this.2.2.2⟩

theorem fsum_nonneg (l : List K) (h : ∀ v ∈ l, 0 ≤ v) : 0 ≤ fsum l := by
  have : ∀ (l : List K) (a : K), (∀ v ∈ l, 0 ≤ v) → 0 ≤ a →
      0 ≤ l.foldl (fun s v => rnd32 (s + v)) a := by
    intro l
    induction l with
    | nil => intro a _ ha; exact ha
    | cons b l ih =>
      intro a hl ha
      exact ih _ (fun v hv => hl v (by simp [hv])) (rnd_nonneg (add_nonneg ha (hl b (by simp))))
  exact this l 0 h (le_refl _)

/-- Rounding does not change the order of term-wise comparable sums. -/
theorem fsum_mono {β : Type _} (l : List β) (f g : β → K) (h : ∀ b ∈ l, f b ≤ g b) :
    fsum (l.map f) ≤ fsum (l.map g) := by
  have : ∀ (l : List β) (a c : K), (∀ b ∈ l, f b ≤ g b) → a ≤ c →
      (l.map f).foldl (fun s v => rnd32 (s + v)) a ≤ (l.map g).foldl (fun s v => rnd32 (s + v)) c := by
    intro l
    induction l with
    | nil => intro a c _ h; exact h
    | cons b l ih =>
      intro a c hl hac
      exact ih _ _ (fun v hv => hl v (by simp [hv]))
        (rnd_mono (by norm_num) (add_le_add hac (hl b (by simp))))
  exact this l 0 0 h (le_refl _)

/-- Sums of natural numbers are exact up to `2 ^ 24`. -/
theorem fsum_exact (l : List Nat) (h : l.sum ≤ 2 ^ 24) :
    fsum (l.map (Nat.cast : Nat → K)) = (l.sum : K) := by
  have : ∀ (l : List Nat) (a : Nat), a + l.sum ≤ 2 ^ 24 →
      (l.map (Nat.cast : Nat → K)).foldl (fun s v => rnd32 (s + v)) (a : K) = ((a + l.sum : Nat) : K) := by
    intro l
    induction l with
    | nil => intro a _; simp
    | cons b l ih =>
      intro a ha
      rw [List.sum_cons] at ha
      have e : rnd32 ((a : K) + b) = ((a + b : Nat) : K) := by
        have := rnd_int (K := K) (p := 24) (emin := -149) (n := ((a + b : Nat) : Int)) (by norm_num)
          (by norm_num) (by rw [abs_of_nonneg (by positivity)]; norm_cast; omega)
        push_cast at this ⊢
        exact this
      rw [List.map_cons, List.foldl_cons, e, ih (a + b) (by omega), List.sum_cons, Nat.add_assoc]
  have := this l 0 (by omega)
  rw [Nat.cast_zero, Nat.zero_add] at this
  exact this

theorem rep_one_sum : Rep 24 (-149) (1 : K) := ⟨1, 0, by norm_num, by norm_num, by norm_num⟩

/-- A sum with a term that is at least one is at least one. -/
theorem one_le_fsum (l : List K) (h : ∀ v ∈ l, 0 ≤ v) {v : K} (hv : v ∈ l) (h1 : 1 ≤ v) :
    1 ≤ fsum l := by
  have : ∀ (l : List K) (a : K), (∀ v ∈ l, 0 ≤ v) → 0 ≤ a → (1 ≤ a ∨ ∃ v ∈ l, 1 ≤ v) →
      1 ≤ l.foldl (fun s v => rnd32 (s + v)) a := by
    intro l
    induction l with
    | nil =>
      intro a _ _ h
      rcases h with h | ⟨v, hv, -⟩
      · exact h
      · simp at hv
    | cons b l ih =>
      intro a hl ha hex
      have hb := hl b (by simp)
      refine ih _ (fun v hv => hl v (by simp [hv])) (rnd_nonneg (add_nonneg ha hb)) ?_
      rcases hex with h | ⟨v, hv, hv1⟩
      · exact Or.inl (le_rnd (by norm_num) rep_one_sum (by linarith))
      · rcases List.mem_cons.1 hv with rfl | hv
        · exact Or.inl (le_rnd (by norm_num) rep_one_sum (by linarith))
        · exact Or.inr ⟨v, hv, hv1⟩
  exact this l 0 h (le_refl _) (Or.inr ⟨v, hv, h1⟩)

theorem fsum_cast (l : List ℚ) : fsum (l.map (fun q : ℚ => (q : K))) = ((fsum l : ℚ) : K) := by
  have : ∀ (l : List ℚ) (a : ℚ), (l.map (fun q : ℚ => (q : K))).foldl (fun s v => rnd32 (s + v)) (a : K) =
      ((l.foldl (fun s v => rnd32 (s + v)) a : ℚ) : K) := by
    intro l
    induction l with
    | nil => intro a; rfl
    | cons b l ih =>
      intro a
      have e : rnd32 ((a : K) + (b : K)) = ((rnd32 (a + b) : ℚ) : K) := by
        have := rnd_cast (K := K) (p := 24) (emin := -149) (a + b)
        push_cast at this
        exact this
      rw [List.map_cons, List.foldl_cons, e, ih]
      rfl
  have := this l 0
  rw [Rat.cast_zero] at this
  exact this

/-! ### Square roots -/

/-- Positive floating point numbers of at least one: an integer of 24 bits times a power of two. -/
theorem normal_form {x : ℝ} (hx : Rep 24 (-149) x) (h1 : 1 ≤ x) :
    ∃ (m k : Int), x = m * 2 ^ k ∧ 2 ^ 23 ≤ m ∧ m < 2 ^ 24 ∧ -23 ≤ k := by
  have hx0 : x ≠ 0 := by linarith
  have habs : |x| = x := abs_of_nonneg (by linarith)
  have hr := rnd_of_rep (by norm_num) hx
  unfold rnd at hr
  rw [if_neg hx0] at hr
  have lo := log_lower hx0
  have up := log_upper x
  have hlog : 0 ≤ Int.log 2 |x| := by
    have : (2 : ℝ) ^ (0 : Int) < 2 ^ (Int.log 2 |x| + 1) := by
      rw [zpow_zero]; linarith [habs]
    have := lt_of_zpow_lt this
    omega
  have hu : ulpExp 24 (-149) x = Int.log 2 |x| - 23 := by unfold ulpExp; omega
  rw [hu] at hr
  rw [habs] at *
  set e := Int.log 2 x
  have p := two_zpow_pos ℝ (e - 23)
  refine ⟨_, e - 23, hr.symm, ?_, ?_, by omega⟩
  · have : (2 : ℝ) ^ (23 : Int) * 2 ^ (e - 23) ≤ roundEven (x / 2 ^ (e - 23)) * 2 ^ (e - 23) := by
      rw [hr, ← zpow_add₀ (by norm_num), show 23 + (e - 23) = e by ring]
      exact lo
    have := le_of_mul_le_mul_right this p
    exact_mod_cast this
  · have : roundEven (x / 2 ^ (e - 23)) * 2 ^ (e - 23) < (2 : ℝ) ^ (24 : Int) * 2 ^ (e - 23) := by
      rw [hr, ← zpow_add₀ (by norm_num), show 24 + (e - 23) = e + 1 by ring]
      exact up
    have := lt_of_mul_lt_mul_right this p.le
    exact_mod_cast this

/-- The square root of a square is exact, although the square is rounded. -/
theorem sqrt_sq_exact {x : ℝ} (hx : Rep 24 (-149) x) (h1 : 1 ≤ x) :
    rnd32 (Real.sqrt (rnd32 (x * x))) = x := by
  obtain ⟨m, k, rfl, hm1, hm2, hk⟩ := normal_form hx h1
  have hmr1 : (2 : ℝ) ^ 23 ≤ m := by exact_mod_cast hm1
  have hmr2 : (m : ℝ) ≤ 2 ^ 24 - 1 := by
    have : m ≤ 2 ^ 24 - 1 := by omega
    exact_mod_cast this
  set P : ℝ := 2 ^ k with hP
  have hPp : 0 < P := two_zpow_pos ℝ k
  have hkk : (2 : ℝ) ^ (k + k) = P * P := zpow_add₀ (by norm_num) k k
  set y := rnd32 ((m * P) * (m * P) : ℝ) with hy
  -- y is above the lower end of the binade of x * x
  have ylow : (2 : ℝ) ^ 46 * (P * P) ≤ y := by
    refine le_rnd (by norm_num) ⟨1, 46 + (k + k), by norm_num, by omega, ?_⟩ ?_
    · rw [zpow_add₀ (by norm_num), hkk]; norm_num
    · have : (2 : ℝ) ^ 23 * 2 ^ 23 ≤ m * m := mul_self_le_mul_self (by norm_num) hmr1
      have := mul_le_mul_of_nonneg_right this (mul_pos hPp hPp).le
      calc _ = (2 : ℝ) ^ 23 * 2 ^ 23 * (P * P) := by ring
        _ ≤ _ := this
        _ = _ := by ring
  have y0 : 0 ≤ y := le_trans (by positivity) ylow
  set s := Real.sqrt y with hs
  have hss : s * s = y := Real.mul_self_sqrt y0
  have s0 : 0 ≤ s := Real.sqrt_nonneg y
  have slow : (2 : ℝ) ^ 23 * P ≤ s := by
    refine Real.le_sqrt_of_sq_le ?_
    calc _ = (2 : ℝ) ^ 46 * (P * P) := by ring
      _ ≤ _ := ylow
  -- the distance of s to x
  have near : |s - m * P| < P / 2 := by
    have hd : |y - (m * P) * (m * P)| < P / 2 * (s + m * P) := by
      rcases lt_or_ge ((m : ℝ) * m) (2 ^ 47) with hc | hc
      · have e := rnd_error_lt (p := 24) (emin := -149) (x := (m * P) * (m * P)) (k := 47 + (k + k))
          (by omega) (by
            rw [abs_of_nonneg (mul_self_nonneg _), zpow_add₀ (by norm_num), hkk]
            have := mul_lt_mul_of_pos_right hc (mul_pos hPp hPp)
            calc _ = (m : ℝ) * m * (P * P) := by ring
              _ < _ := this
              _ = _ := by norm_num)
        have e' : |y - (m * P) * (m * P)| ≤ 2 ^ 22 * (P * P) := by
          refine le_trans e (le_of_eq ?_)
          rw [show (47 + (k + k) - (24 : Nat) : Int) = 23 + (k + k) by omega, zpow_add₀ (by norm_num), hkk]
          norm_num
          ring
        nlinarith
      · have y47 : (2 : ℝ) ^ 47 * (P * P) ≤ y := by
          refine le_rnd (by norm_num) ⟨1, 47 + (k + k), by norm_num, by omega, ?_⟩ ?_
          · rw [zpow_add₀ (by norm_num), hkk]; norm_num
          · have := mul_le_mul_of_nonneg_right hc (mul_pos hPp hPp).le
            calc _ ≤ _ := this
              _ = _ := by ring
        have e := rnd_error_lt (p := 24) (emin := -149) (x := (m * P) * (m * P)) (k := 48 + (k + k))
          (by omega) (by
            rw [abs_of_nonneg (mul_self_nonneg _), zpow_add₀ (by norm_num), hkk]
            have : (m : ℝ) * m < 2 ^ 48 := by nlinarith
            have := mul_lt_mul_of_pos_right this (mul_pos hPp hPp)
            calc _ = (m : ℝ) * m * (P * P) := by ring
              _ < _ := this
              _ = _ := by norm_num)
        have e' : |y - (m * P) * (m * P)| ≤ 2 ^ 23 * (P * P) := by
          refine le_trans e (le_of_eq ?_)
          rw [show (48 + (k + k) - (24 : Nat) : Int) = 24 + (k + k) by omega, zpow_add₀ (by norm_num), hkk]
          norm_num
          ring
        have s47 : (11 / 10 * 2 ^ 23 : ℝ) * P ≤ s := by
          refine Real.le_sqrt_of_sq_le (le_trans ?_ y47)
          have := mul_pos hPp hPp
          nlinarith
        nlinarith
    have hf : y - (m * P) * (m * P) = (s - m * P) * (s + m * P) := by rw [← hss]; ring
    have hpos : 0 < s + m * P := by nlinarith
    rw [hf, abs_mul, abs_of_pos hpos] at hd
    exact lt_of_mul_lt_mul_right hd hpos.le
  obtain ⟨n1, n2⟩ := abs_lt.1 near
  have sup : s < 2 ^ 24 * P := by nlinarith
  have sabs : |s| = s := abs_of_nonneg s0
  refine rnd_eval (k := 23 + k) m ?_ ?_ ?_ |>.trans ?_
  · rw [sabs, zpow_add₀ (by norm_num), ← hP]
    exact_mod_cast slow
  · rw [sabs, show 23 + k + 1 = 24 + k by ring, zpow_add₀ (by norm_num), ← hP]
    exact_mod_cast sup
  · rw [show max (23 + k + 1 - (24 : Nat) : Int) (-149) = k by omega, ← hP]
    refine roundEven_near ?_
    rw [show s / P - m = (s - m * P) / P by field_simp, abs_div, abs_of_pos hPp, div_lt_iff₀ hPp]
    linarith
  · rw [show max (23 + k + 1 - (24 : Nat) : Int) (-149) = k by omega]

/-! ### Relative errors -/

/-- `r` and `e` agree up to `k` roundings. -/
def Rel (k : Nat) (r e : ℝ) : Prop :=
  0 ≤ r ∧ 0 ≤ e ∧ (1 - u32) ^ k * e ≤ r ∧ (1 - u32) ^ k * r ≤ e

theorem base_pos : (0 : ℝ) < 1 - u32 := by have := u32_lt_one (K := ℝ); linarith
theorem base_le : (1 - u32 : ℝ) ≤ 1 := by have := u32_pos (K := ℝ); linarith

theorem Rel.refl {e : ℝ} (h : 0 ≤ e) : Rel 0 e e := ⟨h, h, by simp, by simp⟩

theorem Rel.mono {k l : Nat} {r e : ℝ} (h : Rel k r e) (hkl : k ≤ l) : Rel l r e := by
  obtain ⟨a, b, c, d⟩ := h
  have := pow_le_pow_of_le_one base_pos.le base_le hkl
  exact ⟨a, b, le_trans (mul_le_mul_of_nonneg_right this b) c,
    le_trans (mul_le_mul_of_nonneg_right this a) d⟩

theorem Rel.mul {k l : Nat} {r e r' e' : ℝ} (h : Rel k r e) (h' : Rel l r' e') :
    Rel (k + l) (r * r') (e * e') := by
  obtain ⟨a, b, c, d⟩ := h
  obtain ⟨a', b', c', d'⟩ := h'
  have p := pow_nonneg base_pos.le k
  have q := pow_nonneg base_pos.le l
  refine ⟨mul_nonneg a a', mul_nonneg b b', ?_, ?_⟩
  · rw [pow_add]
    calc _ = ((1 - u32) ^ k * e) * ((1 - u32) ^ l * e') := by ring
      _ ≤ _ := mul_le_mul c c' (mul_nonneg q b') a
  · rw [pow_add]
    calc _ = ((1 - u32) ^ k * r) * ((1 - u32) ^ l * r') := by ring
      _ ≤ _ := mul_le_mul d d' (mul_nonneg q a') b

theorem Rel.inv {k : Nat} {r e : ℝ} (h : Rel k r e) : Rel k r⁻¹ e⁻¹ := by
  obtain ⟨a, b, c, d⟩ := h
  have p := pow_pos base_pos k
  rcases b.eq_or_lt with h0 | h0
  · have : r = 0 := by
      rw [← h0] at d
      nlinarith
    rw [this, ← h0]
    simp [Rel]
  · have r0 : 0 < r := lt_of_lt_of_le (mul_pos p h0) c
    refine ⟨by positivity, by positivity, ?_, ?_⟩
    · rw [← div_eq_mul_inv, div_le_iff₀ h0, inv_mul_eq_div, le_div_iff₀ r0]
      exact d
    · rw [← div_eq_mul_inv, div_le_iff₀ r0, inv_mul_eq_div, le_div_iff₀ h0]
      exact c

theorem Rel.div {k l : Nat} {r e r' e' : ℝ} (h : Rel k r e) (h' : Rel l r' e') :
    Rel (k + l) (r / r') (e / e') := by
  rw [div_eq_mul_inv, div_eq_mul_inv]
  exact h.mul h'.inv

theorem Rel.sqrt {k : Nat} {r e : ℝ} (h : Rel (2 * k) r e) : Rel k (Real.sqrt r) (Real.sqrt e) := by
  obtain ⟨a, b, c, d⟩ := h
  have p := pow_nonneg base_pos.le k
  refine ⟨Real.sqrt_nonneg _, Real.sqrt_nonneg _, ?_, ?_⟩
  · refine Real.le_sqrt_of_sq_le ?_
    rw [mul_pow, Real.sq_sqrt b, ← pow_mul, mul_comm k 2]
    exact c
  · refine Real.le_sqrt_of_sq_le ?_
    rw [mul_pow, Real.sq_sqrt a, ← pow_mul, mul_comm k 2]
    exact d

theorem Rel.of_error {x r : ℝ} (hx : 0 ≤ x) (h : |r - x| ≤ |x| * u32) : Rel 1 r x := by
  have u0 := u32_pos (K := ℝ)
  have u1 := u32_lt_one (K := ℝ)
  obtain ⟨a, b⟩ := two_sided hx h
  refine ⟨le_trans (mul_nonneg base_pos.le hx) a, hx, by rw [pow_one]; exact a, ?_⟩
  rw [pow_one]
  have := mul_le_mul_of_nonneg_left b base_pos.le
  have : (0 : ℝ) ≤ u32 * u32 * x := mul_nonneg (mul_nonneg u0.le u0.le) hx
  nlinarith

theorem Rel.trans {k l : Nat} {r s e : ℝ} (h : Rel k r s) (h' : Rel l s e) : Rel (k + l) r e := by
  obtain ⟨a, b, c, d⟩ := h
  obtain ⟨a', b', c', d'⟩ := h'
  have p := pow_nonneg base_pos.le k
  have q := pow_nonneg base_pos.le l
  refine ⟨a, b', ?_, ?_⟩
  · rw [pow_add, mul_assoc]
    exact le_trans (mul_le_mul_of_nonneg_left c' p) c
  · rw [pow_add, mul_comm ((1 - u32 : ℝ) ^ k), mul_assoc]
    exact le_trans (mul_le_mul_of_nonneg_left d q) d'

/-- Rounding a number that is zero or at least `2 ^ -126`. -/
theorem rel_rnd {x : ℝ} (h : x = 0 ∨ 1 / 2 ^ 126 ≤ x) : Rel 1 (rnd32 x) x := by
  rcases h with rfl | h
  · have : rnd32 (0 : ℝ) = 0 := rnd_zero
    rw [this]
    exact (Rel.refl (le_refl _)).mono (Nat.zero_le 1)
  · have h0 : 0 < x := lt_of_lt_of_le (by positivity) h
    refine Rel.of_error h0.le (rnd_error_rel ?_)
    rw [abs_of_pos h0]
    refine le_trans (le_of_eq ?_) h
    norm_num

theorem rel_rnd_nat (n : Nat) : Rel 1 (rnd32 (n : ℝ)) n := by
  refine rel_rnd ?_
  rcases Nat.eq_zero_or_pos n with rfl | h
  · left; simp
  · right
    have : (1 : ℝ) ≤ n := by exact_mod_cast h
    refine le_trans ?_ this
    norm_num

theorem Rel.sum {β : Type _} {k : Nat} (l : List β) (r e : β → ℝ) (h : ∀ b ∈ l, Rel k (r b) (e b)) :
    Rel k (l.map r).sum (l.map e).sum := by
  induction l with
  | nil => simp [Rel]
  | cons b l ih =>
    obtain ⟨a1, a2, a3, a4⟩ := ih fun c hc => h c (by simp [hc])
    obtain ⟨b1, b2, b3, b4⟩ := h b (by simp)
    simp only [List.map_cons, List.sum_cons]
    refine ⟨by linarith, by linarith, by rw [mul_add]; linarith, by rw [mul_add]; linarith⟩

theorem rel_fsum (l : List ℝ) (h : ∀ v ∈ l, 0 ≤ v ∧ Rep 24 (-149) v) :
    Rel l.length (fsum l) l.sum := by
  obtain ⟨-, b, c⟩ := fsum_bounds l h
  have s0 : 0 ≤ l.sum := List.sum_nonneg fun v hv => (h v hv).1
  refine ⟨fsum_nonneg l fun v hv => (h v hv).1, s0, b, ?_⟩
  have u0 := u32_pos (K := ℝ)
  have u1 := u32_lt_one (K := ℝ)
  have p := pow_nonneg base_pos.le l.length
  have : (1 - u32 : ℝ) ^ l.length * (1 + u32) ^ l.length ≤ 1 := by
    rw [← mul_pow]
    exact pow_le_one₀ (by nlinarith) (by nlinarith)
  calc _ ≤ (1 - u32) ^ l.length * ((1 + u32) ^ l.length * l.sum) := mul_le_mul_of_nonneg_left c p
    _ = ((1 - u32) ^ l.length * (1 + u32) ^ l.length) * l.sum := by ring
    _ ≤ 1 * l.sum := mul_le_mul_of_nonneg_right this s0
    _ = _ := one_mul _

/-- From roundings to a percentage. -/
theorem Rel.error {k : Nat} {r e : ℝ} (h : Rel k r e) (hk : k ≤ 2 ^ 22) :
    |r - e| ≤ k / 2 ^ 23 * e := by
  obtain ⟨a, b, c, d⟩ := h
  have hu : (u32 : ℝ) = 1 / 2 ^ 24 := by norm_num [u32, zpow_neg]
  have hkk : (k : ℝ) ≤ 2 ^ 22 := by exact_mod_cast hk
  have hk0 : (0 : ℝ) ≤ k := by positivity
  have bern := one_add_mul_le_pow (show (-2 : ℝ) ≤ -u32 by rw [hu]; norm_num) k
  rw [← sub_eq_add_neg, hu] at bern
  rw [hu] at c d
  set P := (1 - 1 / 2 ^ 24 : ℝ) ^ k
  have h1 : 1 - k / 2 ^ 24 ≤ P := by
    refine le_trans (le_of_eq ?_) bern
    ring
  have h2 : (1 - k / 2 ^ 24) * e ≤ r := le_trans (mul_le_mul_of_nonneg_right h1 b) c
  have h3 : (1 - k / 2 ^ 24) * r ≤ e := le_trans (mul_le_mul_of_nonneg_right h1 a) d
  have hx0 : (0 : ℝ) ≤ k / 2 ^ 24 := by positivity
  have hx1 : (k : ℝ) / 2 ^ 24 ≤ 1 / 2 := by rw [div_le_iff₀ (by norm_num)]; norm_num at *; linarith
  rw [show (k : ℝ) / 2 ^ 23 = 2 * (k / 2 ^ 24) by ring]
  generalize (k : ℝ) / 2 ^ 24 = x at *
  clear_value P
  rw [abs_le]
  constructor
  · nlinarith
  · have : r ≤ 2 * e := by nlinarith
    nlinarith

end Verif.Float
