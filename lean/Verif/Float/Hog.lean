import Verif.Float.Sum
import Verif.Hog.Props
import Verif.Gradients.Props
import Mathlib.Algebra.Order.Floor.Semifield
/-
`hog` (src/hog.rs:192-365) in single precision: the model `Verif.Hog.hog` works for any number type, here it is
used with `f32` numbers.  Property theorem C134.
-/
namespace Verif.Float
open Verif.Hog Verif.ImageHash Verif.Filter Verif.Gradients Finset

/-! ### The model -/

section
variable {K : Type _} [Field K] [LinearOrder K] [IsStrictOrderedRing K] [FloorRing K]

instance : One (F32 K) := ⟨⟨1⟩⟩
/-- `f32` subtraction. -/
instance : Sub (F32 K) := ⟨fun a b => ⟨rnd32 (a.val - b.val)⟩⟩
instance : LT (F32 K) := ⟨fun a b => a.val < b.val⟩
instance : LE (F32 K) := ⟨fun a b => a.val ≤ b.val⟩
instance : DecidableLT (F32 K) := fun a b => inferInstanceAs (Decidable (a.val < b.val))
instance : DecidableLE (F32 K) := fun a b => inferInstanceAs (Decidable (a.val ≤ b.val))

/-- `pos as usize` for a number below `2 ^ 64`. -/
def F32.floor (a : F32 K) : Nat := ⌊a.val⌋₊

/-- `f32::consts::PI`. -/
def hogPi : K := 13176795 / 4194304

end

/-- `l2_norm`, src/math.rs:9-11. -/
noncomputable def norm32 (xs : List (F32 ℝ)) : F32 ℝ :=
  ⟨rnd32 (√((xs.foldl (fun acc x => acc + x * x) 0).val))⟩

/-- The length of a gradient, src/hog.rs:278: `powi(2)` is one rounded multiplication. -/
noncomputable def length32 (h v : Int) : F32 ℝ :=
  ⟨rnd32 (√(rnd32 (rnd32 ((h : ℝ) * h) + rnd32 ((v : ℝ) * v))))⟩

/-- `filter_clamped` from 8-bit input to `i32` output, src/filter/mod.rs:204-212. -/
def filterI32 (im : Image (Unit → Nat)) (k : Kernel Int) : Option (Image (Unit → Int)) :=
  filter (fun v : Nat => (v : Int)) 0 im k (Definitions.clampInt (-2147483648) 2147483647)

/-- `hog` in `f32`, src/hog.rs:192-312; the library function `atan2` is a parameter. -/
noncomputable def hog32 (atan2 : Int → Int → F32 ℝ) (im : Image (Unit → Nat)) (o : Options) :
    Option (Except (List Reason) (List (F32 ℝ))) :=
  (fromOptions im.w im.h o).bind fun r =>
  match r with
  | .error e => some (.error e)
  | .ok _ =>
    (filterI32 im sobelH).bind fun hor => (filterI32 im sobelV).bind fun ver =>
    hog F32.floor norm32 ⟨hogPi⟩ im.w im.h (fun x y => length32 (hor.px x y ()) (ver.px x y ()))
      (fun x y => atan2 (ver.px x y ()) (hor.px x y ())) o

/-- What is assumed of `atan2` at integers up to 1020: results are `f32` numbers, exact on the horizontal axis and
accurate to `2 ^ -20`. -/
def Atan2Ok (atan2 : Int → Int → F32 ℝ) : Prop :=
  ∀ v h : Int, |v| ≤ 1020 → |h| ≤ 1020 → Rep 24 (-149) (atan2 v h).val ∧
    (v = 0 → 0 ≤ h → (atan2 v h).val = 0) ∧ (v = 0 → h < 0 → (atan2 v h).val = hogPi) ∧
    |(atan2 v h).val - Complex.arg ⟨h, v⟩| ≤ 1 / 2 ^ 20

/-! ### Fractional parts -/

theorem rep_floor_fract {x : ℝ} (hx : Rep 24 (-149) x) (h0 : 0 ≤ x) :
    Rep 24 (-149) ((⌊x⌋₊ : Nat) : ℝ) ∧ Rep 24 (-149) (x - (⌊x⌋₊ : Nat)) := by
  obtain ⟨m, k, hm, hk, e⟩ := hx
  rcases le_or_gt 0 k with h | h
  · obtain ⟨n, rfl⟩ := Int.eq_ofNat_of_zero_le h
    have m0 : 0 ≤ m := by
      have hp : (0 : ℝ) < 2 ^ (n : Int) := by positivity
      by_contra hc
      have : (m : ℝ) < 0 := by exact_mod_cast not_le.1 hc
      nlinarith
    obtain ⟨q, rfl⟩ := Int.eq_ofNat_of_zero_le m0
    have ei : x = ((q * 2 ^ n : Nat) : ℝ) := by rw [e]; push_cast; simp
    have fl : ⌊x⌋₊ = q * 2 ^ n := by rw [ei, Nat.floor_natCast]
    constructor
    · rw [fl, ← ei]; exact ⟨q, n, hm, hk, e⟩
    · rw [fl, ← ei, sub_self]; exact rep_zero
  · obtain ⟨n, hn⟩ : ∃ n : Nat, k = -(n : Int) := ⟨(-k).toNat, by omega⟩
    subst hn
    have m0 : 0 ≤ m := by
      have : 0 ≤ (m : ℝ) := by
        rw [zpow_neg, zpow_natCast] at e
        have : (m : ℝ) = x * 2 ^ n := by rw [e]; field_simp
        rw [this]; positivity
      exact_mod_cast this
    obtain ⟨q, rfl⟩ := Int.eq_ofNat_of_zero_le m0
    have ei : x = (q : ℝ) / ((2 ^ n : Nat) : ℝ) := by
      rw [e, zpow_neg, zpow_natCast]; push_cast; rw [div_eq_mul_inv]
    have fl : ⌊x⌋₊ = q / 2 ^ n := by
      rw [ei, Nat.floor_div_eq_div]
    have hq : q ≤ 2 ^ 24 := by
      rw [abs_of_nonneg m0] at hm; exact_mod_cast hm
    constructor
    · rw [fl]
      refine ⟨((q / 2 ^ n : Nat) : Int), 0, ?_, by norm_num, by rw [Int.cast_natCast, zpow_zero, mul_one]⟩
      rw [abs_of_nonneg (Int.natCast_nonneg _)]
      have : q / 2 ^ n ≤ 2 ^ 24 := (Nat.div_le_self _ _).trans hq
      exact_mod_cast this
    · refine ⟨((q % 2 ^ n : Nat) : Int), -(n : Int), ?_, hk, ?_⟩
      · rw [abs_of_nonneg (Int.natCast_nonneg _)]
        exact_mod_cast (Nat.mod_le _ _).trans hq
      · rw [fl, ei, zpow_neg, zpow_natCast]
        have := Nat.div_add_mod q (2 ^ n)
        have h2 : (q : ℝ) = 2 ^ n * ((q / 2 ^ n : Nat) : ℝ) + ((q % 2 ^ n : Nat) : ℝ) := by
          exact_mod_cast this.symm
        rw [Int.cast_natCast]
        have hp : (2 : ℝ) ^ n ≠ 0 := by positivity
        rw [Nat.cast_pow, Nat.cast_ofNat, div_sub' hp, div_eq_mul_inv]
        congr 1
        linarith

/-- Zero, or at least `2 ^ -j`. -/
def Big (j : Nat) (x : ℝ) : Prop := x = 0 ∨ 1 / 2 ^ j ≤ x

theorem Big.nonneg {j : Nat} {x : ℝ} (h : Big j x) : 0 ≤ x := by
  rcases h with rfl | h
  · exact le_refl _
  · exact le_trans (by positivity) h

theorem Big.mono {i j : Nat} {x : ℝ} (h : Big i x) (hij : i ≤ j) : Big j x := by
  rcases h with rfl | h
  · exact Or.inl rfl
  · exact Or.inr (le_trans (one_div_le_one_div_of_le (by positivity)
      (pow_le_pow_right₀ (by norm_num) hij)) h)

theorem Big.mul {i j : Nat} {x y : ℝ} (h : Big i x) (h' : Big j y) : Big (i + j) (x * y) := by
  rcases h with rfl | h
  · exact Or.inl (zero_mul _)
  · rcases h' with rfl | h'
    · exact Or.inl (mul_zero _)
    · right
      rw [show (1 : ℝ) / 2 ^ (i + j) = 1 / 2 ^ i * (1 / 2 ^ j) by rw [pow_add]; field_simp]
      exact mul_le_mul h h' (by positivity) (le_trans (by positivity) h)

theorem rep_two_neg {j : Nat} (hj : j ≤ 149) : Rep (K := ℝ) 24 (-149) (1 / 2 ^ j) :=
  ⟨1, -(j : Int), by norm_num, by omega, by rw [zpow_neg, zpow_natCast]; simp⟩

theorem Big.rnd {j : Nat} (hj : j ≤ 149) {x : ℝ} (h : Big j x) : Big j (rnd32 x) := by
  rcases h with rfl | h
  · exact Or.inl rnd_zero
  · exact Or.inr (le_rnd (by norm_num) (rep_two_neg hj) h)

theorem rel_rnd_big {j : Nat} (hj : j ≤ 126) {x : ℝ} (h : Big j x) : Rel 1 (rnd32 x) x :=
  rel_rnd (h.mono hj)

/-- A position: an `f32` number, zero or at least `2 ^ -25`. -/
structure Pos32 (p : F32 ℝ) : Prop where
  rep : Rep 24 (-149) p.val
  big : Big 25 p.val

/-- The fractional part of a position is exact, and it is not tiny. -/
theorem fract32 {p : F32 ℝ} (h : Pos32 p) :
    (p - (F32.floor p : F32 ℝ)).val = p.val - (⌊p.val⌋₊ : Nat) ∧
      Rep 24 (-149) (p.val - (⌊p.val⌋₊ : Nat)) ∧ Big 25 (p.val - (⌊p.val⌋₊ : Nat)) := by
  obtain ⟨h1, h2⟩ := rep_floor_fract h.rep h.big.nonneg
  refine ⟨?_, h2, ?_⟩
  · change rnd32 (p.val - rnd32 ((⌊p.val⌋₊ : Nat) : ℝ)) = _
    have e1 : rnd32 ((⌊p.val⌋₊ : Nat) : ℝ) = (⌊p.val⌋₊ : Nat) := rnd_of_rep (by norm_num) h1
    rw [e1]
    exact rnd_of_rep (by norm_num) h2
  · rcases lt_or_ge p.val 1 with hp | hp
    · rw [Nat.floor_eq_zero.2 hp, Nat.cast_zero, sub_zero]
      exact h.big
    · obtain ⟨m, k, e, m1, m2, hk⟩ := normal_form h.rep hp
      -- a multiple of `2 ^ -23`
      obtain ⟨q, hq⟩ := zpow_int_of_le (K := ℝ) hk
      have ex : p.val = ((m * q : Int) : ℝ) / 2 ^ 23 := by
        rw [e, hq, show ((2 : ℝ) ^ (-23 : Int)) = 1 / 2 ^ 23 by norm_num]
        push_cast
        ring
      have f0 : 0 ≤ p.val - (⌊p.val⌋₊ : Nat) := sub_nonneg.2 (Nat.floor_le h.big.nonneg)
      have ef : p.val - (⌊p.val⌋₊ : Nat) = ((m * q - (⌊p.val⌋₊ : Nat) * 2 ^ 23 : Int) : ℝ) / 2 ^ 23 := by
        rw [Int.cast_sub, sub_div, ← ex]
        push_cast
        congr 1
        norm_num
      rw [ef] at f0 ⊢
      generalize m * q - ((⌊p.val⌋₊ : Nat) : Int) * 2 ^ 23 = z at *
      have z0 : 0 ≤ z := by
        by_contra hc
        have : (z : ℝ) < 0 := by exact_mod_cast not_le.1 hc
        have : (z : ℝ) / 2 ^ 23 < 0 := div_neg_of_neg_of_pos this (by positivity)
        linarith
      rcases z0.eq_or_lt with h0 | h0
      · left; rw [← h0]; simp
      · right
        have : (1 : ℝ) ≤ z := by exact_mod_cast h0
        refine le_trans ?_ (div_le_div_of_nonneg_right this (by positivity))
        norm_num

/-- A weight of the single-precision interpolation is accurate to one rounding. -/
structure Weight32 (w : F32 ℝ) (e : ℝ) : Prop where
  rep : Rep 24 (-149) w.val
  big : Big 25 w.val
  rel : Rel 1 w.val e

theorem one_sub32 {p : F32 ℝ} (h : Pos32 p) :
    Weight32 (1 - (p - (F32.floor p : F32 ℝ))) (1 - (p.val - (⌊p.val⌋₊ : Nat))) := by
  obtain ⟨e, r, b⟩ := fract32 h
  have e2 : (1 - (p - (F32.floor p : F32 ℝ))).val = rnd32 (1 - (p.val - (⌊p.val⌋₊ : Nat))) := by
    rw [← e]; rfl
  have f1 : p.val - (⌊p.val⌋₊ : Nat) < 1 := by linarith [Nat.lt_floor_add_one p.val]
  generalize p.val - (⌊p.val⌋₊ : Nat) = f at *
  have r1 : Rep (K := ℝ) 24 (-149) 1 := ⟨1, 0, by norm_num, by norm_num, by norm_num⟩
  have hf : f ≤ 1 - 1 / 2 ^ 24 := by
    by_contra hc
    have hc := not_le.1 hc
    -- `1 - f` would be a multiple of the spacing below one
    have := rnd_of_rep (by norm_num) r
    have h1 : Rep (K := ℝ) 24 (-149) (1 - 1 / 2 ^ 24) :=
      ⟨2 ^ 24 - 1, -24, by norm_num, by norm_num, by norm_num⟩
    obtain ⟨m, k, hm, hk, rfl⟩ := r
    have k1 : k ≤ -25 ∨ -24 ≤ k := by omega
    rcases k1 with k1 | k1
    · have : (m : ℝ) * 2 ^ k ≤ 2 ^ 24 * 2 ^ (-25 : Int) := by
        have a : (m : ℝ) ≤ 2 ^ 24 := by exact_mod_cast (abs_le.1 hm).2
        have b : (2 : ℝ) ^ k ≤ 2 ^ (-25 : Int) := zpow_le_zpow_right₀ (by norm_num) k1
        exact mul_le_mul a b (by positivity) (by positivity)
      norm_num at this hc
      linarith
    · obtain ⟨q, hq⟩ := zpow_int_of_le (K := ℝ) k1
      have ex : (m : ℝ) * 2 ^ k = ((m * q : Int) : ℝ) / 2 ^ 24 := by
        rw [hq, show ((2 : ℝ) ^ (-24 : Int)) = 1 / 2 ^ 24 by norm_num]
        push_cast
        ring
      rw [ex, div_lt_one (by positivity)] at f1
      rw [ex, lt_div_iff₀ (by positivity)] at hc
      have c1 : m * q < 2 ^ 24 := by exact_mod_cast f1
      have c2 : (2 ^ 24 - 1 : Int) < m * q := by
        have : ((2 ^ 24 - 1 : Int) : ℝ) < ((m * q : Int) : ℝ) := by
          refine lt_of_eq_of_lt ?_ hc
          norm_num
        exact_mod_cast this
      omega
  have big : Big 25 (1 - f) := by
    right
    norm_num at hf ⊢
    linarith
  refine ⟨by rw [e2]; exact rep_rnd _, by rw [e2]; exact big.rnd (by norm_num), ?_⟩
  rw [e2]
  exact Rel.of_error big.nonneg (rnd_sub_error (by norm_num) r1 r)

theorem frac_weight {p : F32 ℝ} (h : Pos32 p) :
    Weight32 (p - (F32.floor p : F32 ℝ)) (p.val - (⌊p.val⌋₊ : Nat)) := by
  obtain ⟨e, r, b⟩ := fract32 h
  exact ⟨by rw [e]; exact r, by rw [e]; exact b, by rw [e]; exact (Rel.refl b.nonneg).mono (by norm_num)⟩

theorem fromPosition32 {p : F32 ℝ} (h : Pos32 p) (i : Nat) :
    (fromPosition F32.floor p).idx i = (fromPosition Nat.floor p.val).idx i ∧
      Weight32 ((fromPosition F32.floor p).wt i) ((fromPosition Nat.floor p.val).wt i) := by
  refine ⟨rfl, ?_⟩
  unfold fromPosition Interp.wt
  dsimp only
  split_ifs
  · exact one_sub32 h
  · exact frac_weight h

theorem fromPositionWrapping32 {p : F32 ℝ} (h : Pos32 p) (n i : Nat) :
    (fromPositionWrapping F32.floor p n).idx i = (fromPositionWrapping Nat.floor p.val n).idx i ∧
      Weight32 ((fromPositionWrapping F32.floor p n).wt i) ((fromPositionWrapping Nat.floor p.val n).wt i) := by
  refine ⟨rfl, ?_⟩
  unfold fromPositionWrapping Interp.wt
  dsimp only
  split_ifs
  · exact one_sub32 h
  · exact frac_weight h

/-- One contribution to a histogram: eight roundings. -/
theorem contribution {wy wx wo m : F32 ℝ} {ey ex eo : ℝ} (hy : Weight32 wy ey) (hx : Weight32 wx ex)
    (ho : Weight32 wo eo) (hm : Big 0 m.val) {area : Nat} (ha : 0 < area) (ha2 : area ≤ 2 ^ 48) :
    Rep 24 (-149) (wy * wx * wo * m / (area : F32 ℝ)).val ∧
      Rel 8 (wy * wx * wo * m / (area : F32 ℝ)).val (ey * ex * eo * m.val / area) := by
  refine ⟨rep_rnd _, ?_⟩
  have b1 : Big 50 (wy.val * wx.val) := hy.big.mul hx.big
  have r1 : Rel 3 (wy * wx).val (ey * ex) := (rel_rnd_big (by norm_num) b1).trans (hy.rel.mul hx.rel)
  have c1 : Big 50 (wy * wx).val := b1.rnd (by norm_num)
  have b2 : Big 75 ((wy * wx).val * wo.val) := c1.mul ho.big
  have r2 : Rel 5 (wy * wx * wo).val (ey * ex * eo) :=
    (rel_rnd_big (by norm_num) b2).trans (r1.mul ho.rel)
  have c2 : Big 75 (wy * wx * wo).val := b2.rnd (by norm_num)
  have b3 : Big 75 ((wy * wx * wo).val * m.val) := c2.mul hm
  have r3 : Rel 6 (wy * wx * wo * m).val (ey * ex * eo * m.val) :=
    (rel_rnd_big (by norm_num) b3).trans (r2.mul (Rel.refl hm.nonneg))
  have c3 : Big 75 (wy * wx * wo * m).val := b3.rnd (by norm_num)
  have ra : Rel 1 (area : F32 ℝ).val area := rel_rnd_nat area
  have a1 : 1 ≤ (area : F32 ℝ).val := le_rnd (by norm_num)
    ⟨1, 0, by norm_num, by norm_num, by norm_num⟩ (by exact_mod_cast ha)
  have a2 : (area : F32 ℝ).val ≤ 2 ^ 48 := rnd_le (by norm_num)
    ⟨1, 48, by norm_num, by norm_num, by norm_num⟩ (by exact_mod_cast ha2)
  have b4 : Big 123 ((wy * wx * wo * m).val / (area : F32 ℝ).val) := by
    rcases c3 with h | h
    · left; rw [h, zero_div]
    · right
      rw [le_div_iff₀ (by linarith)]
      refine le_trans (mul_le_mul_of_nonneg_left a2 (by positivity)) (le_trans (le_of_eq ?_) h)
      norm_num
  exact (rel_rnd_big (by norm_num) b4).trans (r3.div ra)

/-! ### Histograms -/

/-- The cells hold `b` up to `8 + n` roundings. -/
structure GridRel (s : Spec) (n : Nat → Nat → Nat → Nat) (b : Nat → Nat → Nat → ℝ) (grid : List (F32 ℝ)) :
    Prop where
  len : grid.length = s.options.orientations * (s.cellsWide * s.cellsHigh)
  val : ∀ a cx cy, a < s.options.orientations → cx < s.cellsWide → cy < s.cellsHigh → ∃ v,
    grid[a + s.options.orientations * (cx + s.cellsWide * cy)]? = some v ∧ Rep 24 (-149) v.val ∧
      Rel (8 + n a cx cy) v.val (b a cx cy)

/-- The step adds `c`, with `k` additions. -/
def AddsR (s : Spec) (f : List (F32 ℝ) → Option (List (F32 ℝ))) (c : Nat → Nat → Nat → ℝ)
    (k : Nat → Nat → Nat → Nat) : Prop :=
  ∀ n b grid, GridRel s n b grid → ∃ grid', f grid = some grid' ∧
    GridRel s (fun a cx cy => n a cx cy + k a cx cy) (fun a cx cy => b a cx cy + c a cx cy) grid'

theorem GridRel.congr {s : Spec} {n n' : Nat → Nat → Nat → Nat} {b b' : Nat → Nat → Nat → ℝ}
    {grid : List (F32 ℝ)} (h : GridRel s n b grid)
    (he : ∀ a cx cy, a < s.options.orientations → cx < s.cellsWide → cy < s.cellsHigh →
      b a cx cy = b' a cx cy ∧ n a cx cy ≤ n' a cx cy) : GridRel s n' b' grid := by
  refine ⟨h.len, fun a cx cy ha hx hy => ?_⟩
  obtain ⟨v, e, r, q⟩ := h.val a cx cy ha hx hy
  obtain ⟨h1, h2⟩ := he a cx cy ha hx hy
  refine ⟨v, e, r, ?_⟩
  rw [← h1]
  exact q.mono (by omega)

theorem AddsR.congr {s : Spec} {f : List (F32 ℝ) → Option (List (F32 ℝ))} {c c' : Nat → Nat → Nat → ℝ}
    {k k' : Nat → Nat → Nat → Nat}
    (h : AddsR s f c k) (he : ∀ a cx cy, a < s.options.orientations → cx < s.cellsWide →
      cy < s.cellsHigh → c a cx cy = c' a cx cy ∧ k a cx cy ≤ k' a cx cy) : AddsR s f c' k' := by
  intro n b grid hg
  obtain ⟨g, h1, h2⟩ := h n b grid hg
  refine ⟨g, h1, h2.congr fun a cx cy ha hx hy => ?_⟩
  obtain ⟨e1, e2⟩ := he a cx cy ha hx hy
  exact ⟨by rw [e1], by omega⟩

theorem AddsR.forRange {s : Spec} {N : Nat} {f : Nat → List (F32 ℝ) → Option (List (F32 ℝ))}
    {c : Nat → Nat → Nat → Nat → ℝ} {k : Nat → Nat → Nat → Nat → Nat}
    (h : ∀ i, i < N → AddsR s (f i) (c i) (k i)) :
    AddsR s (fun g => Verif.forRange 0 N g f) (fun a cx cy => ∑ i ∈ range N, c i a cx cy)
      (fun a cx cy => ∑ i ∈ range N, k i a cx cy) := by
  intro n b grid hg
  obtain ⟨g, h1, h2⟩ := forRange_spec (f := f) (s := grid)
    (fun j (g : List (F32 ℝ)) => GridRel s (fun a cx cy => n a cx cy + ∑ i ∈ range j, k i a cx cy)
      (fun a cx cy => b a cx cy + ∑ i ∈ range j, c i a cx cy) g)
    (Nat.zero_le N) (by simpa using hg)
    (fun i g _ hi hI => by
      obtain ⟨g', h1, h2⟩ := h i hi _ _ g hI
      exact ⟨g', h1, h2.congr fun a cx cy _ _ _ => ⟨by rw [sum_range_succ, add_assoc],
        by rw [sum_range_succ, add_assoc]⟩⟩)
  exact ⟨g, h1, h2⟩

theorem AddsR.forYX {s : Spec} {w h : Nat} {f : Nat → Nat → List (F32 ℝ) → Option (List (F32 ℝ))}
    {c : Nat → Nat → Nat → Nat → Nat → ℝ} {k : Nat → Nat → Nat → Nat → Nat → Nat}
    (hf : ∀ x y, x < w → y < h → AddsR s (f x y) (c x y) (k x y)) :
    AddsR s (fun g => Verif.forYX 0 h 0 w g f)
      (fun a cx cy => ∑ p ∈ allPx w h, c p.1 p.2 a cx cy)
      (fun a cx cy => ∑ p ∈ allPx w h, k p.1 p.2 a cx cy) := by
  intro n b grid hg
  obtain ⟨g, h1, h2⟩ := raster_spec (f := f) (s := grid) (w := w) (h := h)
    (fun S (g : List (F32 ℝ)) => GridRel s (fun a cx cy => n a cx cy + ∑ p ∈ S, k p.1 p.2 a cx cy)
      (fun a cx cy => b a cx cy + ∑ p ∈ S, c p.1 p.2 a cx cy) g)
    (by simpa using hg)
    (fun x y S g hx hy hS hI => by
      obtain ⟨g', h1, h2⟩ := hf x y hx hy _ _ g hI
      refine ⟨g', h1, h2.congr fun a cx cy _ _ _ => ⟨?_, ?_⟩⟩
      · rw [sum_insert hS]
        ring
      · rw [sum_insert hS]
        dsimp only
        omega)
  exact ⟨g, h1, h2⟩

theorem AddsR.addAt {s : Spec} {a0 x0 y0 : Nat} (ha : a0 < s.options.orientations)
    (hx : x0 < s.cellsWide) (hy : y0 < s.cellsHigh) {v : F32 ℝ} {e : ℝ} (hv : Rep 24 (-149) v.val)
    (hr : Rel 8 v.val e) :
    AddsR s (fun g => Hog.addAt g (offset s.cellGridLengths a0 x0 y0) v)
      (fun a cx cy => if a0 = a ∧ x0 = cx ∧ y0 = cy then e else 0)
      (fun a cx cy => if a0 = a ∧ x0 = cx ∧ y0 = cy then 1 else 0) := by
  intro n b grid hg
  have hoff : offset s.cellGridLengths a0 x0 y0 =
      a0 + s.options.orientations * (x0 + s.cellsWide * y0) := by
    simp only [offset, Spec.cellGridLengths]; ring
  obtain ⟨c, ec, rc, qc⟩ := hg.val a0 x0 y0 ha hx hy
  unfold Hog.addAt
  dsimp only
  rw [hoff, ec, Option.bind_some]
  refine ⟨_, rfl, ?_, ?_⟩
  · rw [List.length_set, hg.len]
  · intro a cx cy ha' hx' hy'
    have hlt : a0 + s.options.orientations * (x0 + s.cellsWide * y0) < grid.length := by
      rw [hg.len]; exact idx_lt ha (idx_lt hx hy)
    rw [List.getElem?_set]
    by_cases he : a0 + s.options.orientations * (x0 + s.cellsWide * y0) =
        a + s.options.orientations * (cx + s.cellsWide * cy)
    · obtain ⟨rfl, he'⟩ := (idx_inj ha ha').mp he
      obtain ⟨rfl, rfl⟩ := (idx_inj hx hx').mp he'
      rw [if_pos rfl, if_pos hlt]
      refine ⟨c + v, rfl, rep_rnd _, ?_⟩
      rw [if_pos ⟨rfl, rfl, rfl⟩, if_pos ⟨rfl, rfl, rfl⟩]
      have r1 : Rel 1 (c + v).val (c.val + v.val) := Rel.of_error (add_nonneg qc.1 hr.1)
        (rnd_add_error (by norm_num) rc hv)
      have r2 : Rel (8 + n a0 x0 y0) (c.val + v.val) (b a0 x0 y0 + e) := by
        obtain ⟨p1, p2, p3, p4⟩ := qc
        obtain ⟨q1, q2, q3, q4⟩ := hr.mono (show 8 ≤ 8 + n a0 x0 y0 by omega)
        refine ⟨by linarith, by linarith, by rw [mul_add]; linarith, by rw [mul_add]; linarith⟩
      exact (r1.trans r2).mono (by omega)
    · obtain ⟨w, ew, rw_, qw⟩ := hg.val a cx cy ha' hx' hy'
      have hne : ¬ (a0 = a ∧ x0 = cx ∧ y0 = cy) := by
        rintro ⟨rfl, rfl, rfl⟩
        exact he rfl
      refine ⟨w, by rw [if_neg he, ew], rw_, ?_⟩
      simp only [if_neg hne, add_zero]
      exact qw

/-- The position of pixel column or row `x` on the axis of cells, src/hog.rs:270-273. -/
noncomputable def cellPos (cs x : Nat) : F32 ℝ := (x : F32 ℝ) / (cs : F32 ℝ)

/-- What cell `(cx, cy)` should hold in bin `a`: the sum over all pixels of the gradient length per cell area,
weighted by the hat functions at the computed positions. -/
noncomputable def histAt (w h : Nat) (m pos : Nat → Nat → ℝ) (s : Spec) (a cx cy : Nat) : ℝ :=
  ∑ p ∈ allPx w h, hat ((cellPos s.options.cellSide p.2).val - cy) *
    hat ((cellPos s.options.cellSide p.1).val - cx) * circHat s.options.orientations (pos p.1 p.2) a *
    m p.1 p.2 / (s.options.cellSide * s.options.cellSide)

theorem nat_rep {n : Nat} (h : n ≤ 2 ^ 24) : (n : F32 ℝ).val = n := by
  have := rnd_int (K := ℝ) (p := 24) (emin := -149) (n := n) (by norm_num) (by norm_num)
    (by rw [abs_of_nonneg (by positivity)]; exact_mod_cast h)
  exact_mod_cast this

theorem cellPos_big {cs x : Nat} (hc : 0 < cs) (hc2 : cs ≤ 2 ^ 24) (hx : x ≤ 2 ^ 24) :
    Pos32 (cellPos cs x) ∧ Rel 1 (cellPos cs x).val ((x : ℝ) / cs) := by
  have e : (cellPos cs x).val = rnd32 ((x : ℝ) / cs) := by
    change rnd32 ((x : F32 ℝ).val / (cs : F32 ℝ).val) = _
    rw [nat_rep hc2, nat_rep hx]
  have hcs : (0 : ℝ) < cs := by exact_mod_cast hc
  have b : Big 24 ((x : ℝ) / cs) := by
    rcases Nat.eq_zero_or_pos x with rfl | h
    · left; simp
    · right
      have h1 : (1 : ℝ) ≤ x := by exact_mod_cast h
      have h2 : (cs : ℝ) ≤ 2 ^ 24 := by exact_mod_cast hc2
      rw [div_le_div_iff₀ (by positivity) hcs, one_mul]
      nlinarith
  refine ⟨⟨by rw [e]; exact rep_rnd _, by rw [e]; exact (b.rnd (by norm_num)).mono (by norm_num)⟩, ?_⟩
  rw [e]
  exact rel_rnd_big (by norm_num) b

/-- The index of the cell is exact. -/
theorem cellPos_floor {cs x : Nat} (hc : 0 < cs) (hc2 : cs ≤ 2 ^ 24) (hx : x < 2 ^ 24) :
    ⌊(cellPos cs x).val⌋₊ = x / cs := by
  have e : (cellPos cs x).val = rnd32 ((x : ℝ) / cs) := by
    change rnd32 ((x : F32 ℝ).val / (cs : F32 ℝ).val) = _
    rw [nat_rep hc2, nat_rep hx.le]
  have hcs : (0 : ℝ) < cs := by exact_mod_cast hc
  rw [e]
  have k1 : ((x / cs : Nat) : ℝ) ≤ rnd32 ((x : ℝ) / cs) := by
    refine le_rnd (by norm_num) ⟨((x / cs : Nat) : Int), 0, ?_, by norm_num, ?_⟩ Nat.cast_div_le
    · rw [abs_of_nonneg (Int.natCast_nonneg _)]
      have : x / cs ≤ 2 ^ 24 := (Nat.div_le_self _ _).trans hx.le
      exact_mod_cast this
    · rw [Int.cast_natCast, zpow_zero, mul_one]
  have k2 : rnd32 ((x : ℝ) / cs) < ((x / cs : Nat) : ℝ) + 1 := by
    have g1 : (x : ℝ) + 1 ≤ (((x / cs : Nat) : ℝ) + 1) * cs := by
      have := Nat.lt_div_mul_add (a := x) hc
      have g : x + 1 ≤ (x / cs + 1) * cs := by rw [Nat.add_mul, Nat.one_mul]; omega
      exact_mod_cast g
    have g2 : (x : ℝ) / cs + 1 / cs ≤ ((x / cs : Nat) : ℝ) + 1 := by
      rw [← add_div, div_le_iff₀ hcs]; exact g1
    rcases Nat.eq_zero_or_pos x with rfl | h
    · have z : rnd32 (0 : ℝ) = 0 := rnd_zero
      rw [Nat.cast_zero, zero_div, z]
      positivity
    · have h1 : (1 : ℝ) ≤ x := by exact_mod_cast h
      have h2 : (cs : ℝ) ≤ 2 ^ 24 := by exact_mod_cast hc2
      have hx24 : (x : ℝ) < 2 ^ 24 := by exact_mod_cast hx
      have err := rnd_error_rel (K := ℝ) (p := 24) (emin := -149) (x := (x : ℝ) / cs) (by
        rw [abs_of_nonneg (by positivity)]
        rw [le_div_iff₀ hcs]
        refine le_trans ?_ h1
        calc _ ≤ (2 : ℝ) ^ (-149 + ((24 : Nat) : Int) - 1) * 2 ^ 24 :=
              mul_le_mul_of_nonneg_left h2 (by positivity)
          _ ≤ 1 := by norm_num)
      rw [abs_of_nonneg (by positivity : (0 : ℝ) ≤ (x : ℝ) / cs)] at err
      have up := (abs_le.1 err).2
      have : (x : ℝ) / cs * 2 ^ (-((24 : Nat) : Int)) < 1 / cs := by
        rw [show ((2 : ℝ) ^ (-((24 : Nat) : Int))) = 1 / 2 ^ 24 by norm_num, div_mul_div_comm, mul_one,
          div_lt_div_iff₀ (by positivity) hcs]
        nlinarith
      change rnd 24 (-149) ((x : ℝ) / cs) < _
      linarith
  have p0 : 0 ≤ rnd32 ((x : ℝ) / cs) := rnd_nonneg (by positivity)
  rw [Nat.floor_eq_iff p0]
  exact ⟨k1, k2⟩

/-- Whether column or row `x` votes for cell `c`. -/
def votes (cs c x : Nat) : Nat := (if x / cs = c then 1 else 0) + (if x / cs + 1 = c then 1 else 0)

/-- At most `2 cs` columns vote for a column of cells. -/
theorem votes_sum {cs : Nat} (hc : 0 < cs) (w c : Nat) : ∑ x ∈ range w, votes cs c x ≤ 2 * cs := by
  have key : ∀ c, ∑ x ∈ range w, (if x / cs = c then 1 else 0) ≤ cs := by
    intro c
    rw [← card_filter]
    refine (card_le_card (t := Ico (c * cs) (c * cs + cs)) ?_).trans (by simp)
    intro x hx
    rw [mem_filter] at hx
    rw [mem_Ico]
    have h1 := Nat.div_mul_le_self x cs
    have h2 := Nat.lt_div_mul_add (a := x) hc
    rw [hx.2] at h1 h2
    exact ⟨h1, h2⟩
  unfold votes
  rw [sum_add_distrib]
  have k1 := key c
  have k2 : ∑ x ∈ range w, (if x / cs + 1 = c then 1 else 0) ≤ cs := by
    rcases Nat.eq_zero_or_pos c with rfl | h
    · simp
    · refine le_trans (sum_le_sum fun x _ => ?_) (key (c - 1))
      split_ifs <;> omega
  omega

theorem votes_le {cs w : Nat} (hc : 0 < cs) (hc2 : cs ≤ 2 ^ 24) (hw : w ≤ 2 ^ 24) (c : Nat) :
    ∑ x ∈ range w, ∑ i ∈ range 2,
      (if (fromPosition F32.floor (cellPos cs x)).idx i = c then 1 else 0) ≤ 2 * cs := by
  refine le_trans (le_of_eq (sum_congr rfl fun x hx => ?_)) (votes_sum hc w c)
  have hx' := mem_range.1 hx
  have fl : F32.floor (cellPos cs x) = x / cs := cellPos_floor hc hc2 (by omega)
  simp only [sum_range_succ, range_zero, sum_empty, zero_add, Interp.idx, fromPosition, fl,
    if_true, one_ne_zero, if_false, votes]

/-- **C134.** The cell histograms in `f32`, of images with at most `2 ^ 24` columns and rows: no index is out of
bounds, and every entry agrees with the trilinear interpolation at the computed positions up to `8 + 8 cs²`
roundings, where `cs` is the side of a cell. -/
theorem C134_histogram {w h : Nat} {o : Options} {s : Spec} (hs : fromOptions w h o = some (.ok s))
    (hw0 : 0 < w) (hw : w ≤ 2 ^ 24) (hh : h ≤ 2 ^ 24) (m pos : Nat → Nat → F32 ℝ)
    (hm : ∀ x y, x < w → y < h → Big 0 (m x y).val)
    (hpos : ∀ x y, x < w → y < h → Pos32 (pos x y) ∧ (pos x y).val < o.orientations) :
    ∃ grid, cellHistograms F32.floor w h m pos s = some grid ∧
      GridRel s (fun _ _ _ => 8 * (o.cellSide * o.cellSide))
        (histAt w h (fun x y => (m x y).val) (fun x y => (pos x y).val) s) grid := by
  obtain ⟨rfl, hc, hcw, -⟩ := C77_cover hs
  have hc2 : s.options.cellSide ≤ 2 ^ 24 := by
    refine le_trans ?_ hw
    rcases Nat.eq_zero_or_pos s.cellsWide with h0 | h0
    · rw [h0] at hcw; omega
    · rw [← hcw]; exact Nat.le_mul_of_pos_left _ h0
  have ha : 0 < s.cellArea := Nat.mul_pos hc hc
  have ha2 : s.cellArea ≤ 2 ^ 48 := by
    refine (Nat.mul_le_mul hc2 hc2).trans (by norm_num)
  have h0 : GridRel s (fun _ _ _ => 0) (fun _ _ _ => (0 : ℝ))
      (List.replicate (dataLength s.cellGridLengths) 0) := by
    refine ⟨?_, ?_⟩
    · simp only [List.length_replicate, dataLength, Spec.cellGridLengths]; ring
    · intro a cx cy ha hx hy
      have := idx_lt ha (idx_lt hx hy)
      refine ⟨0, ?_, rep_zero, (Rel.refl (le_refl _)).mono (Nat.zero_le _)⟩
      rw [List.getElem?_replicate, if_pos]
      simp only [dataLength, Spec.cellGridLengths]
      calc _ < _ := this
        _ = _ := by ring
  let K : Nat → Nat → Nat → Nat → Nat → Nat := fun x y _ cx cy =>
    2 * ((∑ i ∈ range 2, (if (fromPosition F32.floor (cellPos s.options.cellSide x)).idx i = cx then 1 else 0)) *
    (∑ i ∈ range 2, (if (fromPosition F32.floor (cellPos s.options.cellSide y)).idx i = cy then 1 else 0)))
  have hpix : ∀ x y, x < w → y < h → AddsR s (fun grid =>
      let yi := fromPosition F32.floor ((y : F32 ℝ) / (s.options.cellSide : F32 ℝ))
      let xi := fromPosition F32.floor ((x : F32 ℝ) / (s.options.cellSide : F32 ℝ))
      let oi := fromPositionWrapping F32.floor (pos x y) s.options.orientations
      Verif.forRange 0 2 grid fun iy grid =>
      Verif.forRange 0 2 grid fun ix grid =>
      Verif.forRange 0 2 grid fun io grid =>
        if xi.idx ix < s.cellGridLengths.2.1 ∧ yi.idx iy < s.cellGridLengths.2.2 then
          Hog.addAt grid (offset s.cellGridLengths (oi.idx io) (xi.idx ix) (yi.idx iy))
            (yi.wt iy * xi.wt ix * oi.wt io * m x y / (s.cellArea : F32 ℝ))
        else some grid)
      (fun a cx cy => hat ((cellPos s.options.cellSide y).val - cy) *
        hat ((cellPos s.options.cellSide x).val - cx) *
        circHat s.options.orientations (pos x y).val a *
        (m x y).val / (s.options.cellSide * s.options.cellSide)) (K x y) := by
    intro x y hx hy
    obtain ⟨hp, hpn⟩ := hpos x y hx hy
    obtain ⟨hX, -⟩ := cellPos_big (x := x) hc hc2 (by omega)
    obtain ⟨hY, -⟩ := cellPos_big (x := y) hc hc2 (by omega)
    have hp0 := hp.big.nonneg
    have hfl : ⌊(pos x y).val⌋₊ < s.options.orientations := (Nat.floor_lt hp0).mpr hpn
    have hoi : ∀ i, (fromPositionWrapping F32.floor (pos x y) s.options.orientations).idx i <
        s.options.orientations := by
      intro i
      have hfl' : F32.floor (pos x y) < s.options.orientations := hfl
      unfold fromPositionWrapping Interp.idx
      dsimp only
      split
      · exact hfl'
      · split <;> omega
    change AddsR s (fun grid =>
      Verif.forRange 0 2 grid fun iy grid =>
      Verif.forRange 0 2 grid fun ix grid =>
      Verif.forRange 0 2 grid fun io grid =>
        if (fromPosition F32.floor (cellPos s.options.cellSide x)).idx ix < s.cellGridLengths.2.1 ∧
          (fromPosition F32.floor (cellPos s.options.cellSide y)).idx iy < s.cellGridLengths.2.2 then
          Hog.addAt grid (offset s.cellGridLengths
            ((fromPositionWrapping F32.floor (pos x y) s.options.orientations).idx io)
            ((fromPosition F32.floor (cellPos s.options.cellSide x)).idx ix)
            ((fromPosition F32.floor (cellPos s.options.cellSide y)).idx iy))
            ((fromPosition F32.floor (cellPos s.options.cellSide y)).wt iy *
              (fromPosition F32.floor (cellPos s.options.cellSide x)).wt ix *
              (fromPositionWrapping F32.floor (pos x y) s.options.orientations).wt io * m x y /
              (s.cellArea : F32 ℝ))
        else some grid) _ _
    let C : Nat → Nat → Nat → Nat → Nat → Nat → ℝ := fun iy ix io a cx cy =>
      (if (fromPosition Nat.floor (cellPos s.options.cellSide y).val).idx iy = cy then
        (fromPosition Nat.floor (cellPos s.options.cellSide y).val).wt iy else 0) *
      (if (fromPosition Nat.floor (cellPos s.options.cellSide x).val).idx ix = cx then
        (fromPosition Nat.floor (cellPos s.options.cellSide x).val).wt ix else 0) *
      (if (fromPositionWrapping Nat.floor (pos x y).val s.options.orientations).idx io = a then
        (fromPositionWrapping Nat.floor (pos x y).val s.options.orientations).wt io else 0) *
      (m x y).val / (s.options.cellSide * s.options.cellSide)
    let k : Nat → Nat → Nat → Nat → Nat → Nat → Nat := fun iy ix _ _ cx cy =>
      (if (fromPosition F32.floor (cellPos s.options.cellSide x)).idx ix = cx then 1 else 0) *
      (if (fromPosition F32.floor (cellPos s.options.cellSide y)).idx iy = cy then 1 else 0)
    refine (AddsR.forRange (c := fun iy a cx cy => ∑ ix ∈ range 2, ∑ io ∈ range 2, C iy ix io a cx cy)
      (k := fun iy a cx cy => ∑ ix ∈ range 2, ∑ io ∈ range 2, k iy ix io a cx cy)
      fun iy _ => AddsR.forRange (c := fun ix a cx cy => ∑ io ∈ range 2, C iy ix io a cx cy)
      (k := fun ix a cx cy => ∑ io ∈ range 2, k iy ix io a cx cy)
      fun ix _ => AddsR.forRange (c := fun io a cx cy => C iy ix io a cx cy)
      (k := fun io a cx cy => k iy ix io a cx cy) fun io _ => ?_).congr ?_
    · obtain ⟨ix1, ix2⟩ := fromPosition32 hX ix
      obtain ⟨iy1, iy2⟩ := fromPosition32 hY iy
      obtain ⟨io1, io2⟩ := fromPositionWrapping32 hp s.options.orientations io
      by_cases hin : (fromPosition F32.floor (cellPos s.options.cellSide x)).idx ix <
          s.cellGridLengths.2.1 ∧ (fromPosition F32.floor (cellPos s.options.cellSide y)).idx iy <
          s.cellGridLengths.2.2
      · simp only [if_pos hin]
        obtain ⟨c1, c2⟩ := contribution iy2 ix2 io2 (hm x y hx hy) ha ha2
        refine (AddsR.addAt (hoi io) hin.1 hin.2 c1 c2).congr ?_
        intro a cx cy _ _ _
        dsimp only [C, k]
        rw [← ix1, ← iy1, ← io1]
        simp only [Spec.cellArea, Nat.cast_mul]
        by_cases q1 : (fromPosition F32.floor (cellPos s.options.cellSide x)).idx ix = cx
        · by_cases q2 : (fromPosition F32.floor (cellPos s.options.cellSide y)).idx iy = cy
          · by_cases q3 : (fromPositionWrapping F32.floor (pos x y) s.options.orientations).idx io = a
            · simp only [q1, q2, q3, and_self, if_true, mul_one]
              exact ⟨trivial, le_refl _⟩
            · simp only [q3, false_and, if_false]
              exact ⟨by simp, Nat.zero_le _⟩
          · simp only [q2, and_false, if_false]
            exact ⟨by simp, Nat.zero_le _⟩
        · simp only [q1, false_and, and_false, if_false]
          exact ⟨by simp, Nat.zero_le _⟩
      · simp only [if_neg hin]
        intro n b grid hg
        refine ⟨grid, rfl, hg.congr ?_⟩
        intro a cx cy _ hcx hcy
        simp only [Spec.cellGridLengths] at hin
        refine ⟨?_, Nat.le_add_right _ _⟩
        dsimp only [C]
        rw [← ix1, ← iy1]
        by_cases e1 : (fromPosition F32.floor (cellPos s.options.cellSide x)).idx ix = cx
        · by_cases e2 : (fromPosition F32.floor (cellPos s.options.cellSide y)).idx iy = cy
          · exact absurd ⟨by omega, by omega⟩ hin
          · rw [if_neg e2]; simp
        · rw [if_neg e1]; simp
    · intro a cx cy ha _ _
      constructor
      · dsimp only [C]
        rw [← fromPosition_weight _ hY.big.nonneg, ← fromPosition_weight _ hX.big.nonneg,
          ← fromPositionWrapping_weight _ hp0 hpn ha]
        simp only [sum_range_succ, range_zero, sum_empty, zero_add]
        ring
      · dsimp only [k, K]
        simp only [sum_range_succ, range_zero, sum_empty, zero_add]
        refine le_of_eq ?_
        ring
  obtain ⟨grid, h1, h2⟩ := AddsR.forYX hpix _ _ _ h0
  refine ⟨grid, h1, h2.congr ?_⟩
  intro a cx cy _ _ _
  constructor
  · dsimp only
    rw [zero_add]
    rfl
  · dsimp only [K]
    rw [zero_add, ← mul_sum]
    have : ∑ p ∈ allPx w h,
        (∑ i ∈ range 2, (if (fromPosition F32.floor (cellPos s.options.cellSide p.1)).idx i = cx then 1 else 0)) *
        (∑ i ∈ range 2, (if (fromPosition F32.floor (cellPos s.options.cellSide p.2)).idx i = cy then 1 else 0)) =
        (∑ x ∈ range w, ∑ i ∈ range 2,
          (if (fromPosition F32.floor (cellPos s.options.cellSide x)).idx i = cx then 1 else 0)) *
        (∑ y ∈ range h, ∑ i ∈ range 2,
          (if (fromPosition F32.floor (cellPos s.options.cellSide y)).idx i = cy then 1 else 0)) := by
      rw [sum_mul_sum]
      exact sum_product _ _ _
    rw [this]
    have v1 := votes_le hc hc2 hw cx
    have v2 := votes_le hc hc2 hh cy
    calc _ ≤ 2 * (2 * s.options.cellSide * (2 * s.options.cellSide)) :=
          Nat.mul_le_mul_left _ (Nat.mul_le_mul v1 v2)
      _ = _ := by ring

end Verif.Float
