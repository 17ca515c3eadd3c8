import Verif.Float.Basic
import Verif.Distance.Euclid
import Verif.Morphology.Binary
import Mathlib.Tactic.Linarith
/-
The squared Euclidean distance transform and the L2 morphology in double precision
(src/distance_transform.rs:107-125, 222-253, 355-440): every `f64` operation is rounded to 53 bits.
-/
namespace Verif.Float
open Verif.Distance Verif.Morphology

/-- `euclidean_squared_distance_transform` in binary64 (src/distance_transform.rs:222-253). -/
def euclideanSquared64 (im : Image Nat) : Option (Image (Option ℚ)) := euclideanSquaredR rnd64 im

/-- `v.sqrt().clamp(0.0, 255.0).ceil() as u8` in binary64 (src/distance_transform.rs:122); `none` is
`+∞`. -/
noncomputable def sqrtCeil64 : Option ℚ → Nat
  | none => 255
  | some v => ⌈min (max (rnd64 (√(v : ℝ))) 0) 255⌉₊ % 256

/-- `distance_transform_impl` in binary64 (src/distance_transform.rs:107-125). -/
noncomputable def distImpl64 (norm : Norm) (d : From) (im : Image Nat) : Option (Image Nat) :=
  match norm with
  | .LInf => sweeps true d im
  | .L1 => sweeps false d im
  | .L2 =>
    let im := match d with
      | .foreground => im
      | .background => mapPx (fun p => if p = 0 then 1 else 0) im
    (euclideanSquared64 im).map fun f => { im with px := fun x y => sqrtCeil64 (f.px x y) }

/-- `dilate_mut` (src/morphology.rs:77-82). -/
noncomputable def dilate64 (norm : Norm) (k : Nat) (im : Image Nat) : Option (Image Nat) :=
  (distImpl64 norm .foreground im).map (mapPx fun p => if p ≤ k then 255 else 0)

/-- `erode_mut` (src/morphology.rs:168-173). -/
noncomputable def erode64 (norm : Norm) (k : Nat) (im : Image Nat) : Option (Image Nat) :=
  (distImpl64 norm .background im).map (mapPx fun p => if p ≤ k then 0 else 255)

/-- `open_mut` (src/morphology.rs:232-235). -/
noncomputable def openBin64 (norm : Norm) (k : Nat) (im : Image Nat) : Option (Image Nat) :=
  (erode64 norm k im).bind (dilate64 norm k)

/-- `close_mut` (src/morphology.rs:332-335). -/
noncomputable def closeBin64 (norm : Norm) (k : Nat) (im : Image Nat) : Option (Image Nat) :=
  (dilate64 norm k im).bind (erode64 norm k)

/-! ### Comparisons with integers -/

theorem rnd64_int {K : Type _} [Field K] [LinearOrder K] [IsStrictOrderedRing K] [FloorRing K]
    {n : Int} (h : |n| ≤ 2 ^ 53) : rnd64 (n : K) = n :=
  rnd_int (by norm_num) (by norm_num) h

theorem rnd64_nat {K : Type _} [Field K] [LinearOrder K] [IsStrictOrderedRing K] [FloorRing K]
    {n : Nat} (h : n ≤ 2 ^ 53) : rnd64 (n : K) = n := by
  have := rnd64_int (K := K) (n := n) (by rw [abs_of_nonneg (by positivity)]; exact_mod_cast h)
  exact_mod_cast this

/-- A quotient that is not an integer does not move across an integer when it is rounded, as long as
its numerator is below `2 ^ 53`. -/
theorem quotient_error {A : Int} {d : Nat} (hd : 0 < d) (hd53 : d ≤ 2 ^ 53) (hA : |A| < 2 ^ 53) :
    |rnd64 ((A : ℚ) / d) - A / d| < 1 / d := by
  have hd' : (0 : ℚ) < d := by exact_mod_cast hd
  by_cases h0 : A = 0
  · rw [h0, Int.cast_zero, zero_div, show rnd64 (0 : ℚ) = 0 from rnd_zero, sub_zero, abs_zero]
    positivity
  have hA1 : (1 : ℚ) ≤ |(A : ℚ)| := by
    have := Int.one_le_abs h0
    rw [← Int.cast_abs]
    exact_mod_cast this
  have hA2 : |(A : ℚ)| < 2 ^ 53 := by
    rw [← Int.cast_abs]
    exact_mod_cast hA
  have e := rnd_error_rel (K := ℚ) (p := 53) (emin := -1074) (x := (A : ℚ) / d) (by
    rw [abs_div, abs_of_pos hd', le_div_iff₀ hd']
    refine le_trans ?_ hA1
    have hd2 : (d : ℚ) ≤ 2 ^ 53 := by exact_mod_cast hd53
    calc (2 : ℚ) ^ (-1074 + ((53 : Nat) : Int) - 1) * d ≤ 2 ^ (-53 : Int) * 2 ^ 53 :=
          mul_le_mul (zpow_le_zpow_right₀ (by norm_num) (by norm_num)) hd2 hd'.le (by positivity)
      _ = 1 := by norm_num)
  refine lt_of_le_of_lt e ?_
  rw [abs_div, abs_of_pos hd', div_mul_eq_mul_div]
  refine div_lt_div_of_pos_right ?_ hd'
  have : (2 : ℚ) ^ (-((53 : Nat) : Int)) = 1 / 2 ^ 53 := by norm_num
  rw [this, mul_one_div, div_lt_one (by positivity)]
  exact hA2

theorem le_quotient_iff {A : Int} {d : Nat} (hd : 0 < d) (hd53 : d ≤ 2 ^ 53) (hA : |A| < 2 ^ 53)
    {x : Nat} (h : (x : ℚ) ≤ rnd64 ((A : ℚ) / d)) : (x : ℚ) ≤ A / d := by
  have hd' : (0 : ℚ) < d := by exact_mod_cast hd
  have e := (abs_lt.1 (quotient_error hd hd53 hA)).2
  by_contra hc
  rw [not_le, div_lt_iff₀ hd'] at hc
  have hc' : A < (x : Int) * d := by exact_mod_cast hc
  have h1 : (A : ℚ) + 1 ≤ x * d := by exact_mod_cast hc'
  have h2 : (A : ℚ) / d + 1 / d ≤ x := by
    rw [← add_div, div_le_iff₀ hd']; exact h1
  linarith

theorem quotient_le_iff {A : Int} {d : Nat} (hd : 0 < d) (hd53 : d ≤ 2 ^ 53) (hA : |A| < 2 ^ 53)
    {x : Nat} (h : rnd64 ((A : ℚ) / d) ≤ x) : (A : ℚ) / d ≤ x := by
  have hd' : (0 : ℚ) < d := by exact_mod_cast hd
  have e := (abs_lt.1 (quotient_error hd hd53 hA)).1
  by_contra hc
  rw [not_le, lt_div_iff₀ hd'] at hc
  have hc' : (x : Int) * d < A := by exact_mod_cast hc
  have h1 : (x : ℚ) * d + 1 ≤ A := by exact_mod_cast hc'
  have h2 : (x : ℚ) + 1 / d ≤ A / d := by
    rw [le_div_iff₀ hd', add_mul, one_div, inv_mul_cancel₀ hd'.ne']; exact h1
  linarith

/-- Integer source values. -/
def IntSource (f : Nat → Option ℚ) (n : Nat) : Prop :=
  ∀ p v, p < n → f p = some v → ∃ m : Nat, v = m ∧ m + n * n ≤ 2 ^ 53

theorem isect64_eq {f : Nat → Option ℚ} {n p q a b : Nat} (hpq : p < q) (hq : q < n)
    (ha : f p = some (a : ℚ)) (hb : f q = some (b : ℚ)) (ha' : a + n * n ≤ 2 ^ 53)
    (hb' : b + n * n ≤ 2 ^ 53) :
    ∃ (A : Int) (d : Nat), 0 < d ∧ d ≤ 2 ^ 53 ∧ |A| < 2 ^ 53 ∧
      isectR rnd64 f p q = rnd64 ((A : ℚ) / d) ∧ isect f p q = (A : ℚ) / d := by
  have hpp : p * p ≤ (n - 1) * (n - 1) := Nat.mul_le_mul (by omega) (by omega)
  have hqq : q * q ≤ (n - 1) * (n - 1) := Nat.mul_le_mul (by omega) (by omega)
  have hnn : (n - 1) * (n - 1) + (2 * n - 1) = n * n := by
    obtain ⟨m, rfl⟩ : ∃ m, n = m + 1 := ⟨n - 1, by omega⟩
    simp only [Nat.add_sub_cancel]
    have : 2 * (m + 1) - 1 = 2 * m + 1 := by omega
    rw [this]; ring
  have hA : b + q * q < 2 ^ 53 := by omega
  have hB : a + p * p < 2 ^ 53 := by omega
  have hAB : |((b + q * q : Nat) : Int) - ((a + p * p : Nat) : Int)| < 2 ^ 53 := by
    rw [abs_lt]; constructor <;> omega
  refine ⟨((b + q * q : Nat) : Int) - ((a + p * p : Nat) : Int), 2 * q - 2 * p, by omega, by omega,
    hAB, ?_, ?_⟩
  · unfold isectR
    rw [ha, hb, rnd64_nat (n := q) (by omega), rnd64_nat (n := p) (by omega)]
    simp only [Option.getD_some]
    rw [show rnd64 ((q : ℚ) * q) = ((q * q : Nat) : ℚ) by
        rw [← Nat.cast_mul]; exact rnd64_nat (by omega),
      show rnd64 ((p : ℚ) * p) = ((p * p : Nat) : ℚ) by
        rw [← Nat.cast_mul]; exact rnd64_nat (by omega),
      show rnd64 ((2 : ℚ) * q) = ((2 * q : Nat) : ℚ) by
        rw [show (2 : ℚ) * q = ((2 * q : Nat) : ℚ) by push_cast; ring]; exact rnd64_nat (by omega),
      show rnd64 ((2 : ℚ) * p) = ((2 * p : Nat) : ℚ) by
        rw [show (2 : ℚ) * p = ((2 * p : Nat) : ℚ) by push_cast; ring]; exact rnd64_nat (by omega),
      show rnd64 (((2 * q : Nat) : ℚ) - ((2 * p : Nat) : ℚ)) = ((2 * q - 2 * p : Nat) : ℚ) by
        rw [← Nat.cast_sub (by omega)]; exact rnd64_nat (by omega),
      show rnd64 ((b : ℚ) + ((q * q : Nat) : ℚ)) = ((b + q * q : Nat) : ℚ) by
        rw [← Nat.cast_add]; exact rnd64_nat (by omega),
      show rnd64 ((a : ℚ) + ((p * p : Nat) : ℚ)) = ((a + p * p : Nat) : ℚ) by
        rw [← Nat.cast_add]; exact rnd64_nat (by omega),
      show rnd64 (((b + q * q : Nat) : ℚ) - ((a + p * p : Nat) : ℚ)) =
          ((((b + q * q : Nat) : Int) - ((a + p * p : Nat) : Int) : Int) : ℚ) by
        rw [show ((b + q * q : Nat) : ℚ) - ((a + p * p : Nat) : ℚ) =
          ((((b + q * q : Nat) : Int) - ((a + p * p : Nat) : Int) : Int) : ℚ) by push_cast; ring]
        exact rnd64_int (le_of_lt hAB)]
  · unfold isect
    rw [ha, hb, Nat.cast_sub (by omega)]
    simp only [Option.getD_some]
    push_cast
    ring

theorem good64 {f : Nat → Option ℚ} {n : Nat} (h : IntSource f n) (hn : n * n ≤ 2 ^ 53) :
    Good rnd64 f n where
  pos q hq := rnd64_nat (by
    have := Nat.le_mul_self n
    omega)
  le p q hpq hq hp hfq x _ hx := by
    obtain ⟨a, ha⟩ := Option.isSome_iff_exists.1 hp
    obtain ⟨b, hb⟩ := Option.isSome_iff_exists.1 hfq
    obtain ⟨a, rfl, ha'⟩ := h p a (by omega) ha
    obtain ⟨b, rfl, hb'⟩ := h q b hq hb
    obtain ⟨A, d, h1, h2, h3, h4, h5⟩ := isect64_eq hpq hq ha hb ha' hb'
    rw [par_le_iff hpq, h5]
    rw [h4] at hx
    exact le_quotient_iff h1 h2 h3 hx
  ge p q hpq hq hp hfq x _ hx := by
    obtain ⟨a, ha⟩ := Option.isSome_iff_exists.1 hp
    obtain ⟨b, hb⟩ := Option.isSome_iff_exists.1 hfq
    obtain ⟨a, rfl, ha'⟩ := h p a (by omega) ha
    obtain ⟨b, rfl, hb'⟩ := h q b hq hb
    obtain ⟨A, d, h1, h2, h3, h4, h5⟩ := isect64_eq hpq hq ha hb ha' hb'
    refine par_ge_of hpq ?_
    rw [h5]
    rw [h4] at hx
    exact quotient_le_iff h1 h2 h3 hx
  val p q v hp hq hv := by
    obtain ⟨a, rfl, ha⟩ := h p v hp hv
    have hnn := Nat.le_mul_self n
    rw [rnd64_nat (n := q) (by omega), rnd64_nat (n := p) (by omega)]
    obtain ⟨d, hd, hdn⟩ : ∃ d : Nat, ((q : ℚ) - p) * (q - p) = ((d * d : Nat) : ℚ) ∧ d ≤ n ∧
        ∃ i : Int, (q : ℚ) - p = i ∧ |i| ≤ 2 ^ 53 := by
      refine ⟨max q p - min q p, ?_, by omega, (q : Int) - p, by push_cast; ring, by
        rw [abs_le]; constructor <;> omega⟩
      rw [Nat.cast_mul, Nat.cast_sub (by omega)]
      rcases le_total q p with h | h
      · rw [max_eq_right h, min_eq_left h]; ring
      · rw [max_eq_left h, min_eq_right h]
    obtain ⟨hdn, i, hi, hi'⟩ := hdn
    have hdd : d * d ≤ n * n := Nat.mul_le_mul hdn hdn
    rw [show rnd64 ((q : ℚ) - p) = (q : ℚ) - p by rw [hi]; exact rnd64_int hi', hd,
      show rnd64 ((d * d : Nat) : ℚ) = ((d * d : Nat) : ℚ) from rnd64_nat (by omega), ← Nat.cast_add]
    exact rnd64_nat (by omega)

/-! ### C123 -/

/-- C123: in double precision every value returned by `euclidean_squared_distance_transform` is the
least squared distance to a foreground pixel, exactly, whenever the squared diagonal of the image is
at most `2 ^ 53`; the rounded intersections of the parabolas lose nothing. -/
theorem C123_exact (im : Image Nat) (h : im.w * im.w + im.h * im.h ≤ 2 ^ 53) :
    ∃ r, euclideanSquared64 im = some r ∧ r.w = im.w ∧ r.h = im.h ∧
      ∀ x y, x < im.w → y < im.h → IsSqDist im x y (r.px x y) := by
  refine euclidean_of_good im (fun x _ => good64 ?_ (by omega)) fun f hf => good64 ?_ (by omega)
  · intro p v hp hv
    rw [columnGet_eq] at hv
    by_cases hne : im.px x p ≠ 0
    · rw [if_pos hne] at hv
      injection hv with hv
      exact ⟨0, by rw [← hv]; rfl, by omega⟩
    · rw [if_neg hne] at hv; cases hv
  · intro p v hp hv
    obtain ⟨d, hd, rfl⟩ := hf p v hp hv
    have : d * d ≤ im.h * im.h := Nat.mul_le_mul (by omega) (by omega)
    exact ⟨d * d, by push_cast; ring, by omega⟩

theorem sqDist_unique {im : Image Nat} {x y : Nat} {u v : Option ℚ} (hu : IsSqDist im x y u)
    (hv : IsSqDist im x y v) : u = v := by
  cases u with
  | none =>
    cases v with
    | none => rfl
    | some v =>
      obtain ⟨⟨a, b, h1, h2, h3, -⟩, -⟩ := hv
      exact absurd (hu a b h1 h2) h3
  | some u =>
    obtain ⟨⟨a, b, h1, h2, h3, h4⟩, h5⟩ := hu
    cases v with
    | none => exact absurd (hv a b h1 h2) h3
    | some v =>
      obtain ⟨⟨a', b', h1', h2', h3', h4'⟩, h5'⟩ := hv
      have e1 := h5 a' b' h1' h2' h3'
      have e2 := h5' a b h1 h2 h3
      rw [← h4'] at e1
      rw [← h4] at e2
      rw [le_antisymm e1 e2]

theorem sqrt_le_iff64 (m k : Nat) (hk : k ≤ 255) : rnd64 (√(m : ℝ)) ≤ k ↔ √(m : ℝ) ≤ k := by
  have hkr : (k : ℝ) ≤ 255 := by exact_mod_cast hk
  have hk0 : (0 : ℝ) ≤ k := by positivity
  constructor
  · intro h
    by_contra hc
    rw [not_le, Real.lt_sqrt hk0] at hc
    have hm : k * k + 1 ≤ m := by
      have : k ^ 2 < m := by exact_mod_cast hc
      rw [sq] at this
      omega
    have hm' : (k : ℝ) * k + 1 ≤ m := by exact_mod_cast hm
    have h1 : (k : ℝ) + 1 / 1024 ≤ √(m : ℝ) := by
      refine Real.le_sqrt_of_sq_le ?_
      nlinarith
    have hr : Rep 53 (-1074) ((k : ℝ) + 1 / 1024) := by
      refine ⟨k * 1024 + 1, -10, ?_, by norm_num, ?_⟩
      · rw [abs_of_nonneg (by positivity)]
        norm_num
        omega
      · push_cast
        norm_num
        ring
    have := le_rnd (p := 53) (emin := -1074) (by norm_num) hr h1
    have h2 : (k : ℝ) + 1 / 1024 ≤ rnd64 (√(m : ℝ)) := this
    linarith
  · intro h
    exact rnd_le (by norm_num) ⟨k, 0, by
      rw [abs_of_nonneg (by positivity)]; norm_num; omega, by norm_num, by simp⟩ h

theorem sqrtCeil64_eq (m : Nat) : sqrtCeil64 (some (m : ℚ)) = sqrtCeil (some (m : ℚ)) := by
  unfold sqrtCeil64 sqrtCeil
  dsimp only
  rw [Rat.cast_natCast]
  have key : ∀ k : Nat, ⌈min (max (rnd64 (√(m : ℝ))) 0) 255⌉₊ ≤ k ↔
      ⌈min (max (√(m : ℝ)) 0) 255⌉₊ ≤ k := by
    intro k
    rw [Nat.ceil_le, Nat.ceil_le]
    by_cases hk : k ≤ 255
    · rw [min_le_iff, min_le_iff, max_le_iff, max_le_iff, sqrt_le_iff64 m k hk]
    · have : (255 : ℝ) ≤ k := by exact_mod_cast (by omega : 255 ≤ k)
      exact ⟨fun _ => le_trans (min_le_right _ _) this, fun _ => le_trans (min_le_right _ _) this⟩
  rw [le_antisymm ((key _).2 (le_refl _)) ((key _).1 (le_refl _))]

/-- Both runs succeed and return the same picture. -/
def Same (a b : Option (Image Nat)) : Prop :=
  ∃ r r' : Image Nat, a = some r ∧ b = some r' ∧ r.w = r'.w ∧ r.h = r'.h ∧
    ∀ x y, x < r.w → y < r.h → r.px x y = r'.px x y

theorem distImpl64_eq (norm : Norm) (d : From) (im : Image Nat)
    (h : im.w * im.w + im.h * im.h ≤ 2 ^ 53) :
    ∃ r r', distImpl64 norm d im = some r ∧ distImpl norm d im = some r' ∧ r.w = im.w ∧ r.h = im.h ∧
      r'.w = im.w ∧ r'.h = im.h ∧ ∀ x y, x < im.w → y < im.h → r.px x y = r'.px x y := by
  have key : ∀ im : Image Nat, im.w * im.w + im.h * im.h ≤ 2 ^ 53 →
      ∃ f f', euclideanSquared64 im = some f ∧ euclideanSquared im = some f' ∧
        ∀ x y, x < im.w → y < im.h → sqrtCeil64 (f.px x y) = sqrtCeil (f'.px x y) := by
    intro im h
    obtain ⟨f, e, h1, h2, h3⟩ := C123_exact im h
    obtain ⟨f', e', h1', h2', h3'⟩ := C32_exact im
    refine ⟨f, f', e, e', ?_⟩
    intro x y hx hy
    rw [← sqDist_unique (h3 x y hx hy) (h3' x y hx hy)]
    have hs := h3 x y hx hy
    cases hv : f.px x y with
    | none => rfl
    | some v =>
      rw [hv] at hs
      obtain ⟨⟨a, b, -, -, -, hm⟩, -⟩ := hs
      have : v = ((((x : Int) - a).natAbs ^ 2 + ((y : Int) - b).natAbs ^ 2 : Nat) : ℚ) := by
        have : (((((x : Int) - a).natAbs ^ 2 + ((y : Int) - b).natAbs ^ 2 : Nat) : Int)) =
            ((x : Int) - a) ^ 2 + ((y : Int) - b) ^ 2 := by
          push_cast [Int.natCast_natAbs, sq_abs]; ring
        have := congrArg (Int.cast : Int → ℚ) this
        rw [Int.cast_natCast] at this
        rw [hm, this]
        push_cast; ring
      rw [this]
      exact sqrtCeil64_eq _
  obtain ⟨r', e', h1', h2', -⟩ := distImpl_spec norm d im
  cases norm with
  | L1 => exact ⟨r', r', e', e', h1', h2', h1', h2', fun _ _ _ _ => rfl⟩
  | LInf => exact ⟨r', r', e', e', h1', h2', h1', h2', fun _ _ _ _ => rfl⟩
  | L2 =>
    cases d with
    | foreground =>
      obtain ⟨f, f', k1, k2, k3⟩ := key im h
      refine ⟨{ im with px := fun x y => sqrtCeil64 (f.px x y) },
        { im with px := fun x y => sqrtCeil (f'.px x y) }, ?_, ?_, rfl, rfl, rfl, rfl, k3⟩
      · simp only [distImpl64, k1]; rfl
      · simp only [distImpl, k2]; rfl
    | background =>
      obtain ⟨f, f', k1, k2, k3⟩ := key (mapPx (fun p => if p = 0 then 1 else 0) im) h
      refine ⟨{ im with px := fun x y => sqrtCeil64 (f.px x y) },
        { im with px := fun x y => sqrtCeil (f'.px x y) }, ?_, ?_, rfl, rfl, rfl, rfl, k3⟩
      · simp only [distImpl64, k1]; rfl
      · simp only [distImpl, k2]; rfl

theorem dilate64_eq (norm : Norm) (k : Nat) (im : Image Nat)
    (h : im.w * im.w + im.h * im.h ≤ 2 ^ 53) :
    ∃ r r', dilate64 norm k im = some r ∧ dilate norm k im = some r' ∧ r.w = im.w ∧ r.h = im.h ∧
      r'.w = im.w ∧ r'.h = im.h ∧ ∀ x y, x < im.w → y < im.h → r.px x y = r'.px x y := by
  obtain ⟨r, r', e, e', h1, h2, h3, h4, h5⟩ := distImpl64_eq norm .foreground im h
  refine ⟨mapPx (fun p => if p ≤ k then 255 else 0) r, mapPx (fun p => if p ≤ k then 255 else 0) r',
    by unfold dilate64; rw [e]; rfl, by unfold dilate; rw [e']; rfl, h1, h2, h3, h4, ?_⟩
  intro x y hx hy
  simp only [mapPx]
  rw [h5 x y hx hy]

theorem erode64_eq (norm : Norm) (k : Nat) (im : Image Nat)
    (h : im.w * im.w + im.h * im.h ≤ 2 ^ 53) :
    ∃ r r', erode64 norm k im = some r ∧ erode norm k im = some r' ∧ r.w = im.w ∧ r.h = im.h ∧
      r'.w = im.w ∧ r'.h = im.h ∧ ∀ x y, x < im.w → y < im.h → r.px x y = r'.px x y := by
  obtain ⟨r, r', e, e', h1, h2, h3, h4, h5⟩ := distImpl64_eq norm .background im h
  refine ⟨mapPx (fun p => if p ≤ k then 0 else 255) r, mapPx (fun p => if p ≤ k then 0 else 255) r',
    by unfold erode64; rw [e]; rfl, by unfold erode; rw [e']; rfl, h1, h2, h3, h4, ?_⟩
  intro x y hx hy
  simp only [mapPx]
  rw [h5 x y hx hy]

theorem fg_congr {r r' : Image Nat} (hw : r.w = r'.w) (hh : r.h = r'.h)
    (h : ∀ x y, x < r.w → y < r.h → r.px x y = r'.px x y) (a b : Nat) : Fg r a b ↔ Fg r' a b := by
  unfold Fg
  rw [← hw, ← hh]
  constructor
  · rintro ⟨h1, h2, h3⟩; exact ⟨h1, h2, by rw [← h a b h1 h2]; exact h3⟩
  · rintro ⟨h1, h2, h3⟩; exact ⟨h1, h2, by rw [h a b h1 h2]; exact h3⟩

theorem bg_congr {r r' : Image Nat} (hw : r.w = r'.w) (hh : r.h = r'.h)
    (h : ∀ x y, x < r.w → y < r.h → r.px x y = r'.px x y) (a b : Nat) : Bg r a b ↔ Bg r' a b := by
  unfold Bg
  rw [← hw, ← hh]
  constructor
  · rintro ⟨h1, h2, h3⟩; exact ⟨h1, h2, by rw [← h a b h1 h2]; exact h3⟩
  · rintro ⟨h1, h2, h3⟩; exact ⟨h1, h2, by rw [h a b h1 h2]; exact h3⟩

theorem dilate_congr (norm : Norm) {k : Nat} (hk : k ≤ 255) {r r' : Image Nat} (hw : r.w = r'.w)
    (hh : r.h = r'.h) (h : ∀ x y, x < r.w → y < r.h → r.px x y = r'.px x y) :
    Same (dilate norm k r) (dilate norm k r') := by
  obtain ⟨o, e, h1, h2, h3⟩ := C33_dilate_characterised norm r k hk
  obtain ⟨o', e', h1', h2', h3'⟩ := C33_dilate_characterised norm r' k hk
  refine ⟨o, o', e, e', by rw [h1, h1', hw], by rw [h2, h2', hh], ?_⟩
  intro x y hx hy
  rw [h1] at hx
  rw [h2] at hy
  obtain ⟨a1, a2⟩ := h3 x y hx hy
  obtain ⟨b1, b2⟩ := h3' x y (hw ▸ hx) (hh ▸ hy)
  have : o.px x y = 255 ↔ o'.px x y = 255 := by
    rw [a2, b2]
    simp only [fg_congr hw hh h]
    rw [hw, hh]
  omega

theorem erode_congr (norm : Norm) {k : Nat} (hk : k ≤ 255) {r r' : Image Nat} (hw : r.w = r'.w)
    (hh : r.h = r'.h) (h : ∀ x y, x < r.w → y < r.h → r.px x y = r'.px x y) :
    Same (erode norm k r) (erode norm k r') := by
  obtain ⟨o, e, h1, h2, h3⟩ := C33_erode_characterised norm r k hk
  obtain ⟨o', e', h1', h2', h3'⟩ := C33_erode_characterised norm r' k hk
  refine ⟨o, o', e, e', by rw [h1, h1', hw], by rw [h2, h2', hh], ?_⟩
  intro x y hx hy
  rw [h1] at hx
  rw [h2] at hy
  obtain ⟨a1, a2⟩ := h3 x y hx hy
  obtain ⟨b1, b2⟩ := h3' x y (hw ▸ hx) (hh ▸ hy)
  have : o.px x y = 0 ↔ o'.px x y = 0 := by
    rw [a2, b2]
    simp only [bg_congr hw hh h]
    rw [hw, hh]
  omega

/-- C123: binary dilation, erosion, opening and closing computed in double precision return the
pictures of exact arithmetic, for every norm and radius. -/
theorem C123_morphology (norm : Norm) (k : Nat) (hk : k ≤ 255) (im : Image Nat)
    (h : im.w * im.w + im.h * im.h ≤ 2 ^ 53) :
    Same (dilate64 norm k im) (dilate norm k im) ∧ Same (erode64 norm k im) (erode norm k im) ∧
      Same (openBin64 norm k im) (openBin norm k im) ∧
      Same (closeBin64 norm k im) (closeBin norm k im) := by
  obtain ⟨d, d', e, e', h1, h2, h3, h4, h5⟩ := dilate64_eq norm k im h
  obtain ⟨c, c', g, g', k1, k2, k3, k4, k5⟩ := erode64_eq norm k im h
  refine ⟨⟨d, d', e, e', by rw [h1, h3], by rw [h2, h4], fun x y hx hy => h5 x y (by omega) (by omega)⟩,
    ⟨c, c', g, g', by rw [k1, k3], by rw [k2, k4], fun x y hx hy => k5 x y (by omega) (by omega)⟩,
    ?_, ?_⟩
  · unfold openBin64 openBin
    rw [g, g', Option.bind_some, Option.bind_some]
    obtain ⟨a, a', i, i', j1, j2, j3, j4, j5⟩ := dilate64_eq norm k c (by rw [k1, k2]; exact h)
    obtain ⟨b, b', l, l', m1, m2, m3⟩ := dilate_congr norm hk (k1.trans k3.symm) (k2.trans k4.symm)
      (fun x y hx hy => k5 x y (by omega) (by omega))
    rw [i'] at l
    injection l with l
    subst l
    refine ⟨a, b', i, l', by omega, by omega, ?_⟩
    intro x y hx hy
    rw [j5 x y (by omega) (by omega), m3 x y (by omega) (by omega)]
  · unfold closeBin64 closeBin
    rw [e, e', Option.bind_some, Option.bind_some]
    obtain ⟨a, a', i, i', j1, j2, j3, j4, j5⟩ := erode64_eq norm k d (by rw [h1, h2]; exact h)
    obtain ⟨b, b', l, l', m1, m2, m3⟩ := erode_congr norm hk (h1.trans h3.symm) (h2.trans h4.symm)
      (fun x y hx hy => h5 x y (by omega) (by omega))
    rw [i'] at l
    injection l with l
    subst l
    refine ⟨a, b', i, l', by omega, by omega, ?_⟩
    intro x y hx hy
    rw [j5 x y (by omega) (by omega), m3 x y (by omega) (by omega)]

/-- The parabolas at columns 0 and 3 meet at `7 / 3`, which is rounded. -/
example : ((euclideanSquared64 (Image.ofRows 0 [[1, 0, 0, 0], [0, 0, 0, 0], [0, 0, 0, 1]])).map
    Image.rows) = some [[some 0, some 1, some 4, some 4], [some 1, some 2, some 2, some 1],
      [some 4, some 4, some 1, some 0]] := by decide +kernel

example : isectR rnd64 (fun i => if i = 0 then some 0 else some 5) 0 3 =
    5254199565265579 / 2 ^ 51 := by decide +kernel

end Verif.Float
