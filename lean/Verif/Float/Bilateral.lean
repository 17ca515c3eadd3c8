import Verif.Float.Blur
import Verif.Filter.Bilateral
/-
`bilateral_filter` in single precision (src/filter/bilateral.rs): the model of
`Verif/Filter/Bilateral.lean` with `f32` numbers, where every operation is rounded.  The exponential
is a parameter `expf`, as in `Verif/Float/Blur.lean`.
-/
namespace Verif.Float
open Verif.Filter hiding clampU8
open Verif.Filter.Bilateral Verif.Edges
open Real (exp)
open Finset

/-- `gaussian_weight`, src/filter/bilateral.rs:199-201. -/
noncomputable def gaussianWeight32 (expf : ℝ → ℝ) (xSquared sigmaSquared : ℝ) : F32 ℝ :=
  ⟨expf (rnd32 (rnd32 (-(1 / 2) * xSquared) / sigmaSquared))⟩

/-- The entry of the spatial table for an offset, src/filter/bilateral.rs:116-121. -/
noncomputable def spatial32 (expf : ℝ → ℝ) (sigma : ℝ) (wx wy : Int) : F32 ℝ :=
  gaussianWeight32 expf (rnd32 (rnd32 ((wx : ℝ) * wx) + rnd32 ((wy : ℝ) * wy))) (rnd32 (sigma * sigma))

/-- `GaussianEuclideanColorDistance::color_distance`, src/filter/bilateral.rs:27-48, for pixels with
`n` 8-bit channels. -/
noncomputable def color32 (expf : ℝ → ℝ) (sigma : ℝ) {n : Nat} (p q : Fin n → Nat) : F32 ℝ :=
  gaussianWeight32 expf ((List.finRange n).foldl (fun acc c =>
    let d := rnd32 ((p c : ℝ) - q c)
    rnd32 (acc + rnd32 (d * d))) 0) (rnd32 (sigma * sigma))

/-- `bilateral_filter` of an 8-bit image with any `ColorDistance`, src/filter/bilateral.rs:93-162. -/
noncomputable def bilateral32 {ι : Type _} (expf : ℝ → ℝ) (color : (ι → Nat) → (ι → Nat) → F32 ℝ)
    (im : Image (ι → Nat)) (r : Nat) (sigma : ℝ) : Option (Image (ι → Nat)) :=
  bilateralFilter (fun v : Nat => (⟨(v : ℝ)⟩ : F32 ℝ)) (fun a => clampU8 a.val) (spatial32 expf sigma)
    color im r

/-! ### Sums -/

/-- The two sums of `weighted_average` run independently. -/
theorem foldl_pair {K ι : Type _} [Add K] (l : List (K × (ι → K))) (a : K × (ι → K)) :
    l.foldl (fun (a b : K × (ι → K)) => (a.1 + b.1, fun c => a.2 c + b.2 c)) a =
      ((l.map fun p => p.1).foldl (· + ·) a.1, fun c => (l.map fun p => p.2 c).foldl (· + ·) (a.2 c)) := by
  induction l generalizing a with
  | nil => rfl
  | cons b l ih => rw [List.foldl_cons, ih]; rfl

theorem foldl_val (l : List (F32 ℝ)) (e : ℝ) :
    l.foldl (fun e b => e + b.val) e = e + (l.map fun b => b.val).sum := by
  induction l generalizing e with
  | nil => simp
  | cons b l ih => rw [List.foldl_cons, ih]; simp [add_assoc]

/-- Sum in single precision of a list of non-negative numbers, started from its first element. -/
theorem sum_bounds (a : F32 ℝ) (l : List (F32 ℝ)) (ha : 0 ≤ a.val ∧ Rep 24 (-149) a.val)
    (hl : ∀ b ∈ l, 0 ≤ b.val ∧ Rep 24 (-149) b.val) :
    (1 - u32) ^ l.length * ((a :: l).map fun b => b.val).sum ≤ (l.foldl (· + ·) a).val ∧
      (l.foldl (· + ·) a).val ≤ (1 + u32) ^ l.length * ((a :: l).map fun b => b.val).sum := by
  obtain ⟨-, -, h1, h2⟩ := fold_add_bounds l hl a a.val 0 ha.2 ha.1 (by simp) (by simp)
  rw [foldl_val, Nat.zero_add] at h1 h2
  rw [List.map_cons, List.sum_cons]
  exact ⟨h1, h2⟩

theorem prod_bounds (w : F32 ℝ) (hw : 0 ≤ w.val ∧ Rep 24 (-149) w.val) (v : Nat) :
    (0 ≤ (w * (⟨(v : ℝ)⟩ : F32 ℝ)).val ∧ Rep 24 (-149) (w * (⟨(v : ℝ)⟩ : F32 ℝ)).val) ∧
      (1 - u32) * (w.val * v) ≤ (w * (⟨(v : ℝ)⟩ : F32 ℝ)).val ∧
      (w * (⟨(v : ℝ)⟩ : F32 ℝ)).val ≤ (1 + u32) * (w.val * v) := by
  have hvw : 0 ≤ w.val * (v : ℝ) := mul_nonneg hw.1 (by positivity)
  have m := rnd_int_mul_error (p := 24) (emin := -149) (by norm_num) hw.2 (v : Int)
  rw [Int.cast_natCast, mul_comm] at m
  obtain ⟨m1, m2⟩ := two_sided hvw m
  exact ⟨⟨rnd_nonneg hvw, rep_rnd _⟩, m1, m2⟩

theorem sum_scale {β : Type _} (l : List β) (f g : β → ℝ) (k : ℝ) (h : ∀ b ∈ l, f b ≤ k * g b) :
    (l.map f).sum ≤ k * (l.map g).sum := by
  induction l with
  | nil => simp
  | cons b l ih =>
    rw [List.map_cons, List.map_cons, List.sum_cons, List.sum_cons, mul_add]
    exact add_le_add (h b (by simp)) (ih fun c hc => h c (by simp [hc]))

theorem sum_scale' {β : Type _} (l : List β) (f g : β → ℝ) (k : ℝ) (h : ∀ b ∈ l, k * f b ≤ g b) :
    k * (l.map f).sum ≤ (l.map g).sum := by
  induction l with
  | nil => simp
  | cons b l ih =>
    rw [List.map_cons, List.map_cons, List.sum_cons, List.sum_cons, mul_add]
    exact add_le_add (h b (by simp)) (ih fun c hc => h c (by simp [hc]))

/-- Quotient of two sums that suffered `n` and `n - 1` roundings. -/
theorem quotient_bounds {n : Nat} (hn : 1 ≤ n) (hn' : n ≤ 32761) {V W S T : ℝ} (hT : 0 < T) (hS0 : 0 ≤ S)
    (hS : S ≤ 255 * T)
    (hV1 : (1 - u32) ^ n * S ≤ V) (hV2 : V ≤ (1 + u32) ^ n * S)
    (hW1 : (1 - u32) ^ (n - 1) * T ≤ W) (hW2 : W ≤ (1 + u32) ^ (n - 1) * T) :
    |rnd32 (V / W) - S / T| ≤ 510 * n / (2 ^ 24 - 2 * n) + 1 / 2 ^ 17 ∧ rnd32 (V / W) < 256 := by
  have hu := u32_pos (K := ℝ)
  have hu1 := u32_lt_one (K := ℝ)
  have hue : (u32 : ℝ) = 1 / 16777216 := by norm_num [u32, zpow_neg]
  have hnr : (n : ℝ) ≤ 32761 := by exact_mod_cast hn'
  have hn1 : (1 : ℝ) ≤ n := by exact_mod_cast hn
  have hp : ∀ k : Nat, (0 : ℝ) < (1 - u32) ^ k := fun k => pow_pos (by linarith) k
  have hprod : ∀ k : Nat, (1 + u32 : ℝ) ^ k * (1 - u32) ^ k ≤ 1 := by
    intro k
    rw [← mul_pow]
    exact pow_le_one₀ (mul_nonneg (by linarith) (by linarith)) (by nlinarith)
  have b := one_add_mul_le_pow (show (-2 : ℝ) ≤ -u32 by linarith) (2 * n)
  rw [← sub_eq_add_neg] at b
  have hb : (1 - 2 * n / 16777216 : ℝ) ≤ (1 - u32) ^ n * (1 - u32) ^ (n - 1) := by
    have e : (1 - u32 : ℝ) ^ (2 * n) ≤ (1 - u32) ^ n * (1 - u32) ^ (n - 1) := by
      rw [← pow_add]
      exact pow_le_pow_of_le_one (by linarith) (by linarith) (by omega)
    refine le_trans ?_ e
    refine le_trans (le_of_eq ?_) b
    push_cast
    rw [hue]
    ring
  set D : ℝ := 1 - 2 * n / 16777216 with hD
  have hDpos : 0.99609 < D := by rw [hD]; norm_num; linarith
  have hD1 : D < 1 := by rw [hD]; norm_num; linarith
  set P := (1 - u32 : ℝ) ^ n with hP
  set Q := (1 - u32 : ℝ) ^ (n - 1) with hQ
  have hPpos : 0 < P := hp n
  have hQpos : 0 < Q := hp (n - 1)
  have hWpos : 0 < W := lt_of_lt_of_le (mul_pos hQpos hT) hW1
  have hWQ : W * Q ≤ T := by
    have := mul_le_mul_of_nonneg_right hW2 hQpos.le
    have h2 := mul_le_mul_of_nonneg_right (hprod (n - 1)) hT.le
    rw [one_mul] at h2
    calc W * Q ≤ (1 + u32) ^ (n - 1) * T * Q := this
      _ = (1 + u32) ^ (n - 1) * Q * T := by ring
      _ ≤ T := h2
  have hVP : V * P ≤ S := by
    have := mul_le_mul_of_nonneg_right hV2 hPpos.le
    have h2 := mul_le_mul_of_nonneg_right (hprod n) hS0
    rw [one_mul] at h2
    calc V * P ≤ (1 + u32) ^ n * S * P := this
      _ = (1 + u32) ^ n * P * S := by ring
      _ ≤ S := h2
  have hx1 : D * (S / T) ≤ V / W := by
    rw [le_div_iff₀ hWpos, ← mul_div_assoc, div_mul_eq_mul_div, div_le_iff₀ hT]
    have h1 : D * S ≤ P * Q * S := mul_le_mul_of_nonneg_right hb hS0
    calc D * S * W ≤ P * Q * S * W := mul_le_mul_of_nonneg_right h1 hWpos.le
      _ = (P * S) * (W * Q) := by ring
      _ ≤ V * T := mul_le_mul hV1 hWQ (by positivity) (le_trans (by positivity) hV1)
  have hx2 : D * (V / W) ≤ S / T := by
    rw [le_div_iff₀ hT, ← mul_div_assoc, div_mul_eq_mul_div, div_le_iff₀ hWpos]
    have hV0 : 0 ≤ V := le_trans (by positivity) hV1
    have h1 : D * V ≤ P * Q * V := mul_le_mul_of_nonneg_right hb hV0
    calc D * V * T ≤ P * Q * V * T := mul_le_mul_of_nonneg_right h1 hT.le
      _ = (V * P) * (Q * T) := by ring
      _ ≤ S * W := mul_le_mul hVP hW1 (by positivity) hS0
  have hST : S / T ≤ 255 := by rw [div_le_iff₀ hT]; exact hS
  have hST0 : 0 ≤ S / T := by positivity
  have hVW0 : 0 ≤ V / W := div_nonneg (le_trans (by positivity) hV1) hWpos.le
  set x := V / W with hx
  set m := S / T with hm
  have hE : 510 * n / (2 ^ 24 - 2 * n) = 255 * (1 - D) / D := by
    have h1 : (2 : ℝ) ^ 24 - 2 * n ≠ 0 := by norm_num; linarith
    rw [div_eq_div_iff h1 (ne_of_gt (by linarith)), hD]
    ring
  have hx2' : x ≤ m + 255 * (1 - D) / D := by
    have : x ≤ m / D := by rw [le_div_iff₀ (by linarith)]; linarith
    have h2 : m / D = m + m * (1 - D) / D := by field_simp; ring
    have h3 : m * (1 - D) / D ≤ 255 * (1 - D) / D :=
      div_le_div_of_nonneg_right (mul_le_mul_of_nonneg_right hST (by linarith)) (by linarith)
    linarith
  have hx1' : m - 255 * (1 - D) / D ≤ x := by
    have h3 : m * (1 - D) ≤ 255 * (1 - D) := mul_le_mul_of_nonneg_right hST (by linarith)
    have h4 : 255 * (1 - D) ≤ 255 * (1 - D) / D := by
      rw [le_div_iff₀ (by linarith)]
      have : 0 ≤ 255 * (1 - D) := by linarith
      nlinarith
    nlinarith
  have hEs : 255 * (1 - D) / D < 0.9998 := by
    rw [div_lt_iff₀ (by linarith)]
    have : 1 - 2 * 32761 / 16777216 ≤ D := by rw [hD]; norm_num; linarith
    norm_num at this ⊢
    linarith
  have e := rnd_error_lt (K := ℝ) (p := 24) (emin := -149) (x := x) (k := 8) (by norm_num)
    (by rw [abs_of_nonneg hVW0]; norm_num at *; linarith)
  have e' : |rnd32 x - x| ≤ 1 / 2 ^ 17 := by
    refine le_trans e (le_of_eq ?_)
    norm_num
  obtain ⟨e1, e2⟩ := abs_le.1 e'
  rw [hE]
  refine ⟨?_, ?_⟩
  · rw [abs_le]; constructor <;> linarith
  · norm_num at e2 hEs hx2' ⊢
    linarith

/-! ### C124 -/

/-- The assumptions on the exponential: it is a non-negative `f32` and `exp(0) = 1`. -/
structure PlainExp (expf : ℝ → ℝ) : Prop where
  rep : ∀ a, Rep 24 (-149) (expf a)
  nonneg : ∀ a, 0 ≤ expf a
  zero : expf 0 = 1

/-- The assumptions on the colour distance: a non-negative `f32`, positive for equal colours. -/
structure PlainColor {ι : Type _} (color : (ι → Nat) → (ι → Nat) → F32 ℝ) : Prop where
  rep : ∀ p q, Rep 24 (-149) (color p q).val
  nonneg : ∀ p q, 0 ≤ (color p q).val
  self : ∀ p, 0 < (color p p).val

theorem rnd32_one : rnd32 (1 : ℝ) = 1 := rnd_of_rep (by norm_num) ⟨1, 0, by norm_num, by norm_num, by norm_num⟩

theorem plainExp_rnd : PlainExp fun a => rnd32 (exp a) :=
  ⟨fun _ => rep_rnd _, fun a => rnd_nonneg (Real.exp_pos a).le, by
    show rnd32 (exp 0) = 1
    rw [Real.exp_zero, rnd32_one]⟩

theorem gaussian_zero {expf : ℝ → ℝ} (he : PlainExp expf) (s : ℝ) : (gaussianWeight32 expf 0 s).val = 1 := by
  unfold gaussianWeight32
  have z : rnd32 (0 : ℝ) = 0 := rnd_zero
  rw [mul_zero, z, zero_div, z]
  exact he.zero

/-- The Gaussian colour distance of the library qualifies. -/
theorem plainColor_gaussian {expf : ℝ → ℝ} (he : PlainExp expf) (sigma : ℝ) (n : Nat) :
    PlainColor (color32 (n := n) expf sigma) := by
  refine ⟨fun _ _ => he.rep _, fun _ _ => he.nonneg _, fun p => ?_⟩
  unfold color32
  have z : rnd32 (0 : ℝ) = 0 := rnd_zero
  have : (List.finRange n).foldl (fun acc c =>
      let d := rnd32 ((p c : ℝ) - p c)
      rnd32 (acc + rnd32 (d * d))) 0 = 0 := by
    generalize List.finRange n = l
    induction l with
    | nil => rfl
    | cons c l ih =>
      rw [List.foldl_cons]
      dsimp only at ih ⊢
      rw [sub_self, z, mul_zero, z, add_zero, z]
      exact ih
  rw [this, gaussian_zero he]
  exact one_pos

theorem flatMap_length (N M : Nat) {β : Type _} (f : Nat → Nat → β) :
    ((List.range M).flatMap fun j => (List.range N).map fun i => f i j).length = M * N := by
  rw [List.length_flatMap]
  induction M with
  | zero => simp
  | succ M ih => rw [List.range_succ, List.map_append, List.sum_append, ih]; simp [Nat.succ_mul]

/-- The value at one pixel. -/
theorem bilateral_pixel {ι : Type _} {expf : ℝ → ℝ} (he : PlainExp expf)
    {color : (ι → Nat) → (ι → Nat) → F32 ℝ} (hc : PlainColor color) (im : Image (ι → Nat)) (r : Nat)
    (hr : r ≤ 90) (sigma : ℝ) (h8 : ∀ x y c, x < im.w → y < im.h → im.px x y c ≤ 255)
    (x y : Nat) (hx : x < im.w) (hy : y < im.h) :
    let w := fun i j => (wt (spatial32 expf sigma) color im r x y i j).val
    let mean := fun c => (∑ j ∈ range (2 * r + 1), ∑ i ∈ range (2 * r + 1), w i j * ((win im r x y i j c : Nat) : ℝ)) /
      ∑ j ∈ range (2 * r + 1), ∑ i ∈ range (2 * r + 1), w i j
    ∃ a, (((weightsAndValues (spatial32 expf sigma) color im r x y).bind fun l =>
        weightedAverage (fun v : Nat => (⟨(v : ℝ)⟩ : F32 ℝ)) (fun a => clampU8 a.val) l)) = some a ∧
      (0 < ∑ j ∈ range (2 * r + 1), ∑ i ∈ range (2 * r + 1), w i j) ∧
      ∀ c, ∃ v : ℝ, a c = ⌊v⌋₊ ∧ 0 ≤ v ∧
        |v - mean c| ≤ 510 * ((2 * r + 1) * (2 * r + 1) : Nat) /
          (2 ^ 24 - 2 * ((2 * r + 1) * (2 * r + 1) : Nat)) + 1 / 2 ^ 17 := by
  intro w mean
  rw [weightsAndValues_spec _ _ im r x y hx hy hr, Option.bind_some]
  set L := (List.range (2 * r + 1)).flatMap fun j => (List.range (2 * r + 1)).map fun i =>
    (wt (spatial32 expf sigma) color im r x y i j, win im r x y i j) with hL
  have hlen : L.length = (2 * r + 1) * (2 * r + 1) := flatMap_length _ _ _
  have hmem : ∀ p ∈ L, 0 ≤ p.1.val ∧ Rep 24 (-149) p.1.val := by
    intro p hp
    rw [hL] at hp
    simp only [List.mem_flatMap, List.mem_map, List.mem_range] at hp
    obtain ⟨j, -, i, -, rfl⟩ := hp
    exact ⟨rnd_nonneg (mul_nonneg (he.nonneg _) (hc.nonneg _ _)), rep_rnd _⟩
  have hval : ∀ c, ∀ p ∈ L, p.2 c ≤ 255 := by
    intro c p hp
    rw [hL] at hp
    simp only [List.mem_flatMap, List.mem_map, List.mem_range] at hp
    obtain ⟨j, -, i, -, rfl⟩ := hp
    exact h8 _ _ _ (clampTo_lt (by omega) _) (clampTo_lt (by omega) _)
  have hT : (L.map fun p => p.1.val).sum = ∑ j ∈ range (2 * r + 1), ∑ i ∈ range (2 * r + 1), w i j := by
    rw [hL]
    simp only [List.map_flatMap, List.map_map, Function.comp_def]
    exact sum_flatMap_range _ _ _
  have hS : ∀ c, (L.map fun p => p.1.val * (p.2 c : ℝ)).sum =
      ∑ j ∈ range (2 * r + 1), ∑ i ∈ range (2 * r + 1), w i j * ((win im r x y i j c : Nat) : ℝ) := by
    intro c
    rw [hL]
    simp only [List.map_flatMap, List.map_map, Function.comp_def]
    exact sum_flatMap_range _ _ _
  have hcenter : (wt (spatial32 expf sigma) color im r x y r r).val = (color (im.px x y) (im.px x y)).val := by
    have e1 : (spatial32 expf sigma 0 0).val = 1 := by
      unfold spatial32
      have z : rnd32 (0 : ℝ) = 0 := rnd_zero
      rw [Int.cast_zero, mul_zero, z, add_zero, z]
      exact gaussian_zero he _
    have e2 : win im r x y r r = im.px x y := by
      unfold win
      rw [show (x : Int) + r - r = x by ring, show (y : Int) + r - r = y by ring, clampTo_of_mem hx,
        clampTo_of_mem hy]
    unfold wt
    rw [e2, sub_self]
    show rnd 24 (-149) (_ * _) = _
    rw [e1, one_mul]
    exact rnd_of_rep (by norm_num) (hc.rep _ _)
  have hTpos : 0 < ∑ j ∈ range (2 * r + 1), ∑ i ∈ range (2 * r + 1), w i j := by
    have hw0 : ∀ i j, 0 ≤ w i j := fun i j =>
      rnd_nonneg (mul_nonneg (he.nonneg _) (hc.nonneg _ _))
    refine sum_pos' (fun j _ => sum_nonneg fun i _ => hw0 i j) ⟨r, mem_range.2 (by omega), ?_⟩
    refine sum_pos' (fun i _ => hw0 i r) ⟨r, mem_range.2 (by omega), ?_⟩
    show 0 < (wt (spatial32 expf sigma) color im r x y r r).val
    rw [hcenter]
    exact hc.self _
  cases hLc : L with
  | nil => rw [hLc] at hlen; simp at hlen
  | cons a l =>
    rw [hLc] at hmem hT hlen
    simp only [hLc] at hval hS
    unfold weightedAverage reduce
    rw [List.map_cons]
    dsimp only
    rw [foldl_pair, Option.map_some]
    refine ⟨_, rfl, hTpos, fun c => ?_⟩
    dsimp only
    simp only [List.map_map, Function.comp_def]
    obtain ⟨W1, W2⟩ := sum_bounds a.1 (l.map fun p => p.1) (hmem a (by simp)) (by
      intro b hb
      obtain ⟨p, hp, rfl⟩ := List.mem_map.1 hb
      exact hmem p (by simp [hp]))
    obtain ⟨V1, V2⟩ := sum_bounds (a.1 * (⟨(a.2 c : ℝ)⟩ : F32 ℝ))
      (l.map fun p => p.1 * (⟨(p.2 c : ℝ)⟩ : F32 ℝ)) (prod_bounds _ (hmem a (by simp)) _).1 (by
      intro b hb
      obtain ⟨p, hp, rfl⟩ := List.mem_map.1 hb
      exact (prod_bounds _ (hmem p (by simp [hp])) _).1)
    rw [← List.map_cons (f := fun p : F32 ℝ × (ι → Nat) => p.1), List.map_map] at W1 W2
    rw [← List.map_cons (f := fun p : F32 ℝ × (ι → Nat) => p.1 * (⟨(p.2 c : ℝ)⟩ : F32 ℝ)),
      List.map_map] at V1 V2
    simp only [Function.comp_def, List.length_map] at W1 W2 V1 V2
    have U1 := sum_scale (a :: l) (fun p => (p.1 * (⟨(p.2 c : ℝ)⟩ : F32 ℝ)).val)
      (fun p => p.1.val * (p.2 c : ℝ)) (1 + u32) fun p hp => (prod_bounds _ (hmem p hp) _).2.2
    have U2 := sum_scale' (a :: l) (fun p => p.1.val * (p.2 c : ℝ))
      (fun p => (p.1 * (⟨(p.2 c : ℝ)⟩ : F32 ℝ)).val) (1 - u32) fun p hp =>
        (prod_bounds _ (hmem p hp) _).2.1
    have hle : ((a :: l).map fun p => p.1.val * (p.2 c : ℝ)).sum ≤
        255 * ((a :: l).map fun p => p.1.val).sum := by
      refine sum_scale _ _ _ _ fun p hp => ?_
      rw [mul_comm]
      refine mul_le_mul_of_nonneg_right ?_ (hmem p hp).1
      exact_mod_cast hval c p hp
    have h0 : 0 ≤ ((a :: l).map fun p => p.1.val * (p.2 c : ℝ)).sum := by
      refine List.sum_nonneg fun z hz => ?_
      obtain ⟨p, hp, rfl⟩ := List.mem_map.1 hz
      exact mul_nonneg (hmem p hp).1 (by positivity)
    rw [hT] at W1 W2 hle
    rw [hS c] at U1 U2 hle h0
    have hu := u32_pos (K := ℝ)
    have hu1 := u32_lt_one (K := ℝ)
    have hn : l.length + 1 = (2 * r + 1) * (2 * r + 1) := hlen
    have hn' : (2 * r + 1) * (2 * r + 1) ≤ 181 * 181 := Nat.mul_le_mul (by omega) (by omega)
    obtain ⟨q1, q2⟩ := quotient_bounds (n := l.length + 1)
      (V := (List.foldl (· + ·) (a.1 * (⟨(a.2 c : ℝ)⟩ : F32 ℝ))
        (l.map fun p => p.1 * (⟨(p.2 c : ℝ)⟩ : F32 ℝ))).val)
      (W := (List.foldl (· + ·) a.1 (l.map fun p => p.1)).val) (by omega) (by omega) hTpos h0 hle
      (by
        rw [pow_succ, mul_assoc]
        exact le_trans (mul_le_mul_of_nonneg_left U2 (pow_nonneg (by linarith) _)) V1)
      (by
        rw [pow_succ, mul_assoc]
        exact le_trans V2 (mul_le_mul_of_nonneg_left U1 (pow_nonneg (by linarith) _)))
      (by rw [Nat.add_sub_cancel]; exact W1) (by rw [Nat.add_sub_cancel]; exact W2)
    rw [hn] at q1
    refine ⟨_, clampU8_eq q2, rnd_nonneg (div_nonneg ?_ ?_), q1⟩
    · refine le_trans (mul_nonneg (pow_nonneg (by linarith) _) ?_) V1
      exact le_trans (mul_nonneg (by linarith) h0) U2
    · exact le_trans (mul_nonneg (pow_nonneg (by linarith) _) hTpos.le) W1

theorem error_lt_one {r : Nat} (hr : r ≤ 90) : 510 * ((2 * r + 1) * (2 * r + 1) : Nat) /
    (2 ^ 24 - 2 * (((2 * r + 1) * (2 * r + 1) : Nat) : ℝ)) + 1 / 2 ^ 17 < 1 := by
  have hn : (2 * r + 1) * (2 * r + 1) ≤ 181 * 181 := Nat.mul_le_mul (by omega) (by omega)
  have hn' : (((2 * r + 1) * (2 * r + 1) : Nat) : ℝ) ≤ 32761 := by exact_mod_cast hn
  generalize (((2 * r + 1) * (2 * r + 1) : Nat) : ℝ) = t at hn'
  have : 510 * t / (2 ^ 24 - 2 * t) < 0.9998 := by
    rw [div_lt_iff₀ (by norm_num; linarith)]
    norm_num
    linarith
  norm_num at this ⊢
  linarith

/-- The hypotheses on the image: an accepted size and 8-bit samples. -/
structure Ok8 {ι : Type _} (im : Image (ι → Nat)) : Prop where
  w0 : 0 < im.w
  w : im.w < 2147483648
  h0 : 0 < im.h
  h : im.h < 2147483648
  px : ∀ x y c, x < im.w → y < im.h → im.px x y c ≤ 255

/-- C124, accuracy: for every radius that does not panic, the output is the whole part of a number
close to the exact weighted mean of the window with the single-precision weights; it differs from the
whole part of that mean by at most one. -/
theorem C124_accuracy {ι : Type _} {expf : ℝ → ℝ} (he : PlainExp expf)
    {color : (ι → Nat) → (ι → Nat) → F32 ℝ} (hc : PlainColor color) (im : Image (ι → Nat)) (h : Ok8 im)
    (r : Nat) (hr : r ≤ 90) (sigma : ℝ) :
    ∃ out, bilateral32 expf color im r sigma = some out ∧ out.w = im.w ∧ out.h = im.h ∧
      ∀ x y c, x < im.w → y < im.h →
        let w := fun i j => (wt (spatial32 expf sigma) color im r x y i j).val
        let mean := (∑ j ∈ range (2 * r + 1), ∑ i ∈ range (2 * r + 1), w i j * ((win im r x y i j c : Nat) : ℝ)) /
          ∑ j ∈ range (2 * r + 1), ∑ i ∈ range (2 * r + 1), w i j
        (0 < ∑ j ∈ range (2 * r + 1), ∑ i ∈ range (2 * r + 1), w i j) ∧
        (∃ v : ℝ, out.px x y c = ⌊v⌋₊ ∧ 0 ≤ v ∧
          |v - mean| ≤ 510 * ((2 * r + 1) * (2 * r + 1) : Nat) /
            (2 ^ 24 - 2 * ((2 * r + 1) * (2 * r + 1) : Nat)) + 1 / 2 ^ 17) ∧
        out.px x y c ≤ ⌊mean⌋₊ + 1 ∧ ⌊mean⌋₊ ≤ out.px x y c + 1 := by
  obtain ⟨out, e, h1, h2, h3⟩ := Image.fromFn_of_some (w := im.w) (h := im.h)
    (f := fun x y => (weightsAndValues (spatial32 expf sigma) color im r x y).bind fun l =>
      weightedAverage (fun v : Nat => (⟨(v : ℝ)⟩ : F32 ℝ)) (fun a => clampU8 a.val) l)
    (g := fun x y => (((weightsAndValues (spatial32 expf sigma) color im r x y).bind fun l =>
      weightedAverage (fun v : Nat => (⟨(v : ℝ)⟩ : F32 ℝ)) (fun a => clampU8 a.val) l)).getD fun _ => 0)
    (by
      intro x y hx hy
      obtain ⟨a, ha, -⟩ := bilateral_pixel he hc im r hr sigma h.px x y hx hy
      rw [ha]; rfl)
  refine ⟨out, ?_, h1, h2, ?_⟩
  · unfold bilateral32 bilateralFilter
    have := h.w0; have := h.w; have := h.h0; have := h.h
    rw [if_pos (by omega)]
    exact e
  · intro x y c hx hy w mean
    obtain ⟨a, ha, hpos, hv⟩ := bilateral_pixel he hc im r hr sigma h.px x y hx hy
    obtain ⟨v, hv1, hv0, hv2⟩ := hv c
    have hpx : out.px x y c = ⌊v⌋₊ := by
      rw [h3 x y hx hy, ha, Option.getD_some, hv1]
    have hE := error_lt_one hr
    obtain ⟨d1, d2⟩ := abs_le.1 hv2
    have hm0 : 0 ≤ mean := by
      refine div_nonneg (sum_nonneg fun j _ => sum_nonneg fun i _ => mul_nonneg ?_ (by positivity)) hpos.le
      exact rnd_nonneg (mul_nonneg (he.nonneg _) (hc.nonneg _ _))
    refine ⟨hpos, ⟨v, hpx, hv0, hv2⟩, ?_, ?_⟩
    · rw [hpx, ← Nat.floor_add_one hm0]
      exact Nat.floor_mono (by linarith)
    · rw [hpx, ← Nat.floor_add_one hv0]
      exact Nat.floor_mono (by linarith)

/-- C124, range (partial: the lower end is missed by one level at most): every output sample is
between the least sample of the clamped window, less one, and the greatest. -/
theorem C124_range_partial {ι : Type _} {expf : ℝ → ℝ} (he : PlainExp expf)
    {color : (ι → Nat) → (ι → Nat) → F32 ℝ} (hc : PlainColor color) (im : Image (ι → Nat)) (h : Ok8 im)
    (r : Nat) (hr : r ≤ 90) (sigma : ℝ) :
    ∃ out, bilateral32 expf color im r sigma = some out ∧ out.w = im.w ∧ out.h = im.h ∧
      ∀ x y c, x < im.w → y < im.h → ∀ lo hi, (∀ i j, i < 2 * r + 1 → j < 2 * r + 1 →
        lo ≤ win im r x y i j c ∧ win im r x y i j c ≤ hi) →
        lo ≤ out.px x y c + 1 ∧ out.px x y c ≤ hi := by
  obtain ⟨out, e, h1, h2, h3⟩ := C124_accuracy he hc im h r hr sigma
  refine ⟨out, e, h1, h2, fun x y c hx hy lo hi hb => ?_⟩
  obtain ⟨hpos, ⟨v, hv1, hv0, hv2⟩, -, hm⟩ := h3 x y c hx hy
  have hw0 : ∀ i j, 0 ≤ (wt (spatial32 expf sigma) color im r x y i j).val := fun i j =>
    rnd_nonneg (mul_nonneg (he.nonneg _) (hc.nonneg _ _))
  have hE := error_lt_one hr
  obtain ⟨d1, d2⟩ := abs_le.1 hv2
  constructor
  · refine le_trans (Nat.le_floor ?_) hm
    rw [le_div_iff₀ hpos, mul_sum]
    refine sum_le_sum fun j hj => ?_
    rw [mul_sum]
    refine sum_le_sum fun i hi => ?_
    rw [mul_comm]
    refine mul_le_mul_of_nonneg_left ?_ (hw0 i j)
    exact_mod_cast (hb i j (mem_range.1 hi) (mem_range.1 hj)).1
  · rw [hv1, ← Nat.lt_add_one_iff, Nat.floor_lt hv0]
    have : (∑ j ∈ range (2 * r + 1), ∑ i ∈ range (2 * r + 1),
        (wt (spatial32 expf sigma) color im r x y i j).val * ((win im r x y i j c : Nat) : ℝ)) /
      ∑ j ∈ range (2 * r + 1), ∑ i ∈ range (2 * r + 1),
        (wt (spatial32 expf sigma) color im r x y i j).val ≤ hi := by
      rw [div_le_iff₀ hpos, mul_sum]
      refine sum_le_sum fun j hj => ?_
      rw [mul_sum]
      refine sum_le_sum fun i hi' => ?_
      rw [mul_comm (hi : ℝ)]
      refine mul_le_mul_of_nonneg_left ?_ (hw0 i j)
      exact_mod_cast (hb i j (mem_range.1 hi') (mem_range.1 hj)).2
    push_cast
    linarith

/-! ### A constant image that becomes darker -/

theorem exp_neg_four : rnd32 (exp (-4)) = ((4916567 / 268435456 : ℚ) : ℝ) := by
  have a := Real.exp_one_gt_d9
  have b := Real.exp_one_lt_d9
  have e : exp (-4) = 1 / (exp 1 * exp 1 * (exp 1 * exp 1)) := by
    rw [← Real.exp_add, ← Real.exp_add, Real.exp_neg, one_div]
    norm_num
  have p := Real.exp_pos 1
  have pp := mul_pos p p
  have u1 : exp 1 * exp 1 < 2.7182818286 * 2.7182818286 := mul_lt_mul b b.le p (by norm_num)
  have u2 : 2.7182818283 * 2.7182818283 < exp 1 * exp 1 := mul_lt_mul a a.le (by norm_num) p.le
  have lo : (9833133.5 / 536870912 : ℝ) < exp (-4) := by
    rw [e, lt_div_iff₀ (mul_pos pp pp)]
    have := mul_lt_mul u1 u1.le pp (by norm_num)
    norm_num at *
    linarith
  have hi : exp (-4) < (9833134.5 / 536870912 : ℝ) := by
    rw [e, div_lt_iff₀ (mul_pos pp pp)]
    have := mul_lt_mul u2 u2.le (by norm_num) pp.le
    norm_num at *
    linarith
  have := rnd_eval (p := 24) (emin := -149) (x := exp (-4)) (-6) 9833134
    (by rw [abs_of_pos (Real.exp_pos _)]; norm_num at *; linarith)
    (by rw [abs_of_pos (Real.exp_pos _)]; norm_num at *; linarith)
    (roundEven_near (by
      norm_num
      rw [abs_lt]
      norm_num at *
      constructor <;> linarith))
  refine this.trans ?_
  norm_num

/-- The nine weights for `sigma = 1/2`. -/
def halfWeights (i j : Nat) : F32 ℚ :=
  if i = 1 ∧ j = 1 then ⟨1⟩ else if i = 1 ∨ j = 1 then ⟨9082197 / 67108864⟩ else ⟨4916567 / 268435456⟩

theorem half_spatial (i j : Nat) (hi : i < 3) (hj : j < 3) :
    spatial32 (fun a => rnd32 (exp a)) (1 / 2) ((i : Int) - (1 : Nat)) ((j : Int) - (1 : Nat)) =
      (halfWeights i j).toReal := by
  have c : ∀ q : ℚ, rnd32 (q : ℝ) = ((rnd32 q : ℚ) : ℝ) := fun q => rnd_cast q
  have den : rnd32 ((1 / 2 : ℝ) * (1 / 2)) = ((1 / 4 : ℚ) : ℝ) := by
    rw [show (1 / 2 : ℝ) * (1 / 2) = ((1 / 4 : ℚ) : ℝ) by norm_num, c]
    congr 1
    decide +kernel
  have arg : ∀ k : Int, |k| ≤ 2 → rnd32 (rnd32 (-(1 / 2) * (k : ℝ)) / ((1 / 4 : ℚ) : ℝ)) = -2 * k := by
    intro k hk
    have h1 : rnd32 (-(1 / 2) * (k : ℝ)) = -(1 / 2) * (k : ℝ) := by
      refine rnd_of_rep (by norm_num) ⟨-k, -1, ?_, by norm_num, ?_⟩
      · rw [abs_neg]; exact le_trans hk (by norm_num)
      · push_cast; norm_num; ring
    rw [h1]
    refine (rnd_of_rep (by norm_num) ⟨-2 * k, 0, ?_, by norm_num, ?_⟩ : rnd32 _ = _).trans ?_
    · rw [abs_mul]; norm_num; omega
    · push_cast; norm_num; ring
    · push_cast; norm_num; ring
  have sq : ∀ k l : Int, |k| ≤ 1 → |l| ≤ 1 →
      rnd32 (rnd32 ((k : ℝ) * k) + rnd32 ((l : ℝ) * l)) = ((k * k + l * l : Int) : ℝ) := by
    intro k l hk hl
    have hk' : |k * k| ≤ 1 := by rw [abs_mul]; nlinarith [abs_nonneg k]
    have hl' : |l * l| ≤ 1 := by rw [abs_mul]; nlinarith [abs_nonneg l]
    have r32 : ∀ n : Int, |n| ≤ 2 → rnd32 (n : ℝ) = n := fun n hn =>
      rnd_int (by norm_num) (by norm_num) (le_trans hn (by norm_num))
    rw [← Int.cast_mul, ← Int.cast_mul, r32 _ (by omega), r32 _ (by omega), ← Int.cast_add]
    refine r32 _ (le_trans (abs_add_le _ _) (by omega))
  unfold spatial32 gaussianWeight32
  rw [den, sq _ _ (by rw [abs_le]; omega) (by rw [abs_le]; omega)]
  have o : rnd32 (1 : ℝ) = ((1 : ℚ) : ℝ) := by rw [rnd32_one]; norm_num
  show F32.mk (rnd32 (exp _)) = F32.mk _
  congr 1
  obtain rfl | rfl | rfl : i = 0 ∨ i = 1 ∨ i = 2 := by omega
  all_goals obtain rfl | rfl | rfl : j = 0 ∨ j = 1 ∨ j = 2 := by omega
  all_goals rw [arg _ (by norm_num)]
  all_goals norm_num [halfWeights, exp_neg_two, exp_neg_four, o]

/-- **C124, negation.** With radius 1 and `spatial_sigma = 0.5` every image of constant value 3, of any
size, any number of channels and with any colour sigma, becomes an image of constant value 2.  (With
the correctly rounded exponential; only `exp(0)`, `exp(-2)` and `exp(-4)` are used.) -/
theorem C124_negation (w h n : Nat) (hw0 : 0 < w) (hw : w < 2147483648) (hh0 : 0 < h) (hh : h < 2147483648)
    (colorSigma : ℝ) :
    ∃ out, bilateral32 (fun a => rnd32 (exp a)) (color32 (n := n) (fun a => rnd32 (exp a)) colorSigma)
      ⟨w, h, fun _ _ _ => 3⟩ 1 (1 / 2) = some out ∧
      out.w = w ∧ out.h = h ∧ ∀ x y c, x < w → y < h → out.px x y c = 2 := by
  have hcol : color32 (n := n) (fun a => rnd32 (exp a)) colorSigma (fun _ => 3) (fun _ => 3) = ⟨1⟩ := by
    have z : rnd32 (0 : ℝ) = 0 := rnd_zero
    unfold color32
    have : (List.finRange n).foldl (fun acc (_ : Fin n) =>
        let d := rnd32 (((3 : Nat) : ℝ) - (3 : Nat))
        rnd32 (acc + rnd32 (d * d))) 0 = 0 := by
      generalize List.finRange n = l
      induction l with
      | nil => rfl
      | cons c l ih =>
        rw [List.foldl_cons]
        dsimp only at ih ⊢
        rw [sub_self, z, mul_zero, z, add_zero, z]
        rw [sub_self, z, mul_zero, z] at ih
        exact ih
    rw [this]
    exact congrArg F32.mk (gaussian_zero plainExp_rnd _)
  have hwt : ∀ x y i j, i < 3 → j < 3 → wt (spatial32 (fun a => rnd32 (exp a)) (1 / 2))
      (color32 (n := n) (fun a => rnd32 (exp a)) colorSigma) ⟨w, h, fun _ _ _ => 3⟩ 1 x y i j =
      (halfWeights i j * ⟨1⟩).toReal := by
    intro x y i j hi hj
    unfold wt win
    dsimp only
    rw [hcol, half_spatial i j hi hj, F32.toReal_mul]
    congr 1
    show F32.mk _ = F32.mk _
    norm_num
  have key : ∀ x y, x < w → y < h →
      ((weightsAndValues (spatial32 (fun a => rnd32 (exp a)) (1 / 2))
      (color32 (n := n) (fun a => rnd32 (exp a)) colorSigma) ⟨w, h, fun _ _ _ => 3⟩ 1 x y).bind fun l =>
        weightedAverage (fun v : Nat => (⟨(v : ℝ)⟩ : F32 ℝ)) (fun a => clampU8 a.val) l) =
      some fun _ => 2 := by
    intro x y hx hy
    rw [weightsAndValues_spec _ _ _ 1 x y hx hy (by norm_num), Option.bind_some]
    have hlist : ((List.range (2 * 1 + 1)).flatMap fun j => (List.range (2 * 1 + 1)).map fun i =>
        (wt (spatial32 (fun a => rnd32 (exp a)) (1 / 2))
          (color32 (n := n) (fun a => rnd32 (exp a)) colorSigma) ⟨w, h, fun _ _ _ => 3⟩ 1 x y i j,
          win (⟨w, h, fun _ _ _ => 3⟩ : Image (Fin n → Nat)) 1 x y i j)) =
        (((List.range 3).flatMap fun j => (List.range 3).map fun i => halfWeights i j * ⟨1⟩).map
          fun q => (q.toReal, fun _ => 3)) := by
      rw [List.map_flatMap]
      refine List.flatMap_congr fun j hj => ?_
      rw [List.map_map]
      refine List.map_congr_left fun i hi => ?_
      rw [List.mem_range] at hi hj
      rw [hwt x y i j hi hj]
      rfl
    rw [hlist]
    generalize hQ : ((List.range 3).flatMap fun j => (List.range 3).map fun i =>
      halfWeights i j * ⟨1⟩) = Q
    cases Q with
    | nil => simp [List.range_succ] at hQ
    | cons a l =>
      unfold weightedAverage reduce
      rw [List.map_cons, List.map_cons]
      dsimp only
      rw [foldl_pair, Option.map_some]
      congr 1
      funext c
      dsimp only
      simp only [List.map_map, Function.comp_def]
      have three : (⟨((3 : Nat) : ℝ)⟩ : F32 ℝ) = (⟨3⟩ : F32 ℚ).toReal := by
        show F32.mk _ = F32.mk _
        norm_num
      rw [three]
      simp only [← F32.toReal_mul]
      rw [show (fun q : F32 ℚ => (q * (⟨3⟩ : F32 ℚ)).toReal) = F32.toReal ∘ fun q => q * ⟨3⟩ from rfl,
        ← List.map_map, foldl_toReal, show (fun q : F32 ℚ => q.toReal) = F32.toReal from rfl,
        foldl_toReal, ← F32.toReal_div]
      have hq : ((((List.range 3).flatMap fun j => (List.range 3).map fun i =>
          halfWeights i j * ⟨1⟩).tail.map fun q => q * ⟨3⟩).foldl (· + ·)
            ((((List.range 3).flatMap fun j => (List.range 3).map fun i =>
              halfWeights i j * ⟨1⟩).headD ⟨0⟩) * ⟨3⟩) /
          ((List.range 3).flatMap fun j => (List.range 3).map fun i =>
            halfWeights i j * ⟨1⟩).tail.foldl (· + ·)
            (((List.range 3).flatMap fun j => (List.range 3).map fun i =>
              halfWeights i j * ⟨1⟩).headD ⟨0⟩)).val = (6291455 / 2097152 : ℚ) := by
        decide +kernel
      rw [hQ, List.tail_cons, List.headD_cons] at hq
      show clampU8 ((_ : ℚ) : ℝ) = 2
      rw [hq, clampU8_eq (by norm_num), Nat.floor_eq_iff (by norm_num)]
      norm_num
  obtain ⟨out, e, h1, h2, h3⟩ := Image.fromFn_of_some (w := w) (h := h)
    (g := fun _ _ (_ : Fin n) => 2) key
  refine ⟨out, ?_, h1, h2, fun x y c hx hy => by rw [h3 x y hx hy]⟩
  unfold bilateral32 bilateralFilter
  rw [if_pos (by dsimp only; omega)]
  exact e

/-- A grey 8x4 step edge of heights 10 and 200, radius 2: away from the edge the output is 9 or 10. -/
example (sigma colorSigma : ℝ) : ∃ out, bilateral32 (fun a => rnd32 (exp a))
    (color32 (n := 1) (fun a => rnd32 (exp a)) colorSigma)
    ⟨8, 4, fun x _ _ => if x < 5 then 10 else 200⟩ 2 sigma = some out ∧
    10 ≤ out.px 1 2 0 + 1 ∧ out.px 1 2 0 ≤ 10 := by
  obtain ⟨out, e, -, -, h⟩ := C124_range_partial plainExp_rnd (plainColor_gaussian plainExp_rnd colorSigma 1)
    ⟨8, 4, fun x _ _ => if x < 5 then 10 else 200⟩
    ⟨by norm_num, by norm_num, by norm_num, by norm_num, fun x y c _ _ => by dsimp only; split <;> norm_num⟩
    2 (by norm_num) sigma
  refine ⟨out, e, h 1 2 0 (by norm_num) (by norm_num) 10 10 fun i j hi hj => ?_⟩
  unfold win
  have : clampTo 8 ((1 : Nat) + (i : Int) - (2 : Nat)) < 5 := by
    interval_cases i <;> decide +kernel
  dsimp only at this ⊢
  rw [if_pos this]
  exact ⟨le_rfl, le_rfl⟩

end Verif.Float
