import Verif.Geometry.Arc
import Verif.Float.Simplify
/-
`arc_length` (src/geometry.rs:10-21) with `distance` (src/point.rs:69-79) in `f64` (C146).  Over the reals; `sqrt`
is correctly rounded, `powf(2.0)` is taken to be the correctly rounded square.
-/
namespace Verif.Float
open Verif.Geometry

/-- `distance` in `f64`, point.rs:69-79. -/
noncomputable def distance64 (p q : ℝ × ℝ) : ℝ :=
  let dx := rnd64 (p.1 - q.1)
  let dy := rnd64 (p.2 - q.2)
  rnd64 (Real.sqrt (rnd64 (rnd64 (dx * dx) + rnd64 (dy * dy))))

/-- `arc_length` in `f64`, geometry.rs:10-21; `sum` adds from the left. -/
noncomputable def arcLength64 (arc : List (ℝ × ℝ)) (closed : Bool) : ℝ :=
  let length := ((arc.zip arc.tail).map fun p => distance64 p.1 p.2).foldl (fun s v => rnd64 (s + v)) 0
  if h : arc.length > 2 ∧ closed = true then
    rnd64 (length + distance64 (arc[0]'(by omega)) (arc[arc.length - 1]'(by omega)))
  else length

/-- A point with integer coordinates that an `f64` holds with room for one difference. -/
def IntPoint (p : ℝ × ℝ) : Prop :=
  ∃ x y : Int, p = ((x : ℝ), (y : ℝ)) ∧ |x| ≤ 2 ^ 52 ∧ |y| ≤ 2 ^ 52

/-! ### One distance -/

/-- Relative error of one rounding, for numbers that are 0 or at least 1. -/
theorem rel64 {x : ℝ} (h : x = 0 ∨ 1 ≤ x) : |rnd64 x - x| ≤ x * (1 / 2 ^ 53) := by
  rcases h with h | h
  · subst h; rw [zero64]; norm_num
  · have := rnd_error_rel (p := 53) (emin := -1074) (x := x)
      (by rw [abs_of_pos (by linarith)]
          exact le_trans (zpow_le_one_of_nonpos₀ (by norm_num) (by norm_num)) h)
    rw [abs_of_pos (show (0 : ℝ) < x by linarith)] at this
    refine this.trans (le_of_eq ?_)
    norm_num

theorem rnd64_ge_one {x : ℝ} (h : 1 ≤ x) : 1 ≤ rnd64 x :=
  le_rnd (by norm_num) ⟨1, 0, by norm_num, by norm_num, by norm_num⟩ h

theorem rnd64_zero_or {x : ℝ} (h : x = 0 ∨ 1 ≤ x) : rnd64 x = 0 ∨ 1 ≤ rnd64 x := by
  rcases h with h | h
  · exact Or.inl (by rw [h, zero64])
  · exact Or.inr (rnd64_ge_one h)

theorem int_sq_zero_or (n : Int) : ((n : ℝ) * n = 0) ∨ 1 ≤ (n : ℝ) * n := by
  rcases eq_or_ne n 0 with h | h
  · left; rw [h]; simp
  · right
    have : 1 ≤ n * n := by
      have := mul_self_pos.2 h
      omega
    exact_mod_cast this

/-- The computed distance of two integer points: exact squares inside. -/
theorem distance64_int {p q : ℝ × ℝ} (hp : IntPoint p) (hq : IntPoint q) :
    ∃ a b : Int, distance64 p q = rnd64 (Real.sqrt (rnd64 (rnd64 ((a : ℝ) * a) + rnd64 ((b : ℝ) * b)))) ∧
      distance p q = Real.sqrt ((a : ℝ) * a + b * b) ∧ (a : ℝ) = p.1 - q.1 ∧ (b : ℝ) = p.2 - q.2 := by
  obtain ⟨px, py, rfl, hpx, hpy⟩ := hp
  obtain ⟨qx, qy, rfl, hqx, hqy⟩ := hq
  refine ⟨px - qx, py - qy, ?_, ?_, by push_cast; ring, by push_cast; ring⟩
  · unfold distance64
    dsimp only
    rw [← Int.cast_sub, ← Int.cast_sub, r64 ((abs_sub _ _).trans (by omega)),
      r64 ((abs_sub _ _).trans (by omega))]
  · unfold distance
    congr 1
    push_cast
    ring

theorem distance64_rel {p q : ℝ × ℝ} (hp : IntPoint p) (hq : IntPoint q) :
    |distance64 p q - distance p q| ≤ distance p q * (2 / 2 ^ 52) ∧
      (distance64 p q = 0 ∨ 1 ≤ distance64 p q) := by
  obtain ⟨a, b, e1, e2, -, -⟩ := distance64_int hp hq
  rw [e1, e2]
  have ha := int_sq_zero_or a
  have hb := int_sq_zero_or b
  have ha0 : (0 : ℝ) ≤ (a : ℝ) * a := mul_self_nonneg _
  have hb0 : (0 : ℝ) ≤ (b : ℝ) * b := mul_self_nonneg _
  have ra := abs_le.1 (rel64 ha)
  have rb := abs_le.1 (rel64 hb)
  have za := rnd64_zero_or ha
  have zb := rnd64_zero_or hb
  have na : 0 ≤ rnd64 ((a : ℝ) * a) := rnd_nonneg ha0
  have nb : 0 ≤ rnd64 ((b : ℝ) * b) := rnd_nonneg hb0
  have hs : rnd64 ((a : ℝ) * a) + rnd64 ((b : ℝ) * b) = 0 ∨ 1 ≤ rnd64 ((a : ℝ) * a) + rnd64 ((b : ℝ) * b) := by
    rcases za with h | h
    · rcases zb with h' | h'
      · left; rw [h, h', add_zero]
      · right; linarith
    · right; linarith
  have rs := abs_le.1 (rel64 hs)
  have zs := rnd64_zero_or hs
  set D := (a : ℝ) * a + b * b with hD
  set S := rnd64 (rnd64 ((a : ℝ) * a) + rnd64 ((b : ℝ) * b)) with hS
  have hS0 : 0 ≤ S := rnd_nonneg (by linarith)
  have hsz : Real.sqrt S = 0 ∨ 1 ≤ Real.sqrt S := by
    rcases zs with h | h
    · left; rw [h, Real.sqrt_zero]
    · right; exact Real.one_le_sqrt.2 h
  refine ⟨?_, rnd64_zero_or hsz⟩
  have hD0 : 0 ≤ D := by rw [hD]; linarith
  have dS : |S - D| ≤ D * (1 / 2 ^ 52 + 1 / 2 ^ 100) := by
    rw [abs_le]
    constructor <;> linarith
  have r3 := rel64 hsz
  rcases eq_or_lt_of_le hD0 with h0 | h0
  · have hS' : S = 0 := by
      rw [← h0] at dS
      have := abs_le.1 dS
      linarith
    rw [hS', ← h0, Real.sqrt_zero, zero64]
    norm_num
  · have k : |Real.sqrt S - Real.sqrt D| ≤ Real.sqrt D * (1 / 2 ^ 52 + 1 / 2 ^ 100) := sqrt_rel h0 hS0 dS
    have hsD : 0 ≤ Real.sqrt D := Real.sqrt_nonneg _
    obtain ⟨k1, k2⟩ := abs_le.1 k
    obtain ⟨k3, k4⟩ := abs_le.1 r3
    rw [abs_le]
    constructor <;> linarith

/-! ### The sum -/

theorem fold_error : ∀ (l : List ((ℝ × ℝ) × (ℝ × ℝ))) (k : Nat) (s e : ℝ),
    (∀ v ∈ l, IntPoint v.1 ∧ IntPoint v.2) → k + l.length ≤ 2 ^ 50 → 0 ≤ e → (s = 0 ∨ 1 ≤ s) →
    |s - e| ≤ e * ((k + 2 : Nat) / 2 ^ 52) →
    |(l.map fun v => distance64 v.1 v.2).foldl (fun s v => rnd64 (s + v)) s -
        (e + (l.map fun v => distance v.1 v.2).sum)| ≤
      (e + (l.map fun v => distance v.1 v.2).sum) * ((k + l.length + 2 : Nat) / 2 ^ 52) ∧
    ((l.map fun v => distance64 v.1 v.2).foldl (fun s v => rnd64 (s + v)) s = 0 ∨
      1 ≤ (l.map fun v => distance64 v.1 v.2).foldl (fun s v => rnd64 (s + v)) s)
  | [], k, s, e, _, _, _, hz, h => by
    simp only [List.map_nil, List.foldl_nil, List.sum_nil, List.length_nil, add_zero]
    exact ⟨h, hz⟩
  | v :: l, k, s, e, hv, hk, he, hz, h => by
    obtain ⟨h1, h2⟩ := hv v (by simp)
    obtain ⟨d1, d2⟩ := distance64_rel h1 h2
    have hd := distance_nonneg v.1 v.2
    rw [List.length_cons] at hk
    have hkR : ((k : ℝ) + 2) / 2 ^ 52 ≤ 1 / 2 := by
      rw [div_le_iff₀ (by norm_num)]
      have : ((k + 1 : Nat) : ℝ) ≤ 2 ^ 50 := by exact_mod_cast (by omega : k + 1 ≤ 2 ^ 50)
      push_cast at this
      linarith
    have hk0 : (0 : ℝ) ≤ k := by positivity
    have hsd : s + distance64 v.1 v.2 = 0 ∨ 1 ≤ s + distance64 v.1 v.2 := by
      rcases hz with h | h
      · rcases d2 with h' | h'
        · left; rw [h, h', add_zero]
        · right; linarith
      · rcases d2 with h' | h' <;> right <;> linarith
    have r := rel64 hsd
    have z := rnd64_zero_or hsd
    have step : |rnd64 (s + distance64 v.1 v.2) - (e + distance v.1 v.2)| ≤
        (e + distance v.1 v.2) * ((k + 1 + 2 : Nat) / 2 ^ 52) := by
      push_cast at h ⊢
      obtain ⟨a1, a2⟩ := abs_le.1 h
      obtain ⟨b1, b2⟩ := abs_le.1 d1
      obtain ⟨c1, c2⟩ := abs_le.1 r
      set t := ((k : ℝ) + 2) / 2 ^ 52 with ht
      have ht2 : (2 : ℝ) / 2 ^ 52 ≤ t := by
        rw [ht]; gcongr; linarith
      have e1 : ((k : ℝ) + 1 + 2) / 2 ^ 52 = t + 1 / 2 ^ 52 := by rw [ht]; ring
      rw [e1]
      have hb : distance v.1 v.2 * (2 / 2 ^ 52) ≤ distance v.1 v.2 * t := mul_le_mul_of_nonneg_left ht2 hd
      have he' : e * t ≤ e * (1 / 2) := mul_le_mul_of_nonneg_left hkR he
      have hd' : distance v.1 v.2 * t ≤ distance v.1 v.2 * (1 / 2) := mul_le_mul_of_nonneg_left hkR hd
      rw [abs_le]
      constructor <;> linarith
    have ih := fold_error l (k + 1) (rnd64 (s + distance64 v.1 v.2)) (e + distance v.1 v.2)
      (fun w hw => hv w (by simp [hw])) (by omega) (by linarith) z step
    rw [List.map_cons, List.foldl_cons, List.map_cons, List.sum_cons, List.length_cons, ← add_assoc]
    rw [show k + (l.length + 1) + 2 = k + 1 + l.length + 2 by omega]
    exact ih

theorem zip_mem {l : List (ℝ × ℝ)} (h : ∀ p ∈ l, IntPoint p) : ∀ v ∈ l.zip l.tail, IntPoint v.1 ∧ IntPoint v.2 := by
  intro v hv
  obtain ⟨h1, h2⟩ := List.of_mem_zip (a := v.1) (b := v.2) hv
  exact ⟨h _ h1, h _ (List.mem_of_mem_tail h2)⟩

/-- **C146.** The length of an arc of at most `2^50` integer points is computed with a relative error of at most
`(n + 4) / 2^52` for `n` points; open and closed arcs alike. -/
theorem C146_accuracy (l : List (ℝ × ℝ)) (closed : Bool) (h : ∀ p ∈ l, IntPoint p) (hn : l.length ≤ 2 ^ 50) :
    |arcLength64 l closed - arcLength l closed| ≤ arcLength l closed * ((l.length + 4 : Nat) / 2 ^ 52) := by
  have hlen : (l.zip l.tail).length ≤ l.length := by
    rw [List.length_zip]; exact min_le_left _ _
  obtain ⟨f1, f2⟩ := fold_error (l.zip l.tail) 0 0 0 (zip_mem h) (by omega) le_rfl (Or.inl rfl) (by simp)
  have hsum0 : 0 ≤ ((l.zip l.tail).map fun p => distance p.1 p.2).sum :=
    List.sum_nonneg (by
      intro x hx
      obtain ⟨v, -, rfl⟩ := List.mem_map.1 hx
      exact distance_nonneg _ _)
  rw [zero_add, zero_add] at f1
  have f1' : |((l.zip l.tail).map fun v => distance64 v.1 v.2).foldl (fun s v => rnd64 (s + v)) 0 -
      ((l.zip l.tail).map fun p => distance p.1 p.2).sum| ≤
      ((l.zip l.tail).map fun p => distance p.1 p.2).sum * ((l.length + 2 : Nat) / 2 ^ 52) := by
    refine f1.trans (mul_le_mul_of_nonneg_left ?_ hsum0)
    gcongr
  unfold arcLength64 arcLength
  dsimp only
  by_cases hc : l.length > 2 ∧ closed = true
  · rw [dif_pos hc, dif_pos hc]
    have p0 : IntPoint (l[0]'(by omega)) := h _ (List.getElem_mem _)
    have pz : IntPoint (l[l.length - 1]'(by omega)) := h _ (List.getElem_mem _)
    obtain ⟨d1, d2⟩ := distance64_rel p0 pz
    have hd := distance_nonneg (l[0]'(by omega)) (l[l.length - 1]'(by omega))
    set S := ((l.zip l.tail).map fun p => distance p.1 p.2).sum
    set T := ((l.zip l.tail).map fun v => distance64 v.1 v.2).foldl (fun s v => rnd64 (s + v)) 0
    set d := distance (l[0]'(by omega)) (l[l.length - 1]'(by omega))
    set d' := distance64 (l[0]'(by omega)) (l[l.length - 1]'(by omega))
    have hsd : T + d' = 0 ∨ 1 ≤ T + d' := by
      rcases f2 with h | h
      · rcases d2 with h' | h'
        · left; rw [h, h', add_zero]
        · right; linarith
      · rcases d2 with h' | h' <;> right <;> linarith
    have r := rel64 hsd
    push_cast at f1' ⊢
    obtain ⟨a1, a2⟩ := abs_le.1 f1'
    obtain ⟨b1, b2⟩ := abs_le.1 d1
    obtain ⟨c1, c2⟩ := abs_le.1 r
    set t := ((l.length : ℝ) + 2) / 2 ^ 52 with ht
    have hl0 : (0 : ℝ) ≤ l.length := by positivity
    have hkR : t ≤ 1 / 2 := by
      rw [ht, div_le_iff₀ (by norm_num)]
      have : (l.length : ℝ) ≤ 2 ^ 50 := by exact_mod_cast hn
      linarith
    have ht2 : (2 : ℝ) / 2 ^ 52 ≤ t := by
      rw [ht]; gcongr; linarith
    have e1 : ((l.length : ℝ) + 4) / 2 ^ 52 = t + 2 / 2 ^ 52 := by rw [ht]; ring
    rw [e1]
    have hb : d * (2 / 2 ^ 52) ≤ d * t := mul_le_mul_of_nonneg_left ht2 hd
    have he' : S * t ≤ S * (1 / 2) := mul_le_mul_of_nonneg_left hkR hsum0
    have hd' : d * t ≤ d * (1 / 2) := mul_le_mul_of_nonneg_left hkR hd
    rw [abs_le]
    constructor <;> linarith
  · rw [dif_neg hc, dif_neg hc]
    refine f1'.trans (mul_le_mul_of_nonneg_left ?_ hsum0)
    gcongr
    omega

/-! ### Arcs along rows and columns -/

theorem distance64_axis {p q : ℝ × ℝ} (hp : IntPoint p) (hq : IntPoint q) (h : p.1 = q.1 ∨ p.2 = q.2)
    (hd : distance p q ≤ 2 ^ 26) : distance64 p q = distance p q ∧ ∃ n : Nat, distance p q = n := by
  obtain ⟨a, b, e1, e2, e3, e4⟩ := distance64_int hp hq
  have key : ∀ c : Int, Real.sqrt ((c : ℝ) * c) ≤ 2 ^ 26 →
      rnd64 (Real.sqrt (rnd64 (rnd64 ((c : ℝ) * c)))) = Real.sqrt ((c : ℝ) * c) ∧
      Real.sqrt ((c : ℝ) * c) = (c.natAbs : ℕ) := by
    intro c hc
    rw [Real.sqrt_mul_self_eq_abs] at hc
    have hcI : |c| ≤ 2 ^ 26 := by exact_mod_cast hc
    have hcc : |c * c| ≤ 2 ^ 53 := by
      rw [abs_mul]
      calc |c| * |c| ≤ 2 ^ 26 * 2 ^ 26 := mul_le_mul hcI hcI (abs_nonneg _) (by norm_num)
        _ ≤ _ := by norm_num
    have : (c : ℝ) * c = ((c * c : Int) : ℝ) := by push_cast; ring
    have e : rnd64 (rnd64 ((c : ℝ) * c)) = (c : ℝ) * c := by rw [this, r64 hcc, r64 hcc]
    rw [e, Real.sqrt_mul_self_eq_abs, ← Int.cast_abs, r64 (by rw [abs_abs]; norm_num at hcI ⊢; omega)]
    refine ⟨rfl, ?_⟩
    rw [Int.abs_eq_natAbs]
    rfl
  rcases h with h | h
  · have ha : (a : ℝ) = 0 := by rw [e3, h, sub_self]
    rw [e2, ha, mul_zero, zero_add] at hd
    rw [e1, e2, ha, mul_zero, zero_add, zero64, zero_add]
    exact ⟨(key b hd).1, _, (key b hd).2⟩
  · have hb : (b : ℝ) = 0 := by rw [e4, h, sub_self]
    rw [e2, hb, mul_zero, add_zero] at hd
    rw [e1, e2, hb, mul_zero, add_zero, zero64, add_zero]
    exact ⟨(key a hd).1, _, (key a hd).2⟩

/-- Consecutive points of the arc are on a common row or column, at most `2^26` apart. -/
def Rectilinear : List (ℝ × ℝ) → Prop
  | p :: q :: l => (p.1 = q.1 ∨ p.2 = q.2) ∧ distance p q ≤ 2 ^ 26 ∧ Rectilinear (q :: l)
  | _ => True

theorem fold_exact : ∀ (l : List (ℝ × ℝ)) (k : Nat), (∀ p ∈ l, IntPoint p) → Rectilinear l →
    k + pathLength l ≤ 2 ^ 53 →
    ((l.zip l.tail).map fun v => distance64 v.1 v.2).foldl (fun s v => rnd64 (s + v)) (k : ℝ) = k + pathLength l
  | [], k, _, _, _ => by simp [pathLength]
  | [p], k, _, _, _ => by simp [pathLength]
  | p :: q :: l, k, h, hr, hs => by
    obtain ⟨h1, h2, h3⟩ := hr
    obtain ⟨e, n, hn⟩ := distance64_axis (h p (by simp)) (h q (by simp)) h1 h2
    rw [pathLength_cons, hn] at hs ⊢
    have hpl : 0 ≤ pathLength (q :: l) := by
      rw [← windows_sum]
      refine List.sum_nonneg fun x hx => ?_
      obtain ⟨v, -, rfl⟩ := List.mem_map.1 hx
      exact distance_nonneg _ _
    have hkn : k + n ≤ 2 ^ 53 := by
      have : ((k + n : Nat) : ℝ) ≤ 2 ^ 53 := by push_cast; linarith
      exact_mod_cast this
    have ih := fold_exact (q :: l) (k + n) (fun r hr => h r (by simp [hr])) h3 (by push_cast; linarith)
    rw [List.tail_cons] at ih ⊢
    rw [List.zip_cons_cons, List.map_cons, List.foldl_cons, e, hn]
    have r : rnd64 ((k : ℝ) + n) = ((k + n : Nat) : ℝ) := by
      have := r64 (n := ((k + n : Nat) : Int)) (by rw [abs_of_nonneg (by positivity)]; exact_mod_cast hkn)
      push_cast at this ⊢
      exact this
    rw [r, ih]
    push_cast
    ring

/-- **C146.** Open arcs along rows and columns of the pixel grid, and closed ones whose last point is on a row or
column with the first, get their exact length. -/
theorem C146_rectilinear (l : List (ℝ × ℝ)) (h : ∀ p ∈ l, IntPoint p) (hr : Rectilinear l)
    (hs : arcLength l true ≤ 2 ^ 53) :
    arcLength64 l false = arcLength l false ∧
    (∀ p z, l.head? = some p → l.getLast? = some z → (p.1 = z.1 ∨ p.2 = z.2) → distance p z ≤ 2 ^ 26 →
      arcLength64 l true = arcLength l true) := by
  have hle : pathLength l ≤ 2 ^ 53 := by
    refine le_trans ?_ hs
    unfold arcLength
    dsimp only
    rw [windows_sum]
    split
    · exact le_add_of_nonneg_right (distance_nonneg _ _)
    · exact le_rfl
  have f := fold_exact l 0 h hr (by push_cast; linarith)
  rw [Nat.cast_zero, zero_add] at f
  refine ⟨?_, fun p z hp hz hpz hd => ?_⟩
  · unfold arcLength64 arcLength
    dsimp only
    rw [dif_neg (by simp), dif_neg (by simp), f, windows_sum]
  · unfold arcLength64
    unfold arcLength at hs ⊢
    dsimp only at hs ⊢
    rw [f]
    rw [windows_sum] at hs ⊢
    by_cases hc : l.length > 2 ∧ true = true
    · rw [dif_pos hc] at hs
      rw [dif_pos hc, dif_pos hc]
      have e0 : l[0]'(by omega) = p := by
        rw [List.head?_eq_getElem?, List.getElem?_eq_getElem (by omega)] at hp
        exact Option.some.inj hp
      have ez : l[l.length - 1]'(by omega) = z := by
        rw [List.getLast?_eq_getElem?, List.getElem?_eq_getElem (by omega)] at hz
        exact Option.some.inj hz
      have p0 : IntPoint p := e0 ▸ h _ (List.getElem_mem _)
      have pz : IntPoint z := ez ▸ h _ (List.getElem_mem _)
      rw [e0, ez] at hs ⊢
      obtain ⟨e, n, hn⟩ := distance64_axis p0 pz hpz hd
      obtain ⟨m, hm⟩ : ∃ m : Nat, pathLength l = m := by
        clear f hs hle hp hz e0 ez hc
        induction l with
        | nil => exact ⟨0, by simp [pathLength]⟩
        | cons a l ih =>
          cases l with
          | nil => exact ⟨0, by simp [pathLength]⟩
          | cons b l =>
            obtain ⟨h1, h2, h3⟩ := hr
            obtain ⟨-, n1, hn1⟩ := distance64_axis (h a (by simp)) (h b (by simp)) h1 h2
            obtain ⟨n2, hn2⟩ := ih (fun r hr => h r (by simp [hr])) h3
            exact ⟨n1 + n2, by rw [pathLength_cons, hn1, hn2]; push_cast; ring⟩
      rw [hn, hm] at hs
      rw [e, hn, hm]
      have hmn : m + n ≤ 2 ^ 53 := by
        have : ((m + n : Nat) : ℝ) ≤ 2 ^ 53 := by push_cast; exact hs
        exact_mod_cast this
      have := r64 (n := ((m + n : Nat) : Int)) (by rw [abs_of_nonneg (by positivity)]; exact_mod_cast hmn)
      push_cast at this
      exact this
    · rw [dif_neg hc, dif_neg hc]

/-- The hypotheses hold for the 3-4-5 triangle. -/
example : let l : List (ℝ × ℝ) := [(((0 : Int) : ℝ), ((0 : Int) : ℝ)), (((3 : Int) : ℝ), ((0 : Int) : ℝ)),
      (((3 : Int) : ℝ), ((4 : Int) : ℝ))]
    |arcLength64 l true - arcLength l true| ≤ arcLength l true * ((7 : Nat) / 2 ^ 52) := by
  refine C146_accuracy _ true ?_ (by norm_num)
  intro p hp
  simp only [List.mem_cons, List.not_mem_nil, or_false] at hp
  rcases hp with rfl | rfl | rfl <;> exact ⟨_, _, rfl, by norm_num, by norm_num⟩

/-- A 3-4-5 triangle: exact. -/
example : distance64 (((0 : Int) : ℝ), ((0 : Int) : ℝ)) (((3 : Int) : ℝ), ((4 : Int) : ℝ)) = 5 := by
  unfold distance64
  dsimp only
  rw [← Int.cast_sub, ← Int.cast_sub, r64 (by norm_num), r64 (by norm_num), ← Int.cast_mul, ← Int.cast_mul,
    r64 (by norm_num), r64 (by norm_num), ← Int.cast_add, r64 (by norm_num),
    show (((0 - 3) * (0 - 3) + (0 - 4) * (0 - 4) : Int) : ℝ) = 5 * 5 by norm_num, Real.sqrt_mul_self (by norm_num),
    show (5 : ℝ) = ((5 : Int) : ℝ) by norm_num, r64 (by norm_num)]

end Verif.Float
