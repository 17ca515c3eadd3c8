import Verif.Geometry.MinRectModel
import Verif.Geometry.HullProps
import Mathlib.Topology.Order.Compact
import Mathlib.Topology.Algebra.Order.Group
import Mathlib.Topology.MetricSpace.Pseudo.Defs
import Mathlib.Topology.Instances.Real.Lemmas
import Mathlib.Topology.Order.Lattice
import Mathlib.Data.List.GetD
import Mathlib.Data.List.Perm.Basic
import Mathlib.Data.Rat.Floor
import Mathlib.Tactic.Linarith
import Mathlib.Tactic.LinearCombination
import Mathlib.Tactic.FieldSimp
/-
Property theorem C110: the smallest enclosing rectangle.
-/
namespace Verif.Geometry

/-! ### Specification -/

/-- Component of the point in the direction `(c, s)`. -/
def comp (c s : ℝ) (p : Pt) : ℝ := (p.1 : ℝ) * c + (p.2 : ℝ) * s

/-- The rectangle with sides in the directions `(c, s)` and `(-s, c)` (`c² + s² = 1`) and with
`lo1 ≤ comp c s ≤ hi1`, `lo2 ≤ comp (-s) c ≤ hi2`. -/
structure Rect where
  c : ℝ
  s : ℝ
  unit : c ^ 2 + s ^ 2 = 1
  lo1 : ℝ
  hi1 : ℝ
  lo2 : ℝ
  hi2 : ℝ

/-- The rectangle contains the point. -/
def Rect.Has (R : Rect) (p : Pt) : Prop :=
  R.lo1 ≤ comp R.c R.s p ∧ comp R.c R.s p ≤ R.hi1 ∧ R.lo2 ≤ comp (-R.s) R.c p ∧ comp (-R.s) R.c p ≤ R.hi2

/-- Area of the rectangle. -/
def Rect.area (R : Rect) : ℝ := (R.hi1 - R.lo1) * (R.hi2 - R.lo2)

/-- The corner with components `a` and `b`. -/
def Rect.corner (R : Rect) (a b : ℝ) : ℝ × ℝ := (a * R.c - b * R.s, a * R.s + b * R.c)

/-- A side of the rectangle is parallel to the segment from `p` to `q`. -/
def Rect.Along (R : Rect) (p q : Pt) : Prop :=
  comp R.c R.s p = comp R.c R.s q ∨ comp (-R.s) R.c p = comp (-R.s) R.c q

/-! ### Extent of a polygon in a direction -/

/-- Greatest value of `f` on `p, l`. -/
noncomputable def top (f : Pt → ℝ) (p : Pt) (l : List Pt) : ℝ := l.foldl (fun a q => max a (f q)) (f p)

theorem foldl_max (f : Pt → ℝ) : ∀ (l : List Pt) (a : ℝ),
    a ≤ l.foldl (fun a q => max a (f q)) a ∧
    (∀ q ∈ l, f q ≤ l.foldl (fun a q => max a (f q)) a) ∧
    (l.foldl (fun a q => max a (f q)) a = a ∨ ∃ q ∈ l, l.foldl (fun a q => max a (f q)) a = f q) := by
  intro l
  induction l with
  | nil => intro a; simp
  | cons r l ih =>
    intro a
    obtain ⟨h1, h2, h3⟩ := ih (max a (f r))
    rw [List.foldl_cons]
    refine ⟨le_trans (le_max_left _ _) h1, ?_, ?_⟩
    · intro q hq
      rcases List.mem_cons.1 hq with rfl | hq
      · exact le_trans (le_max_right _ _) h1
      · exact h2 q hq
    · rcases h3 with h3 | ⟨q, hq, h3⟩
      · rcases le_total a (f r) with h | h
        · right; exact ⟨r, by simp, by rw [h3, max_eq_right h]⟩
        · left; rw [h3, max_eq_left h]
      · exact Or.inr ⟨q, by simp [hq], h3⟩

theorem le_top (f : Pt → ℝ) (p : Pt) (l : List Pt) : ∀ q ∈ p :: l, f q ≤ top f p l := by
  intro q hq
  obtain ⟨h1, h2, -⟩ := foldl_max f l (f p)
  rcases List.mem_cons.1 hq with rfl | hq
  · exact h1
  · exact h2 q hq

theorem top_mem (f : Pt → ℝ) (p : Pt) (l : List Pt) : ∃ q ∈ p :: l, top f p l = f q := by
  obtain ⟨-, -, h | ⟨q, hq, h⟩⟩ := foldl_max f l (f p)
  · exact ⟨p, by simp, h⟩
  · exact ⟨q, by simp [hq], h⟩

/-- Extent in the direction `(c, s)`. -/
noncomputable def width (c s : ℝ) (p : Pt) (l : List Pt) : ℝ :=
  top (comp c s) p l + top (comp (-c) (-s)) p l

theorem comp_neg (c s : ℝ) (p : Pt) : comp (-c) (-s) p = - comp c s p := by unfold comp; ring

theorem width_neg (c s : ℝ) (p : Pt) (l : List Pt) : width (-c) (-s) p l = width c s p l := by
  unfold width
  rw [neg_neg, neg_neg, add_comm]

theorem width_nonneg (c s : ℝ) (p : Pt) (l : List Pt) : 0 ≤ width c s p l := by
  unfold width
  have h1 := le_top (comp c s) p l p (by simp)
  have h2 := le_top (comp (-c) (-s)) p l p (by simp)
  rw [comp_neg] at h2
  linarith

theorem top_smul {k : ℝ} (hk : 0 ≤ k) (c s : ℝ) (p : Pt) (l : List Pt) :
    top (comp (k * c) (k * s)) p l = k * top (comp c s) p l := by
  have e : ∀ q, comp (k * c) (k * s) q = k * comp c s q := by intro q; unfold comp; ring
  apply le_antisymm
  · obtain ⟨q, hq, h⟩ := top_mem (comp (k * c) (k * s)) p l
    rw [h, e]
    exact mul_le_mul_of_nonneg_left (le_top _ _ _ q hq) hk
  · obtain ⟨q, hq, h⟩ := top_mem (comp c s) p l
    rw [h, ← e]
    exact le_top _ _ _ q hq

theorem width_smul {k : ℝ} (hk : 0 ≤ k) (c s : ℝ) (p : Pt) (l : List Pt) :
    width (k * c) (k * s) p l = k * width c s p l := by
  unfold width
  rw [top_smul hk, ← mul_neg, ← mul_neg, top_smul hk]
  ring

theorem top_continuous (p : Pt) (l : List Pt) :
    Continuous fun z : ℝ × ℝ => top (comp z.1 z.2) p l := by
  have hc : ∀ q, Continuous fun z : ℝ × ℝ => comp z.1 z.2 q := by
    intro q; unfold comp; fun_prop
  have : ∀ (l : List Pt) (g : ℝ × ℝ → ℝ), Continuous g →
      Continuous fun z : ℝ × ℝ => l.foldl (fun a q => max a (comp z.1 z.2 q)) (g z) := by
    intro l
    induction l with
    | nil => intro g hg; exact hg
    | cons r l ih =>
      intro g hg
      exact ih (fun z => max (g z) (comp z.1 z.2 r)) (hg.max (hc r))
  exact this l _ (hc p)

/-- Area of the bounding box with sides in the directions `(c, s)` and `(-s, c)`. -/
noncomputable def boxArea (c s : ℝ) (p : Pt) (l : List Pt) : ℝ := width c s p l * width (-s) c p l

theorem boxArea_turn (c s : ℝ) (p : Pt) (l : List Pt) : boxArea (-s) c p l = boxArea c s p l := by
  unfold boxArea
  rw [width_neg, mul_comm]

theorem boxArea_neg (c s : ℝ) (p : Pt) (l : List Pt) : boxArea (-c) (-s) p l = boxArea c s p l := by
  rw [← boxArea_turn c s, ← boxArea_turn (-s) c]

theorem boxArea_continuous (p : Pt) (l : List Pt) :
    Continuous fun z : ℝ × ℝ => boxArea z.1 z.2 p l := by
  have h := top_continuous p l
  have w : ∀ g : ℝ × ℝ → ℝ × ℝ, Continuous g → Continuous fun z => width (g z).1 (g z).2 p l := by
    intro g hg
    unfold width
    exact (h.comp hg).add (h.comp (show Continuous fun z => (-(g z).1, -(g z).2) by fun_prop))
  unfold boxArea
  exact (w id continuous_id).mul (w (fun z => (-z.2, z.1)) (by fun_prop))

/-! ### Vertices of a strictly convex polygon -/

/-- What `C54_hull` says about the hull. -/
structure Convex (H : List Pt) (P : Pt → Prop) : Prop where
  len : 3 ≤ H.length
  mem : ∀ v ∈ H, P v
  left : ∀ i, ∀ q, P q → 0 ≤ det (vertex H i) (vertex H (i + 1)) q
  turn : ∀ i, 0 < det (vertex H i) (vertex H (i + 1)) (vertex H (i + 2))

theorem vertex_mem {H : List Pt} (h : H ≠ []) (i : Nat) : vertex H i ∈ H := by
  unfold vertex
  have : i % H.length < H.length := Nat.mod_lt _ (List.length_pos_of_ne_nil h)
  rw [List.getD_eq_getElem _ _ this]
  exact List.getElem_mem this

theorem mem_vertex {H : List Pt} {v : Pt} (h : v ∈ H) : ∃ i, i < H.length ∧ vertex H i = v := by
  obtain ⟨i, hi, e⟩ := List.mem_iff_getElem.1 h
  refine ⟨i, hi, ?_⟩
  unfold vertex
  rw [Nat.mod_eq_of_lt hi, List.getD_eq_getElem _ _ hi, e]

theorem vertex_add_length (H : List Pt) (i : Nat) : vertex H (i + H.length) = vertex H i := by
  unfold vertex
  rw [Nat.add_mod_right]

/-- A vertex that is not lower than its neighbours is highest, and the only one if it is higher. -/
theorem Convex.local_top {H : List Pt} {P : Pt → Prop} (C : Convex H P) (c s : ℝ) (i : Nat)
    (h0 : comp c s (vertex H i) ≤ comp c s (vertex H (i + 1)))
    (h2 : comp c s (vertex H (i + 2)) ≤ comp c s (vertex H (i + 1))) (q : Pt) (hq : P q) :
    comp c s q ≤ comp c s (vertex H (i + 1)) ∧
    (comp c s (vertex H i) < comp c s (vertex H (i + 1)) →
      comp c s (vertex H (i + 2)) < comp c s (vertex H (i + 1)) →
      comp c s q = comp c s (vertex H (i + 1)) → q = vertex H (i + 1)) := by
  have a1 := C.left i q hq
  have a2 := C.left (i + 1) q hq
  have a3 := C.turn i
  rw [show i + 1 + 1 = i + 2 from rfl] at a2
  generalize vertex H i = u at *
  generalize vertex H (i + 1) = v at *
  generalize vertex H (i + 2) = w at *
  unfold det at a1 a2 a3
  have b1 : (0 : ℝ) ≤ ((v.1 : ℝ) - u.1) * (q.2 - u.2) - (v.2 - u.2) * (q.1 - u.1) := by exact_mod_cast a1
  have b2 : (0 : ℝ) ≤ ((w.1 : ℝ) - v.1) * (q.2 - v.2) - (w.2 - v.2) * (q.1 - v.1) := by exact_mod_cast a2
  have b3 : (0 : ℝ) < ((v.1 : ℝ) - u.1) * (w.2 - u.2) - (v.2 - u.2) * (w.1 - u.1) := by exact_mod_cast a3
  unfold comp at *
  set D : ℝ := ((v.1 : ℝ) - u.1) * (w.2 - u.2) - (v.2 - u.2) * (w.1 - u.1) with hD
  set A : ℝ := ((v.1 : ℝ) - u.1) * (q.2 - u.2) - (v.2 - u.2) * (q.1 - u.1) with hA
  set B : ℝ := ((w.1 : ℝ) - v.1) * (q.2 - v.2) - (w.2 - v.2) * (q.1 - v.1) with hB
  have key : D * (((q.1 : ℝ) * c + q.2 * s) - (v.1 * c + v.2 * s)) =
      A * ((w.1 * c + w.2 * s) - (v.1 * c + v.2 * s)) +
      B * ((u.1 * c + u.2 * s) - (v.1 * c + v.2 * s)) := by
    rw [hD, hA, hB]; ring
  have t1 : A * ((w.1 * c + w.2 * s) - (v.1 * c + v.2 * s)) ≤ 0 :=
    mul_nonpos_of_nonneg_of_nonpos b1 (by linarith)
  have t2 : B * ((u.1 * c + u.2 * s) - (v.1 * c + v.2 * s)) ≤ 0 :=
    mul_nonpos_of_nonneg_of_nonpos b2 (by linarith)
  constructor
  · by_contra hc
    have := mul_pos b3 (show 0 < ((q.1 : ℝ) * c + q.2 * s) - (v.1 * c + v.2 * s) by linarith)
    linarith
  · intro g0 g2 ge
    rw [ge, sub_self, mul_zero] at key
    have A0 : A = 0 := by
      by_contra hne
      have : 0 < A := lt_of_le_of_ne b1 (Ne.symm hne)
      have := mul_neg_of_pos_of_neg this
        (show (w.1 * c + w.2 * s) - (v.1 * c + v.2 * s) < 0 by linarith)
      linarith
    have B0 : B = 0 := by
      by_contra hne
      have : 0 < B := lt_of_le_of_ne b2 (Ne.symm hne)
      have := mul_neg_of_pos_of_neg this
        (show (u.1 * c + u.2 * s) - (v.1 * c + v.2 * s) < 0 by linarith)
      linarith
    have e1 : D * ((q.1 : ℝ) - v.1) = 0 := by
      have : D * ((q.1 : ℝ) - v.1) = A * (w.1 - v.1) + B * (u.1 - v.1) := by rw [hD, hA, hB]; ring
      rw [this, A0, B0]; ring
    have e2 : D * ((q.2 : ℝ) - v.2) = 0 := by
      have : D * ((q.2 : ℝ) - v.2) = A * (w.2 - v.2) + B * (u.2 - v.2) := by rw [hD, hA, hB]; ring
      rw [this, A0, B0]; ring
    have e1' := (mul_eq_zero.1 e1).resolve_left b3.ne'
    have e2' := (mul_eq_zero.1 e2).resolve_left b3.ne'
    refine Prod.ext ?_ ?_
    · exact_mod_cast sub_eq_zero.1 e1'
    · exact_mod_cast sub_eq_zero.1 e2'

theorem Convex.exists_pred {H : List Pt} {P : Pt → Prop} (C : Convex H P) {v : Pt} (hv : v ∈ H) :
    ∃ i, vertex H (i + 1) = v := by
  obtain ⟨i, hi, e⟩ := mem_vertex hv
  refine ⟨i + H.length - 1, ?_⟩
  have := C.len
  rw [show i + H.length - 1 + 1 = i + H.length by omega, vertex_add_length, e]

/-- Every point of the set is at most as high as the highest vertex. -/
theorem Convex.le_top {p : Pt} {l : List Pt} {P : Pt → Prop} (C : Convex (p :: l) P) (c s : ℝ) (q : Pt)
    (hq : P q) : comp c s q ≤ top (comp c s) p l := by
  obtain ⟨v, hv, e⟩ := top_mem (comp c s) p l
  obtain ⟨i, rfl⟩ := C.exists_pred hv
  rw [e]
  refine (C.local_top c s i ?_ ?_ q hq).1
  · rw [← e]; exact Geometry.le_top _ _ _ _ (vertex_mem (by simp) _)
  · rw [← e]; exact Geometry.le_top _ _ _ _ (vertex_mem (by simp) _)

/-- If no edge is perpendicular to `(c, s)`, the highest vertex is unique. -/
theorem Convex.unique_top {p : Pt} {l : List Pt} {P : Pt → Prop} (C : Convex (p :: l) P) (c s : ℝ)
    (hno : ∀ i, comp c s (vertex (p :: l) i) ≠ comp c s (vertex (p :: l) (i + 1))) :
    ∃ v ∈ p :: l, ∀ q ∈ p :: l, q ≠ v → comp c s q < comp c s v := by
  obtain ⟨v, hv, e⟩ := top_mem (comp c s) p l
  refine ⟨v, hv, fun q hq hne => ?_⟩
  have hle : comp c s q ≤ comp c s v := by rw [← e]; exact Geometry.le_top _ _ _ q hq
  refine lt_of_le_of_ne hle fun heq => hne ?_
  obtain ⟨i, rfl⟩ := C.exists_pred hv
  have h0 : comp c s (vertex (p :: l) i) ≤ comp c s (vertex (p :: l) (i + 1)) := by
    rw [← e]; exact Geometry.le_top _ _ _ _ (vertex_mem (by simp) _)
  have h2 : comp c s (vertex (p :: l) (i + 2)) ≤ comp c s (vertex (p :: l) (i + 1)) := by
    rw [← e]; exact Geometry.le_top _ _ _ _ (vertex_mem (by simp) _)
  exact (C.local_top c s i h0 h2 q (C.mem q hq)).2 (lt_of_le_of_ne h0 (hno i))
    (lt_of_le_of_ne h2 (Ne.symm (hno (i + 1)))) heq

/-! ### A smallest box has a side along an edge -/

theorem comp_tilt (c s τ : ℝ) (q : Pt) : comp (c - τ * s) (s + τ * c) q = comp c s q + τ * comp (-s) c q := by
  unfold comp; ring

theorem top_eventually {p : Pt} {l : List Pt} {c s : ℝ} {v : Pt} (hv : v ∈ p :: l)
    (hu : ∀ q ∈ p :: l, q ≠ v → comp c s q < comp c s v) :
    ∀ᶠ τ in nhds (0 : ℝ), top (comp (c - τ * s) (s + τ * c)) p l =
      comp c s v + τ * comp (-s) c v := by
  have h : ∀ᶠ τ in nhds (0 : ℝ), ∀ q ∈ (p :: l).toFinset,
      comp c s q + τ * comp (-s) c q ≤ comp c s v + τ * comp (-s) c v := by
    rw [Filter.eventually_all_finset]
    intro q hq
    by_cases hqv : q = v
    · subst hqv; exact Filter.Eventually.of_forall fun _ => le_refl _
    · have h1 := hu q (List.mem_toFinset.1 hq) hqv
      have hcont : Filter.Tendsto (fun τ : ℝ => (comp c s v + τ * comp (-s) c v) -
          (comp c s q + τ * comp (-s) c q)) (nhds 0) (nhds ((comp c s v + 0 * comp (-s) c v) -
          (comp c s q + 0 * comp (-s) c q))) := by
        apply Continuous.tendsto
        fun_prop
      have h2 : (0 : ℝ) < (comp c s v + 0 * comp (-s) c v) - (comp c s q + 0 * comp (-s) c q) := by
        linarith
      filter_upwards [hcont.eventually (lt_mem_nhds h2)] with τ hτ
      linarith
  filter_upwards [h] with τ hτ
  apply le_antisymm
  · obtain ⟨q, hq, e⟩ := top_mem (comp (c - τ * s) (s + τ * c)) p l
    rw [e, comp_tilt]
    exact hτ q (List.mem_toFinset.2 hq)
  · rw [← comp_tilt]
    exact le_top _ _ _ v hv

/-- A first order condition and a second order condition that exclude each other. -/
theorem no_interior_min {W W' H G δ : ℝ} (hW : 0 < W) (hH : 0 < H) (hδ : 0 < δ)
    (h : ∀ τ, |τ| < δ → W * H * (1 + τ ^ 2) ≤ (W + τ * W') * (H - τ * G)) : False := by
  set B := W' * H - W * G with hB
  set A := -(W' * G + W * H) with hA
  have h1 : ∀ τ, 0 < τ → τ < δ → |B| ≤ τ * A := by
    intro τ h0 h1
    have e1 := h τ (by rw [abs_of_pos h0]; exact h1)
    have e2 := h (-τ) (by rw [abs_neg, abs_of_pos h0]; exact h1)
    have f1 : 0 ≤ τ * (B + τ * A) := by rw [hA, hB]; nlinarith
    have f2 : 0 ≤ τ * (-B + τ * A) := by rw [hA, hB]; nlinarith
    have g1 := nonneg_of_mul_nonneg_right f1 h0
    have g2 := nonneg_of_mul_nonneg_right f2 h0
    rw [abs_le]
    constructor <;> linarith
  have hA0 : 0 ≤ A := by
    have := h1 (δ / 2) (by linarith) (by linarith)
    have h3 := abs_nonneg B
    by_contra hc
    nlinarith
  have hB0 : B = 0 := by
    by_contra hne
    have hp : 0 < |B| := abs_pos.2 hne
    have hq : 0 < |B| / (2 * (A + 1)) := by positivity
    have := h1 (min (δ / 2) (|B| / (2 * (A + 1)))) (lt_min (by linarith) hq)
      (lt_of_le_of_lt (min_le_left _ _) (by linarith))
    have h3 : min (δ / 2) (|B| / (2 * (A + 1))) * A ≤ |B| / (2 * (A + 1)) * A :=
      mul_le_mul_of_nonneg_right (min_le_right _ _) hA0
    have h4 : |B| / (2 * (A + 1)) * A ≤ |B| / 2 := by
      rw [div_mul_eq_mul_div, div_le_div_iff₀ (by positivity) (by norm_num)]
      nlinarith
    linarith
  have e1 : W' * H = W * G := by rw [hB] at hB0; linarith
  have e2 : W' * G + W * H ≤ 0 := by rw [hA] at hA0; linarith
  have e3 : (W' * G + W * H) * H ≤ 0 := mul_nonpos_of_nonpos_of_nonneg e2 hH.le
  have e4 : (W' * G + W * H) * H = W * G ^ 2 + W * H ^ 2 := by
    have : (W' * G + W * H) * H = (W' * H) * G + W * H ^ 2 := by ring
    rw [this, e1]; ring
  have e5 : 0 < W * G ^ 2 + W * H ^ 2 := by positivity
  linarith

theorem Convex.exists_ne {H : List Pt} {P : Pt → Prop} (C : Convex H P) (v : Pt) : ∃ q ∈ H, q ≠ v := by
  have h := C.len
  have hne : H ≠ [] := by rintro rfl; simp at h
  by_contra hc
  push Not at hc
  have h0 := hc _ (vertex_mem hne 0)
  have h1 := hc _ (vertex_mem hne 1)
  have := C.turn 0
  rw [show 0 + 1 = 1 from rfl, h0, h1] at this
  unfold det at this
  simp at this

/-- A direction with the least bounding box has an edge along a side. -/
theorem Convex.min_flush {p : Pt} {l : List Pt} {P : Pt → Prop} (C : Convex (p :: l) P) {c s : ℝ}
    (hu : c ^ 2 + s ^ 2 = 1)
    (hmin : ∀ c' s' : ℝ, c' ^ 2 + s' ^ 2 = 1 → boxArea c s p l ≤ boxArea c' s' p l) :
    ∃ i, comp c s (vertex (p :: l) i) = comp c s (vertex (p :: l) (i + 1)) ∨
      comp (-s) c (vertex (p :: l) i) = comp (-s) c (vertex (p :: l) (i + 1)) := by
  by_contra hno
  push Not at hno
  obtain ⟨vR, mR, uR⟩ := C.unique_top c s fun i => (hno i).1
  obtain ⟨vT, mT, uT⟩ := C.unique_top (-s) c fun i => (hno i).2
  obtain ⟨vL, mL, uL⟩ := C.unique_top (-c) (-s) fun i => by
    rw [comp_neg, comp_neg]; exact fun h => (hno i).1 (neg_injective h)
  obtain ⟨vB, mB, uB⟩ := C.unique_top (- -s) (-c) fun i => by
    rw [comp_neg, comp_neg]; exact fun h => (hno i).2 (neg_injective h)
  have eR := top_eventually mR uR
  have eT := top_eventually mT uT
  have eL := top_eventually mL uL
  have eB := top_eventually mB uB
  have hW : 0 < comp c s vR - comp c s vL := by
    obtain ⟨q, hq, hne⟩ := C.exists_ne vR
    have h1 := uR q hq hne
    by_cases hqL : q = vL
    · rw [← hqL]; linarith
    · have h2 := uL q hq hqL
      rw [comp_neg, comp_neg] at h2
      linarith
  have hH : 0 < comp (-s) c vT - comp (-s) c vB := by
    obtain ⟨q, hq, hne⟩ := C.exists_ne vT
    have h1 := uT q hq hne
    by_cases hqB : q = vB
    · rw [← hqB]; linarith
    · have h2 := uB q hq hqB
      rw [comp_neg, comp_neg] at h2
      linarith
  obtain ⟨δ, hδ, hall⟩ := Metric.eventually_nhds_iff.1 ((eR.and eT).and (eL.and eB))
  refine no_interior_min (W := comp c s vR - comp c s vL) (H := comp (-s) c vT - comp (-s) c vB)
    (W' := comp (-s) c vR - comp (-s) c vL) (G := comp c s vT - comp c s vB) hW hH hδ fun τ hτ => ?_
  obtain ⟨⟨fR, fT⟩, fL, fB⟩ := hall (show dist τ 0 < δ by rwa [Real.dist_eq, sub_zero])
  obtain ⟨⟨gR, gT⟩, gL, gB⟩ := hall (show dist (0 : ℝ) 0 < δ by rwa [dist_self])
  have n1 : ∀ q, comp (- -s) (-c) q = - comp (-s) c q := fun q => comp_neg _ _ q
  have n2 : ∀ q, comp (-c) (-s) q = - comp c s q := fun q => comp_neg _ _ q
  have n3 : ∀ q, comp (- - c) (- -s) q = comp c s q := fun q => by rw [neg_neg, neg_neg]
  have n4 : ∀ q, comp (- -s) (-c) q = - comp (-s) c q := n1
  -- the box in the tilted direction
  have hbox : boxArea (c - τ * s) (s + τ * c) p l =
      ((comp c s vR - comp c s vL) + τ * (comp (-s) c vR - comp (-s) c vL)) *
      ((comp (-s) c vT - comp (-s) c vB) - τ * (comp c s vT - comp c s vB)) := by
    have fL' : top (comp (-(c - τ * s)) (-(s + τ * c))) p l =
        comp (-c) (-s) vL + τ * comp (- -s) (-c) vL := by
      rw [show -(c - τ * s) = -c - τ * -s by ring, show -(s + τ * c) = -s + τ * -c by ring]
      exact fL
    have fT' : top (comp (-(s + τ * c)) (c - τ * s)) p l =
        comp (-s) c vT + τ * comp (-c) (-s) vT := by
      rw [show -(s + τ * c) = -s - τ * c by ring, show c - τ * s = c + τ * -s by ring]
      exact fT
    have fB' : top (comp (- -(s + τ * c)) (-(c - τ * s))) p l =
        comp (- -s) (-c) vB + τ * comp (- -c) (- -s) vB := by
      rw [show - -(s + τ * c) = - -s - τ * -c by ring, show -(c - τ * s) = -c + τ * - -s by ring]
      exact fB
    unfold boxArea width
    rw [fR, fL', fT', fB']
    simp only [n1, n2, n3]
    ring
  have hbox0 : boxArea c s p l =
      (comp c s vR - comp c s vL) * (comp (-s) c vT - comp (-s) c vB) := by
    unfold boxArea width
    simp only [zero_mul, sub_zero, add_zero] at gR gT gL gB
    rw [gR, gT, gL, gB, n1, n2]
    ring
  rw [← hbox, ← hbox0]
  -- scale to a unit vector
  have hpos : (0 : ℝ) < 1 + τ ^ 2 := by positivity
  set k : ℝ := (Real.sqrt (1 + τ ^ 2))⁻¹ with hk
  have hk0 : 0 ≤ k := by positivity
  have hk2 : k ^ 2 * (1 + τ ^ 2) = 1 := by
    rw [hk, inv_pow, Real.sq_sqrt hpos.le, inv_mul_cancel₀ hpos.ne']
  have hm := hmin (k * (c - τ * s)) (k * (s + τ * c)) (by
    have : (k * (c - τ * s)) ^ 2 + (k * (s + τ * c)) ^ 2 = k ^ 2 * (1 + τ ^ 2) * (c ^ 2 + s ^ 2) := by ring
    rw [this, hk2, hu, one_mul])
  have hs : boxArea (k * (c - τ * s)) (k * (s + τ * c)) p l =
      k ^ 2 * boxArea (c - τ * s) (s + τ * c) p l := by
    unfold boxArea
    rw [← mul_neg, width_smul hk0, width_smul hk0]
    ring
  rw [hs] at hm
  calc boxArea c s p l * (1 + τ ^ 2) ≤ k ^ 2 * boxArea (c - τ * s) (s + τ * c) p l * (1 + τ ^ 2) :=
        mul_le_mul_of_nonneg_right hm hpos.le
    _ = k ^ 2 * (1 + τ ^ 2) * boxArea (c - τ * s) (s + τ * c) p l := by ring
    _ = boxArea (c - τ * s) (s + τ * c) p l := by rw [hk2, one_mul]

theorem exists_min_box (p : Pt) (l : List Pt) : ∃ c s : ℝ, c ^ 2 + s ^ 2 = 1 ∧
    ∀ c' s' : ℝ, c' ^ 2 + s' ^ 2 = 1 → boxArea c s p l ≤ boxArea c' s' p l := by
  have hcl : IsClosed {z : ℝ × ℝ | z.1 ^ 2 + z.2 ^ 2 = 1} :=
    isClosed_eq (by fun_prop) continuous_const
  have hsub : {z : ℝ × ℝ | z.1 ^ 2 + z.2 ^ 2 = 1} ⊆ Set.Icc ((-1 : ℝ), (-1 : ℝ)) (1, 1) := by
    rintro ⟨a, b⟩ h
    have h : a ^ 2 + b ^ 2 = 1 := h
    simp only [Set.mem_Icc, Prod.mk_le_mk]
    refine ⟨⟨?_, ?_⟩, ?_, ?_⟩ <;> nlinarith [sq_nonneg a, sq_nonneg b]
  have hcomp : IsCompact {z : ℝ × ℝ | z.1 ^ 2 + z.2 ^ 2 = 1} :=
    isCompact_Icc.of_isClosed_subset hcl hsub
  obtain ⟨z, hz, hmin⟩ := hcomp.exists_isMinOn ⟨(1, 0), by norm_num⟩
    (boxArea_continuous p l).continuousOn
  exact ⟨z.1, z.2, hz, fun c' s' h => hmin (show (c', s') ∈ _ from h)⟩

/-- Two unit vectors that are both parallel or perpendicular to the same edge span the same boxes. -/
theorem boxArea_eq_of_along {c s c' s' : ℝ} {a b : Pt} (hab : a ≠ b) (hu : c ^ 2 + s ^ 2 = 1)
    (hu' : c' ^ 2 + s' ^ 2 = 1)
    (h : comp c s a = comp c s b ∨ comp (-s) c a = comp (-s) c b)
    (h' : comp c' s' a = comp c' s' b ∨ comp (-s') c' a = comp (-s') c' b) (p : Pt) (l : List Pt) :
    boxArea c s p l = boxArea c' s' p l := by
  -- `(c', s')` is one of `±(c, s)`, `±(-s, c)`
  have key : c * s' - s * c' = 0 ∨ c * c' + s * s' = 0 := by
    unfold comp at h h'
    set x : ℝ := (a.1 : ℝ) - b.1 with hx
    set y : ℝ := (a.2 : ℝ) - b.2 with hy
    have hxy : x ≠ 0 ∨ y ≠ 0 := by
      by_contra hc
      push Not at hc
      apply hab
      refine Prod.ext ?_ ?_
      · have := sub_eq_zero.1 hc.1; exact_mod_cast this
      · have := sub_eq_zero.1 hc.2; exact_mod_cast this
    have fin : ∀ z : ℝ, x * z = 0 → y * z = 0 → z = 0 := by
      intro z h1 h2
      rcases hxy with h | h
      · exact (mul_eq_zero.1 h1).resolve_left h
      · exact (mul_eq_zero.1 h2).resolve_left h
    rcases h with h | h <;> rcases h' with h' | h'
    · left
      have e1 : x * c + y * s = 0 := by rw [hx, hy]; linarith
      have e2 : x * c' + y * s' = 0 := by rw [hx, hy]; linarith
      apply fin
      · linear_combination s' * e1 - s * e2
      · linear_combination c * e2 - c' * e1
    · right
      have e1 : x * c + y * s = 0 := by rw [hx, hy]; linarith
      have e2 : x * -s' + y * c' = 0 := by rw [hx, hy]; linarith
      apply fin
      · linear_combination c' * e1 - s * e2
      · linear_combination s' * e1 + c * e2
    · right
      have e1 : x * -s + y * c = 0 := by rw [hx, hy]; linarith
      have e2 : x * c' + y * s' = 0 := by rw [hx, hy]; linarith
      apply fin
      · linear_combination c * e2 - s' * e1
      · linear_combination s * e2 + c' * e1
    · left
      have e1 : x * -s + y * c = 0 := by rw [hx, hy]; linarith
      have e2 : x * -s' + y * c' = 0 := by rw [hx, hy]; linarith
      apply fin
      · linear_combination c' * e1 - c * e2
      · linear_combination s' * e1 - s * e2
  rcases key with k | k
  · -- parallel
    set d := c * c' + s * s' with hd
    have hd2 : d ^ 2 = 1 := by
      have : d ^ 2 + (c * s' - s * c') ^ 2 = (c ^ 2 + s ^ 2) * (c' ^ 2 + s' ^ 2) := by rw [hd]; ring
      rw [k, hu, hu'] at this; linarith
    have e1 : c' = d * c := by rw [hd]; linear_combination -c' * hu - s * k
    have e2 : s' = d * s := by rw [hd]; linear_combination -s' * hu + c * k
    rcases mul_self_eq_one_iff.1 (by rw [← sq]; exact hd2 : d * d = 1) with h | h
    · rw [e1, e2, h, one_mul, one_mul]
    · rw [e1, e2, h, neg_one_mul, neg_one_mul, boxArea_neg]
  · set d := c * s' - s * c' with hd
    have hd2 : d ^ 2 = 1 := by
      have : d ^ 2 + (c * c' + s * s') ^ 2 = (c ^ 2 + s ^ 2) * (c' ^ 2 + s' ^ 2) := by rw [hd]; ring
      rw [k, hu, hu'] at this; linarith
    have e1 : c' = d * -s := by rw [hd]; linear_combination -c' * hu + c * k
    have e2 : s' = d * c := by rw [hd]; linear_combination -s' * hu + s * k
    rcases mul_self_eq_one_iff.1 (by rw [← sq]; exact hd2 : d * d = 1) with h | h
    · rw [e1, e2, h, one_mul, one_mul, boxArea_turn]
    · rw [e1, e2, h, neg_one_mul, neg_one_mul, boxArea_neg, boxArea_turn]

/-! ### The calipers -/

theorem edgeAngle_along (p q : Pt) :
    comp (Real.cos (edgeAngle p q)) (Real.sin (edgeAngle p q)) p =
      comp (Real.cos (edgeAngle p q)) (Real.sin (edgeAngle p q)) q ∨
    comp (-Real.sin (edgeAngle p q)) (Real.cos (edgeAngle p q)) p =
      comp (-Real.sin (edgeAngle p q)) (Real.cos (edgeAngle p q)) q := by
  set z : ℂ := ⟨(toReal q).1 - (toReal p).1, (toReal q).2 - (toReal p).2⟩ with hz
  have hpi : (0 : ℝ) < Real.pi / 2 := by have := Real.pi_pos; linarith
  obtain ⟨n, hn⟩ : ∃ n : ℤ, edgeAngle p q = Complex.arg z + n * (Real.pi / 2) := by
    refine ⟨2 - ⌊(Complex.arg z + Real.pi) / (Real.pi / 2)⌋, ?_⟩
    unfold edgeAngle fmod
    rw [← hz]
    have h0 : 0 ≤ Complex.arg z + Real.pi -
        Real.pi / 2 * (⌊(Complex.arg z + Real.pi) / (Real.pi / 2)⌋ : ℝ) := by
      have := Int.floor_le ((Complex.arg z + Real.pi) / (Real.pi / 2))
      rw [le_div_iff₀ hpi] at this
      linarith
    rw [abs_of_nonneg h0]
    push_cast
    ring
  have hx : ‖z‖ * Real.cos (Complex.arg z) = (q.1 : ℝ) - p.1 := Complex.norm_mul_cos_arg z
  have hy : ‖z‖ * Real.sin (Complex.arg z) = (q.2 : ℝ) - p.2 := Complex.norm_mul_sin_arg z
  have h1 : comp (Real.cos (edgeAngle p q)) (Real.sin (edgeAngle p q)) q -
      comp (Real.cos (edgeAngle p q)) (Real.sin (edgeAngle p q)) p =
      ‖z‖ * Real.cos (n * (Real.pi / 2)) := by
    have e : (n : ℝ) * (Real.pi / 2) = edgeAngle p q - Complex.arg z := by rw [hn]; ring
    rw [e, Real.cos_sub]
    unfold comp
    linear_combination -Real.cos (edgeAngle p q) * hx - Real.sin (edgeAngle p q) * hy
  have h2 : comp (-Real.sin (edgeAngle p q)) (Real.cos (edgeAngle p q)) q -
      comp (-Real.sin (edgeAngle p q)) (Real.cos (edgeAngle p q)) p =
      -(‖z‖ * Real.sin (n * (Real.pi / 2))) := by
    have e : (n : ℝ) * (Real.pi / 2) = edgeAngle p q - Complex.arg z := by rw [hn]; ring
    rw [e, Real.sin_sub]
    unfold comp
    linear_combination Real.sin (edgeAngle p q) * hx - Real.cos (edgeAngle p q) * hy
  have h3 : Real.sin (n * (Real.pi / 2)) * Real.cos (n * (Real.pi / 2)) = 0 := by
    have h4 := Real.sin_two_mul ((n : ℝ) * (Real.pi / 2))
    rw [show 2 * ((n : ℝ) * (Real.pi / 2)) = n * Real.pi by ring, Real.sin_int_mul_pi] at h4
    linarith
  rcases mul_eq_zero.1 h3 with h | h
  · right; rw [h, mul_zero, neg_zero] at h2; linarith
  · left; rw [h, mul_zero] at h1; linarith

theorem bounds_eq (c s : ℝ) (p : Pt) (l : List Pt) : bounds c s p l =
    (-top (comp (-c) (-s)) p l, top (comp c s) p l,
     -top (comp (- -s) (-c)) p l, top (comp (-s) c) p l) := by
  have hx : ∀ q, (rotate c s (toReal q)).1 = comp c s q := fun q => rfl
  have hy : ∀ q, (rotate c s (toReal q)).2 = comp (-s) c q := fun q => by
    unfold rotate toReal comp; ring
  have key : ∀ (l : List Pt) (a b d e : ℝ),
      l.foldl (fun (acc : ℝ × ℝ × ℝ × ℝ) q =>
        (min acc.1 (comp c s q), max acc.2.1 (comp c s q), min acc.2.2.1 (comp (-s) c q),
          max acc.2.2.2 (comp (-s) c q))) (a, b, d, e) =
      (-l.foldl (fun x q => max x (comp (-c) (-s) q)) (-a), l.foldl (fun x q => max x (comp c s q)) b,
       -l.foldl (fun x q => max x (comp (- -s) (-c) q)) (-d),
       l.foldl (fun x q => max x (comp (-s) c q)) e) := by
    intro l
    induction l with
    | nil => intro a b d e; simp
    | cons q l ih =>
      intro a b d e
      simp only [List.foldl_cons]
      rw [ih]
      simp only [comp_neg, max_neg_neg]
  unfold bounds
  simp only [hx, hy]
  rw [key]
  unfold top
  simp only [comp_neg]

/-- The bounding box in the direction of an angle. -/
noncomputable def boxRect (p : Pt) (l : List Pt) (θ : ℝ) : Rect where
  c := Real.cos θ
  s := Real.sin θ
  unit := by rw [add_comm]; exact Real.sin_sq_add_cos_sq θ
  lo1 := -top (comp (-Real.cos θ) (-Real.sin θ)) p l
  hi1 := top (comp (Real.cos θ) (Real.sin θ)) p l
  lo2 := -top (comp (- -Real.sin θ) (-Real.cos θ)) p l
  hi2 := top (comp (-Real.sin θ) (Real.cos θ)) p l

theorem boxRect_area (p : Pt) (l : List Pt) (θ : ℝ) :
    (boxRect p l θ).area = boxArea (Real.cos θ) (Real.sin θ) p l := by
  unfold Rect.area boxRect boxArea width
  dsimp only
  rw [sub_neg_eq_add, sub_neg_eq_add]

/-- The four corners in the order of the code. -/
def Rect.corners (R : Rect) : List (ℝ × ℝ) :=
  [R.corner R.hi1 R.lo2, R.corner R.lo1 R.lo2, R.corner R.lo1 R.hi2, R.corner R.hi1 R.hi2]

theorem caliperStep_eq (p : Pt) (l : List Pt) (st : Option (ℝ × List (ℝ × ℝ))) (θ : ℝ) :
    caliperStep p l st θ =
      (match st with
      | none => some ((boxRect p l θ).area, (boxRect p l θ).corners)
      | some (a, r) => if (boxRect p l θ).area < a then
          some ((boxRect p l θ).area, (boxRect p l θ).corners) else some (a, r)) := by
  have hc : ∀ a b : ℝ, invertRotation (Real.cos θ) (Real.sin θ) (a, b) = (boxRect p l θ).corner a b := by
    intro a b
    unfold invertRotation Rect.corner boxRect
    refine Prod.ext rfl ?_
    dsimp only
    ring
  unfold caliperStep
  dsimp only
  rw [bounds_eq]
  dsimp only
  rw [hc, hc, hc, hc]
  cases st with
  | none => rfl
  | some v =>
    obtain ⟨a, r⟩ := v
    dsimp only
    have e : (boxRect p l θ).area = (top (comp (Real.cos θ) (Real.sin θ)) p l -
      -top (comp (-Real.cos θ) (-Real.sin θ)) p l) *
      (top (comp (-Real.sin θ) (Real.cos θ)) p l - -top (comp (- -Real.sin θ) (-Real.cos θ)) p l) := rfl
    rw [← e]
    split <;> rfl

theorem calipers_fold (p : Pt) (l : List Pt) : ∀ (as : List ℝ) (S : List ℝ) (θ : ℝ), θ ∈ S →
    (∀ φ ∈ S, (boxRect p l θ).area ≤ (boxRect p l φ).area) →
    ∃ θ', (θ' ∈ S ∨ θ' ∈ as) ∧
      as.foldl (caliperStep p l) (some ((boxRect p l θ).area, (boxRect p l θ).corners)) =
        some ((boxRect p l θ').area, (boxRect p l θ').corners) ∧
      ∀ φ, φ ∈ S ∨ φ ∈ as → (boxRect p l θ').area ≤ (boxRect p l φ).area := by
  intro as
  induction as with
  | nil =>
    intro S θ h1 h2
    exact ⟨θ, Or.inl h1, rfl, fun φ h => h2 φ (by simpa using h)⟩
  | cons a as ih =>
    intro S θ h1 h2
    rw [List.foldl_cons, caliperStep_eq]
    dsimp only
    by_cases hlt : (boxRect p l a).area < (boxRect p l θ).area
    · rw [if_pos hlt]
      obtain ⟨θ', h3, h4, h5⟩ := ih (a :: S) a (by simp) (by
        intro φ hφ
        rcases List.mem_cons.1 hφ with rfl | hφ
        · exact le_refl _
        · exact hlt.le.trans (h2 φ hφ))
      refine ⟨θ', ?_, h4, ?_⟩
      · simp only [List.mem_cons] at h3 ⊢; tauto
      · intro φ hφ
        apply h5
        simp only [List.mem_cons] at hφ ⊢; tauto
    · rw [if_neg hlt]
      obtain ⟨θ', h3, h4, h5⟩ := ih (a :: S) θ (by simp [h1]) (by
        intro φ hφ
        rcases List.mem_cons.1 hφ with rfl | hφ
        · exact not_lt.1 hlt
        · exact h2 φ hφ)
      refine ⟨θ', ?_, h4, ?_⟩
      · simp only [List.mem_cons] at h3 ⊢; tauto
      · intro φ hφ
        apply h5
        simp only [List.mem_cons] at hφ ⊢; tauto

theorem mem_dedup : ∀ (l : List ℝ) (a : ℝ), a ∈ dedup l ↔ a ∈ l := by
  intro l
  induction l with
  | nil => intro a; rfl
  | cons b l ih =>
    intro a
    cases l with
    | nil => rfl
    | cons d l =>
      unfold dedup
      split
      · rename_i h
        rw [ih, h]
        simp
      · rw [List.mem_cons, ih, List.mem_cons (b := b)]

theorem calipers_spec (p q : Pt) (l : List Pt) :
    ∃ θ, θ ∈ edgeAngles (p :: q :: l) ∧
      calipers p (q :: l) = some ((boxRect p (q :: l) θ).area, (boxRect p (q :: l) θ).corners) ∧
      ∀ φ ∈ edgeAngles (p :: q :: l), (boxRect p (q :: l) θ).area ≤ (boxRect p (q :: l) φ).area := by
  unfold calipers
  have hm := mem_dedup (edgeAngles (p :: q :: l))
  have hin : edgeAngle p q ∈ dedup (edgeAngles (p :: q :: l)) := (hm _).2 (by simp [edgeAngles])
  cases e : dedup (edgeAngles (p :: q :: l)) with
  | nil => rw [e] at hin; simp at hin
  | cons a as =>
    rw [List.foldl_cons, caliperStep_eq]
    dsimp only
    obtain ⟨θ, h1, h2, h3⟩ := calipers_fold p (q :: l) as [a] a (by simp) (by simp)
    rw [e] at hm
    refine ⟨θ, (hm θ).1 ?_, h2, fun φ hφ => h3 φ ?_⟩
    · simp only [List.mem_cons, List.not_mem_nil, or_false] at h1 ⊢; exact h1
    · have := (hm φ).2 hφ
      simp only [List.mem_cons, List.not_mem_nil, or_false] at this ⊢; exact this

theorem mem_edgeAngles : ∀ (H : List Pt) (θ : ℝ), θ ∈ edgeAngles H ↔
    ∃ i, i + 1 < H.length ∧ θ = edgeAngle (vertex H i) (vertex H (i + 1)) := by
  have hv : ∀ (p : Pt) (H : List Pt) (i : Nat), i < H.length → vertex (p :: H) (i + 1) = vertex H i := by
    intro p H i hi
    unfold vertex
    rw [List.length_cons, Nat.mod_eq_of_lt (by omega), Nat.mod_eq_of_lt hi]
    rfl
  have h0 : ∀ (p : Pt) (H : List Pt), vertex (p :: H) 0 = p := by
    intro p H
    unfold vertex
    rw [Nat.zero_mod]
    rfl
  intro H
  induction H with
  | nil => intro θ; simp [edgeAngles]
  | cons p H ih =>
    intro θ
    cases H with
    | nil => simp [edgeAngles]
    | cons q H =>
      rw [edgeAngles, List.mem_cons, ih]
      constructor
      · rintro (rfl | ⟨i, hi, rfl⟩)
        · exact ⟨0, by simp, by rw [h0, hv _ _ _ (by simp), h0]⟩
        · refine ⟨i + 1, by simpa using hi, ?_⟩
          rw [hv p (q :: H) i (by omega), hv p (q :: H) (i + 1) (by omega)]
      · rintro ⟨i, hi, rfl⟩
        cases i with
        | zero => left; rw [h0, hv _ _ _ (by simp), h0]
        | succ i =>
          right
          rw [List.length_cons] at hi
          exact ⟨i, by omega, by rw [hv p (q :: H) i (by omega), hv p (q :: H) (i + 1) (by omega)]⟩

/-! ### Main statements -/

theorem collinear_of_two {a b p q r : Pt} (hab : a ≠ b) (hp : det a b p = 0) (hq : det a b q = 0)
    (hr : det a b r = 0) : det p q r = 0 := by
  unfold det at *
  have h1 : (b.1 - a.1) * ((q.1 - p.1) * (r.2 - p.2) - (q.2 - p.2) * (r.1 - p.1)) = 0 := by
    linear_combination (q.1 - p.1) * (hr - hp) - (r.1 - p.1) * (hq - hp)
  have h2 : (b.2 - a.2) * ((q.1 - p.1) * (r.2 - p.2) - (q.2 - p.2) * (r.1 - p.1)) = 0 := by
    linear_combination (q.2 - p.2) * (hr - hp) - (r.2 - p.2) * (hq - hp)
  by_cases h : b.1 - a.1 = 0
  · have : b.2 - a.2 ≠ 0 := by
      intro h'
      exact hab (Prod.ext (by omega) (by omega))
    exact (mul_eq_zero.1 h2).resolve_left this
  · exact (mul_eq_zero.1 h1).resolve_left h

theorem hull_two_ne {pts : List Pt} {a b : Pt} (hne : ∃ a ∈ pts, ∃ b ∈ pts, a ≠ b)
    (h : convexHull pts = [a, b]) : a ≠ b := by
  obtain ⟨s, st, e, hs, G, hab, t, r, rfl, hlast⟩ := hull_good pts hne
  have h1 := congrArg List.reverse (e.symm.trans h)
  rw [List.reverse_reverse] at h1
  simp only [List.reverse_cons, List.reverse_nil, List.nil_append, List.cons_append,
    List.cons.injEq] at h1
  obtain ⟨rfl, rfl⟩ := h1
  have := G.head.2
  cases G with
  | base _ g1 g2 g3 => exact this.symm

/-- The hull of points that are not on one line. -/
theorem hull_convex {pts : List Pt} (hnc : ∃ a ∈ pts, ∃ b ∈ pts, ∃ c ∈ pts, det a b c ≠ 0) :
    Convex (convexHull pts) (· ∈ pts) := by
  obtain ⟨a, ha, b, hb, c, hc, hd⟩ := hnc
  have hne : ∃ a ∈ pts, ∃ b ∈ pts, a ≠ b := by
    refine ⟨a, ha, b, hb, ?_⟩
    rintro rfl
    exact hd (by unfold det; ring)
  obtain ⟨h1, h2, h3, h4⟩ := C54_hull pts hne
  have hlen : 3 ≤ (convexHull pts).length := by
    by_contra hlt
    have h2' : (convexHull pts).length = 2 := by omega
    obtain ⟨x, y, hxy⟩ := List.length_eq_two.1 h2'
    have hs := C54_segment pts x y hxy
    exact hd (collinear_of_two (hull_two_ne hne hxy) (hs a ha).1 (hs b hb).1 (hs c hc).1)
  exact ⟨hlen, h2, h3, h4 hlen⟩

theorem Convex.boxRect_has {p : Pt} {l : List Pt} {P : Pt → Prop} (C : Convex (p :: l) P) (θ : ℝ)
    {q : Pt} (hq : P q) : (boxRect p l θ).Has q := by
  have h1 := C.le_top (Real.cos θ) (Real.sin θ) q hq
  have h2 := C.le_top (-Real.cos θ) (-Real.sin θ) q hq
  have h3 := C.le_top (-Real.sin θ) (Real.cos θ) q hq
  have h4 := C.le_top (- -Real.sin θ) (-Real.cos θ) q hq
  rw [comp_neg] at h2 h4
  unfold Rect.Has boxRect
  dsimp only
  exact ⟨by linarith, h1, by linarith, h3⟩

theorem boxArea_le_area {p : Pt} {l : List Pt} (R : Rect) (h : ∀ q ∈ p :: l, R.Has q) :
    boxArea R.c R.s p l ≤ R.area := by
  unfold boxArea width Rect.area
  obtain ⟨a, ha, ea⟩ := top_mem (comp R.c R.s) p l
  obtain ⟨b, hb, eb⟩ := top_mem (comp (-R.c) (-R.s)) p l
  obtain ⟨c, hc, ec⟩ := top_mem (comp (-R.s) R.c) p l
  obtain ⟨d, hd, ed⟩ := top_mem (comp (- -R.s) (-R.c)) p l
  have n1 := width_nonneg R.c R.s p l
  have n2 := width_nonneg (-R.s) R.c p l
  unfold width at n1 n2
  rw [comp_neg] at eb ed
  refine mul_le_mul ?_ ?_ n2 ?_
  · rw [ea, eb]; linarith [(h a ha).2.1, (h b hb).1]
  · rw [ec, ed]; linarith [(h c hc).2.2.2, (h d hd).2.2.1]
  · linarith [(h p (by simp)).2.1, (h p (by simp)).1]

theorem Convex.ne {H : List Pt} {P : Pt → Prop} (C : Convex H P) (i : Nat) :
    vertex H i ≠ vertex H (i + 1) := by
  intro h
  have := C.turn i
  rw [h] at this
  unfold det at this
  simp at this

/-- Index of a cyclic edge within the list: either a `windows(2)` edge or the closing edge. -/
theorem edge_cases {H : List Pt} (hH : 2 ≤ H.length) (i : Nat) :
    ∃ j, j < H.length ∧ vertex H i = vertex H j ∧
      vertex H (i + 1) = vertex H (j + 1) := by
  refine ⟨i % H.length, Nat.mod_lt _ (by omega), ?_, ?_⟩
  · unfold vertex; rw [Nat.mod_mod]
  · unfold vertex
    rw [Nat.mod_add_mod]

/-- **C110** (partial: before the corners are rounded, and up to the edge between the last and the first hull
vertex).  For points that are not all on one line, the corners that are rounded are those of a rectangle
that contains all points.  This rectangle has the least area of all rectangles, in all directions,
that contain the points -- unless the least one has a side along the edge that joins the last
vertex of the convex hull to the first one and is strictly smaller. -/
theorem C110_least_partial (pts : List Pt) (hnc : ∃ a ∈ pts, ∃ b ∈ pts, ∃ c ∈ pts, det a b c ≠ 0) :
    ∃ R : Rect, minAreaRect pts = labelCorners R.corners ∧ (∀ q ∈ pts, R.Has q) ∧
      ((∀ R' : Rect, (∀ q ∈ pts, R'.Has q) → R.area ≤ R'.area) ∨
       ∃ S : Rect, S.Along (vertex (convexHull pts) ((convexHull pts).length - 1))
          (vertex (convexHull pts) 0) ∧ (∀ q ∈ pts, S.Has q) ∧ S.area < R.area ∧
          ∀ R' : Rect, (∀ q ∈ pts, R'.Has q) → S.area ≤ R'.area) := by
  have C := hull_convex hnc
  have hlen := C.len
  unfold minAreaRect
  generalize convexHull pts = H at C hlen
  match H, C, hlen with
  | [], _, h => simp at h
  | [_], _, h => simp at h
  | [_, _], _, h => simp at h
  | p :: q :: r :: l, C, _ =>
    obtain ⟨θ, h1, h2, h3⟩ := calipers_spec p q (r :: l)
    dsimp only
    rw [h2, Option.bind_some]
    refine ⟨boxRect p (q :: r :: l) θ, rfl, fun x hx => C.boxRect_has θ hx, ?_⟩
    have hbox : ∀ R' : Rect, (∀ q ∈ pts, R'.Has q) → boxArea R'.c R'.s p (q :: r :: l) ≤ R'.area :=
      fun R' h => boxArea_le_area R' fun x hx => h x (C.mem x hx)
    -- the least box is flush with some edge `j`
    obtain ⟨c, s, hu, hmin⟩ := exists_min_box p (q :: r :: l)
    obtain ⟨i, hi⟩ := C.min_flush hu hmin
    obtain ⟨j, hj, e1, e2⟩ := edge_cases (H := p :: q :: r :: l) (by simp) i
    rw [e1, e2] at hi
    set φ := edgeAngle (vertex (p :: q :: r :: l) j) (vertex (p :: q :: r :: l) (j + 1)) with hφ
    have hal := edgeAngle_along (vertex (p :: q :: r :: l) j) (vertex (p :: q :: r :: l) (j + 1))
    rw [← hφ] at hal
    have hphi : (boxRect p (q :: r :: l) φ).area = boxArea c s p (q :: r :: l) := by
      rw [boxRect_area]
      exact boxArea_eq_of_along (C.ne j)
        (by rw [add_comm]; exact Real.sin_sq_add_cos_sq φ) hu hal hi _ _
    have hleast : ∀ R' : Rect, (∀ q ∈ pts, R'.Has q) → (boxRect p (q :: r :: l) φ).area ≤ R'.area := by
      intro R' h
      rw [hphi]
      exact (hmin _ _ R'.unit).trans (hbox R' h)
    by_cases hle : (boxRect p (q :: r :: l) θ).area ≤ (boxRect p (q :: r :: l) φ).area
    · exact Or.inl fun R' h => hle.trans (hleast R' h)
    · right
      have hj' : j = (p :: q :: r :: l).length - 1 := by
        by_contra hne
        refine hle (h3 φ ?_)
        rw [mem_edgeAngles]
        exact ⟨j, by omega, hφ⟩
      refine ⟨boxRect p (q :: r :: l) φ, ?_, fun x hx => C.boxRect_has φ hx, not_le.1 hle, hleast⟩
      have hlast : vertex (p :: q :: r :: l) (j + 1) = vertex (p :: q :: r :: l) 0 := by
        have h0 : (p :: q :: r :: l).length = l.length + 3 := by simp
        rw [show j + 1 = 0 + (p :: q :: r :: l).length by omega, vertex_add_length]
      rw [← hj', ← hlast]
      exact hal

/-- C110: no points panic. -/
theorem C110_empty : minAreaRect [] = none := rfl

/-- C110: points that are all on one line give the segment between two of them that contains all points;
equal points give that point. -/
theorem C110_collinear (pts : List Pt) (hne : pts ≠ [])
    (hc : ∀ a ∈ pts, ∀ b ∈ pts, ∀ c ∈ pts, det a b c = 0) :
    ∃ a ∈ pts, ∃ b ∈ pts, minAreaRect pts = some [a, b, b, a] ∧
      ∀ q ∈ pts, det a b q = 0 ∧ 0 ≤ dot a q b ∧ dot a q b ≤ distSq a b ∧ (a = b → q = a) := by
  by_cases hd : ∃ a ∈ pts, ∃ b ∈ pts, a ≠ b
  · obtain ⟨h1, h2, h3, h4⟩ := C54_hull pts hd
    have hlen : (convexHull pts).length = 2 := by
      by_contra hn
      have h3' : 3 ≤ (convexHull pts).length := by omega
      have hnil : convexHull pts ≠ [] := by intro h; rw [h] at h3'; simp at h3'
      have := h4 h3' 0
      rw [hc _ (h2 _ (vertex_mem hnil _)) _ (h2 _ (vertex_mem hnil _)) _ (h2 _ (vertex_mem hnil _))]
        at this
      exact absurd this (lt_irrefl _)
    obtain ⟨a, b, hab⟩ := List.length_eq_two.1 hlen
    refine ⟨a, h2 a (by rw [hab]; simp), b, h2 b (by rw [hab]; simp), ?_, ?_⟩
    · unfold minAreaRect; rw [hab]
    · intro q hq
      obtain ⟨g1, g2, g3⟩ := C54_segment pts a b hab q hq
      exact ⟨g1, g2, g3, fun h => absurd h (hull_two_ne hd hab)⟩
  · push Not at hd
    obtain ⟨p, hp⟩ := List.exists_mem_of_ne_nil pts hne
    have hall : ∀ q ∈ pts, q = p := fun q hq => hd q hq p hp
    rcases C54_degenerate pts p hall with ⟨h, -⟩ | ⟨-, h⟩
    · exact absurd h hne
    · refine ⟨p, hp, p, hp, ?_, ?_⟩
      · unfold minAreaRect
        rcases h with h | h <;> rw [h]
      · intro q hq
        rw [hall q hq]
        unfold det dot distSq
        simp

/-- C110: the returned points are the rounded corners: the two left corners first and last, the
two right corners in between, the upper one of each pair first; left corners are rounded to the left, right
corners to the right, upper corners up, lower corners down. -/
theorem C110_labels (res : List (ℝ × ℝ)) (hl : res.length = 4) :
    ∃ tl tr br bl : ℝ × ℝ, [tl, tr, br, bl].Perm res ∧
      max tl.1 bl.1 ≤ min tr.1 br.1 ∧ tl.2 ≤ bl.2 ∧ tr.2 ≤ br.2 ∧
      labelCorners res = some [(⌊tl.1⌋, ⌊tl.2⌋), (⌈tr.1⌉, ⌊tr.2⌋), (⌈br.1⌉, ⌈br.2⌉), (⌊bl.1⌋, ⌈bl.2⌉)] := by
  classical
  unfold labelCorners
  have hperm := sortBy_perm (fun a b : ℝ × ℝ => decide (a.1 < b.1)) res
  have hpw : (sortBy (fun a b : ℝ × ℝ => decide (a.1 < b.1)) res).Pairwise (fun a b => a.1 ≤ b.1) := by
    refine sortBy_pairwise (S := fun _ => True) ?_ ?_ ?_ res (fun _ _ => trivial)
    · intro a b _ _ h
      exact (of_decide_eq_true h).le
    · intro a b _ _ h
      exact not_lt.1 (of_decide_eq_false h)
    · intro a b c _ _ _ h1 h2
      exact h1.trans h2
  have hlen := hperm.length_eq
  rw [hl] at hlen
  generalize sortBy (fun a b : ℝ × ℝ => decide (a.1 < b.1)) res = t at *
  match t, hlen with
  | [r0, r1, r2, r3], _ =>
    simp only [List.pairwise_cons, List.mem_cons, List.not_mem_nil, or_false, forall_eq_or_imp,
      forall_eq] at hpw
    obtain ⟨⟨a1, a2, a3⟩, ⟨b1, b2⟩, b3, -⟩ := hpw
    dsimp only
    have hm : max r0.1 r1.1 ≤ min r2.1 r3.1 := max_le (le_min a2 a3) (le_min b1 b2)
    by_cases h1 : r1.2 > r0.2
    · by_cases h2 : r3.2 > r2.2
      · refine ⟨r0, r2, r3, r1, ?_, hm, h1.le, h2.le, by simp only [if_pos h1, if_pos h2]⟩
        refine List.Perm.trans ?_ hperm
        exact (List.Perm.cons r0 (List.perm_append_comm (l₁ := [r2, r3]) (l₂ := [r1])))
      · refine ⟨r0, r3, r2, r1, ?_, by rw [min_comm]; exact hm, h1.le, not_lt.1 h2,
          by simp only [if_pos h1, if_neg h2]⟩
        refine List.Perm.trans ?_ hperm
        refine (List.Perm.cons r0 ((List.perm_append_comm (l₁ := [r3, r2]) (l₂ := [r1])).trans ?_))
        exact List.Perm.cons r1 (List.Perm.swap r2 r3 [])
    · by_cases h2 : r3.2 > r2.2
      · refine ⟨r1, r2, r3, r0, ?_, by rw [max_comm]; exact hm, not_lt.1 h1, h2.le,
          by simp only [if_neg h1, if_pos h2]⟩
        refine List.Perm.trans ?_ hperm
        exact List.perm_append_comm (l₁ := [r1, r2, r3]) (l₂ := [r0])
      · refine ⟨r1, r3, r2, r0, ?_, by rw [max_comm, min_comm]; exact hm, not_lt.1 h1, not_lt.1 h2,
          by simp only [if_neg h1, if_neg h2]⟩
        refine List.Perm.trans ?_ hperm
        refine (List.perm_append_comm (l₁ := [r1, r3, r2]) (l₂ := [r0])).trans ?_
        exact List.Perm.cons r0 (List.Perm.cons r1 (List.Perm.swap r2 r3 []))

/-! ### Containment after rounding -/

/-- Up to less than `d` in each coordinate, the point is a weighted mean of the four returned points: it is
that close to the quadrilateral. -/
def NearQuad (out : List Pt) (d : ℝ) (q : Pt) : Prop :=
  ∃ a b c e : Pt, out = [a, b, c, e] ∧ ∃ w1 w2 w3 w4 : ℝ, 0 ≤ w1 ∧ 0 ≤ w2 ∧ 0 ≤ w3 ∧ 0 ≤ w4 ∧
    w1 + w2 + w3 + w4 = 1 ∧
    |w1 * a.1 + w2 * b.1 + w3 * c.1 + w4 * e.1 - q.1| < d ∧
    |w1 * a.2 + w2 * b.2 + w3 * c.2 + w4 * e.2 - q.2| < d

theorem floor_near (x : ℝ) : |(⌊x⌋ : ℝ) - x| < 1 := by
  have := Int.floor_le x
  have := Int.lt_floor_add_one x
  rw [abs_lt]; constructor <;> linarith

theorem ceil_near (x : ℝ) : |(⌈x⌉ : ℝ) - x| < 1 := by
  have := Int.le_ceil x
  have := Int.ceil_lt_add_one x
  rw [abs_lt]; constructor <;> linarith

theorem mean_lt {w1 w2 w3 w4 x1 x2 x3 x4 : ℝ} (h1 : 0 ≤ w1) (h2 : 0 ≤ w2)
    (h3 : 0 ≤ w3) (h4 : 0 ≤ w4) (hs : w1 + w2 + w3 + w4 = 1) (a1 : |x1| < 1) (a2 : |x2| < 1) (a3 : |x3| < 1)
    (a4 : |x4| < 1) : |w1 * x1 + w2 * x2 + w3 * x3 + w4 * x4| < 1 := by
  have m1 : max (max |x1| |x2|) (max |x3| |x4|) < 1 := max_lt (max_lt a1 a2) (max_lt a3 a4)
  set m := max (max |x1| |x2|) (max |x3| |x4|) with hm
  have b : ∀ {w x : ℝ}, 0 ≤ w → |x| ≤ m → |w * x| ≤ w * m := by
    intro w x hw hx
    rw [abs_mul, abs_of_nonneg hw]
    exact mul_le_mul_of_nonneg_left hx hw
  have c1 := b h1 (show |x1| ≤ m from le_trans (le_max_left _ _) (le_max_left _ _))
  have c2 := b h2 (show |x2| ≤ m from le_trans (le_max_right _ _) (le_max_left _ _))
  have c3 := b h3 (show |x3| ≤ m from le_trans (le_max_left _ _) (le_max_right _ _))
  have c4 := b h4 (show |x4| ≤ m from le_trans (le_max_right _ _) (le_max_right _ _))
  have t1 := abs_add_le (w1 * x1 + w2 * x2 + w3 * x3) (w4 * x4)
  have t2 := abs_add_le (w1 * x1 + w2 * x2) (w3 * x3)
  have t3 := abs_add_le (w1 * x1) (w2 * x2)
  have : w1 * m + w2 * m + w3 * m + w4 * m = m := by rw [← add_mul, ← add_mul, ← add_mul, hs, one_mul]
  linarith

/-- Rounding four corners moves a weighted mean by less than one pixel. -/
theorem labelCorners_near {r1 r2 r3 r4 : ℝ × ℝ} {w1 w2 w3 w4 e : ℝ} {q : Pt} (h1 : 0 ≤ w1) (h2 : 0 ≤ w2)
    (h3 : 0 ≤ w3) (h4 : 0 ≤ w4) (hs : w1 + w2 + w3 + w4 = 1)
    (hx : |w1 * r1.1 + w2 * r2.1 + w3 * r3.1 + w4 * r4.1 - q.1| ≤ e)
    (hy : |w1 * r1.2 + w2 * r2.2 + w3 * r3.2 + w4 * r4.2 - q.2| ≤ e) :
    ∃ out, labelCorners [r1, r2, r3, r4] = some out ∧ NearQuad out (1 + e) q := by
  obtain ⟨tl, tr, br, bl, hp, -, -, -, ho⟩ := C110_labels [r1, r2, r3, r4] rfl
  have hf : List.Forall₂ (fun (y : ℝ × ℝ) (x : ℝ × (ℝ × ℝ)) => x.2 = y) [r1, r2, r3, r4]
      [(w1, r1), (w2, r2), (w3, r3), (w4, r4)] := by simp
  obtain ⟨L, hL, hP⟩ := List.perm_comp_forall₂ hp hf
  have hsum : ∀ f : ℝ × (ℝ × ℝ) → ℝ, (L.map f).sum =
      f (w1, r1) + f (w2, r2) + f (w3, r3) + f (w4, r4) := by
    intro f
    rw [(hP.map f).sum_eq]
    simp only [List.map_cons, List.map_nil, List.sum_cons, List.sum_nil]
    ring
  have hmem : ∀ x ∈ L, 0 ≤ x.1 := by
    intro x hx
    have := hP.mem_iff.1 hx
    simp only [List.mem_cons, List.not_mem_nil, or_false] at this
    rcases this with rfl | rfl | rfl | rfl <;> assumption
  match L, hL with
  | [(v1, s1), (v2, s2), (v3, s3), (v4, s4)], hL =>
    simp only [List.forall₂_cons, List.forall₂_nil_left_iff, and_true] at hL
    obtain ⟨rfl, rfl, rfl, rfl⟩ := hL
    simp only [List.mem_cons, List.not_mem_nil, or_false, forall_eq_or_imp, forall_eq] at hmem
    obtain ⟨p1, p2, p3, p4⟩ := hmem
    have g0 := hsum fun x => x.1
    have gx := hsum fun x => x.1 * x.2.1
    have gy := hsum fun x => x.1 * x.2.2
    simp only [List.map_cons, List.map_nil, List.sum_cons, List.sum_nil, add_zero] at g0 gx gy
    have gs : v1 + v2 + v3 + v4 = 1 := by linarith
    refine ⟨_, ho, _, _, _, _, rfl, v1, v2, v3, v4, p1, p2, p3, p4, gs, ?_, ?_⟩
    · have k := mean_lt (x1 := (⌊s1.1⌋ : ℝ) - s1.1) (x2 := (⌈s2.1⌉ : ℝ) - s2.1) (x3 := (⌈s3.1⌉ : ℝ) - s3.1)
        (x4 := (⌊s4.1⌋ : ℝ) - s4.1) p1 p2 p3 p4 gs (floor_near _) (ceil_near _) (ceil_near _) (floor_near _)
      rw [← gx] at hx
      rw [abs_lt] at k ⊢
      rw [abs_le] at hx
      constructor <;> linarith [k.1, k.2, hx.1, hx.2]
    · have k := mean_lt (x1 := (⌊s1.2⌋ : ℝ) - s1.2) (x2 := (⌊s2.2⌋ : ℝ) - s2.2) (x3 := (⌈s3.2⌉ : ℝ) - s3.2)
        (x4 := (⌈s4.2⌉ : ℝ) - s4.2) p1 p2 p3 p4 gs (floor_near _) (floor_near _) (ceil_near _) (ceil_near _)
      rw [← gy] at hy
      rw [abs_lt] at k ⊢
      rw [abs_le] at hy
      constructor <;> linarith [k.1, k.2, hy.1, hy.2]

/-- A point of the rectangle is a weighted mean of the corners. -/
theorem Rect.weights (R : Rect) {q : Pt} (h : R.Has q) : ∃ w1 w2 w3 w4 : ℝ, 0 ≤ w1 ∧ 0 ≤ w2 ∧ 0 ≤ w3 ∧ 0 ≤ w4 ∧
    w1 + w2 + w3 + w4 = 1 ∧
    w1 * (R.corner R.hi1 R.lo2).1 + w2 * (R.corner R.lo1 R.lo2).1 + w3 * (R.corner R.lo1 R.hi2).1 +
      w4 * (R.corner R.hi1 R.hi2).1 = q.1 ∧
    w1 * (R.corner R.hi1 R.lo2).2 + w2 * (R.corner R.lo1 R.lo2).2 + w3 * (R.corner R.lo1 R.hi2).2 +
      w4 * (R.corner R.hi1 R.hi2).2 = q.2 := by
  obtain ⟨a1, a2, b1, b2⟩ := h
  have frac : ∀ {lo hi x : ℝ}, lo ≤ x → x ≤ hi → ∃ u, 0 ≤ u ∧ u ≤ 1 ∧ lo + u * (hi - lo) = x := by
    intro lo hi x h1 h2
    rcases eq_or_lt_of_le (h1.trans h2) with e | e
    · exact ⟨0, le_refl _, zero_le_one, by linarith⟩
    · have p : 0 < hi - lo := by linarith
      refine ⟨(x - lo) / (hi - lo), div_nonneg (by linarith) p.le, ?_, ?_⟩
      · rw [div_le_one p]; linarith
      · rw [div_mul_cancel₀ _ p.ne']; ring
  obtain ⟨u, u0, u1, hu⟩ := frac a1 a2
  obtain ⟨v, v0, v1, hv⟩ := frac b1 b2
  have hn := R.unit
  unfold comp at hu hv
  refine ⟨u * (1 - v), (1 - u) * (1 - v), (1 - u) * v, u * v, mul_nonneg u0 (by linarith),
    mul_nonneg (by linarith) (by linarith), mul_nonneg (by linarith) v0, mul_nonneg u0 v0, by ring, ?_, ?_⟩
  · unfold Rect.corner
    dsimp only
    linear_combination R.c * hu - R.s * hv + (q.1 : ℝ) * hn
  · unfold Rect.corner
    dsimp only
    linear_combination R.s * hu + R.c * hv + (q.2 : ℝ) * hn

/-- C110 (after rounding): every point is less than one pixel, in each coordinate, away from the returned
quadrilateral. -/
theorem C110_near (pts : List Pt) (hnc : ∃ a ∈ pts, ∃ b ∈ pts, ∃ c ∈ pts, det a b c ≠ 0) :
    ∃ out, minAreaRect pts = some out ∧ ∀ q ∈ pts, NearQuad out 1 q := by
  obtain ⟨R, h1, h2, -⟩ := C110_least_partial pts hnc
  obtain ⟨a, ha, -⟩ := hnc
  have key : ∀ q ∈ pts, ∃ out, minAreaRect pts = some out ∧ NearQuad out 1 q := by
    intro q hq
    obtain ⟨w1, w2, w3, w4, g1, g2, g3, g4, gs, gx, gy⟩ := R.weights (h2 q hq)
    obtain ⟨out, e1, e2⟩ := labelCorners_near (e := 0) (q := q) g1 g2 g3 g4 gs
      (by rw [gx, sub_self, abs_zero]) (by rw [gy, sub_self, abs_zero])
    rw [add_zero] at e2
    exact ⟨out, h1.trans e1, e2⟩
  obtain ⟨out, e, -⟩ := key a ha
  refine ⟨out, e, fun q hq => ?_⟩
  obtain ⟨out', e', h⟩ := key q hq
  rw [e] at e'
  cases e'
  exact h

/-! ### The claim is false after rounding, and because of the closing edge -/

theorem top_eq {f : Pt → ℝ} {p : Pt} {l : List Pt} {M : ℝ} (h1 : ∃ q ∈ p :: l, f q = M)
    (h2 : ∀ q ∈ p :: l, f q ≤ M) : top f p l = M := by
  obtain ⟨q, hq, rfl⟩ := h1
  obtain ⟨r, hr, e⟩ := top_mem f p l
  exact le_antisymm (e ▸ h2 r hr) (le_top f p l q hq)

theorem edgeAngle_quadrant {p q : Pt} {c s k : ℝ} (hk : 0 < k) (hk2 : k ^ 2 * (c ^ 2 + s ^ 2) = 1)
    (hc : (q.1 : ℝ) - p.1 = c) (hs : (q.2 : ℝ) - p.2 = s) (c0 : 0 < c) (s0 : 0 ≤ s) :
    Real.cos (edgeAngle p q) = c * k ∧ Real.sin (edgeAngle p q) = s * k := by
  set z : ℂ := ⟨c, s⟩ with hz
  have hpi := Real.pi_pos
  have h1 : 0 ≤ Complex.arg z := Complex.arg_nonneg_iff.2 s0
  have h2 : Complex.arg z < Real.pi / 2 := by
    have := Complex.abs_arg_lt_pi_div_two_iff.2 (Or.inl (show 0 < z.re from c0))
    exact (abs_lt.1 this).2
  have he : edgeAngle p q = Complex.arg z := by
    unfold edgeAngle fmod toReal
    dsimp only
    rw [hc, hs, ← hz]
    have hf : ⌊(Complex.arg z + Real.pi) / (Real.pi / 2)⌋ = 2 := by
      rw [Int.floor_eq_iff]
      constructor
      · rw [le_div_iff₀ (by linarith)]; push_cast; linarith
      · rw [div_lt_iff₀ (by linarith)]; push_cast; linarith
    rw [hf]
    have : Complex.arg z + Real.pi - Real.pi / 2 * ((2 : ℤ) : ℝ) = Complex.arg z := by push_cast; ring
    rw [this, abs_of_nonneg h1]
  have hn : ‖z‖ * k = 1 := by
    have h3 : (‖z‖ * k) ^ 2 = 1 := by
      rw [mul_pow, Complex.sq_norm, Complex.normSq_apply, ← hk2]; ring
    have h4 : 0 ≤ ‖z‖ * k := mul_nonneg (norm_nonneg _) hk.le
    nlinarith
  have hx : ‖z‖ * Real.cos (Complex.arg z) = c := Complex.norm_mul_cos_arg z
  have hy : ‖z‖ * Real.sin (Complex.arg z) = s := Complex.norm_mul_sin_arg z
  rw [he]
  constructor
  · calc _ = Real.cos (Complex.arg z) * (‖z‖ * k) := by rw [hn, mul_one]
      _ = (‖z‖ * Real.cos (Complex.arg z)) * k := by ring
      _ = _ := by rw [hx]
  · calc _ = Real.sin (Complex.arg z) * (‖z‖ * k) := by rw [hn, mul_one]
      _ = (‖z‖ * Real.sin (Complex.arg z)) * k := by ring
      _ = _ := by rw [hy]

/-- C110 is false as stated in the documentation: for the triangle `(0,0), (1,0), (2,2)` the point `(1, 0)` is
outside the returned quadrilateral (it and the other two corners are on different sides of the line through
the first two corners), and before rounding the rectangle has area 12/5 while a
rectangle of area 2 contains the points. -/
theorem C110_negation :
    minAreaRect [(0, 0), (1, 0), (2, 2)] = some [(0, -1), (2, 2), (2, 3), (0, 0)] ∧
    det (0, -1) (2, 2) (1, 0) < 0 ∧ 0 < det (0, -1) (2, 2) (2, 3) ∧ 0 < det (0, -1) (2, 2) (0, 0) ∧
    (∃ c, calipers (0, 0) [(1, 0), (2, 2)] = some (12 / 5, c)) ∧
    ∃ R : Rect, (∀ q ∈ [((0, 0) : Pt), (1, 0), (2, 2)], R.Has q) ∧ R.area = 2 := by
  have hhull : convexHull [(0, 0), (1, 0), (2, 2)] = [(0, 0), (1, 0), (2, 2)] := by decide +kernel
  set k : ℝ := (Real.sqrt 5)⁻¹ with hk
  have hk0 : 0 < k := by positivity
  have hk2 : k ^ 2 = 1 / 5 := by
    rw [hk, inv_pow, Real.sq_sqrt (by norm_num)]; norm_num
  obtain ⟨c1, s1⟩ := edgeAngle_quadrant (p := (0, 0)) (q := (1, 0)) (c := 1) (s := 0) (k := 1)
    (by norm_num) (by norm_num) (by norm_num) (by norm_num) (by norm_num) (by norm_num)
  obtain ⟨c2, s2⟩ := edgeAngle_quadrant (p := (1, 0)) (q := (2, 2)) (c := 1) (s := 2) (k := k)
    hk0 (by rw [hk2]; norm_num) (by norm_num) (by norm_num) (by norm_num) (by norm_num)
  set θ := edgeAngle (0, 0) (1, 0) with hθ
  set φ := edgeAngle (1, 0) (2, 2) with hφ
  have hne : θ ≠ φ := by
    intro h
    rw [h, s2] at s1
    nlinarith
  have t1 : top (comp k (2 * k)) (0, 0) [(1, 0), (2, 2)] = 6 * k :=
    top_eq ⟨(2, 2), by simp, by unfold comp; push_cast; ring⟩ (by
      simp only [List.mem_cons, List.not_mem_nil, or_false, forall_eq_or_imp, forall_eq, comp]
      push_cast
      refine ⟨?_, ?_, ?_⟩ <;> linarith)
  have t2 : top (comp (-k) (-(2 * k))) (0, 0) [(1, 0), (2, 2)] = 0 :=
    top_eq ⟨(0, 0), by simp, by unfold comp; push_cast; ring⟩ (by
      simp only [List.mem_cons, List.not_mem_nil, or_false, forall_eq_or_imp, forall_eq, comp]
      push_cast
      refine ⟨?_, ?_, ?_⟩ <;> linarith)
  have t3 : top (comp (-(2 * k)) k) (0, 0) [(1, 0), (2, 2)] = 0 :=
    top_eq ⟨(0, 0), by simp, by unfold comp; push_cast; ring⟩ (by
      simp only [List.mem_cons, List.not_mem_nil, or_false, forall_eq_or_imp, forall_eq, comp]
      push_cast
      refine ⟨?_, ?_, ?_⟩ <;> linarith)
  have t4 : top (comp (- -(2 * k)) (-k)) (0, 0) [(1, 0), (2, 2)] = 2 * k :=
    top_eq ⟨(1, 0), by simp, by unfold comp; push_cast; ring⟩ (by
      simp only [List.mem_cons, List.not_mem_nil, or_false, forall_eq_or_imp, forall_eq, comp]
      push_cast
      refine ⟨?_, ?_, ?_⟩ <;> linarith)
  have u1 : top (comp 1 0) (0, 0) [(1, 0), (2, 2)] = 2 :=
    top_eq ⟨(2, 2), by simp, by unfold comp; push_cast; ring⟩ (by
      simp only [List.mem_cons, List.not_mem_nil, or_false, forall_eq_or_imp, forall_eq, comp]
      push_cast
      refine ⟨?_, ?_, ?_⟩ <;> norm_num)
  have u2 : top (comp (-1) (-0)) (0, 0) [(1, 0), (2, 2)] = 0 :=
    top_eq ⟨(0, 0), by simp, by unfold comp; push_cast; ring⟩ (by
      simp only [List.mem_cons, List.not_mem_nil, or_false, forall_eq_or_imp, forall_eq, comp]
      push_cast
      refine ⟨?_, ?_, ?_⟩ <;> norm_num)
  have u3 : top (comp (-0) 1) (0, 0) [(1, 0), (2, 2)] = 2 :=
    top_eq ⟨(2, 2), by simp, by unfold comp; push_cast; ring⟩ (by
      simp only [List.mem_cons, List.not_mem_nil, or_false, forall_eq_or_imp, forall_eq, comp]
      push_cast
      refine ⟨?_, ?_, ?_⟩ <;> norm_num)
  have u4 : top (comp (- -0) (-1)) (0, 0) [(1, 0), (2, 2)] = 0 :=
    top_eq ⟨(0, 0), by simp, by unfold comp; push_cast; ring⟩ (by
      simp only [List.mem_cons, List.not_mem_nil, or_false, forall_eq_or_imp, forall_eq, comp]
      push_cast
      refine ⟨?_, ?_, ?_⟩ <;> norm_num)
  have aθ : (boxRect (0, 0) [(1, 0), (2, 2)] θ).area = 4 := by
    rw [boxRect_area, c1, s1, one_mul, zero_mul]
    unfold boxArea width
    rw [u1, u2, u3, u4]; norm_num
  have aφ : (boxRect (0, 0) [(1, 0), (2, 2)] φ).area = 12 / 5 := by
    rw [boxRect_area, c2, s2, one_mul]
    unfold boxArea width
    rw [t1, t2, t3, t4]
    linear_combination 12 * hk2
  have cφ : (boxRect (0, 0) [(1, 0), (2, 2)] φ).corners =
      [(2, 2), (4 / 5, -2 / 5), (0, 0), (6 / 5, 12 / 5)] := by
    unfold Rect.corners Rect.corner boxRect
    dsimp only
    rw [c2, s2, one_mul, t1, t2, t3, t4]
    simp only [List.cons.injEq, Prod.mk.injEq, and_true]
    refine ⟨⟨?_, ?_⟩, ⟨?_, ?_⟩, ⟨?_, ?_⟩, ?_, ?_⟩
    · linear_combination 10 * hk2
    · linear_combination 10 * hk2
    · linear_combination 4 * hk2
    · linear_combination -2 * hk2
    · ring
    · ring
    · linear_combination 6 * hk2
    · linear_combination 12 * hk2
  have hcal : calipers (0, 0) [(1, 0), (2, 2)] =
      some (12 / 5, [(2, 2), (4 / 5, -2 / 5), (0, 0), (6 / 5, 12 / 5)]) := by
    unfold calipers
    have : dedup (edgeAngles [((0, 0) : Pt), (1, 0), (2, 2)]) = [θ, φ] := by
      unfold edgeAngles edgeAngles edgeAngles
      rw [← hθ, ← hφ]
      unfold dedup dedup
      rw [if_neg hne]
    rw [this, List.foldl_cons, List.foldl_cons, List.foldl_nil, caliperStep_eq, caliperStep_eq]
    dsimp only
    rw [if_pos (by rw [aθ, aφ]; norm_num), aφ, cφ]
  refine ⟨?_, by decide, by decide, by decide, ⟨_, hcal⟩, ?_⟩
  · unfold minAreaRect
    rw [hhull]
    dsimp only
    rw [hcal, Option.bind_some]
    dsimp only
    unfold labelCorners
    have hs : ∀ inst : (a b : ℝ × ℝ) → Decidable (a.1 < b.1),
        sortBy (fun a b => @decide (a.1 < b.1) (inst a b))
          [((2, 2) : ℝ × ℝ), (4 / 5, -2 / 5), (0, 0), (6 / 5, 12 / 5)] =
        [(0, 0), (4 / 5, -2 / 5), (6 / 5, 12 / 5), (2, 2)] := by
      intro inst
      norm_num [sortBy, insertBy]
    rw [hs]
    norm_num
  · have h2 : (Real.sqrt 2)⁻¹ ^ 2 = 1 / 2 := by
      rw [inv_pow, Real.sq_sqrt (by norm_num)]; norm_num
    set m : ℝ := (Real.sqrt 2)⁻¹ with hm
    have m0 : 0 < m := by positivity
    refine ⟨⟨m, m, by rw [h2]; norm_num, 0, 4 * m, -m, 0⟩, ?_, ?_⟩
    · simp only [List.mem_cons, List.not_mem_nil, or_false, forall_eq_or_imp, forall_eq, Rect.Has, comp]
      push_cast
      refine ⟨⟨?_, ?_, ?_, ?_⟩, ⟨?_, ?_, ?_, ?_⟩, ?_, ?_, ?_, ?_⟩ <;> linarith
    · unfold Rect.area
      dsimp only
      linear_combination 4 * h2

/-- C110 (unsigned coordinates): the same triangle makes `min_area_rect` panic for `Point<u32>`, because a corner
is rounded to row -1; without negative corners it returns the same points. -/
theorem C110_unsigned_negation : minAreaRectU32 [(0, 0), (1, 0), (2, 2)] = none ∧
    ∀ pts out, minAreaRect pts = some out →
      ((∀ p ∈ out, 0 ≤ p.1 ∧ p.1 < 2 ^ 32 ∧ 0 ≤ p.2 ∧ p.2 < 2 ^ 32) ↔ minAreaRectU32 pts = some out) := by
  constructor
  · unfold minAreaRectU32
    rw [C110_negation.1]
    rfl
  · intro pts out h
    unfold minAreaRectU32
    rw [h, Option.bind_some]
    simp only [List.all_eq_true, decide_eq_true_eq]
    split
    · rename_i g
      exact ⟨fun _ => rfl, fun _ => g⟩
    · rename_i g
      exact ⟨fun h => absurd h g, fun h => by simp at h⟩

end Verif.Geometry
