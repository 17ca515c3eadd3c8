import Verif.Geometry.HullModel
import Mathlib.Tactic.Ring
import Mathlib.Tactic.Linarith
import Mathlib.Tactic.Push
import Mathlib.Tactic.Positivity
import Mathlib.Data.List.Perm.Basic
import Mathlib.Data.List.Chain
/-
Property theorem C54 (convex hull).
-/
namespace Verif.Geometry

/-! ### Specification -/

/-- Twice the signed area of the triangle `a b c`: positive when `c` is strictly to the left of the
directed line from `a` to `b`. -/
def det (a b c : Pt) : Int := (b.1 - a.1) * (c.2 - a.2) - (b.2 - a.2) * (c.1 - a.1)

/-! ### Lemmas -/

theorem orientation_eq (p q r : Pt) : orientation p q r =
    if det p q r = 0 then .collinear else if det p q r < 0 then .clockwise else .counterClockwise := by
  unfold orientation
  have e : (q.2 - p.2) * (r.1 - q.1) - (q.1 - p.1) * (r.2 - q.2) = - det p q r := by
    unfold det; ring
  dsimp only
  rw [e]
  by_cases h0 : det p q r = 0
  · rw [if_pos (by omega), if_pos h0]
  · rw [if_neg (by omega), if_neg h0]
    by_cases h1 : det p q r < 0
    · rw [if_pos (by omega), if_pos h1]
    · rw [if_neg (by omega), if_neg h1]

theorem ccw_iff (p q r : Pt) : orientation p q r = .counterClockwise ↔ 0 < det p q r := by
  rw [orientation_eq]
  split
  · simp; omega
  · split
    · simp; omega
    · simp; omega

theorem before_iff (s a b : Pt) : before s a b = true ↔
    0 < det s a b ∨ (det s a b = 0 ∧ distSq s a < distSq s b) := by
  unfold before
  rw [orientation_eq]
  by_cases h0 : det s a b = 0
  · rw [if_pos h0]; simp [h0]
  · rw [if_neg h0]
    by_cases h1 : det s a b < 0
    · rw [if_pos h1]; simp; omega
    · rw [if_neg h1]; simp; omega

theorem insertBy_perm {α : Type _} (lt : α → α → Bool) (a : α) : ∀ l, (insertBy lt a l).Perm (a :: l)
  | [] => List.Perm.refl _
  | b :: l => by
    rw [insertBy]
    split
    · exact ((insertBy_perm lt a l).cons b).trans (List.Perm.swap a b l)
    · exact List.Perm.refl _

theorem sortBy_perm {α : Type _} (lt : α → α → Bool) : ∀ l, (sortBy lt l).Perm l
  | [] => List.Perm.refl _
  | a :: l => (insertBy_perm lt a _).trans ((sortBy_perm lt l).cons a)

theorem insertBy_pairwise {α : Type _} {lt : α → α → Bool} {r : α → α → Prop} {S : α → Prop}
    (h1 : ∀ a b, S a → S b → lt a b = true → r a b) (h2 : ∀ a b, S a → S b → lt a b = false → r b a)
    (h3 : ∀ a b c, S a → S b → S c → r a b → r b c → r a c) {a : α} (ha : S a) :
    ∀ l, (∀ b ∈ l, S b) → l.Pairwise r → (insertBy lt a l).Pairwise r
  | [], _, _ => List.pairwise_singleton _ _
  | b :: l, hl, hp => by
    rw [insertBy]
    have hb := hl b (List.mem_cons_self ..)
    have hl' : ∀ c ∈ l, S c := fun c hc => hl c (List.mem_cons_of_mem _ hc)
    rw [List.pairwise_cons] at hp
    split
    · rename_i h
      rw [List.pairwise_cons]
      refine ⟨fun c hc => ?_, insertBy_pairwise h1 h2 h3 ha l hl' hp.2⟩
      rcases List.mem_cons.1 ((insertBy_perm lt a l).mem_iff.1 hc) with rfl | hc
      · exact h1 _ _ hb ha h
      · exact hp.1 c hc
    · rename_i h
      have hab : r a b := h2 _ _ hb ha (by simpa using h)
      rw [List.pairwise_cons]
      refine ⟨fun c hc => ?_, List.pairwise_cons.2 hp⟩
      rcases List.mem_cons.1 hc with rfl | hc
      · exact hab
      · exact h3 _ _ _ ha hb (hl' c hc) hab (hp.1 c hc)

theorem sortBy_pairwise {α : Type _} {lt : α → α → Bool} {r : α → α → Prop} {S : α → Prop}
    (h1 : ∀ a b, S a → S b → lt a b = true → r a b) (h2 : ∀ a b, S a → S b → lt a b = false → r b a)
    (h3 : ∀ a b c, S a → S b → S c → r a b → r b c → r a c) :
    ∀ l, (∀ b ∈ l, S b) → (sortBy lt l).Pairwise r
  | [], _ => List.Pairwise.nil
  | a :: l, hl => insertBy_pairwise h1 h2 h3 (hl a (List.mem_cons_self ..)) _
      (fun b hb => hl b (List.mem_cons_of_mem _ ((sortBy_perm lt l).mem_iff.1 hb)))
      (sortBy_pairwise h1 h2 h3 l fun b hb => hl b (List.mem_cons_of_mem _ hb))

/-- `a` comes no later than the start point's position in reading order from the bottom:
the half plane of directions swept by the sort. -/
def Above (s a : Pt) : Prop := s.2 < a.2 ∨ (s.2 = a.2 ∧ s.1 ≤ a.1)

/-- Non-strict version of the sorting order. -/
def Upto (s a b : Pt) : Prop := 0 < det s a b ∨ (det s a b = 0 ∧ distSq s a ≤ distSq s b)

theorem det_swap (s a b : Pt) : det s b a = - det s a b := by unfold det; ring

theorem upto_of_not (s a b : Pt) (h : before s a b = false) : Upto s b a := by
  have h' : ¬ (before s a b = true) := by rw [h]; simp
  rw [before_iff] at h'
  push Not at h'
  unfold Upto
  rw [det_swap s a b]
  rcases lt_trichotomy (det s a b) 0 with h1 | h1 | h1
  · left; omega
  · right; exact ⟨by omega, h'.2 h1⟩
  · omega

/-- Angles in the half plane are transitive through a point other than the start. -/
theorem det_trans {s a b c : Pt} (hb : Above s b) (ha : Above s a) (hc : Above s c) (hbs : b ≠ s)
    (h1 : 0 ≤ det s a b) (h2 : 0 ≤ det s b c) : 0 ≤ det s a c := by
  obtain ⟨s1, s2⟩ := s
  obtain ⟨a1, a2⟩ := a
  obtain ⟨b1, b2⟩ := b
  obtain ⟨c1, c2⟩ := c
  unfold det Above at *
  dsimp only at *
  have hne : ¬ (b1 = s1 ∧ b2 = s2) := fun h => hbs (by rw [h.1, h.2])
  obtain ⟨p, rfl⟩ : ∃ p, a1 = s1 + p := ⟨a1 - s1, by ring⟩
  obtain ⟨q, rfl⟩ : ∃ q, a2 = s2 + q := ⟨a2 - s2, by ring⟩
  obtain ⟨u, rfl⟩ : ∃ p, b1 = s1 + p := ⟨b1 - s1, by ring⟩
  obtain ⟨v, rfl⟩ : ∃ q, b2 = s2 + q := ⟨b2 - s2, by ring⟩
  obtain ⟨x, rfl⟩ : ∃ p, c1 = s1 + p := ⟨c1 - s1, by ring⟩
  obtain ⟨y, rfl⟩ : ∃ q, c2 = s2 + q := ⟨c2 - s2, by ring⟩
  rw [show s1 + p - s1 = p by ring, show s2 + q - s2 = q by ring, show s1 + u - s1 = u by ring,
    show s2 + v - s2 = v by ring] at h1
  rw [show s1 + u - s1 = u by ring, show s2 + v - s2 = v by ring, show s1 + x - s1 = x by ring,
    show s2 + y - s2 = y by ring] at h2
  rw [show s1 + p - s1 = p by ring, show s2 + q - s2 = q by ring, show s1 + x - s1 = x by ring,
    show s2 + y - s2 = y by ring]
  by_contra hcon
  have hq : 0 ≤ q := by omega
  have hy : 0 ≤ y := by omega
  have hv : 0 ≤ v := by omega
  rcases eq_or_lt_of_le hv with h | h
  · -- b on the horizontal ray
    have hu : 0 < u := by omega
    have : q = 0 := by
      rw [← h] at h1
      nlinarith
    have hp : 0 ≤ p := by omega
    subst this
    nlinarith
  · have e : v * (p * y - q * x) = y * (p * v - q * u) + q * (u * y - v * x) := by ring
    nlinarith [mul_nonneg hy h1, mul_nonneg hq h2]

theorem eq_of_distSq {s a : Pt} (h : distSq s a ≤ 0) : a = s := by
  obtain ⟨s1, s2⟩ := s
  obtain ⟨a1, a2⟩ := a
  unfold distSq at h
  dsimp only at h
  have h1 : s1 - a1 = 0 := by nlinarith [sq_nonneg (s1 - a1), sq_nonneg (s2 - a2)]
  have h2 : s2 - a2 = 0 := by nlinarith [sq_nonneg (s1 - a1), sq_nonneg (s2 - a2)]
  rw [Prod.mk.injEq]; omega

/-- Strict transitivity of the angle, second step possibly zero. -/
theorem det_trans_left {s a b c : Pt} (ha : Above s a) (hb : Above s b) (hc : Above s c) (hcs : c ≠ s)
    (h1 : 0 < det s a b) (h2 : 0 ≤ det s b c) : 0 < det s a c := by
  obtain ⟨s1, s2⟩ := s
  obtain ⟨a1, a2⟩ := a
  obtain ⟨b1, b2⟩ := b
  obtain ⟨c1, c2⟩ := c
  unfold det Above at *
  dsimp only at *
  have hne : ¬ (c1 = s1 ∧ c2 = s2) := fun h => hcs (by rw [h.1, h.2])
  generalize e1 : a1 - s1 = p at *
  generalize e2 : a2 - s2 = q at *
  generalize e3 : b1 - s1 = u at *
  generalize e4 : b2 - s2 = v at *
  generalize e5 : c1 - s1 = x at *
  generalize e6 : c2 - s2 = y at *
  have hq : 0 ≤ q := by omega
  have hy : 0 ≤ y := by omega
  have hv : 0 < v := by
    rcases eq_or_lt_of_le (show 0 ≤ v by omega) with h | h
    · have hu : 0 ≤ u := by omega
      rw [← h] at h1
      nlinarith
    · exact h
  have hy : 0 < y := by
    rcases eq_or_lt_of_le (show 0 ≤ y by omega) with h | h
    · have hx : 0 < x := by omega
      rw [← h] at h2
      nlinarith
    · exact h
  have e : v * (p * y - q * x) = y * (p * v - q * u) + q * (u * y - v * x) := by ring
  have : 0 < v * (p * y - q * x) := by
    rw [e]
    have := mul_pos hy h1
    have := mul_nonneg hq h2
    omega
  exact (mul_pos_iff_of_pos_left hv).1 this

/-- Strict transitivity of the angle, first step possibly zero. -/
theorem det_trans_right {s a b c : Pt} (ha : Above s a) (hb : Above s b) (hc : Above s c) (has : a ≠ s)
    (h1 : 0 ≤ det s a b) (h2 : 0 < det s b c) : 0 < det s a c := by
  obtain ⟨s1, s2⟩ := s
  obtain ⟨a1, a2⟩ := a
  obtain ⟨b1, b2⟩ := b
  obtain ⟨c1, c2⟩ := c
  unfold det Above at *
  dsimp only at *
  have hne : ¬ (a1 = s1 ∧ a2 = s2) := fun h => has (by rw [h.1, h.2])
  generalize e1 : a1 - s1 = p at *
  generalize e2 : a2 - s2 = q at *
  generalize e3 : b1 - s1 = u at *
  generalize e4 : b2 - s2 = v at *
  generalize e5 : c1 - s1 = x at *
  generalize e6 : c2 - s2 = y at *
  have hq : 0 ≤ q := by omega
  have hv : 0 ≤ v := by omega
  have hy : 0 < y := by
    rcases eq_or_lt_of_le (show 0 ≤ y by omega) with h | h
    · have hx : 0 ≤ x := by omega
      rw [← h] at h2
      nlinarith
    · exact h
  rcases eq_or_lt_of_le hq with h | h
  · have hp : 0 < p := by omega
    rw [← h]
    have := mul_pos hp hy
    omega
  · have hv : 0 < v := by
      rcases eq_or_lt_of_le hv with h' | h'
      · have hu : 0 < u := by
          rcases eq_or_lt_of_le (show 0 ≤ u by omega) with h'' | h''
          · rw [← h', ← h''] at h2; omega
          · exact h''
        rw [← h'] at h1
        nlinarith
      · exact h'
    have e : v * (p * y - q * x) = y * (p * v - q * u) + q * (u * y - v * x) := by ring
    have : 0 < v * (p * y - q * x) := by
      rw [e]
      have := mul_nonneg hy.le h1
      have := mul_pos h h2
      omega
    exact (mul_pos_iff_of_pos_left hv).1 this

theorem upto_det {s a b : Pt} (h : Upto s a b) : 0 ≤ det s a b := by
  rcases h with h | h <;> omega

theorem upto_trans {s a b c : Pt} (ha : Above s a) (hb : Above s b) (hc : Above s c)
    (h1 : Upto s a b) (h2 : Upto s b c) : Upto s a c := by
  by_cases hbs : b = s
  · have has : a = s := by
      rw [hbs] at h1
      rcases h1 with h | h
      · have : det s a s = 0 := by unfold det; ring
        omega
      · exact eq_of_distSq (le_trans h.2 (by unfold distSq; simp))
    rw [has]; rw [hbs] at h2; exact h2
  · have h3 := det_trans hb ha hc hbs (upto_det h1) (upto_det h2)
    rcases eq_or_lt_of_le h3 with h | h
    · right
      refine ⟨h.symm, ?_⟩
      by_cases has : a = s
      · rw [has]; unfold distSq; simp; positivity
      · by_cases hcs : c = s
        · exfalso
          rw [hcs] at h2
          rcases h2 with h4 | h4
          · have : det s b s = 0 := by unfold det; ring
            omega
          · exact hbs (eq_of_distSq (le_trans h4.2 (by unfold distSq; simp)))
        · rcases h1 with h4 | h4
          · have := det_trans_left ha hb hc hcs h4 (upto_det h2); omega
          · rcases h2 with h5 | h5
            · have := det_trans_right ha hb hc has (by omega) h5; omega
            · exact le_trans h4.2 h5.2
    · exact Or.inl h

/-- Scalar product of `a - s` and `b - s`. -/
def dot (s a b : Pt) : Int := (a.1 - s.1) * (b.1 - s.1) + (a.2 - s.2) * (b.2 - s.2)

theorem dot_sq {s a b : Pt} (h : det s a b = 0) : dot s a b ^ 2 = distSq s a * distSq s b := by
  have e : dot s a b ^ 2 + det s a b ^ 2 = distSq s a * distSq s b := by
    unfold dot det distSq; ring
  rw [h] at e
  linarith

theorem dot_nonneg {s a b : Pt} (ha : Above s a) (hb : Above s b) (h : det s a b = 0) :
    0 ≤ dot s a b := by
  obtain ⟨s1, s2⟩ := s
  obtain ⟨a1, a2⟩ := a
  obtain ⟨b1, b2⟩ := b
  unfold det Above dot at *
  dsimp only at *
  generalize e1 : a1 - s1 = p at *
  generalize e2 : a2 - s2 = q at *
  generalize e3 : b1 - s1 = u at *
  generalize e4 : b2 - s2 = v at *
  rcases eq_or_lt_of_le (show 0 ≤ q by omega) with h' | h'
  · have hp : 0 ≤ p := by omega
    rw [← h'] at h ⊢
    rcases eq_or_lt_of_le hp with h'' | h''
    · rw [← h'']; simp
    · have hv : v = 0 := by
        have : p * v = 0 := by linarith
        rcases mul_eq_zero.1 this with h | h <;> omega
      have hu : 0 ≤ u := by omega
      have := mul_nonneg hp hu
      rw [hv]; linarith
  · have e : q * (p * u + q * v) = v * (p ^ 2 + q ^ 2) - p * (p * v - q * u) := by ring
    rw [h] at e
    have hv : 0 ≤ v := by omega
    by_contra hc
    have h1 : q * (p * u + q * v) < 0 := mul_neg_of_pos_of_neg h' (by omega)
    have h2 : 0 ≤ v * (p ^ 2 + q ^ 2) := by positivity
    omega

theorem distSq_pos {s a : Pt} (h : a ≠ s) : 0 < distSq s a := by
  by_contra hc
  exact h (eq_of_distSq (by omega))

/-- On a ray from `s`, the nearer point has the smaller scalar product. -/
theorem dot_le {s a b : Pt} (hd : det s a b = 0) (hn : distSq s a ≤ distSq s b) :
    dot s a b ≤ distSq s b := by
  have h := dot_sq hd
  have h1 : 0 ≤ distSq s b := by unfold distSq; positivity
  have h2 : 0 ≤ distSq s a := by unfold distSq; positivity
  by_contra hc
  push Not at hc
  nlinarith [mul_le_mul_of_nonneg_right hn h1]

theorem dot_ge {s a b : Pt} (ha : Above s a) (hb : Above s b) (hd : det s a b = 0)
    (hn : distSq s a ≤ distSq s b) : distSq s a ≤ dot s a b := by
  have h := dot_sq hd
  have h1 := dot_nonneg ha hb hd
  have h2 : 0 ≤ distSq s a := by unfold distSq; positivity
  by_contra hc
  push Not at hc
  nlinarith [mul_le_mul_of_nonneg_left hn h2]

/-- A strict left turn at `t` excludes that `p` lies behind `t` on its ray. -/
theorem stop_strict {s u t p : Pt} (ht : Above s t) (hp : Above s p) (hts : t ≠ s)
    (hu : 0 ≤ det s u t) (h : Upto s t p) (hturn : 0 < det u t p) : 0 < det s t p := by
  rcases h with h | ⟨h, hn⟩
  · exact h
  · exfalso
    have h1 := dot_ge ht hp h hn
    have h2 := distSq_pos hts
    have e : distSq s t * det u t p = det s u t * (distSq s t - dot s t p) +
        det s t p * (distSq s t - dot s t u) := by
      unfold distSq det dot; ring
    rw [h] at e
    have h3 : 0 < distSq s t * det u t p := mul_pos h2 hturn
    have h4 : det s u t * (distSq s t - dot s t p) ≤ 0 :=
      mul_nonpos_of_nonneg_of_nonpos hu (by omega)
    linarith

/-- Points before `t` on its own ray are on the left of `t → p`. -/
theorem ray_left {s t p q : Pt} (hts : t ≠ s)
    (hp : 0 ≤ det s t p) (hd : det s q t = 0) (hn : distSq s q ≤ distSq s t) : 0 ≤ det t p q := by
  have h1 := dot_le hd hn
  have h2 := distSq_pos hts
  have e : distSq s t * det t p q = det s t p * (distSq s t - dot s q t) +
      det s q t * (distSq s t - dot s t p) := by
    unfold distSq det dot; ring
  rw [hd] at e
  have h3 : 0 ≤ det s t p * (distSq s t - dot s q t) := mul_nonneg hp (by omega)
  by_contra hc
  have : distSq s t * det t p q < 0 := mul_neg_of_pos_of_neg h2 (by omega)
  linarith

/-! ### The scan -/

/-- The stack (top first) above the start point: convex chain with strictly increasing angles, all
points of `P` on the left of its edges. -/
inductive Good (s : Pt) (P : Pt → Prop) : List Pt → Prop
  | base (v : Pt) : P v → v ≠ s → (∀ q, P q → 0 ≤ det s v q) → Good s P [v, s]
  | step (v u w : Pt) (r : List Pt) : Good s P (u :: w :: r) → P v → 0 < det w u v → 0 < det s u v →
      (∀ q, P q → 0 ≤ det u v q) → Good s P (v :: u :: w :: r)

theorem Good.head {s : Pt} {P : Pt → Prop} {v : Pt} {l : List Pt} (h : Good s P (v :: l)) :
    P v ∧ v ≠ s := by
  cases h with
  | base _ h1 h2 _ => exact ⟨h1, h2⟩
  | step _ u w r _ h1 _ h3 _ =>
    refine ⟨h1, fun e => ?_⟩
    rw [e] at h3
    have : det s u s = 0 := by unfold det; ring
    omega

theorem Good.angle {s : Pt} {P : Pt → Prop} {v u : Pt} {l : List Pt} (h : Good s P (v :: u :: l)) :
    0 ≤ det s u v ∧ (u ≠ s → 0 < det s u v) := by
  cases h with
  | base _ h1 h2 _ =>
    refine ⟨?_, fun h => absurd rfl h⟩
    unfold det; simp
  | step _ _ _ _ _ _ _ h _ => exact ⟨h.le, fun _ => h⟩

/-- What is known about the new point. -/
structure New (s : Pt) (P : Pt → Prop) (p : Pt) : Prop where
  above : ∀ q, P q → Above s q
  abovep : Above s p
  last : ∀ q, P q → Upto s q p
  ne : p ≠ s

theorem Good.extend {s : Pt} {P : Pt → Prop} {p : Pt} (N : New s P p) : ∀ {v u : Pt} {l : List Pt},
    Good s P (v :: u :: l) → 0 < det u v p → Good s (fun q => P q ∨ q = p) (v :: u :: l) := by
  intro v u l
  induction l generalizing v u with
  | nil =>
    intro h hp
    cases h with
    | base _ h1 h2 h3 =>
      refine Good.base v (Or.inl h1) h2 ?_
      rintro q (hq | rfl)
      · exact h3 q hq
      · exact hp.le
  | cons w r ih =>
    intro h hp
    cases h with
    | step _ _ _ _ h1 h2 h3 h4 h5 =>
      have hup : 0 < det s u p := det_trans_left (N.above u h1.head.1) (N.above v h2) N.abovep N.ne h4
        (upto_det (N.last v h2))
      have hwu : 0 < det w u p := by
        have e : det s u v * det w u p = det u v p * det s w u + det w u v * det s u p := by
          unfold det; ring
        have h6 := h1.angle.1
        have h7 := mul_nonneg hp.le h6
        have h8 := mul_pos h3 hup
        exact (mul_pos_iff_of_pos_left h4).1 (by rw [e]; omega)
      refine Good.step v u w r (ih h1 hwu) (Or.inl h2) h3 h4 ?_
      rintro q (hq | rfl)
      · exact h5 q hq
      · exact hp.le

theorem pop_good {s : Pt} {P : Pt → Prop} {p : Pt} (N : New s P p) : ∀ (st : List Pt) (t : Pt)
    (r : List Pt), st = t :: r → (Good s P st ∨ st = [s]) →
    (∀ q, P q → 0 ≤ det s t q → 0 ≤ det t p q) →
    Good s (fun q => P q ∨ q = p) (p :: popStack p st)
  | [], _, _, h, _, _ => by cases h
  | [t], _, _, rfl, hst, K => by
    rw [popStack]
    · have hts : t = s := by
        rcases hst with h | h
        · cases h
        · simpa using h
      subst hts
      refine Good.base p (Or.inr rfl) N.ne ?_
      rintro q (hq | rfl)
      · exact K q hq (by unfold det; simp)
      · unfold det; ring_nf; exact le_refl _
    · intro _ _ _ h; simp at h
  | v :: u :: l, _, _, rfl, hst, K => by
    have G : Good s P (v :: u :: l) := by
      rcases hst with h | h
      · exact h
      · simp at h
    have hv := G.head
    have hvp := N.last v hv.1
    rw [popStack]
    by_cases hc : 0 < det u v p
    · rw [if_neg (by rw [not_not, ccw_iff]; exact hc)]
      have hsv := stop_strict (N.above v hv.1) N.abovep hv.2 G.angle.1 hvp hc
      refine Good.step p v u l (G.extend N hc) (Or.inr rfl) hc hsv ?_
      rintro q (hq | rfl)
      · rcases le_or_gt 0 (det s v q) with h | h
        · exact K q hq h
        · cases G with
          | base _ h1 h2 h3 => have := h3 q hq; omega
          | step _ _ w r h1 h2 h3 h4 h5 =>
            have e : det s u v * det v p q = det s v p * det u v q - det u v p * det s v q := by
              unfold det; ring
            have h6 := mul_nonneg hsv.le (h5 q hq)
            have h7 := mul_neg_of_pos_of_neg hc h
            exact ((mul_pos_iff_of_pos_left h4).1 (by rw [e]; omega)).le
      · unfold det; ring_nf; exact le_refl _
    · rw [if_pos (by rw [Ne, ccw_iff]; exact hc)]
      cases G with
      | base _ h1 h2 h3 =>
        refine pop_good N [s] s [] rfl (Or.inr rfl) ?_
        intro q hq _
        have h0 : det s v p = 0 := by have := upto_det hvp; omega
        exact det_trans (N.above v h1) N.abovep (N.above q hq) h2 (by rw [det_swap, h0]; rfl)
          (h3 q hq)
      | step _ _ w r h1 h2 h3 h4 h5 =>
        refine pop_good N (u :: w :: r) u _ rfl (Or.inl h1) ?_
        intro q hq h6
        have hu := h1.head.1
        have e : det s u v * det u p q = - det u v p * det s u q + det u v q * det s u p := by
          unfold det; ring
        have h7 := mul_nonneg (show 0 ≤ - det u v p by omega) h6
        have h8 := mul_nonneg (h5 q hq) (upto_det (N.last u hu))
        by_contra hneg
        have := mul_neg_of_pos_of_neg h4 (show det u p q < 0 by omega)
        omega

/-- State of the scan after the points of `P` (which contains `s`). -/
def ScanInv (s : Pt) (P : Pt → Prop) (st : List Pt) : Prop :=
  ((∀ q, P q → q = s) ∧ (st = [s] ∨ st = [s, s])) ∨
  (Good s P st ∧ ∃ t r, st = t :: r ∧ ∀ q, P q → Upto s q t)

theorem upto_refl (s p : Pt) : Upto s p p := Or.inr ⟨by unfold det; ring, le_refl _⟩

theorem scan_step {s : Pt} {P : Pt → Prop} {p : Pt} {st : List Pt}
    (hab : ∀ q, P q → Above s q) (hp : Above s p) (hlast : ∀ q, P q → Upto s q p)
    (I : ScanInv s P st) : ScanInv s (fun q => P q ∨ q = p) (p :: popStack p st) := by
  have hout : ∀ q, (P q ∨ q = p) → Upto s q p := by
    rintro q (hq | rfl)
    · exact hlast q hq
    · exact upto_refl _ _
  rcases I with ⟨h1, h2⟩ | ⟨G, t, r, rfl, h2⟩
  · have hpop : popStack p st = [s] := by
      rcases h2 with rfl | rfl
      · rfl
      · rw [popStack, if_pos]
        · rfl
        · rw [Ne, ccw_iff]
          have : det s s p = 0 := by unfold det; ring
          omega
    rw [hpop]
    by_cases hps : p = s
    · left
      refine ⟨?_, Or.inr (by rw [hps])⟩
      rintro q (hq | rfl)
      · exact h1 q hq
      · exact hps
    · right
      refine ⟨Good.base p (Or.inr rfl) hps ?_, p, _, rfl, hout⟩
      rintro q (hq | rfl)
      · rw [h1 q hq]; unfold det; ring_nf; exact le_refl _
      · unfold det; ring_nf; exact le_refl _
  · right
    have ht := G.head
    have hps : p ≠ s := by
      intro e
      have := hlast t ht.1
      rw [e] at this
      rcases this with h | h
      · have : det s t s = 0 := by unfold det; ring
        omega
      · exact ht.2 (eq_of_distSq (le_trans h.2 (by unfold distSq; simp)))
    have N : New s P p := ⟨hab, hp, hlast, hps⟩
    refine ⟨pop_good N _ t r rfl (Or.inl G) ?_, p, _, rfl, hout⟩
    intro q hq h
    have h3 := h2 q hq
    have hd : det s q t = 0 := by
      have := upto_det h3
      rw [det_swap] at h
      omega
    rcases h3 with h4 | h4
    · omega
    · exact ray_left ht.2 (upto_det (hlast t ht.1)) hd h4.2

theorem scan_inv {s : Pt} : ∀ (l : List Pt) (P : Pt → Prop) (st : List Pt), P s →
    (∀ q, P q → Above s q) → (∀ q ∈ l, Above s q) → l.Pairwise (Upto s) →
    (∀ q, P q → ∀ p ∈ l, Upto s q p) → ScanInv s P st →
    ScanInv s (fun q => P q ∨ q ∈ l) (scan l st)
  | [], P, st, _, _, _, _, _, I => by
    have : (fun q => P q ∨ q ∈ ([] : List Pt)) = P := by funext q; simp
    rw [this]; exact I
  | p :: l, P, st, hs, h1, h2, h3, h4, I => by
    rw [scan]
    rw [List.pairwise_cons] at h3
    have hp := h2 p (List.mem_cons_self ..)
    have I' := scan_step h1 hp (fun q hq => h4 q hq p (List.mem_cons_self ..)) I
    have := scan_inv l (fun q => P q ∨ q = p) _ (Or.inl hs)
      (by rintro q (hq | rfl); exacts [h1 q hq, hp]) (fun q hq => h2 q (List.mem_cons_of_mem _ hq))
      h3.2 (by rintro q (hq | rfl) r hr; exacts [h4 q hq r (List.mem_cons_of_mem _ hr), h3.1 r hr]) I'
    have e : (fun q => (P q ∨ q = p) ∨ q ∈ l) = (fun q => P q ∨ q ∈ p :: l) := by
      funext q; rw [List.mem_cons, or_assoc]
    rw [← e]; exact this

/-! ### The start point -/

theorem findStart_spec : ∀ (l : List Pt) (pre : List Pt) (s : Pt) (pos : Nat),
    pre[pos]? = some s → (∀ q ∈ pre, Above s q) →
    ∃ s' pos', findStart l pre.length s pos = (s', pos') ∧ (pre ++ l)[pos']? = some s' ∧
      ∀ q ∈ pre ++ l, Above s' q
  | [], pre, s, pos, h1, h2 => ⟨s, pos, rfl, by simpa using h1, by simpa using h2⟩
  | p :: l, pre, s, pos, h1, h2 => by
    rw [findStart]
    have e1 : pre.length + 1 = (pre ++ [p]).length := by simp
    have e2 : pre ++ p :: l = (pre ++ [p]) ++ l := by simp
    split
    · rename_i hc
      rw [e1, e2]
      refine findStart_spec l (pre ++ [p]) p pre.length (by simp) ?_
      intro q hq
      rcases List.mem_append.1 hq with hq | hq
      · have := h2 q hq
        unfold Above at *
        omega
      · rw [List.mem_singleton] at hq
        subst hq
        unfold Above; omega
    · rename_i hc
      rw [e1, e2]
      refine findStart_spec l (pre ++ [p]) s pos ?_ ?_
      · rw [List.getElem?_append_left (by
          by_contra h
          rw [List.getElem?_eq_none (by omega)] at h1
          cases h1)]
        exact h1
      · intro q hq
        rcases List.mem_append.1 hq with hq | hq
        · exact h2 q hq
        · rw [List.mem_singleton] at hq
          subst hq
          unfold Above; omega

theorem swap_perm {p0 s : Pt} {l : List Pt} {pos : Nat} (h : (p0 :: l)[pos]? = some s) :
    (s :: ((p0 :: l).set pos p0).tail).Perm (p0 :: l) := by
  cases pos with
  | zero => simp at h; subst h; simp
  | succ n =>
    simp only [List.getElem?_cons_succ] at h
    simp only [List.set_cons_succ, List.tail_cons]
    obtain ⟨hn, he⟩ := List.getElem?_eq_some_iff.1 h
    subst he
    have := List.getElem_cons_eraseIdx_perm hn
    have h3 : (l.set n p0).Perm (p0 :: l.eraseIdx n) := by
      have h4 := List.getElem_cons_eraseIdx_perm (l := l.set n p0) (n := n) (by simpa using hn)
      rw [List.getElem_set_self, List.eraseIdx_set_eq] at h4
      exact h4.symm
    exact (h3.cons _).trans ((List.Perm.swap _ _ _).trans (this.cons p0))

/-! ### From the stack to the hull -/

theorem Good.edges {s : Pt} {P : Pt → Prop} {st : List Pt} (h : Good s P st) (d : Pt) :
    2 ≤ st.length ∧ st.getD (st.length - 1) d = s ∧
    (∀ x ∈ st, P x ∨ x = s) ∧
    (∀ i, i + 1 < st.length → st.getD i d ≠ s) ∧
    (∀ i, i + 1 < st.length → ∀ q, P q → 0 ≤ det (st.getD (i + 1) d) (st.getD i d) q) ∧
    (∀ i, i + 2 < st.length → 0 < det (st.getD (i + 2) d) (st.getD (i + 1) d) (st.getD i d)) ∧
    (∀ i, i + 2 < st.length → 0 < det s (st.getD (i + 1) d) (st.getD i d)) := by
  induction h with
  | base v h1 h2 h3 =>
    refine ⟨by simp, rfl, ?_, ?_, ?_, ?_, ?_⟩
    · intro x hx
      simp only [List.mem_cons, List.not_mem_nil, or_false] at hx
      rcases hx with rfl | rfl
      · exact Or.inl h1
      · exact Or.inr rfl
    · intro i hi
      simp only [List.length_cons, List.length_nil] at hi
      obtain rfl : i = 0 := by omega
      exact h2
    · intro i hi q hq
      simp only [List.length_cons, List.length_nil] at hi
      obtain rfl : i = 0 := by omega
      exact h3 q hq
    · intro i hi
      simp only [List.length_cons, List.length_nil] at hi
      omega
    · intro i hi
      simp only [List.length_cons, List.length_nil] at hi
      omega
  | step v u w r h1 h2 h3 h4 h5 ih =>
    obtain ⟨i1, i2, i3, i4, i5, i6, i7⟩ := ih
    have hvs : v ≠ s := (Good.step v u w r h1 h2 h3 h4 h5).head.2
    simp only [List.length_cons] at *
    refine ⟨by omega, ?_, ?_, ?_, ?_, ?_, ?_⟩
    · rw [show r.length + 1 + 1 + 1 - 1 = (r.length + 1 + 1 - 1) + 1 by omega, List.getD_cons_succ]
      exact i2
    · intro x hx
      rcases List.mem_cons.1 hx with rfl | hx
      · exact Or.inl h2
      · exact i3 x hx
    · intro i hi
      cases i with
      | zero => exact hvs
      | succ i => rw [List.getD_cons_succ]; exact i4 i (by omega)
    · intro i hi q hq
      cases i with
      | zero => exact h5 q hq
      | succ i => rw [List.getD_cons_succ, List.getD_cons_succ]; exact i5 i (by omega) q hq
    · intro i hi
      cases i with
      | zero => exact h3
      | succ i =>
        rw [List.getD_cons_succ, List.getD_cons_succ, List.getD_cons_succ]; exact i6 i (by omega)
    · intro i hi
      cases i with
      | zero => exact h4
      | succ i => rw [List.getD_cons_succ, List.getD_cons_succ]; exact i7 i (by omega)

/-- Every vertex but the start has a strictly smaller angle than the top. -/
theorem Good.smaller {s : Pt} {P : Pt → Prop} (hP : ∀ q, P q → Above s q) {st : List Pt}
    (h : Good s P st) : ∀ v l, st = v :: l → ∀ x ∈ l, x ≠ s → 0 < det s x v := by
  induction h with
  | base v h1 h2 h3 =>
    rintro v' l ⟨⟩ x hx hxs
    simp at hx
    exact absurd hx hxs
  | step v u w r h1 h2 h3 h4 h5 ih =>
    rintro v' l ⟨⟩ x hx hxs
    rcases List.mem_cons.1 hx with rfl | hx
    · exact h4
    · have hu := h1.head
      have hxP : P x := by
        rcases (h1.edges (0, 0)).2.2.1 x (List.mem_cons_of_mem _ hx) with h | h
        · exact h
        · exact absurd h hxs
      exact det_trans_right (hP x hxP) (hP u hu.1) (hP v h2) hxs (ih u _ rfl x hx hxs).le h4

/-! ### C54 -/

/-- The `i`-th vertex, cyclically. -/
def vertex (l : List Pt) (i : Nat) : Pt := l.getD (i % l.length) (0, 0)

theorem hull_inv (pts : List Pt) (hne : pts ≠ []) :
    ∃ s st, convexHull pts = st.reverse ∧ s ∈ pts ∧ (∀ q ∈ pts, Above s q) ∧
      ScanInv s (· ∈ pts) st := by
  cases pts with
  | nil => exact absurd rfl hne
  | cons p0 l =>
    obtain ⟨s, pos, e, h1, h2⟩ := findStart_spec l [p0] p0 0 rfl (by
      intro q hq
      rw [List.mem_singleton] at hq
      subst hq; unfold Above; omega)
    rw [List.singleton_append] at h1 h2
    rw [List.length_singleton] at e
    have hperm := swap_perm h1
    have hsorted := (sortBy_perm (before s) ((p0 :: l).set pos p0).tail)
    have hmem : ∀ q, (q = s ∨ q ∈ sortBy (before s) ((p0 :: l).set pos p0).tail) ↔ q ∈ p0 :: l := by
      intro q
      rw [hsorted.mem_iff, ← hperm.mem_iff, List.mem_cons]
    have hs : s ∈ p0 :: l := (hmem s).1 (Or.inl rfl)
    have hall : ∀ q ∈ sortBy (before s) ((p0 :: l).set pos p0).tail, Above s q :=
      fun q hq => h2 q ((hmem q).1 (Or.inr hq))
    have hpw : (sortBy (before s) ((p0 :: l).set pos p0).tail).Pairwise (Upto s) := by
      refine sortBy_pairwise (S := Above s) ?_ ?_ ?_ _ (fun q hq => hall q (hsorted.mem_iff.2 hq))
      · intro a b _ _ h
        rcases (before_iff s a b).1 h with h | h
        · exact Or.inl h
        · exact Or.inr ⟨h.1, h.2.le⟩
      · exact fun a b _ _ h => upto_of_not s a b h
      · exact fun a b c ha hb hc h h' => upto_trans ha hb hc h h'
    have hzero : ∀ p, Upto s s p := fun p => Or.inr ⟨by unfold det; ring, by
      unfold distSq; simp; positivity⟩
    have I := scan_inv _ (fun q => q = s) [s] rfl
      (by rintro q rfl; unfold Above; omega) hall hpw
      (by rintro q rfl p _; exact hzero p) (Or.inl ⟨fun q h => h, Or.inl rfl⟩)
    have eP : (fun q => q = s ∨ q ∈ sortBy (before s) ((p0 :: l).set pos p0).tail) =
        (· ∈ p0 :: l) := by
      funext q; exact propext (hmem q)
    rw [eP] at I
    refine ⟨s, scan (sortBy (before s) ((p0 :: l).set pos p0).tail) [s], ?_, hs, h2, I⟩
    rw [convexHull, e]

theorem hull_good (pts : List Pt) (hne : ∃ a ∈ pts, ∃ b ∈ pts, a ≠ b) :
    ∃ s st, convexHull pts = st.reverse ∧ s ∈ pts ∧ Good s (· ∈ pts) st ∧
      (∀ q ∈ pts, Above s q) ∧ ∃ t r, st = t :: r ∧ ∀ q ∈ pts, Upto s q t := by
  obtain ⟨a, ha, b, hb, hab⟩ := hne
  obtain ⟨s, st, h1, h2, h3, I⟩ := hull_inv pts (by rintro rfl; cases ha)
  rcases I with ⟨h, _⟩ | ⟨h, h'⟩
  · exact absurd ((h a ha).trans (h b hb).symm) hab
  · exact ⟨s, st, h1, h2, h, h3, h'⟩

theorem getD_reverse' (l : List Pt) (i : Nat) (h : i < l.length) :
    l.reverse.getD i (0, 0) = l.getD (l.length - 1 - i) (0, 0) := by
  rw [List.getD_eq_getElem?_getD, List.getD_eq_getElem?_getD, List.getElem?_reverse h]

/-- C54: for points that are not all equal, the hull has at least two vertices, they are input
points, every three cyclically consecutive ones turn strictly counter-clockwise (when there are
three), and every input point lies on or to the left of every edge, including the closing one. -/
theorem C54_hull (pts : List Pt) (hne : ∃ a ∈ pts, ∃ b ∈ pts, a ≠ b) :
    let H := convexHull pts
    2 ≤ H.length ∧ (∀ v ∈ H, v ∈ pts) ∧
    (∀ i, ∀ q ∈ pts, 0 ≤ det (vertex H i) (vertex H (i + 1)) q) ∧
    (3 ≤ H.length → ∀ i, 0 < det (vertex H i) (vertex H (i + 1)) (vertex H (i + 2))) := by
  obtain ⟨s, st, e, hs, G, hab, t, r, rfl, hlast⟩ := hull_good pts hne
  obtain ⟨e1, e2, e3, e4, e5, e6, e7⟩ := G.edges (0, 0)
  intro H
  have hH : H = (t :: r).reverse := e
  clear_value H
  subst hH
  set st := t :: r with hst
  have hlen : st.reverse.length = st.length := List.length_reverse
  have hv : ∀ i, vertex st.reverse i = st.getD (st.length - 1 - i % st.length) (0, 0) := by
    intro i
    unfold vertex
    rw [hlen, getD_reverse' _ _ (Nat.mod_lt _ (by omega))]
  have hmod : ∀ i, (i + 1) % st.length = if i % st.length + 1 = st.length then 0
      else i % st.length + 1 := by
    intro i
    have h1 := Nat.mod_lt i (show 0 < st.length by omega)
    rw [Nat.add_mod, Nat.mod_eq_of_lt (show 1 < st.length by omega)]
    split
    · rename_i h; rw [h, Nat.mod_self]
    · rw [Nat.mod_eq_of_lt (by omega)]
  have htop : st.getD 0 (0, 0) = t := rfl
  rw [hlen]
  refine ⟨e1, ?_, ?_, ?_⟩
  · intro v hv'
    rcases e3 v (List.mem_reverse.1 hv') with h | h
    · exact h
    · rw [h]; exact hs
  · intro i q hq
    rw [hv, hv, hmod]
    have h1 := Nat.mod_lt i (show 0 < st.length by omega)
    generalize i % st.length = j at *
    split
    · rename_i h
      rw [show st.length - 1 - j = 0 by omega, Nat.sub_zero, e2, htop]
      have := upto_det (hlast q hq)
      have e : det t s q = det s q t := by unfold det; ring
      rw [e]; exact this
    · have := e5 (st.length - 1 - (j + 1)) (by omega) q hq
      rwa [show st.length - 1 - (j + 1) + 1 = st.length - 1 - j by omega] at this
  · intro h3 i
    rw [hv, hv, hv, hmod (i + 1), hmod i]
    have h1 := Nat.mod_lt i (show 0 < st.length by omega)
    generalize i % st.length = j at *
    by_cases hj : j + 1 = st.length
    · -- top, start, first
      rw [if_pos hj, if_neg (by omega)]
      rw [show st.length - 1 - j = 0 by omega, Nat.sub_zero, e2, htop]
      have hne' := e4 (st.length - 2) (by omega)
      rw [show st.length - 1 - (0 + 1) = st.length - 2 by omega]
      have hm : st.getD (st.length - 2) (0, 0) ∈ r := by
        have hl : st.length = r.length + 1 := by rw [hst, List.length_cons]
        have e : st.length - 2 = r.length - 2 + 1 := by omega
        rw [e, hst, List.getD_cons_succ, List.getD_eq_getElem?_getD,
          List.getElem?_eq_getElem (by omega)]
        exact List.getElem_mem _
      have := G.smaller hab t r rfl _ hm hne'
      have e : ∀ x, det t s x = det s x t := fun x => by unfold det; ring
      rw [e]; exact this
    · rw [if_neg hj]
      by_cases hj2 : j + 1 + 1 = st.length
      · rw [if_pos hj2, Nat.sub_zero, e2, show st.length - 1 - (j + 1) = 0 by omega,
          show st.length - 1 - j = 1 by omega]
        have := e7 0 (by omega)
        have e : ∀ x y, det x y s = det s x y := fun x y => by unfold det; ring
        rw [e]; exact this
      · rw [if_neg hj2]
        have := e6 (st.length - 1 - (j + 1 + 1)) (by omega)
        rwa [show st.length - 1 - (j + 1 + 1) + 2 = st.length - 1 - j by omega,
          show st.length - 1 - (j + 1 + 1) + 1 = st.length - 1 - (j + 1) by omega] at this

theorem Good.nodup {s : Pt} {P : Pt → Prop} (hP : ∀ q, P q → Above s q) {st : List Pt}
    (h : Good s P st) : st.Nodup := by
  have hnot : ∀ v l, Good s P (v :: l) → v ∉ l := by
    intro v l g hm
    have h1 := g.smaller hP v l rfl v hm g.head.2
    have h2 : det s v v = 0 := by unfold det; ring
    omega
  induction h with
  | base v h1 h2 h3 => exact List.nodup_cons.2 ⟨by simpa using h2, by simp⟩
  | step v u w r h1 h2 h3 h4 h5 ih =>
    exact List.nodup_cons.2 ⟨hnot _ _ (Good.step v u w r h1 h2 h3 h4 h5), ih⟩

/-- C54: the hull goes round once.  No vertex occurs twice, and the first one is the leftmost among
the input points with the least `y` coordinate. -/
theorem C54_once (pts : List Pt) (hne : ∃ a ∈ pts, ∃ b ∈ pts, a ≠ b) :
    (convexHull pts).Nodup ∧ ∃ s, (convexHull pts).head? = some s ∧
      ∀ q ∈ pts, s.2 < q.2 ∨ s.2 = q.2 ∧ s.1 ≤ q.1 := by
  obtain ⟨s, st, e, hs, G, hab, t, r, rfl, hlast⟩ := hull_good pts hne
  obtain ⟨e1, e2, -⟩ := G.edges (0, 0)
  refine ⟨by rw [e, List.nodup_reverse]; exact G.nodup hab, s, ?_, hab⟩
  rw [e, List.head?_reverse, List.getLast?_eq_getElem?]
  rw [List.getD_eq_getElem?_getD, List.getElem?_eq_getElem (by omega)] at e2
  rw [List.getElem?_eq_getElem (by omega)]
  exact congrArg some e2

/-- C54: a hull with two vertices is a segment containing every point. -/
theorem C54_segment (pts : List Pt) (a b : Pt) (h : convexHull pts = [a, b]) :
    ∀ q ∈ pts, det a b q = 0 ∧ 0 ≤ dot a q b ∧ dot a q b ≤ distSq a b := by
  intro q hq
  obtain ⟨s, st, h1, h2, h3, I⟩ := hull_inv pts (by rintro rfl; cases hq)
  have hst : st = [b, a] := by
    have := congrArg List.reverse (h1.symm.trans h)
    simpa using this
  subst hst
  rcases I with ⟨h4, h5⟩ | ⟨G, t, r, e, h5⟩
  · have hs : a = s ∧ b = s := by
      rcases h5 with h5 | h5
      · simp at h5
      · simp at h5; exact ⟨h5.2, h5.1⟩
    rw [hs.1, hs.2, h4 q hq]
    unfold det dot distSq
    simp
  · cases G with
    | base _ g1 g2 g3 =>
      simp only [List.cons.injEq] at e
      obtain ⟨rfl, -⟩ := e
      have hu := h5 q hq
      have hd : det a q b = 0 := by
        have := upto_det hu
        have h6 := g3 q hq
        rw [det_swap] at h6
        omega
      have hn : distSq a q ≤ distSq a b := by
        rcases hu with h | h
        · omega
        · exact h.2
      exact ⟨by rw [det_swap, hd]; rfl, dot_nonneg (h3 q hq) (h3 b g1) hd, dot_le hd hn⟩

/-- C54: no points give no hull, equal points a hull of at most two copies of that point. -/
theorem C54_degenerate (pts : List Pt) (p : Pt) (h : ∀ q ∈ pts, q = p) :
    (pts = [] ∧ convexHull pts = []) ∨ (pts ≠ [] ∧ (convexHull pts = [p] ∨ convexHull pts = [p, p])) := by
  by_cases hn : pts = []
  · left; subst hn; exact ⟨rfl, rfl⟩
  · right
    refine ⟨hn, ?_⟩
    obtain ⟨s, st, h1, h2, h3, I⟩ := hull_inv pts hn
    have hs := h s h2
    subst hs
    rcases I with ⟨_, h5 | h5⟩ | ⟨G, t, r, e, h5⟩
    · left; rw [h1, h5]; rfl
    · right; rw [h1, h5]; rfl
    · subst e
      exact absurd (h t G.head.1) G.head.2

/-- A square with interior, edge and repeated points. -/
example : convexHull [(2, 2), (4, 0), (0, 0), (4, 4), (2, 0), (0, 4), (0, 2), (4, 4), (0, 0), (1, 3)] =
    [(0, 0), (4, 0), (4, 4), (0, 4)] := by decide +kernel

/-- Equal points come out twice. -/
example : convexHull [(3, 1), (3, 1), (3, 1)] = [(3, 1), (3, 1)] := by decide +kernel

end Verif.Geometry
