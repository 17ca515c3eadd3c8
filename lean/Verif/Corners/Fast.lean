import Verif.Corners.Span
import Mathlib.Tactic.Linarith
import Mathlib.Data.List.Pairwise
/-
Property theorems C65 and C66: the FAST corner tests, scores and corner lists.
-/
namespace Verif.Corners

/-- The circle of 16 pixels of Note [FAST circle labels], clockwise from the top. -/
def ring : List (Int × Int) :=
  [(0, -3), (1, -3), (2, -2), (3, -1), (3, 0), (3, 1), (2, 2), (1, 3), (0, 3), (-1, 3), (-2, 2),
    (-3, 1), (-3, 0), (-3, -1), (-2, -2), (-1, -3)]

/-- Pixel at an offset from `(x, y)`. -/
def at_ (im : Image Nat) (x y : Nat) (o : Int × Int) : Int :=
  (im.px ((x : Int) + o.1).toNat ((y : Int) + o.2).toNat : Nat)

/-- At least three pixels from every border. -/
def Inside (im : Image Nat) (x y : Nat) : Prop := 3 ≤ x ∧ 3 ≤ y ∧ x + 3 < im.w ∧ y + 3 < im.h

/-- `n` contiguous pixels of the circle are all brighter than the centre by more than `t`. -/
def Bright (n : Nat) (im : Image Nat) (t x y : Nat) : Prop :=
  HasArc n (ring.map fun o => decide (at_ im x y o > at_ im x y (0, 0) + t))

/-- `n` contiguous pixels of the circle are all darker than the centre by more than `t`. -/
def Dark (n : Nat) (im : Image Nat) (t x y : Nat) : Prop :=
  HasArc n (ring.map fun o => decide (at_ im x y o < at_ im x y (0, 0) - t))

/-- The documented definition of a FAST corner with arcs of length `n`. -/
def FastCorner (n : Nat) (im : Image Nat) (t x y : Nat) : Prop :=
  Inside im x y ∧ (Bright n im t x y ∨ Dark n im t x y)

/-- C65: the ring is the discrete circle of radius 3: 16 distinct offsets at distance 3 up to
rounding, cyclically adjacent. -/
theorem C65_ring : ring.Nodup ∧ ring.length = 16 ∧
    (∀ o ∈ ring, 8 ≤ o.1 * o.1 + o.2 * o.2 ∧ o.1 * o.1 + o.2 * o.2 ≤ 10) ∧
    (∀ i, i < 16 → ∀ a ∈ ring[i]?, ∀ b ∈ ring[(i + 1) % 16]?,
      (a.1 - b.1).natAbs ≤ 1 ∧ (a.2 - b.2).natAbs ≤ 1) := by decide

theorem nearBorder_iff {im : Image Nat} (hw : im.w < 2 ^ 32) (hh : im.h < 2 ^ 32) (x y : Nat) :
    nearBorder im x y = false ↔ Inside im x y := by
  unfold nearBorder Inside
  simp only [Bool.or_eq_false_iff, decide_eq_false_iff_not]
  omega

theorem rd_at {im : Image Nat} {x y : Nat} (hi : Inside im x y) {x' y' : Nat} (o : Int × Int)
    (hx : (x' : Int) = x + o.1) (hy : (y' : Int) = y + o.2) (h1 : o.1.natAbs ≤ 3)
    (h2 : o.2.natAbs ≤ 3) : rd im x' y' = some (at_ im x y o) := by
  obtain ⟨a, b, c, d⟩ := hi
  unfold rd at_
  rw [Image.get_of_inB (by omega) (by omega), ← hx, ← hy]
  rfl

theorem getCircle_eq {im : Image Nat} {x y : Nat} (hi : Inside im x y) :
    getCircle im x y (at_ im x y (0, -3)) (at_ im x y (3, 0)) (at_ im x y (0, 3))
      (at_ im x y (-3, 0)) = some (ring.map (at_ im x y)) := by
  have h := hi
  obtain ⟨a, b, c, d⟩ := h
  unfold getCircle
  rw [rd_at hi (1, -3) (by simp) (by dsimp only; omega) (by decide) (by decide), Option.bind_some,
    rd_at hi (2, -2) (by simp) (by dsimp only; omega) (by decide) (by decide), Option.bind_some,
    rd_at hi (3, -1) (by simp) (by dsimp only; omega) (by decide) (by decide), Option.bind_some,
    rd_at hi (3, 1) (by simp) (by simp) (by decide) (by decide), Option.bind_some,
    rd_at hi (2, 2) (by simp) (by simp) (by decide) (by decide), Option.bind_some,
    rd_at hi (1, 3) (by simp) (by simp) (by decide) (by decide), Option.bind_some,
    rd_at hi (-1, 3) (by dsimp only; omega) (by simp) (by decide) (by decide), Option.bind_some,
    rd_at hi (-2, 2) (by dsimp only; omega) (by simp) (by decide) (by decide), Option.bind_some,
    rd_at hi (-3, 1) (by dsimp only; omega) (by simp) (by decide) (by decide), Option.bind_some,
    rd_at hi (-3, -1) (by dsimp only; omega) (by dsimp only; omega) (by decide) (by decide),
    Option.bind_some,
    rd_at hi (-2, -2) (by dsimp only; omega) (by dsimp only; omega) (by decide) (by decide),
    Option.bind_some,
    rd_at hi (-1, -3) (by dsimp only; omega) (by dsimp only; omega) (by decide) (by decide),
    Option.bind_some]
  rfl

theorem span_eq (im : Image Nat) (x y n : Nat) (h0 : 0 < n) (hn : n ≤ 16) (f : Int → Bool) :
    ∃ b, searchSpan (ring.map (at_ im x y)) n f = some b ∧
      (b = true ↔ HasArc n (ring.map fun o => f (at_ im x y o))) := by
  unfold searchSpan
  rw [if_neg (by omega), List.map_map]
  have := searchLoop_spec (l := ring.map (f ∘ at_ im x y)) h0 (by simpa [ring] using hn)
  rcases this with ⟨e, h⟩ | ⟨e, h⟩
  · exact ⟨true, e, fun _ => h, fun _ => rfl⟩
  · exact ⟨false, e, fun h' => absurd h' (by decide), fun h' => absurd h' h⟩

/-- An arc of nine meets both `{4, 12}` and `{0, 8}`. -/
theorem arc9_compass {l : List Bool} (hl : l.length = 16) (h : HasArc 9 l) :
    (l[12]? = some true ∨ l[4]? = some true) ∧ (l[8]? = some true ∨ l[0]? = some true) := by
  obtain ⟨j, hj, hrun⟩ := h
  rw [hl] at hj hrun
  have k1 : ∀ j, j < 16 → ∃ k, k < 9 ∧ ((j + k) % 16 = 12 ∨ (j + k) % 16 = 4) := by decide
  have k2 : ∀ j, j < 16 → ∃ k, k < 9 ∧ ((j + k) % 16 = 8 ∨ (j + k) % 16 = 0) := by decide
  constructor
  · obtain ⟨k, hk, e⟩ := k1 j hj
    have := hrun k hk
    rcases e with e | e <;> rw [e] at this
    · exact Or.inl this
    · exact Or.inr this
  · obtain ⟨k, hk, e⟩ := k2 j hj
    have := hrun k hk
    rcases e with e | e <;> rw [e] at this
    · exact Or.inl this
    · exact Or.inr this

/-- An arc of twelve meets `{4, 12}`. -/
theorem arc12_compass {l : List Bool} (hl : l.length = 16) (h : HasArc 12 l) :
    l[4]? = some true ∨ l[12]? = some true := by
  obtain ⟨j, hj, hrun⟩ := h
  rw [hl] at hj hrun
  have k1 : ∀ j, j < 16 → ∃ k, k < 12 ∧ ((j + k) % 16 = 4 ∨ (j + k) % 16 = 12) := by decide
  obtain ⟨k, hk, e⟩ := k1 j hj
  have := hrun k hk
  rcases e with e | e <;> rw [e] at this
  · exact Or.inl this
  · exact Or.inr this

/-- C65: the FAST-9 test never fails and decides exactly the documented condition, at every
position of every image and for every threshold. -/
theorem C65_fast9 (im : Image Nat) (hw : im.w < 2 ^ 32) (hh : im.h < 2 ^ 32) (t x y : Nat) :
    ∃ b, isCorner9 im t x y = some b ∧ (b = true ↔ FastCorner 9 im t x y) := by
  unfold isCorner9 FastCorner
  by_cases hi : Inside im x y
  · have hnb := (nearBorder_iff hw hh x y).mpr hi
    have h := hi
    obtain ⟨a, b, c, d⟩ := h
    rw [hnb, if_neg (by decide), rd_at hi (0, 0) (by simp) (by simp) (by decide) (by decide),
      Option.bind_some]
    dsimp only
    rw [rd_at hi (0, -3) (by simp) (by dsimp only; omega) (by decide) (by decide), Option.bind_some,
      rd_at hi (3, 0) (by simp) (by simp) (by decide) (by decide), Option.bind_some,
      rd_at hi (0, 3) (by simp) (by simp) (by decide) (by decide), Option.bind_some,
      rd_at hi (-3, 0) (by dsimp only; omega) (by simp) (by decide) (by decide), Option.bind_some]
    obtain ⟨b1, e1, s1⟩ := span_eq im x y 9 (by decide) (by decide)
      (fun c => decide (c > at_ im x y (0, 0) + t))
    obtain ⟨b2, e2, s2⟩ := span_eq im x y 9 (by decide) (by decide)
      (fun c => decide (c < at_ im x y (0, 0) - t))
    have c1 := fun h => arc9_compass (by simp [ring]) (s1.mp h)
    have c2 := fun h => arc9_compass (by simp [ring]) (s2.mp h)
    simp only [ring, List.map_cons, List.map_nil, List.getElem?_cons_succ, List.getElem?_cons_zero,
      Option.some.injEq, decide_eq_true_eq] at c1 c2
    rw [getCircle_eq hi, Option.bind_some]
    unfold hasBrightSpan hasDarkSpan
    rw [e1, e2]
    simp only [hi, true_and]
    change ∃ b, _ ∧ (b = true ↔ (HasArc 9 _ ∨ HasArc 9 _))
    rw [← s1, ← s2]
    clear s1 s2 e1 e2
    cases b1 <;> cases b2
    · refine ⟨false, ?_, by simp⟩
      split
      · rfl
      · split
        · simp
        · split <;> rfl
    · obtain ⟨h1, h2⟩ := c2 rfl
      refine ⟨true, ?_, by simp⟩
      have hb : ((decide (at_ im x y (-3, 0) < at_ im x y (0, 0) - t) ||
          decide (at_ im x y (3, 0) < at_ im x y (0, 0) - t)) &&
          (decide (at_ im x y (0, 3) < at_ im x y (0, 0) - t) ||
          decide (at_ im x y (0, -3) < at_ im x y (0, 0) - t))) = true := by simp [h1, h2]
      rw [hb]
      split
      · rename_i hq; simp at hq
      · split <;> simp
    · obtain ⟨h1, h2⟩ := c1 rfl
      refine ⟨true, ?_, by simp⟩
      have hb : ((decide (at_ im x y (-3, 0) > at_ im x y (0, 0) + t) ||
          decide (at_ im x y (3, 0) > at_ im x y (0, 0) + t)) &&
          (decide (at_ im x y (0, 3) > at_ im x y (0, 0) + t) ||
          decide (at_ im x y (0, -3) > at_ im x y (0, 0) + t))) = true := by simp [h1, h2]
      rw [hb]
      simp
    · obtain ⟨h1, h2⟩ := c1 rfl
      refine ⟨true, ?_, by simp⟩
      have hb : ((decide (at_ im x y (-3, 0) > at_ im x y (0, 0) + t) ||
          decide (at_ im x y (3, 0) > at_ im x y (0, 0) + t)) &&
          (decide (at_ im x y (0, 3) > at_ im x y (0, 0) + t) ||
          decide (at_ im x y (0, -3) > at_ im x y (0, 0) + t))) = true := by simp [h1, h2]
      rw [hb]
      simp
  · have hnb : nearBorder im x y = true := by
      cases h : nearBorder im x y
      · exact absurd ((nearBorder_iff hw hh x y).mp h) hi
      · rfl
    rw [hnb, if_pos rfl]
    exact ⟨false, rfl, by simp [hi]⟩

/-- What the FAST-12 test decides: an arc of twelve where, in addition, both the top and the bottom
pixel of the circle qualify. -/
def Corner12 (im : Image Nat) (t x y : Nat) : Prop :=
  Inside im x y ∧
  ((at_ im x y (0, -3) > at_ im x y (0, 0) + t ∧ at_ im x y (0, 3) > at_ im x y (0, 0) + t ∧
      Bright 12 im t x y) ∨
   (at_ im x y (0, -3) < at_ im x y (0, 0) - t ∧ at_ im x y (0, 3) < at_ im x y (0, 0) - t ∧
      Dark 12 im t x y))

/-- C65 for FAST-12: exact characterisation of the test. -/
theorem C65_fast12_exact (im : Image Nat) (hw : im.w < 2 ^ 32) (hh : im.h < 2 ^ 32) (t x y : Nat) :
    ∃ b, isCorner12 im t x y = some b ∧ (b = true ↔ Corner12 im t x y) := by
  unfold isCorner12 Corner12
  by_cases hi : Inside im x y
  · have hnb := (nearBorder_iff hw hh x y).mpr hi
    have h := hi
    obtain ⟨a, b, c, d⟩ := h
    rw [hnb, if_neg (by decide), rd_at hi (0, 0) (by simp) (by simp) (by decide) (by decide),
      Option.bind_some]
    dsimp only
    rw [rd_at hi (0, -3) (by simp) (by dsimp only; omega) (by decide) (by decide), Option.bind_some,
      rd_at hi (0, 3) (by simp) (by simp) (by decide) (by decide), Option.bind_some,
      rd_at hi (3, 0) (by simp) (by simp) (by decide) (by decide), Option.bind_some,
      rd_at hi (-3, 0) (by dsimp only; omega) (by simp) (by decide) (by decide), Option.bind_some]
    obtain ⟨b1, e1, s1⟩ := span_eq im x y 12 (by decide) (by decide)
      (fun c => decide (c > at_ im x y (0, 0) + t))
    obtain ⟨b2, e2, s2⟩ := span_eq im x y 12 (by decide) (by decide)
      (fun c => decide (c < at_ im x y (0, 0) - t))
    have c1 := fun h => arc12_compass (by simp [ring]) (s1.mp h)
    have c2 := fun h => arc12_compass (by simp [ring]) (s2.mp h)
    simp only [ring, List.map_cons, List.map_nil, List.getElem?_cons_succ, List.getElem?_cons_zero,
      Option.some.injEq, decide_eq_true_eq] at c1 c2
    rw [getCircle_eq hi, Option.bind_some]
    unfold hasBrightSpan hasDarkSpan
    rw [e1, e2]
    simp only [hi, true_and]
    have g1 : Bright 12 im t x y ↔ b1 = true := s1.symm
    have g2 : Dark 12 im t x y ↔ b2 = true := s2.symm
    rw [g1, g2]
    clear s1 s2 e1 e2 g1 g2
    by_cases h1 : at_ im x y (0, -3) > at_ im x y (0, 0) + t ∧
        at_ im x y (0, 3) > at_ im x y (0, 0) + t
    · have n1 : ¬ at_ im x y (0, -3) < at_ im x y (0, 0) - t := by omega
      have hq1 : (decide (at_ im x y (0, -3) > at_ im x y (0, 0) + t) &&
        decide (at_ im x y (0, 3) > at_ im x y (0, 0) + t)) = true := by simp [h1]
      have hq2 : (decide (at_ im x y (0, -3) < at_ im x y (0, 0) - t) &&
        decide (at_ im x y (0, 3) < at_ im x y (0, 0) - t)) = false := by simp [n1]
      rw [hq1, hq2]
      refine ⟨b1, ?_, by simp [h1, n1]⟩
      cases b1
      · simp
        intro h3 h4 h5
        exfalso
        have := h3 h4
        omega
      · have := c1 rfl
        simp
        rw [if_neg (by omega), if_pos (by omega)]
    · have hq1 : (decide (at_ im x y (0, -3) > at_ im x y (0, 0) + t) &&
        decide (at_ im x y (0, 3) > at_ im x y (0, 0) + t)) = false := by
        simpa using h1
      rw [hq1]
      by_cases h2 : at_ im x y (0, -3) < at_ im x y (0, 0) - t ∧
          at_ im x y (0, 3) < at_ im x y (0, 0) - t
      · have hq2 : (decide (at_ im x y (0, -3) < at_ im x y (0, 0) - t) &&
          decide (at_ im x y (0, 3) < at_ im x y (0, 0) - t)) = true := by simp [h2]
        rw [hq2]
        refine ⟨b2, ?_, ?_⟩
        · cases b2
          · simp
          · have := c2 rfl
            simp
            intro h3
            omega
        · constructor
          · intro h; exact Or.inr ⟨h2.1, h2.2, h⟩
          · rintro (h | h)
            · exact absurd ⟨h.1, h.2.1⟩ h1
            · exact h.2.2
      · have hq2 : (decide (at_ im x y (0, -3) < at_ im x y (0, 0) - t) &&
          decide (at_ im x y (0, 3) < at_ im x y (0, 0) - t)) = false := by
          simpa using h2
        rw [hq2]
        refine ⟨false, rfl, ?_⟩
        constructor
        · intro h; simp at h
        · rintro (h | h)
          · exact absurd ⟨h.1, h.2.1⟩ h1
          · exact absurd ⟨h.1, h.2.1⟩ h2
  · have hnb : nearBorder im x y = true := by
      cases h : nearBorder im x y
      · exact absurd ((nearBorder_iff hw hh x y).mp h) hi
      · rfl
    rw [hnb, if_pos rfl]
    exact ⟨false, rfl, by simp [hi]⟩

/-- C65 for FAST-12, the half that holds: reported corners are corners. What is missing is the
converse, which fails (`C65_negation`). -/
theorem C65_fast12_partial (im : Image Nat) (hw : im.w < 2 ^ 32) (hh : im.h < 2 ^ 32) (t x y : Nat)
    (h : isCorner12 im t x y = some true) : FastCorner 12 im t x y := by
  obtain ⟨b, e, hb⟩ := C65_fast12_exact im hw hh t x y
  rw [h] at e
  obtain rfl := Option.some.inj e
  obtain ⟨hi, h⟩ := hb.mp rfl
  exact ⟨hi, h.imp (fun h => h.2.2) (fun h => h.2.2)⟩

/-- A 7 × 7 image whose centre is surrounded by an arc of twelve bright pixels that does not contain
the top pixel of the circle. -/
def missed : Image Nat := Image.ofRows 0
  [[0, 0, 0, 0, 9, 0, 0],
   [0, 0, 0, 0, 0, 9, 0],
   [0, 0, 0, 0, 0, 0, 9],
   [9, 0, 0, 0, 0, 0, 9],
   [9, 0, 0, 0, 0, 0, 9],
   [0, 9, 0, 0, 0, 9, 0],
   [0, 0, 9, 9, 9, 0, 0]]

/-- C65 fails for FAST-12: the quick rejection test requires both the top and the bottom pixel, so
an arc of twelve pixels starting just after the top pixel is missed. -/
theorem C65_negation : FastCorner 12 missed 4 3 3 ∧ isCorner12 missed 4 3 3 = some false ∧
    isCorner9 missed 4 3 3 = some true := by
  refine ⟨⟨by unfold Inside; decide, Or.inl ?_⟩, by decide +kernel, by decide +kernel⟩
  refine ⟨1, by decide, ?_⟩
  decide +kernel

/-- The exact condition decided by each test. -/
def Detected : Fast → Image Nat → Nat → Nat → Nat → Prop
  | .nine => FastCorner 9
  | .twelve => Corner12

theorem isCorner_spec (v : Fast) (im : Image Nat) (hw : im.w < 2 ^ 32) (hh : im.h < 2 ^ 32)
    (t x y : Nat) : ∃ b, isCorner v im t x y = some b ∧ (b = true ↔ Detected v im t x y) := by
  cases v
  · exact C65_fast9 im hw hh t x y
  · exact C65_fast12_exact im hw hh t x y

theorem HasArc.mono {n : Nat} {l : List (Int × Int)} {f g : Int × Int → Bool}
    (hfg : ∀ o, f o = true → g o = true) (h : HasArc n (l.map f)) : HasArc n (l.map g) := by
  obtain ⟨j, hj, hr⟩ := h
  refine ⟨j, by simpa using hj, fun k hk => ?_⟩
  have := hr k hk
  rw [List.length_map] at this ⊢
  rw [List.getElem?_map] at this ⊢
  cases hl : l[(j + k) % l.length]? with
  | none => rw [hl] at this; simp at this
  | some o =>
    rw [hl] at this
    simp only [Option.map_some, Option.some.injEq] at this ⊢
    exact hfg o this

theorem Bright.mono {n : Nat} {im : Image Nat} {s t x y : Nat} (hst : s ≤ t)
    (h : Bright n im t x y) : Bright n im s x y :=
  HasArc.mono (fun o ho => by
    simp only [decide_eq_true_eq] at ho ⊢
    omega) h

theorem Dark.mono {n : Nat} {im : Image Nat} {s t x y : Nat} (hst : s ≤ t)
    (h : Dark n im t x y) : Dark n im s x y :=
  HasArc.mono (fun o ho => by
    simp only [decide_eq_true_eq] at ho ⊢
    omega) h

/-- C66: corners stay corners when the threshold is lowered. -/
theorem C66_monotone (v : Fast) (im : Image Nat) {s t x y : Nat} (hst : s ≤ t)
    (h : Detected v im t x y) : Detected v im s x y := by
  cases v
  · exact ⟨h.1, h.2.imp (Bright.mono hst) (Dark.mono hst)⟩
  · refine ⟨h.1, h.2.imp ?_ ?_⟩
    · rintro ⟨a, b, c⟩
      exact ⟨by omega, by omega, c.mono hst⟩
    · rintro ⟨a, b, c⟩
      exact ⟨by omega, by omega, c.mono hst⟩

theorem scoreLoop_spec {test : Nat → Option Bool} {T : Nat → Prop}
    (ht : ∀ p, ∃ b, test p = some b ∧ (b = true ↔ T p)) (hm : ∀ p q, p ≤ q → T q → T p) :
    ∀ (fuel max min : Nat), min ≤ max → max - min < fuel →
      ∃ s, scoreLoop test fuel max min = some s ∧ min ≤ s ∧ s ≤ max ∧ (T min → T s) ∧
        (s = min ∨ T s) ∧ ∀ u, s < u → u ≤ max → ¬ T u
  | 0, max, min, _, hf => by omega
  | fuel + 1, max, min, hle, hf => by
    unfold scoreLoop
    by_cases he : max = min
    · rw [if_pos he]
      exact ⟨max, rfl, by omega, Nat.le_refl _, fun h => by rw [he]; exact h, Or.inl he,
        fun u h1 h2 => by omega⟩
    · rw [if_neg he]
      dsimp only
      obtain ⟨probe, hp⟩ : ∃ p, p = if max = min + 1 then max else (max + min) / 2 := ⟨_, rfl⟩
      rw [← hp]
      have hpr : min < probe ∧ probe ≤ max := by
        rw [hp]; split <;> omega
      obtain ⟨b, e, hb⟩ := ht probe
      rw [e, Option.bind_some]
      cases b with
      | true =>
        rw [if_pos rfl]
        obtain ⟨s, h1, h2, h3, h4, h5, h6⟩ := scoreLoop_spec ht hm fuel max probe hpr.2 (by omega)
        have hTp := hb.mp rfl
        exact ⟨s, h1, by omega, h3, fun _ => h4 hTp, Or.inr (h4 hTp), h6⟩
      | false =>
        rw [if_neg (by decide), csub_of_le (by omega), Option.bind_some]
        obtain ⟨s, h1, h2, h3, h4, h5, h6⟩ := scoreLoop_spec ht hm fuel (probe - 1) min (by omega)
          (by omega)
        refine ⟨s, h1, h2, by omega, h4, h5, fun u hu1 hu2 hT => ?_⟩
        have hnp : ¬ T probe := fun h => by simpa using hb.mpr h
        rcases Nat.lt_or_ge u probe with h | h
        · exact h6 u hu1 (by omega) hT
        · exact hnp (hm _ _ h hT)

/-- C66: the search for the score terminates; for a corner at threshold `t` the score is the
greatest threshold at which the pixel is still a corner, and for any other pixel it is `t`. -/
theorem C66_score (v : Fast) (im : Image Nat) (hw : im.w < 2 ^ 32) (hh : im.h < 2 ^ 32)
    {t : Nat} (ht : t ≤ 255) (x y : Nat) :
    ∃ s, score v im t x y = some s ∧ t ≤ s ∧ s ≤ 255 ∧
      (Detected v im t x y → Detected v im s x y ∧ ∀ u, u ≤ 255 → Detected v im u x y → u ≤ s) ∧
      (¬ Detected v im t x y → s = t) := by
  obtain ⟨s, h1, h2, h3, h4, h5, h6⟩ := scoreLoop_spec (T := fun p => Detected v im p x y)
    (fun p => isCorner_spec v im hw hh p x y) (fun p q hpq => C66_monotone v im hpq) 256 255 t ht
    (by omega)
  refine ⟨s, h1, h2, h3, fun hd => ⟨h4 hd, fun u hu hU => ?_⟩, fun hn => ?_⟩
  · by_contra hc
    exact h6 u (by omega) hu hU
  · rcases h5 with h | h
    · exact h
    · exact absurd (C66_monotone v im h2 h) hn

/-- C65, C66: the corner lists contain, in raster order, exactly the detected positions with their
scores. -/
theorem C65_list (v : Fast) (im : Image Nat) (hw : im.w < 2 ^ 32) (hh : im.h < 2 ^ 32)
    {t : Nat} (ht : t ≤ 255) :
    ∃ l, corners v im t = some l ∧
      (∀ x y s, (x, y, s) ∈ l ↔ Detected v im t x y ∧ score v im t x y = some s) ∧
      l.Pairwise (fun a b => a.2.1 < b.2.1 ∨ a.2.1 = b.2.1 ∧ a.1 < b.1) := by
  have hin : ∀ x y, Detected v im t x y → x < im.w ∧ y < im.h := by
    intro x y h
    have hi : Inside im x y := by cases v <;> exact h.1
    obtain ⟨-, -, h1, h2⟩ := hi
    omega
  obtain ⟨l, e, h1, h2, h3⟩ := forYX_spec (s := ([] : List (Nat × Nat × Nat)))
    (f := fun x y (corners : List (Nat × Nat × Nat)) =>
      (isCorner v im t x y).bind fun b =>
      if b then
        (score v im t x y).bind fun s => some (corners ++ [(x, y, s)])
      else some corners)
    (fun x y l => (∀ a b s, (a, b, s) ∈ l ↔ a < im.w ∧ (b < y ∨ b = y ∧ a < x) ∧
        Detected v im t a b ∧ score v im t a b = some s) ∧
      l.Pairwise (fun a b => a.2.1 < b.2.1 ∨ a.2.1 = b.2.1 ∧ a.1 < b.1) ∧ y ≤ im.h)
    (Nat.zero_le im.h) (Nat.zero_le im.w)
    ⟨fun a b s => by constructor
                     · intro h; simp at h
                     · rintro ⟨_, h, _⟩; omega, List.Pairwise.nil, Nat.zero_le _⟩
    (by
      intro x y l _ hx _ hy ⟨hm, hp, hyh⟩
      obtain ⟨b, eb, hb⟩ := isCorner_spec v im hw hh t x y
      rw [eb, Option.bind_some]
      cases b with
      | false =>
        rw [if_neg (by decide)]
        refine ⟨l, rfl, fun a b s => ?_, hp, hyh⟩
        rw [hm]
        constructor
        · rintro ⟨h1, h2, h3⟩; exact ⟨h1, by omega, h3⟩
        · rintro ⟨h1, h2, h3, h4⟩
          refine ⟨h1, ?_, h3, h4⟩
          by_contra hc
          have : a = x ∧ b = y := by omega
          obtain ⟨rfl, rfl⟩ := this
          simpa using hb.mpr h3
      | true =>
        rw [if_pos rfl]
        obtain ⟨s, es, -⟩ := C66_score v im hw hh ht x y
        rw [es, Option.bind_some]
        refine ⟨_, rfl, fun a b s' => ?_, ?_, hyh⟩
        · rw [List.mem_append, hm, List.mem_singleton]
          simp only [Prod.mk.injEq]
          constructor
          · rintro (⟨h1, h2, h3⟩ | ⟨rfl, rfl, rfl⟩)
            · exact ⟨h1, by omega, h3⟩
            · exact ⟨hx, by omega, hb.mp rfl, es⟩
          · rintro ⟨h1, h2, h3, h4⟩
            by_cases hc : b < y ∨ b = y ∧ a < x
            · exact Or.inl ⟨h1, hc, h3, h4⟩
            · right
              have : a = x ∧ b = y := by omega
              obtain ⟨rfl, rfl⟩ := this
              rw [es] at h4
              exact ⟨rfl, rfl, (Option.some.inj h4).symm⟩
        · rw [List.pairwise_append]
          refine ⟨hp, List.pairwise_singleton _ _, ?_⟩
          rintro ⟨a, b, s'⟩ ha c hc
          rw [List.mem_singleton] at hc
          subst hc
          exact ((hm a b s').mp ha).2.1)
    (by
      intro y l _ hy ⟨hm, hp, hyh⟩
      refine ⟨fun a b s => ?_, hp, hy⟩
      rw [hm]
      constructor
      · rintro ⟨h1, h2, h3⟩; exact ⟨h1, by omega, h3⟩
      · rintro ⟨h1, h2, h3⟩; exact ⟨h1, by omega, h3⟩)
  refine ⟨l, e, fun x y s => ?_, h2⟩
  rw [h1]
  constructor
  · rintro ⟨_, _, h⟩; exact h
  · intro h
    have := hin x y h.1
    exact ⟨this.1, by omega, h⟩

example : score .nine missed 4 3 3 = some 8 := by decide +kernel
example : corners .nine missed 4 = some [(3, 3, 8)] := by decide +kernel

end Verif.Corners
