import Verif.Seam.Model
import Verif.Gradients.Props
import Mathlib.Algebra.BigOperators.Intervals
import Mathlib.Algebra.BigOperators.Fin
import Mathlib.Algebra.Order.BigOperators.Group.Finset
import Mathlib.Tactic.Linarith
/-
Property theorem C59: vertical seams.
-/
namespace Verif.Seam
open Verif.Gradients Finset

/-! ### Specification -/

/-- `p` assigns a column to each of the rows `0, …, h - 1`, moving by at most one column per row. -/
def IsPath (w h : Nat) (p : Nat → Nat) : Prop :=
  (∀ y, y < h → p y < w) ∧ ∀ y, y + 1 < h → p y ≤ p (y + 1) + 1 ∧ p (y + 1) ≤ p y + 1

/-- Total energy of a path. -/
def cost (g : Image Nat) (h : Nat) (p : Nat → Nat) : Nat := ∑ y ∈ range h, g.px (p y) y

/-- The path described by a seam listed from the bottom row to the top row. -/
def pathOf (h : Nat) (seam : List Nat) : Nat → Nat := fun y => seam.getD (h - 1 - y) 0

/-- The energy of a least expensive path that ends in `(x, y)`. -/
def IsLeastEnergy (g : Image Nat) (x y v : Nat) : Prop :=
  (∃ p, IsPath g.w (y + 1) p ∧ p y = x ∧ cost g (y + 1) p = v) ∧
  ∀ p, IsPath g.w (y + 1) p → p y = x → v ≤ cost g (y + 1) p

/-! ### Path energies -/

/-- Least of the entries above position `x`. -/
def minAbove (w : Nat) (e : Nat → Nat) (x : Nat) : Nat :=
  let m := if 0 < x then min (e x) (e (x - 1)) else e x
  if x < w - 1 then min m (e (x + 1)) else m

def energy (g : Image Nat) : Nat → Nat → Nat
  | 0, x => g.px x 0
  | y + 1, x => minAbove g.w (energy g y) x + g.px x (y + 1)

theorem minAbove_le {w : Nat} {e : Nat → Nat} {x x' : Nat} (hx' : x' < w)
    (h1 : x ≤ x' + 1) (h2 : x' ≤ x + 1) : minAbove w e x ≤ e x' := by
  unfold minAbove
  have : x' = x - 1 ∧ 0 < x ∨ x' = x ∨ x' = x + 1 ∧ x < w - 1 := by omega
  rcases this with ⟨rfl, h⟩ | rfl | ⟨rfl, h⟩
  · simp only [if_pos h]; split <;> omega
  · dsimp only; split <;> split <;> omega
  · simp only [if_pos h]; split <;> omega

theorem minAbove_eq {w : Nat} (e : Nat → Nat) {x : Nat} (hx : x < w) :
    ∃ x', x' < w ∧ x ≤ x' + 1 ∧ x' ≤ x + 1 ∧ minAbove w e x = e x' := by
  unfold minAbove
  dsimp only
  have key : ∃ x', x' < w ∧ x ≤ x' + 1 ∧ x' ≤ x + 1 ∧
      (if 0 < x then min (e x) (e (x - 1)) else e x) = e x' := by
    split
    · rcases Nat.le_total (e x) (e (x - 1)) with h | h
      · exact ⟨x, hx, by omega, by omega, Nat.min_eq_left h⟩
      · exact ⟨x - 1, by omega, by omega, by omega, Nat.min_eq_right h⟩
    · exact ⟨x, hx, by omega, by omega, rfl⟩
  obtain ⟨x', k1, k2, k3, k4⟩ := key
  rw [k4]
  split
  · rcases Nat.le_total (e x') (e (x + 1)) with h | h
    · exact ⟨x', k1, k2, k3, Nat.min_eq_left h⟩
    · exact ⟨x + 1, by omega, by omega, by omega, Nat.min_eq_right h⟩
  · exact ⟨x', k1, k2, k3, rfl⟩

theorem setPathEnergy_eq {e : Image Nat} {x y : Nat} (hx : x < e.w) (hy : y < e.h) (h0 : 0 < y) :
    setPathEnergy x y e = e.put x y (minAbove e.w (fun a => e.px a (y - 1)) x + e.px x y) := by
  unfold setPathEnergy
  rw [csub_of_le (by omega), Option.bind_some, Image.get_of_inB hx (by omega), Option.bind_some]
  have e1 : (if 0 < x then (e.get (x - 1) (y - 1)).map fun l => min (e.px x (y - 1)) l
      else some (e.px x (y - 1))) =
      some (if 0 < x then min (e.px x (y - 1)) (e.px (x - 1) (y - 1)) else e.px x (y - 1)) := by
    split
    · rw [Image.get_of_inB (by omega) (by omega)]; rfl
    · rfl
  rw [e1, Option.bind_some, csub_of_le (by omega), Option.bind_some]
  generalize hm : (if 0 < x then min (e.px x (y - 1)) (e.px (x - 1) (y - 1)) else e.px x (y - 1)) = m
  have e2 : (if x < e.w - 1 then (e.get (x + 1) (y - 1)).map fun r => min m r else some m) =
      some (if x < e.w - 1 then min m (e.px (x + 1) (y - 1)) else m) := by
    split
    · rw [Image.get_of_inB (by omega) (by omega)]; rfl
    · rfl
  rw [e2, Option.bind_some, Image.get_of_inB hx hy, Option.bind_some]
  unfold minAbove
  dsimp only
  rw [hm]

theorem pathEnergies_spec (g : Image Nat) (hh : 0 < g.h) : ∃ e, pathEnergies g = some e ∧ e.w = g.w ∧
    e.h = g.h ∧ ∀ x y, x < g.w → y < g.h → e.px x y = energy g y x := by
  unfold pathEnergies
  obtain ⟨e, e1, e2, e3, e4, -⟩ := forYX_spec (f := setPathEnergy) (y0 := 1) (y1 := g.h) (x0 := 0)
    (x1 := g.w) (s := g)
    (fun x y e => e.w = g.w ∧ e.h = g.h ∧
      (∀ a b, a < g.w → b < y ∨ b = y ∧ a < x → e.px a b = energy g b a) ∧
      ∀ a b, a < g.w → y < b ∨ b = y ∧ x ≤ a → e.px a b = g.px a b)
    (by omega) (Nat.zero_le _)
    ⟨rfl, rfl, fun a b ha hb => by
      obtain rfl : b = 0 := by omega
      rfl, fun _ _ _ _ => rfl⟩
    (by
      rintro x y e _ hx hy1 hy ⟨h1, h2, h3, h4⟩
      rw [setPathEnergy_eq (by omega) (by omega) (by omega), Image.put_of_inB _ (by omega) (by omega)]
      refine ⟨_, rfl, h1, h2, fun a b ha hab => ?_, fun a b ha hab => ?_⟩
      · dsimp only
        split
        · rename_i hc
          obtain ⟨rfl, rfl⟩ := hc
          obtain ⟨y', rfl⟩ : ∃ y', b = y' + 1 := ⟨b - 1, by omega⟩
          rw [energy, h4 a (y' + 1) ha (by omega), h1]
          congr 1
          unfold minAbove
          dsimp only
          rw [Nat.add_sub_cancel, h3 a y' ha (by omega)]
          have e1 : (if 0 < a then min (energy g y' a) (e.px (a - 1) y') else energy g y' a) =
              (if 0 < a then min (energy g y' a) (energy g y' (a - 1)) else energy g y' a) := by
            split
            · rw [h3 (a - 1) y' (by omega) (by omega)]
            · rfl
          rw [e1]
          split
          · rw [h3 (a + 1) y' (by omega) (by omega)]
          · rfl
        · exact h3 a b ha (by omega)
      · dsimp only
        rw [if_neg (by omega)]
        exact h4 a b ha (by omega))
    (by
      rintro y e _ _ ⟨h1, h2, h3, h4⟩
      exact ⟨h1, h2, fun a b ha hab => h3 a b ha (by omega), fun a b ha hab => h4 a b ha (by omega)⟩)
  exact ⟨e, e1, e2, e3, fun x y hx hy => e4 x y hx (Or.inl hy)⟩

theorem IsPath.mono {w h h' : Nat} {p : Nat → Nat} (hp : IsPath w h p) (hh : h' ≤ h) :
    IsPath w h' p := ⟨fun y hy => hp.1 y (by omega), fun y hy => hp.2 y (by omega)⟩

theorem energy_le (g : Image Nat) : ∀ (y : Nat) (p : Nat → Nat), IsPath g.w (y + 1) p →
    energy g y (p y) ≤ cost g (y + 1) p
  | 0, p, hp => by simp [energy, cost]
  | y + 1, p, hp => by
    have ih := energy_le g y p (hp.mono (by omega))
    have h2 := hp.2 y (by omega)
    have h3 := minAbove_le (e := energy g y) (hp.1 y (by omega)) h2.2 h2.1
    unfold cost at ih ⊢
    rw [sum_range_succ, energy]
    omega

theorem energy_attained (g : Image Nat) : ∀ (y x : Nat), x < g.w →
    ∃ p, IsPath g.w (y + 1) p ∧ p y = x ∧ cost g (y + 1) p = energy g y x
  | 0, x, hx => ⟨fun _ => x, ⟨fun _ _ => hx, fun y hy => by omega⟩, rfl, by simp [cost, energy]⟩
  | y + 1, x, hx => by
    obtain ⟨x', h1, h2, h3, h4⟩ := minAbove_eq (energy g y) hx
    obtain ⟨p, k1, k2, k3⟩ := energy_attained g y x' h1
    refine ⟨fun t => if t = y + 1 then x else p t, ⟨fun t ht => ?_, fun t ht => ?_⟩, if_pos rfl, ?_⟩
    · dsimp only; split
      · exact hx
      · exact k1.1 t (by omega)
    · dsimp only
      rw [if_neg (by omega : ¬ t = y + 1)]
      by_cases hc : t = y
      · subst hc; rw [if_pos rfl, k2]; exact ⟨h3, h2⟩
      · rw [if_neg (by omega)]; exact k1.2 t (by omega)
    · unfold cost at k3 ⊢
      rw [sum_range_succ, energy, h4, ← k3]
      dsimp only
      rw [if_pos rfl]
      congr 1
      exact sum_congr rfl fun t ht => by
        rw [if_neg (by have := mem_range.1 ht; omega)]

/-! ### The retrace -/

theorem bottomMin_spec (e : Image Nat) (hw : 0 < e.w) (hh : 0 < e.h) :
    ∃ b, bottomMin e = some b ∧ b.1 < e.w ∧ b.2 = e.px b.1 (e.h - 1) ∧
      ∀ x, x < e.w → e.px b.1 (e.h - 1) ≤ e.px x (e.h - 1) ∧
        (x < b.1 → e.px b.1 (e.h - 1) < e.px x (e.h - 1)) := by
  unfold bottomMin
  rw [csub_of_le hh, Option.bind_some, Image.get_of_inB hw (by omega), Option.bind_some]
  obtain ⟨b, h1, -, h2, h3, h4⟩ := forRange_spec (lo := 1) (hi := e.w) (s := (0, e.px 0 (e.h - 1)))
    (f := fun x s => (e.get x (e.h - 1)).bind fun c => some (if c < s.2 then (x, c) else s))
    (fun i b => b.1 < i ∧ b.1 < e.w ∧ b.2 = e.px b.1 (e.h - 1) ∧
      ∀ x, x < i → e.px b.1 (e.h - 1) ≤ e.px x (e.h - 1) ∧
        (x < b.1 → e.px b.1 (e.h - 1) < e.px x (e.h - 1))) hw
    ⟨Nat.one_pos, hw, rfl, fun x hx => by obtain rfl : x = 0 := by omega
                                          exact ⟨le_refl _, fun h => absurd h (lt_irrefl _)⟩⟩
    (by
      rintro i s _ hi ⟨h0, h1, h2, h3⟩
      rw [Image.get_of_inB hi (by omega), Option.bind_some]
      refine ⟨_, rfl, ?_⟩
      split
      · rename_i hc
        refine ⟨Nat.lt_succ_self i, hi, rfl, fun x hx => ?_⟩
        dsimp only
        by_cases hxi : x = i
        · subst hxi; exact ⟨le_refl _, fun h => absurd h (lt_irrefl _)⟩
        · have := h3 x (by omega)
          exact ⟨by omega, fun _ => by omega⟩
      · rename_i hc
        refine ⟨by omega, h1, h2, fun x hx => ?_⟩
        by_cases hxi : x = i
        · subst hxi; exact ⟨by omega, fun h => by omega⟩
        · exact h3 x (by omega))
  exact ⟨b, h1, h2, h3, h4⟩

theorem retraceStep_spec (e : Image Nat) {y : Nat} (hy0 : 0 < y) (hy : y < e.h)
    (s : Nat × Nat × List Nat) (hs : s.1 < e.w) :
    ∃ s', retraceStep e y s = some s' ∧ s'.1 < e.w ∧ s'.1 ≤ s.1 + 1 ∧ s.1 ≤ s'.1 + 1 ∧
      s'.2.2 = s.2.2 ++ [s'.1] := by
  unfold retraceStep
  dsimp only
  rw [csub_of_le (by omega), Option.bind_some, Image.get_of_inB hs (by omega), Option.bind_some]
  obtain ⟨m, hm, h1⟩ : ∃ m, (if 0 < s.1 then (e.get (s.1 - 1) (y - 1)).map fun left =>
      if left < e.px s.1 (y - 1) then (s.1 - 1, left) else (s.1, s.2.1)
    else some (s.1, s.2.1)) = some m ∧ (m.1 = s.1 ∨ m.1 + 1 = s.1) := by
    split
    · rw [Image.get_of_inB (by omega) (by omega), Option.map_some]
      refine ⟨_, rfl, ?_⟩
      split
      · right; dsimp only; omega
      · left; rfl
    · exact ⟨_, rfl, Or.inl rfl⟩
  rw [hm, Option.bind_some, csub_of_le (by omega), Option.bind_some]
  split
  · rw [Image.get_of_inB (by omega) (by omega), Option.map_some, Option.bind_some]
    refine ⟨_, rfl, ?_⟩
    dsimp only
    split
    · dsimp only; refine ⟨by omega, by omega, by omega, rfl⟩
    · refine ⟨by omega, by omega, by omega, rfl⟩
  · refine ⟨_, rfl, ?_⟩
    dsimp only
    refine ⟨by omega, by omega, by omega, rfl⟩

theorem seamOfEnergies_spec (g : Image Nat) (hw : 0 < g.w) (hh : 0 < g.h) :
    ∃ seam, seamOfEnergies g = some seam ∧ seam.length = g.h ∧ IsPath g.w g.h (pathOf g.h seam) ∧
      ∀ x, x < g.w → energy g (g.h - 1) (pathOf g.h seam (g.h - 1)) ≤ energy g (g.h - 1) x := by
  obtain ⟨e, e1, e2, e3, e4⟩ := pathEnergies_spec g hh
  obtain ⟨b, b1, b2, b3, b4⟩ := bottomMin_spec e (by omega) (by omega)
  unfold seamOfEnergies
  rw [e1, Option.bind_some, b1, Option.bind_some]
  obtain ⟨s, s1, s2, s3, s4, s5, s6, s7⟩ := forRange_spec (lo := 1) (hi := e.h)
    (s := (b.1, b.2, [b.1])) (f := fun i s => retraceStep e (e.h - i) s)
    (fun i (s : Nat × Nat × List Nat) => s.1 < e.w ∧ s.2.2.length = i ∧ s.2.2.getD 0 0 = b.1 ∧
      s.2.2.getD (i - 1) 0 = s.1 ∧ (∀ k, k < i → s.2.2.getD k 0 < e.w) ∧
      ∀ k, k + 1 < i → s.2.2.getD k 0 ≤ s.2.2.getD (k + 1) 0 + 1 ∧
        s.2.2.getD (k + 1) 0 ≤ s.2.2.getD k 0 + 1) (by omega)
    ⟨b2, rfl, rfl, rfl, fun k hk => by
      obtain rfl : k = 0 := by omega
      exact b2, fun k hk => by omega⟩
    (by
      rintro i s hi1 hi ⟨h1, h2, h3, h4, h5, h6⟩
      obtain ⟨s', k1, k2, k3, k4, k5⟩ := retraceStep_spec e (y := e.h - i) (by omega) (by omega) s h1
      have g1 : ∀ k, k < i → s'.2.2.getD k 0 = s.2.2.getD k 0 := fun k hk => by
        rw [k5, List.getD_eq_getElem?_getD, List.getD_eq_getElem?_getD,
          List.getElem?_append_left (by omega)]
      have g2 : s'.2.2.getD i 0 = s'.1 := by
        rw [k5, List.getD_eq_getElem?_getD, List.getElem?_append_right (by omega), h2, Nat.sub_self]; rfl
      refine ⟨s', k1, k2, by rw [k5]; simp [h2], by rw [g1 0 (by omega)]; exact h3,
        by rw [Nat.add_sub_cancel]; exact g2, fun k hk => ?_, fun k hk => ?_⟩
      · by_cases hki : k = i
        · rw [hki, g2]; exact k2
        · rw [g1 k (by omega)]; exact h5 k (by omega)
      · by_cases hki : k + 1 = i
        · rw [hki, g2, g1 k (by omega), show k = i - 1 by omega, h4]; omega
        · rw [g1 k (by omega), g1 (k + 1) (by omega)]; exact h6 k (by omega))
  rw [s1, Option.map_some]
  refine ⟨_, rfl, by omega, ⟨fun y hy => ?_, fun y hy => ?_⟩, fun x hx => ?_⟩
  · unfold pathOf; have := s6 (g.h - 1 - y) (by omega); omega
  · unfold pathOf
    have := s7 (g.h - 1 - (y + 1)) (by omega)
    rw [show g.h - 1 - (y + 1) + 1 = g.h - 1 - y by omega] at this
    omega
  · unfold pathOf
    rw [Nat.sub_self, s4, ← e4 x _ hx (by omega), ← e4 b.1 _ (by omega) (by omega), ← e3]
    exact (b4 x (by omega)).1

/-! ### C59 -/

/-- **C59**, the parts that hold: the search returns one column per row, each inside the image and
at most one away from the next; and the seam starts in the bottom row at the end of a path of least
total energy.  Missing: the seam itself need not be such a path, see `C59_negation`. -/
theorem C59_seam_partial (g : Image Nat) (hw : 0 < g.w) (hh : 0 < g.h) :
    ∃ seam, seamOfEnergies g = some seam ∧ seam.length = g.h ∧ IsPath g.w g.h (pathOf g.h seam) ∧
      ∃ p, IsPath g.w g.h p ∧ p (g.h - 1) = pathOf g.h seam (g.h - 1) ∧
        ∀ q, IsPath g.w g.h q → cost g g.h p ≤ cost g g.h q := by
  obtain ⟨seam, h1, h2, h3, h4⟩ := seamOfEnergies_spec g hw hh
  obtain ⟨p, k1, k2, k3⟩ := energy_attained g (g.h - 1) (pathOf g.h seam (g.h - 1))
    (h3.1 _ (by omega))
  rw [Nat.sub_add_cancel hh] at k1 k3
  refine ⟨seam, h1, h2, h3, p, k1, k2, fun q hq => ?_⟩
  have := energy_le g (g.h - 1) q (by rw [Nat.sub_add_cancel hh]; exact hq)
  rw [Nat.sub_add_cancel hh] at this
  have h5 := h4 (q (g.h - 1)) (hq.1 _ (by omega))
  omega

/-- **C59.** The table of path energies holds at every pixel the least total energy of a path from
the top row to that pixel. -/
theorem C59_table (g : Image Nat) (hh : 0 < g.h) : ∃ e, pathEnergies g = some e ∧ e.w = g.w ∧
    e.h = g.h ∧ ∀ x y, x < g.w → y < g.h → IsLeastEnergy g x y (e.px x y) := by
  obtain ⟨e, e1, e2, e3, e4⟩ := pathEnergies_spec g hh
  refine ⟨e, e1, e2, e3, fun x y hx hy => ?_⟩
  rw [e4 x y hx hy]
  refine ⟨energy_attained g y x hx, fun p hp hpx => ?_⟩
  rw [← hpx]
  exact energy_le g y p hp

/-- A path is cheapest among the paths with its end exactly when each of its pixels carries the
least path energy among the (at most three) pixels above its successor. -/
theorem cost_eq_iff (g : Image Nat) : ∀ (y : Nat) (p : Nat → Nat), IsPath g.w (y + 1) p →
    (cost g (y + 1) p = energy g y (p y) ↔
      ∀ t, t < y → energy g t (p t) = minAbove g.w (energy g t) (p (t + 1)))
  | 0, p, hp => by simp [cost, energy]
  | y + 1, p, hp => by
    have ih := cost_eq_iff g y p (hp.mono (by omega))
    have h1 := energy_le g y p (hp.mono (by omega))
    have h2 := hp.2 y (by omega)
    have h3 := minAbove_le (e := energy g y) (hp.1 y (by omega)) h2.2 h2.1
    have h4 : cost g (y + 1 + 1) p = cost g (y + 1) p + g.px (p (y + 1)) (y + 1) := by
      unfold cost; rw [sum_range_succ]
    rw [h4, energy]
    constructor
    · intro h t ht
      have h5 : cost g (y + 1) p = energy g y (p y) := by omega
      rcases Nat.lt_or_ge t y with h6 | h6
      · exact ih.1 h5 t h6
      · obtain rfl : t = y := by omega
        omega
    · intro h
      have h5 := ih.2 fun t ht => h t (by omega)
      have h6 := h y (by omega)
      omega

/-- **C59**, exact characterisation: the returned seam has least total energy exactly when every
step of the retrace goes to a column whose least path energy is the smallest among the columns at
distance at most one. -/
theorem C59_minimal_iff (g : Image Nat) (hw : 0 < g.w) (hh : 0 < g.h) :
    ∃ seam e, seamOfEnergies g = some seam ∧ pathEnergies g = some e ∧
      ((∀ q, IsPath g.w g.h q → cost g g.h (pathOf g.h seam) ≤ cost g g.h q) ↔
      ∀ y, y + 1 < g.h → ∀ x, x < g.w → x ≤ pathOf g.h seam (y + 1) + 1 →
        pathOf g.h seam (y + 1) ≤ x + 1 → e.px (pathOf g.h seam y) y ≤ e.px x y) := by
  obtain ⟨e, e1, e2, e3, e4⟩ := pathEnergies_spec g hh
  obtain ⟨seam, h1, h2, h3, h4⟩ := seamOfEnergies_spec g hw hh
  refine ⟨seam, e, h1, e1, ?_⟩
  have key := cost_eq_iff g (g.h - 1) (pathOf g.h seam) (by rw [Nat.sub_add_cancel hh]; exact h3)
  have hle := energy_le g (g.h - 1) (pathOf g.h seam) (by rw [Nat.sub_add_cancel hh]; exact h3)
  rw [Nat.sub_add_cancel hh] at key hle
  have hmin : (∀ q, IsPath g.w g.h q → cost g g.h (pathOf g.h seam) ≤ cost g g.h q) ↔
      cost g g.h (pathOf g.h seam) = energy g (g.h - 1) (pathOf g.h seam (g.h - 1)) := by
    constructor
    · intro h
      obtain ⟨p, k1, k2, k3⟩ := energy_attained g (g.h - 1) (pathOf g.h seam (g.h - 1))
        (h3.1 _ (by omega))
      rw [Nat.sub_add_cancel hh] at k1 k3
      have := h p k1
      omega
    · intro h q hq
      have h5 := energy_le g (g.h - 1) q (by rw [Nat.sub_add_cancel hh]; exact hq)
      rw [Nat.sub_add_cancel hh] at h5
      have h6 := h4 (q (g.h - 1)) (hq.1 _ (by omega))
      omega
  rw [hmin, key]
  constructor
  · intro h y hy x hx hx1 hx2
    rw [e4 _ y (h3.1 y (by omega)) (by omega), e4 x y hx (by omega), h y (by omega)]
    exact minAbove_le hx hx2 hx1
  · intro h t ht
    have hlt := h3.1 (t + 1) (by omega)
    obtain ⟨x', k1, k2, k3, k4⟩ := minAbove_eq (w := g.w) (energy g t) hlt
    have h5 := h t (by omega) x' k1 k3 k2
    rw [e4 _ t (h3.1 t (by omega)) (by omega), e4 x' t k1 (by omega)] at h5
    have h6 := h3.2 t (by omega)
    have h7 := minAbove_le (e := energy g t) (h3.1 t (by omega)) h6.2 h6.1
    omega

/-- One step of the retrace from column `c` with remembered energy `m` in the row `row` above: left if that is cheaper
than straight up, then right if that is cheaper than the left neighbour (when left was cheaper) or than
the energy remembered from an earlier row. -/
structure RetraceRule (e : Image Nat) (row c m c' m' : Nat) : Prop where
  right : c' = c + 1 ↔ c + 1 < e.w ∧
    e.px (c + 1) row < if 0 < c ∧ e.px (c - 1) row < e.px c row then e.px (c - 1) row else m
  left : c' + 1 = c ↔ (0 < c ∧ e.px (c - 1) row < e.px c row) ∧
    ¬ (c + 1 < e.w ∧ e.px (c + 1) row < e.px (c - 1) row)
  near : c' = c ∨ c' = c + 1 ∨ c' + 1 = c
  remembered : m' = if c' = c then m else e.px c' row

theorem retraceStep_rule (e : Image Nat) {y : Nat} (hy0 : 0 < y) (hy : y < e.h)
    (s : Nat × Nat × List Nat) (hs : s.1 < e.w) :
    ∃ s', retraceStep e y s = some s' ∧ s'.1 < e.w ∧ s'.2.2 = s.2.2 ++ [s'.1] ∧
      RetraceRule e (y - 1) s.1 s.2.1 s'.1 s'.2.1 := by
  unfold retraceStep
  dsimp only
  rw [csub_of_le (by omega), Option.bind_some, Image.get_of_inB hs (by omega), Option.bind_some]
  by_cases hl : 0 < s.1 ∧ e.px (s.1 - 1) (y - 1) < e.px s.1 (y - 1)
  · rw [if_pos hl.1, Image.get_of_inB (by omega) (by omega), Option.map_some, if_pos hl.2, Option.bind_some,
      csub_of_le (by omega), Option.bind_some]
    by_cases hr : s.1 < e.w - 1
    · rw [if_pos hr, Image.get_of_inB (by omega) (by omega), Option.map_some, Option.bind_some]
      refine ⟨_, rfl, ?_⟩
      dsimp only
      by_cases hr2 : e.px (s.1 + 1) (y - 1) < e.px (s.1 - 1) (y - 1)
      · rw [if_pos hr2]
        dsimp only
        refine ⟨by omega, rfl, ⟨?_, ?_, Or.inr (Or.inl rfl), ?_⟩⟩
        · rw [if_pos hl]; simp [hr2]; omega
        · constructor
          · intro h; omega
          · intro h; exact absurd ⟨by omega, hr2⟩ h.2
        · rw [if_neg (by omega)]
      · rw [if_neg hr2]
        dsimp only
        refine ⟨by omega, rfl, ⟨?_, ?_, Or.inr (Or.inr (by omega)), ?_⟩⟩
        · rw [if_pos hl]
          constructor
          · intro h; omega
          · intro h; exact absurd h.2 hr2
        · constructor
          · intro h; exact ⟨hl, fun h => hr2 h.2⟩
          · intro h; omega
        · rw [if_neg (by omega)]
    · rw [if_neg hr, Option.bind_some]
      refine ⟨_, rfl, ?_⟩
      dsimp only
      refine ⟨by omega, rfl, ⟨?_, ?_, Or.inr (Or.inr (by omega)), ?_⟩⟩
      · constructor
        · intro h; omega
        · intro h; omega
      · constructor
        · intro h; exact ⟨hl, fun h => by omega⟩
        · intro h; omega
      · rw [if_neg (by omega)]
  · have e1 : (if 0 < s.1 then (e.get (s.1 - 1) (y - 1)).map fun left =>
        if left < e.px s.1 (y - 1) then (s.1 - 1, left) else (s.1, s.2.1)
        else some (s.1, s.2.1)) = some (s.1, s.2.1) := by
      by_cases h0 : 0 < s.1
      · rw [if_pos h0, Image.get_of_inB (by omega) (by omega), Option.map_some, if_neg (fun h => hl ⟨h0, h⟩)]
      · rw [if_neg h0]
    rw [e1, Option.bind_some, csub_of_le (by omega), Option.bind_some]
    by_cases hr : s.1 < e.w - 1
    · rw [if_pos hr, Image.get_of_inB (by omega) (by omega), Option.map_some, Option.bind_some]
      refine ⟨_, rfl, ?_⟩
      dsimp only
      by_cases hr2 : e.px (s.1 + 1) (y - 1) < s.2.1
      · rw [if_pos hr2]
        dsimp only
        refine ⟨by omega, rfl, ⟨?_, ?_, Or.inr (Or.inl rfl), ?_⟩⟩
        · rw [if_neg hl]; simp [hr2]; omega
        · constructor
          · intro h; omega
          · intro h; exact absurd h.1 hl
        · rw [if_neg (by omega)]
      · rw [if_neg hr2]
        dsimp only
        refine ⟨by omega, rfl, ⟨?_, ?_, Or.inl rfl, ?_⟩⟩
        · rw [if_neg hl]
          constructor
          · intro h; omega
          · intro h; exact absurd h.2 hr2
        · constructor
          · intro h; omega
          · intro h; exact absurd h.1 hl
        · rw [if_pos rfl]
    · rw [if_neg hr, Option.bind_some]
      refine ⟨_, rfl, ?_⟩
      dsimp only
      refine ⟨by omega, rfl, ⟨?_, ?_, Or.inl rfl, ?_⟩⟩
      · constructor
        · intro h; omega
        · intro h; omega
      · constructor
        · intro h; omega
        · intro h; exact absurd h.1 hl
      · rw [if_pos rfl]

/-- **C59**, which seam is returned: it starts at the leftmost column of the bottom row with least path energy and
follows the retrace rule upwards, where the remembered energy is that of the last pixel entered by a
sideways step (or of the start). -/
theorem C59_retrace (g : Image Nat) (hw : 0 < g.w) (hh : 0 < g.h) :
    ∃ (seam : List Nat) (e : Image Nat) (m : Nat → Nat), seamOfEnergies g = some seam ∧
      pathEnergies g = some e ∧ seam.length = g.h ∧ m 0 = e.px (seam.getD 0 0) (g.h - 1) ∧
      (∀ x, x < g.w → e.px (seam.getD 0 0) (g.h - 1) ≤ e.px x (g.h - 1) ∧
        (x < seam.getD 0 0 → e.px (seam.getD 0 0) (g.h - 1) < e.px x (g.h - 1))) ∧
      ∀ k, k + 1 < g.h →
        RetraceRule e (g.h - 2 - k) (seam.getD k 0) (m k) (seam.getD (k + 1) 0) (m (k + 1)) := by
  obtain ⟨e, e1, e2, e3, e4⟩ := pathEnergies_spec g hh
  obtain ⟨b, b1, b2, b3, b4⟩ := bottomMin_spec e (by omega) (by omega)
  unfold seamOfEnergies
  rw [e1, Option.bind_some, b1, Option.bind_some]
  obtain ⟨s, s1, s2, s3, s4, m, s5, s6, s7, s8⟩ := forRange_spec (lo := 1) (hi := e.h)
    (s := (b.1, b.2, [b.1])) (f := fun i s => retraceStep e (e.h - i) s)
    (fun i (s : Nat × Nat × List Nat) => s.1 < e.w ∧ s.2.2.length = i ∧ s.2.2.getD 0 0 = b.1 ∧
      ∃ m : Nat → Nat, m 0 = b.2 ∧ s.2.2.getD (i - 1) 0 = s.1 ∧ m (i - 1) = s.2.1 ∧
      ∀ k, k + 1 < i → RetraceRule e (e.h - 2 - k) (s.2.2.getD k 0) (m k) (s.2.2.getD (k + 1) 0) (m (k + 1)))
    (by omega)
    ⟨b2, rfl, rfl, fun _ => b.2, rfl, rfl, rfl, fun k hk => by omega⟩
    (by
      rintro i s hi1 hi ⟨h1, h2, h3, m, h4, h5, h6, h7⟩
      obtain ⟨s', k1, k2, k3, k4⟩ := retraceStep_rule e (y := e.h - i) (by omega) (by omega) s h1
      have g1 : ∀ k, k < i → s'.2.2.getD k 0 = s.2.2.getD k 0 := fun k hk => by
        rw [k3, List.getD_eq_getElem?_getD, List.getD_eq_getElem?_getD,
          List.getElem?_append_left (by omega)]
      have g2 : s'.2.2.getD i 0 = s'.1 := by
        rw [k3, List.getD_eq_getElem?_getD, List.getElem?_append_right (by omega), h2, Nat.sub_self]; rfl
      refine ⟨s', k1, k2, by rw [k3]; simp [h2], by rw [g1 0 (by omega)]; exact h3,
        fun k => if k = i then s'.2.1 else m k, ?_, ?_, ?_, fun k hk => ?_⟩
      · dsimp only; rw [if_neg (by omega)]; exact h4
      · rw [Nat.add_sub_cancel]; exact g2
      · dsimp only; rw [Nat.add_sub_cancel, if_pos rfl]
      · dsimp only
        by_cases hki : k + 1 = i
        · rw [if_pos hki, if_neg (by omega), hki, g2, g1 k (by omega), show k = i - 1 by omega, h5, h6,
            show e.h - 2 - (i - 1) = e.h - i - 1 by omega]
          exact k4
        · rw [if_neg hki, if_neg (by omega), g1 k (by omega), g1 (k + 1) (by omega)]
          exact h7 k (by omega))
  rw [s1, Option.map_some]
  refine ⟨_, e, m, rfl, rfl, by omega, ?_, fun x hx => ?_, fun k hk => ?_⟩
  · rw [s4, s5, b3, e3]
  · rw [s4, ← e3]
    exact b4 x (by omega)
  · rw [← e3]
    exact s8 k (by omega)

/-- **C59** on images: for every 8-bit image at least two wide and one high the search returns a
connected path over the Sobel gradient magnitudes, averaged over the channels. -/
theorem C59_find {n : Nat} (im : Image (Fin n → Nat)) (hu : IsU8 im) (hw : 2 ≤ im.w) (hh : 0 < im.h) :
    ∃ g seam, g.w = im.w ∧ g.h = im.h ∧
      (∀ x y, x < im.w → y < im.h → ∃ m : Fin n → Nat, g.px x y = (∑ c, m c) / n ∧
        ∀ c, (m c : Int) ^ 2 ≤ hDiff 1 2 im c x y ^ 2 + vDiff 1 2 im c x y ^ 2 ∧
          hDiff 1 2 im c x y ^ 2 + vDiff 1 2 im c x y ^ 2 < ((m c : Int) + 1) ^ 2) ∧
      findVerticalSeam im = some seam ∧ seamOfEnergies g = some seam ∧
      seam.length = im.h ∧ IsPath im.w im.h (pathOf im.h seam) := by
  obtain ⟨v1, v2, -⟩ := C76_values im hu
  obtain ⟨g, g1, g2, g3, g4⟩ := C76_gradients 0 im sobelH sobelV meanGradient _ _ v1 v2
  obtain ⟨seam, h1, h2, h3, -⟩ := C59_seam_partial g (by omega) (by omega)
  rw [g2, g3] at h3
  refine ⟨g, seam, g2, g3, fun x y hx hy => ?_, ?_, h1, by omega, h3⟩
  · obtain ⟨m, hm, hc⟩ := g4 x y hx hy
    refine ⟨m, ?_, hc⟩
    rw [hm, meanGradient, Fin.sum_univ_def]
  unfold findVerticalSeam
  rw [if_pos hw, g1, Option.bind_some, h1]

/-- **C59.** Images narrower than two pixels are rejected. -/
theorem C59_narrow {n : Nat} (im : Image (Fin n → Nat)) (hw : im.w < 2) :
    findVerticalSeam im = none := by
  unfold findVerticalSeam
  rw [if_neg (by omega)]

/-- **C59 is false.** In the image with rows `0 0` and `0 1` the energies are `1 3` and `3 4`; the
seam found runs through energies 3 and 3, the left column costs 4. -/
theorem C59_negation :
    findVerticalSeam (⟨2, 2, fun x y _ => x * y⟩ : Image (Fin 1 → Nat)) = some [0, 1] ∧
    (gradients 0 (⟨2, 2, fun x y _ => x * y⟩ : Image (Fin 1 → Nat)) sobelH sobelV meanGradient).map
      Image.rows = some [[1, 3], [3, 4]] ∧
    IsPath 2 2 (fun _ => 0) ∧
    cost ⟨2, 2, fun x y => [[1, 3], [3, 4]].getD y [] |>.getD x 0⟩ 2 (fun _ => 0) <
      cost ⟨2, 2, fun x y => [[1, 3], [3, 4]].getD y [] |>.getD x 0⟩ 2 (pathOf 2 [0, 1]) := by
  refine ⟨by decide +kernel, by decide +kernel, ⟨fun y _ => Nat.zero_lt_two, fun y _ => ⟨by simp, by simp⟩⟩, ?_⟩
  decide

example : seamOfEnergies ⟨3, 3, fun x y => [[5, 1, 9], [4, 8, 2], [9, 9, 1]].getD y [] |>.getD x 0⟩ =
    some [2, 2, 1] := by decide

end Verif.Seam
