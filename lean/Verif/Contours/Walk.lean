import Verif.Contours.Model
import Mathlib.Algebra.Group.Prod
import Mathlib.Algebra.Group.Int.Defs
import Mathlib.Data.Finset.Card
import Mathlib.Data.Finset.Prod
import Mathlib.Logic.Function.Iterate
import Mathlib.Tactic.Abel
import Mathlib.Data.Prod.Basic
/-
The border walk on an arbitrary set of foreground points of the integer plane: the tracing step is
an injective map on (point, direction of the previous point) pairs, so every trace closes; and it
follows the cracks between foreground and background.
-/
namespace Verif.Contours

/-- Direction number `k` (modulo 8), clockwise on the screen from west. -/
def D (k : Nat) : Int × Int := dirs.getD (k % 8) (0, 0)

theorem D_mod (k : Nat) : D (k % 8) = D k := by simp [D]

theorem D_congr {a b : Nat} (h : a % 8 = b % 8) : D a = D b := by simp [D, h]

/-- Transfer a finitely checked fact about directions to all direction numbers. -/
theorem D_of_mod {P : Nat → Prop} (hP : ∀ k, P (k % 8) → P k) (h : ∀ k, k < 8 → P k) (k : Nat) :
    P k := hP k (h _ (Nat.mod_lt _ (by decide)))

theorem D_opp (k : Nat) : D k + D (k + 4) = 0 := by
  have h : ∀ k, k < 8 → D k + D (k + 4) = 0 := by decide
  have := h (k % 8) (Nat.mod_lt _ (by decide))
  rwa [D_mod, D_congr (show (k % 8 + 4) % 8 = (k + 4) % 8 by omega)] at this

theorem D_inj {a b : Nat} (h : D a = D b) : a % 8 = b % 8 := by
  have hh : ∀ a, a < 8 → ∀ b, b < 8 → D a = D b → a = b := by decide
  refine hh _ (Nat.mod_lt _ (by decide)) _ (Nat.mod_lt _ (by decide)) ?_
  rw [D_mod, D_mod, h]

theorem D_ne_zero (a : Nat) : D a ≠ 0 := by
  have hh : ∀ a, a < 8 → D a ≠ 0 := by decide
  have := hh (a % 8) (Nat.mod_lt _ (by decide))
  rwa [D_mod] at this

theorem D_tri (d : Nat) (hd : d % 2 = 0) :
    D d = D (d + 7) + D (d + 2) ∧ D (d + 7) = D (d + 6) + D d ∧ D d = D (d + 6) + D (d + 1) := by
  have hh : ∀ d, d < 8 → d % 2 = 0 →
      D d = D (d + 7) + D (d + 2) ∧ D (d + 7) = D (d + 6) + D d ∧
      D d = D (d + 6) + D (d + 1) := by decide
  have := hh (d % 8) (Nat.mod_lt _ (by decide)) (by omega)
  rw [D_mod, D_congr (show (d % 8 + 7) % 8 = (d + 7) % 8 by omega),
    D_congr (show (d % 8 + 6) % 8 = (d + 6) % 8 by omega),
    D_congr (show (d % 8 + 2) % 8 = (d + 2) % 8 by omega),
    D_congr (show (d % 8 + 1) % 8 = (d + 1) % 8 by omega)] at this
  exact this

section walk
variable (F : Int × Int → Bool)

/-- How many neighbours of `p` are passed over, going counter-clockwise from direction `k`, until
the first foreground one. -/
def scan (p : Int × Int) (k : Nat) : Nat :=
  ((List.range 8).find? fun i => F (p + D (k + 7 - i))).getD 7

/-- One tracing step: the state is the current point and the direction of the previous point. -/
def step (s : (Int × Int) × Nat) : (Int × Int) × Nat :=
  (s.1 + D (s.2 + 7 - scan F s.1 s.2), (s.2 + 7 - scan F s.1 s.2 + 4) % 8)

/-- Current and previous point are in the foreground. -/
def Valid (s : (Int × Int) × Nat) : Prop :=
  F s.1 = true ∧ s.2 < 8 ∧ F (s.1 + D s.2) = true

variable {F}

theorem scan_spec {p : Int × Int} {k : Nat} (h : F (p + D k) = true) :
    scan F p k < 8 ∧ F (p + D (k + 7 - scan F p k)) = true ∧
      ∀ i, i < scan F p k → F (p + D (k + 7 - i)) = false := by
  unfold scan
  cases e : (List.range 8).find? fun i => F (p + D (k + 7 - i)) with
  | none =>
    rw [List.find?_eq_none] at e
    have := e 7 (by simp)
    rw [show k + 7 - 7 = k by omega] at this
    exact absurd h this
  | some i =>
    rw [List.find?_range_eq_some] at e
    obtain ⟨h1, h2, h3⟩ := e
    simp only [Option.getD_some]
    rw [List.mem_range] at h2
    exact ⟨h2, h1, fun j hj => by simpa using h3 j hj⟩

theorem valid_step {s : (Int × Int) × Nat} (h : Valid F s) : Valid F (step F s) := by
  obtain ⟨h1, h2, h3⟩ := h
  obtain ⟨a, b, c⟩ := scan_spec h3
  refine ⟨b, Nat.mod_lt _ (by decide), ?_⟩
  unfold step
  dsimp only
  rw [D_mod, add_assoc, D_opp, add_zero]
  exact h1

/-- The step goes back to the previous point in the recorded direction. -/
theorem step_prev (s : (Int × Int) × Nat) : (step F s).1 + D (step F s).2 = s.1 := by
  unfold step
  dsimp only
  rw [D_mod, add_assoc, D_opp, add_zero]

theorem step_inj {s t : (Int × Int) × Nat} (hs : Valid F s) (ht : Valid F t)
    (h : step F s = step F t) : s = t := by
  have h1 : s.1 = t.1 := by rw [← step_prev (F := F) s, ← step_prev (F := F) t, h]
  obtain ⟨p, k⟩ := s
  obtain ⟨q, l⟩ := t
  dsimp only at h1
  subst h1
  obtain ⟨_, hk, hF⟩ := hs
  obtain ⟨_, hl, hG⟩ := ht
  dsimp only at hk hF hl hG
  obtain ⟨a1, a2, a3⟩ := scan_spec hF
  obtain ⟨b1, b2, b3⟩ := scan_spec hG
  have h2 : (k + 7 - scan F p k + 4) % 8 = (l + 7 - scan F p l + 4) % 8 := congrArg Prod.snd h
  generalize scan F p k = i at *
  generalize scan F p l = j at *
  rcases Nat.lt_trichotomy i j with hij | hij | hij
  · -- `k` is passed over in the search from `l`
    have := b3 (j - i - 1) (by omega)
    rw [D_congr (show (l + 7 - (j - i - 1)) % 8 = k % 8 by omega), hF] at this
    simp at this
  · exact Prod.ext rfl (by dsimp only; omega)
  · have := a3 (i - j - 1) (by omega)
    rw [D_congr (show (k + 7 - (i - j - 1)) % 8 = l % 8 by omega), hG] at this
    simp at this

/-- An injective self-map of a finite set returns to its starting point. -/
theorem returns {α : Type _} [DecidableEq α] (f : α → α) (S : Finset α)
    (hm : ∀ s ∈ S, f s ∈ S) (hi : ∀ s ∈ S, ∀ t ∈ S, f s = f t → s = t) {s : α} (hs : s ∈ S) :
    ∃ n, 1 ≤ n ∧ n ≤ S.card ∧ f^[n] s = s := by
  have hmem : ∀ n, f^[n] s ∈ S := by
    intro n
    induction n with
    | zero => exact hs
    | succ n ih => rw [Function.iterate_succ_apply']; exact hm _ ih
  have hc : ∀ i m, f^[i] s = f^[i + m] s → s = f^[m] s := by
    intro i
    induction i with
    | zero => intro m h; simpa using h
    | succ i ih =>
      intro m h
      rw [Function.iterate_succ_apply', show i + 1 + m = (i + m) + 1 by omega,
        Function.iterate_succ_apply'] at h
      exact ih m (hi _ (hmem _) _ (hmem _) h)
  obtain ⟨a, ha, b, hb, hab, e⟩ := Finset.exists_ne_map_eq_of_card_lt_of_maps_to
    (s := Finset.range (S.card + 1)) (t := S) (by simp) (f := fun n => f^[n] s)
    (fun n _ => hmem n)
  rw [Finset.mem_range] at ha hb
  rcases Nat.lt_or_gt_of_ne hab with h | h
  · exact ⟨b - a, by omega, by omega, (hc a (b - a) (by rw [e]; congr 2; omega)).symm⟩
  · exact ⟨a - b, by omega, by omega, (hc b (a - b) (by rw [← e]; congr 2; omega)).symm⟩

/-- A dart: a foreground point and a horizontal or vertical direction of a background point
(direction numbers 0, 2, 4, 6 are west, north, east, south). -/
def Dart (F : Int × Int → Bool) (s : (Int × Int) × Nat) : Prop :=
  F s.1 = true ∧ s.2 < 8 ∧ s.2 % 2 = 0 ∧ F (s.1 + D s.2) = false

/-- The crack-following successor of a dart: walk along the boundary with the foreground on the
left, diagonal foreground neighbours being connected. -/
def crack (F : Int × Int → Bool) (s : (Int × Int) × Nat) : (Int × Int) × Nat :=
  if F (s.1 + D (s.2 + 7)) then (s.1 + D (s.2 + 7), (s.2 + 2) % 8)
  else if F (s.1 + D (s.2 + 6)) then (s.1 + D (s.2 + 6), s.2)
  else (s.1, (s.2 + 6) % 8)

theorem crack_dart {s : (Int × Int) × Nat} (h : Dart F s) : Dart F (crack F s) := by
  obtain ⟨p, d⟩ := s
  obtain ⟨h1, h2, h3, h4⟩ := h
  dsimp only at *
  obtain ⟨e1, e2, e3⟩ := D_tri d h3
  unfold crack
  dsimp only
  cases c1 : F (p + D (d + 7)) with
  | true =>
    rw [if_pos rfl]
    refine ⟨c1, Nat.mod_lt _ (by decide), by dsimp only; omega, ?_⟩
    dsimp only
    rw [D_mod, add_assoc, ← e1]
    exact h4
  | false =>
    rw [if_neg (by decide)]
    cases c2 : F (p + D (d + 6)) with
    | true =>
      rw [if_pos rfl]
      refine ⟨c2, h2, h3, ?_⟩
      dsimp only
      rw [add_assoc, ← e2]
      exact c1
    | false =>
      rw [if_neg (by decide)]
      refine ⟨h1, Nat.mod_lt _ (by decide), by dsimp only; omega, ?_⟩
      dsimp only
      rw [D_mod]
      exact c2

/-- The three possible predecessors of a dart exclude each other. -/
theorem crack_pre {s : (Int × Int) × Nat} (h : Dart F s) :
    let t := crack F s
    (F (t.1 + D (t.2 + 1)) = true ∧ s = (t.1 + D (t.2 + 1), (t.2 + 6) % 8)) ∨
    (F (t.1 + D (t.2 + 1)) = false ∧ F (t.1 + D (t.2 + 2)) = true ∧
      s = (t.1 + D (t.2 + 2), t.2)) ∨
    (F (t.1 + D (t.2 + 1)) = false ∧ F (t.1 + D (t.2 + 2)) = false ∧
      s = (t.1, (t.2 + 2) % 8)) := by
  obtain ⟨p, d⟩ := s
  obtain ⟨h1, h2, h3, h4⟩ := h
  dsimp only at *
  obtain ⟨e1, e2, e3⟩ := D_tri d h3
  unfold crack
  dsimp only
  cases c1 : F (p + D (d + 7)) with
  | true =>
    rw [if_pos rfl]
    dsimp only
    left
    have : p + D (d + 7) + D ((d + 2) % 8 + 1) = p := by
      rw [add_assoc, D_congr (show ((d + 2) % 8 + 1) % 8 = (d + 7 + 4) % 8 by omega), D_opp,
        add_zero]
    rw [this]
    exact ⟨h1, Prod.ext rfl (by dsimp only; omega)⟩
  | false =>
    rw [if_neg (by decide)]
    right
    cases c2 : F (p + D (d + 6)) with
    | true =>
      rw [if_pos rfl]
      dsimp only
      left
      have : p + D (d + 6) + D (d + 2) = p := by
        rw [add_assoc, D_congr (show (d + 2) % 8 = (d + 6 + 4) % 8 by omega), D_opp, add_zero]
      rw [this]
      refine ⟨?_, h1, rfl⟩
      rw [add_assoc, ← e3]
      exact h4
    | false =>
      rw [if_neg (by decide)]
      dsimp only
      right
      rw [D_congr (show ((d + 6) % 8 + 1) % 8 = (d + 7) % 8 by omega),
        D_congr (show ((d + 6) % 8 + 2) % 8 = d % 8 by omega)]
      exact ⟨c1, h4, Prod.ext rfl (by dsimp only; omega)⟩

theorem crack_inj {s t : (Int × Int) × Nat} (hs : Dart F s) (ht : Dart F t)
    (h : crack F s = crack F t) : s = t := by
  have h1 := crack_pre hs
  have h2 := crack_pre ht
  dsimp only at h1 h2
  rw [h] at h1
  rcases h1 with ⟨a, b⟩ | ⟨a, a', b⟩ | ⟨a, a', b⟩ <;>
    rcases h2 with ⟨c, d⟩ | ⟨c, c', d⟩ | ⟨c, c', d⟩ <;>
    first
      | exact b.trans d.symm
      | exact absurd (a.symm.trans c) (by decide)
      | exact absurd (a'.symm.trans c') (by decide)

/-- In state `s` the counter-clockwise search passes over the background neighbour in direction
`d`. -/
def Sees (F : Int × Int → Bool) (s : (Int × Int) × Nat) (d : Nat) : Prop :=
  ∃ i, i < 8 ∧ d = (s.2 + 7 - i) % 8 ∧ ∀ j, j ≤ i → F (s.1 + D (s.2 + 7 - j)) = false

theorem sees_bg {s : (Int × Int) × Nat} {d : Nat} (h : Sees F s d) : F (s.1 + D d) = false := by
  obtain ⟨i, _, rfl, h⟩ := h
  rw [D_mod]
  exact h i (Nat.le_refl _)

theorem scan_eq {p : Int × Int} {k i : Nat} (hi : i < 8) (h : F (p + D (k + 7 - i)) = true)
    (hj : ∀ j, j < i → F (p + D (k + 7 - j)) = false) : scan F p k = i := by
  unfold scan
  have : (List.range 8).find? (fun i => F (p + D (k + 7 - i))) = some i := by
    rw [List.find?_range_eq_some]
    exact ⟨h, by simpa using hi, fun j hj' => by simpa using hj j hj'⟩
  rw [this]
  rfl

/-- The crack successor of a dart seen in a state is seen in the same or in the next state. -/
theorem sees_crack {s : (Int × Int) × Nat} {d : Nat} (hs : Valid F s) (hd : d % 2 = 0)
    (h : Sees F s d) :
    (crack F (s.1, d)).1 = s.1 ∧ Sees F s (crack F (s.1, d)).2 ∨
    (crack F (s.1, d)).1 = (step F s).1 ∧ Sees F (step F s) (crack F (s.1, d)).2 := by
  obtain ⟨p, k⟩ := s
  obtain ⟨h1, h2, h3⟩ := hs
  obtain ⟨i, hi, rfl, hz⟩ := h
  dsimp only at *
  have hi7 : i < 7 := by
    by_contra hc
    have := hz 7 (by omega)
    rw [show k + 7 - 7 = k by omega, h3] at this
    simp at this
  obtain ⟨e1, e2, e3⟩ := D_tri _ hd
  unfold crack
  dsimp only
  have hz' : ∀ j, j < i + 1 → F (p + D (k + 7 - j)) = false := fun j hj => hz j (by omega)
  have q1 : D ((k + 7 - i) % 8 + 7) = D (k + 7 - (i + 1)) := D_congr (by omega)
  have q2 : D ((k + 7 - i) % 8 + 6) = D (k + 7 - (i + 2)) ∨ i = 6 ∧ k = 0 := by
    by_cases h : i = 6 ∧ k = 0
    · exact Or.inr h
    · exact Or.inl (D_congr (by omega))
  cases c1 : F (p + D ((k + 7 - i) % 8 + 7)) with
  | true =>
    rw [if_pos rfl]
    right
    rw [q1] at c1
    have hsc := scan_eq (by omega) c1 hz'
    unfold step
    dsimp only
    rw [hsc, q1]
    refine ⟨rfl, 0, by decide, by dsimp only; omega, ?_⟩
    intro j hj
    obtain rfl : j = 0 := by omega
    dsimp only
    rw [add_assoc, ← q1,
      D_congr (show ((k + 7 - (i + 1) + 4) % 8 + 7 - 0) % 8 = ((k + 7 - i) % 8 + 2) % 8 by omega),
      ← e1, D_mod]
    exact hz i (Nat.le_refl _)
  | false =>
    rw [if_neg (by decide)]
    have hi6 : i ≠ 6 := by
      rintro rfl
      rw [D_congr (show ((k + 7 - 6) % 8 + 7) % 8 = k % 8 by omega), h3] at c1
      simp at c1
    have q2 : D ((k + 7 - i) % 8 + 6) = D (k + 7 - (i + 2)) := D_congr (by omega)
    have hz2 : ∀ j, j < i + 2 → F (p + D (k + 7 - j)) = false := by
      intro j hj
      by_cases hj' : j = i + 1
      · subst hj'; rw [← q1]; exact c1
      · exact hz j (by omega)
    cases c2 : F (p + D ((k + 7 - i) % 8 + 6)) with
    | true =>
      rw [if_pos rfl]
      right
      rw [q2] at c2
      have hsc := scan_eq (by omega) c2 hz2
      unfold step
      dsimp only
      rw [hsc, q2]
      refine ⟨rfl, 1, by decide, by dsimp only; omega, ?_⟩
      intro j hj
      dsimp only
      rw [add_assoc, ← q2]
      by_cases hj0 : j = 0
      · subst hj0
        rw [D_congr (show ((k + 7 - (i + 2) + 4) % 8 + 7 - 0) % 8 = ((k + 7 - i) % 8 + 1) % 8 by
          omega), ← e3, D_mod]
        exact hz i (Nat.le_refl _)
      · obtain rfl : j = 1 := by omega
        rw [D_congr (show ((k + 7 - (i + 2) + 4) % 8 + 7 - 1) % 8 = ((k + 7 - i) % 8) % 8 by
          omega), ← e2]
        exact c1
    | false =>
      rw [if_neg (by decide)]
      left
      refine ⟨rfl, i + 2, by omega, by dsimp only; omega, ?_⟩
      intro j hj
      dsimp only
      by_cases hj' : j = i + 2
      · subst hj'; rw [← q2]; exact c2
      · exact hz2 j (by omega)

/-- If some dart is seen in a state, some dart is seen in the next state. -/
theorem sees_step {s : (Int × Int) × Nat} (hs : Valid F s) (h : ∃ d, d % 2 = 0 ∧ Sees F s d) :
    ∃ d, d % 2 = 0 ∧ Sees F (step F s) d := by
  obtain ⟨d, hd, hi⟩ := h
  obtain ⟨i, hi⟩ := hi
  induction hn : 8 - i using Nat.strong_induction_on generalizing i d with
  | _ n ih =>
    obtain ⟨h1, h2, h3⟩ := hi
    rcases sees_crack hs hd ⟨i, h1, h2, h3⟩ with ⟨a, b⟩ | ⟨a, b⟩
    · -- still at the same point: the direction has moved on by two
      have hi7 : i + 2 < 8 ∧ F (s.1 + D (s.2 + 7 - (i + 1))) = false ∧
          F (s.1 + D (s.2 + 7 - (i + 2))) = false := by
        obtain ⟨p, k⟩ := s
        obtain ⟨v1, v2, v3⟩ := hs
        dsimp only at *
        have hi7 : i < 7 := by
          by_contra hc
          have := h3 7 (by omega)
          rw [show k + 7 - 7 = k by omega, v3] at this
          simp at this
        unfold crack at a
        dsimp only at a
        have q1 : D (d + 7) = D (k + 7 - (i + 1)) := D_congr (by omega)
        cases c1 : F (p + D (d + 7)) with
        | true =>
          rw [c1, if_pos rfl] at a
          exact absurd (add_eq_left.mp a) (D_ne_zero _)
        | false =>
          rw [c1, if_neg (by decide)] at a
          have hi6 : i ≠ 6 := by
            rintro rfl
            rw [D_congr (show (d + 7) % 8 = k % 8 by omega), v3] at c1
            simp at c1
          have q2 : D (d + 6) = D (k + 7 - (i + 2)) := D_congr (by omega)
          cases c2 : F (p + D (d + 6)) with
          | true =>
            rw [c2, if_pos rfl] at a
            exact absurd (add_eq_left.mp a) (D_ne_zero _)
          | false =>
            exact ⟨by omega, by rw [← q1]; exact c1, by rw [← q2]; exact c2⟩
      refine ih (8 - (i + 2)) (by omega) ((s.2 + 7 - (i + 2)) % 8) (by omega) (i + 2) ?_ rfl
      refine ⟨hi7.1, rfl, fun j hj => ?_⟩
      by_cases hj2 : j = i + 2
      · subst hj2; exact hi7.2.2
      · by_cases hj1 : j = i + 1
        · subst hj1; exact hi7.2.1
        · exact h3 j (by omega)
    · refine ⟨_, ?_, b⟩
      unfold crack
      dsimp only
      split
      · dsimp only; omega
      · split
        · exact hd
        · dsimp only; omega

end walk
end Verif.Contours
