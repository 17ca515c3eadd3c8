import Verif.Contours.Crack
/-
The darts seen along a walk are exactly those of one border.
-/
namespace Verif.Contours
variable {F : Int × Int → Bool}

/-- The first `i + 1` neighbours examined in state `s` are background. -/
def SeesAt (F : Int × Int → Bool) (s : (Int × Int) × Nat) (i : Nat) : Prop :=
  i < 8 ∧ ∀ j, j ≤ i → F (s.1 + D (s.2 + 7 - j)) = false

/-- The direction examined as number `i` in state `s`. -/
def dirAt (s : (Int × Int) × Nat) (i : Nat) : Nat := (s.2 + 7 - i) % 8

theorem sees_iff {s : (Int × Int) × Nat} {d : Nat} :
    Sees F s d ↔ ∃ i, SeesAt F s i ∧ d = dirAt s i := by
  unfold Sees SeesAt dirAt
  constructor
  · rintro ⟨i, a, b, c⟩; exact ⟨i, ⟨a, c⟩, b⟩
  · rintro ⟨i, ⟨a, c⟩, b⟩; exact ⟨i, a, b, c⟩

/-- While two further neighbours are background, the crack walk stays at the point. -/
theorem crack_stay {s : (Int × Int) × Nat} {i : Nat} (h : SeesAt F s (i + 2)) :
    crack F (s.1, dirAt s i) = (s.1, dirAt s (i + 2)) := by
  obtain ⟨hi, hz⟩ := h
  have q1 : D (dirAt s i + 7) = D (s.2 + 7 - (i + 1)) := D_congr (by unfold dirAt; omega)
  have q2 : D (dirAt s i + 6) = D (s.2 + 7 - (i + 2)) := D_congr (by unfold dirAt; omega)
  unfold crack
  dsimp only
  rw [q1, q2, hz _ (by omega), hz _ (by omega), if_neg (by decide), if_neg (by decide)]
  refine Prod.ext rfl ?_
  unfold dirAt
  dsimp only
  omega

/-- Later darts of a state are reached from earlier ones. -/
theorem reach_same {s : (Int × Int) × Nat} (i m : Nat) (h : SeesAt F s (i + 2 * m)) :
    ∃ n, (crack F)^[n] (s.1, dirAt s i) = (s.1, dirAt s (i + 2 * m)) := by
  induction m with
  | zero => exact ⟨0, rfl⟩
  | succ m ih =>
    obtain ⟨n, e⟩ := ih ⟨by have := h.1; omega, fun j hj => h.2 j (by omega)⟩
    refine ⟨n + 1, ?_⟩
    rw [Function.iterate_succ_apply', e, crack_stay (by
      rw [show i + 2 * m + 2 = i + 2 * (m + 1) by omega]; exact h)]
    rfl

/-- The crack walk reaches the next state of the border walk, entering it with one of its first two
neighbours. -/
theorem reach_next {s : (Int × Int) × Nat} (hs : Valid F s) {i : Nat} (h : SeesAt F s i)
    (he : dirAt s i % 2 = 0) :
    ∃ n i', i' ≤ 1 ∧ SeesAt F (step F s) i' ∧ dirAt (step F s) i' % 2 = 0 ∧
      (crack F)^[n] (s.1, dirAt s i) = ((step F s).1, dirAt (step F s) i') := by
  induction hn : 8 - i using Nat.strong_induction_on generalizing i with
  | _ n ih =>
    by_cases hstay : SeesAt F s (i + 2)
    · obtain ⟨n', i', a, b, c, e⟩ := ih (8 - (i + 2)) (by have := hstay.1; omega) hstay
        (by unfold dirAt at *; have := hstay.1; omega) rfl
      refine ⟨n' + 1, i', a, b, c, ?_⟩
      rw [Function.iterate_succ_apply, crack_stay hstay]
      exact e
    · obtain ⟨hi, hz⟩ := h
      obtain ⟨p, k⟩ := s
      obtain ⟨h1, h2, h3⟩ := hs
      dsimp only at *
      have hi7 : i < 7 := by
        by_contra hc
        have := hz 7 (by omega)
        rw [show k + 7 - 7 = k by omega, h3] at this
        simp at this
      have hdir : dirAt (p, k) i = (k + 7 - i) % 8 := rfl
      rw [hdir] at he ⊢
      obtain ⟨e1, e2, e3⟩ := D_tri _ he
      have hz' : ∀ j, j < i + 1 → F (p + D (k + 7 - j)) = false := fun j hj => hz j (by omega)
      have q1 : D ((k + 7 - i) % 8 + 7) = D (k + 7 - (i + 1)) := D_congr (by omega)
      refine ⟨1, ?_⟩
      rw [Function.iterate_one]
      unfold crack
      dsimp only
      cases c1 : F (p + D ((k + 7 - i) % 8 + 7)) with
      | true =>
        rw [if_pos rfl]
        rw [q1] at c1
        have hsc := scan_eq (by omega) c1 hz'
        have hst : step F (p, k) = (p + D (k + 7 - (i + 1)), (k + 7 - (i + 1) + 4) % 8) := by
          unfold step
          dsimp only
          rw [hsc]
        rw [hst, q1]
        refine ⟨0, by decide, ⟨by decide, ?_⟩, by unfold dirAt; dsimp only; omega, ?_⟩
        · intro j hj
          obtain rfl : j = 0 := by omega
          dsimp only
          rw [add_assoc, ← q1,
            D_congr (show ((k + 7 - (i + 1) + 4) % 8 + 7 - 0) % 8 = ((k + 7 - i) % 8 + 2) % 8 by
              omega), ← e1, D_mod]
          exact hz i (Nat.le_refl _)
        · refine Prod.ext rfl ?_
          unfold dirAt
          dsimp only
          omega
      | false =>
        rw [if_neg (by decide)]
        have hi6 : i ≠ 6 := by
          rintro rfl
          rw [D_congr (show ((k + 7 - 6) % 8 + 7) % 8 = k % 8 by omega), h3] at c1
          simp at c1
        have q2 : D ((k + 7 - i) % 8 + 6) = D (k + 7 - (i + 2)) := D_congr (by omega)
        have hz2 : ∀ j, j < i + 2 → F (p + D (k + 7 - j)) = false := by
          intro j hj
          by_cases hj' : j = i + 1
          · subst hj'; rw [← q1]; exact c1
          · exact hz j (by omega)
        cases c2 : F (p + D ((k + 7 - i) % 8 + 6)) with
        | true =>
          rw [if_pos rfl]
          rw [q2] at c2
          have hsc := scan_eq (by omega) c2 hz2
          have hst : step F (p, k) = (p + D (k + 7 - (i + 2)), (k + 7 - (i + 2) + 4) % 8) := by
            unfold step
            dsimp only
            rw [hsc]
          rw [hst, q2]
          refine ⟨1, by decide, ⟨by decide, ?_⟩, by unfold dirAt; dsimp only; omega, ?_⟩
          · intro j hj
            dsimp only
            rw [add_assoc, ← q2]
            by_cases hj0 : j = 0
            · subst hj0
              rw [D_congr (show ((k + 7 - (i + 2) + 4) % 8 + 7 - 0) % 8 =
                ((k + 7 - i) % 8 + 1) % 8 by omega), ← e3, D_mod]
              exact hz i (Nat.le_refl _)
            · obtain rfl : j = 1 := by omega
              rw [D_congr (show ((k + 7 - (i + 2) + 4) % 8 + 7 - 1) % 8 =
                ((k + 7 - i) % 8) % 8 by omega), ← e2]
              exact c1
          · refine Prod.ext rfl ?_
            unfold dirAt
            dsimp only
            omega
        | false =>
          exfalso
          apply hstay
          refine ⟨by omega, fun j hj => ?_⟩
          dsimp only
          by_cases hj' : j = i + 2
          · subst hj'; rw [← q2]; exact c2
          · exact hz2 j (by omega)

/-- Along the walk, the crack walk reaches every later state. -/
theorem reach_later {s : (Int × Int) × Nat} (hs : Valid F s) {i : Nat} (h : SeesAt F s i)
    (he : dirAt s i % 2 = 0) (m : Nat) :
    ∃ n i', i' ≤ 1 ∧ SeesAt F ((step F)^[m + 1] s) i' ∧
      dirAt ((step F)^[m + 1] s) i' % 2 = 0 ∧
      (crack F)^[n] (s.1, dirAt s i) =
        (((step F)^[m + 1] s).1, dirAt ((step F)^[m + 1] s) i') := by
  have hval : ∀ m, Valid F ((step F)^[m] s) := by
    intro m
    induction m with
    | zero => exact hs
    | succ m ih => rw [Function.iterate_succ_apply']; exact valid_step ih
  induction m with
  | zero => exact reach_next hs h he
  | succ m ih =>
    obtain ⟨n, i', a, b, c, e⟩ := ih
    obtain ⟨n2, i2, a2, b2, c2, e2⟩ := reach_next (hval (m + 1)) b c
    rw [← Function.iterate_succ_apply' (step F)] at b2 c2 e2
    refine ⟨n2 + n, i2, a2, b2, c2, ?_⟩
    rw [Function.iterate_add_apply, e]
    exact e2

/-- Closed walk: from any dart seen in any of its states, the crack walk reaches any dart seen in
its initial state. -/
theorem reach_start {s0 : (Int × Int) × Nat} (hs : Valid F s0) {n : Nat}
    (hret : (step F)^[n] s0 = s0) {m : Nat} (hm : m < n) {d a : Nat}
    (hd : d % 2 = 0) (h : Sees F ((step F)^[m] s0) d) (ha : a % 2 = 0) (h0 : Sees F s0 a) :
    ∃ r, (crack F)^[r] (((step F)^[m] s0).1, d) = (s0.1, a) := by
  have hval : ∀ m, Valid F ((step F)^[m] s0) := by
    intro m
    induction m with
    | zero => exact hs
    | succ m ih => rw [Function.iterate_succ_apply']; exact valid_step ih
  obtain ⟨i, hi, rfl⟩ := sees_iff.mp h
  obtain ⟨i0, hi0, rfl⟩ := sees_iff.mp h0
  obtain ⟨r1, i', a1, b1, c1, e1⟩ := reach_later (hval m) hi hd (n - 1 - m)
  rw [← Function.iterate_add_apply, show n - 1 - m + 1 + m = n by omega, hret] at b1 c1 e1
  have hpar : i' ≤ i0 ∧ (i0 - i') % 2 = 0 := by
    have := b1.1
    have := hi0.1
    unfold dirAt at c1 ha
    omega
  obtain ⟨r2, e2⟩ := reach_same (F := F) (s := s0) i' ((i0 - i') / 2) (by
    rw [show i' + 2 * ((i0 - i') / 2) = i0 by omega]; exact hi0)
  rw [show i' + 2 * ((i0 - i') / 2) = i0 by omega] at e2
  refine ⟨r2 + r1, ?_⟩
  rw [Function.iterate_add_apply, e1, e2]

end Verif.Contours
