import Verif.Contours.Walk
import Mathlib.Dynamics.PeriodicPts.Defs
/-
Every border of a finite set of foreground points has an east side.
-/
set_option linter.unusedSectionVars false

namespace Verif.Contours
variable {F : Int × Int → Bool}

/-- The vertex of the pixel grid where the crack of a dart starts. -/
def vstart (s : (Int × Int) × Nat) : Int × Int :=
  if s.2 = 0 then s.1
  else if s.2 = 2 then (s.1.1 + 1, s.1.2)
  else if s.2 = 4 then (s.1.1 + 1, s.1.2 + 1)
  else (s.1.1, s.1.2 + 1)

/-- The vertex of the pixel grid where the crack of a dart ends. -/
def vend (s : (Int × Int) × Nat) : Int × Int :=
  if s.2 = 0 then (s.1.1, s.1.2 + 1)
  else if s.2 = 2 then s.1
  else if s.2 = 4 then (s.1.1 + 1, s.1.2)
  else (s.1.1 + 1, s.1.2 + 1)

theorem dart_dir {s : (Int × Int) × Nat} (h : Dart F s) :
    s.2 = 0 ∨ s.2 = 2 ∨ s.2 = 4 ∨ s.2 = 6 := by
  obtain ⟨_, h1, h2, _⟩ := h
  omega

/-- Consecutive cracks share a vertex. -/
theorem vstart_crack {s : (Int × Int) × Nat} (h : Dart F s) : vstart (crack F s) = vend s := by
  obtain ⟨⟨x, y⟩, d⟩ := s
  have hd := dart_dir h
  dsimp only at hd
  unfold crack
  rcases hd with rfl | rfl | rfl | rfl <;> dsimp only <;> split <;> (try split) <;>
    simp [vstart, vend, D, dirs]

theorem crack_dir {s : (Int × Int) × Nat} (h : Dart F s) :
    (s.2 = 2 → (crack F s).2 = 2 ∨ (crack F s).2 = 0 ∨ (crack F s).2 = 4) ∧
    (s.2 = 6 → (crack F s).2 = 6 ∨ (crack F s).2 = 0 ∨ (crack F s).2 = 4) := by
  obtain ⟨⟨x, y⟩, d⟩ := s
  constructor
  · intro hd
    dsimp only at hd
    subst hd
    unfold crack
    dsimp only
    split
    · simp
    · split <;> simp
  · intro hd
    dsimp only at hd
    subst hd
    unfold crack
    dsimp only
    split
    · simp
    · split <;> simp

/-- Every border contains a dart whose background point lies to the east, from which the border
leads back to where we started. -/
theorem exists_east (S : Finset ((Int × Int) × Nat)) (hS : ∀ s, Dart F s → s ∈ S)
    {s : (Int × Int) × Nat} (h : Dart F s) :
    ∃ n, ((crack F)^[n] s).2 = 4 ∧ ∃ m, (crack F)^[m] ((crack F)^[n] s) = s := by
  classical
  have hdart : ∀ n, Dart F ((crack F)^[n] s) := by
    intro n
    induction n with
    | zero => exact h
    | succ n ih => rw [Function.iterate_succ_apply']; exact crack_dart ih
  obtain ⟨N, hN, _, hper⟩ := returns (crack F) (S.filter (Dart F))
    (fun s hs => by
      rw [Finset.mem_filter] at hs ⊢
      exact ⟨hS _ (crack_dart hs.2), crack_dart hs.2⟩)
    (fun s hs t ht e => by
      rw [Finset.mem_filter] at hs ht
      exact crack_inj hs.2 ht.2 e)
    (s := s) (by rw [Finset.mem_filter]; exact ⟨hS _ h, h⟩)
  have hpp : ∀ k, (crack F)^[N * k] s = s := fun k =>
    (Function.IsPeriodicPt.mul_const (show Function.IsPeriodicPt (crack F) N s from hper) k)
  have hex : ∃ n, ((crack F)^[n] s).2 = 4 := by
    by_contra hne
    have hne : ∀ n, ((crack F)^[n] s).2 ≠ 4 := fun n hn => hne ⟨n, hn⟩
    obtain ⟨f, hf⟩ : ∃ f : Nat → (Int × Int) × Nat, ∀ n, f n = (crack F)^[n] s :=
      ⟨fun n => (crack F)^[n] s, fun _ => rfl⟩
    have hstep : ∀ n, f (n + 1) = crack F (f n) := by
      intro n; rw [hf, hf, Function.iterate_succ_apply']
    have hv : ∀ n, vstart (f (n + 1)) = vend (f n) := by
      intro n
      rw [hstep, vstart_crack (by rw [hf]; exact hdart n)]
    have hd : ∀ n, (f n).2 = 0 ∨ (f n).2 = 2 ∨ (f n).2 = 6 := by
      intro n
      have h1 := dart_dir (hdart n)
      have h2 := hne n
      rw [← hf] at h1 h2
      omega
    have hfp : ∀ k, f (N * k) = f 0 := by
      intro k; rw [hf, hf, hpp]; rfl
    -- the vertical coordinate never decreases
    have hy : ∀ n, (vstart (f (n + 1))).2 = (vstart (f n)).2 + if (f n).2 = 0 then 1 else 0 := by
      intro n
      rw [hv]
      rcases hd n with e | e | e <;> simp [vstart, vend, e]
    have hmono : ∀ n m, (vstart (f n)).2 ≤ (vstart (f (n + m))).2 := by
      intro n m
      induction m with
      | zero => exact le_refl _
      | succ m ih =>
        have := hy (n + m)
        rw [show n + (m + 1) = n + m + 1 by omega, this]
        split <;> omega
    have hno0 : ∀ n, (f n).2 ≠ 0 := by
      intro n hn
      have h1 := hy n
      rw [if_pos hn] at h1
      have h2 := hmono 0 n
      have hle : n + 1 ≤ N * (n + 1) := Nat.le_mul_of_pos_left _ hN
      have h3 := hmono (n + 1) (N * (n + 1) - (n + 1))
      rw [show n + 1 + (N * (n + 1) - (n + 1)) = N * (n + 1) by omega, hfp] at h3
      rw [Nat.zero_add] at h2
      omega
    have hsame : ∀ n, (f n).2 = (f 0).2 := by
      intro n
      induction n with
      | zero => rfl
      | succ n ih =>
        have h1 := crack_dir (hdart n)
        rw [← hf, ← hstep] at h1
        have h2 := hno0 (n + 1)
        have h3 := hne (n + 1)
        rw [← hf] at h3
        have h4 := hd n
        have h5 := hno0 n
        rcases h4 with e | e | e
        · exact absurd e h5
        · have := h1.1 e; omega
        · have := h1.2 e; omega
    have hend := hfp 1
    rw [Nat.mul_one] at hend
    rcases hd 0 with e | e | e
    · exact hno0 0 e
    · have hx : ∀ n, (vstart (f n)).1 = (vstart (f 0)).1 - n := by
        intro n
        induction n with
        | zero => simp
        | succ n ih =>
          have e' := (hsame n).trans e
          rw [hv]
          have : (vend (f n)).1 = (vstart (f n)).1 - 1 := by simp [vstart, vend, e']
          rw [this, ih]
          push_cast
          omega
      have := hx N
      rw [hend] at this
      omega
    · have hx : ∀ n, (vstart (f n)).1 = (vstart (f 0)).1 + n := by
        intro n
        induction n with
        | zero => simp
        | succ n ih =>
          have e' := (hsame n).trans e
          rw [hv]
          have : (vend (f n)).1 = (vstart (f n)).1 + 1 := by simp [vstart, vend, e']
          rw [this, ih]
          push_cast
          omega
      have := hx N
      rw [hend] at this
      omega
  obtain ⟨n, hn⟩ := hex
  refine ⟨n, hn, N * n - n, ?_⟩
  have hle : n ≤ N * n := Nat.le_mul_of_pos_left _ hN
  rw [← Function.iterate_add_apply, show N * n - n + n = N * n by omega]
  exact hpp n

section orbit
variable (S : Finset ((Int × Int) × Nat)) (hS : ∀ s, Dart F s → s ∈ S)
include hS

/-- The crack walk is periodic. -/
theorem crack_periodic {s : (Int × Int) × Nat} (h : Dart F s) :
    ∃ N, 1 ≤ N ∧ (crack F)^[N] s = s := by
  classical
  obtain ⟨N, hN, _, hper⟩ := returns (crack F) (S.filter (Dart F))
    (fun s hs => by
      rw [Finset.mem_filter] at hs ⊢
      exact ⟨hS _ (crack_dart hs.2), crack_dart hs.2⟩)
    (fun s hs t ht e => by
      rw [Finset.mem_filter] at hs ht
      exact crack_inj hs.2 ht.2 e)
    (s := s) (by rw [Finset.mem_filter]; exact ⟨hS _ h, h⟩)
  exact ⟨N, hN, hper⟩

theorem dart_iter {s : (Int × Int) × Nat} (h : Dart F s) (n : Nat) :
    Dart F ((crack F)^[n] s) := by
  clear hS
  induction n with
  | zero => exact h
  | succ n ih => rw [Function.iterate_succ_apply']; exact crack_dart ih

/-- Reachability along the crack walk is symmetric. -/
theorem crack_back {s : (Int × Int) × Nat} (h : Dart F s) (n : Nat) :
    ∃ m, (crack F)^[m] ((crack F)^[n] s) = s := by
  obtain ⟨N, hN, hper⟩ := crack_periodic S hS h
  have hpp : (crack F)^[N * n] s = s :=
    (Function.IsPeriodicPt.mul_const (show Function.IsPeriodicPt (crack F) N s from hper) n)
  have hle : n ≤ N * n := Nat.le_mul_of_pos_left _ hN
  refine ⟨N * n - n, ?_⟩
  rw [← Function.iterate_add_apply, show N * n - n + n = N * n by omega]
  exact hpp

/-- Every dart has a predecessor on its own border. -/
theorem crack_surj {s : (Int × Int) × Nat} (h : Dart F s) :
    ∃ n, Dart F ((crack F)^[n] s) ∧ crack F ((crack F)^[n] s) = s := by
  obtain ⟨N, hN, hper⟩ := crack_periodic S hS h
  refine ⟨N - 1, dart_iter S hS h _, ?_⟩
  rw [← Function.iterate_succ_apply' (crack F), show (N - 1).succ = N by omega]
  exact hper

/-- A border with a west side in some row has an east side in that row. -/
theorem east_in_row {q : Int × Int} (h : Dart F (q, 0)) :
    ∃ n r, (crack F)^[n] (q, 0) = (r, 4) ∧ r.2 = q.2 := by
  obtain ⟨N, hN, hper⟩ := crack_periodic S hS h
  obtain ⟨f, hf⟩ : ∃ f : Nat → (Int × Int) × Nat, ∀ n, f n = (crack F)^[n] (q, 0) :=
    ⟨fun n => (crack F)^[n] (q, 0), fun _ => rfl⟩
  have hv : ∀ n, vstart (f (n + 1)) = vend (f n) := by
    intro n
    rw [hf, hf, Function.iterate_succ_apply', vstart_crack (dart_iter S hS h n)]
  have hbad : ∀ n, (vstart (f n)).2 ≥ q.2 + 1 → (vstart (f (n + 1))).2 ≤ q.2 →
      (f n).2 = 4 ∧ (f n).1.2 = q.2 := by
    intro n h1 h2
    rw [hv] at h2
    have hd := dart_dir (dart_iter S hS h n)
    rw [← hf] at hd
    rcases hd with e | e | e | e <;> simp [vstart, vend, e] at h1 h2 ⊢ <;> omega
  by_contra hne
  have hall : ∀ n, (vstart (f (n + 1))).2 ≥ q.2 + 1 := by
    intro n
    induction n with
    | zero =>
      rw [hv, hf]
      simp [vend]
    | succ n ih =>
      by_contra hc
      obtain ⟨a, b⟩ := hbad (n + 1) ih (by omega)
      exact hne ⟨n + 1, (f (n + 1)).1, by rw [← hf, ← a], b⟩
  have := hall (N - 1)
  rw [show N - 1 + 1 = N by omega, hf, hper] at this
  simp [vstart] at this

/-- From a south side the border leads back, leftwards along the row, to an east side in the row
below and further left, or in the same row or above. -/
theorem east_left (hL : ∀ p, F p = true → 0 ≤ p.1) {q : Int × Int} (h : Dart F (q, 6)) :
    ∃ n r, (crack F)^[n] (q, 6) = (r, 4) ∧ (r.2 ≤ q.2 ∨ r.2 = q.2 + 1 ∧ r.1 < q.1) := by
  induction hn : q.1.toNat using Nat.strong_induction_on generalizing q with
  | _ N ih =>
    obtain ⟨n, hd, hc⟩ := crack_surj S hS h
    have hp := crack_pre hd
    dsimp only at hp
    rw [hc] at hp
    dsimp only at hp
    rcases hp with ⟨_, e⟩ | ⟨_, hF, e⟩ | ⟨_, _, e⟩
    · refine ⟨n, _, e, Or.inr ?_⟩
      simp [D, dirs]
    · have hq : q + D 8 = (q.1 - 1, q.2) := by
        refine Prod.ext ?_ ?_
        · simp [D, dirs]; omega
        · simp [D, dirs]
      rw [show 6 + 2 = 8 by rfl, hq] at hF e
      have h0 := hL _ hF
      dsimp only at h0
      rw [e] at hd
      obtain ⟨n2, r, e2, hr⟩ := ih (q.1 - 1).toNat (by omega) hd rfl
      refine ⟨n2 + n, r, by rw [Function.iterate_add_apply, e, e2], ?_⟩
      dsimp only at hr
      omega
    · rw [show (6 + 2) % 8 = 0 by rfl] at e
      rw [e] at hd
      obtain ⟨n2, r, e2, hr⟩ := east_in_row S hS hd
      exact ⟨n2 + n, r, by rw [Function.iterate_add_apply, e, e2], Or.inl (by omega)⟩

/-- A point with background to the west and to the east: either both belong to the same border, or
the border on the west has an east side earlier in raster order. -/
theorem east_before (hL : ∀ p, F p = true → 0 ≤ p.1) {p : Int × Int} (h : Dart F (p, 0))
    (hE : F (p + D 4) = false) :
    (∃ n, (crack F)^[n] (p, 0) = (p, 4)) ∨
    ∃ n r, (crack F)^[n] (p, 0) = (r, 4) ∧ (r.2 < p.2 ∨ r.2 = p.2 ∧ r.1 < p.1) := by
  obtain ⟨n, hd, hc⟩ := crack_surj S hS h
  have hp := crack_pre hd
  dsimp only at hp
  rw [hc] at hp
  dsimp only at hp
  rcases hp with ⟨_, e⟩ | ⟨_, _, e⟩ | ⟨_, hN, e⟩
  · -- from the south side of the north-west neighbour
    rw [show (0 + 6) % 8 = 6 by rfl] at e
    rw [e] at hd
    obtain ⟨n2, r, e2, hr⟩ := east_left S hS hL hd
    refine Or.inr ⟨n2 + n, r, by rw [Function.iterate_add_apply, e, e2], ?_⟩
    simp [D, dirs] at hr
    omega
  · -- from the west side of the north neighbour
    rw [e] at hd
    obtain ⟨n2, r, e2, hr⟩ := east_in_row S hS hd
    refine Or.inr ⟨n2 + n, r, by rw [Function.iterate_add_apply, e, e2], ?_⟩
    simp [D, dirs] at hr
    omega
  · -- from the north side of the same point
    rw [show (0 + 2) % 8 = 2 by rfl] at e
    rw [e] at hd
    obtain ⟨n1, hd1, hc1⟩ := crack_surj S hS hd
    have hp1 := crack_pre hd1
    dsimp only at hp1
    rw [hc1] at hp1
    dsimp only at hp1
    rcases hp1 with ⟨_, e1⟩ | ⟨_, hF, _⟩ | ⟨_, _, e1⟩
    · rw [show (2 + 6) % 8 = 0 by rfl] at e1
      rw [e1] at hd1
      obtain ⟨n2, r, e2, hr⟩ := east_in_row S hS hd1
      refine Or.inr ⟨n2 + (n1 + n), r, ?_, ?_⟩
      · rw [Function.iterate_add_apply, Function.iterate_add_apply, e, e1, e2]
      · simp [D, dirs] at hr
        omega
    · rw [show 2 + 2 = 4 by rfl, hE] at hF
      simp at hF
    · refine Or.inl ⟨n1 + n, ?_⟩
      rw [Function.iterate_add_apply, e, e1]

end orbit

end Verif.Contours
