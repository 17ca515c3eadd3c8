import Verif.Contours.Trace
import Verif.Contours.Reach
/-
What one traced border is: a closed chain of foreground pixels that goes once around one border
between foreground and background.
-/
namespace Verif.Contours
variable {im : Image Nat} {t : Nat}

/-- Distinct pixels that touch horizontally, vertically or diagonally. -/
def Nbr (a b : Nat × Nat) : Prop :=
  a ≠ b ∧ a.1 ≤ b.1 + 1 ∧ b.1 ≤ a.1 + 1 ∧ a.2 ≤ b.2 + 1 ∧ b.2 ≤ a.2 + 1

/-- A closed chain of touching pixels. -/
def Ring (l : List (Nat × Nat)) : Prop :=
  l ≠ [] ∧ (l.length = 1 ∨
    ∀ i a b, l[i]? = some a → l[(i + 1) % l.length]? = some b → Nbr a b)

/-- The start direction of a border: west for outer borders, east for holes. -/
def startDir (outer : Bool) : Nat := if outer then 0 else 4

/-- The contour `c` was traced through the states `T`. -/
structure Traced (im : Image Nat) (t : Nat) (c : Contour) (T : (Int × Int) × Nat → Prop) :
    Prop where
  isfg : ∀ s, T s → fg im t s.1 = true
  mem : ∀ q, q ∈ c.points ↔ ∃ s, T s ∧ un s.1 = q
  closed : ∀ s d, T s → d % 2 = 0 → Sees (fg im t) s d →
    ∃ s', T s' ∧ s'.1 = (crack (fg im t) (s.1, d)).1 ∧
      Sees (fg im t) s' (crack (fg im t) (s.1, d)).2
  bord : ∀ s, T s → ∃ d, d % 2 = 0 ∧ Sees (fg im t) s d
  ring : Ring c.points
  start : ∃ s0, T s0 ∧ c.points.head? = some (un s0.1) ∧ Sees (fg im t) s0 (startDir c.outer) ∧
    (if c.outer then 1 ≤ s0.1.1 else s0.1.1 + 1 < im.w) ∧
    ∀ s d, T s → d % 2 = 0 → Sees (fg im t) s d →
      ∃ r, (crack (fg im t))^[r] (s.1, d) = (s0.1, startDir c.outer)

theorem startDir_lt (o : Bool) : startDir o < 8 ∧ startDir o % 2 = 0 := by
  unfold startDir; split <;> decide

theorem valid_iter {F : Int × Int → Bool} {s : (Int × Int) × Nat} (hs : Valid F s) (m : Nat) :
    Valid F ((step F)^[m] s) := by
  induction m with
  | zero => exact hs
  | succ m ih => rw [Function.iterate_succ_apply']; exact valid_step ih

theorem D_small (k : Nat) :
    -1 ≤ (D k).1 ∧ (D k).1 ≤ 1 ∧ -1 ≤ (D k).2 ∧ (D k).2 ≤ 1 := by
  have h : ∀ k, k < 8 → -1 ≤ (D k).1 ∧ (D k).1 ≤ 1 ∧ -1 ≤ (D k).2 ∧ (D k).2 ≤ 1 := by decide
  have := h (k % 8) (Nat.mod_lt _ (by decide))
  rwa [D_mod] at this

theorem nbr_step {s : (Int × Int) × Nat} (hs : Valid (fg im t) s) :
    Nbr (un s.1) (un (step (fg im t) s).1) := by
  have hn := valid_step hs
  have hne : s.1 ≠ (step (fg im t) s).1 := by
    intro h
    unfold step at h
    dsimp only at h
    exact D_ne_zero _ (add_eq_left.mp h.symm)
  have h1 := (fg_iff.mp hs.1).1
  have h2 := (fg_iff.mp hn.1).1
  have hd := D_small (s.2 + 7 - scan (fg im t) s.1 s.2)
  have e1 : (step (fg im t) s).1.1 = s.1.1 + (D (s.2 + 7 - scan (fg im t) s.1 s.2)).1 := rfl
  have e2 : (step (fg im t) s).1.2 = s.1.2 + (D (s.2 + 7 - scan (fg im t) s.1 s.2)).2 := rfl
  refine ⟨fun h => hne (un_inj hs.1 hn.1 h), ?_⟩
  unfold un
  dsimp only
  omega

/-- The states of a closed walk that starts with a background neighbour in view trace a border. -/
theorem traced_walk {s0 : (Int × Int) × Nat} (hs0 : Valid (fg im t) s0) {n : Nat} (hn : 1 ≤ n)
    (hret : (step (fg im t))^[n] s0 = s0) {outer : Bool} {par : Option Nat}
    (h0 : Sees (fg im t) s0 (startDir outer))
    (hin : if outer then 1 ≤ s0.1.1 else s0.1.1 + 1 < im.w) :
    Traced im t ⟨(List.range n).map fun m => un ((step (fg im t))^[m] s0).1, outer, par⟩
      (fun s => ∃ m, m < n ∧ s = (step (fg im t))^[m] s0) := by
  have hnext : ∀ m, m < n → (step (fg im t))^[(m + 1) % n] s0 =
      step (fg im t) ((step (fg im t))^[m] s0) := by
    intro m hm
    rw [← Function.iterate_succ_apply' (step (fg im t))]
    by_cases h : m + 1 = n
    · rw [h, Nat.mod_self, show m.succ = n from h, hret]; rfl
    · rw [Nat.mod_eq_of_lt (by omega)]
  refine ⟨?_, ?_, ?_, ?_, ?_, ?_⟩
  · rintro s ⟨m, hm, rfl⟩
    exact (valid_iter hs0 m).1
  · intro q
    dsimp only
    rw [List.mem_map]
    constructor
    · rintro ⟨m, hm, rfl⟩
      exact ⟨_, ⟨m, List.mem_range.mp hm, rfl⟩, rfl⟩
    · rintro ⟨s, ⟨m, hm, rfl⟩, e⟩
      exact ⟨m, List.mem_range.mpr hm, e⟩
  · rintro s d ⟨m, hm, rfl⟩ hd h
    rcases sees_crack (valid_iter hs0 m) hd h with ⟨a, b⟩ | ⟨a, b⟩
    · exact ⟨_, ⟨m, hm, rfl⟩, a.symm, b⟩
    · refine ⟨_, ⟨(m + 1) % n, Nat.mod_lt _ (by omega), rfl⟩, ?_, ?_⟩
      · rw [hnext m hm, a]
      · rw [hnext m hm]; exact b
  · rintro s ⟨m, hm, rfl⟩
    clear hm
    induction m with
    | zero => exact ⟨_, (startDir_lt outer).2, h0⟩
    | succ m ih =>
      rw [Function.iterate_succ_apply']
      exact sees_step (valid_iter hs0 m) ih
  · constructor
    · dsimp only
      intro h
      rw [List.map_eq_nil_iff, List.range_eq_nil] at h
      omega
    · right
      dsimp only
      intro i a b ha hb
      rw [List.length_map, List.length_range] at hb
      rw [List.getElem?_map] at ha hb
      have hi : i < n := by
        by_contra hc
        rw [List.getElem?_eq_none (by rw [List.length_range]; omega)] at ha
        simp at ha
      rw [List.getElem?_range hi] at ha
      rw [List.getElem?_range (Nat.mod_lt _ (by omega))] at hb
      simp only [Option.map_some, Option.some.injEq] at ha hb
      rw [← ha, ← hb, hnext i hi]
      exact nbr_step (valid_iter hs0 i)
  · refine ⟨s0, ⟨0, by omega, rfl⟩, ?_, h0, hin, ?_⟩
    · dsimp only
      rw [List.head?_eq_getElem?, List.getElem?_map, List.getElem?_range (by omega)]
      rfl
    · rintro s d ⟨m, hm, rfl⟩ hd h
      exact reach_start hs0 hret hm hd h (startDir_lt outer).2 h0

/-- An isolated pixel. -/
theorem traced_single {p : Int × Int} (hp : fg im t p = true)
    (hiso : ∀ k, fg im t (p + D k) = false) {outer : Bool} {par : Option Nat}
    (hin : if outer then 1 ≤ p.1 else p.1 + 1 < im.w) :
    Traced im t ⟨[un p], outer, par⟩ (fun s => s = (p, 0)) := by
  have hsee : ∀ d, d < 8 → Sees (fg im t) (p, 0) d := by
    intro d hd
    exact ⟨7 - d, by omega, by dsimp only; omega, fun j hj => hiso _⟩
  have hcr : ∀ d, crack (fg im t) (p, d) = (p, (d + 6) % 8) := by
    intro d
    unfold crack
    dsimp only
    rw [hiso, hiso, if_neg (by decide), if_neg (by decide)]
  have hlt : ∀ d, Sees (fg im t) (p, 0) d → d < 8 := by
    rintro d ⟨i, hi, e, _⟩
    rw [e]
    exact Nat.mod_lt _ (by decide)
  refine ⟨?_, ?_, ?_, ?_, ?_, ?_⟩
  · rintro s rfl; exact hp
  · intro q
    dsimp only
    rw [List.mem_singleton]
    constructor
    · rintro rfl; exact ⟨_, rfl, rfl⟩
    · rintro ⟨s, rfl, e⟩; exact e.symm
  · rintro s d rfl hd h
    refine ⟨_, rfl, ?_, ?_⟩
    · rw [hcr]
    · rw [hcr]; exact hsee _ (Nat.mod_lt _ (by decide))
  · rintro s rfl
    exact ⟨0, rfl, hsee 0 (by decide)⟩
  · exact ⟨by simp, Or.inl rfl⟩
  · refine ⟨_, rfl, rfl, hsee _ (startDir_lt outer).1, hin, ?_⟩
    rintro s d rfl hd h
    have h8 := hlt d h
    have hit : ∀ r, (crack (fg im t))^[r] (p, d) = (p, (d + 6 * r) % 8) := by
      intro r
      induction r with
      | zero => exact Prod.ext rfl (by dsimp only [Function.iterate_zero, id]; omega)
      | succ r ih =>
        rw [Function.iterate_succ_apply', ih, hcr]
        exact Prod.ext rfl (by dsimp only; omega)
    have hr : ∀ d, d < 8 → d % 2 = 0 → ∀ o : Bool, ∃ r, r < 4 ∧ (d + 6 * r) % 8 = startDir o := by
      unfold startDir
      decide
    obtain ⟨r, _, e⟩ := hr d h8 hd outer
    exact ⟨r, by rw [hit]; exact Prod.ext rfl e⟩

theorem marked_single {p : Int × Int} (hp : fg im t p = true)
    (hiso : ∀ k, fg im t (p + D k) = false) {num : Nat} {v : Image Int} (hv : Rel im t v) :
    ∃ v', v.put (un p).1 (un p).2 (-(num : Int)) = some v' ∧
      Marked im t num (fun s => s = (p, 0)) v v' := by
  have hb := (fg_iff.mp hp).1
  have hx : (un p).1 < v.w := by rw [hv.1]; unfold un; dsimp only; omega
  have hy : (un p).2 < v.h := by rw [hv.2.1]; unfold un; dsimp only; omega
  rw [Image.put_of_inB _ hx hy]
  have hsee : Sees (fg im t) (p, 0) 4 := ⟨3, by decide, rfl, fun j hj => hiso _⟩
  refine ⟨_, rfl, ⟨rfl, rfl, ?_, ?_, ?_⟩⟩
  · rintro s rfl _
    dsimp only
    rw [if_pos ⟨rfl, rfl⟩]
  · rintro s rfl hn
    exact absurd (Or.inr hsee) (hn _ rfl rfl)
  · intro x y hn
    dsimp only
    rw [if_neg]
    rintro ⟨a, b⟩
    exact hn _ rfl (Prod.ext a.symm b.symm)

/-- Closure under any number of crack steps. -/
theorem Traced.iter {c : Contour} {T : (Int × Int) × Nat → Prop} (h : Traced im t c T)
    {s : (Int × Int) × Nat} {d : Nat} (hs : T s) (hd : d % 2 = 0) (hsee : Sees (fg im t) s d)
    (r : Nat) :
    ∃ s', T s' ∧ s'.1 = ((crack (fg im t))^[r] (s.1, d)).1 ∧
      ((crack (fg im t))^[r] (s.1, d)).2 % 2 = 0 ∧
      Sees (fg im t) s' ((crack (fg im t))^[r] (s.1, d)).2 := by
  induction r with
  | zero => exact ⟨s, hs, rfl, hd, hsee⟩
  | succ r ih =>
    obtain ⟨s', a, b, c, e⟩ := ih
    rw [Function.iterate_succ_apply']
    obtain ⟨u, hu⟩ : ∃ u, u = (crack (fg im t))^[r] (s.1, d) := ⟨_, rfl⟩
    rw [← hu] at b c e ⊢
    obtain ⟨s2, a2, b2, c2⟩ := h.closed s' _ a c e
    rw [b] at b2 c2
    refine ⟨s2, a2, b2, ?_, c2⟩
    have hq : fg im t u.1 = true := by rw [← b]; exact h.isfg _ a
    have hbg := sees_bg e
    rw [b] at hbg
    have hlt : u.2 < 8 := by
      obtain ⟨i, _, hi, _⟩ := e
      rw [hi]
      exact Nat.mod_lt _ (by decide)
    exact (crack_dart ⟨hq, hlt, c, hbg⟩).2.2.1

end Verif.Contours
