import Verif.Contours.Crack
import Mathlib.Algebra.BigOperators.Group.Finset.Basic
import Mathlib.Algebra.BigOperators.Ring.Finset
import Mathlib.Logic.Relation
/-
How often a border winds around a pixel, and what follows about outer borders and holes: a discrete
Jordan curve argument.
-/
set_option linter.unusedSectionVars false

namespace Verif.Contours
open Finset
variable {F : Int × Int → Bool}

/-- What a dart contributes to the winding number of the pixel `q`: vertical darts to the left of
`q` in its row count, west sides positive and east sides negative. -/
def wgt (q : Int × Int) (s : (Int × Int) × Nat) : Int :=
  if s.1.2 = q.2 ∧ s.2 = 0 ∧ s.1.1 ≤ q.1 then 1
  else if s.1.2 = q.2 ∧ s.2 = 4 ∧ s.1.1 < q.1 then -1 else 0

/-- A set of darts that consists of whole borders. -/
structure Cycle (F : Int × Int → Bool) (B : Finset ((Int × Int) × Nat)) : Prop where
  dart : ∀ s ∈ B, Dart F s
  next : ∀ s ∈ B, crack F s ∈ B

/-- The winding number of `B` around the pixel `q`. -/
def wind (B : Finset ((Int × Int) × Nat)) (q : Int × Int) : Int := ∑ s ∈ B, wgt q s

/-- Indicator of membership. -/
def ind (B : Finset ((Int × Int) × Nat)) (s : (Int × Int) × Nat) : Int := ∑ u ∈ B, if u = s then 1 else 0

theorem ind_mem {B : Finset ((Int × Int) × Nat)} {s : (Int × Int) × Nat} (h : s ∈ B) :
    ind B s = 1 := by
  unfold ind
  rw [Finset.sum_ite_eq' B s, if_pos h]

theorem ind_not {B : Finset ((Int × Int) × Nat)} {s : (Int × Int) × Nat} (h : s ∉ B) :
    ind B s = 0 := by
  unfold ind
  rw [Finset.sum_ite_eq' B s, if_neg h]

/-- Sums over a cycle are invariant under the crack walk. -/
theorem Cycle.sum {B : Finset ((Int × Int) × Nat)} (h : Cycle F B)
    (f : (Int × Int) × Nat → Int) : ∑ s ∈ B, f (crack F s) = ∑ s ∈ B, f s := by
  classical
  have hinj : ∀ a ∈ B, ∀ b ∈ B, crack F a = crack F b → a = b :=
    fun a ha b hb e => crack_inj (h.dart a ha) (h.dart b hb) e
  have himg : B.image (crack F) = B := by
    apply Finset.eq_of_subset_of_card_le
    · intro s hs
      obtain ⟨u, hu, rfl⟩ := Finset.mem_image.mp hs
      exact h.next u hu
    · rw [Finset.card_image_of_injOn hinj]
  conv_rhs => rw [← himg]
  rw [Finset.sum_image hinj]

theorem Cycle.prev {B : Finset ((Int × Int) × Nat)} (h : Cycle F B) {s : (Int × Int) × Nat}
    (hs : s ∈ B) : ∃ u ∈ B, crack F u = s := by
  classical
  have hinj : ∀ a ∈ B, ∀ b ∈ B, crack F a = crack F b → a = b :=
    fun a ha b hb e => crack_inj (h.dart a ha) (h.dart b hb) e
  have himg : B.image (crack F) = B := by
    apply Finset.eq_of_subset_of_card_le
    · intro s hs
      obtain ⟨u, hu, rfl⟩ := Finset.mem_image.mp hs
      exact h.next u hu
    · rw [Finset.card_image_of_injOn hinj]
  rw [← himg] at hs
  obtain ⟨u, hu, e⟩ := Finset.mem_image.mp hs
  exact ⟨u, hu, e⟩

/-- Stepping to the right. -/
theorem wind_right (B : Finset ((Int × Int) × Nat)) (x y : Int) :
    wind B (x + 1, y) = wind B (x, y) + ind B ((x + 1, y), 0) - ind B ((x, y), 4) := by
  unfold wind ind
  rw [← Finset.sum_add_distrib, ← Finset.sum_sub_distrib]
  refine Finset.sum_congr rfl fun s _ => ?_
  obtain ⟨⟨a, b⟩, d⟩ := s
  unfold wgt
  simp only [Prod.mk.injEq]
  split_ifs <;> omega

/-- The contribution of one dart to the difference between two pixels above each other. -/
theorem wgt_down (x y : Int) (s : (Int × Int) × Nat)
    (hd : s.2 = 0 ∨ s.2 = 2 ∨ s.2 = 4 ∨ s.2 = 6) :
    wgt (x, y) s - wgt (x, y + 1) s + (if s = ((x, y + 1), 2) then 1 else 0) -
      (if s = ((x, y), 6) then 1 else 0) =
    (if (vend s).2 = y + 1 ∧ (vend s).1 ≤ x then 1 else 0) -
      (if (vstart s).2 = y + 1 ∧ (vstart s).1 ≤ x then (1 : Int) else 0) := by
  obtain ⟨⟨a, b⟩, d⟩ := s
  dsimp only at hd
  rcases hd with rfl | rfl | rfl | rfl
  · have e1 : vend ((a, b), 0) = (a, b + 1) := rfl
    have e2 : vstart ((a, b), 0) = (a, b) := rfl
    rw [e1, e2]
    simp only [wgt, Prod.mk.injEq, true_and, false_and, and_false, if_false, OfNat.zero_ne_ofNat]
    split_ifs <;> omega
  · have e1 : vend ((a, b), 2) = (a, b) := rfl
    have e2 : vstart ((a, b), 2) = (a + 1, b) := rfl
    rw [e1, e2]
    simp only [wgt, Prod.mk.injEq, false_and, and_false, and_true, if_false,
      OfNat.ofNat_ne_zero, Nat.reduceEqDiff]
    split_ifs <;> omega
  · have e1 : vend ((a, b), 4) = (a + 1, b) := rfl
    have e2 : vstart ((a, b), 4) = (a + 1, b + 1) := rfl
    rw [e1, e2]
    simp only [wgt, Prod.mk.injEq, true_and, false_and, and_false, if_false,
      OfNat.ofNat_ne_zero, Nat.reduceEqDiff]
    split_ifs <;> omega
  · have e1 : vend ((a, b), 6) = (a + 1, b + 1) := rfl
    have e2 : vstart ((a, b), 6) = (a, b + 1) := rfl
    rw [e1, e2]
    simp only [wgt, Prod.mk.injEq, false_and, and_false, and_true, if_false,
      OfNat.ofNat_ne_zero, Nat.reduceEqDiff]
    split_ifs <;> omega

/-- Stepping down. -/
theorem Cycle.wind_down {B : Finset ((Int × Int) × Nat)} (h : Cycle F B) (x y : Int) :
    wind B (x, y + 1) = wind B (x, y) + ind B ((x, y + 1), 2) - ind B ((x, y), 6) := by
  have h1 := h.sum fun s => if (vstart s).2 = y + 1 ∧ (vstart s).1 ≤ x then 1 else 0
  have h2 : ∑ s ∈ B, (if (vstart (crack F s)).2 = y + 1 ∧ (vstart (crack F s)).1 ≤ x then (1 : Int)
      else 0) = ∑ s ∈ B, if (vend s).2 = y + 1 ∧ (vend s).1 ≤ x then 1 else 0 :=
    Finset.sum_congr rfl fun s hs => by rw [vstart_crack (h.dart s hs)]
  rw [h2, ← sub_eq_zero, ← Finset.sum_sub_distrib] at h1
  have h3 : ∑ s ∈ B, (wgt (x, y) s - wgt (x, y + 1) s + (if s = ((x, y + 1), 2) then 1 else 0) -
      (if s = ((x, y), 6) then 1 else 0)) = 0 := by
    exact (Finset.sum_congr rfl fun s hs => wgt_down x y s (dart_dir (h.dart s hs))).trans h1
  rw [Finset.sum_sub_distrib, Finset.sum_add_distrib, Finset.sum_sub_distrib] at h3
  unfold wind ind
  omega

/-- Across a side of a pixel the winding number changes by the darts on that side. -/
theorem Cycle.wind_across {B : Finset ((Int × Int) × Nat)} (h : Cycle F B) (p : Int × Int) {d : Nat}
    (hd : d = 0 ∨ d = 2 ∨ d = 4 ∨ d = 6) :
    wind B p = wind B (p + D d) + ind B (p, d) - ind B (p + D d, (d + 4) % 8) := by
  obtain ⟨x, y⟩ := p
  rcases hd with rfl | rfl | rfl | rfl
  · have e : ((x, y) : Int × Int) + D 0 = (x - 1, y) := by
      refine Prod.ext ?_ ?_ <;> simp [D, dirs]; omega
    have := wind_right B (x - 1) y
    rw [e]
    rw [show x - 1 + 1 = x by omega] at this
    simpa using this
  · have e : ((x, y) : Int × Int) + D 2 = (x, y - 1) := by
      refine Prod.ext ?_ ?_ <;> simp [D, dirs]; omega
    have := h.wind_down x (y - 1)
    rw [e]
    rw [show y - 1 + 1 = y by omega] at this
    simpa using this
  · have e : ((x, y) : Int × Int) + D 4 = (x + 1, y) := by
      refine Prod.ext ?_ ?_ <;> simp [D, dirs]
    have := wind_right B x y
    rw [e, show (4 + 4) % 8 = 0 from rfl]
    omega
  · have e : ((x, y) : Int × Int) + D 6 = (x, y + 1) := by
      refine Prod.ext ?_ ?_ <;> simp [D, dirs]
    have := h.wind_down x y
    rw [e, show (6 + 4) % 8 = 2 from rfl]
    omega

theorem Cycle.wind_same {B : Finset ((Int × Int) × Nat)} (h : Cycle F B) {p : Int × Int} {d : Nat}
    (hd : d = 0 ∨ d = 2 ∨ d = 4 ∨ d = 6) (he : F p = F (p + D d)) :
    wind B p = wind B (p + D d) := by
  have h1 := h.wind_across p hd
  have h2 : (p, d) ∉ B := by
    intro hm
    have := h.dart _ hm
    have a := this.1
    have b := this.2.2.2
    dsimp only at a b
    rw [he, b] at a
    exact absurd a (by decide)
  have h3 : (p + D d, (d + 4) % 8) ∉ B := by
    intro hm
    have := h.dart _ hm
    have a := this.1
    have b := this.2.2.2
    dsimp only at a b
    rw [D_mod, add_assoc, D_opp, add_zero, he, a] at b
    exact absurd b (by decide)
  rw [ind_not h2, ind_not h3] at h1
  omega

theorem Cycle.wind_dart {B : Finset ((Int × Int) × Nat)} (h : Cycle F B) {p : Int × Int} {d : Nat}
    (hd : Dart F (p, d)) : wind B p = wind B (p + D d) + ind B (p, d) := by
  have h1 := h.wind_across p (d := d) (dart_dir hd)
  have h3 : (p + D d, (d + 4) % 8) ∉ B := by
    intro hm
    have a := (h.dart _ hm).1
    have b := hd.2.2.2
    dsimp only at a b
    rw [b] at a
    exact absurd a (by decide)
  rw [ind_not h3] at h1
  omega

/-- Pixels that touch horizontally, vertically or diagonally. -/
def Touch (p q : Int × Int) : Prop :=
  p.1 ≤ q.1 + 1 ∧ q.1 ≤ p.1 + 1 ∧ p.2 ≤ q.2 + 1 ∧ q.2 ≤ p.2 + 1

/-- Pixels that touch horizontally or vertically. -/
def Touch4 (p q : Int × Int) : Prop :=
  Touch p q ∧ (p.1 = q.1 ∨ p.2 = q.2)

/-- The foreground region of a pixel. -/
def Conn8 (F : Int × Int → Bool) : Int × Int → Int × Int → Prop :=
  Relation.ReflTransGen fun p q => F p = true ∧ F q = true ∧ Touch p q

/-- The background region of a pixel. -/
def Conn4 (F : Int × Int → Bool) : Int × Int → Int × Int → Prop :=
  Relation.ReflTransGen fun p q => F p = false ∧ F q = false ∧ Touch4 p q

theorem Conn8.symm {p q : Int × Int} (h : Conn8 F p q) : Conn8 F q p := by
  induction h with
  | refl => exact Relation.ReflTransGen.refl
  | tail _ h2 ih =>
    exact ih.head ⟨h2.2.1, h2.1, h2.2.2.2.1, h2.2.2.1, h2.2.2.2.2.2, h2.2.2.2.2.1⟩

theorem Conn4.symm {p q : Int × Int} (h : Conn4 F p q) : Conn4 F q p := by
  induction h with
  | refl => exact Relation.ReflTransGen.refl
  | tail _ h2 ih =>
    exact ih.head ⟨h2.2.1, h2.1, ⟨h2.2.2.1.2.1, h2.2.2.1.1, h2.2.2.1.2.2.2, h2.2.2.1.2.2.1⟩,
      h2.2.2.2.imp Eq.symm Eq.symm⟩

theorem Conn8.fg {p q : Int × Int} (h : Conn8 F p q) (hp : F p = true) : F q = true := by
  rcases Relation.ReflTransGen.cases_tail h with rfl | ⟨_, _, h2⟩
  · exact hp
  · exact h2.2.1

theorem Conn4.bg {p q : Int × Int} (h : Conn4 F p q) (hp : F p = false) : F q = false := by
  rcases Relation.ReflTransGen.cases_tail h with rfl | ⟨_, _, h2⟩
  · exact hp
  · exact h2.2.1

theorem touch_D (p : Int × Int) (k : Nat) : Touch p (p + D k) := by
  have h : ∀ k, k < 8 → -1 ≤ (D k).1 ∧ (D k).1 ≤ 1 ∧ -1 ≤ (D k).2 ∧ (D k).2 ≤ 1 := by decide
  have := h (k % 8) (Nat.mod_lt _ (by decide))
  rw [D_mod] at this
  unfold Touch
  rw [Prod.fst_add, Prod.snd_add]
  omega

theorem touch4_D (p : Int × Int) {d : Nat} (hd : d % 2 = 0) : Touch4 p (p + D d) := by
  refine ⟨touch_D p d, ?_⟩
  have h : ∀ k, k < 8 → k % 2 = 0 → (D k).1 = 0 ∨ (D k).2 = 0 := by decide
  have := h (d % 8) (Nat.mod_lt _ (by decide)) (by omega)
  rw [D_mod] at this
  rw [Prod.fst_add, Prod.snd_add]
  omega

theorem touch_cases {p q : Int × Int} (h : Touch p q) : p = q ∨ ∃ k, k < 8 ∧ q = p + D k := by
  obtain ⟨a, b⟩ := p
  obtain ⟨c, d⟩ := q
  unfold Touch at h
  dsimp only at h
  have h1 : c = a - 1 ∨ c = a ∨ c = a + 1 := by omega
  have h2 : d = b - 1 ∨ d = b ∨ d = b + 1 := by omega
  rcases h1 with rfl | rfl | rfl <;> rcases h2 with rfl | rfl | rfl
  · exact Or.inr ⟨1, by decide, Prod.ext (by simp [D, dirs]; omega) (by simp [D, dirs]; omega)⟩
  · exact Or.inr ⟨0, by decide, Prod.ext (by simp [D, dirs]; omega) (by simp [D, dirs])⟩
  · exact Or.inr ⟨7, by decide, Prod.ext (by simp [D, dirs]; omega) (by simp [D, dirs])⟩
  · exact Or.inr ⟨2, by decide, Prod.ext (by simp [D, dirs]) (by simp [D, dirs]; omega)⟩
  · exact Or.inl rfl
  · exact Or.inr ⟨6, by decide, Prod.ext (by simp [D, dirs]) (by simp [D, dirs])⟩
  · exact Or.inr ⟨3, by decide, Prod.ext (by simp [D, dirs]) (by simp [D, dirs]; omega)⟩
  · exact Or.inr ⟨4, by decide, Prod.ext (by simp [D, dirs]) (by simp [D, dirs])⟩
  · exact Or.inr ⟨5, by decide, Prod.ext (by simp [D, dirs]) (by simp [D, dirs])⟩

theorem touch4_cases {p q : Int × Int} (h : Touch4 p q) :
    p = q ∨ ∃ d, (d = 0 ∨ d = 2 ∨ d = 4 ∨ d = 6) ∧ q = p + D d := by
  obtain ⟨h1, h2⟩ := h
  rcases touch_cases h1 with e | ⟨k, hk, rfl⟩
  · exact Or.inl e
  · right
    refine ⟨k, ?_, rfl⟩
    have h : ∀ k, k < 8 → ((D k).1 = 0 ∨ (D k).2 = 0) → k = 0 ∨ k = 2 ∨ k = 4 ∨ k = 6 := by decide
    rw [Prod.fst_add, Prod.snd_add] at h2
    exact h k hk (by omega)

/-- The winding number is constant on background regions. -/
theorem Cycle.wind_conn4 {B : Finset ((Int × Int) × Nat)} (h : Cycle F B) {p q : Int × Int}
    (hc : Conn4 F p q) : wind B p = wind B q := by
  induction hc with
  | refl => rfl
  | tail _ h2 ih =>
    rw [ih]
    rcases touch4_cases h2.2.2 with rfl | ⟨d, hd, rfl⟩
    · rfl
    · exact h.wind_same hd (by rw [h2.1, h2.2.1])

/-- The winding number is constant on foreground regions. -/
theorem Cycle.wind_conn8 {B : Finset ((Int × Int) × Nat)} (h : Cycle F B) {p q : Int × Int}
    (hc : Conn8 F p q) : wind B p = wind B q := by
  induction hc with
  | refl => rfl
  | @tail p q _ h2 ih =>
    rw [ih]
    obtain ⟨hp, hq, ht⟩ := h2
    rcases touch_cases ht with rfl | ⟨k, hk, rfl⟩
    · rfl
    · by_cases hk2 : k % 2 = 0
      · exact h.wind_same (by omega) (by rw [hp, hq])
      · -- a diagonal step
        obtain ⟨d, hd8, hd2, hkd⟩ : ∃ d, d < 8 ∧ d % 2 = 0 ∧ (d + 7) % 8 = k :=
          ⟨(k + 1) % 8, by omega, by omega, by omega⟩
        have hdd : d = 0 ∨ d = 2 ∨ d = 4 ∨ d = 6 := by omega
        have hk' : D k = D (d + 7) := by rw [← hkd, D_mod]
        rw [hk'] at hq ⊢
        have htri := (D_tri d hd2).1
        have hr : p + D d = p + D (d + 7) + D (d + 2) := by rw [htri, add_assoc]
        have hdd2 : (d + 2) % 8 = 0 ∨ (d + 2) % 8 = 2 ∨ (d + 2) % 8 = 4 ∨ (d + 2) % 8 = 6 := by omega
        by_cases hF : F (p + D d) = true
        · have e1 := h.wind_same (p := p) hdd (by rw [hp, hF])
          have e2 := h.wind_same (p := p + D (d + 7)) hdd2 (by rw [D_mod, ← hr, hq, hF])
          rw [e1, e2, D_mod, ← hr]
        · have hF : F (p + D d) = false := by simpa using hF
          have hd1 : Dart F (p, d) := ⟨hp, hd8, hd2, hF⟩
          have hcr : crack F (p, d) = (p + D (d + 7), (d + 2) % 8) := by
            unfold crack
            dsimp only
            rw [if_pos hq]
          have hd2' : Dart F (p + D (d + 7), (d + 2) % 8) := by
            rw [← hcr]; exact crack_dart hd1
          have e1 := h.wind_dart hd1
          have e2 := h.wind_dart hd2'
          rw [D_mod, ← hr] at e2
          rw [e1, e2]
          congr 1
          by_cases hm : (p, d) ∈ B
          · rw [ind_mem hm, ind_mem (by rw [← hcr]; exact h.next _ hm)]
          · rw [ind_not hm, ind_not]
            intro hm2
            obtain ⟨u, hu, eu⟩ := h.prev hm2
            rw [← hcr] at eu
            rw [crack_inj (h.dart u hu) hd1 eu] at hu
            exact hm hu

/-- Nothing to the left. -/
theorem wind_zero {B : Finset ((Int × Int) × Nat)} {q : Int × Int}
    (h0 : ∀ s ∈ B, s.1.2 = q.2 → s.2 = 0 → q.1 < s.1.1)
    (h4 : ∀ s ∈ B, s.1.2 = q.2 → s.2 = 4 → q.1 ≤ s.1.1) : wind B q = 0 := by
  unfold wind
  refine Finset.sum_eq_zero fun s hs => ?_
  unfold wgt
  rw [if_neg, if_neg]
  · rintro ⟨a, b, c⟩
    have := h4 s hs a b
    omega
  · rintro ⟨a, b, c⟩
    have := h0 s hs a b
    omega

/-- Neighbouring sides of a border belong to the same foreground region and to the same background
region. -/
theorem crack_conn {s : (Int × Int) × Nat} (h : Dart F s) :
    Conn8 F s.1 (crack F s).1 ∧ Conn4 F (s.1 + D s.2) ((crack F s).1 + D (crack F s).2) := by
  have hn := crack_dart h
  obtain ⟨p, d⟩ := s
  obtain ⟨h1, h2, h3, h4⟩ := h
  dsimp only at h1 h2 h3 h4 ⊢
  obtain ⟨e1, e2, e3⟩ := D_tri d h3
  unfold crack at hn ⊢
  dsimp only at hn ⊢
  by_cases c1 : F (p + D (d + 7)) = true
  · rw [if_pos c1] at hn ⊢
    dsimp only
    refine ⟨Relation.ReflTransGen.single ⟨h1, c1, touch_D _ _⟩, ?_⟩
    rw [D_mod, add_assoc, ← e1]
    exact Relation.ReflTransGen.refl
  · rw [if_neg c1] at hn ⊢
    have c1' : F (p + D (d + 7)) = false := by simpa using c1
    by_cases c2 : F (p + D (d + 6)) = true
    · rw [if_pos c2] at hn ⊢
      dsimp only
      refine ⟨Relation.ReflTransGen.single ⟨h1, c2, touch_D _ _⟩, ?_⟩
      have e : p + D (d + 6) + D d = p + D (d + 7) := by rw [add_assoc, ← e2]
      rw [e]
      refine Relation.ReflTransGen.single ⟨h4, c1', ?_⟩
      have e' : p + D (d + 7) = p + D d + D (d + 6) := by rw [e2, add_assoc, add_comm (D (d + 6))]
      rw [e']
      exact touch4_D _ (by omega)
    · rw [if_neg c2] at hn ⊢
      have c2' : F (p + D (d + 6)) = false := by simpa using c2
      dsimp only
      refine ⟨Relation.ReflTransGen.refl, ?_⟩
      rw [D_mod]
      have e' : p + D (d + 7) = p + D d + D (d + 6) := by rw [e2, add_assoc, add_comm (D (d + 6))]
      have e'' : p + D (d + 7) = p + D (d + 6) + D d := by rw [e2, add_assoc]
      have t1 : Touch4 (p + D d) (p + D (d + 7)) := by rw [e']; exact touch4_D _ (by omega)
      have t2 : Touch4 (p + D (d + 6)) (p + D (d + 7)) := by rw [e'']; exact touch4_D _ h3
      exact (Relation.ReflTransGen.single ⟨h4, c1', t1⟩).trans
        (Conn4.symm (Relation.ReflTransGen.single ⟨c2', c1', t2⟩))

theorem iter_conn {s : (Int × Int) × Nat} (h : Dart F s) (n : Nat) :
    Conn8 F s.1 ((crack F)^[n] s).1 ∧
      Conn4 F (s.1 + D s.2) (((crack F)^[n] s).1 + D ((crack F)^[n] s).2) := by
  have hd : ∀ n, Dart F ((crack F)^[n] s) := by
    intro n
    induction n with
    | zero => exact h
    | succ n ih => rw [Function.iterate_succ_apply']; exact crack_dart ih
  induction n with
  | zero => exact ⟨Relation.ReflTransGen.refl, Relation.ReflTransGen.refl⟩
  | succ n ih =>
    rw [Function.iterate_succ_apply']
    have := crack_conn (hd n)
    exact ⟨ih.1.trans this.1, ih.2.trans this.2⟩

/-! ### First pixels of regions -/

/-- Raster order. -/
def RLe (p q : Int × Int) : Prop := p.2 < q.2 ∨ p.2 = q.2 ∧ p.1 ≤ q.1

theorem RLe.antisymm {p q : Int × Int} (h : RLe p q) (h' : RLe q p) : p = q := by
  unfold RLe at h h'
  exact Prod.ext (by omega) (by omega)

/-- The first pixel of a foreground region in raster order. -/
def FirstFg (F : Int × Int → Bool) (p : Int × Int) : Prop :=
  F p = true ∧ ∀ q, Conn8 F p q → RLe p q

/-- The first pixel of a background region in raster order. -/
def FirstBg (F : Int × Int → Bool) (p : Int × Int) : Prop :=
  F p = false ∧ ∀ q, Conn4 F p q → RLe p q

theorem first_exists {P : Int × Int → Prop} (hlow : ∀ p, P p → 0 ≤ p.1 ∧ 0 ≤ p.2)
    (hex : ∃ p, P p) : ∃ p, P p ∧ ∀ q, P q → RLe p q := by
  classical
  have h1 : ∃ b : Nat, ∃ p, P p ∧ p.2 = b := by
    obtain ⟨p, hp⟩ := hex
    exact ⟨p.2.toNat, p, hp, by have := hlow p hp; omega⟩
  have h2 : ∃ a : Nat, ∃ p, P p ∧ p.2 = (Nat.find h1 : Int) ∧ p.1 = a := by
    obtain ⟨p, hp, e⟩ := Nat.find_spec h1
    exact ⟨p.1.toNat, p, hp, e, by have := hlow p hp; omega⟩
  obtain ⟨p, hp, e, e'⟩ := Nat.find_spec h2
  refine ⟨p, hp, fun q hq => ?_⟩
  have hl := hlow q hq
  have m1 := Nat.find_min' h1 ⟨q, hq, show q.2 = (q.2.toNat : Int) by omega⟩
  by_cases hlt : p.2 < q.2
  · exact Or.inl hlt
  · have he : p.2 = q.2 := by omega
    refine Or.inr ⟨he, ?_⟩
    have m2 := Nat.find_min' h2 ⟨q, hq, by rw [← he, e], show q.1 = (q.1.toNat : Int) by omega⟩
    omega

theorem FirstFg.west {p : Int × Int} (h : FirstFg F p) : F (p + D 0) = false := by
  rw [Bool.eq_false_iff]
  intro hc
  have := h.2 _ (Relation.ReflTransGen.single ⟨h.1, hc, touch_D p 0⟩)
  unfold RLe at this
  simp [D, dirs] at this

theorem FirstFg.unique {p q : Int × Int} (h : FirstFg F p) (h' : FirstFg F q) (hc : Conn8 F p q) :
    p = q := (h.2 q hc).antisymm (h'.2 p hc.symm)

theorem FirstBg.unique {p q : Int × Int} (h : FirstBg F p) (h' : FirstBg F q) (hc : Conn4 F p q) :
    p = q := (h.2 q hc).antisymm (h'.2 p hc.symm)

theorem FirstBg.west {p : Int × Int} (h : FirstBg F p) : F (p + D 0) = true := by
  by_contra hc
  have hc : F (p + D 0) = false := by simpa using hc
  have := h.2 _ (Relation.ReflTransGen.single ⟨h.1, hc, touch4_D p rfl⟩)
  unfold RLe at this
  simp [D, dirs] at this

theorem FirstBg.north {p : Int × Int} (h : FirstBg F p) : F (p + D 2) = true := by
  by_contra hc
  have hc : F (p + D 2) = false := by simpa using hc
  have := h.2 _ (Relation.ReflTransGen.single ⟨h.1, hc, touch4_D p rfl⟩)
  unfold RLe at this
  simp [D, dirs] at this

theorem west_east (p : Int × Int) : p + D 0 + D 4 = p := by rw [add_assoc, D_opp, add_zero]

theorem east_west (p : Int × Int) : p + D 4 + D 0 = p := by
  rw [add_assoc, add_comm (D 4), D_opp, add_zero]

theorem FirstBg.dart {p : Int × Int} (h : FirstBg F p) : Dart F (p + D 0, 4) :=
  ⟨h.west, show 4 < 8 by decide, show 4 % 2 = 0 from rfl, by dsimp only; rw [west_east]; exact h.1⟩

theorem FirstFg.dart {p : Int × Int} (h : FirstFg F p) : Dart F (p, 0) :=
  ⟨h.1, show 0 < 8 by decide, show 0 % 2 = 0 from rfl, h.west⟩

section orbit
variable (S : Finset ((Int × Int) × Nat)) (hS : ∀ s, Dart F s → s ∈ S)

open Classical in
/-- The border of a dart. -/
noncomputable def orb (F : Int × Int → Bool) (s : (Int × Int) × Nat) :
    Finset ((Int × Int) × Nat) := S.filter fun u => ∃ n, (crack F)^[n] s = u

include hS

theorem mem_orb {s u : (Int × Int) × Nat} (h : Dart F s) :
    u ∈ orb S F s ↔ ∃ n, (crack F)^[n] s = u := by
  classical
  unfold orb
  rw [Finset.mem_filter]
  constructor
  · exact fun h => h.2
  · rintro ⟨n, rfl⟩
    exact ⟨hS _ (dart_iter S hS h n), n, rfl⟩

theorem orb_cycle {s : (Int × Int) × Nat} (h : Dart F s) : Cycle F (orb S F s) := by
  constructor
  · intro u hu
    obtain ⟨n, rfl⟩ := (mem_orb S hS h).mp hu
    exact dart_iter S hS h n
  · intro u hu
    obtain ⟨n, rfl⟩ := (mem_orb S hS h).mp hu
    exact (mem_orb S hS h).mpr ⟨n + 1, Function.iterate_succ_apply' _ _ _⟩

theorem orb_conn {s u : (Int × Int) × Nat} (h : Dart F s) (hu : u ∈ orb S F s) :
    Conn8 F s.1 u.1 ∧ Conn4 F (s.1 + D s.2) (u.1 + D u.2) := by
  obtain ⟨n, rfl⟩ := (mem_orb S hS h).mp hu
  exact iter_conn h n

theorem orb_self {s : (Int × Int) × Nat} (h : Dart F s) : s ∈ orb S F s :=
  (mem_orb S hS h).mpr ⟨0, rfl⟩

/-- A border of a region winds once around the region if it contains the west side of its first
pixel, and not at all otherwise. -/
theorem wind_first {P : Int × Int} (hP : FirstFg F P) {s : (Int × Int) × Nat} (h : Dart F s)
    (hc : Conn8 F P s.1) : wind (orb S F s) P = ind (orb S F s) (P, 0) := by
  have hcy := orb_cycle S hS h
  have hz : wind (orb S F s) (P + D 0) = 0 := by
    apply wind_zero
    · intro u hu h1 h2
      have := hP.2 u.1 (hc.trans (orb_conn S hS h hu).1)
      unfold RLe at this
      simp [D, dirs] at h1 ⊢
      omega
    · intro u hu h1 h2
      have := hP.2 u.1 (hc.trans (orb_conn S hS h hu).1)
      unfold RLe at this
      simp [D, dirs] at h1 ⊢
      omega
  have := hcy.wind_dart hP.dart
  omega

/-- A border along a background region with first pixel `Q` winds around it, negatively, if it
contains the side to the left of `Q`, and not at all otherwise. -/
theorem wind_first_bg {Q : Int × Int} (hQ : FirstBg F Q) {s : (Int × Int) × Nat} (h : Dart F s)
    (hc : Conn4 F Q (s.1 + D s.2)) :
    wind (orb S F s) Q = - ind (orb S F s) (Q + D 0, 4) := by
  have hcy := orb_cycle S hS h
  have hz : wind (orb S F s) (Q + D 0) = 0 := by
    apply wind_zero
    · intro u hu h1 h2
      have := hQ.2 _ (hc.trans (orb_conn S hS h hu).2)
      unfold RLe at this
      rw [h2] at this
      simp [D, dirs] at h1 this ⊢
      omega
    · intro u hu h1 h2
      have := hQ.2 _ (hc.trans (orb_conn S hS h hu).2)
      unfold RLe at this
      rw [h2] at this
      simp [D, dirs] at h1 this ⊢
      omega
  have := hcy.wind_dart hQ.dart
  rw [west_east] at this
  omega

theorem exists_firstFg (hL : ∀ p, F p = true → 0 ≤ p.1 ∧ 0 ≤ p.2) {p : Int × Int}
    (hp : F p = true) : ∃ P, FirstFg F P ∧ Conn8 F p P := by
  clear hS
  obtain ⟨P, h1, h2⟩ := first_exists (P := fun q => Conn8 F p q)
    (fun q hq => hL q (Conn8.fg hq hp)) ⟨p, Relation.ReflTransGen.refl⟩
  exact ⟨P, ⟨Conn8.fg h1 hp, fun q hq => h2 q (h1.trans hq)⟩, h1⟩

/-- A border that does not wind around its region surrounds a background region that has a first
pixel. -/
theorem exists_firstBg (hL : ∀ p, F p = true → 0 ≤ p.1 ∧ 0 ≤ p.2) {s : (Int × Int) × Nat}
    (h : Dart F s) (hw : wind (orb S F s) s.1 = 0) :
    ∃ Q, FirstBg F Q ∧ Conn4 F (s.1 + D s.2) Q ∧ (Q + D 0, 4) ∈ orb S F s := by
  have hcy := orb_cycle S hS h
  have h1 := hcy.wind_dart h
  rw [ind_mem (orb_self S hS h)] at h1
  obtain ⟨Q, h2, h3⟩ := first_exists (P := fun q => Conn4 F (s.1 + D s.2) q)
    (fun q hq => by
      have hwq := hcy.wind_conn4 hq
      by_contra hc
      have : wind (orb S F s) q = 0 := by
        apply wind_zero
        · intro u hu _ _
          have := hL u.1 (hcy.dart u hu).1
          omega
        · intro u hu _ _
          have := hL u.1 (hcy.dart u hu).1
          omega
      omega) ⟨_, Relation.ReflTransGen.refl⟩
  have hQ : FirstBg F Q := ⟨Conn4.bg h2 h.2.2.2, fun q hq => h3 q (h2.trans hq)⟩
  refine ⟨Q, hQ, h2, ?_⟩
  have h4 := wind_first_bg S hS hQ h (Conn4.symm h2)
  have h5 := hcy.wind_conn4 h2
  by_contra hc
  rw [ind_not hc] at h4
  omega

/-- Every border either contains the west side of the first pixel of its region, or the side to the
left of the first pixel of its background region. -/
theorem outer_or_hole (hL : ∀ p, F p = true → 0 ≤ p.1 ∧ 0 ≤ p.2) {s : (Int × Int) × Nat}
    (h : Dart F s) :
    (∃ P, FirstFg F P ∧ Conn8 F s.1 P ∧ (P, 0) ∈ orb S F s) ∨
    ∃ Q, FirstBg F Q ∧ Conn4 F (s.1 + D s.2) Q ∧ (Q + D 0, 4) ∈ orb S F s := by
  obtain ⟨P, hP, hc⟩ := exists_firstFg S hS hL h.1
  by_cases hm : (P, 0) ∈ orb S F s
  · exact Or.inl ⟨P, hP, hc, hm⟩
  · right
    have h1 := wind_first S hS hP h hc.symm
    rw [ind_not hm, ← (orb_cycle S hS h).wind_conn8 hc] at h1
    exact exists_firstBg S hS hL h h1

/-- A border cannot be both. -/
theorem not_outer_and_hole {s : (Int × Int) × Nat} (h : Dart F s) {P Q : Int × Int}
    (hP : FirstFg F P) (hQ : FirstBg F Q) (h1 : (P, 0) ∈ orb S F s)
    (h2 : (Q + D 0, 4) ∈ orb S F s) : False := by
  have hcy := orb_cycle S hS h
  have c1 := orb_conn S hS h h1
  have c2 := orb_conn S hS h h2
  dsimp only at c1 c2
  rw [west_east] at c2
  have e1 := wind_first S hS hP h c1.1.symm
  rw [ind_mem h1, ← hcy.wind_conn8 c1.1] at e1
  have e2 := wind_first_bg S hS hQ h (Conn4.symm c2.2)
  rw [ind_mem h2, ← hcy.wind_conn4 c2.2] at e2
  have e3 := hcy.wind_dart h
  rw [ind_mem (orb_self S hS h)] at e3
  omega

/-- The first pixel of a region: if there is background on its right, that side belongs to the same
border as its left side. -/
theorem first_east (hL : ∀ p, F p = true → 0 ≤ p.1 ∧ 0 ≤ p.2) {P : Int × Int} (hP : FirstFg F P)
    (hE : F (P + D 4) = false) : ∃ n, (crack F)^[n] (P, 4) = (P, 0) := by
  have hd : Dart F (P, 4) := ⟨hP.1, show 4 < 8 by decide, show 4 % 2 = 0 from rfl, hE⟩
  rcases outer_or_hole S hS hL hd with ⟨P', hP', hc, hm⟩ | ⟨Q, hQ, hc, hm⟩
  · rw [← hP.unique hP' hc] at hm
    exact (mem_orb S hS hd).mp hm
  · exfalso
    have h1 := hP.2 _ (orb_conn S hS hd hm).1
    have h2 := hQ.2 _ (Conn4.symm hc)
    have hn := hQ.north
    dsimp only at h1 h2
    have : Q = P + D 4 := by
      unfold RLe at h1 h2
      refine Prod.ext ?_ ?_ <;> simp [D, dirs] at h1 h2 ⊢ <;> omega
    rw [this] at hn
    have e : P + D 4 + D 2 = P + D 3 := by rw [add_assoc]; congr 1
    rw [e] at hn
    have := hP.2 _ (Relation.ReflTransGen.single ⟨hP.1, hn, touch_D P 3⟩)
    unfold RLe at this
    simp [D, dirs] at this

end orbit

end Verif.Contours
