import Verif.Contours.Scan
import Mathlib.Logic.Relation
/-
Properties of contour finding (C51-C53, C93-C95).
-/
namespace Verif.Contours
variable {im : Image Nat} {t : Nat}

/-! ### The scan as a whole -/

theorem binarise_spec (im : Image Nat) (t : Nat) :
    ∃ v, binarise im t = some v ∧ v.w = im.w ∧ v.h = im.h ∧
      ∀ x y, x < im.w → y < im.h → v.px x y = if im.px x y > t then 1 else 0 := by
  unfold binarise
  obtain ⟨v, e, h1, h2, h3, _⟩ := forYX_spec (σ := Image Int)
    (f := fun (x y : Nat) (v : Image Int) =>
      (im.get x y).bind fun p => if p > t then v.put x y 1 else some v)
    (fun (x y : Nat) (v : Image Int) => v.w = im.w ∧ v.h = im.h ∧
      (∀ a b, a < im.w → b < im.h → Before a b x y → v.px a b = if im.px a b > t then 1 else 0) ∧
      (∀ a b, ¬ Before a b x y → v.px a b = 0))
    (x0 := 0) (x1 := im.w) (y0 := 0) (y1 := im.h) (s := Image.new im.w im.h 0)
    (Nat.zero_le _) (Nat.zero_le _)
    ⟨rfl, rfl, fun a b _ _ hb => by unfold Before at hb; omega, fun a b _ => rfl⟩
    (by
      intro x y v _ hx _ hy ⟨h1, h2, h3, h4⟩
      rw [Image.get_of_inB hx hy, Option.bind_some]
      have hbef : ∀ a b, Before a b (x + 1) y → ¬ Before a b x y → a = x ∧ b = y := by
        unfold Before; intro a b; omega
      by_cases hc : im.px x y > t
      · rw [if_pos hc, Image.put_of_inB _ (by omega) (by omega)]
        refine ⟨_, rfl, h1, h2, ?_, ?_⟩
        · intro a b ha hb hbf
          dsimp only
          by_cases he : a = x ∧ b = y
          · rw [if_pos he, he.1, he.2, if_pos hc]
          · rw [if_neg he]
            exact h3 a b ha hb (by by_contra hn; exact he (hbef a b hbf hn))
        · intro a b hbf
          dsimp only
          rw [if_neg (by unfold Before at hbf; omega)]
          exact h4 a b (by unfold Before at hbf ⊢; omega)
      · rw [if_neg hc]
        refine ⟨_, rfl, h1, h2, ?_, ?_⟩
        · intro a b ha hb hbf
          by_cases he : a = x ∧ b = y
          · rw [he.1, he.2, if_neg hc]
            exact h4 x y (by unfold Before; omega)
          · exact h3 a b ha hb (by by_contra hn; exact he (hbef a b hbf hn))
        · intro a b hbf
          exact h4 a b (by unfold Before at hbf ⊢; omega))
    (by
      intro y v _ hy ⟨h1, h2, h3, h4⟩
      refine ⟨h1, h2, ?_, ?_⟩
      · intro a b ha hb hbf
        exact h3 a b ha hb (by unfold Before at hbf ⊢; omega)
      · intro a b hbf
        exact h4 a b (by unfold Before at hbf ⊢; omega))
  exact ⟨v, e, h1, h2, fun x y hx hy => h3 x y hx hy (by unfold Before; omega)⟩

theorem Inv.row {x y : Nat} {s : St} {Ts : Nat → (Int × Int) × Nat → Prop}
    (h : Inv im t x y s Ts) {x' y' : Nat} (hc : y * im.w + x ≤ y' * im.w + x')
    (hb : ∀ a b, a < im.w → b < im.h → Before a b x' y' → Before a b x y) {p : Nat}
    (hp : 1 ≤ p ∧ p ≤ s.num) :
    Inv im t x' y' { s with parent := p } Ts :=
  ⟨h.core.setParent hp, by have := h.count; dsimp only; omega,
    fun a b h1 h2 h3 => h.sides a b h1 h2 (hb a b h1 h2 h3),
    fun hcl a b h1 h2 h3 => h.easts hcl a b h1 h2 (hb a b h1 h2 h3)⟩

theorem result (im : Image Nat) (t : Nat) :
    ∃ s Ts, findContours im t = some s.contours ∧ Inv im t 0 im.h s Ts := by
  obtain ⟨v, e, hw, hh, hv⟩ := binarise_spec im t
  unfold findContours
  rw [e, Option.bind_some]
  have hcore : Core im t ⟨v, dirs, [], 1, 1⟩ (fun _ _ => False) := by
    refine ⟨⟨hw, hh, ?_⟩, ⟨0, by decide, rotL_zero.symm⟩, rfl, ⟨Nat.le_refl _, Nat.le_refl _⟩, ?_, ?_, ?_,
      ?_, ?_, ?_, ?_, ?_⟩
    · intro x y hx hy
      dsimp only
      rw [hv x y hx hy]
      split <;> simp_all
    · intro i c h; simp at h
    · intro i σ h; exact h.elim
    · intro i c q h; simp at h
    · intro i σ h; exact h.elim
    · intro a b ha hb hf hne
      dsimp only at hne
      rw [hv a b ha hb, if_pos hf] at hne
      exact absurd rfl hne
    · intro i σ h; exact h.elim
    · intro a b ha hb hneg
      dsimp only at hneg
      rw [hv a b (by omega) hb] at hneg
      split at hneg <;> omega
    · intro i j σ σ' d h; exact h.elim
  obtain ⟨s, es, ⟨Ts, hI⟩⟩ := forRange_spec (σ := St)
    (f := fun (y : Nat) (s : St) => forRange 0 im.w { s with parent := 1 } fun x s =>
      visit (im.w * im.h * 8) x y s)
    (fun (y : Nat) (s : St) => ∃ Ts, Inv im t 0 y s Ts)
    (lo := 0) (hi := im.h) (s := ⟨v, dirs, [], 1, 1⟩) (Nat.zero_le _)
    ⟨fun _ _ => False, hcore, by simp, by unfold Before; intros; omega,
      by unfold Before; intros; omega⟩
    (by
      intro y s _ hy ⟨Ts, hI⟩
      obtain ⟨s', es, Ts', hI'⟩ := forRange_spec (σ := St)
        (f := fun (x : Nat) (s : St) => visit (im.w * im.h * 8) x y s)
        (fun (x : Nat) (s : St) => ∃ Ts, Inv im t x y s Ts)
        (lo := 0) (hi := im.w) (s := { s with parent := 1 }) (Nat.zero_le _)
        ⟨Ts, hI.row (Nat.le_refl _) (fun _ _ _ _ h => h) ⟨Nat.le_refl _, by
          have := hI.core.num; omega⟩⟩
        (by
          rintro x s _ hx ⟨Ts, hI⟩
          obtain ⟨s', Ts', e, hI'⟩ := visit_spec hx hy hI
          exact ⟨s', e, Ts', hI'⟩)
      refine ⟨s', es, Ts', ?_⟩
      exact hI'.row (by rw [Nat.succ_mul]; omega)
        (fun a b h1 _ h3 => by unfold Before at h3 ⊢; omega) hI'.core.par)
  exact ⟨s, Ts, by rw [es]; rfl, hI⟩

/-- A property of all results. -/
theorem of_result {cs : List Contour} (h : findContours im t = some cs) :
    ∃ s Ts, cs = s.contours ∧ Inv im t 0 im.h s Ts := by
  obtain ⟨s, Ts, e, hI⟩ := result im t
  rw [e] at h
  exact ⟨s, Ts, (Option.some.inj h).symm, hI⟩

/-! ### C51: termination -/

/-- Contour finding returns for every image and threshold. -/
theorem C51_total (im : Image Nat) (t : Nat) : ∃ cs, findContours im t = some cs := by
  obtain ⟨s, _, e, _⟩ := result im t
  exact ⟨_, e⟩

/-- It returns at most one contour per pixel. -/
theorem C51_count {cs : List Contour} (h : findContours im t = some cs) :
    cs.length ≤ im.w * im.h := by
  obtain ⟨s, Ts, rfl, hI⟩ := of_result h
  have := hI.count
  rw [Nat.mul_comm] at this
  omega

/-- A ring with a hole: an outer contour and a hole contour inside it. -/
def ringIm : Image Nat :=
  ⟨5, 5, fun x y => if x = 0 ∨ y = 0 ∨ x = 4 ∨ y = 4 ∨ (x = 2 ∧ y = 2) then 0 else 9⟩

theorem ring_contours : findContours ringIm 0 =
    some [⟨[(1, 1), (1, 2), (1, 3), (2, 3), (3, 3), (3, 2), (3, 1), (2, 1)], true, none⟩,
      ⟨[(1, 2), (2, 1), (3, 2), (2, 3)], false, some 0⟩] := by
  decide +kernel

example : ∃ cs, findContours ringIm 0 = some cs ∧ cs.length = 2 ∧ 2 ≤ ringIm.w * ringIm.h :=
  ⟨_, ring_contours, rfl, by decide⟩

/-! ### C52: shape of the contours -/

/-- Specification: a pixel of the image above the threshold. -/
def Fore (im : Image Nat) (t : Nat) (p : Nat × Nat) : Prop :=
  p.1 < im.w ∧ p.2 < im.h ∧ im.px p.1 p.2 > t

theorem fore_un {p : Int × Int} (h : fg im t p = true) : Fore im t (un p) := by
  obtain ⟨h1, h2⟩ := fg_iff.mp h
  exact ⟨by unfold un; dsimp only; omega, by unfold un; dsimp only; omega, h2⟩

/-- Every contour is a closed chain of touching foreground pixels. -/
theorem C52_chain {cs : List Contour} (h : findContours im t = some cs) {c : Contour}
    (hc : c ∈ cs) : Ring c.points ∧ ∀ p ∈ c.points, Fore im t p := by
  obtain ⟨s, Ts, rfl, hI⟩ := of_result h
  obtain ⟨i, hi, e⟩ := List.mem_iff_getElem.mp hc
  have htr := hI.core.traced i c (by rw [← e]; exact List.getElem?_eq_getElem hi)
  refine ⟨htr.ring, fun p hp => ?_⟩
  obtain ⟨σ, h1, rfl⟩ := (htr.mem p).mp hp
  exact fore_un (htr.isfg σ h1)

/-- The parent of a contour is an earlier contour of the other type. -/
theorem C52_parent {cs : List Contour} (h : findContours im t = some cs) {i : Nat} {c : Contour}
    (hc : cs[i]? = some c) {q : Nat} (hq : c.parent = some q) :
    q < i ∧ ∃ c', cs[q]? = some c' ∧ c'.outer = !c.outer := by
  obtain ⟨s, Ts, rfl, hI⟩ := of_result h
  exact hI.core.parents i c q hc hq

/-- An outer contour starts at a pixel with background on its left, a hole contour at one with
background on its right. -/
theorem C52_type {cs : List Contour} (h : findContours im t = some cs) {c : Contour}
    (hc : c ∈ cs) : ∃ p, c.points.head? = some p ∧
      if c.outer then 1 ≤ p.1 ∧ im.px (p.1 - 1) p.2 ≤ t
      else p.1 + 1 < im.w ∧ im.px (p.1 + 1) p.2 ≤ t := by
  obtain ⟨s, Ts, rfl, hI⟩ := of_result h
  obtain ⟨i, hi, e⟩ := List.mem_iff_getElem.mp hc
  have htr := hI.core.traced i c (by rw [← e]; exact List.getElem?_eq_getElem hi)
  obtain ⟨s0, h1, h2, h3, h4, _⟩ := htr.start
  refine ⟨_, h2, ?_⟩
  have hf := (fg_iff.mp (htr.isfg s0 h1)).1
  have hb := sees_bg h3
  rw [Bool.eq_false_iff] at hb
  cases ho : c.outer
  · rw [ho] at h4 hb
    simp only [Bool.false_eq_true, if_false] at h4 ⊢
    unfold un
    refine ⟨by dsimp only; omega, ?_⟩
    by_contra hn
    apply hb
    have e1 : (s0.1 + D (startDir false)).1 = s0.1.1 + 1 := rfl
    have e2 : (s0.1 + D (startDir false)).2 = s0.1.2 + 0 := rfl
    rw [fg_iff, e1, e2, show (s0.1.1 + 1).toNat = s0.1.1.toNat + 1 by omega,
      show (s0.1.2 + 0).toNat = s0.1.2.toNat by omega]
    dsimp only at hn
    exact ⟨by omega, by omega⟩
  · rw [ho] at h4 hb
    simp only [if_true] at h4 ⊢
    unfold un
    refine ⟨by dsimp only; omega, ?_⟩
    by_contra hn
    apply hb
    have e1 : (s0.1 + D (startDir true)).1 = s0.1.1 + -1 := rfl
    have e2 : (s0.1 + D (startDir true)).2 = s0.1.2 + 0 := rfl
    rw [fg_iff, e1, e2, show (s0.1.1 + -1).toNat = s0.1.1.toNat - 1 by omega,
      show (s0.1.2 + 0).toNat = s0.1.2.toNat by omega]
    dsimp only at hn
    exact ⟨by omega, by omega⟩

example : ∃ cs c, findContours ringIm 0 = some cs ∧ cs[1]? = some c ∧ c.parent = some 0 ∧
    c.outer = false ∧ c.points.head? = some (1, 2) := ⟨_, _, ring_contours, rfl, rfl, rfl, rfl⟩

/-! ### C53: which regions have a contour -/

/-- Specification: the pixels of the foreground region of a pixel (8-connectivity). -/
def Region (im : Image Nat) (t : Nat) : Nat × Nat → Nat × Nat → Prop :=
  Relation.ReflTransGen fun a b => Fore im t a ∧ Fore im t b ∧ Nbr a b

/-- Specification: a background pixel of the image on the left or on the right. -/
def SideBg (im : Image Nat) (t : Nat) (p : Nat × Nat) : Prop :=
  1 ≤ p.1 ∧ im.px (p.1 - 1) p.2 ≤ t ∨ p.1 + 1 < im.w ∧ im.px (p.1 + 1) p.2 ≤ t

theorem nbr_symm {a b : Nat × Nat} (h : Nbr a b) : Nbr b a :=
  ⟨h.1.symm, h.2.2.1, h.2.1, h.2.2.2.2, h.2.2.2.1⟩

theorem region_symm {a b : Nat × Nat} (h : Region im t a b) : Region im t b a := by
  induction h with
  | refl => exact Relation.ReflTransGen.refl
  | tail _ h2 ih => exact ih.head ⟨h2.2.1, h2.1, nbr_symm h2.2.2⟩

/-- All points of a chain belong to one region. -/
theorem ring_region {l : List (Nat × Nat)} (hr : Ring l) (hf : ∀ p ∈ l, Fore im t p)
    {p : Nat × Nat} (hp : l.head? = some p) : ∀ q ∈ l, Region im t p q := by
  obtain ⟨hne, hr⟩ := hr
  have key : ∀ (i : Nat) (q : Nat × Nat), l[i]? = some q → Region im t p q := by
    intro i
    induction i with
    | zero =>
      intro q hq
      rw [List.head?_eq_getElem?, hq] at hp
      obtain rfl := Option.some.inj hp
      exact Relation.ReflTransGen.refl
    | succ i ih =>
      intro q hq
      have hi : i + 1 < l.length := by
        by_contra hc
        rw [List.getElem?_eq_none (by omega)] at hq
        simp at hq
      have he : l[i]? = some l[i] := List.getElem?_eq_getElem (by omega)
      refine (ih _ he).tail ⟨hf _ (List.mem_of_getElem? he), hf _ (List.mem_of_getElem? hq), ?_⟩
      rcases hr with h1 | h1
      · omega
      · exact h1 i _ _ he (by rw [Nat.mod_eq_of_lt hi]; exact hq)
  intro q hq
  obtain ⟨i, hi⟩ := List.mem_iff_getElem?.mp hq
  exact key i q hi

/-- Every foreground pixel with a background pixel of the image on its left or right is on a
contour. -/
theorem C53_side {cs : List Contour} (h : findContours im t = some cs) {p : Nat × Nat}
    (hp : Fore im t p) (hs : SideBg im t p) : ∃ c ∈ cs, p ∈ c.points := by
  obtain ⟨s, Ts, rfl, hI⟩ := of_result h
  have hne := hI.sides p.1 p.2 hp.1 hp.2.1 (Or.inl hp.2.1) hp.2.2 hs
  obtain ⟨_, _, σ, h1, h2⟩ := hI.core.val p.1 p.2 hp.1 hp.2.1 hp.2.2 hne
  have hi := hI.core.dom _ σ h1
  have htr := hI.core.traced _ _ (List.getElem?_eq_getElem hi)
  exact ⟨_, List.getElem_mem hi, (htr.mem p).mpr ⟨σ, h1, h2⟩⟩

/-- Exactly the regions that have, somewhere, a background pixel of the image directly to the left
or right have a contour through them. -/
theorem C53_partial {cs : List Contour} (h : findContours im t = some cs) {p : Nat × Nat}
    (_hp : Fore im t p) :
    (∃ c ∈ cs, ∃ q ∈ c.points, Region im t p q) ↔
      ∃ q, Region im t p q ∧ Fore im t q ∧ SideBg im t q := by
  constructor
  · rintro ⟨c, hc, q, hq, hr⟩
    obtain ⟨hring, hfore⟩ := C52_chain h hc
    obtain ⟨q0, h0, hty⟩ := C52_type h hc
    have hreg := ring_region hring hfore h0 q hq
    have hmem : q0 ∈ c.points := List.mem_of_mem_head? (by rw [h0]; rfl)
    refine ⟨q0, hr.trans (region_symm hreg), hfore q0 hmem, ?_⟩
    unfold SideBg
    cases ho : c.outer
    · rw [ho] at hty; exact Or.inr (by simpa using hty)
    · rw [ho] at hty; exact Or.inl (by simpa using hty)
  · rintro ⟨q, hr, hf, hs⟩
    obtain ⟨c, hc, hq⟩ := C53_side h hf hs
    exact ⟨c, hc, q, hq, hr⟩

/-- In particular every region that contains a pixel of a row with some background has a contour:
only regions made of complete rows can be missed. -/
theorem C53_row {cs : List Contour} (h : findContours im t = some cs) {p : Nat × Nat}
    (hp : Fore im t p) {x : Nat} (hx : x < im.w) (hbg : im.px x p.2 ≤ t) :
    ∃ c ∈ cs, ∃ q ∈ c.points, Region im t p q := by
  rw [C53_partial h hp]
  obtain ⟨a, b⟩ := p
  dsimp only at hbg
  rcases Nat.lt_trichotomy x a with hlt | heq | hgt
  · obtain ⟨d, hd⟩ : ∃ d, a = x + 1 + d := ⟨a - x - 1, by omega⟩
    induction d generalizing a with
    | zero =>
      exact ⟨(a, b), Relation.ReflTransGen.refl, hp, Or.inl ⟨by dsimp only; omega, by
        dsimp only; rw [show a - 1 = x by omega]; exact hbg⟩⟩
    | succ d ih =>
      by_cases hb : im.px (a - 1) b ≤ t
      · exact ⟨(a, b), Relation.ReflTransGen.refl, hp, Or.inl ⟨by dsimp only; omega, hb⟩⟩
      · have hp' : Fore im t (a - 1, b) :=
          ⟨by have := hp.1; dsimp only at this ⊢; omega, hp.2.1, by dsimp only; omega⟩
        obtain ⟨q, h1, h2, h3⟩ := ih (a - 1) hp' (by omega) (by omega)
        refine ⟨q, Relation.ReflTransGen.head ⟨hp, hp', ?_⟩ h1, h2, h3⟩
        refine ⟨by simp; omega, ?_⟩
        dsimp only
        omega
  · exfalso
    have := hp.2.2
    dsimp only at this
    rw [← heq] at this
    omega
  · obtain ⟨d, hd⟩ : ∃ d, x = a + 1 + d := ⟨x - a - 1, by omega⟩
    induction d generalizing a with
    | zero =>
      exact ⟨(a, b), Relation.ReflTransGen.refl, hp, Or.inr ⟨by dsimp only; omega, by
        dsimp only; rw [show a + 1 = x by omega]; exact hbg⟩⟩
    | succ d ih =>
      by_cases hb : im.px (a + 1) b ≤ t
      · exact ⟨(a, b), Relation.ReflTransGen.refl, hp, Or.inr ⟨by dsimp only; omega, hb⟩⟩
      · have hp' : Fore im t (a + 1, b) := ⟨by dsimp only; omega, hp.2.1, by dsimp only; omega⟩
        obtain ⟨q, h1, h2, h3⟩ := ih (a + 1) hp' (by omega) (by omega)
        refine ⟨q, Relation.ReflTransGen.head ⟨hp, hp', ?_⟩ h1, h2, h3⟩
        refine ⟨by simp, ?_⟩
        dsimp only
        omega

/-- Without foreground there are no contours. -/
theorem C53_none {cs : List Contour} (h : findContours im t = some cs)
    (hno : ∀ p, ¬ Fore im t p) : cs = [] := by
  rw [List.eq_nil_iff_forall_not_mem]
  intro c hc
  obtain ⟨hring, hf⟩ := C52_chain h hc
  obtain ⟨p, hp⟩ := List.exists_mem_of_ne_nil _ hring.1
  exact hno p (hf p hp)

/-- As stated the property is false: the single pixel of a 1×1 image is a region without
contour. -/
theorem C53_negation : ∃ (im : Image Nat) (p : Nat × Nat), Fore im 0 p ∧
    findContours im 0 = some [] :=
  ⟨⟨1, 1, fun _ _ => 1⟩, (0, 0), ⟨by decide, by decide, by decide⟩, by decide +kernel⟩

example : ∃ cs, findContours ringIm 0 = some cs ∧ ∃ c ∈ cs, (3, 2) ∈ c.points :=
  ⟨_, ring_contours, _, List.mem_cons_self .., by decide⟩

example : SideBg ringIm 0 (3, 2) ∧ Fore ringIm 0 (3, 2) := by
  unfold SideBg Fore; decide

/-! ### C93: contour points are border pixels -/

/-- Specification: some horizontal or vertical neighbour is background or outside the image. -/
def EdgePx (im : Image Nat) (t : Nat) (p : Nat × Nat) : Prop :=
  (p.1 = 0 ∨ im.px (p.1 - 1) p.2 ≤ t) ∨ (p.2 = 0 ∨ im.px p.1 (p.2 - 1) ≤ t) ∨
  (p.1 + 1 = im.w ∨ im.px (p.1 + 1) p.2 ≤ t) ∨ (p.2 + 1 = im.h ∨ im.px p.1 (p.2 + 1) ≤ t)

theorem bg_add {p d : Int × Int} : fg im t (p + d) = false ↔
    ¬ ((0 ≤ p.1 + d.1 ∧ p.1 + d.1 < im.w ∧ 0 ≤ p.2 + d.2 ∧ p.2 + d.2 < im.h) ∧
      im.px (p.1 + d.1).toNat (p.2 + d.2).toNat > t) := by
  rw [Bool.eq_false_iff, Ne, fg_iff, Prod.fst_add, Prod.snd_add]

theorem exists_dart_iff {p : Int × Int} (hp : fg im t p = true) :
    (∃ d, Dart (fg im t) (p, d)) ↔ fg im t (p + (-1, 0)) = false ∨
      fg im t (p + (0, -1)) = false ∨ fg im t (p + (1, 0)) = false ∨
      fg im t (p + (0, 1)) = false := by
  have d0 : D 0 = (-1, 0) := rfl
  have d2 : D 2 = (0, -1) := rfl
  have d4 : D 4 = (1, 0) := rfl
  have d6 : D 6 = (0, 1) := rfl
  rw [← d0, ← d2, ← d4, ← d6]
  constructor
  · rintro ⟨d, hdd⟩
    have h3 := hdd.2.2.2
    have := dart_dir hdd
    dsimp only at this h3
    rcases this with e | e | e | e <;> rw [e] at h3
    · exact Or.inl h3
    · exact Or.inr (Or.inl h3)
    · exact Or.inr (Or.inr (Or.inl h3))
    · exact Or.inr (Or.inr (Or.inr h3))
  · rintro (h | h | h | h)
    · exact ⟨0, hp, by dsimp only; decide, by dsimp only, h⟩
    · exact ⟨2, hp, by dsimp only; decide, by dsimp only, h⟩
    · exact ⟨4, hp, by dsimp only; decide, by dsimp only, h⟩
    · exact ⟨6, hp, by dsimp only; decide, by dsimp only, h⟩

theorem or_le_iff {A B : Prop} {u : Nat} (h : A ↔ ¬ B) : (A ∨ u ≤ t) ↔ ¬ (B ∧ u > t) := by
  rw [h, not_and_or, not_lt]

/-- A pixel is at the edge exactly if it has a side. -/
theorem edge_iff {p : Int × Int} (hp : fg im t p = true) :
    EdgePx im t (un p) ↔ ∃ d, Dart (fg im t) (p, d) := by
  have h1 := (fg_iff.mp hp).1
  rw [exists_dart_iff hp, bg_add, bg_add, bg_add, bg_add]
  unfold EdgePx un
  dsimp only
  rw [add_zero, add_zero]
  have x1 : (p.1 + 1).toNat = p.1.toNat + 1 := by omega
  have y1 : (p.2 + 1).toNat = p.2.toNat + 1 := by omega
  have x2 : (p.1 + -1).toNat = p.1.toNat - 1 := by omega
  have y2 : (p.2 + -1).toNat = p.2.toNat - 1 := by omega
  rw [x1, y1, x2, y2]
  refine or_congr (or_le_iff ?_) (or_congr (or_le_iff ?_) (or_congr (or_le_iff ?_) (or_le_iff ?_)))
    <;> clear x1 y1 x2 y2 hp <;> omega

theorem sees_dart {s : (Int × Int) × Nat} {d : Nat} (hf : fg im t s.1 = true) (hd : d % 2 = 0)
    (h : Sees (fg im t) s d) : Dart (fg im t) (s.1, d) := by
  have hb := sees_bg h
  refine ⟨hf, ?_, hd, hb⟩
  dsimp only
  obtain ⟨i, _, e, _⟩ := h
  rw [e]
  exact Nat.mod_lt _ (by decide)

/-- Every point of a contour is an edge pixel of the foreground. -/
theorem C93_edge {cs : List Contour} (h : findContours im t = some cs) {c : Contour}
    (hc : c ∈ cs) {p : Nat × Nat} (hp : p ∈ c.points) : Fore im t p ∧ EdgePx im t p := by
  refine ⟨(C52_chain h hc).2 p hp, ?_⟩
  obtain ⟨s, Ts, rfl, hI⟩ := of_result h
  obtain ⟨i, hi, e⟩ := List.mem_iff_getElem.mp hc
  have htr := hI.core.traced i c (by rw [← e]; exact List.getElem?_eq_getElem hi)
  obtain ⟨σ, h1, rfl⟩ := (htr.mem p).mp hp
  rw [edge_iff (htr.isfg σ h1)]
  obtain ⟨d, h2, h3⟩ := htr.bord σ h1
  exact ⟨d, sees_dart (htr.isfg σ h1) h2 h3⟩

/-- Inner pixels are on no contour. -/
example : Fore ⟨5, 5, fun x y => if x = 0 ∨ y = 0 ∨ x = 4 ∨ y = 4 then 0 else 9⟩ 0 (2, 2) ∧
    ¬ EdgePx ⟨5, 5, fun x y => if x = 0 ∨ y = 0 ∨ x = 4 ∨ y = 4 then 0 else 9⟩ 0 (2, 2) := by
  unfold Fore EdgePx; decide

/-! ### C94: edge pixels are on a contour -/

theorem un_cast (p : Nat × Nat) : un ((p.1 : Int), (p.2 : Int)) = p := rfl

theorem fg_cast {p : Nat × Nat} (h : Fore im t p) : fg im t ((p.1 : Int), (p.2 : Int)) = true := by
  rw [fg_iff]
  obtain ⟨h1, h2, h3⟩ := h
  exact ⟨by dsimp only; omega, by simpa using h3⟩

theorem all_darts (im : Image Nat) (t : Nat) :
    ∀ s, Dart (fg im t) s → s ∈ allStates im := fun _ hs => mem_allStates hs.1 hs.2.1

/-- With the last column clear, every side is seen by some trace. -/
theorem Inv.covered {s : St} {Ts : Nat → (Int × Int) × Nat → Prop} (hI : Inv im t 0 im.h s Ts)
    (hcl : ClearRight im t) {p : Int × Int} {d : Nat} (hd : Dart (fg im t) (p, d)) :
    ∃ i σ, Ts i σ ∧ σ.1 = p ∧ Sees (fg im t) σ d := by
  obtain ⟨n, hn, m, hm⟩ := exists_east (allStates im) (all_darts im t) hd
  obtain ⟨u, hu⟩ : ∃ u, u = (crack (fg im t))^[n] (p, d) := ⟨_, rfl⟩
  obtain ⟨r, e⟩ := u
  have hrd : Dart (fg im t) (r, e) := by
    rw [hu]; exact dart_iter (allStates im) (all_darts im t) hd n
  rw [← hu] at hn hm
  dsimp only at hn
  subst hn
  obtain ⟨hrb, hrf⟩ := fg_iff.mp hrd.1
  dsimp only at hrb hrf
  have hrw : r.1.toNat + 1 < im.w := by
    by_contra hc
    have := hcl r.2.toNat (by omega)
    rw [show im.w - 1 = r.1.toNat by omega] at this
    omega
  have hre : im.px (r.1.toNat + 1) r.2.toNat ≤ t := by
    by_contra hc
    have h2 := hrd.2.2.2
    dsimp only at h2
    have e1 : (r + D 4).1 = r.1 + 1 := rfl
    have e2 : (r + D 4).2 = r.2 + 0 := rfl
    have : fg im t (r + D 4) = true := by
      rw [fg_iff, e1, e2, show (r.1 + 1).toNat = r.1.toNat + 1 by omega,
        show (r.2 + 0).toNat = r.2.toNat by omega]
      exact ⟨by omega, by omega⟩
    rw [this] at h2
    simp at h2
  have hneg := hI.easts hcl r.1.toNat r.2.toNat (by omega) (by omega)
    (by unfold Before; omega) hrf hrw hre
  obtain ⟨i, σ, q1, q2, q3⟩ := hI.core.neg _ _ hrw (by omega) hneg
  have hi := hI.core.dom i σ q1
  have htr := hI.core.traced i _ (List.getElem?_eq_getElem hi)
  have hσr : σ.1 = r := un_inj (htr.isfg _ q1) hrd.1 q2
  obtain ⟨σ', a', b', _, d'⟩ := htr.iter q1 (by rfl) q3 m
  rw [hσr, hm] at b' d'
  exact ⟨i, σ', a', b', d'⟩

/-- If the last column contains no foreground, every edge pixel of the foreground is on a
contour. -/
theorem C94_partial {cs : List Contour} (h : findContours im t = some cs)
    (hcl : ClearRight im t) {p : Nat × Nat} (hp : Fore im t p) (he : EdgePx im t p) :
    ∃ c ∈ cs, p ∈ c.points := by
  obtain ⟨s, Ts, rfl, hI⟩ := of_result h
  have he' : EdgePx im t (un ((p.1 : Int), (p.2 : Int))) := he
  rw [edge_iff (fg_cast hp)] at he'
  obtain ⟨d, hd⟩ := he'
  obtain ⟨i, σ, h1, h2, _⟩ := hI.covered hcl hd
  have hi := hI.core.dom i σ h1
  have htr := hI.core.traced i _ (List.getElem?_eq_getElem hi)
  exact ⟨_, List.getElem_mem hi, (htr.mem p).mpr ⟨σ, h1, by rw [h2]; rfl⟩⟩

/-- In general edge pixels can be missed: here the first column's pixel `(0, 1)` is at the edge of
the foreground, but the only contour is that of the hole. -/
theorem C94_negation : ∃ (im : Image Nat) (p : Nat × Nat) (cs : List Contour),
    findContours im 0 = some cs ∧ Fore im 0 p ∧ EdgePx im 0 p ∧ (∃ x, x < im.w ∧ im.px x 2 = 0) ∧
    ∀ c ∈ cs, p ∉ c.points :=
  ⟨⟨4, 3, fun x y => if (x = 2 ∧ y = 1) ∨ (y = 2 ∧ x < 2) then 0 else 1⟩, (0, 1),
    [⟨[(1, 1), (2, 0), (3, 1), (2, 2)], false, none⟩], by decide +kernel,
    by unfold Fore; decide, by unfold EdgePx; decide, ⟨0, by decide, by decide⟩, by decide⟩

example : ClearRight ringIm 0 := by
  intro y hy
  have : ∀ y, y < 5 → ringIm.px (ringIm.w - 1) y ≤ 0 := by decide
  exact this y hy

/-! ### C95: contours are the borders, each once -/

/-- Specification: the four sides of a pixel. -/
inductive Side
  | west | north | east | south
  deriving DecidableEq

/-- The direction from a pixel across one of its sides. -/
def Side.out : Side → Int × Int
  | .west => (-1, 0)
  | .north => (0, -1)
  | .east => (1, 0)
  | .south => (0, 1)

/-- The side a quarter turn clockwise. -/
def Side.cw : Side → Side
  | .west => .north
  | .north => .east
  | .east => .south
  | .south => .west

/-- The side a quarter turn counter-clockwise. -/
def Side.ccw (d : Side) : Side := d.cw.cw.cw

/-- Specification: a side of a foreground pixel towards the background. -/
def IsSide (F : Int × Int → Bool) (s : (Int × Int) × Side) : Prop :=
  F s.1 = true ∧ F (s.1 + s.2.out) = false

/-- Specification: the next side when walking along the sides with the foreground on the left, where
diagonal foreground neighbours are connected.  Walking along side `d` leads in direction
`d.ccw.out`. -/
def nextSide (F : Int × Int → Bool) (s : (Int × Int) × Side) : (Int × Int) × Side :=
  if F (s.1 + s.2.out + s.2.ccw.out) then (s.1 + s.2.out + s.2.ccw.out, s.2.cw)
  else if F (s.1 + s.2.ccw.out) then (s.1 + s.2.ccw.out, s.2)
  else (s.1, s.2.ccw)

/-- Specification: side `b` lies on the border that contains side `a`. -/
def OnBorder (F : Int × Int → Bool) (a b : (Int × Int) × Side) : Prop :=
  ∃ n, (nextSide F)^[n] a = b

/-- The side where the trace of a contour starts. -/
def startSide (outer : Bool) : Side := if outer then .west else .east

/-- Direction number of a side. -/
def Side.num : Side → Nat
  | .west => 0
  | .north => 2
  | .east => 4
  | .south => 6

theorem num_inj {a b : Side} (h : a.num = b.num) : a = b := by
  cases a <;> cases b <;> simp [Side.num] at h <;> rfl

theorem out_eq (d : Side) : D d.num = d.out := by cases d <;> rfl

theorem num_lt (d : Side) : d.num < 8 ∧ d.num % 2 = 0 := by cases d <;> decide

theorem start_num (o : Bool) : (startSide o).num = startDir o := by cases o <;> rfl

theorem side_of {d : Nat} (h : d < 8) (h2 : d % 2 = 0) : ∃ e : Side, e.num = d := by
  have : d = 0 ∨ d = 2 ∨ d = 4 ∨ d = 6 := by omega
  rcases this with rfl | rfl | rfl | rfl
  · exact ⟨.west, rfl⟩
  · exact ⟨.north, rfl⟩
  · exact ⟨.east, rfl⟩
  · exact ⟨.south, rfl⟩

theorem isSide_iff {F : Int × Int → Bool} {p : Int × Int} {d : Side} :
    IsSide F (p, d) ↔ Dart F (p, d.num) := by
  unfold IsSide Dart
  dsimp only
  rw [out_eq]
  have := num_lt d
  constructor
  · rintro ⟨a, b⟩; exact ⟨a, this.1, this.2, b⟩
  · rintro ⟨a, _, _, b⟩; exact ⟨a, b⟩

theorem next_eq {F : Int × Int → Bool} (s : (Int × Int) × Side) :
    crack F (s.1, s.2.num) = ((nextSide F s).1, (nextSide F s).2.num) := by
  obtain ⟨p, d⟩ := s
  have e1 : p + D (d.num + 7) = p + d.out + d.ccw.out := by
    rw [add_assoc]; congr 1; cases d <;> rfl
  have e2 : p + D (d.num + 6) = p + d.ccw.out := by congr 1; cases d <;> rfl
  have e3 : (d.num + 2) % 8 = d.cw.num := by cases d <;> rfl
  have e4 : (d.num + 6) % 8 = d.ccw.num := by cases d <;> rfl
  unfold crack nextSide
  dsimp only
  rw [e1, e2, e3, e4]
  split
  · rfl
  · split <;> rfl

theorem next_iter {F : Int × Int → Bool} (n : Nat) (s : (Int × Int) × Side) :
    (crack F)^[n] (s.1, s.2.num) = (((nextSide F)^[n] s).1, ((nextSide F)^[n] s).2.num) := by
  induction n with
  | zero => rfl
  | succ n ih => rw [Function.iterate_succ_apply', Function.iterate_succ_apply', ih, next_eq]

theorem onBorder_iff {F : Int × Int → Bool} {p q : Int × Int} {d e : Side} :
    OnBorder F (p, d) (q, e) ↔ ∃ n, (crack F)^[n] (p, d.num) = (q, e.num) := by
  unfold OnBorder
  refine exists_congr fun n => ?_
  have := next_iter (F := F) n (p, d)
  dsimp only at this
  rw [this]
  constructor
  · intro h; rw [h]
  · intro h
    have h1 := congrArg Prod.fst h
    have h2 := congrArg Prod.snd h
    exact Prod.ext h1 (num_inj h2)

/-- The points of a contour are exactly the pixels along the border that contains the start side of
the contour: the west side of its first point for an outer contour, the east side for a hole. -/
theorem C95_border {cs : List Contour} (h : findContours im t = some cs) {c : Contour}
    (hc : c ∈ cs) : ∃ p, c.points.head? = some (un p) ∧
      IsSide (fg im t) (p, startSide c.outer) ∧
      ∀ q, q ∈ c.points ↔
        ∃ r e, un r = q ∧ OnBorder (fg im t) (p, startSide c.outer) (r, e) := by
  obtain ⟨s, Ts, rfl, hI⟩ := of_result h
  obtain ⟨i, hi, e⟩ := List.mem_iff_getElem.mp hc
  have htr := hI.core.traced i c (by rw [← e]; exact List.getElem?_eq_getElem hi)
  obtain ⟨s0, h1, h2, h3, _, h5⟩ := htr.start
  have hd0 : Dart (fg im t) (s0.1, startDir c.outer) :=
    sees_dart (htr.isfg s0 h1) (startDir_lt _).2 h3
  refine ⟨s0.1, h2, by rw [isSide_iff, start_num]; exact hd0, fun q => ?_⟩
  rw [htr.mem]
  constructor
  · rintro ⟨σ, a, b⟩
    obtain ⟨d, hd, hs⟩ := htr.bord σ a
    have hdd := sees_dart (htr.isfg σ a) hd hs
    obtain ⟨r, er⟩ := h5 σ d a hd hs
    obtain ⟨m, em⟩ := crack_back (allStates im) (all_darts im t) hdd r
    rw [er] at em
    obtain ⟨e', he'⟩ := side_of hdd.2.1 hd
    refine ⟨σ.1, e', b, ?_⟩
    rw [onBorder_iff, start_num, he']
    exact ⟨m, em⟩
  · rintro ⟨r, e', hr, hb⟩
    rw [onBorder_iff, start_num] at hb
    obtain ⟨n, en⟩ := hb
    obtain ⟨σ, a, b, _, _⟩ := htr.iter h1 (startDir_lt _).2 h3 n
    rw [en] at b
    exact ⟨σ, a, by rw [b]; exact hr⟩

/-- Different contours start on different borders: no border is traced twice. -/
theorem C95_once {cs : List Contour} (h : findContours im t = some cs) {i j : Nat} {c c' : Contour}
    (hi : cs[i]? = some c) (hj : cs[j]? = some c') {p q : Int × Int}
    (hp : c.points.head? = some (un p)) (hpf : fg im t p = true)
    (hq : c'.points.head? = some (un q)) (hqf : fg im t q = true)
    (hb : OnBorder (fg im t) (p, startSide c.outer) (q, startSide c'.outer)) : i = j := by
  obtain ⟨s, Ts, rfl, hI⟩ := of_result h
  have ht1 := hI.core.traced i c hi
  have ht2 := hI.core.traced j c' hj
  obtain ⟨s0, a1, a2, a3, _, _⟩ := ht1.start
  obtain ⟨s1, b1, b2, b3, _, _⟩ := ht2.start
  have e0 : s0.1 = p := un_inj (ht1.isfg _ a1) hpf (Option.some.inj (a2.symm.trans hp))
  have e1 : s1.1 = q := un_inj (ht2.isfg _ b1) hqf (Option.some.inj (b2.symm.trans hq))
  rw [onBorder_iff, start_num, start_num] at hb
  obtain ⟨n, en⟩ := hb
  obtain ⟨σ, c1, c2, _, c4⟩ := ht1.iter a1 (startDir_lt _).2 a3 n
  rw [e0, en] at c2 c4
  exact hI.core.disj i j σ s1 _ c1 b1 (by rw [c2, e1]) (startDir_lt _).2 c4 b3

/-- If the last column contains no foreground, every side lies on the border of some contour. -/
theorem C95_all_partial {cs : List Contour} (h : findContours im t = some cs)
    (hcl : ClearRight im t) {q : Int × Int} {e : Side} (hs : IsSide (fg im t) (q, e)) :
    ∃ c ∈ cs, ∃ p, c.points.head? = some (un p) ∧ fg im t p = true ∧
      OnBorder (fg im t) (p, startSide c.outer) (q, e) := by
  obtain ⟨s, Ts, rfl, hI⟩ := of_result h
  have hd := isSide_iff.mp hs
  obtain ⟨i, σ, h1, h2, h3⟩ := hI.covered hcl hd
  have hi := hI.core.dom i σ h1
  have htr := hI.core.traced i _ (List.getElem?_eq_getElem hi)
  obtain ⟨s0, a1, a2, a3, _, a5⟩ := htr.start
  obtain ⟨r, er⟩ := a5 σ _ h1 (num_lt e).2 h3
  rw [h2] at er
  obtain ⟨m, em⟩ := crack_back (allStates im) (all_darts im t) hd r
  rw [er] at em
  refine ⟨_, List.getElem_mem hi, s0.1, a2, htr.isfg _ a1, ?_⟩
  rw [onBorder_iff, start_num]
  exact ⟨m, em⟩

example : IsSide (fg ringIm 0) ((1, 2), .west) ∧ IsSide (fg ringIm 0) ((1, 2), .east) ∧
    (nextSide (fg ringIm 0))^[4] ((1, 2), .east) = ((1, 2), .east) := by
  unfold IsSide; decide +kernel

end Verif.Contours
