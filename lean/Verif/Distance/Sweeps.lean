import Verif.Distance.Model
import Mathlib.Data.Nat.Find
import Mathlib.Tactic.Linarith
/- C31: exactness of the two-sweep L1 / LInf distance transforms. -/
namespace Verif.Distance

/-! ### Specification -/

/-- `|a - b|` on naturals. -/
def absDiff (a b : Nat) : Nat := ((a : Int) - b).natAbs

/-- L1 distance of two pixels. -/
def distL1 (x y a b : Nat) : Nat := absDiff x a + absDiff y b

/-- LInf distance of two pixels. -/
def distLInf (x y a b : Nat) : Nat := max (absDiff x a) (absDiff y b)

/-- The distance computed by the transform. -/
def dist (linf : Bool) (x y a b : Nat) : Nat :=
  if linf then distLInf x y a b else distL1 x y a b

/-- `(a, b)` is a pixel the distance is measured from. -/
def Src (d : From) (im : Image Nat) (a b : Nat) : Prop :=
  a < im.w ∧ b < im.h ∧ match d with
    | .foreground => im.px a b ≠ 0
    | .background => im.px a b = 0

/-- `v` is the least distance from `(x, y)` to a source pixel. -/
def LeastDist (linf : Bool) (d : From) (im : Image Nat) (x y v : Nat) : Prop :=
  (∃ a b, Src d im a b ∧ dist linf x y a b = v) ∧
    ∀ a b, Src d im a b → v ≤ dist linf x y a b

/-! ### Steps -/

theorem isSource_iff {d : From} {im : Image Nat} {a b : Nat} (ha : a < im.w) (hb : b < im.h) :
    isSource d (im.px a b) = true ↔ Src d im a b := by
  cases d <;> (simp [isSource, Src, ha, hb]; try omega)

/-- Overwriting one pixel. -/
def setPx (im : Image Nat) (x y v : Nat) : Image Nat :=
  { im with px := fun a b => if a = x ∧ b = y then v else im.px a b }

theorem put_setPx {im : Image Nat} {x y : Nat} (v : Nat) (hx : x < im.w) (hy : y < im.h) :
    im.put x y v = some (setPx im x y v) := Image.put_of_inB v hx hy

theorem setPx_setPx (im : Image Nat) (x y u v : Nat) :
    setPx (setPx im x y u) x y v = setPx im x y v := by
  unfold setPx; congr 1; funext a b; dsimp only; split <;> rfl

theorem setPx_self (im : Image Nat) (x y : Nat) : setPx im x y (im.px x y) = im := by
  unfold setPx; cases im; congr 1; funext a b; dsimp only; split
  · rename_i h; rw [h.1, h.2]
  · rfl

theorem check_eq {im : Image Nat} {x y cx cy v : Nat} (hx : x < im.w) (hy : y < im.h)
    (hcx : cx < im.w) (hcy : cy < im.h) (hne : ¬ (cx = x ∧ cy = y)) (hv : v ≤ 255) :
    check (setPx im x y v) x y cx cy = some (setPx im x y (min v (im.px cx cy + 1))) := by
  unfold check
  rw [Image.get_of_inB (by exact hx) (by exact hy), Option.bind_some,
    Image.get_of_inB (by exact hcx) (by exact hcy), Option.bind_some]
  have e1 : (setPx im x y v).px x y = v := by simp [setPx]
  have e2 : (setPx im x y v).px cx cy = im.px cx cy := by simp [setPx, hne]
  rw [e1, e2]
  split
  · rename_i h
    rw [put_setPx _ (by exact hx) (by exact hy), setPx_setPx, Nat.mod_eq_of_lt (by omega),
      Nat.min_eq_right (by omega)]
  · rw [Nat.min_eq_left (by omega)]

theorem checkIf_eq {im : Image Nat} {x y cx cy v : Nat} {c : Prop} [Decidable c] (hx : x < im.w)
    (hy : y < im.h) (hc : c → cx < im.w ∧ cy < im.h ∧ ¬ (cx = x ∧ cy = y)) (hv : v ≤ 255) :
    checkIf (decide c) (setPx im x y v) x y cx cy =
      some (setPx im x y (if c then min v (im.px cx cy + 1) else v)) := by
  unfold checkIf
  by_cases h : c
  · obtain ⟨h1, h2, h3⟩ := hc h
    simp only [h, decide_true, if_true]
    exact check_eq hx hy h1 h2 h3 hv
  · simp [h]

/-- Value written by the forward sweep at a non-source pixel. -/
theorem fwdBody_spec {linf : Bool} {d : From} {maxD : Nat} {im : Image Nat} {x y : Nat}
    (hx : x < im.w) (hy : y < im.h) (hM : maxD ≤ 255) :
    ∃ v, fwdBody linf d maxD x y im = some (setPx im x y v) ∧ v ≤ maxD ∧
      (isSource d (im.px x y) = true → v = 0) ∧
      (v = maxD ∨ isSource d (im.px x y) = true ∨
        ∃ a b, a < im.w ∧ b < im.h ∧ (b < y ∨ b = y ∧ a < x) ∧ dist linf x y a b = 1 ∧
          v = im.px a b + 1) ∧
      (0 < x → v ≤ im.px (x - 1) y + 1) ∧
      (0 < y → v ≤ im.px x (y - 1) + 1) ∧
      (linf = true → 0 < x → 0 < y → v ≤ im.px (x - 1) (y - 1) + 1) ∧
      (linf = true → x + 1 < im.w → 0 < y → v ≤ im.px (x + 1) (y - 1) + 1) := by
  unfold fwdBody
  rw [Image.get_of_inB hx hy, Option.bind_some]
  by_cases hs : isSource d (im.px x y) = true
  · rw [if_pos hs, put_setPx _ hx hy]
    refine ⟨0, rfl, ?_, ?_, ?_, ?_, ?_, ?_, ?_⟩ <;> simp [hs]
  · rw [if_neg hs, put_setPx _ hx hy, Option.bind_some,
      checkIf_eq hx hy (by omega) hM, Option.bind_some]
    set v1 := (if 0 < x then min maxD (im.px (x - 1) y + 1) else maxD) with hv1
    have hd1 : 0 < x → dist linf x y (x - 1) y = 1 := by
      intro h; cases linf <;> simp [dist, distL1, distLInf, absDiff] <;> omega
    have hd2 : 0 < y → dist linf x y x (y - 1) = 1 := by
      intro h; cases linf <;> simp [dist, distL1, distLInf, absDiff] <;> omega
    have hv1' : v1 ≤ maxD := by rw [hv1]; split <;> omega
    have p1 : 0 < x → v1 ≤ im.px (x - 1) y + 1 := by
      intro h; rw [hv1, if_pos h]; omega
    have q1 : v1 = maxD ∨ ∃ a b, a < im.w ∧ b < im.h ∧ (b < y ∨ b = y ∧ a < x) ∧
        dist linf x y a b = 1 ∧ v1 = im.px a b + 1 := by
      by_cases h : 0 < x
      · by_cases h' : maxD ≤ im.px (x - 1) y + 1
        · left; rw [hv1, if_pos h]; omega
        · right; exact ⟨x - 1, y, by omega, hy, by omega, hd1 h, by rw [hv1, if_pos h]; omega⟩
      · left; rw [hv1, if_neg h]
    by_cases hy0 : 0 < y
    · rw [if_pos hy0, check_eq hx hy hx (by omega) (by omega) (by omega), Option.bind_some]
      set v2 := min v1 (im.px x (y - 1) + 1) with hv2
      have hv2' : v2 ≤ maxD := by omega
      have p2 : v2 ≤ im.px x (y - 1) + 1 := by omega
      have p12 : v2 ≤ v1 := by omega
      have q2 : v2 = maxD ∨ ∃ a b, a < im.w ∧ b < im.h ∧ (b < y ∨ b = y ∧ a < x) ∧
          dist linf x y a b = 1 ∧ v2 = im.px a b + 1 := by
        by_cases h' : v1 ≤ im.px x (y - 1) + 1
        · rw [show v2 = v1 by omega]; exact q1
        · right; exact ⟨x, y - 1, hx, by omega, by omega, hd2 hy0, by omega⟩
      cases linf with
      | false =>
        exact ⟨v2, by simp, hv2', by simp [hs], by
          rcases q2 with h | h
          · exact Or.inl h
          · exact Or.inr (Or.inr h), fun h => le_trans p12 (p1 h), fun _ => p2, by simp, by simp⟩
      | true =>
        rw [if_pos rfl, checkIf_eq hx hy (by omega) (by omega), Option.bind_some]
        set v3 := (if 0 < x then min v2 (im.px (x - 1) (y - 1) + 1) else v2) with hv3
        have p23 : v3 ≤ v2 := by rw [hv3]; split <;> omega
        have p3 : 0 < x → v3 ≤ im.px (x - 1) (y - 1) + 1 := by
          intro h; rw [hv3, if_pos h]; omega
        have q3 : v3 = maxD ∨ ∃ a b, a < im.w ∧ b < im.h ∧ (b < y ∨ b = y ∧ a < x) ∧
            dist true x y a b = 1 ∧ v3 = im.px a b + 1 := by
          by_cases h : 0 < x
          · by_cases h' : v2 ≤ im.px (x - 1) (y - 1) + 1
            · rw [show v3 = v2 by rw [hv3, if_pos h]; omega]; exact q2
            · right
              refine ⟨x - 1, y - 1, by omega, by omega, by omega, ?_, by rw [hv3, if_pos h]; omega⟩
              simp [dist, distLInf, absDiff]; omega
          · rw [show v3 = v2 by rw [hv3, if_neg h]]; exact q2
        rw [show (setPx im x y v3).w = im.w from rfl, checkIf_eq hx hy (by omega) (by omega)]
        refine ⟨_, rfl, ?_⟩
        set v4 := (if x < im.w - 1 then min v3 (im.px (x + 1) (y - 1) + 1) else v3) with hv4
        have p34 : v4 ≤ v3 := by rw [hv4]; split <;> omega
        refine ⟨by omega, by simp [hs], ?_, fun h => ?_, fun _ => by omega, fun _ h _ => ?_,
          fun _ h _ => ?_⟩
        · by_cases h : x < im.w - 1
          · by_cases h' : v3 ≤ im.px (x + 1) (y - 1) + 1
            · rw [show v4 = v3 by rw [hv4, if_pos h]; omega]
              rcases q3 with h | h
              · exact Or.inl h
              · exact Or.inr (Or.inr h)
            · right; right
              refine ⟨x + 1, y - 1, by omega, by omega, by omega, ?_, by rw [hv4, if_pos h]; omega⟩
              simp [dist, distLInf, absDiff]; omega
          · rw [show v4 = v3 by rw [hv4, if_neg h]]
            rcases q3 with h | h
            · exact Or.inl h
            · exact Or.inr (Or.inr h)
        · have := p1 h; omega
        · have := p3 h; omega
        · rw [hv4, if_pos (by omega)]; omega
  
    · rw [if_neg hy0]
      exact ⟨v1, rfl, hv1', by simp [hs], by
        rcases q1 with h | h
        · exact Or.inl h
        · exact Or.inr (Or.inr h), p1, by omega, by omega, by omega⟩

/-- The value `v` is the old value or one more than that of a neighbour already swept. -/
def ViaBwd (linf : Bool) (im : Image Nat) (x y v : Nat) : Prop :=
  v = im.px x y ∨
    ∃ a b, a < im.w ∧ b < im.h ∧ (y < b ∨ b = y ∧ x < a) ∧ dist linf x y a b = 1 ∧
      v = im.px a b + 1

/-- Value written by the backward sweep. -/
theorem bwdBody_spec {linf : Bool} {im : Image Nat} {x y : Nat}
    (hx : x < im.w) (hy : y < im.h) (hM : im.px x y ≤ 255) :
    ∃ v, bwdBody linf x y im = some (setPx im x y v) ∧ v ≤ im.px x y ∧
      ViaBwd linf im x y v ∧
      (x + 1 < im.w → v ≤ im.px (x + 1) y + 1) ∧
      (y + 1 < im.h → v ≤ im.px x (y + 1) + 1) ∧
      (linf = true → x + 1 < im.w → y + 1 < im.h → v ≤ im.px (x + 1) (y + 1) + 1) ∧
      (linf = true → 0 < x → y + 1 < im.h → v ≤ im.px (x - 1) (y + 1) + 1) := by
  unfold bwdBody
  have key := checkIf_eq (im := im) (x := x) (y := y) (cx := x + 1) (cy := y) (v := im.px x y)
    (c := x < im.w - 1) hx hy (by omega) hM
  rw [setPx_self] at key
  rw [key, Option.bind_some]
  set v1 := (if x < im.w - 1 then min (im.px x y) (im.px (x + 1) y + 1) else im.px x y) with hv1
  have hd1 : dist linf x y (x + 1) y = 1 := by
    cases linf <;> simp [dist, distL1, distLInf, absDiff]
  have hd2 : dist linf x y x (y + 1) = 1 := by
    cases linf <;> simp [dist, distL1, distLInf, absDiff]
  have hv1' : v1 ≤ im.px x y := by rw [hv1]; split <;> omega
  have p1 : x + 1 < im.w → v1 ≤ im.px (x + 1) y + 1 := by
    intro h; rw [hv1, if_pos (by omega)]; omega
  have q1 : ViaBwd linf im x y v1 := by
    by_cases h : x < im.w - 1
    · by_cases h' : im.px x y ≤ im.px (x + 1) y + 1
      · refine Or.inl ?_; rw [hv1, if_pos h]; omega
      · exact Or.inr ⟨x + 1, y, by omega, hy, by omega, hd1, by rw [hv1, if_pos h]; omega⟩
    · refine Or.inl ?_; rw [hv1, if_neg h]
  by_cases hy0 : y < im.h - 1
  · rw [show (setPx im x y v1).h = im.h from rfl, if_pos hy0,
      check_eq hx hy hx (by omega) (by omega) (by omega), Option.bind_some]
    set v2 := min v1 (im.px x (y + 1) + 1) with hv2
    have p2 : v2 ≤ im.px x (y + 1) + 1 := by omega
    have p12 : v2 ≤ v1 := by omega
    have q2 : ViaBwd linf im x y v2 := by
      by_cases h' : v1 ≤ im.px x (y + 1) + 1
      · rw [show v2 = v1 by omega]; exact q1
      · exact Or.inr ⟨x, y + 1, hx, by omega, by omega, hd2, by omega⟩
    cases linf with
    | false =>
      exact ⟨v2, by simp, by omega, q2, fun h => le_trans p12 (p1 h), fun _ => p2, by simp,
        by simp⟩
    | true =>
      rw [if_pos rfl, show (setPx im x y v2).w = im.w from rfl,
        checkIf_eq hx hy (by omega) (by omega), Option.bind_some]
      set v3 := (if x < im.w - 1 then min v2 (im.px (x + 1) (y + 1) + 1) else v2) with hv3
      have p23 : v3 ≤ v2 := by rw [hv3]; split <;> omega
      have p3 : x < im.w - 1 → v3 ≤ im.px (x + 1) (y + 1) + 1 := by
        intro h; rw [hv3, if_pos h]; omega
      have q3 : ViaBwd true im x y v3 := by
        by_cases h : x < im.w - 1
        · by_cases h' : v2 ≤ im.px (x + 1) (y + 1) + 1
          · rw [show v3 = v2 by rw [hv3, if_pos h]; omega]; exact q2
          · refine Or.inr ?_
            refine ⟨x + 1, y + 1, by omega, by omega, by omega, ?_, by rw [hv3, if_pos h]; omega⟩
            simp [dist, distLInf, absDiff]
        · rw [show v3 = v2 by rw [hv3, if_neg h]]; exact q2
      rw [checkIf_eq hx hy (by omega) (by omega)]
      refine ⟨_, rfl, ?_⟩
      set v4 := (if 0 < x then min v3 (im.px (x - 1) (y + 1) + 1) else v3) with hv4
      have p34 : v4 ≤ v3 := by rw [hv4]; split <;> omega
      refine ⟨by omega, ?_, fun h => ?_, fun _ => by omega, fun _ h _ => ?_,
        fun _ h _ => ?_⟩
      · by_cases h : 0 < x
        · by_cases h' : v3 ≤ im.px (x - 1) (y + 1) + 1
          · rw [show v4 = v3 by rw [hv4, if_pos h]; omega]; exact q3
          · refine Or.inr ?_
            refine ⟨x - 1, y + 1, by omega, by omega, by omega, ?_, by rw [hv4, if_pos h]; omega⟩
            simp [dist, distLInf, absDiff]; omega
        · rw [show v4 = v3 by rw [hv4, if_neg h]]; exact q3
      · have := p1 h; omega
      · have := p3 (by omega); omega
      · rw [hv4, if_pos (by omega)]; omega
  · rw [show (setPx im x y v1).h = im.h from rfl, if_neg hy0]
    exact ⟨v1, rfl, hv1', q1, p1, by omega, by omega, by omega⟩

theorem dist_triangle (linf : Bool) (x y a b c e : Nat) :
    dist linf x y c e ≤ dist linf x y a b + dist linf a b c e := by
  cases linf <;> simp [dist, distL1, distLInf, absDiff] <;> omega

/-- What is known of the forward sweep. -/
structure Fwd (linf : Bool) (d : From) (im g : Image Nat) (M : Nat) : Prop where
  w : g.w = im.w
  h : g.h = im.h
  le : ∀ x y, x < im.w → y < im.h → g.px x y ≤ M
  src : ∀ x y, Src d im x y → g.px x y = 0
  lower : ∀ x y, x < im.w → y < im.h → g.px x y = M ∨
    ∃ a b, Src d im a b ∧ dist linf x y a b ≤ g.px x y
  left : ∀ x y, x + 1 < im.w → y < im.h → g.px (x + 1) y ≤ g.px x y + 1
  up : ∀ x y, x < im.w → y + 1 < im.h → g.px x (y + 1) ≤ g.px x y + 1
  ul : linf = true → ∀ x y, x + 1 < im.w → y + 1 < im.h → g.px (x + 1) (y + 1) ≤ g.px x y + 1
  ur : linf = true → ∀ x y, x + 1 < im.w → y + 1 < im.h → g.px x (y + 1) ≤ g.px (x + 1) y + 1

theorem dist_self (linf : Bool) (x y : Nat) : dist linf x y x y = 0 := by
  cases linf <;> simp [dist, distL1, distLInf, absDiff]

theorem fwd_spec (linf : Bool) (d : From) (im : Image Nat) {M : Nat} (hM : M ≤ 255) :
    ∃ g, forYX 0 im.h 0 im.w im (fwdBody linf d M) = some g ∧ Fwd linf d im g M := by
  obtain ⟨g, e, h⟩ := forYX_spec (f := fwdBody linf d M) (y0 := 0) (y1 := im.h) (x0 := 0)
    (x1 := im.w) (s := im)
    (fun x y g => g.w = im.w ∧ g.h = im.h ∧
      (∀ a b, a < im.w → b < im.h → ¬ (b < y ∨ b = y ∧ a < x) → g.px a b = im.px a b) ∧
      (∀ a b, a < im.w → b < im.h → (b < y ∨ b = y ∧ a < x) → g.px a b ≤ M ∧
        (Src d im a b → g.px a b = 0) ∧
        (g.px a b = M ∨ ∃ c e, Src d im c e ∧ dist linf a b c e ≤ g.px a b)) ∧
      (∀ a b, a + 1 < im.w → b < im.h → (b < y ∨ b = y ∧ a + 1 < x) →
        g.px (a + 1) b ≤ g.px a b + 1) ∧
      (∀ a b, a < im.w → b + 1 < im.h → (b + 1 < y ∨ b + 1 = y ∧ a < x) →
        g.px a (b + 1) ≤ g.px a b + 1) ∧
      (linf = true → ∀ a b, a + 1 < im.w → b + 1 < im.h → (b + 1 < y ∨ b + 1 = y ∧ a + 1 < x) →
        g.px (a + 1) (b + 1) ≤ g.px a b + 1) ∧
      (linf = true → ∀ a b, a + 1 < im.w → b + 1 < im.h → (b + 1 < y ∨ b + 1 = y ∧ a < x) →
        g.px a (b + 1) ≤ g.px (a + 1) b + 1))
    (Nat.zero_le _) (Nat.zero_le _)
    (by
      refine ⟨rfl, rfl, fun _ _ _ _ _ => rfl, ?_, ?_, ?_, ?_, ?_⟩ <;> intros <;> omega)
    (by
      rintro x y g _ hx _ hy ⟨h1, h2, h3, h4, h5, h6, h7, h8⟩
      obtain ⟨v, ev, v1, v2, v3, v4, v5, v6, v7⟩ := fwdBody_spec (linf := linf) (d := d)
        (maxD := M) (im := g) (x := x) (y := y) (by omega) (by omega) hM
      refine ⟨_, ev, h1, h2, ?_, ?_, ?_, ?_, ?_, ?_⟩
      · intro a b ha hb hab
        simp only [setPx]; rw [if_neg (by omega)]; exact h3 a b ha hb (by omega)
      · intro a b ha hb hab
        simp only [setPx]
        by_cases hxy : a = x ∧ b = y
        · rw [if_pos hxy]
          obtain ⟨rfl, rfl⟩ := hxy
          rw [h3 a b ha hb (by omega), isSource_iff ha hb] at v2 v3
          refine ⟨v1, v2, ?_⟩
          rcases v3 with h | h | ⟨c, e, hc, he, hce, hd, hv⟩
          · exact Or.inl h
          · exact Or.inr ⟨a, b, h, by rw [dist_self]; omega⟩
          · rcases (h4 c e (by omega) (by omega) hce).2.2 with h | ⟨p, q, hp, hpq⟩
            · left; omega
            · right
              refine ⟨p, q, hp, ?_⟩
              have := dist_triangle linf a b c e p q
              omega
        · rw [if_neg hxy]; exact h4 a b ha hb (by omega)
      · intro a b ha hb hab
        simp only [setPx]
        rw [if_neg (show ¬ (a = x ∧ b = y) by omega)]
        by_cases hxy : a + 1 = x ∧ b = y
        · rw [if_pos hxy]
          have := v4 (by omega)
          rw [← hxy.1, ← hxy.2] at this; exact this
        · rw [if_neg hxy]; exact h5 a b ha hb (by omega)
      · intro a b ha hb hab
        simp only [setPx]
        rw [if_neg (show ¬ (a = x ∧ b = y) by omega)]
        by_cases hxy : a = x ∧ b + 1 = y
        · rw [if_pos hxy]
          have := v5 (by omega)
          rw [← hxy.1, ← hxy.2] at this; exact this
        · rw [if_neg hxy]; exact h6 a b ha hb (by omega)
      · intro hl a b ha hb hab
        simp only [setPx]
        rw [if_neg (show ¬ (a = x ∧ b = y) by omega)]
        by_cases hxy : a + 1 = x ∧ b + 1 = y
        · rw [if_pos hxy]
          have := v6 hl (by omega) (by omega)
          rw [← hxy.1, ← hxy.2] at this; exact this
        · rw [if_neg hxy]; exact h7 hl a b ha hb (by omega)
      · intro hl a b ha hb hab
        simp only [setPx]
        rw [if_neg (show ¬ (a + 1 = x ∧ b = y) by omega)]
        by_cases hxy : a = x ∧ b + 1 = y
        · rw [if_pos hxy]
          have := v7 hl (by omega) (by omega)
          rw [← hxy.1, ← hxy.2] at this; exact this
        · rw [if_neg hxy]; exact h8 hl a b ha hb (by omega))
    (by
      rintro y g _ hy ⟨h1, h2, h3, h4, h5, h6, h7, h8⟩
      refine ⟨h1, h2, fun a b ha hb hab => h3 a b ha hb (by omega),
        fun a b ha hb hab => h4 a b ha hb (by omega),
        fun a b ha hb hab => h5 a b ha hb (by omega),
        fun a b ha hb hab => h6 a b ha hb (by omega),
        fun hl a b ha hb hab => h7 hl a b ha hb (by omega),
        fun hl a b ha hb hab => h8 hl a b ha hb (by omega)⟩)
  obtain ⟨h1, h2, h3, h4, h5, h6, h7, h8⟩ := h
  exact ⟨g, e, h1, h2, fun x y hx hy => (h4 x y hx hy (by omega)).1,
    fun x y hs => (h4 x y hs.1 hs.2.1 (by have := hs.2.1; omega)).2.1 hs,
    fun x y hx hy => (h4 x y hx hy (by omega)).2.2,
    fun a b ha hb => h5 a b ha hb (by omega),
    fun a b ha hb => h6 a b ha hb (by omega),
    fun hl a b ha hb => h7 hl a b ha hb (by omega),
    fun hl a b ha hb => h8 hl a b ha hb (by omega)⟩

/-- What is known of the backward sweep. -/
structure Bwd (linf : Bool) (d : From) (im g r : Image Nat) (M : Nat) : Prop where
  w : r.w = im.w
  h : r.h = im.h
  le : ∀ x y, x < im.w → y < im.h → r.px x y ≤ g.px x y
  lower : ∀ x y, x < im.w → y < im.h → r.px x y = M ∨
    ∃ a b, Src d im a b ∧ dist linf x y a b ≤ r.px x y
  right : ∀ x y, x + 1 < im.w → y < im.h → r.px x y ≤ r.px (x + 1) y + 1
  down : ∀ x y, x < im.w → y + 1 < im.h → r.px x y ≤ r.px x (y + 1) + 1
  dr : linf = true → ∀ x y, x + 1 < im.w → y + 1 < im.h → r.px x y ≤ r.px (x + 1) (y + 1) + 1
  dl : linf = true → ∀ x y, x + 1 < im.w → y + 1 < im.h → r.px (x + 1) y ≤ r.px x (y + 1) + 1

theorem bwd_spec {linf : Bool} {d : From} {im g : Image Nat} {M : Nat} (hM : M ≤ 255)
    (hg : Fwd linf d im g M) :
    ∃ r, (forYX 0 g.h 0 g.w g fun i j r => bwdBody linf (g.w - 1 - i) (g.h - 1 - j) r) = some r ∧
      Bwd linf d im g r M := by
  rw [hg.w, hg.h]
  obtain ⟨r, e, h⟩ := forYX_spec
    (f := fun i j r => bwdBody linf (im.w - 1 - i) (im.h - 1 - j) r) (y0 := 0) (y1 := im.h)
    (x0 := 0) (x1 := im.w) (s := g)
    (fun i j r => r.w = im.w ∧ r.h = im.h ∧
      (∀ a b, a < im.w → b < im.h → r.px a b ≤ g.px a b) ∧
      (∀ a b, a < im.w → b < im.h →
        (r.px a b = M ∨ ∃ c e, Src d im c e ∧ dist linf a b c e ≤ r.px a b)) ∧
      (∀ a b, a + 1 < im.w → b < im.h → (im.h ≤ b + j ∨ b + j + 1 = im.h ∧ im.w ≤ a + i) →
        r.px a b ≤ r.px (a + 1) b + 1) ∧
      (∀ a b, a < im.w → b + 1 < im.h → (im.h ≤ b + j ∨ b + j + 1 = im.h ∧ im.w ≤ a + i) →
        r.px a b ≤ r.px a (b + 1) + 1) ∧
      (linf = true → ∀ a b, a + 1 < im.w → b + 1 < im.h →
        (im.h ≤ b + j ∨ b + j + 1 = im.h ∧ im.w ≤ a + i) →
        r.px a b ≤ r.px (a + 1) (b + 1) + 1) ∧
      (linf = true → ∀ a b, a + 1 < im.w → b + 1 < im.h →
        (im.h ≤ b + j ∨ b + j + 1 = im.h ∧ im.w ≤ a + 1 + i) →
        r.px (a + 1) b ≤ r.px a (b + 1) + 1))
    (Nat.zero_le _) (Nat.zero_le _)
    (by
      refine ⟨hg.w, hg.h, fun _ _ _ _ => le_refl _, hg.lower, ?_, ?_, ?_, ?_⟩ <;> intros <;> omega)
    (by
      rintro i j r _ hi _ hj ⟨h1, h2, h3, h4, h5, h6, h7, h8⟩
      obtain ⟨x, hx⟩ : ∃ x, x = im.w - 1 - i := ⟨_, rfl⟩
      obtain ⟨y, hy⟩ : ∃ y, y = im.h - 1 - j := ⟨_, rfl⟩
      rw [← hx, ← hy]
      obtain ⟨v, ev, v1, v3, v4, v5, v6, v7⟩ := bwdBody_spec (linf := linf)
        (im := r) (x := x) (y := y) (by omega) (by omega) (by
          have := h3 x y (by omega) (by omega); have := hg.le x y (by omega) (by omega); omega)
      refine ⟨_, ev, h1, h2, ?_, ?_, ?_, ?_, ?_, ?_⟩
      · intro a b ha hb
        simp only [setPx]
        by_cases hxy : a = x ∧ b = y
        · rw [if_pos hxy, hxy.1, hxy.2]
          exact le_trans v1 (h3 x y (by omega) (by omega))
        · rw [if_neg hxy]; exact h3 a b ha hb
      · intro a b ha hb
        simp only [setPx]
        by_cases hxy : a = x ∧ b = y
        · rw [if_pos hxy]
          obtain ⟨rfl, rfl⟩ := hxy
          rcases v3 with h | ⟨c, e, hc, he, hce, hd, hv⟩
          · rw [h]; exact h4 a b ha hb
          · rcases h4 c e (by omega) (by omega) with h | ⟨p, q, hp, hpq⟩
            · left
              have := h3 a b ha hb
              have := hg.le a b ha hb
              omega
            · right
              refine ⟨p, q, hp, ?_⟩
              have := dist_triangle linf a b c e p q
              omega
        · rw [if_neg hxy]; exact h4 a b ha hb
      · intro a b ha hb hab
        simp only [setPx]
        rw [if_neg (show ¬ (a + 1 = x ∧ b = y) by omega)]
        by_cases hxy : a = x ∧ b = y
        · rw [if_pos hxy]
          have := v4 (by omega)
          rw [← hxy.1, ← hxy.2] at this; exact this
        · rw [if_neg hxy]; exact h5 a b ha hb (by omega)
      · intro a b ha hb hab
        simp only [setPx]
        rw [if_neg (show ¬ (a = x ∧ b + 1 = y) by omega)]
        by_cases hxy : a = x ∧ b = y
        · rw [if_pos hxy]
          have := v5 (by omega)
          rw [← hxy.1, ← hxy.2] at this; exact this
        · rw [if_neg hxy]; exact h6 a b ha hb (by omega)
      · intro hl a b ha hb hab
        simp only [setPx]
        rw [if_neg (show ¬ (a + 1 = x ∧ b + 1 = y) by omega)]
        by_cases hxy : a = x ∧ b = y
        · rw [if_pos hxy]
          have := v6 hl (by omega) (by omega)
          rw [← hxy.1, ← hxy.2] at this; exact this
        · rw [if_neg hxy]; exact h7 hl a b ha hb (by omega)
      · intro hl a b ha hb hab
        simp only [setPx]
        rw [if_neg (show ¬ (a = x ∧ b + 1 = y) by omega)]
        by_cases hxy : a + 1 = x ∧ b = y
        · rw [if_pos hxy]
          have := v7 hl (by omega) (by omega)
          rw [← hxy.1, ← hxy.2] at this; exact this
        · rw [if_neg hxy]; exact h8 hl a b ha hb (by omega))
    (by
      rintro j r _ hj ⟨h1, h2, h3, h4, h5, h6, h7, h8⟩
      refine ⟨h1, h2, h3, h4,
        fun a b ha hb hab => h5 a b ha hb (by omega),
        fun a b ha hb hab => h6 a b ha hb (by omega),
        fun hl a b ha hb hab => h7 hl a b ha hb (by omega),
        fun hl a b ha hb hab => h8 hl a b ha hb (by omega)⟩)
  obtain ⟨h1, h2, h3, h4, h5, h6, h7, h8⟩ := h
  exact ⟨r, e, h1, h2, h3, h4,
    fun a b ha hb => h5 a b ha hb (by omega),
    fun a b ha hb => h6 a b ha hb (by omega),
    fun hl a b ha hb => h7 hl a b ha hb (by omega),
    fun hl a b ha hb => h8 hl a b ha hb (by omega)⟩

/-! ### Propagation along straight runs -/

section runs
variable {linf : Bool} {d : From} {im g r : Image Nat} {M : Nat}

theorem Fwd.runRight (hg : Fwd linf d im g M) (k x y : Nat) (hx : x + k < im.w) (hy : y < im.h) :
    g.px (x + k) y ≤ g.px x y + k := by
  induction k with
  | zero => simp
  | succ k ih => rw [← Nat.add_assoc]; have := hg.left (x + k) y (by omega) hy; have := ih (by omega); omega

theorem Fwd.runDown (hg : Fwd linf d im g M) (k x y : Nat) (hx : x < im.w) (hy : y + k < im.h) :
    g.px x (y + k) ≤ g.px x y + k := by
  induction k with
  | zero => simp
  | succ k ih => rw [← Nat.add_assoc]; have := hg.up x (y + k) hx (by omega); have := ih (by omega); omega

theorem Fwd.runDR (hg : Fwd linf d im g M) (hl : linf = true) (k x y : Nat) (hx : x + k < im.w)
    (hy : y + k < im.h) : g.px (x + k) (y + k) ≤ g.px x y + k := by
  induction k with
  | zero => simp
  | succ k ih =>
    rw [← Nat.add_assoc, ← Nat.add_assoc]
    have := hg.ul hl (x + k) (y + k) (by omega) (by omega); have := ih (by omega) (by omega); omega

theorem Fwd.runDL (hg : Fwd linf d im g M) (hl : linf = true) (k x y : Nat) (hx : x + k < im.w)
    (hy : y + k < im.h) : g.px x (y + k) ≤ g.px (x + k) y + k := by
  induction k generalizing y with
  | zero => simp
  | succ k ih =>
    have h1 := hg.ur hl (x + k) y (by omega) (by omega)
    have h2 := ih (y + 1) (by omega) (by omega)
    rw [show y + (k + 1) = y + 1 + k by omega, show x + (k + 1) = x + k + 1 by omega]
    omega

theorem Bwd.runLeft (hr : Bwd linf d im g r M) (k x y : Nat) (hx : x + k < im.w) (hy : y < im.h) :
    r.px x y ≤ r.px (x + k) y + k := by
  induction k with
  | zero => simp
  | succ k ih => rw [← Nat.add_assoc x]; have := hr.right (x + k) y (by omega) hy; have := ih (by omega); omega

theorem Bwd.runUp (hr : Bwd linf d im g r M) (k x y : Nat) (hx : x < im.w) (hy : y + k < im.h) :
    r.px x y ≤ r.px x (y + k) + k := by
  induction k with
  | zero => simp
  | succ k ih => rw [← Nat.add_assoc y]; have := hr.down x (y + k) hx (by omega); have := ih (by omega); omega

theorem Bwd.runUL (hr : Bwd linf d im g r M) (hl : linf = true) (k x y : Nat) (hx : x + k < im.w)
    (hy : y + k < im.h) : r.px x y ≤ r.px (x + k) (y + k) + k := by
  induction k with
  | zero => simp
  | succ k ih =>
    rw [← Nat.add_assoc x, ← Nat.add_assoc y]
    have := hr.dr hl (x + k) (y + k) (by omega) (by omega); have := ih (by omega) (by omega); omega

theorem Bwd.runUR (hr : Bwd linf d im g r M) (hl : linf = true) (k x y : Nat) (hx : x + k < im.w)
    (hy : y + k < im.h) : r.px (x + k) y ≤ r.px x (y + k) + k := by
  induction k generalizing y with
  | zero => simp
  | succ k ih =>
    have h1 := hr.dl hl (x + k) y (by omega) (by omega)
    have h2 := ih (y + 1) (by omega) (by omega)
    rw [show y + (k + 1) = y + 1 + k by omega, show x + (k + 1) = x + k + 1 by omega]
    omega

/-- Every source pixel bounds every output value. -/
theorem upper (hg : Fwd linf d im g M) (hr : Bwd linf d im g r M) {x y a b : Nat}
    (hx : x < im.w) (hy : y < im.h) (hs : Src d im a b) : r.px x y ≤ dist linf x y a b := by
  obtain ⟨ha, hb, -⟩ := id hs
  have h0 := hg.src a b hs
  cases linf with
  | false =>
    simp only [dist, distL1, absDiff, if_neg Bool.false_ne_true]
    rcases Nat.le_total a x with h1 | h1 <;> rcases Nat.le_total b y with h2 | h2
    · obtain ⟨i, rfl⟩ := Nat.exists_eq_add_of_le h1
      obtain ⟨j, rfl⟩ := Nat.exists_eq_add_of_le h2
      have := hg.runRight i a b hx hb
      have := hg.runDown j (a + i) b hx hy
      have := hr.le (a + i) (b + j) hx hy
      omega
    · obtain ⟨i, rfl⟩ := Nat.exists_eq_add_of_le h1
      obtain ⟨j, rfl⟩ := Nat.exists_eq_add_of_le h2
      have := hg.runRight i a (y + j) hx hb
      have := hr.le (a + i) (y + j) hx hb
      have := hr.runUp j (a + i) y hx hb
      omega
    · obtain ⟨i, rfl⟩ := Nat.exists_eq_add_of_le h1
      obtain ⟨j, rfl⟩ := Nat.exists_eq_add_of_le h2
      have := hg.runDown j (x + i) b ha hy
      have := hr.le (x + i) (b + j) ha hy
      have := hr.runLeft i x (b + j) ha hy
      omega
    · obtain ⟨i, rfl⟩ := Nat.exists_eq_add_of_le h1
      obtain ⟨j, rfl⟩ := Nat.exists_eq_add_of_le h2
      have := hr.le (x + i) (y + j) ha hb
      have := hr.runUp j (x + i) y ha hb
      have := hr.runLeft i x y ha hy
      omega
  | true =>
    simp only [dist, distLInf, absDiff, if_true]
    rcases Nat.le_total a x with h1 | h1 <;> rcases Nat.le_total b y with h2 | h2
    · obtain ⟨i, rfl⟩ := Nat.exists_eq_add_of_le h1
      obtain ⟨j, rfl⟩ := Nat.exists_eq_add_of_le h2
      have h3 := hr.le (a + i) (b + j) hx hy
      rcases Nat.le_total i j with h | h
      · obtain ⟨k, rfl⟩ := Nat.exists_eq_add_of_le h
        have := hg.runDR rfl i a b hx (by omega)
        have := hg.runDown k (a + i) (b + i) hx (by omega)
        rw [show b + i + k = b + (i + k) by omega] at this
        omega
      · obtain ⟨k, rfl⟩ := Nat.exists_eq_add_of_le h
        have := hg.runDR rfl j a b (by omega) (by omega)
        have := hg.runRight k (a + j) (b + j) (by omega) (by omega)
        rw [show a + j + k = a + (j + k) by omega] at this
        omega
    · obtain ⟨i, rfl⟩ := Nat.exists_eq_add_of_le h1
      obtain ⟨j, rfl⟩ := Nat.exists_eq_add_of_le h2
      rcases Nat.le_total i j with h | h
      · obtain ⟨k, rfl⟩ := Nat.exists_eq_add_of_le h
        have := hr.le a (y + (i + k)) (by omega) hb
        have := hr.runUp k a (y + i) (by omega) (by omega)
        rw [show y + i + k = y + (i + k) by omega] at this
        have := hr.runUR rfl i a y hx (by omega)
        omega
      · obtain ⟨k, rfl⟩ := Nat.exists_eq_add_of_le h
        have := hg.runRight k a (y + j) (by omega) hb
        have := hr.le (a + k) (y + j) (by omega) hb
        have := hr.runUR rfl j (a + k) y (by omega) hb
        rw [show a + k + j = a + (j + k) by omega] at this
        omega
    · obtain ⟨i, rfl⟩ := Nat.exists_eq_add_of_le h1
      obtain ⟨j, rfl⟩ := Nat.exists_eq_add_of_le h2
      rcases Nat.le_total i j with h | h
      · obtain ⟨k, rfl⟩ := Nat.exists_eq_add_of_le h
        have := hg.runDL rfl i x b ha (by omega)
        have := hg.runDown k x (b + i) hx (by omega)
        rw [show b + i + k = b + (i + k) by omega] at this
        have := hr.le x (b + (i + k)) hx hy
        omega
      · obtain ⟨k, rfl⟩ := Nat.exists_eq_add_of_le h
        have := hg.runDL rfl j (x + k) b (by omega) hy
        rw [show x + k + j = x + (j + k) by omega] at this
        have := hr.le (x + k) (b + j) (by omega) hy
        have := hr.runLeft k x (b + j) (by omega) hy
        omega
    · obtain ⟨i, rfl⟩ := Nat.exists_eq_add_of_le h1
      obtain ⟨j, rfl⟩ := Nat.exists_eq_add_of_le h2
      have h3 := hr.le (x + i) (y + j) ha hb
      rcases Nat.le_total i j with h | h
      · obtain ⟨k, rfl⟩ := Nat.exists_eq_add_of_le h
        have := hr.runUL rfl i x y ha (by omega)
        have := hr.runUp k (x + i) (y + i) ha (by omega)
        rw [show y + i + k = y + (i + k) by omega] at this
        omega
      · obtain ⟨k, rfl⟩ := Nat.exists_eq_add_of_le h
        have := hr.runUL rfl j x y (by omega) hb
        have := hr.runLeft k (x + j) (y + j) (by omega) hb
        rw [show x + j + k = x + (j + k) by omega] at this
        omega

end runs

theorem maxDistance_eq (im : Image Nat) : maxDistance im = min (im.w + im.h) 255 := by
  unfold maxDistance; omega

theorem dist_lt {linf : Bool} {im : Image Nat} {x y a b : Nat} (hx : x < im.w) (hy : y < im.h)
    (ha : a < im.w) (hb : b < im.h) : dist linf x y a b < im.w + im.h := by
  cases linf <;> simp [dist, distL1, distLInf, absDiff] <;> omega

/-- Complete description of the two sweeps: totality, exact saturated distances when there is a
source pixel, and the constant `min(w + h, 255)` when there is none. -/
theorem sweeps_spec (linf : Bool) (d : From) (im : Image Nat) :
    ∃ r, sweeps linf d im = some r ∧ r.w = im.w ∧ r.h = im.h ∧
      ((∃ a b, Src d im a b) → ∀ x y, x < im.w → y < im.h →
        ∃ v, LeastDist linf d im x y v ∧ r.px x y = min 255 v) ∧
      ((¬ ∃ a b, Src d im a b) → ∀ x y, x < im.w → y < im.h →
        r.px x y = min (im.w + im.h) 255) := by
  unfold sweeps
  have hM : maxDistance im ≤ 255 := by rw [maxDistance_eq]; omega
  obtain ⟨g, eg, hg⟩ := fwd_spec linf d im hM
  obtain ⟨r, er, hr⟩ := bwd_spec hM hg
  rw [eg, Option.bind_some, er]
  refine ⟨r, rfl, hr.w, hr.h, ?_, ?_⟩
  · rintro ⟨a, b, hab⟩ x y hx hy
    have hex : ∃ v, ∃ a b, Src d im a b ∧ dist linf x y a b = v := ⟨_, a, b, hab, rfl⟩
    classical
    refine ⟨Nat.find hex, ⟨Nat.find_spec hex, ?_⟩, ?_⟩
    · intro a b hab
      exact Nat.find_min' hex ⟨a, b, hab, rfl⟩
    · obtain ⟨a, b, hs, hd⟩ := Nat.find_spec hex
      have hlt := dist_lt (linf := linf) hx hy hs.1 hs.2.1
      have h1 := upper hg hr hx hy hs
      have h2 := hr.le x y hx hy
      have h3 := hg.le x y hx hy
      rw [maxDistance_eq] at h3
      rcases hr.lower x y hx hy with h | ⟨p, q, hp, hpq⟩
      · rw [maxDistance_eq] at h; omega
      · have := Nat.find_min' hex ⟨p, q, hp, rfl⟩
        omega
  · intro hno x y hx hy
    rcases hr.lower x y hx hy with h | ⟨a, b, hs, -⟩
    · rw [h, maxDistance_eq]
    · exact absurd ⟨a, b, hs⟩ hno

/-- `distance_transform` with norm L1 or LInf (src/distance_transform.rs:91-99, 107-111). -/
def distanceTransform (linf : Bool) (im : Image Nat) : Option (Image Nat) :=
  sweeps linf .foreground im

/-- C31: with a foreground pixel present, every output is `min 255` of the least distance to a
foreground pixel. -/
theorem C31_exact (linf : Bool) (im : Image Nat)
    (hfg : ∃ a b, a < im.w ∧ b < im.h ∧ im.px a b ≠ 0) :
    ∃ r, distanceTransform linf im = some r ∧ r.w = im.w ∧ r.h = im.h ∧
      ∀ x y, x < im.w → y < im.h →
        (∃ a b, (a < im.w ∧ b < im.h ∧ im.px a b ≠ 0) ∧
          r.px x y = min 255 (if linf then distLInf x y a b else distL1 x y a b)) ∧
        ∀ a b, a < im.w → b < im.h → im.px a b ≠ 0 →
          r.px x y ≤ if linf then distLInf x y a b else distL1 x y a b := by
  obtain ⟨r, e, h1, h2, h3, -⟩ := sweeps_spec linf .foreground im
  refine ⟨r, e, h1, h2, ?_⟩
  intro x y hx hy
  obtain ⟨v, ⟨⟨a, b, hs, hd⟩, hmin⟩, hv⟩ := h3 hfg x y hx hy
  refine ⟨⟨a, b, hs, ?_⟩, ?_⟩
  · rw [hv, ← hd]; rfl
  · intro a b ha hb hab
    have := hmin a b ⟨ha, hb, hab⟩
    rw [hv]; exact le_trans (Nat.min_le_right _ _) this

/-- C31: foreground pixels, and only they, get 0. -/
theorem C31_zero_iff (linf : Bool) (im : Image Nat) :
    ∃ r, distanceTransform linf im = some r ∧
      ∀ x y, x < im.w → y < im.h → (r.px x y = 0 ↔ im.px x y ≠ 0) := by
  obtain ⟨r, e, h1, h2, h3, h4⟩ := sweeps_spec linf .foreground im
  refine ⟨r, e, ?_⟩
  intro x y hx hy
  by_cases hfg : ∃ a b, Src .foreground im a b
  · obtain ⟨v, ⟨⟨a, b, hs, hd⟩, hmin⟩, hv⟩ := h3 hfg x y hx hy
    constructor
    · intro h
      have hz : dist linf x y a b = 0 := by omega
      have : x = a ∧ y = b := by
        cases linf <;> simp [dist, distL1, distLInf, absDiff] at hz <;> omega
      rw [this.1, this.2]; exact hs.2.2
    · intro h
      have := hmin x y ⟨hx, hy, h⟩
      rw [dist_self] at this; omega
  · rw [h4 hfg x y hx hy]
    constructor
    · intro h; omega
    · intro h; exact absurd ⟨x, y, hx, hy, h⟩ hfg

/-- C31 (outside the documented case): without any foreground pixel every output is
`min(w + h, 255)`. -/
theorem C31_no_foreground (linf : Bool) (im : Image Nat)
    (h : ∀ x y, x < im.w → y < im.h → im.px x y = 0) :
    ∃ r, distanceTransform linf im = some r ∧ r.w = im.w ∧ r.h = im.h ∧
      ∀ x y, x < im.w → y < im.h → r.px x y = min (im.w + im.h) 255 := by
  obtain ⟨r, e, h1, h2, -, h4⟩ := sweeps_spec linf .foreground im
  exact ⟨r, e, h1, h2, h4 (by rintro ⟨a, b, ha, hb, hab⟩; exact hab (h a b ha hb))⟩

/-- The doc example shape: one foreground pixel off centre. -/
example : ((distanceTransform false (Image.ofRows 0 [[0, 0, 0, 0], [0, 0, 7, 0], [0, 0, 0, 0]])).map
    Image.rows) = some [[3, 2, 1, 2], [2, 1, 0, 1], [3, 2, 1, 2]] := by decide

example : ((distanceTransform true (Image.ofRows 0 [[0, 0, 0, 0], [0, 0, 7, 0], [0, 0, 0, 0]])).map
    Image.rows) = some [[2, 1, 1, 1], [2, 1, 0, 1], [2, 1, 1, 1]] := by decide

end Verif.Distance
