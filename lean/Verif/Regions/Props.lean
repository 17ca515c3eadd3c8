import Verif.Regions.Lemmas
/- Property theorems C04-C06 (connected components). -/
namespace Verif.Regions
open Verif.UnionFind
variable {α : Type _} [DecidableEq α]

/-- C04: the result has the size of the input, and two non-background pixels have equal
labels iff they are joined by a path of equal-coloured neighbours. -/
theorem C04_labels_iff_connected (im : Image α) (conn : Conn) (bg : α) (out : Image Nat)
    (e : connectedComponents im conn bg = some out) :
    out.w = im.w ∧ out.h = im.h ∧
    ∀ p q : Nat × Nat, im.InB p.1 p.2 → im.InB q.1 q.2 →
      im.px p.1 p.2 ≠ bg → im.px q.1 q.2 ≠ bg →
      (out.px p.1 p.2 = out.px q.1 q.2 ↔ Connected im conn p q) := by
  by_cases h0 : im.w = 0 ∨ im.h = 0
  · unfold connectedComponents at e
    split at e
    · cases e
    · cases e
      refine ⟨rfl, rfl, ?_⟩
      rintro ⟨a, b⟩ _ ⟨h1, h2⟩
      dsimp at h1 h2; omega
  · obtain ⟨s, R, rank, s2, h1, h2, rfl⟩ := cc_some e (by tauto) (by tauto)
    refine ⟨h2.ow, h2.oh, ?_⟩
    intro p q hp hq np nq
    have lp := h2.lab p.1 p.2 hp.1 (before_end hp.2) np
    have lq := h2.lab q.1 q.2 hq.1 (before_end hq.2) nq
    constructor
    · intro he
      rw [lp.2.1, lq.2.1] at he
      have hz : s2.labels (R (s.out.px p.1 p.2)) ≠ 0 := by
        have := lp.1; rw [lp.2.1] at this; omega
      exact h1.sound p.1 p.2 q.1 q.2 hp.1 hq.1 (before_end hp.2) (before_end hq.2) np nq
        lp.2.2 lq.2.2 (h2.inj _ _ hz he)
    · intro hc
      rw [lp.2.1, lq.2.1, (step_root h1 np hc).2]

-- C04/C05 non-vacuity: a U shape whose two arms get different provisional labels.
example : (connectedComponents (Image.ofRows 0 [[1, 0, 1], [1, 1, 1]]) .four 0).map Image.rows
    = some [[1, 0, 1], [1, 1, 1]] := by decide
example : (connectedComponents (Image.ofRows 0 [[1, 0, 2], [1, 2, 2]]) .four 0).map Image.rows
    = some [[1, 0, 2], [1, 2, 2]] := by decide
example : (connectedComponents (Image.ofRows 0 [[1, 0], [0, 1]]) .eight 0).map Image.rows
    = some [[1, 0], [0, 1]] := by decide

/-- C05: label 0 exactly on the background; and below (in raster order) every pixel with
label `k` there are pixels with each of the labels `1..k-1`, so the labels are exactly
`1..n` numbered by first appearance. -/
theorem C05_labels_raster_order (im : Image α) (conn : Conn) (bg : α) (out : Image Nat)
    (e : connectedComponents im conn bg = some out) :
    (∀ p : Nat × Nat, im.InB p.1 p.2 → (out.px p.1 p.2 = 0 ↔ im.px p.1 p.2 = bg)) ∧
    (∀ p : Nat × Nat, im.InB p.1 p.2 → ∀ j, 1 ≤ j → j < out.px p.1 p.2 →
      ∃ q : Nat × Nat, im.InB q.1 q.2 ∧ Before q p ∧ out.px q.1 q.2 = j) := by
  by_cases h0 : im.w = 0 ∨ im.h = 0
  · constructor <;>
    · rintro ⟨a, b⟩ ⟨h1, h2⟩
      dsimp at h1 h2; omega
  · obtain ⟨s, R, rank, s2, h1, h2, rfl⟩ := cc_some e (by tauto) (by tauto)
    constructor
    · intro p hp
      constructor
      · intro h; by_contra hn
        have := h2.lab p.1 p.2 hp.1 (before_end hp.2) hn
        omega
      · exact h2.bg0 _ _
    · intro p hp j hj hlt
      have hn : im.px p.1 p.2 ≠ bg := by
        intro h; rw [h2.bg0 _ _ h] at hlt; omega
      obtain ⟨a', b', h3, h4, h5, h6⟩ := h2.order p.1 p.2 hp.1 (before_end hp.2) hn j hj hlt
      refine ⟨(a', b'), ⟨h3, ?_⟩, h4, h6⟩
      have := hp.2
      simp only [Before] at h4
      show b' < im.h
      omega

/-- C06, exact failure condition: on an image with fewer than 2^32 pixels labelling fails iff
the image is non-empty, has no background pixel and no two neighbouring pixels of equal
colour (every pixel is its own region). -/
theorem C06_fails_iff (im : Image α) (conn : Conn) (bg : α) (hsz : im.w * im.h < 2 ^ 32) :
    connectedComponents im conn bg = none ↔
      (im.w ≠ 0 ∧ im.h ≠ 0 ∧ ∀ p : Nat × Nat, im.InB p.1 p.2 → im.px p.1 p.2 ≠ bg ∧
        ∀ q : Nat × Nat, im.InB q.1 q.2 → Neighbours conn p q →
          im.px p.1 p.2 ≠ im.px q.1 q.2) := by
  constructor
  · intro e
    unfold connectedComponents at e
    rw [if_neg (by omega)] at e
    split at e
    · cases e
    · next h0 =>
      refine ⟨by tauto, by tauto, ?_⟩
      obtain ⟨s, R, rank, e1, h1⟩ := pass1_spec im conn bg hsz
      rw [e1, Option.bind_some] at e
      have hex : ¬ ∀ a b, a < im.w → b < im.h → im.px a b ≠ bg → s.out.px a b < im.w * im.h := by
        intro hL
        obtain ⟨s2, e2, -⟩ := pass2_total h1 hL
        rw [e2] at e; cases e
      have hnext : s.next = im.h * im.w + 0 + 1 := by
        by_contra hc
        apply hex
        intro a b ha hb hn
        have l1 := h1.lab a b ha (before_end hb) hn
        have l2 := h1.next_le
        have : im.h * im.w = im.w * im.h := Nat.mul_comm _ _
        omega
      intro p hp
      obtain ⟨h3, h4⟩ := h1.full hnext p.1 p.2 hp.1 (before_end hp.2)
      exact ⟨h3, fun q hq hn => h4 q.1 q.2 hq.1 (before_end hq.2) hn⟩
  · rintro ⟨hw, hh, hf⟩
    cases e : connectedComponents im conn bg with
    | none => rfl
    | some out =>
      exfalso
      obtain ⟨s, R, rank, s2, h1, h2, -⟩ := cc_some e hw hh
      have hn := h1.full' (fun a b ha hb => ⟨(hf (a, b) ⟨ha, hb⟩).1, fun a' b' ha' hb' hn =>
        (hf (a, b) ⟨ha, hb⟩).2 (a', b') ⟨ha', hb'⟩ hn⟩)
      have hpos : 0 < im.h * im.w := Nat.mul_pos (by omega) (by omega)
      obtain ⟨a, b, h3, h4, h5, h6⟩ := h1.surj (im.h * im.w) hpos (by omega)
      have := (h2.lab a b h3 (h4) h5).2.2
      rw [h6, Nat.mul_comm] at this
      omega

/-- C06, positive part: labelling succeeds on every admissible image that has a background
pixel or two equal neighbouring pixels.  Missing from the full claim: images in which every
pixel is its own region, where the code panics (`C06_negation`). -/
theorem C06_total_partial (im : Image α) (conn : Conn) (bg : α) (hsz : im.w * im.h < 2 ^ 32)
    (h : (∃ p : Nat × Nat, im.InB p.1 p.2 ∧ im.px p.1 p.2 = bg) ∨
      ∃ p q : Nat × Nat, im.InB p.1 p.2 ∧ im.InB q.1 q.2 ∧ Neighbours conn p q ∧
        im.px p.1 p.2 = im.px q.1 q.2) :
    ∃ out, connectedComponents im conn bg = some out := by
  cases e : connectedComponents im conn bg with
  | some out => exact ⟨out, rfl⟩
  | none =>
    obtain ⟨-, -, hf⟩ := (C06_fails_iff im conn bg hsz).1 e
    rcases h with ⟨p, hp, he⟩ | ⟨p, q, hp, hq, hn, he⟩
    · exact absurd he (hf p hp).1
    · exact absurd he ((hf p hp).2 q hq hn)

/-- C06 is false of the code: a single foreground pixel makes labelling panic. -/
theorem C06_negation : ¬ ∀ (im : Image Nat) (conn : Conn) (bg : Nat), im.w * im.h < 2 ^ 32 →
    ∃ out, connectedComponents im conn bg = some out := by
  intro h
  obtain ⟨out, e⟩ := h (Image.ofRows 0 [[1]]) .four 0 (by decide)
  have := (C06_fails_iff (Image.ofRows 0 [[1]]) .four 0 (by decide)).2 (by
    refine ⟨by decide, by decide, ?_⟩
    rintro ⟨a, b⟩ ⟨ha, hb⟩
    have ha' : a < 1 := ha
    have hb' : b < 1 := hb
    obtain rfl : a = 0 := by omega
    obtain rfl : b = 0 := by omega
    refine ⟨by decide, ?_⟩
    rintro ⟨c, d⟩ ⟨hc, hd⟩ hn
    have hc' : c < 1 := hc
    have hd' : d < 1 := hd
    simp only [Neighbours, N4] at hn
    omega)
  rw [e] at this; cases this

example : (connectedComponents (Image.ofRows 0 [[1]]) .four 0).map Image.rows = none := by decide
example : (connectedComponents (Image.ofRows 0 [[1, 2], [2, 1]]) .four 0).map Image.rows = none :=
  by decide
example : (connectedComponents (Image.ofRows 0 [[1, 2], [2, 1]]) .eight 0).map Image.rows
    = some [[1, 2], [2, 1]] := by decide

end Verif.Regions
