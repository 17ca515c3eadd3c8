import Verif.Float.Canny
import Verif.Hough.Votes
import Verif.Suppress.Props
import Verif.Suppress.LocalMaxima
import Verif.Corners.Fast
import Verif.Brief.Match
import Verif.Regions.Props
/-
C186: stricter parameters never add results.
-/
namespace Verif.Relations

/-! ### Edges -/

section edges
open Verif.Edges Verif.Float Verif.Filter Verif.Gradients

/-- Raising the thresholds of the reachability rule. -/
theorem reach_mono {N : Nat × Nat → Nat × Nat → Prop} {A A' B B' : Nat × Nat → Prop}
    (hA : ∀ p, A' p → A p) (hB : ∀ p, B' p → B p) {p : Nat × Nat}
    (h : ∃ s, A' s ∧ Relation.ReflTransGen (fun p q => N p q ∧ B' q) s p) :
    ∃ s, A s ∧ Relation.ReflTransGen (fun p q => N p q ∧ B q) s p := by
  obtain ⟨s, h1, h2⟩ := h
  refine ⟨s, hA s h1, ?_⟩
  induction h2 with
  | refl => exact .refl
  | tail _ h ih => exact ih.tail ⟨h.1, hB _ h.2⟩

/-- **C186.** Raising either threshold of the edge detector only removes edge pixels, in exact
arithmetic and in single precision. -/
theorem C186_canny (im : Image (Unit → Nat)) (hu : IsU8 im) (hw : 0 < im.w) (hh : 0 < im.h) (lo hi lo' hi' : ℝ)
    (h0 : 0 < lo) (h1 : lo ≤ hi) (h1' : lo' ≤ hi') (hl : lo ≤ lo') (hhi : hi ≤ hi') :
    (∃ out out', cannyImage im lo hi = some out ∧ cannyImage im lo' hi' = some out' ∧
      ∀ a b, a < im.w → b < im.h → out'.px a b = 255 → out.px a b = 255) ∧
    ∀ {expf : ℝ → ℝ} (_ : GoodExp expf) {atan2 hypot : ℝ → ℝ → ℝ} (_ : ExactAtan2 atan2) (_ : ExactHypot hypot),
      ∃ out out', cannyImage32 expf atan2 hypot im lo hi = some out ∧
        cannyImage32 expf atan2 hypot im lo' hi' = some out' ∧
        ∀ a b, a < im.w → b < im.h → out'.px a b = 255 → out.px a b = 255 := by
  have hE : ∀ (b : Image (Unit → Nat)) {v v' : ℝ}, v ≤ v' → ∀ p, Edge b v' p → Edge b v p := by
    intro b v v' h p hp
    unfold Edge at hp ⊢
    obtain ⟨a1, a2, a3, a4, a5, a6⟩ := hp
    exact ⟨a1, a2, a3, a4, le_trans h a5, a6⟩
  constructor
  · obtain ⟨b, o, e1, -, -, -, e2, -, -, e3⟩ := C115_canny im hu hw hh lo hi h0 h1
    obtain ⟨b', o', e1', -, -, -, e2', -, -, e3'⟩ := C115_canny im hu hw hh lo' hi' (lt_of_lt_of_le h0 hl) h1'
    obtain rfl : b = b' := Option.some.inj (e1 ▸ e1')
    refine ⟨o, o', e2, e2', fun x y hx hy h => (e3 x y hx hy).2.2 ?_⟩
    exact reach_mono (hE b hhi) (hE b hl) ((e3' x y hx hy).2.1 h)
  · intro expf he atan2 hypot ha hhy
    obtain ⟨b, o, e1, -, -, -, e2, -, -, e3⟩ := C136_canny he ha hhy im hu hw hh lo hi h0 h1
    obtain ⟨b', o', e1', -, -, -, e2', -, -, e3'⟩ := C136_canny he ha hhy im hu hw hh lo' hi' (lt_of_lt_of_le h0 hl) h1'
    obtain rfl : b = b' := Option.some.inj (e1 ▸ e1')
    refine ⟨o, o', e2, e2', fun x y hx hy h => (e3 x y hx hy).2.2 ?_⟩
    exact reach_mono (fun _ h => ⟨h.1, le_trans hhi h.2⟩) (fun _ h => ⟨h.1, le_trans hl h.2⟩)
      ((e3' x y hx hy).2.1 h)

end edges

/-! ### Lines -/

/-- **C186.** Asking for more votes or suppressing in a larger neighbourhood only removes lines (any
rounding of the distances, hence also in single precision). -/
theorem C186_lines {K : Type _} [Field K] [LinearOrder K] [IsStrictOrderedRing K] (toI : K → Int) (lut : Nat → K × K) (im : Image Nat)
    (hs : im.w * im.w + im.h * im.h < 2 ^ 32) {t t' r r' : Nat} (h0 : 0 < t) (ht : t ≤ t') (hr : r ≤ r') :
    ∃ l l', Hough.detectLines toI lut im t r = some l ∧ Hough.detectLines toI lut im t' r' = some l' ∧
      ∀ p ∈ l', p ∈ l := by
  obtain ⟨l, e, h, -⟩ := Hough.C58_lines toI lut im t r hs h0
  obtain ⟨l', e', h', -⟩ := Hough.C58_lines toI lut im t' r' hs (by omega)
  refine ⟨l, l', e, e', fun p hp => ?_⟩
  obtain ⟨a, b, c, d⟩ := (h' p.1 p.2).1 hp
  exact (h p.1 p.2).2 ⟨a, b, le_trans ht c, fun ρ m hm hρ n1 n2 => d ρ m hm hρ (le_trans n1 hr) (le_trans n2 hr)⟩

/-! ### Maxima -/

section maxima
open Verif.Suppress
variable {α : Type _} [LinearOrder α]

theorem windowMax_mono {im : Image α} {r r' x y : Nat} (hr : r ≤ r') (h : WindowMax im r' x y) : WindowMax im r x y :=
  fun a b ha hb h1 h2 h3 h4 => h a b ha hb (by omega) (by omega) (by omega) (by omega)

/-- **C186.** Non-maximum suppression: a larger radius keeps fewer pixels, and suppressing again with
the same or a smaller radius changes nothing (if no value is below the one written for suppressed
pixels). -/
theorem C186_suppress (im : Image α) (zero : α) {r r' : Nat} (hr : r ≤ r') :
    ∃ out out', suppressNonMaximum im zero r = some out ∧ suppressNonMaximum im zero r' = some out' ∧
      (∀ x y, x < im.w → y < im.h → out'.px x y = out.px x y ∨ out'.px x y = zero) ∧
      ((∀ x y, x < im.w → y < im.h → zero ≤ im.px x y) →
        ∃ again, suppressNonMaximum out' zero r = some again ∧
          ∀ x y, x < im.w → y < im.h → again.px x y = out'.px x y) := by
  obtain ⟨out, e, -, -, h⟩ := C29_suppress_non_maximum im zero r
  obtain ⟨out', e', w', h', p'⟩ := C29_suppress_non_maximum im zero r'
  refine ⟨out, out', e, e', fun x y hx hy => ?_, fun hz => ?_⟩
  · rw [h x y hx hy, p' x y hx hy]
    by_cases hm : WindowMax im r' x y
    · rw [if_pos hm, if_pos (windowMax_mono hr hm)]; exact Or.inl rfl
    · rw [if_neg hm]; exact Or.inr rfl
  · obtain ⟨again, e2, -, -, p2⟩ := C29_suppress_non_maximum out' zero r
    refine ⟨again, e2, fun x y hx hy => ?_⟩
    rw [p2 x y (w' ▸ hx) (h' ▸ hy)]
    by_cases hm : WindowMax out' r x y
    · rw [if_pos hm]
    · rw [if_neg hm]
      by_contra hne
      have hp := p' x y hx hy
      by_cases hk : WindowMax im r' x y
      · rw [if_pos hk] at hp
        refine hm fun a b ha hb n1 n2 n3 n4 hbeat => ?_
        rw [w'] at ha
        rw [h'] at hb
        have hpos : zero < im.px x y := lt_of_le_of_ne (hz x y hx hy) (fun h => hne (h.trans hp.symm))
        have hno := hk a b ha hb (by omega) (by omega) (by omega) (by omega)
        have hq := p' a b ha hb
        unfold Beats at hbeat hno
        rw [hp, hq] at hbeat
        by_cases hk' : WindowMax im r' a b
        · rw [if_pos hk'] at hbeat
          exact hno hbeat
        · rw [if_neg hk'] at hbeat
          rcases hbeat with hb1 | ⟨hb1, -⟩
          · exact absurd hb1 (not_lt.2 hpos.le)
          · exact absurd hb1 hpos.ne
      · rw [if_neg hk] at hp
        exact hne hp.symm

/-- **C186.** Local maxima of a list of points: a larger radius keeps fewer points, in the same order. -/
theorem C186_local_maxima (ts : List (Pt α)) {r r' : Nat} (hr : r ≤ r') :
    ∃ l l', localMaxima ts r = some l ∧ localMaxima ts r' = some l' ∧ l'.Sublist l := by
  refine ⟨_, _, C30_local_maxima_exact ts r, C30_local_maxima_exact ts r', ?_⟩
  refine List.monotone_filter_right _ fun t => ?_
  simp only [decide_eq_true_eq]
  intro h c hc hy hn
  refine h c hc hy ?_
  unfold Near at hn ⊢
  omega

end maxima

/-! ### Corners -/

/-- **C186.** FAST corners at a higher threshold are the corners of the lower threshold whose score
reaches it, with the same scores. -/
theorem C186_corners (v : Corners.Fast) (im : Image Nat) (hw : im.w < 2 ^ 32) (hh : im.h < 2 ^ 32) {t t' : Nat}
    (ht : t ≤ t') (h8 : t' ≤ 255) :
    ∃ l l', Corners.corners v im t = some l ∧ Corners.corners v im t' = some l' ∧
      ∀ c, c ∈ l' ↔ c ∈ l ∧ t' ≤ c.2.2 := by
  obtain ⟨l, e, h, -⟩ := Corners.C65_list v im hw hh (t := t) (by omega)
  obtain ⟨l', e', h', -⟩ := Corners.C65_list v im hw hh (t := t') h8
  refine ⟨l, l', e, e', ?_⟩
  rintro ⟨x, y, s⟩
  rw [h, h']
  dsimp only
  obtain ⟨s1, f1, g1, b1, k1, -⟩ := Corners.C66_score v im hw hh (t := t) (by omega) x y
  obtain ⟨s2, f2, g2, b2, k2, -⟩ := Corners.C66_score v im hw hh (t := t') h8 x y
  rw [f1, f2]
  constructor
  · rintro ⟨hd, hs⟩
    obtain rfl : s2 = s := Option.some.inj hs
    have hd' := Corners.C66_monotone v im ht hd
    obtain ⟨m1, m2⟩ := k1 hd'
    obtain ⟨m3, m4⟩ := k2 hd
    have := m2 s2 b2 m3
    have := m4 s1 b1 m1
    exact ⟨⟨hd', by rw [show s1 = s2 by omega]⟩, g2⟩
  · rintro ⟨⟨hd, hs⟩, hle⟩
    obtain rfl : s1 = s := Option.some.inj hs
    obtain ⟨m1, m2⟩ := k1 hd
    have hd' := Corners.C66_monotone v im hle m1
    obtain ⟨m3, m4⟩ := k2 hd'
    have := m2 s2 b2 m3
    have := m4 s1 b1 m1
    exact ⟨hd', by rw [show s1 = s2 by omega]⟩

/-! ### Descriptor matching -/

theorem forList_sublist {T β : Type _} {f f' : T → List β → Option (List β)}
    (hf : ∀ q (o o' r : List β), o.Sublist o' → f' q o' = some r → ∃ r0, f q o = some r0 ∧ r0.Sublist r)
    (qs : List T) (o o' r : List β) (ho : o.Sublist o') (h : forList qs o' f' = some r) :
    ∃ r0, forList qs o f = some r0 ∧ r0.Sublist r := by
  induction qs generalizing o o' with
  | nil => exact ⟨o, rfl, by cases h; exact ho⟩
  | cons q qs ih =>
    unfold forList at h ⊢
    cases h1 : f' q o' with
    | none => rw [h1] at h; simp at h
    | some m =>
      obtain ⟨m0, e0, s0⟩ := hf q o o' m ho h1
      rw [h1] at h
      rw [e0]
      exact ih m0 m s0 h

/-- **C186.** With the same random choices, lowering the distance threshold only drops matches: the
remaining pairs are the same and in the same order. -/
theorem C186_matches {T : Type _} (subset : T → List Nat → Option Nat) (dist : T → T → Option Nat) (maxScore : Nat)
    (choices : List (List Nat)) (d1 d2 : List T) {t t' : Nat} (ht : t ≤ t') (r : List (T × T))
    (h : Brief.matchDescriptors subset dist maxScore choices d1 d2 t' = some r) :
    ∃ r0, Brief.matchDescriptors subset dist maxScore choices d1 d2 t = some r0 ∧ r0.Sublist r := by
  unfold Brief.matchDescriptors at h ⊢
  split at h
  · rename_i he
    rw [if_pos he]
    exact ⟨[], rfl, List.nil_sublist _⟩
  · rename_i he
    rw [if_neg he]
    dsimp only at h ⊢
    obtain ⟨tables, e1, h⟩ := Option.bind_eq_some_iff.1 h
    rw [e1, Option.bind_some]
    refine forList_sublist (fun q o o' r ho hr => ?_) _ [] [] r (List.Sublist.refl _) h
    obtain ⟨cs, c1, hr⟩ := Option.bind_eq_some_iff.1 hr
    obtain ⟨b, b1, hr⟩ := Option.bind_eq_some_iff.1 hr
    rw [c1, Option.bind_some, b1, Option.bind_some]
    by_cases hb : b.1 < t
    · rw [if_pos (by omega)] at hr
      obtain ⟨c, hc, hr⟩ := Option.bind_eq_some_iff.1 hr
      rw [if_pos hb, hc, Option.bind_some]
      cases hr
      exact ⟨_, rfl, ho.append_right _⟩
    · rw [if_neg hb]
      refine ⟨o, rfl, ?_⟩
      by_cases hb' : b.1 < t'
      · rw [if_pos hb'] at hr
        obtain ⟨c, hc, hr⟩ := Option.bind_eq_some_iff.1 hr
        cases hr
        exact ho.trans (List.sublist_append_left _ _)
      · rw [if_neg hb'] at hr
        cases hr
        exact ho

/-! ### Connected components -/

section components
open Verif.Regions
variable {α : Type _} [DecidableEq α]

omit [DecidableEq α] in
theorem connected_four_eight {im : Image α} {p q : Nat × Nat} (h : Connected im .four p q) : Connected im .eight p q := by
  have hst : ∀ a b, Step im .four a b → Step im .eight a b := by
    intro a b hab
    obtain ⟨h1, h2, h3, h4⟩ := hab
    refine ⟨h1, h2, ?_, h4⟩
    have h5 : ((a.1 : Int) - b.1).natAbs + ((a.2 : Int) - b.2).natAbs = 1 := h3
    show a ≠ b ∧ ((a.1 : Int) - b.1).natAbs ≤ 1 ∧ ((a.2 : Int) - b.2).natAbs ≤ 1
    refine ⟨?_, by omega, by omega⟩
    rintro rfl
    omega
  unfold Connected at *
  induction h with
  | refl => exact .refl
  | tail _ h ih => exact ih.tail (hst _ _ h)

/-- **C186.** Allowing diagonal steps only merges components: pixels with equal labels without
diagonals have equal labels with diagonals, and no pixel gets a greater label, so there are no more
components. -/
theorem C186_components (im : Image α) (bg : α) (o4 o8 : Image Nat)
    (e4 : connectedComponents im .four bg = some o4) (e8 : connectedComponents im .eight bg = some o8) :
    (∀ p q : Nat × Nat, im.InB p.1 p.2 → im.InB q.1 q.2 → o4.px p.1 p.2 = o4.px q.1 q.2 →
      o8.px p.1 p.2 = o8.px q.1 q.2) ∧
    ∀ p : Nat × Nat, im.InB p.1 p.2 → o8.px p.1 p.2 ≤ o4.px p.1 p.2 := by
  obtain ⟨-, -, c4⟩ := C04_labels_iff_connected im .four bg o4 e4
  obtain ⟨-, -, c8⟩ := C04_labels_iff_connected im .eight bg o8 e8
  obtain ⟨z4, r4⟩ := C05_labels_raster_order im .four bg o4 e4
  obtain ⟨z8, r8⟩ := C05_labels_raster_order im .eight bg o8 e8
  have merge : ∀ p q : Nat × Nat, im.InB p.1 p.2 → im.InB q.1 q.2 → o4.px p.1 p.2 = o4.px q.1 q.2 →
      o8.px p.1 p.2 = o8.px q.1 q.2 := by
    intro p q hp hq h
    by_cases hb : im.px p.1 p.2 = bg
    · have h1 := (z4 p hp).2 hb
      have h2 := (z4 q hq).1 (by omega)
      rw [(z8 p hp).2 hb, (z8 q hq).2 h2]
    · have hb' : im.px q.1 q.2 ≠ bg := fun h' => hb ((z4 p hp).1 (by rw [h]; exact (z4 q hq).2 h'))
      exact (c8 p q hp hq hb hb').2 (connected_four_eight ((c4 p q hp hq hb hb').1 h))
  refine ⟨merge, ?_⟩
  have main : ∀ n, ∀ p : Nat × Nat, im.InB p.1 p.2 → p.2 * im.w + p.1 = n → o8.px p.1 p.2 ≤ o4.px p.1 p.2 := by
    intro n
    induction n using Nat.strong_induction_on with
    | _ n ih =>
    intro p hp hn
    by_cases hf : ∃ q : Nat × Nat, im.InB q.1 q.2 ∧ Before q p ∧ o4.px q.1 q.2 = o4.px p.1 p.2
    · obtain ⟨q, hq, hb, he⟩ := hf
      rw [← he, ← merge q p hq hp he]
      refine ih (q.2 * im.w + q.1) ?_ q hq rfl
      rw [← hn]
      rcases hb with h | ⟨h1, h2⟩
      · have := Nat.mul_le_mul_right im.w (show q.2 + 1 ≤ p.2 by omega)
        rw [Nat.add_mul] at this
        have := hq.1
        omega
      · rw [h1]; omega
    · have hlt : ∀ q : Nat × Nat, im.InB q.1 q.2 → Before q p → o4.px q.1 q.2 < o4.px p.1 p.2 ∨ o4.px p.1 p.2 = 0 := by
        intro q hq hb
        by_contra hc
        have hne : o4.px q.1 q.2 ≠ o4.px p.1 p.2 := fun h => hf ⟨q, hq, hb, h⟩
        obtain ⟨q', h1, h2, h3⟩ := r4 q hq (o4.px p.1 p.2) (by omega) (by omega)
        refine hf ⟨q', h1, ?_, h3⟩
        unfold Before at *
        omega
      by_cases h0 : o4.px p.1 p.2 = 0
      · have := (z8 p hp).2 ((z4 p hp).1 h0)
        omega
      · -- the labels 1, ..., k - 1 with diagonals come from different labels without
        have hex : ∀ j, ∃ q : Nat × Nat, 1 ≤ j → j < o8.px p.1 p.2 →
            im.InB q.1 q.2 ∧ Before q p ∧ o8.px q.1 q.2 = j := by
          intro j
          by_cases h : 1 ≤ j ∧ j < o8.px p.1 p.2
          · obtain ⟨q, hq⟩ := r8 p hp j h.1 h.2
            exact ⟨q, fun _ _ => hq⟩
          · exact ⟨(0, 0), fun h1 h2 => absurd ⟨h1, h2⟩ h⟩
        choose f hfs using hex
        have hcard := Finset.card_le_card_of_injOn (s := Finset.Ico 1 (o8.px p.1 p.2))
          (t := Finset.Ico 1 (o4.px p.1 p.2)) (fun j => o4.px (f j).1 (f j).2)
          (by
            intro j hj
            rw [Finset.mem_coe, Finset.mem_Ico] at hj
            obtain ⟨h1, h2, h3⟩ := hfs j hj.1 hj.2
            have hpos : o4.px (f j).1 (f j).2 ≠ 0 := by
              intro hz
              have := (z8 _ h1).2 ((z4 _ h1).1 hz)
              omega
            rcases hlt _ h1 h2 with h | h
            · exact Finset.mem_coe.2 (Finset.mem_Ico.2 ⟨Nat.pos_of_ne_zero hpos, h⟩)
            · exact absurd h h0)
          (by
            intro i hi j hj hij
            rw [Finset.mem_coe, Finset.mem_Ico] at hi hj
            obtain ⟨h1, -, h3⟩ := hfs i hi.1 hi.2
            obtain ⟨g1, -, g3⟩ := hfs j hj.1 hj.2
            have := merge _ _ h1 g1 hij
            omega)
        rw [Nat.card_Ico, Nat.card_Ico] at hcard
        omega
  exact fun p hp => main _ p hp rfl

/-- Non-trivial instance: two objects touching diagonally, and one apart. -/
example : (connectedComponents (Image.ofRows 0 [[1, 0, 0, 1], [0, 1, 0, 0]]) .four 0).map Image.rows =
      some [[1, 0, 0, 2], [0, 3, 0, 0]] ∧
    (connectedComponents (Image.ofRows 0 [[1, 0, 0, 1], [0, 1, 0, 0]]) .eight 0).map Image.rows =
      some [[1, 0, 0, 2], [0, 1, 0, 0]] := by decide

end components

/-- Non-trivial instance: suppression with radius 1 and 2. -/
example : (Suppress.suppressNonMaximum (Image.ofRows 0 [[1, 3, 0, 2, 1]]) 0 1).map Image.rows = some [[0, 3, 0, 2, 0]] ∧
    (Suppress.suppressNonMaximum (Image.ofRows 0 [[1, 3, 0, 2, 1]]) 0 2).map Image.rows = some [[0, 3, 0, 0, 0]] := by
  decide +kernel

end Verif.Relations
