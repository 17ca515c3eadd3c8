import Verif.Float.Simplify
import Verif.Regions.Props
import Verif.Suppress.Props
import Verif.Contrast.Model
import Verif.Drawing.FillProps
/-
Property theorems C192: applying an operation to its own result.
-/
namespace Verif.Relations
open Verif.Geometry Verif.Float

/-! ### Simplification of curves -/

theorem first_unique {β : Type _} (f : β → ℝ) {pre pre' post post' : List β} {r r' : β}
    (h : pre ++ r :: post = pre' ++ r' :: post') (he : f r = f r')
    (h1 : ∀ p ∈ pre, f p < f r) (h2 : ∀ p ∈ pre', f p < f r') : pre = pre' ∧ r = r' ∧ post = post' := by
  rcases List.append_eq_append_iff.1 h with ⟨l, e1, e2⟩ | ⟨l, e1, e2⟩
  · cases l with
    | nil => simp at e1 e2; exact ⟨e1.symm, e2.1, e2.2⟩
    | cons c l =>
      simp only [List.cons_append, List.cons.injEq] at e2
      obtain ⟨rfl, -⟩ := e2
      exact absurd (h2 r (by rw [e1]; simp)) (by rw [he]; exact lt_irrefl _)
  · cases l with
    | nil => simp at e1 e2; exact ⟨e1, e2.1.symm, e2.2.symm⟩
    | cons c l =>
      simp only [List.cons_append, List.cons.injEq] at e2
      obtain ⟨rfl, -⟩ := e2
      exact absurd (h1 r' (by rw [e1]; simp)) (by rw [he]; exact lt_irrefl _)

theorem simplifyBy_again {d : ℝ × ℝ → ℝ × ℝ → ℝ × ℝ → ℝ} {P : ℝ × ℝ → Prop} {eps : ℝ} (he : 0 < eps)
    (hend : ∀ p q, P p → P q → d p q q ≤ 0) : ∀ (n : Nat) (a b : ℝ × ℝ) (mid : List (ℝ × ℝ)), mid.length ≤ n →
    (∀ p ∈ a :: (mid ++ [b]), P p) → ∃ mid', mid'.Sublist mid ∧
      simplifyBy d eps (mid.length + 3) (a :: (mid ++ [b])) = some (a :: (mid' ++ [b])) ∧
      simplifyBy d eps (mid'.length + 3) (a :: (mid' ++ [b])) = some (a :: (mid' ++ [b])) := by
  intro n
  induction n with
  | zero =>
    intro a b mid hn hP
    obtain rfl : mid = [] := List.length_eq_zero_iff.1 (by omega)
    rcases simplifyBy_kept he hend a b [] hP with ⟨-, h⟩ | ⟨pre, r, post, _, _, h, -⟩
    · exact ⟨[], List.Sublist.refl _, by simpa using h, by simpa using h⟩
    · simp at h
  | succ n ih =>
    intro a b mid hn hP
    rcases simplifyBy_kept he hend a b mid hP with ⟨-, h⟩ | ⟨pre, r, post, o1, o2, h1, h2, h3, h4, h5, h6, h7⟩
    · rcases simplifyBy_kept he hend a b [] (fun p hp => hP p (by simp at hp ⊢; tauto)) with
        ⟨-, h'⟩ | ⟨pre, r, post, _, _, h', -⟩
      · exact ⟨[], List.nil_sublist _, by simpa using h, by simpa using h'⟩
      · simp at h'
    subst h1
    have hPp : ∀ p ∈ a :: (pre ++ [r]), P p := fun p hp => hP p (by simp at hp ⊢; tauto)
    have hPq : ∀ p ∈ r :: (post ++ [b]), P p := fun p hp => hP p (by simp at hp ⊢; tauto)
    obtain ⟨m1, s1, g1, k1⟩ := ih a r pre (by simp at hn; omega) hPp
    obtain ⟨m2, s2, g2, k2⟩ := ih r b post (by simp at hn; omega) hPq
    obtain rfl : a :: m1 = o1 := by
      rw [g1] at h5
      have := Option.some.inj h5
      rw [← List.cons_append] at this
      exact List.append_cancel_right this
    obtain rfl : m2 ++ [b] = o2 := by
      rw [g2] at h6
      simpa using h6
    refine ⟨m1 ++ r :: m2, List.Sublist.append s1 (s2.cons_cons r), by rw [h7]; simp, ?_⟩
    have hP' : ∀ p ∈ a :: ((m1 ++ r :: m2) ++ [b]), P p := by
      intro p hp
      refine hP p ?_
      simp only [List.mem_cons, List.mem_append, List.not_mem_nil, or_false] at hp ⊢
      rcases hp with h | ((h | h | h) | h)
      · exact Or.inl h
      · exact Or.inr (Or.inl (Or.inl (s1.subset h)))
      · exact Or.inr (Or.inl (Or.inr (Or.inl h)))
      · exact Or.inr (Or.inl (Or.inr (Or.inr (s2.subset h))))
      · exact Or.inr (Or.inr h)
    rcases simplifyBy_kept he hend a b (m1 ++ r :: m2) hP' with
      ⟨h, -⟩ | ⟨pre', r', post', o1', o2', e1, e2, e3, e4, e5, e6, e7⟩
    · exact absurd (h r (by simp)) (not_le.2 h2)
    have hr' : r' ∈ pre ++ r :: post := by
      have : r' ∈ m1 ++ r :: m2 := by rw [e1]; simp
      exact (List.Sublist.append s1 (s2.cons_cons r)).subset this
    have hd : d a b r = d a b r' := le_antisymm (e3 r (by simp)) (h3 r' hr')
    obtain ⟨rfl, rfl, rfl⟩ := first_unique (d a b) e1 hd (fun p hp => h4 p (s1.subset hp)) e4
    rw [k1] at e5
    rw [k2] at e6
    rw [e7]
    have q1 : a :: m1 = o1' := by
      have := Option.some.inj e5
      rw [← List.cons_append] at this
      exact List.append_cancel_right this
    have q2 : m2 ++ [b] = o2' := by simpa using e6
    rw [← q1, ← q2]
    simp

theorem ends_split {β : Type _} (c : List β) (h : 2 ≤ c.length) : ∃ a mid b, c = a :: (mid ++ [b]) := by
  match c, h with
  | a :: l, h =>
    rcases List.eq_nil_or_concat l with h' | ⟨m, c, h'⟩
    · subst h'; simp at h
    · exact ⟨a, m, c, by rw [h']; simp⟩

theorem farthest_eq (p q : ℝ × ℝ) : ∀ (l : List (ℝ × ℝ)) (i : Nat) (s : Nat × ℝ),
    farthest p q l i s = farthestBy (lineDistSq p q) l i s
  | [], _, _ => rfl
  | r :: l, i, s => by
    rw [farthest, farthestBy, farthest_eq p q l, farthest_eq p q l]

theorem simplifyOpen_eq {eps : ℝ} (he : 0 < eps) : ∀ (n : Nat) (c : List (ℝ × ℝ)),
    simplifyOpen eps n c = simplifyBy lineDistSq (eps ^ 2) n c
  | 0, _ => rfl
  | n + 1, c => by
    rw [simplifyOpen, simplifyBy, if_neg (not_le.2 he), if_neg (not_le.2 (by positivity))]
    simp only [farthest_eq, simplifyOpen_eq he n]

/-- **C192.** Simplifying a simplified open curve with the same tolerance changes nothing, for all curves, in
exact arithmetic. -/
theorem C192_simplify {eps : ℝ} (he : 0 < eps) (curve out : List (ℝ × ℝ))
    (h : approximatePolygon curve eps false = some out) : approximatePolygon out eps false = some out := by
  have hopen : ∀ c, approximatePolygon c eps false = simplifyBy lineDistSq (eps ^ 2) (c.length + 1) c := by
    intro c
    unfold approximatePolygon
    rw [simplifyOpen_eq he]
    cases simplifyBy lineDistSq (eps ^ 2) (c.length + 1) c <;> rfl
  have he2 : 0 < eps ^ 2 := by positivity
  have hend : ∀ p q : ℝ × ℝ, True → True → lineDistSq p q q ≤ 0 := fun p q _ _ => (lineDistSq_end p q).le
  by_cases hl : 2 ≤ curve.length
  · obtain ⟨a, mid, b, rfl⟩ := ends_split curve hl
    obtain ⟨mid', -, h1, h2⟩ := simplifyBy_again (P := fun _ => True) he2 hend _ a b mid (le_refl _)
      (fun _ _ => trivial)
    rw [hopen] at h ⊢
    have e : (a :: (mid ++ [b])).length + 1 = mid.length + 3 := by simp
    rw [e, h1] at h
    cases h
    have e : (a :: (mid' ++ [b])).length + 1 = mid'.length + 3 := by simp
    rw [e, h2]
  · match curve, hl with
    | [], _ =>
      rw [hopen, simplifyBy, if_neg (not_le.2 he2)] at h
      simp [csub] at h
    | [p], _ =>
      rw [C56_single p he] at h
      cases h
      obtain ⟨mid', s, h1, h2⟩ := simplifyBy_again (P := fun _ => True) he2 hend _ p p [] (le_refl _)
        (fun _ _ => trivial)
      obtain rfl : mid' = [] := List.sublist_nil.1 s
      rw [hopen]
      simpa using h1
    | a :: b :: l, hl => simp at hl

/-- **C192.** The same in `f64` for integer coordinates of absolute value at most `2^25`. -/
theorem C192_simplify64_partial {eps : ℝ} (he : 0 < eps) (curve : List (ℝ × ℝ)) (hl : 2 ≤ curve.length)
    (hc : ∀ p ∈ curve, SmallInt p) : ∃ out, approximatePolygon64 (curve.length + 1) curve eps false = some out ∧
      approximatePolygon64 (out.length + 1) out eps false = some out := by
  have hopen : ∀ n c, approximatePolygon64 n c eps false = simplifyBy lineDist64 eps n c := by
    intro n c
    unfold approximatePolygon64
    cases simplifyBy lineDist64 eps n c <;> rfl
  obtain ⟨a, mid, b, rfl⟩ := ends_split curve hl
  obtain ⟨mid', -, h1, h2⟩ := simplifyBy_again (d := lineDist64) (P := SmallInt) he
    (fun p q hp hq => (lineDist64_end hp hq).le) _ a b mid (le_refl _) hc
  refine ⟨a :: (mid' ++ [b]), ?_, ?_⟩
  · rw [hopen]; simpa using h1
  · rw [hopen]; simpa using h2

/-- **C192, negation** for closed curves: every application removes the last corner of what is left; an
outline that ends next to its first corner becomes a quadrilateral, a triangle, a segment and a point. -/
theorem C192_negation_closed :
    approximatePolygon [((0 : ℚ), 0), (8, 1), (9, 9), (1, 7), (0, 1)] 1 true = some [(0, 0), (8, 1), (9, 9), (1, 7)] ∧
    approximatePolygon [((0 : ℚ), 0), (8, 1), (9, 9), (1, 7)] 1 true = some [(0, 0), (8, 1), (9, 9)] ∧
    approximatePolygon [((0 : ℚ), 0), (8, 1), (9, 9)] 1 true = some [(0, 0), (8, 1)] ∧
    approximatePolygon [((0 : ℚ), 0), (8, 1)] 1 true = some [(0, 0)] := by
  decide +kernel

example : approximatePolygon [((0 : ℚ), 0), (1, 1/2), (2, 5), (3, 0), (4, 0)] 1 false =
      some [(0, 0), (2, 5), (4, 0)] ∧
    approximatePolygon [((0 : ℚ), 0), (2, 5), (4, 0)] 1 false = some [(0, 0), (2, 5), (4, 0)] := by
  decide +kernel

/-! ### Connected components -/

section Components
open Verif.Regions
variable {α : Type _} [DecidableEq α]

theorem labels_path {im : Image Nat} {conn : Conn} {p q : Nat × Nat} (h : Connected im conn p q) :
    im.px p.1 p.2 = im.px q.1 q.2 := by
  induction h with
  | refl => rfl
  | tail _ h2 ih => exact ih.trans h2.2.2.2

theorem size_of_some {im : Image α} {conn : Conn} {bg : α} {out : Image Nat}
    (e : connectedComponents im conn bg = some out) : im.w * im.h < 2 ^ 32 := by
  unfold connectedComponents at e
  by_contra hc
  rw [if_pos (by omega)] at e
  cases e

/-- **C192.** Labelling a label image with background 0 returns the same labels. -/
theorem C192_components (im : Image α) (conn : Conn) (bg : α) (out : Image Nat)
    (e : connectedComponents im conn bg = some out) :
    ∃ out', connectedComponents out conn 0 = some out' ∧ out'.w = out.w ∧ out'.h = out.h ∧
      ∀ x y, out.InB x y → out'.px x y = out.px x y := by
  obtain ⟨hw, hh, hc⟩ := C04_labels_iff_connected im conn bg out e
  obtain ⟨hz, hr⟩ := C05_labels_raster_order im conn bg out e
  have hB : ∀ {x y}, out.InB x y → im.InB x y := by
    rintro x y ⟨h1, h2⟩
    exact ⟨by omega, by omega⟩
  have hB' : ∀ {x y}, im.InB x y → out.InB x y := by
    rintro x y ⟨h1, h2⟩
    exact ⟨by omega, by omega⟩
  have hstep : ∀ p q : Nat × Nat, im.InB p.1 p.2 → im.InB q.1 q.2 → Neighbours conn p q →
      im.px p.1 p.2 = im.px q.1 q.2 → out.px p.1 p.2 = out.px q.1 q.2 := by
    intro p q hp hq hn hpq
    by_cases hb : im.px p.1 p.2 = bg
    · rw [(hz p hp).2 hb, (hz q hq).2 (hpq ▸ hb)]
    · exact (hc p q hp hq hb (by rw [← hpq]; exact hb)).2 (Relation.ReflTransGen.single ⟨hp, hq, hn, hpq⟩)
  have hsz : out.w * out.h < 2 ^ 32 := by rw [hw, hh]; exact size_of_some e
  cases e' : connectedComponents out conn 0 with
  | none =>
    obtain ⟨h1, h2, h3⟩ := (C06_fails_iff out conn 0 hsz).1 e'
    have := (C06_fails_iff im conn bg (size_of_some e)).2
      ⟨by omega, by omega, fun p hp => ⟨fun hb => (h3 p (hB' hp)).1 ((hz p hp).2 hb),
        fun q hq hn hpq => (h3 p (hB' hp)).2 q (hB' hq) hn (hstep p q hp hq hn hpq)⟩⟩
    rw [this] at e
    cases e
  | some out' =>
    obtain ⟨hw', hh', hc'⟩ := C04_labels_iff_connected out conn 0 out' e'
    obtain ⟨hz', hr'⟩ := C05_labels_raster_order out conn 0 out' e'
    refine ⟨out', rfl, hw', hh', ?_⟩
    have hconn : ∀ p q : Nat × Nat, Connected im conn p q → Connected out conn p q := by
      intro p q h
      induction h with
      | refl => exact Relation.ReflTransGen.refl
      | tail _ h2 ih =>
        exact ih.tail ⟨hB' h2.1, hB' h2.2.1, h2.2.2.1, hstep _ _ h2.1 h2.2.1 h2.2.2.1 h2.2.2.2⟩
    have heq : ∀ p q : Nat × Nat, out.InB p.1 p.2 → out.InB q.1 q.2 → out.px p.1 p.2 ≠ 0 →
        out.px q.1 q.2 ≠ 0 → (out'.px p.1 p.2 = out'.px q.1 q.2 ↔ out.px p.1 p.2 = out.px q.1 q.2) := by
      intro p q hp hq h1 h2
      rw [hc' p q hp hq h1 h2]
      refine ⟨labels_path, fun h => hconn p q ?_⟩
      exact (hc p q (hB hp) (hB hq) (fun hb => h1 ((hz p (hB hp)).2 hb))
        (fun hb => h2 ((hz q (hB hq)).2 hb))).1 h
    have main : ∀ n (p : Nat × Nat), p.2 * out.w + p.1 < n → out.InB p.1 p.2 →
        out'.px p.1 p.2 = out.px p.1 p.2 := by
      intro n
      induction n with
      | zero => intro p h; omega
      | succ n ih =>
        intro p hn hp
        have hlt : ∀ q : Nat × Nat, out.InB q.1 q.2 → Before q p → q.2 * out.w + q.1 < n := by
          rintro ⟨q1, q2⟩ ⟨hq1, hq2⟩ hb
          obtain ⟨p1, p2⟩ := p
          unfold Before at hb
          dsimp only at *
          rcases hb with hb | ⟨hb, hb'⟩
          · have : (q2 + 1) * out.w ≤ p2 * out.w := Nat.mul_le_mul_right _ hb
            rw [Nat.add_mul] at this
            omega
          · subst hb; omega
        by_cases h0 : out.px p.1 p.2 = 0
        · rw [h0, (hz' p hp).2 h0]
        have h0' : out'.px p.1 p.2 ≠ 0 := fun h => h0 ((hz' p hp).1 h)
        rcases lt_trichotomy (out'.px p.1 p.2) (out.px p.1 p.2) with h | h | h
        · obtain ⟨q, hq, hb, hv⟩ := hr p (hB hp) (out'.px p.1 p.2) (by omega) h
          have hi := ih q (hlt q (hB' hq) hb) (hB' hq)
          have := (heq p q hp (hB' hq) h0 (by rw [hv]; exact h0')).1 (by rw [hi, hv])
          omega
        · exact h
        · obtain ⟨q, hq, hb, hv⟩ := hr' p hp (out.px p.1 p.2) (by omega) h
          have hi := ih q (hlt q hq hb) hq
          have hq0 : out.px q.1 q.2 = out.px p.1 p.2 := hi.symm.trans hv
          have := (heq p q hp hq h0 (by rw [hq0]; exact h0)).2 hq0.symm
          omega
    intro x y hxy
    exact main _ (x, y) (Nat.lt_succ_self _) hxy

example : (connectedComponents (Image.ofRows 0 [[7, 0, 3], [7, 3, 3], [0, 5, 0]]) .four 0).map Image.rows =
      some [[1, 0, 2], [1, 2, 2], [0, 3, 0]] ∧
    (connectedComponents (Image.ofRows 0 [[1, 0, 2], [1, 2, 2], [0, 3, 0]]) .four 0).map Image.rows =
      some [[1, 0, 2], [1, 2, 2], [0, 3, 0]] := by decide +kernel

end Components

/-! ### Suppression of non-maxima -/

section Suppression
open Verif.Suppress
variable {α : Type _} [LinearOrder α]

/-- **C192.** Suppressing non-maxima again with the same radius changes nothing, if no pixel is below zero. -/
theorem C192_suppress_partial (im out : Image α) (zero : α) (r : Nat) (h0 : ∀ x y, zero ≤ im.px x y)
    (e : suppressNonMaximum im zero r = some out) :
    ∃ out', suppressNonMaximum out zero r = some out' ∧ out'.w = out.w ∧ out'.h = out.h ∧
      ∀ x y, x < out.w → y < out.h → out'.px x y = out.px x y := by
  classical
  obtain ⟨o, e1, hw, hh, hp⟩ := C29_suppress_non_maximum im zero r
  rw [e] at e1
  cases e1
  obtain ⟨o', e2, hw', hh', hp'⟩ := C29_suppress_non_maximum out zero r
  refine ⟨o', e2, hw', hh', fun x y hx hy => ?_⟩
  rw [hp' x y hx hy]
  have hv := hp x y (by omega) (by omega)
  by_cases hm : WindowMax im r x y
  · rw [if_pos]
    rw [if_pos hm] at hv
    intro a b ha hb h1 h2 h3 h4 hbeat
    refine hm a b (by omega) (by omega) h1 h2 h3 h4 ?_
    have hle : out.px a b ≤ im.px a b := by
      rw [hp a b (by omega) (by omega)]
      split_ifs
      · exact le_refl _
      · exact h0 a b
    unfold Beats at hbeat ⊢
    rw [hv] at hbeat
    rcases hbeat with h | ⟨h, h'⟩
    · exact Or.inl (lt_of_lt_of_le h hle)
    · rw [h] at hle
      rcases lt_or_eq_of_le hle with h'' | h''
      · exact Or.inl h''
      · exact Or.inr ⟨h''.symm, h'⟩
  · rw [if_neg hm] at hv
    rw [hv, ite_self]

/-- **C192, negation** for signed images: suppressed pixels become 0 and beat the negative maximum next time. -/
theorem C192_negation_suppress :
    (suppressNonMaximum (Image.ofRows 0 [[-1, -2]] : Image Int) 0 1).map Image.rows = some [[-1, 0]] ∧
    (suppressNonMaximum (Image.ofRows 0 [[-1, 0]] : Image Int) 0 1).map Image.rows = some [[0, 0]] := by
  decide +kernel

example : (suppressNonMaximum (Image.ofRows 0 [[3, 1, 2], [3, 5, 2]]) 0 1).map Image.rows =
      some [[0, 0, 0], [0, 5, 0]] := by decide +kernel

end Suppression

/-! ### Thresholds -/

section Thresholds
open Verif.Contrast

/-- **C192.** Applying a threshold again changes nothing, for every type except the inverted binary one. -/
theorem C192_threshold (im : Image Nat) (t : Nat) (ty : ThresholdType) (h8 : ∀ x y, im.px x y ≤ 255)
    (hty : ty ≠ .binaryInverted) : threshold (threshold im t ty) t ty = threshold im t ty := by
  cases ty with
  | binaryInverted => exact absurd rfl hty
  | binary =>
    simp only [threshold, Image.mk.injEq, true_and]
    funext x y
    have := h8 x y
    by_cases hc : im.px x y > t
    · simp only [hc, if_true, show 255 > t by omega]
    · simp only [hc, if_false, show ¬ 0 > t by omega]
  | truncate =>
    simp only [threshold, Image.mk.injEq, true_and]
    funext x y
    split_ifs <;> omega
  | toZero =>
    simp only [threshold, Image.mk.injEq, true_and]
    funext x y
    split_ifs <;> omega
  | toZeroInverted =>
    simp only [threshold, Image.mk.injEq, true_and]
    funext x y
    split_ifs <;> omega

/-- **C192.** The inverted binary threshold applied twice is the binary threshold, unless the threshold is the
greatest level. -/
theorem C192_threshold_inverted (im : Image Nat) (t : Nat) (ht : t < 255) :
    threshold (threshold im t .binaryInverted) t .binaryInverted = threshold im t .binary := by
  simp only [threshold, Image.mk.injEq, true_and]
  funext x y
  by_cases hc : im.px x y > t
  · simp only [hc, if_true, show ¬ 0 > t by omega, if_false]
  · simp only [hc, if_false, show 255 > t by omega, if_true]

example : (threshold (Image.ofRows 0 [[3, 200, 255]]) 100 .binaryInverted).rows = [[255, 0, 0]] ∧
    (threshold (Image.ofRows 0 [[3, 200, 255]]) 100 .truncate).rows = [[3, 100, 100]] := by decide

end Thresholds

/-! ### Flood fill -/

/-- **C192, negation** for flood fill: filling a `2 × 2` image of one colour with another one works, the same call
on the result never returns. -/
theorem C192_negation_fill :
    (Verif.Drawing.floodFill 14 (⟨2, 2, fun _ _ => 7⟩ : Image Nat) 0 1 0).map Image.rows =
      some Verif.Drawing.uniform2.rows ∧ ∀ n, Verif.Drawing.floodFill n Verif.Drawing.uniform2 0 1 0 = none :=
  ⟨by decide +kernel, Verif.Drawing.C44_negation⟩

end Verif.Relations
