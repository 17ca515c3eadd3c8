import Verif.Utils.Diffs
/-
Model and properties of the image comparison helpers (src/utils.rs:335-445) (C112).  The text of the
messages is not modelled: `describe` stands for `describe_pixel_diffs`.
-/
namespace Verif.Utils
variable {α ι : Type _}

/-- `significant_pixel_diff_summary`, utils.rs:349-375; the outer `Option` is a panic. -/
def significantDiffSummary {τ : Type _} (dimsMsg : τ) (describe : List (Diff α) → τ)
    (actual expected : Image α) (isDiff : Nat × Nat × α → Nat × Nat × α → Bool) : Option (Option τ) :=
  if (actual.w, actual.h) ≠ (expected.w, expected.h) then some (some dimsMsg)
  else (pixelDiffs actual expected isDiff).bind fun diffs =>
    if diffs.isEmpty then some none else some (some (describe diffs))

/-- `pixel_diff_summary`, utils.rs:335-343. -/
def pixelDiffSummary {τ : Type _} [DecidableEq α] (dimsMsg : τ) (describe : List (Diff α) → τ)
    (actual expected : Image α) : Option (Option τ) :=
  significantDiffSummary dimsMsg describe actual expected fun p q => p ≠ q

/-- `assert_dimensions_match!`, utils.rs:431-445: `none` is the panic. -/
def assertDimensionsMatch (actual expected : Image α) : Option Unit :=
  if (actual.w, actual.h) ≠ (expected.w, expected.h) then none else some ()

/-- `assert_pixels_eq!`, utils.rs:378-387. -/
def assertPixelsEq [DecidableEq α] (actual expected : Image α) : Option Unit :=
  (assertDimensionsMatch actual expected).bind fun _ =>
  (pixelDiffSummary () (fun _ => ()) actual expected).bind fun r =>
    match r with
    | none => some ()
    | some _ => none

/-- utils.rs:394-418: the test of `assert_pixels_eq_within!` on two pixels given as lists of channels (equal types,
so equal lengths); `break` after the first large difference does not change the result. -/
def largeDiff (tol : Nat) : List Nat → List Nat → Bool
  | sp :: cp, sq :: cq =>
    let diff := if sp > sq then sp - sq else sq - sp
    if diff > tol then true else largeDiff tol cp cq
  | _, _ => false

/-- `assert_pixels_eq_within!`, utils.rs:391-428; pixels are lists of channels, different channel counts panic. -/
def assertPixelsEqWithin (tol : Nat) (actual expected : Image (List Nat)) : Option Unit :=
  (assertDimensionsMatch actual expected).bind fun _ =>
  if actual.w = 0 ∨ actual.h = 0 ∨
      ∀ x < actual.w, ∀ y < actual.h, (actual.px x y).length = (expected.px x y).length then
    (pixelDiffs actual expected fun p q => largeDiff tol p.2.2 q.2.2).bind fun diffs =>
      if diffs.isEmpty then some () else none
  else none

theorem isEmpty_iff_forall {l : List (Diff α)} {P : Nat → Nat → α → α → Prop}
    (h : ∀ x y a e, (⟨x, y, a, e⟩ : Diff α) ∈ l ↔ P x y a e) :
    l.isEmpty = true ↔ ∀ x y a e, ¬ P x y a e := by
  rw [List.isEmpty_iff, List.eq_nil_iff_forall_not_mem]
  constructor
  · intro hl x y a e hp
    exact hl _ ((h x y a e).2 hp)
  · rintro hl ⟨x, y, a, e⟩ hm
    exact hl _ _ _ _ ((h x y a e).1 hm)

/-- **C112.** The summary never panics; it is absent iff the images have equal sizes and no pixel differs
significantly. -/
theorem C112_significant {τ : Type _} (dimsMsg : τ) (describe : List (Diff α) → τ)
    (actual expected : Image α) (isDiff : Nat × Nat × α → Nat × Nat × α → Bool) :
    ∃ r, significantDiffSummary dimsMsg describe actual expected isDiff = some r ∧
      (r = none ↔ actual.w = expected.w ∧ actual.h = expected.h ∧ ∀ x y, x < actual.w → y < actual.h →
        isDiff (x, y, actual.px x y) (x, y, expected.px x y) = false) := by
  unfold significantDiffSummary
  by_cases hd : (actual.w, actual.h) ≠ (expected.w, expected.h)
  · rw [if_pos hd]
    refine ⟨_, rfl, ?_⟩
    constructor
    · intro h; cases h
    · rintro ⟨h1, h2, -⟩
      exact absurd (by rw [h1, h2]) hd
  · rw [if_neg hd]
    rw [ne_eq, not_not, Prod.mk.injEq] at hd
    obtain ⟨hw, hh⟩ := hd
    obtain ⟨l, h1, h2, -⟩ := C79_pixel_diffs actual expected hw hh isDiff
    rw [h1, Option.bind_some]
    have he := isEmpty_iff_forall h2
    by_cases hl : l.isEmpty = true
    · rw [if_pos hl]
      refine ⟨_, rfl, ?_⟩
      rw [he] at hl
      simp only [true_iff]
      refine ⟨hw, hh, fun x y hx hy => ?_⟩
      have := hl x y (actual.px x y) (expected.px x y)
      by_contra hc
      exact this ⟨⟨hx, hy⟩, rfl, rfl, by simpa using hc⟩
    · rw [if_neg hl]
      refine ⟨_, rfl, ?_⟩
      constructor
      · intro h; cases h
      · rintro ⟨-, -, h3⟩
        refine absurd (he.2 ?_) hl
        rintro x y a e ⟨⟨hx, hy⟩, rfl, rfl, h4⟩
        rw [h3 x y hx hy] at h4
        cases h4

/-- **C112.** `pixel_diff_summary` is absent iff the images are equal. -/
theorem C112_equal {τ : Type _} [DecidableEq α] (dimsMsg : τ) (describe : List (Diff α) → τ)
    (actual expected : Image α) :
    pixelDiffSummary dimsMsg describe actual expected = some none ↔ actual.Same expected := by
  unfold pixelDiffSummary
  obtain ⟨r, h1, h2⟩ := C112_significant dimsMsg describe actual expected fun p q => p ≠ q
  rw [h1, Option.some.injEq, h2]
  constructor
  · rintro ⟨hw, hh, h⟩
    refine ⟨hw, hh, fun x y hx hy => ?_⟩
    simpa using h x y hx hy
  · rintro ⟨hw, hh, h⟩
    refine ⟨hw, hh, fun x y hx hy => ?_⟩
    simp [h x y hx hy]

/-- **C112.** `assert_pixels_eq!` passes iff the images are equal. -/
theorem C112_assert [DecidableEq α] (actual expected : Image α) :
    assertPixelsEq actual expected = some () ↔ actual.Same expected := by
  unfold assertPixelsEq assertDimensionsMatch
  by_cases hd : (actual.w, actual.h) ≠ (expected.w, expected.h)
  · rw [if_pos hd]
    constructor
    · intro h; cases h
    · rintro ⟨h1, h2, -⟩
      exact absurd (by rw [h1, h2]) hd
  · rw [if_neg hd, Option.bind_some]
    have k := C112_equal () (fun _ => ()) actual expected
    obtain ⟨r, h1, -⟩ := C112_significant () (fun _ => ()) actual expected fun p q => decide (p ≠ q)
    have h1' : pixelDiffSummary () (fun _ => ()) actual expected = some r := h1
    rw [h1'] at k ⊢
    rw [Option.bind_some, ← k]
    cases r <;> simp

theorem largeDiff_false (tol : Nat) : ∀ (a b : List Nat), a.length = b.length →
    (largeDiff tol a b = false ↔ ∀ i (h : i < a.length) (h' : i < b.length),
      ((a[i] : Int) - b[i]).natAbs ≤ tol)
  | [], [], _ => by simp [largeDiff]
  | [], _ :: _, h => by simp at h
  | _ :: _, [], h => by simp at h
  | p :: a, q :: b, h => by
    unfold largeDiff
    dsimp only
    have ih := largeDiff_false tol a b (by simpa using h)
    have hpq : (if p > q then p - q else q - p) = ((p : Int) - q).natAbs := by split <;> omega
    rw [hpq]
    by_cases hc : ((p : Int) - q).natAbs > tol
    · rw [if_pos hc]
      constructor
      · intro h; cases h
      · intro h'
        have := h' 0 (by simp) (by simp)
        simp only [List.getElem_cons_zero] at this
        omega
    · rw [if_neg hc, ih]
      constructor
      · intro h1 i
        cases i with
        | zero => intro _ _; simp only [List.getElem_cons_zero]; omega
        | succ i => intro h2 h3; simpa using h1 i (by simpa using h2) (by simpa using h3)
      · intro h1 i h2 h3
        have := h1 (i + 1) (by simpa using h2) (by simpa using h3)
        simpa using this

/-- **C112.** `assert_pixels_eq_within!` on images with the same number of channels passes iff the sizes are equal and no channel of any
pixel differs by more than the tolerance. -/
theorem C112_within (tol n : Nat) (actual expected : Image (List Nat))
    (ha : ∀ x y, (actual.px x y).length = n) (he : ∀ x y, (expected.px x y).length = n) :
    assertPixelsEqWithin tol actual expected = some () ↔
      actual.w = expected.w ∧ actual.h = expected.h ∧
      ∀ x y, x < actual.w → y < actual.h → ∀ i (h : i < (actual.px x y).length)
        (h' : i < (expected.px x y).length), (((actual.px x y)[i] : Int) - (expected.px x y)[i]).natAbs ≤ tol := by
  unfold assertPixelsEqWithin assertDimensionsMatch
  by_cases hd : (actual.w, actual.h) ≠ (expected.w, expected.h)
  · rw [if_pos hd]
    constructor
    · intro h; cases h
    · rintro ⟨h1, h2, -⟩
      exact absurd (by rw [h1, h2]) hd
  · rw [if_neg hd, Option.bind_some, if_pos (Or.inr (Or.inr fun x _ y _ => by rw [ha, he]))]
    rw [ne_eq, not_not, Prod.mk.injEq] at hd
    obtain ⟨hw, hh⟩ := hd
    obtain ⟨l, h1, h2, -⟩ := C79_pixel_diffs actual expected hw hh
      fun p q => largeDiff tol p.2.2 q.2.2
    rw [h1, Option.bind_some]
    have hem := isEmpty_iff_forall h2
    have : (if l.isEmpty then some () else none) = some () ↔ l.isEmpty = true := by
      split <;> simp_all
    rw [this, hem]
    constructor
    · intro h
      refine ⟨hw, hh, fun x y hx hy => ?_⟩
      rw [← largeDiff_false tol _ _ (by rw [ha, he])]
      have := h x y (actual.px x y) (expected.px x y)
      by_contra hc
      exact this ⟨⟨hx, hy⟩, rfl, rfl, by simpa using hc⟩
    · rintro ⟨-, -, h⟩ x y a e ⟨⟨hx, hy⟩, rfl, rfl, h4⟩
      have := (largeDiff_false tol _ _ (by rw [ha, he])).2 (h x y hx hy)
      rw [this] at h4
      cases h4

example : assertPixelsEqWithin 1 (Image.ofRows [] [[[1, 2], [5, 4]]]) (Image.ofRows [] [[[2, 1], [5, 5]]]) =
    some () := by decide
example : assertPixelsEqWithin 1 (Image.ofRows [] [[[1, 2], [5, 4]]]) (Image.ofRows [] [[[2, 1], [5, 6]]]) =
    none := by decide

end Verif.Utils
