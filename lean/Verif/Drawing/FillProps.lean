import Verif.Drawing.FillModel
import Mathlib.Logic.Relation
import Mathlib.Data.Finset.Card
import Mathlib.Data.Finset.Prod
/-
Property theorem C44 (flood fill).
-/
set_option linter.unusedSectionVars false
namespace Verif.Drawing
variable {α : Type _} [DecidableEq α]

/-! ### Specification -/

/-- The pixel at `p` is in the image and has colour `t`. -/
def HasColour (im : Image α) (t : α) (p : Int × Int) : Prop :=
  0 ≤ p.1 ∧ p.1 < im.w ∧ 0 ≤ p.2 ∧ p.2 < im.h ∧ im.px p.1.toNat p.2.toNat = t

/-- 4-neighbours. -/
def Nbr4 (p q : Int × Int) : Prop :=
  (p.1 = q.1 ∧ (p.2 = q.2 + 1 ∨ q.2 = p.2 + 1)) ∨ (p.2 = q.2 ∧ (p.1 = q.1 + 1 ∨ q.1 = p.1 + 1))

/-- `p` is joined to `s` by a 4-connected path of pixels of colour `t`. -/
def InRegion (im : Image α) (t : α) (s p : Int × Int) : Prop :=
  Relation.ReflTransGen (fun a b => Nbr4 a b ∧ HasColour im t b) s p

/-! ### Basic facts -/

theorem inside_iff (im : Image α) (x y : Int) (t : α) :
    inside im x y t = true ↔ HasColour im t (x, y) := by
  unfold inside HasColour
  dsimp only
  split
  · rename_i h
    constructor
    · intro h'; cases h'
    · intro h'; omega
  · rename_i h
    rw [decide_eq_true_iff]
    constructor
    · rintro ⟨h1, h2, h3⟩; exact ⟨by omega, by omega, by omega, by omega, h3⟩
    · rintro ⟨_, h1, _, h2, h3⟩; exact ⟨by omega, by omega, h3⟩

/-- The image after setting the pixels `[l, r)` of row `y` to `f`. -/
structure FillSeg (t f : α) (im im' : Image α) (y l r : Int) : Prop where
  w : im'.w = im.w
  h : im'.h = im.h
  px : ∀ a b : Nat, im'.px a b = if (b : Int) = y ∧ l ≤ a ∧ (a : Int) < r then f else im.px a b
  was : ∀ a, l ≤ a → a < r → HasColour im t (a, y)

theorem FillSeg.nil (t f : α) (im : Image α) (y l r : Int) (h : r ≤ l) :
    FillSeg t f im im y l r :=
  ⟨rfl, rfl, fun a b => by rw [if_neg (by omega)], fun a h1 h2 => by omega⟩

theorem FillSeg.has {t f : α} (hft : f ≠ t) {im im' : Image α} {y l r : Int}
    (h : FillSeg t f im im' y l r) (p : Int × Int) :
    HasColour im' t p ↔ HasColour im t p ∧ ¬ (p.2 = y ∧ l ≤ p.1 ∧ p.1 < r) := by
  unfold HasColour
  rw [h.w, h.h]
  constructor
  · rintro ⟨h1, h2, h3, h4, h5⟩
    rw [h.px] at h5
    by_cases hc : p.2 = y ∧ l ≤ p.1 ∧ p.1 < r
    · rw [if_pos (by omega)] at h5; exact absurd h5 hft
    · rw [if_neg (by omega)] at h5
      exact ⟨⟨h1, h2, h3, h4, h5⟩, hc⟩
  · rintro ⟨⟨h1, h2, h3, h4, h5⟩, hc⟩
    refine ⟨h1, h2, h3, h4, ?_⟩
    rw [h.px, if_neg (by omega)]
    exact h5

theorem put_of_has {t f : α} {im : Image α} {x y : Int} (h : HasColour im t (x, y)) :
    ∃ im', im.put x.toNat y.toNat f = some im' ∧ FillSeg t f im im' y x (x + 1) := by
  obtain ⟨h1, h2, h3, h4, h5⟩ := h
  dsimp only at h1 h2 h3 h4 h5
  rw [Image.put_of_inB _ (by omega) (by omega)]
  refine ⟨_, rfl, rfl, rfl, fun a b => ?_, fun a ha hb => ?_⟩
  · dsimp only
    by_cases hc : a = x.toNat ∧ b = y.toNat
    · rw [if_pos hc, if_pos (by omega)]
    · rw [if_neg hc, if_neg (by omega)]
  · have : a = x := by omega
    rw [this]; exact ⟨h1, h2, h3, h4, h5⟩

theorem FillSeg.union {t f : α} (hft : f ≠ t) {im im1 im2 : Image α} {y l r l' r' L R : Int}
    (h : FillSeg t f im im1 y l r) (h' : FillSeg t f im1 im2 y l' r')
    (hu : ∀ a, (L ≤ a ∧ a < R) ↔ ((l ≤ a ∧ a < r) ∨ (l' ≤ a ∧ a < r'))) :
    FillSeg t f im im2 y L R := by
  refine ⟨h'.w.trans h.w, h'.h.trans h.h, fun a b => ?_, fun a h1 h2 => ?_⟩
  · rw [h'.px, h.px]
    have := hu a
    by_cases hb : (b : Int) = y
    · by_cases h1 : l' ≤ (a : Int) ∧ (a : Int) < r'
      · rw [if_pos ⟨hb, h1⟩, if_pos ⟨hb, this.2 (Or.inr h1)⟩]
      · rw [if_neg (fun h => h1 h.2)]
        by_cases h2 : l ≤ (a : Int) ∧ (a : Int) < r
        · rw [if_pos ⟨hb, h2⟩, if_pos ⟨hb, this.2 (Or.inl h2)⟩]
        · rw [if_neg (fun h => h2 h.2), if_neg (fun h => ?_)]
          rcases this.1 h.2 with h | h
          · exact h2 h
          · exact h1 h
    · rw [if_neg (fun h => hb h.1), if_neg (fun h => hb h.1), if_neg (fun h => hb h.1)]
  · rcases (hu a).1 ⟨h1, h2⟩ with h3 | h3
    · exact h.was a h3.1 h3.2
    · exact ((h.has hft _).1 (h'.was a h3.1 h3.2)).1

theorem fillRight_spec {t f : α} (hft : f ≠ t) (y : Int) : ∀ (n : Nat) (im : Image α) (x : Int),
    (x < 0 ∨ (im.w : Int) ≤ x + n) → ∃ r, fillRight t f n im x y = some r ∧ x ≤ r.2 ∧
      FillSeg t f im r.1 y x r.2 ∧ ¬ HasColour r.1 t (r.2, y)
  | 0, im, x, hn => by
    have hc : ¬ HasColour im t (x, y) := by
      rintro ⟨h1, h2, -⟩; dsimp only at h1 h2; push_cast at hn; omega
    rw [fillRight, if_neg (fun h => hc ((inside_iff im x y t).1 h))]
    exact ⟨_, rfl, le_refl _, FillSeg.nil t f im y x x (le_refl _), hc⟩
  | n + 1, im, x, hn => by
    rw [fillRight]
    by_cases hc : HasColour im t (x, y)
    · rw [if_pos ((inside_iff im x y t).2 hc)]
      obtain ⟨im1, h1, h2⟩ := put_of_has (f := f) hc
      rw [h1, Option.bind_some]
      have hx := hc.1
      dsimp only at hx
      obtain ⟨r, g1, g2, g3, g4⟩ := fillRight_spec hft y n im1 (x + 1)
        (by rw [h2.w]; push_cast at hn; omega)
      exact ⟨r, g1, by omega, h2.union hft g3 (fun a => by omega), g4⟩
    · rw [if_neg (fun h => hc ((inside_iff im x y t).1 h))]
      exact ⟨_, rfl, le_refl _, FillSeg.nil t f im y x x (le_refl _), hc⟩

theorem fillLeft_spec {t f : α} (hft : f ≠ t) (y : Int) : ∀ (n : Nat) (im : Image α) (x : Int),
    x ≤ n → ∃ r, fillLeft t f n im x y = some r ∧ r.2 ≤ x ∧
      FillSeg t f im r.1 y r.2 x ∧ ¬ HasColour r.1 t (r.2 - 1, y)
  | 0, im, x, hn => by
    have hc : ¬ HasColour im t (x - 1, y) := by
      rintro ⟨h1, h2, -⟩; dsimp only at h1 h2; push_cast at hn; omega
    rw [fillLeft, if_neg (fun h => hc ((inside_iff im (x - 1) y t).1 h))]
    exact ⟨_, rfl, le_refl _, FillSeg.nil t f im y x x (le_refl _), hc⟩
  | n + 1, im, x, hn => by
    rw [fillLeft]
    by_cases hc : HasColour im t (x - 1, y)
    · rw [if_pos ((inside_iff im (x - 1) y t).2 hc)]
      obtain ⟨im1, h1, h2⟩ := put_of_has (f := f) hc
      rw [h1, Option.bind_some]
      obtain ⟨r, g1, g2, g3, g4⟩ := fillLeft_spec hft y n im1 (x - 1) (by push_cast at hn; omega)
      exact ⟨r, g1, by omega, h2.union hft g3 (fun a => by omega), g4⟩
    · rw [if_neg (fun h => hc ((inside_iff im (x - 1) y t).1 h))]
      exact ⟨_, rfl, le_refl _, FillSeg.nil t f im y x x (le_refl _), hc⟩

theorem skipOut_spec (t : α) (im : Image α) (x2 y : Int) : ∀ (n : Nat) (x : Int), x2 ≤ x + n →
    ∃ z, skipOut t im x2 y n x = some z ∧ x ≤ z ∧ ∀ a, x ≤ a → a < z → ¬ HasColour im t (a, y)
  | 0, x, hn => by
    rw [skipOut, if_neg (by rintro ⟨h, -⟩; push_cast at hn; omega)]
    exact ⟨x, rfl, le_refl _, fun a h1 h2 => by omega⟩
  | n + 1, x, hn => by
    rw [skipOut]
    split
    · rename_i hc
      obtain ⟨z, h1, h2, h3⟩ := skipOut_spec t im x2 y n (x + 1) (by push_cast at hn; omega)
      refine ⟨z, h1, by omega, fun a ha hb => ?_⟩
      rcases eq_or_lt_of_le ha with h | h
      · rw [← h]; intro h'
        rw [(inside_iff im x y t).2 h'] at hc
        exact absurd hc.2 (by simp)
      · exact h3 a (by omega) hb
    · exact ⟨x, rfl, le_refl _, fun a h1 h2 => by omega⟩

/-! ### Counting -/

/-- Number of pixels of colour `t`. -/
def colourCount (im : Image α) (t : α) : Nat :=
  ((Finset.range im.w ×ˢ Finset.range im.h).filter fun p => im.px p.1 p.2 = t).card

theorem FillSeg.count_le {t f : α} (hft : f ≠ t) {im im' : Image α} {y l r : Int}
    (h : FillSeg t f im im' y l r) : colourCount im' t ≤ colourCount im t := by
  unfold colourCount
  rw [h.w, h.h]
  refine Finset.card_le_card fun p hp => ?_
  rw [Finset.mem_filter] at hp ⊢
  refine ⟨hp.1, ?_⟩
  have := hp.2
  rw [h.px] at this
  split at this
  · exact absurd this hft
  · exact this

theorem FillSeg.count_lt {t f : α} (hft : f ≠ t) {im im' : Image α} {y l r : Int}
    (h : FillSeg t f im im' y l r) (hlr : l < r) : colourCount im' t < colourCount im t := by
  unfold colourCount
  rw [h.w, h.h]
  refine Finset.card_lt_card ⟨fun p hp => ?_, fun hsub => ?_⟩
  · rw [Finset.mem_filter] at hp ⊢
    refine ⟨hp.1, ?_⟩
    have := hp.2
    rw [h.px] at this
    split at this
    · exact absurd this hft
    · exact this
  · obtain ⟨h1, h2, h3, h4, h5⟩ := h.was l (le_refl _) hlr
    dsimp only at h1 h2 h3 h4 h5
    have : (l.toNat, y.toNat) ∈ (Finset.range im.w ×ˢ Finset.range im.h).filter
        fun p => im.px p.1 p.2 = t := by
      rw [Finset.mem_filter, Finset.mem_product, Finset.mem_range, Finset.mem_range]
      exact ⟨⟨by dsimp only; omega, by dsimp only; omega⟩, h5⟩
    have := hsub this
    rw [Finset.mem_filter] at this
    have h6 := this.2
    dsimp only at h6
    rw [h.px, if_pos (by omega)] at h6
    exact hft h6

/-! ### Processing one span -/

/-- `p` is on a span of the stack. -/
def Cov (st : List Span) (p : Int × Int) : Prop :=
  ∃ S ∈ st, S.y = p.2 ∧ S.x1 ≤ p.1 ∧ p.1 ≤ S.x2

theorem Cov.mono {st st' : List Span} {p : Int × Int} (h : Cov st p) (hs : ∀ S ∈ st, S ∈ st') :
    Cov st' p := by
  obtain ⟨S, h1, h2⟩ := h
  exact ⟨S, hs S h1, h2⟩

/-- Newly filled between `im` and `im'`. -/
def Nf (t : α) (im im' : Image α) (p : Int × Int) : Prop := HasColour im t p ∧ ¬ HasColour im' t p

/-- Invariant of the row loop for span `s`; `C` is a set of pixels closed under stepping to a
neighbour of colour `t`; `[x, x1)` has been filled but not yet pushed. -/
structure Prog (t f : α) (C : Int × Int → Prop) (im im' : Image α) (s : Span) (N : List Span)
    (x x1 : Int) : Prop where
  w : im'.w = im.w
  h : im'.h = im.h
  upd : ∀ a b : Nat, im'.px a b = im.px a b ∨ (HasColour im t (a, b) ∧ im'.px a b = f)
  sub : ∀ p, HasColour im' t p → HasColour im t p
  row : ∀ p, Nf t im im' p → p.2 = s.y
  comp : ∀ p, Nf t im im' p → C p
  start : s.x1 ≤ x1
  clear : ∀ a, s.x1 ≤ a → a < x1 → ¬ HasColour im' t (a, s.y)
  up : ∀ a, Nf t im im' (a, s.y) → (x ≤ a ∧ a < x1) ∨ Cov N (a, s.y + s.dy)
  down : ∀ a, Nf t im im' (a, s.y) → (s.x1 ≤ a ∧ a ≤ s.x2) ∨ Cov N (a, s.y - s.dy)
  sideL : ∀ a, Nf t im im' (a, s.y) → ¬ HasColour im' t (a - 1, s.y)
  sideR : ∀ a, Nf t im im' (a, s.y) → ¬ HasColour im' t (a + 1, s.y) ∨ (a + 1 = x1 ∧ x < x1)
  pend : x ≤ x1
  pend1 : x < x1 → HasColour im' t (x1, s.y)
  pend2 : ∀ a, x ≤ a → a < x1 → Nf t im im' (a, s.y)
  left : ¬ HasColour im' t (x - 1, s.y) ∨ (x = x1 ∧ ¬ HasColour im' t (x1, s.y))
  new : ∀ T ∈ N, (T.dy = 1 ∨ T.dy = -1) ∧ T.y - T.dy = s.y ∧ T.x1 ≤ T.x2 ∧
    ∀ a, T.x1 ≤ a → a ≤ T.x2 → Nf t im im' (a, s.y)
  cnt : 3 * colourCount im' t + N.length ≤ 3 * colourCount im t

theorem runPushes_mem {x x1 x2 y dy : Int} {T : Span} (h : T ∈ runPushes x x1 x2 y dy) :
    (x1 - 1 > x2 ∧ T = ⟨x2 + 1, x1 - 1, y - dy, -dy⟩) ∨ (x1 > x ∧ T = ⟨x, x1 - 1, y + dy, dy⟩) := by
  unfold runPushes at h
  rw [List.mem_append] at h
  rcases h with h | h
  · split at h
    · rename_i hc; left; exact ⟨hc, by simpa using h⟩
    · cases h
  · split at h
    · rename_i hc; right; exact ⟨hc, by simpa using h⟩
    · cases h

/-- A segment of colour `t` starting in `C` is in `C`. -/
theorem seg_closed {t : α} {im : Image α} {C : Int × Int → Prop} {y : Int}
    (hC : ∀ p q, C p → Nbr4 p q → HasColour im t q → C q) (x : Int) (h0 : C (x, y)) (n : Nat) :
    ((∀ a, x ≤ a → a ≤ x + n → HasColour im t (a, y)) → C (x + n, y)) ∧
    ((∀ a, x - n ≤ a → a ≤ x → HasColour im t (a, y)) → C (x - n, y)) := by
  induction n with
  | zero => simp [h0]
  | succ n ih =>
    constructor
    · intro h
      refine hC (x + n, y) _ (ih.1 fun a h1 h2 => h a h1 (by push_cast; omega)) ?_
        (h _ (by push_cast; omega) (by push_cast; omega))
      right; dsimp only; push_cast; omega
    · intro h
      refine hC (x - n, y) _ (ih.2 fun a h1 h2 => h a (by push_cast; omega) h2) ?_
        (h _ (by push_cast; omega) (by push_cast; omega))
      right; dsimp only; push_cast; omega

theorem Prog.step {t f : α} (hft : f ≠ t) {C : Int × Int → Prop} {im im1 im2 : Image α} {s : Span}
    {N : List Span} {x x1 x1' z : Int} (hdy : s.dy = 1 ∨ s.dy = -1)
    (hC : ∀ p q, C p → Nbr4 p q → HasColour im t q → C q)
    (hs : ∀ a, s.x1 ≤ a → a ≤ s.x2 → HasColour im t (a, s.y) → C (a, s.y))
    (P : Prog t f C im im1 s N x x1) (hx : x1 ≤ s.x2) (hx' : x1 ≤ x1')
    (F : FillSeg t f im1 im2 s.y x1 x1') (hend : ¬ HasColour im2 t (x1', s.y))
    (hz : x1' + 1 ≤ z) (hskip : ∀ a, x1' + 1 ≤ a → a < z → ¬ HasColour im2 t (a, s.y)) :
    Prog t f C im im2 s (runPushes x x1' s.x2 s.y s.dy ++ N) z z := by
  have H := F.has hft
  have nf2 : ∀ p, Nf t im im2 p ↔ Nf t im im1 p ∨ (p.2 = s.y ∧ x1 ≤ p.1 ∧ p.1 < x1') := by
    intro p
    unfold Nf
    rw [H]
    constructor
    · rintro ⟨h1, h2⟩
      by_cases h3 : HasColour im1 t p
      · right; by_contra h4; exact h2 ⟨h3, h4⟩
      · exact Or.inl ⟨h1, h3⟩
    · rintro (⟨h1, h2⟩ | h)
      · exact ⟨h1, fun h3 => h2 h3.1⟩
      · refine ⟨P.sub _ ?_, fun h3 => h3.2 h⟩
        have := F.was p.1 h.2.1 h.2.2
        rwa [← h.1] at this
  have covN : ∀ p, Cov N p → Cov (runPushes x x1' s.x2 s.y s.dy ++ N) p := fun p h =>
    h.mono fun S hS => List.mem_append_right _ hS
  have grow : x < x1 → x1 < x1' := by
    intro h
    have h1 := P.pend1 h
    by_contra hc
    have : x1' = x1 := by omega
    rw [this] at hend
    refine hend ((H _).2 ⟨h1, ?_⟩)
    dsimp only; omega
  have mono : ∀ p, ¬ HasColour im1 t p → ¬ HasColour im2 t p := fun p h h' => h ((H p).1 h').1
  have segNo : ∀ a, x1 ≤ a → a < x1' → ¬ HasColour im2 t (a, s.y) := fun a h1 h2 h3 =>
    ((H _).1 h3).2 ⟨rfl, h1, h2⟩
  refine ⟨F.w.trans P.w, F.h.trans P.h, ?_, ?_, ?_, ?_, ?_, ?_, ?_, ?_, ?_, ?_, le_refl _, ?_, ?_,
    ?_, ?_, ?_⟩
  · -- upd
    intro a b
    rw [F.px]
    split
    · rename_i hc
      right
      refine ⟨P.sub _ ?_, rfl⟩
      have := F.was a hc.2.1 hc.2.2
      rwa [← hc.1] at this
    · exact P.upd a b
  · exact fun p h => P.sub p ((H p).1 h).1
  · intro p h
    rcases (nf2 p).1 h with h | h
    · exact P.row p h
    · exact h.1
  · -- comp
    intro p h
    rcases (nf2 p).1 h with h | ⟨h1, h2, h3⟩
    · exact P.comp p h
    · obtain ⟨n, hn⟩ : ∃ n : Nat, p.1 = x1 + n := ⟨(p.1 - x1).toNat, by omega⟩
      have hall : ∀ a, x1 ≤ a → a ≤ x1 + n → HasColour im t (a, s.y) := fun a ha hb =>
        P.sub _ (F.was a ha (by omega))
      have := (seg_closed hC x1 (hs x1 P.start hx (hall x1 (le_refl _) (by omega))) n).1 hall
      rwa [← hn, ← h1] at this
  · have := P.start; omega
  · -- clear
    intro a h1 h2
    by_cases h3 : a < x1
    · exact mono _ (P.clear a h1 h3)
    · by_cases h4 : a < x1'
      · exact segNo a (by omega) h4
      · by_cases h5 : a = x1'
        · rw [h5]; exact hend
        · exact hskip a (by omega) h2
  · -- up
    intro a h
    right
    have push : x ≤ a → a < x1' → Cov (runPushes x x1' s.x2 s.y s.dy ++ N) (a, s.y + s.dy) := by
      intro h1 h2
      refine ⟨⟨x, x1' - 1, s.y + s.dy, s.dy⟩, ?_, rfl, h1, by dsimp only; omega⟩
      unfold runPushes
      rw [if_pos (show x1' > x by omega)]
      simp
    rcases (nf2 _).1 h with h | h
    · rcases P.up a h with h1 | h1
      · exact push h1.1 (by omega)
      · exact covN _ h1
    · have := P.pend
      exact push (by dsimp only at h; omega) h.2.2
  · -- down
    intro a h
    rcases (nf2 _).1 h with h | h
    · rcases P.down a h with h1 | h1
      · exact Or.inl h1
      · exact Or.inr (covN _ h1)
    · dsimp only at h
      have := P.start
      by_cases h1 : a ≤ s.x2
      · left; omega
      · right
        refine ⟨⟨s.x2 + 1, x1' - 1, s.y - s.dy, -s.dy⟩, ?_, rfl, by dsimp only; omega,
          by dsimp only; omega⟩
        unfold runPushes
        rw [if_pos (show x1' - 1 > s.x2 by omega)]
        simp
  · -- sideL
    intro a h
    rcases (nf2 _).1 h with h | h
    · exact mono _ (P.sideL a h)
    · dsimp only at h
      by_cases h1 : a = x1
      · by_cases h2 : x < x1
        · have := (P.pend2 (a - 1) (by omega) (by omega)).2
          exact mono _ this
        · have hxx : x = x1 := by have := P.pend; omega
          rcases P.left with h3 | h3
          · rw [h1, ← hxx]; exact mono _ h3
          · exact absurd (F.was x1 (le_refl _) (by omega)) h3.2
      · exact segNo _ (by omega) (by omega)
  · -- sideR
    intro a h
    left
    rcases (nf2 _).1 h with h | h
    · rcases P.sideR a h with h1 | h1
      · exact mono _ h1
      · have := grow h1.2
        exact segNo _ (by omega) (by omega)
    · dsimp only at h
      by_cases h1 : a + 1 = x1'
      · rw [h1]; exact hend
      · exact segNo _ (by omega) (by omega)
  · intro h; omega
  · intro a h1 h2; omega
  · -- left
    left
    by_cases h1 : z - 1 = x1'
    · rw [h1]; exact hend
    · exact hskip _ (by omega) (by omega)
  · -- new
    intro T hT
    rcases List.mem_append.1 hT with h | h
    · rcases runPushes_mem h with ⟨hc, rfl⟩ | ⟨hc, rfl⟩
      · dsimp only
        refine ⟨by omega, by omega, by omega, fun a h1 h2 => (nf2 _).2 (Or.inr ?_)⟩
        dsimp only; omega
      · dsimp only
        refine ⟨hdy, by omega, by omega, fun a h1 h2 => (nf2 _).2 ?_⟩
        by_cases h3 : a < x1
        · exact Or.inl (P.pend2 a h1 h3)
        · right; dsimp only; omega
    · obtain ⟨g1, g2, g3, g4⟩ := P.new T h
      exact ⟨g1, g2, g3, fun a h1 h2 => (nf2 _).2 (Or.inl (g4 a h1 h2))⟩
  · -- cnt
    have := P.cnt
    rw [List.length_append]
    by_cases h1 : x1 < x1'
    · have h2 := F.count_lt hft h1
      have h3 : (runPushes x x1' s.x2 s.y s.dy).length ≤ 2 := by
        unfold runPushes
        rw [List.length_append]
        split <;> split <;> simp
      omega
    · have h2 := F.count_le hft
      have h3 : ¬ x < x1 := fun h => h1 (grow h)
      have h4 : runPushes x x1' s.x2 s.y s.dy = [] := by
        have := P.pend
        unfold runPushes
        rw [if_neg (by omega), if_neg (by omega)]
        rfl
      rw [h4]
      simp only [List.length_nil]
      omega

theorem rowLoop_spec {t f : α} (hft : f ≠ t) {C : Int × Int → Prop} {im : Image α} {s : Span}
    (hdy : s.dy = 1 ∨ s.dy = -1) (hC : ∀ p q, C p → Nbr4 p q → HasColour im t q → C q)
    (hs : ∀ a, s.x1 ≤ a → a ≤ s.x2 → HasColour im t (a, s.y) → C (a, s.y)) :
    ∀ (n : Nat) (im1 : Image α) (x x1 : Int) (N : List Span), s.x2 + 1 - x1 ≤ n →
      Prog t f C im im1 s N x x1 → (s.x2 < x1 → x = x1) →
      ∃ r z, rowLoop t f s.x2 s.y s.dy n im1 x x1 N = some r ∧ s.x2 < z ∧
        Prog t f C im r.1 s r.2 z z
  | 0, im1, x, x1, N, hn, P, hx => by
    push_cast at hn
    rw [rowLoop, if_neg (by omega)]
    refine ⟨_, x1, rfl, by omega, ?_⟩
    rw [hx (by omega)] at P
    exact P
  | n + 1, im1, x, x1, N, hn, P, hx => by
    rw [rowLoop]
    by_cases hc : x1 ≤ s.x2
    · rw [if_pos hc]
      obtain ⟨r, g1, g2, g3, g4⟩ := fillRight_spec hft s.y (im1.w + 1) im1 x1
        (by push_cast; omega)
      rw [g1, Option.bind_some]
      obtain ⟨z, k1, k2, k3⟩ := skipOut_spec t r.1 s.x2 s.y ((s.x2 - r.2).toNat + 1) (r.2 + 1)
        (by push_cast; omega)
      rw [k1, Option.bind_some]
      push_cast at hn
      exact rowLoop_spec hft hdy hC hs n r.1 z z _ (by omega)
        (P.step hft hdy hC hs hc g2 g3 g4 k2 k3) (fun _ => rfl)
    · rw [if_neg hc]
      refine ⟨_, x1, rfl, by omega, ?_⟩
      rw [hx (by omega)] at P
      exact P

theorem leftPart_spec {t f : α} (hft : f ≠ t) {C : Int × Int → Prop} {im : Image α} {s : Span}
    (hdy : s.dy = 1 ∨ s.dy = -1) (hx : s.x1 ≤ s.x2)
    (hC : ∀ p q, C p → Nbr4 p q → HasColour im t q → C q)
    (hs : ∀ a, s.x1 ≤ a → a ≤ s.x2 → HasColour im t (a, s.y) → C (a, s.y)) :
    ∃ r, leftPart t f im s = some r ∧ Prog t f C im r.1 s r.2.2 r.2.1 s.x1 := by
  unfold leftPart
  by_cases hc : HasColour im t (s.x1, s.y)
  · rw [if_pos ((inside_iff im _ _ t).2 hc)]
    have hw := hc.2.1
    dsimp only at hw
    obtain ⟨r, g1, g2, F, g4⟩ := fillLeft_spec hft s.y (im.w + 1) im s.x1 (by push_cast; omega)
    rw [g1, Option.bind_some]
    refine ⟨_, rfl, ?_⟩
    dsimp only
    have H := F.has hft
    have nf : ∀ p, Nf t im r.1 p ↔ (p.2 = s.y ∧ r.2 ≤ p.1 ∧ p.1 < s.x1) := by
      intro p
      unfold Nf
      rw [H]
      constructor
      · rintro ⟨h1, h2⟩
        by_contra h4; exact h2 ⟨h1, h4⟩
      · intro h
        refine ⟨?_, fun h3 => h3.2 h⟩
        have := F.was p.1 h.2.1 h.2.2
        rwa [← h.1] at this
    have segNo : ∀ a, r.2 ≤ a → a < s.x1 → ¬ HasColour r.1 t (a, s.y) := fun a h1 h2 h3 =>
      ((H _).1 h3).2 ⟨rfl, h1, h2⟩
    have hx1 : HasColour r.1 t (s.x1, s.y) := (H _).2 ⟨hc, by dsimp only; omega⟩
    refine ⟨F.w, F.h, ?_, ?_, ?_, ?_, le_refl _, ?_, ?_, ?_, ?_, ?_, g2, fun _ => hx1, ?_,
      Or.inl g4, ?_, ?_⟩
    · intro a b
      rw [F.px]
      split
      · rename_i h
        right
        refine ⟨?_, rfl⟩
        have := F.was a h.2.1 h.2.2
        rwa [← h.1] at this
      · exact Or.inl rfl
    · exact fun p h => ((H p).1 h).1
    · exact fun p h => ((nf p).1 h).1
    · intro p h
      obtain ⟨h1, h2, h3⟩ := (nf p).1 h
      obtain ⟨n, hn⟩ : ∃ n : Nat, p.1 = s.x1 - n := ⟨(s.x1 - p.1).toNat, by omega⟩
      have hall : ∀ a, s.x1 - n ≤ a → a ≤ s.x1 → HasColour im t (a, s.y) := fun a ha hb => by
        rcases eq_or_lt_of_le hb with h | h
        · rw [h]; exact hc
        · exact F.was a (by omega) h
      have := (seg_closed hC s.x1 (hs s.x1 (le_refl _) hx hc) n).2 hall
      rwa [← hn, ← h1] at this
    · intro a h1 h2; omega
    · intro a h
      left
      have := (nf _).1 h
      dsimp only at this
      omega
    · intro a h
      right
      have := (nf _).1 h
      dsimp only at this
      rw [if_pos (by omega)]
      exact ⟨_, List.mem_singleton.2 rfl, rfl, by dsimp only; omega, by dsimp only; omega⟩
    · intro a h
      have := (nf _).1 h
      dsimp only at this
      by_cases h1 : a = r.2
      · rw [h1]; exact g4
      · exact segNo _ (by omega) (by omega)
    · intro a h
      have := (nf _).1 h
      dsimp only at this
      by_cases h1 : a + 1 = s.x1
      · exact Or.inr ⟨h1, by omega⟩
      · exact Or.inl (segNo _ (by omega) (by omega))
    · intro a h1 h2
      exact (nf _).2 ⟨rfl, h1, h2⟩
    · intro T hT
      split at hT
      · rw [List.mem_singleton] at hT
        subst hT
        dsimp only
        exact ⟨by omega, by omega, by omega, fun a h1 h2 => (nf _).2 ⟨rfl, h1, by dsimp only; omega⟩⟩
      · cases hT
    · split
      · rename_i h
        have := F.count_lt hft h
        simp only [List.length_singleton]
        omega
      · have := F.count_le hft
        simp only [List.length_nil]
        omega
  · rw [if_neg (fun h => hc ((inside_iff im _ _ t).1 h))]
    refine ⟨_, rfl, ?_⟩
    dsimp only
    have nf : ∀ p, ¬ Nf t im im p := fun p h => h.2 h.1
    exact ⟨rfl, rfl, fun _ _ => Or.inl rfl, fun p h => h, fun p h => absurd h (nf p),
      fun p h => absurd h (nf p), le_refl _, fun a h1 h2 => by omega,
      fun a h => absurd h (nf _), fun a h => absurd h (nf _), fun a h => absurd h (nf _),
      fun a h => absurd h (nf _), le_refl _, fun h => by omega, fun a h1 h2 => by omega,
      Or.inr ⟨rfl, hc⟩, (fun T hT => by cases hT), by simp⟩

theorem processSpan_spec {t f : α} (hft : f ≠ t) {C : Int × Int → Prop} {im : Image α} {s : Span}
    (hdy : s.dy = 1 ∨ s.dy = -1) (hx : s.x1 ≤ s.x2)
    (hC : ∀ p q, C p → Nbr4 p q → HasColour im t q → C q)
    (hs : ∀ a, s.x1 ≤ a → a ≤ s.x2 → HasColour im t (a, s.y) → C (a, s.y)) :
    ∃ r z, processSpan t f im s = some r ∧ s.x2 < z ∧ Prog t f C im r.1 s r.2 z z := by
  unfold processSpan
  obtain ⟨r, h1, P⟩ := leftPart_spec hft hdy hx hC hs
  rw [h1, Option.bind_some]
  exact rowLoop_spec hft hdy hC hs _ r.1 r.2.1 s.x1 r.2.2 (by push_cast; omega) P
    (fun h => by omega)

/-! ### The outer loop -/

/-- Invariant of the outer loop. -/
structure FloodInv (t f : α) (im0 : Image α) (s0 : Int × Int) (im : Image α) (st : List Span) :
    Prop where
  w : im.w = im0.w
  h : im.h = im0.h
  upd : ∀ a b : Nat, im.px a b = im0.px a b ∨ (HasColour im0 t (a, b) ∧ im.px a b = f)
  sub : ∀ p, HasColour im t p → HasColour im0 t p
  filled : ∀ p, Nf t im0 im p → InRegion im0 t s0 p
  front : ∀ p q, Nf t im0 im p → Nbr4 p q → HasColour im t q → Cov st q
  back : ∀ S ∈ st, ∀ a, S.x1 ≤ a → a ≤ S.x2 → HasColour im t (a, S.y - S.dy) →
    Cov st (a, S.y - S.dy)
  reach : ∀ S ∈ st, ∀ a, S.x1 ≤ a → a ≤ S.x2 → HasColour im t (a, S.y) →
    InRegion im0 t s0 (a, S.y)
  ok : ∀ S ∈ st, (S.dy = 1 ∨ S.dy = -1) ∧ S.x1 ≤ S.x2
  seed : HasColour im t s0 → Cov st s0

theorem FloodInv.step {t f : α} {im0 im im' : Image α} {s0 : Int × Int} {S : Span}
    {rest N : List Span} {z : Int} (I : FloodInv t f im0 s0 im (S :: rest))
    (P : Prog t f (InRegion im0 t s0) im im' S N z z) (hz : S.x2 < z) :
    FloodInv t f im0 s0 im' (N ++ rest) := by
  have hS := (I.ok S (List.mem_cons_self ..)).1
  have key : ∀ q, Cov (S :: rest) q → HasColour im' t q → Cov (N ++ rest) q := by
    rintro q ⟨T, hT, h1, h2, h3⟩ hq
    rcases List.mem_cons.1 hT with rfl | hT
    · exfalso
      refine P.clear q.1 h2 (by omega) ?_
      rw [h1]; exact hq
    · exact ⟨T, List.mem_append_right _ hT, h1, h2, h3⟩
  have covN : ∀ q, Cov N q → Cov (N ++ rest) q := fun q h =>
    h.mono fun T hT => List.mem_append_left _ hT
  have split : ∀ p, Nf t im0 im' p → Nf t im0 im p ∨ Nf t im im' p := by
    rintro p ⟨h1, h2⟩
    by_cases h3 : HasColour im t p
    · exact Or.inr ⟨h3, h2⟩
    · exact Or.inl ⟨h1, h3⟩
  refine ⟨P.w.trans I.w, P.h.trans I.h, ?_, fun p h => I.sub p (P.sub p h), ?_, ?_, ?_, ?_, ?_, ?_⟩
  · intro a b
    rcases P.upd a b with h | ⟨h1, h2⟩
    · rw [h]; exact I.upd a b
    · exact Or.inr ⟨I.sub _ h1, h2⟩
  · intro p h
    rcases split p h with h | h
    · exact I.filled p h
    · exact P.comp p h
  · intro p q h hn hq
    rcases split p h with h | h
    · exact key q (I.front p q h hn (P.sub q hq)) hq
    · have hp := P.row p h
      obtain ⟨a, b⟩ := p
      obtain ⟨c, d⟩ := q
      dsimp only at hp
      subst hp
      rcases hn with ⟨h1, h2⟩ | ⟨h1, h2⟩
      · dsimp only at h1 h2
        subst h1
        by_cases h3 : d = S.y + S.dy
        · rw [h3]
          rcases P.up a h with h4 | h4
          · omega
          · exact covN _ h4
        · have h4 : d = S.y - S.dy := by omega
          rw [h4] at hq ⊢
          rcases P.down a h with h5 | h5
          · exact key _ (I.back S (List.mem_cons_self ..) a h5.1 h5.2 (P.sub _ hq)) hq
          · exact covN _ h5
      · exfalso
        dsimp only at h1 h2
        rw [← h1] at hq
        rcases h2 with h2 | h2
        · have := P.sideL a h
          rw [show a - 1 = c by omega] at this
          exact this hq
        · rcases P.sideR a h with h3 | h3
          · rw [← h2] at h3; exact h3 hq
          · omega
  · intro T hT a h1 h2 hc
    rcases List.mem_append.1 hT with hT | hT
    · obtain ⟨g1, g2, g3, g4⟩ := P.new T hT
      rw [g2] at hc
      exact absurd hc (g4 a h1 h2).2
    · exact key _ (I.back T (List.mem_cons_of_mem _ hT) a h1 h2 (P.sub _ hc)) hc
  · intro T hT a h1 h2 hc
    rcases List.mem_append.1 hT with hT | hT
    · obtain ⟨g1, g2, g3, g4⟩ := P.new T hT
      refine (P.comp _ (g4 a h1 h2)).tail ⟨?_, I.sub _ (P.sub _ hc)⟩
      left; dsimp only; omega
    · exact I.reach T (List.mem_cons_of_mem _ hT) a h1 h2 (P.sub _ hc)
  · intro T hT
    rcases List.mem_append.1 hT with hT | hT
    · obtain ⟨g1, g2, g3, g4⟩ := P.new T hT
      exact ⟨g1, g3⟩
    · exact I.ok T (List.mem_cons_of_mem _ hT)
  · intro h
    exact key _ (I.seed (P.sub _ h)) h

theorem floodLoop_spec {t f : α} (hft : f ≠ t) {im0 : Image α} {s0 : Int × Int} :
    ∀ (n : Nat) (im : Image α) (st : List Span), 3 * colourCount im t + st.length ≤ n →
      FloodInv t f im0 s0 im st → ∃ out, floodLoop t f n im st = some out ∧
        FloodInv t f im0 s0 out []
  | 0, im, st, hn, I => by
    have : st = [] := List.length_eq_zero_iff.1 (by omega)
    subst this
    exact ⟨im, rfl, I⟩
  | n + 1, im, [], hn, I => ⟨im, rfl, I⟩
  | n + 1, im, S :: rest, hn, I => by
    rw [floodLoop]
    have hS := I.ok S (List.mem_cons_self ..)
    obtain ⟨r, z, h1, h2, P⟩ := processSpan_spec (f := f) (C := InRegion im0 t s0) hft hS.1 hS.2
      (fun p q hp hq hc => hp.tail ⟨hq, I.sub _ hc⟩)
      (fun a ha hb hc => I.reach S (List.mem_cons_self ..) a ha hb hc)
    rw [h1, Option.bind_some]
    refine floodLoop_spec hft n r.1 (r.2 ++ rest) ?_ (I.step P h2)
    have := P.cnt
    rw [List.length_append]
    rw [List.length_cons] at hn
    omega

theorem colourCount_le (im : Image α) (t : α) : colourCount im t ≤ im.w * im.h := by
  refine le_trans (Finset.card_filter_le _ _) ?_
  rw [Finset.card_product, Finset.card_range, Finset.card_range]

theorem floodInv_init (t f : α) (im : Image α) (x y : Nat) :
    FloodInv t f im (x, y) im [⟨x, x, (y : Int) - 1, -1⟩, ⟨x, x, y, 1⟩] := by
  have nf : ∀ p, ¬ Nf t im im p := fun p h => h.2 h.1
  refine ⟨rfl, rfl, fun _ _ => Or.inl rfl, fun _ h => h, fun p h => absurd h (nf p),
    fun p q h => absurd h (nf p), ?_, ?_, ?_, ?_⟩
  · intro S hS a h1 h2 _
    rcases List.mem_cons.1 hS with rfl | hS
    · refine ⟨⟨x, x, y, 1⟩, by simp, by dsimp only; omega, h1, h2⟩
    · rw [List.mem_singleton] at hS
      subst hS
      exact ⟨⟨x, x, (y : Int) - 1, -1⟩, by simp, by dsimp only, h1, h2⟩
  · intro S hS a h1 h2 hc
    rcases List.mem_cons.1 hS with rfl | hS
    · dsimp only at h1 h2 hc ⊢
      rw [show a = x by omega] at hc ⊢
      refine Relation.ReflTransGen.single ⟨?_, hc⟩
      left; dsimp only; omega
    · rw [List.mem_singleton] at hS
      subst hS
      dsimp only at h1 h2 hc ⊢
      rw [show a = x by omega]
      exact Relation.ReflTransGen.refl
  · intro S hS
    rcases List.mem_cons.1 hS with rfl | hS
    · exact ⟨Or.inr rfl, le_refl _⟩
    · rw [List.mem_singleton] at hS
      subst hS
      exact ⟨Or.inl rfl, le_refl _⟩
  · intro _
    exact ⟨⟨x, x, y, 1⟩, by simp, rfl, le_refl _, le_refl _⟩

/-! ### C44 -/

/-- C44 (full statement: for every image, in-bounds seed and fill colour the fill terminates and
recolours exactly the 4-connected region of the seed).  Proved whenever the fill colour differs
from the seed's colour; missing: the fill colour equals the seed's colour, where the loop need not
terminate (`C44_negation`).  `3·w·h + 2` rounds of the outer loop suffice. -/
theorem C44_fill_partial (im : Image α) (x y : Nat) (f : α) (hx : x < im.w) (hy : y < im.h)
    (hf : f ≠ im.px x y) (n : Nat) (hn : 3 * (im.w * im.h) + 2 ≤ n) :
    ∃ out, floodFill n im x y f = some out ∧ out.w = im.w ∧ out.h = im.h ∧
      ∀ a b : Nat, a < im.w → b < im.h →
        (InRegion im (im.px x y) (x, y) (a, b) → out.px a b = f) ∧
        (¬ InRegion im (im.px x y) (x, y) (a, b) → out.px a b = im.px a b) := by
  unfold floodFill
  rw [Image.get_of_inB hx hy, Option.bind_some]
  have ht : HasColour im (im.px x y) (x, y) :=
    ⟨by dsimp only; omega, by dsimp only; omega, by dsimp only; omega, by dsimp only; omega, rfl⟩
  have hc := colourCount_le im (im.px x y)
  obtain ⟨out, h1, I⟩ := floodLoop_spec hf n im [⟨x, x, (y : Int) - 1, -1⟩, ⟨x, x, y, 1⟩]
    (by simp only [List.length_cons, List.length_nil]; omega) (floodInv_init _ f im x y)
  refine ⟨out, h1, I.w, I.h, fun a b ha hb => ?_⟩
  have noCov : ∀ q, ¬ Cov [] q := by rintro q ⟨S, hS, -⟩; cases hS
  have reg : ∀ p, InRegion im (im.px x y) (x, y) p → Nf (im.px x y) im out p := by
    intro p hp
    induction hp with
    | refl => exact ⟨ht, fun h => noCov _ (I.seed h)⟩
    | tail _ h ih => exact ⟨h.2, fun h' => noCov _ (I.front _ _ ih h.1 h')⟩
  have hab : ∀ im' : Image α, im'.w = im.w → im'.h = im.h →
      (HasColour im' (im.px x y) (a, b) ↔ im'.px a b = im.px x y) := by
    intro im' hw hh
    unfold HasColour
    rw [hw, hh]
    dsimp only
    rw [Int.toNat_natCast, Int.toNat_natCast]
    exact ⟨fun h => h.2.2.2.2, fun h => ⟨by omega, by omega, by omega, by omega, h⟩⟩
  constructor
  · intro h
    obtain ⟨h2, h3⟩ := reg _ h
    rcases I.upd a b with h4 | h4
    · rw [hab im rfl rfl] at h2
      rw [hab out I.w I.h, h4] at h3
      exact absurd h2 h3
    · exact h4.2
  · intro h
    rcases I.upd a b with h4 | h4
    · exact h4
    · exfalso
      refine h (I.filled _ ⟨h4.1, fun h5 => ?_⟩)
      rw [hab out I.w I.h, h4.2] at h5
      exact hf h5

/-- C44: a seed outside the image is rejected by a panic. -/
theorem C44_outside (im : Image α) (x y : Nat) (f : α) (h : ¬ (x < im.w ∧ y < im.h)) (n : Nat) :
    floodFill n im x y f = none := by
  unfold floodFill Image.get
  rw [if_neg (by unfold Image.InB; omega)]
  rfl

/-- A U-shaped region: the arms are joined only through the bottom row, the pixel at `(4, 0)`
touches the region only diagonally. -/
def fillExample : Image Nat := ⟨5, 3, fun x y => if (x = 1 ∧ y < 2) ∨ (x = 3 ∧ y = 1) ∨
  (x = 3 ∧ y = 0) then 7 else if x = 4 ∧ y = 2 then 5 else 0⟩

example : (floodFill 47 fillExample 0 0 9).map (fun im => (List.range 3).map fun y =>
    (List.range 5).map fun x => im.px x y) =
    some [[9, 7, 9, 7, 0], [9, 7, 9, 7, 0], [9, 9, 9, 9, 5]] := by decide +kernel

/-! #### The loop does not stop when the fill colour is the seed's colour -/

/-- A `2 × 2` image of one colour. -/
def uniform2 : Image Nat := ⟨2, 2, fun _ _ => 0⟩

theorem uniform2_put (x y : Nat) (hx : x < 2) (hy : y < 2) : uniform2.put x y 0 = some uniform2 := by
  rw [Image.put_of_inB _ (show x < uniform2.w from hx) (show y < uniform2.h from hy)]
  simp [uniform2]

theorem uniform2_inside (x y : Int) :
    inside uniform2 x y 0 = decide (0 ≤ x ∧ x < 2 ∧ 0 ≤ y ∧ y < 2) := by
  rw [Bool.eq_iff_iff, inside_iff, decide_eq_true_iff]
  unfold HasColour uniform2
  simp

theorem uniform2_round1 : processSpan 0 0 uniform2 ⟨0, 0, 0, -1⟩ =
    some (uniform2, [⟨1, 1, 1, 1⟩, ⟨0, 1, -1, -1⟩]) := by
  simp [processSpan, leftPart, fillLeft, fillRight, rowLoop, skipOut, runPushes, uniform2_inside,
    uniform2_put, show uniform2.w = 2 from rfl]

theorem uniform2_round2 : processSpan 0 0 uniform2 ⟨1, 1, 1, 1⟩ =
    some (uniform2, [⟨0, 1, 2, 1⟩, ⟨0, 0, 0, -1⟩]) := by
  simp [processSpan, leftPart, fillLeft, fillRight, rowLoop, skipOut, runPushes, uniform2_inside,
    uniform2_put, show uniform2.w = 2 from rfl]

theorem uniform2_round3 : processSpan 0 0 uniform2 ⟨0, 1, 2, 1⟩ = some (uniform2, []) := by
  simp [processSpan, leftPart, fillRight, rowLoop, skipOut, runPushes, uniform2_inside]

theorem uniform2_loop : ∀ (n : Nat) (st : List Span),
    floodLoop 0 0 n uniform2 (⟨0, 0, 0, -1⟩ :: st) = none
  | 0, st => rfl
  | 1, st => by rw [floodLoop, uniform2_round1]; rfl
  | 2, st => by
    rw [floodLoop, uniform2_round1, Option.bind_some]
    dsimp only [List.cons_append]
    rw [floodLoop, uniform2_round2]; rfl
  | n + 3, st => by
    rw [floodLoop, uniform2_round1, Option.bind_some]
    dsimp only [List.cons_append]
    rw [floodLoop, uniform2_round2, Option.bind_some]
    dsimp only [List.cons_append]
    rw [floodLoop, uniform2_round3, Option.bind_some]
    exact uniform2_loop n _

/-- C44, counterexample: filling a `2 × 2` image of one colour with that same colour, starting
from `(0, 1)`, never stops. -/
theorem C44_negation : ∀ n, floodFill n uniform2 0 1 0 = none := by
  intro n
  rw [floodFill, Image.get_of_inB (show 0 < uniform2.w by decide) (show 1 < uniform2.h by decide),
    Option.bind_some]
  exact uniform2_loop n _

end Verif.Drawing
