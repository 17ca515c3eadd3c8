import Verif.Float.Polygon
import Verif.Float.AntiLine
import Verif.Drawing.OutlineProps
import Mathlib.Data.List.Rotate
/-
C184: what is drawn does not depend on how it is described: lines on the order of their end points,
polygons on the first vertex and (exact arithmetic) on the orientation.
-/
namespace Verif.Relations
open Verif.Drawing Verif.Float Verif.Definitions

universe u
variable {α : Type _}

/-! ### Lines -/

/-- **C184.** Exchanging the end points of a line gives the same pixels in the same order, for all
end points. -/
theorem C184_line (s e : ℚ × ℚ) : bresenham e s = bresenham s e := by
  unfold bresenham
  congr 1
  unfold Bres.new Bres.ordered
  rw [abs_sub_comm s.2 e.2, abs_sub_comm s.1 e.1]
  split
  · rename_i h
    have hne : e.2 ≠ s.2 := by
      intro hc
      rw [hc, sub_self, abs_zero] at h
      exact absurd (abs_nonneg (e.1 - s.1)) (not_le.2 h)
    rcases lt_or_gt_of_ne hne with h1 | h1
    · rw [if_neg (not_lt.2 h1.le), if_pos h1]
    · rw [if_pos h1, if_neg (not_lt.2 h1.le)]
  · rename_i h
    rcases lt_trichotomy e.1 s.1 with h1 | h1 | h1
    · rw [if_neg (not_lt.2 h1.le), if_pos h1]
    · have h2 : e.2 = s.2 := by
        rw [not_lt, h1, sub_self, abs_zero] at h
        exact sub_eq_zero.1 (abs_nonpos_iff.1 h)
      rw [Prod.ext h1 h2]
    · rw [if_pos h1, if_neg (not_lt.2 h1.le)]

theorem abs_rnd_sub (a b : ℚ) : |rnd32 (a - b)| = |rnd32 (b - a)| := by
  have : rnd32 (b - a) = -rnd32 (a - b) := by
    rw [← neg_sub a b]; exact rnd_neg _
  rw [this, abs_neg]

/-- The difference of distinct `f32` numbers is not rounded to zero. -/
theorem rnd_sub_eq_zero {a b : ℚ} (ha : Rep 24 (-149) a) (hb : Rep 24 (-149) b) (h : rnd32 (a - b) = 0) :
    a = b := by
  have := rnd_sub_error (K := ℚ) (p := 24) (emin := -149) (by norm_num) ha hb
  rw [show rnd 24 (-149) (a - b) = 0 from h, zero_sub, abs_neg] at this
  by_contra hne
  have hp : 0 < |a - b| := abs_pos.2 (sub_ne_zero.2 hne)
  norm_num at this
  linarith

/-- **C184.** The same in single precision, for all `f32` end points. -/
theorem C184_line32 (s e : ℚ × ℚ) (hs : Rep 24 (-149) s.1 ∧ Rep 24 (-149) s.2)
    (he : Rep 24 (-149) e.1 ∧ Rep 24 (-149) e.2) : bresenham32 e s = bresenham32 s e := by
  have key : new32 e s = new32 s e := by
    unfold new32 ordered32
    rw [abs_rnd_sub s.2 e.2, abs_rnd_sub s.1 e.1]
    split
    · rename_i h
      have hne : e.2 ≠ s.2 := by
        intro hc
        rw [hc, sub_self, show rnd32 (0 : ℚ) = 0 from rnd_zero, abs_zero] at h
        exact absurd (abs_nonneg (rnd32 (e.1 - s.1))) (not_le.2 h)
      rcases lt_or_gt_of_ne hne with h1 | h1
      · rw [if_neg (not_lt.2 h1.le), if_pos h1]
      · rw [if_pos h1, if_neg (not_lt.2 h1.le)]
    · rename_i h
      rcases lt_trichotomy e.1 s.1 with h1 | h1 | h1
      · rw [if_neg (not_lt.2 h1.le), if_pos h1]
      · have h2 : e.2 = s.2 := by
          rw [not_lt, h1, sub_self, show rnd32 (0 : ℚ) = 0 from rnd_zero, abs_zero] at h
          exact rnd_sub_eq_zero he.2 hs.2 (abs_nonpos_iff.1 h)
        rw [Prod.ext h1 h2]
      · rw [if_pos h1, if_neg (not_lt.2 h1.le)]
  unfold bresenham32
  rw [key]

/-- **C184.** Drawing a line (exactly and in single precision), iterating over the pixels of a line
and drawing an antialiased line do not depend on the order of the end points; in particular
iteration always starts at the same end. -/
theorem C184_draw_line (op : α → α → α) (blend : α → α → ℚ → α) (im : Image α) (c : α) :
    (∀ s e : ℚ × ℚ, drawLine op im e s c = drawLine op im s e c ∧
      pixelIterCoords im e s = pixelIterCoords im s e ∧ pixelIter im e s = pixelIter im s e) ∧
    (∀ s e : ℚ × ℚ, Rep 24 (-149) s.1 ∧ Rep 24 (-149) s.2 → Rep 24 (-149) e.1 ∧ Rep 24 (-149) e.2 →
      drawLine32 op im e s c = drawLine32 op im s e c) ∧
    ∀ s e : Int × Int, drawAntialiased blend im e s c = drawAntialiased blend im s e c ∧
      drawAntialiased32 blend im e s c = drawAntialiased32 blend im s e c := by
  have it : ∀ s e : ℚ × ℚ, pixelIterCoords im e s = pixelIterCoords im s e := by
    intro s e
    unfold pixelIterCoords
    rw [C184_line]
  refine ⟨fun s e => ⟨?_, it s e, ?_⟩, fun s e hs he => ?_, fun s e => ?_⟩
  · unfold drawLine; rw [C184_line]
  · unfold pixelIter; rw [it]
  · unfold drawLine32; rw [C184_line32 s e hs he]
  · have key : (¬ |e.2 - s.2| > |e.1 - s.1|) → e.1 = s.1 → e = s := by
      intro h h1
      rw [h1, sub_self, abs_zero, gt_iff_lt, not_lt] at h
      exact Prod.ext h1 (sub_eq_zero.1 (abs_nonpos_iff.1 h))
    unfold drawAntialiased drawAntialiased32
    rw [abs_sub_comm s.2 e.2, abs_sub_comm s.1 e.1]
    by_cases h : |e.2 - s.2| > |e.1 - s.1|
    · simp only [if_pos h]
      have hne : e.2 ≠ s.2 := by
        intro hc
        rw [hc, sub_self, abs_zero] at h
        exact absurd (abs_nonneg (e.1 - s.1)) (not_le.2 h)
      rcases lt_or_gt_of_ne hne with h1 | h1
      · simp only [if_neg (not_lt.2 h1.le), if_pos h1, gt_iff_lt, and_self]
      · simp only [if_neg (not_lt.2 h1.le), if_pos h1, gt_iff_lt, and_self]
    · simp only [if_neg h]
      rcases lt_trichotomy e.1 s.1 with h1 | h1 | h1
      · simp only [if_neg (not_lt.2 h1.le), if_pos h1, gt_iff_lt, and_self]
      · rw [key h h1]; exact ⟨rfl, rfl⟩
      · simp only [if_neg (not_lt.2 h1.le), if_pos h1, gt_iff_lt, and_self]

/-! ### Polygons -/

/-- All edges of the closed path, degenerate ones included. -/
def cycEdges {β : Type _} (l : List β) : List (β × β) := l.zip (l.rotate 1)

/-- The painted pixels, for given edges and positions of crossings. -/
def Painted (cross : Int → Int × Int → Int × Int → Int) (edges : List ((Int × Int) × (Int × Int)))
    (a b : Int) : Prop :=
  (∃ e ∈ edges, (a, b) ∈ bresenham ((e.1.1 : ℚ), (e.1.2 : ℚ)) ((e.2.1 : ℚ), (e.2.2 : ℚ))) ∨
  EvenOddWith (crossingsWith cross) edges a b

theorem painted_perm {cross : Int → Int × Int → Int × Int → Int} {l l' : List ((Int × Int) × (Int × Int))}
    (h : l.Perm l') (a b : Int) : Painted cross l a b ↔ Painted cross l' a b := by
  unfold Painted EvenOddWith
  have hf := h.flatMap_right (crossingsWith cross b)
  rw [hf.mem_iff, hf.countP_eq]
  simp only [h.mem_iff]

theorem painted_swap {cross : Int → Int × Int → Int × Int → Int} {l : List ((Int × Int) × (Int × Int))}
    (hc : ∀ y p q, p.2 ≠ q.2 → cross y q p = cross y p q) (a b : Int) :
    Painted cross (l.map Prod.swap) a b ↔ Painted cross l a b := by
  unfold Painted EvenOddWith
  have hf : ((l.map Prod.swap).flatMap (crossingsWith cross b)).Perm (l.flatMap (crossingsWith cross b)) := by
    rw [List.flatMap_map]
    refine List.Perm.flatMap_left l fun e _ => ?_
    obtain ⟨p, q⟩ := e
    unfold crossingsWith
    simp only [Prod.swap_prod_mk, eq_comm (a := q.2) (b := p.2), min_comm q.2 p.2, max_comm q.2 p.2]
    by_cases h : p.2 = q.2
    · rw [if_pos h, if_pos h, h]
      split
      · exact List.Perm.swap _ _ _
      · exact List.Perm.refl _
    · rw [if_neg h, if_neg h, hc b p q h]
  rw [hf.mem_iff, hf.countP_eq]
  refine or_congr ?_ Iff.rfl
  simp only [List.mem_map]
  constructor
  · rintro ⟨e, ⟨e', he, rfl⟩, h⟩
    exact ⟨e', he, by rw [← C184_line]; exact h⟩
  · rintro ⟨e, he, h⟩
    exact ⟨_, ⟨e, he, rfl⟩, by rw [← C184_line]; exact h⟩

theorem cycEdges_rotate {β : Type _} (l : List β) (n : Nat) : cycEdges (l.rotate n) = (cycEdges l).rotate n := by
  unfold cycEdges List.zip
  rw [List.zipWith_rotate_distrib _ _ _ _ (by rw [List.length_rotate]), List.rotate_rotate, List.rotate_rotate,
    Nat.add_comm]

theorem zip_reverse {β γ : Type _} (l : List β) (l' : List γ) (h : l.length = l'.length) :
    l.reverse.zip l'.reverse = (l.zip l').reverse := by
  refine List.ext_getElem (by simp) fun i h1 h2 => ?_
  simp only [List.getElem_zip, List.getElem_reverse, List.length_zip]
  simp only [h, min_self]

theorem cycEdges_reverse {β : Type _} (l : List β) : (cycEdges l.reverse).Perm ((cycEdges l).map Prod.swap) := by
  rcases l.length.eq_zero_or_pos with h | h
  · rw [List.length_eq_zero_iff] at h
    subst h
    exact List.Perm.refl _
  have e1 : cycEdges l.reverse = (l.zip (l.rotate (l.length - 1))).reverse := by
    unfold cycEdges
    rw [← zip_reverse _ _ (by rw [List.length_rotate]), List.rotate_reverse]
    by_cases h1 : l.length = 1
    · obtain ⟨a, rfl⟩ := List.length_eq_one_iff.1 h1
      simp
    · rw [Nat.mod_eq_of_lt (by omega)]
  have e2 : (l.zip (l.rotate (l.length - 1))).rotate 1 = (cycEdges l).map Prod.swap := by
    unfold cycEdges
    rw [List.zip_swap]
    unfold List.zip
    rw [List.zipWith_rotate_distrib _ _ _ _ (by rw [List.length_rotate]), List.rotate_rotate,
      Nat.sub_add_cancel h, List.rotate_length]
  rw [e1, ← e2]
  exact (List.reverse_perm _).trans (List.rotate_perm _ _).symm

theorem windows2_append {β : Type _} (l : List β) (f : β) (hl : l ≠ []) :
    windows2 (l ++ [f]) = windows2 l ++ [(l.getLast hl, f)] := by
  induction l with
  | nil => exact absurd rfl hl
  | cons a l ih =>
    cases l with
    | nil => rfl
    | cons b l =>
      have := ih (by simp)
      unfold windows2 at this ⊢
      simp only [List.cons_append, List.tail_cons, List.zip_cons_cons] at this ⊢
      rw [this]
      simp

theorem cycEdges_eq {β : Type _} (f : β) (rest : List β) :
    cycEdges (f :: rest) = windows2 ((f :: rest) ++ [f]) := by
  unfold cycEdges windows2
  rw [List.rotate_cons_succ, List.rotate_zero, List.cons_append, List.tail_cons]
  have : ((f :: rest) ++ [f]).zip ((rest ++ [f]) ++ []) = (f :: rest).zip (rest ++ [f]) ++ [f].zip [] :=
    List.zip_append (by simp)
  simpa using this.symm

/-- Closing the path adds at most an edge without length, which paints nothing new. -/
theorem painted_cyc (cross : Int → Int × Int → Int × Int → Int) (poly : List (Int × Int))
    (h : 2 ≤ poly.length) (a b : Int) :
    Painted cross (polyEdges poly) a b ↔ Painted cross (cycEdges poly) a b := by
  cases poly with
  | nil => simp at h
  | cons f rest =>
    rw [cycEdges_eq, polyEdges_cons]
    unfold closePoly
    by_cases hf : f = (f :: rest).getLast (by simp)
    · rw [if_neg (fun h => h hf), windows2_append _ _ (by simp), ← hf]
      -- the extra edge is `(f, f)`
      obtain ⟨e, he, hep⟩ := windows2_cover (f :: rest) h f (by simp)
      have hline : f ∈ bresenham ((e.1.1 : ℚ), (e.1.2 : ℚ)) ((e.2.1 : ℚ), (e.2.2 : ℚ)) := by
        rcases hep with h | h
        · rw [← h]; exact (bresenham_ends e.1 e.2).1
        · rw [← h]; exact (bresenham_ends e.1 e.2).2
      unfold Painted EvenOddWith
      simp only [List.flatMap_append, List.flatMap_cons, List.flatMap_nil, List.append_nil, List.countP_append,
        List.mem_append, List.mem_singleton]
      have hcnt : Even ((crossingsWith cross b (f, f)).countP (· < a)) := by
        unfold crossingsWith
        dsimp only
        rw [if_pos rfl]
        split
        · by_cases hl : f.1 < a <;> simp [hl]
        · simp
      have hmem : a ∈ crossingsWith cross b (f, f) → (a, b) = f := by
        unfold crossingsWith
        dsimp only
        rw [if_pos rfl]
        split
        · rename_i hb
          intro hm
          simp only [List.mem_cons, List.not_mem_nil, or_false, or_self] at hm
          exact Prod.ext hm hb.symm
        · intro hm; simp at hm
      constructor
      · rintro (⟨e, he, h⟩ | h | h)
        · exact Or.inl ⟨e, Or.inl he, h⟩
        · exact Or.inr (Or.inl (Or.inl h))
        · exact Or.inr (Or.inr (h.add_even hcnt))
      · rintro (⟨e', he' | rfl, h⟩ | (h | h) | h)
        · exact Or.inl ⟨e', he', h⟩
        · have hb := (C42_bresenham f f).box _ h
          have hab : (a, b) = f := Prod.ext (by dsimp only at *; omega) (by dsimp only at *; omega)
          exact Or.inl ⟨e, he, by rw [hab]; exact hline⟩
        · exact Or.inr (Or.inl h)
        · exact Or.inl ⟨e, he, by rw [hmem h]; exact hline⟩
        · refine Or.inr (Or.inr ?_)
          rcases Nat.even_or_odd ((List.flatMap (crossingsWith cross b) (windows2 (f :: rest))).countP (· < a)) with he | he
          · exact absurd (he.add hcnt) (Nat.not_even_iff_odd.2 h)
          · exact he
    · rw [if_pos hf]

/-- Specification: the same list of vertices read from another starting vertex, or backwards. -/
theorem painted_rotate (cross : Int → Int × Int → Int × Int → Int) (poly : List (Int × Int)) (n : Nat)
    (a b : Int) : Painted cross (polyEdges (poly.rotate n)) a b ↔ Painted cross (polyEdges poly) a b := by
  by_cases h : 2 ≤ poly.length
  · rw [painted_cyc cross poly h, painted_cyc cross _ (by rw [List.length_rotate]; exact h), cycEdges_rotate]
    exact painted_perm (List.rotate_perm _ _) a b
  · have : poly.rotate n = poly := by
      rcases poly with _ | ⟨p, _ | ⟨q, l⟩⟩
      · simp
      · simp
      · simp at h
    rw [this]

theorem painted_reverse (cross : Int → Int × Int → Int × Int → Int)
    (hc : ∀ y p q, p.2 ≠ q.2 → cross y q p = cross y p q) (poly : List (Int × Int))
    (a b : Int) : Painted cross (polyEdges poly.reverse) a b ↔ Painted cross (polyEdges poly) a b := by
  by_cases h : 2 ≤ poly.length
  · rw [painted_cyc cross poly h, painted_cyc cross _ (by rw [List.length_reverse]; exact h),
      painted_perm (cycEdges_reverse poly), painted_swap hc]
  · have : poly.reverse = poly := by
      rcases poly with _ | ⟨p, _ | ⟨q, l⟩⟩
      · simp
      · simp
      · simp at h
    rw [this]

theorem crossings_with (y : Int) : crossings y = crossingsWith crossQ y := by
  funext e
  unfold crossings crossingsWith crossQ
  push_cast
  rfl

theorem inPolygon_painted (poly : List (Int × Int)) (a b : Int) :
    InPolygon poly a b ↔ Painted crossQ (polyEdges poly) a b := by
  unfold InPolygon Painted EvenOdd EvenOddWith
  rw [crossings_with]

theorem crossQ_swap (y : Int) (p q : Int × Int) (h : p.2 ≠ q.2) : crossQ y q p = crossQ y p q := by
  unfold crossQ
  dsimp only
  congr 1
  have hz : ((q.2 : ℚ) - p.2) ≠ 0 := sub_ne_zero.2 (by exact_mod_cast h.symm)
  have hz' : ((p.2 : ℚ) - q.2) ≠ 0 := sub_ne_zero.2 (by exact_mod_cast h)
  push_cast
  field_simp
  ring

/-- Specification: two results that are images with the same pixels. -/
def SameResult (r r' : Option (Image α)) : Prop :=
  ∃ o o', r = some o ∧ r' = some o' ∧ o'.w = o.w ∧ o'.h = o.h ∧
    ∀ x y, x < o.w → y < o.h → o'.px x y = o.px x y

theorem sameResult_of {im : Image α} {c : α} {r r' : Option (Image α)} {S S' : Int → Int → Prop}
    (hS : ∀ a b, S' a b ↔ S a b)
    (h : ∃ o, r = some o ∧ o.w = im.w ∧ o.h = im.h ∧ ∀ a b : Nat, im.InB a b → ∃ n : Nat, (0 < n ↔ S a b) ∧
      o.px a b = (fun v => overwrite v c)^[n] (im.px a b))
    (h' : ∃ o, r' = some o ∧ o.w = im.w ∧ o.h = im.h ∧ ∀ a b : Nat, im.InB a b → ∃ n : Nat, (0 < n ↔ S' a b) ∧
      o.px a b = (fun v => overwrite v c)^[n] (im.px a b)) : SameResult r r' := by
  obtain ⟨o, e, w, hh, hp⟩ := h
  obtain ⟨o', e', w', hh', hp'⟩ := h'
  refine ⟨o, o', e, e', by omega, by omega, fun x y hx hy => ?_⟩
  obtain ⟨n, h1, h2⟩ := hp x y ⟨by omega, by omega⟩
  obtain ⟨n', h1', h2'⟩ := hp' x y ⟨by omega, by omega⟩
  have it : ∀ (n : Nat) (v : α), (fun v => overwrite v c)^[n] v = if 0 < n then c else v := by
    intro n v
    cases n with
    | zero => rfl
    | succ n => rw [Function.iterate_succ_apply', if_pos (Nat.succ_pos n)]; rfl
  rw [h2, h2', it, it]
  exact if_congr (h1'.trans ((hS _ _).trans h1.symm)) rfl rfl

/-- **C184.** A filled polygon (exact arithmetic) does not depend on the vertex at which the list
starts, nor on the orientation. -/
theorem C184_polygon (im : Image α) (hh : 0 < im.h) (poly : List (Int × Int)) (c : α) :
    (∀ n, SameResult (drawPolygon overwrite im poly c) (drawPolygon overwrite im (poly.rotate n) c)) ∧
    SameResult (drawPolygon overwrite im poly c) (drawPolygon overwrite im poly.reverse c) := by
  constructor
  · intro n
    refine sameResult_of (fun a b => ?_) (C47_fill overwrite im hh poly c) (C47_fill overwrite im hh _ c)
    rw [inPolygon_painted, inPolygon_painted, painted_rotate]
  · refine sameResult_of (fun a b => ?_) (C47_fill overwrite im hh poly c) (C47_fill overwrite im hh _ c)
    rw [inPolygon_painted, inPolygon_painted, painted_reverse _ crossQ_swap]

/-- **C184.** In single precision a filled polygon with coordinates up to 2^22 does not depend on the vertex at
which the list starts.  Missing: the orientation, see `C184_negation`. -/
theorem C184_polygon32_partial (im : Image α) (hh : 0 < im.h) (poly : List (Int × Int))
    (hB : CoordsLe (2 ^ 22) poly) (c : α) (n : Nat) :
    SameResult (drawPolygon32 overwrite im poly c) (drawPolygon32 overwrite im (poly.rotate n) c) := by
  have hB' : CoordsLe (2 ^ 22) (poly.rotate n) := fun p hp => hB p (List.mem_rotate.1 hp)
  exact sameResult_of (fun a b => painted_rotate cross32 poly n a b) (C132_fill overwrite im hh poly hB c)
    (C132_fill overwrite im hh _ hB' c)

/-- **C184.** In single precision the orientation of the polygon is visible: with the vertices in the
other order a further pixel is painted. -/
theorem C184_negation :
    (drawPolygon32 overwrite (Image.new 12 23 0) [(0, 0), (11, 22), (0, 22)] 1).map
      (fun o => o.px 7 13) = some 0 ∧
    (drawPolygon32 overwrite (Image.new 12 23 0) [(0, 22), (11, 22), (0, 0)] 1).map
      (fun o => o.px 7 13) = some 1 := by
  decide +kernel

theorem mem_polyEdges_cyc {poly : List (Int × Int)} {e : (Int × Int) × (Int × Int)} :
    (e ∈ polyEdges poly → e ∈ cycEdges poly) ∧ (e.1 ≠ e.2 → e ∈ cycEdges poly → e ∈ polyEdges poly) := by
  cases poly with
  | nil => exact ⟨fun h => by simp [polyEdges] at h, fun _ h => by simp [cycEdges] at h⟩
  | cons f rest =>
    rw [cycEdges_eq, polyEdges_cons]
    unfold closePoly
    by_cases hf : f = (f :: rest).getLast (by simp)
    · rw [if_neg (fun h => h hf), windows2_append _ _ (by simp), ← hf]
      refine ⟨fun h => List.mem_append_left _ h, fun hne h => ?_⟩
      rcases List.mem_append.1 h with h | h
      · exact h
      · rw [List.mem_singleton] at h
        subst h
        exact absurd rfl hne
    · rw [if_pos hf]
      exact ⟨fun h => h, fun _ h => h⟩

theorem idealX_swap (y : Int) (p q : Int × Int) (h : p.2 ≠ q.2) : idealX y q p = idealX y p q := by
  unfold idealX
  have hz : ((q.2 : ℚ) - p.2) ≠ 0 := sub_ne_zero.2 (by exact_mod_cast h.symm)
  have hz' : ((p.2 : ℚ) - q.2) ≠ 0 := sub_ne_zero.2 (by exact_mod_cast h)
  field_simp
  ring

/-- **C184.** In single precision the filled polygon does not depend on the orientation either if its vertices
lie in a canvas of `W` by `H` with `5 W H < 2 ^ 24` and no edge crosses a row exactly half-way between two
columns.  Missing: such rows, for which it can (`C184_negation`), and larger canvases. -/
theorem C184_orientation32_partial (im : Image α) (hh : 0 < im.h) (poly : List (Int × Int)) (c : α)
    (W H : Int) (hW : W ≤ 2 ^ 22) (hH : H ≤ 2 ^ 22) (hWH : 5 * W * H < 2 ^ 24)
    (hv : ∀ p ∈ poly, 0 ≤ p.1 ∧ p.1 ≤ W ∧ 0 ≤ p.2 ∧ p.2 ≤ H)
    (htie : ∀ e ∈ polyEdges poly, e.1.2 ≠ e.2.2 → ∀ y, min e.1.2 e.2.2 < y → y < max e.1.2 e.2.2 →
      ∀ k : Int, 2 * idealX y e.1 e.2 ≠ 2 * k + 1) :
    SameResult (drawPolygon32 overwrite im poly c) (drawPolygon32 overwrite im poly.reverse c) := by
  rw [C132_exact_partial overwrite im poly c W H hW hH hWH hv htie,
    C132_exact_partial overwrite im poly.reverse c W H hW hH hWH (fun p hp => hv p (List.mem_reverse.1 hp))]
  · exact (C184_polygon im hh poly c).2
  · rintro ⟨p, q⟩ he hne y h1 h2 k
    have hm := (cycEdges_reverse poly).mem_iff.1 (mem_polyEdges_cyc.1 he)
    obtain ⟨e', he', e⟩ := List.mem_map.1 hm
    obtain rfl : e' = (q, p) := by rw [← Prod.swap_swap e', e]; rfl
    dsimp only at *
    have := htie (q, p) (mem_polyEdges_cyc.2 (fun h => hne (congrArg Prod.snd h.symm)) he') hne.symm y
      (by dsimp only; omega) (by dsimp only; omega) k
    rwa [idealX_swap y p q hne] at this

/-! ### Outlines -/

theorem hollow_pixels (im : Image α) (poly : List (Int × Int)) (h2 : 2 ≤ poly.length) (c : α) :
    ∃ o, drawHollowPolygon overwrite im (poly.map fun p => ((p.1 : ℚ), (p.2 : ℚ))) c = some o ∧
      o.w = im.w ∧ o.h = im.h ∧ ∀ a b : Nat, im.InB a b → ∃ n : Nat,
        (0 < n ↔ ∃ e ∈ cycEdges poly, ((a : Int), (b : Int)) ∈ segPts e.1 e.2) ∧
        o.px a b = (fun v => overwrite v c)^[n] (im.px a b) := by
  rw [hollowPolygon_eq overwrite im poly h2 c]
  obtain ⟨o, e, w, h, hp⟩ := drawList_overwrite im c ((windows2 poly).flatMap (fun e => segPts e.1 e.2) ++
        (if poly[0] ≠ poly[poly.length - 1] then segPts poly[0] poly[poly.length - 1] else []))
  refine ⟨o, e, w, h, fun a b hab => ?_⟩
  rw [hp a b hab]
  have key : ((a : Int), (b : Int)) ∈ ((windows2 poly).flatMap (fun e => segPts e.1 e.2) ++
        (if poly[0] ≠ poly[poly.length - 1] then segPts poly[0] poly[poly.length - 1] else [])) ↔
      ∃ e ∈ cycEdges poly, ((a : Int), (b : Int)) ∈ segPts e.1 e.2 := by
    obtain ⟨f, rest, rfl⟩ : ∃ f rest, poly = f :: rest := by
      match poly, h2 with
      | f :: rest, _ => exact ⟨f, rest, rfl⟩
    have hl : (f :: rest)[(f :: rest).length - 1] = (f :: rest).getLast (by simp) := by
      rw [List.getLast_eq_getElem]
    rw [cycEdges_eq, windows2_append _ _ (by simp), hl, List.getElem_cons_zero, List.mem_append, List.mem_flatMap]
    have hsw : segPts ((f :: rest).getLast (by simp)) f = segPts f ((f :: rest).getLast (by simp)) := C184_line _ _
    simp only [List.mem_append, List.mem_singleton]
    constructor
    · rintro (⟨e, he, h⟩ | h)
      · exact ⟨e, Or.inl he, h⟩
      · split at h
        · exact ⟨_, Or.inr rfl, by rw [hsw]; exact h⟩
        · simp at h
    · rintro ⟨e, he | rfl, h⟩
      · exact Or.inl ⟨e, he, h⟩
      · dsimp only at h
        rw [hsw] at h
        by_cases hf : f = (f :: rest).getLast (by simp)
        · obtain ⟨e, he, hep⟩ := windows2_cover (f :: rest) h2 f (by simp)
          have hline : f ∈ segPts e.1 e.2 := by
            rcases hep with h | h
            · rw [← h]; exact (bresenham_ends e.1 e.2).1
            · rw [← h]; exact (bresenham_ends e.1 e.2).2
          rw [← hf] at h
          have hb := (C42_bresenham f f).box _ h
          have hab : ((a : Int), (b : Int)) = f :=
            Prod.ext (by dsimp only at *; omega) (by dsimp only at *; omega)
          exact Or.inl ⟨e, he, by rw [hab]; exact hline⟩
        · rw [if_pos hf]
          exact Or.inr h
  by_cases hm : ∃ e ∈ cycEdges poly, ((a : Int), (b : Int)) ∈ segPts e.1 e.2
  · exact ⟨1, ⟨fun _ => hm, fun _ => Nat.one_pos⟩, by rw [if_pos (key.2 hm)]; rfl⟩
  · exact ⟨0, ⟨fun h => absurd h (Nat.lt_irrefl 0), fun h => absurd h hm⟩,
      by rw [if_neg (fun h => hm (key.1 h))]; rfl⟩

/-- **C184.** The outline of a polygon does not depend on the first vertex nor on the orientation. -/
theorem C184_hollow (im : Image α) (poly : List (Int × Int)) (h2 : 2 ≤ poly.length) (c : α) :
    let draw := fun l : List (Int × Int) =>
      drawHollowPolygon overwrite im (l.map fun p => ((p.1 : ℚ), (p.2 : ℚ))) c
    (∀ n, SameResult (draw poly) (draw (poly.rotate n))) ∧ SameResult (draw poly) (draw poly.reverse) := by
  intro draw
  constructor
  · intro n
    refine sameResult_of (S := fun a b => ∃ e ∈ cycEdges poly, (a, b) ∈ segPts e.1 e.2)
      (S' := fun a b => ∃ e ∈ cycEdges (poly.rotate n), (a, b) ∈ segPts e.1 e.2) (fun a b => ?_)
      (hollow_pixels im poly h2 c) (hollow_pixels im _ (by rw [List.length_rotate]; exact h2) c)
    rw [cycEdges_rotate]
    simp only [List.mem_rotate]
  · refine sameResult_of (S := fun a b => ∃ e ∈ cycEdges poly, (a, b) ∈ segPts e.1 e.2)
      (S' := fun a b => ∃ e ∈ cycEdges poly.reverse, (a, b) ∈ segPts e.1 e.2) (fun a b => ?_)
      (hollow_pixels im poly h2 c) (hollow_pixels im _ (by rw [List.length_reverse]; exact h2) c)
    simp only [(cycEdges_reverse poly).mem_iff, List.mem_map]
    constructor
    · rintro ⟨e, ⟨e', he, rfl⟩, h⟩
      exact ⟨e', he, by unfold segPts at *; rw [← C184_line]; exact h⟩
    · rintro ⟨e, he, h⟩
      exact ⟨_, ⟨e, he, rfl⟩, by unfold segPts at *; rw [← C184_line]; exact h⟩

/-- Non-trivial instances: a line read backwards, and a triangle with another first vertex and the
other orientation. -/
example : bresenham (4, 1) (0, 2) = [(0, 2), (1, 2), (2, 2), (3, 1), (4, 1)] ∧
    bresenham (0, 2) (4, 1) = [(0, 2), (1, 2), (2, 2), (3, 1), (4, 1)] := by decide +kernel
example : (drawPolygon overwrite (Image.new 4 3 0) [(0, 0), (3, 0), (0, 2)] 1).map Image.rows =
      some [[1, 1, 1, 1], [1, 1, 1, 0], [1, 0, 0, 0]] ∧
    (drawPolygon overwrite (Image.new 4 3 0) [(3, 0), (0, 0), (0, 2)] 1).map Image.rows =
      some [[1, 1, 1, 1], [1, 1, 1, 0], [1, 0, 0, 0]] := by decide +kernel

end Verif.Relations
