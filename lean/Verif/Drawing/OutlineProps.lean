import Verif.Drawing.OutlineModel
import Verif.Drawing.PolygonProps
/-
Property theorems C99 (hollow rectangles), C100 (hollow polygons) and C101 (Bézier curves).
-/
namespace Verif.Drawing
open Verif.Definitions

universe u

theorem drawLine_eq {α : Type _} (op : α → α → α) (im : Image α) (s e : ℚ × ℚ) (c : α) :
    drawLine op im s e c =
      forList (bresenham s e) im fun p out => drawIfInBounds op out p.1 p.2 c := by
  unfold drawLine
  have key : ∀ (l : List (Int × Int)) (out : Image α), out.w = im.w → out.h = im.h →
      (forList l out fun p out =>
        if inBounds im p = true then drawPixel op out p.1.toNat p.2.toNat c else some out) =
      forList l out fun p out => drawIfInBounds op out p.1 p.2 c := by
    intro l
    induction l with
    | nil => intro out _ _; rfl
    | cons p l ih =>
      intro out hw hh
      rw [forList, forList, drawIfInBounds, hw, hh]
      have hb := inBounds_iff im p
      by_cases h : inBounds im p = true
      · have h' := hb.1 h
        rw [if_pos h, if_pos (by omega)]
        cases ho : drawPixel op out p.1.toNat p.2.toNat c with
        | none => rfl
        | some o =>
          obtain ⟨d1, d2⟩ := drawPixel_dims ho
          exact ih o (by omega) (by omega)
      · rw [if_neg h, if_neg (fun h' => h (hb.2 (by omega)))]
        exact ih out hw hh
  exact key _ im rfl rfl

/-- The points of the line between two pixels. -/
def segPts (p q : Int × Int) : List (Int × Int) :=
  bresenham ((p.1 : ℚ), (p.2 : ℚ)) ((q.1 : ℚ), (q.2 : ℚ))

theorem mem_vertical (u v x : Int) (huv : u ≤ v) (q : Int × Int) :
    q ∈ segPts (x, u) (x, v) ↔ u ≤ q.2 ∧ q.2 ≤ v ∧ q.1 = x := by
  constructor
  · intro h
    have := (C42_bresenham (x, u) (x, v)).box q h
    dsimp only at this
    omega
  · rintro ⟨h1, h2, h3⟩
    rcases huv.eq_or_lt with rfl | hlt
    · unfold segPts
      dsimp only
      rw [mem_horizontal _ _ _ le_rfl]; omega
    · have e : segPts (x, u) (x, v) = (Bres.mk' true (u : ℚ) (x : ℚ) (v : ℚ) (x : ℚ)).toList := by
        unfold segPts bresenham Bres.new
        dsimp only
        have hq : (u : ℚ) < v := by exact_mod_cast hlt
        rw [if_pos (by rw [sub_self, abs_zero]; exact abs_pos.2 (sub_ne_zero.2 hq.ne')),
          Bres.ordered, if_neg (not_lt.2 hq.le)]
      obtain ⟨f, hL, h0, -, hdev, -⟩ := Bres.run true u x v x huv (by simp; omega)
      rw [e, hL]
      refine List.mem_map.2 ⟨(q.2 - u).toNat, List.mem_range.2 (by omega), ?_⟩
      have := minor_range (v - u) x x (f (q.2 - u).toNat) (q.2 - u).toNat (by omega) (by omega)
        (fun h => by rw [show (q.2 - u).toNat = 0 by omega]; exact h0) (hdev _ (by omega))
      refine Prod.ext ?_ ?_
      · show f (q.2 - u).toNat = q.1; omega
      · show u + (((q.2 - u).toNat : Nat) : Int) = q.2; omega

/-- **C99.** For every image and rectangle (which has positive width and height), drawing the
hollow rectangle never fails and colours exactly the image pixels on the boundary of the rectangle. -/
theorem C99_hollow_rect {α : Type _} (im : Image α) (r : Rect) (hw : 0 < r.width)
    (hh : 0 < r.height) (c : α) :
    ∃ out, drawHollowRect overwrite im r c = some out ∧ out.w = im.w ∧ out.h = im.h ∧
      ∀ a b : Nat, im.InB a b →
        let x : Int := a
        let y : Int := b
        let border := (r.left ≤ x ∧ x < r.left + r.width ∧ r.top ≤ y ∧ y < r.top + r.height) ∧
          (x = r.left ∨ x = r.left + r.width - 1 ∨ y = r.top ∨ y = r.top + r.height - 1)
        (border → out.px a b = c) ∧ (¬ border → out.px a b = im.px a b) := by
  have h1 : r.left ≤ r.right := by unfold Rect.right; omega
  have h2 : r.top ≤ r.bottom := by unfold Rect.bottom; omega
  obtain ⟨o, g1, g2, g3, g4⟩ := drawList_overwrite im c
    (segPts (r.left, r.top) (r.right, r.top) ++ (segPts (r.left, r.bottom) (r.right, r.bottom) ++
      (segPts (r.left, r.top) (r.left, r.bottom) ++ segPts (r.right, r.top) (r.right, r.bottom))))
  have hm : ∀ q : Int × Int, q ∈ (segPts (r.left, r.top) (r.right, r.top) ++
      (segPts (r.left, r.bottom) (r.right, r.bottom) ++ (segPts (r.left, r.top) (r.left, r.bottom) ++
        segPts (r.right, r.top) (r.right, r.bottom)))) ↔
      ((r.left ≤ q.1 ∧ q.1 < r.left + r.width ∧ r.top ≤ q.2 ∧ q.2 < r.top + r.height) ∧
      (q.1 = r.left ∨ q.1 = r.left + r.width - 1 ∨ q.2 = r.top ∨ q.2 = r.top + r.height - 1)) := by
    intro q
    rw [List.mem_append, List.mem_append, List.mem_append, mem_vertical _ _ _ h2,
      mem_vertical _ _ _ h2]
    unfold segPts
    rw [mem_horizontal _ _ _ h1, mem_horizontal _ _ _ h1]
    unfold Rect.right Rect.bottom
    omega
  refine ⟨o, ?_, g2, g3, fun a b hab => ⟨fun h => ?_, fun h => ?_⟩⟩
  · rw [← g1]
    unfold drawHollowRect
    simp only [forList_append, drawLineInt_eq, segPts]
  · rw [g4 a b hab, if_pos ((hm _).2 h)]
  · rw [g4 a b hab, if_neg (fun h' => h ((hm _).1 h'))]

example : ((drawHollowRect overwrite (Image.new 5 4 0) ⟨1, 0, 3, 3⟩ 1).map Image.rows) =
    some [[0, 1, 1, 1, 0], [0, 1, 0, 1, 0], [0, 1, 1, 1, 0], [0, 0, 0, 0, 0]] := by decide +kernel
-- A rectangle of width one partly outside the image.
example : ((drawHollowRect overwrite (Image.new 2 3 0) ⟨1, -2, 1, 4⟩ 1).map Image.rows) =
    some [[0, 1], [0, 1], [0, 0]] := by decide +kernel

/-! ### Hollow polygons -/

theorem mem_windows2 {α : Type _} (l : List α) (e : α × α) :
    e ∈ windows2 l ↔ ∃ i, ∃ h : i + 1 < l.length, e = (l[i], l[i + 1]) := by
  unfold windows2
  rw [List.mem_iff_getElem]
  constructor
  · rintro ⟨i, hi, rfl⟩
    have hi' := hi
    rw [List.length_zip, List.length_tail] at hi'
    exact ⟨i, by omega, by rw [List.getElem_zip, List.getElem_tail]⟩
  · rintro ⟨i, hi, rfl⟩
    exact ⟨i, by rw [List.length_zip, List.length_tail]; omega,
      by rw [List.getElem_zip, List.getElem_tail]⟩

theorem windows2_map {α β : Type _} (f : α → β) (l : List α) :
    windows2 (l.map f) = (windows2 l).map fun e => (f e.1, f e.2) := by
  unfold windows2
  rw [← List.map_tail, List.zip_map]
  rfl

theorem forList_map {σ α β : Type _} (f : β → σ → Option σ) (g : α → β) (l : List α) (s : σ) :
    forList (l.map g) s f = forList l s fun a s => f (g a) s := by
  induction l generalizing s with
  | nil => rfl
  | cons a l ih =>
    rw [List.map_cons, forList, forList]
    cases f (g a) s with
    | none => rfl
    | some s' => exact ih s'

theorem GoodLine.start_mem {s e : Int × Int} {L : List (Int × Int)} (h : GoodLine s e L) : s ∈ L :=
  h.ends.elim (fun h => List.mem_of_mem_head? h.1) (fun h => List.mem_of_mem_getLast? h.2)

theorem GoodLine.end_mem {s e : Int × Int} {L : List (Int × Int)} (h : GoodLine s e L) : e ∈ L :=
  h.symm.start_mem

/-- The pixels drawn for a hollow polygon. -/
theorem hollowPolygon_eq {α : Type _} (op : α → α → α) (im : Image α) (poly : List (Int × Int))
    (h2 : 2 ≤ poly.length) (c : α) :
    drawHollowPolygon op im (poly.map fun p => ((p.1 : ℚ), (p.2 : ℚ))) c =
      forList ((windows2 poly).flatMap (fun e => segPts e.1 e.2) ++
        (if poly[0] ≠ poly[poly.length - 1] then segPts poly[0] poly[poly.length - 1] else [])) im
        fun p out => drawIfInBounds op out p.1 p.2 c := by
  obtain ⟨p, q, rest, rfl⟩ : ∃ p q rest, poly = p :: q :: rest := by
    match poly, h2 with
    | p :: q :: rest, _ => exact ⟨p, q, rest, rfl⟩
  rw [forList_append, forList_flatMap]
  show ((forList (windows2 ((p :: q :: rest).map fun p => ((p.1 : ℚ), (p.2 : ℚ)))) im fun e im =>
    drawLine op im e.1 e.2 c).bind _) = _
  rw [windows2_map, forList_map]
  simp only [drawLine_eq]
  congr 1
  funext im
  have e1 : (p :: q :: rest)[(p :: q :: rest).length - 1] = (q :: rest).getLast (by simp) := by
    rw [List.getLast_eq_getElem]
    simp
  have e2 : (((q.1 : ℚ), (q.2 : ℚ)) :: rest.map fun p : Int × Int => ((p.1 : ℚ), (p.2 : ℚ))).getLast
      (by simp) = ((((q :: rest).getLast (by simp)).1 : ℚ), (((q :: rest).getLast (by simp)).2 : ℚ)) := by
    have := List.getLast_map (f := fun p : Int × Int => ((p.1 : ℚ), (p.2 : ℚ))) (l := q :: rest)
      (by simp)
    exact this
  have e3 : ∀ u v : Int × Int, (((u.1 : ℚ), (u.2 : ℚ)) ≠ ((v.1 : ℚ), (v.2 : ℚ))) ↔ u ≠ v := by
    intro u v
    rw [ne_eq, ne_eq, Prod.mk.injEq, Int.cast_inj, Int.cast_inj, ← Prod.ext_iff]
  rw [e1, e2]
  generalize (q :: rest).getLast _ = z
  show (if ((p.1 : ℚ), (p.2 : ℚ)) ≠ ((z.1 : ℚ), (z.2 : ℚ)) then _ else _) =
    forList (if p ≠ z then segPts p z else []) im _
  by_cases h : p ≠ z
  · rw [if_pos h, if_pos ((e3 _ _).2 h)]
    rfl
  · rw [if_neg h, if_neg (fun h' => h ((e3 _ _).1 h'))]
    rfl

/-- **C100.** For every list of `n ≥ 2` vertices with integer coordinates there is one digital line
for each pair of cyclically consecutive vertices (an unbroken chain of pixels between its end points
that stays within half a pixel of the ideal segment), such that on every image drawing the hollow
polygon never fails and colours exactly the image pixels on these lines.  In particular all vertices in
the image are coloured. -/
theorem C100_hollow_polygon (poly : List (Int × Int)) (h2 : 2 ≤ poly.length) :
    ∃ L : Nat → List (Int × Int),
      (∀ i, (hi : i < poly.length) →
        GoodLine poly[i] (poly[(i + 1) % poly.length]'(Nat.mod_lt _ (by omega))) (L i)) ∧
      ∀ {α : Type u} (im : Image α) (c : α), ∃ out,
        drawHollowPolygon overwrite im (poly.map fun p => ((p.1 : ℚ), (p.2 : ℚ))) c = some out ∧
        out.w = im.w ∧ out.h = im.h ∧
        (∀ a b : Nat, im.InB a b →
          ((∃ i < poly.length, ((a : Int), (b : Int)) ∈ L i) → out.px a b = c) ∧
          ((∀ i < poly.length, ((a : Int), (b : Int)) ∉ L i) → out.px a b = im.px a b)) ∧
        ∀ a b : Nat, im.InB a b → ((a : Int), (b : Int)) ∈ poly → out.px a b = c := by
  have h0 : 0 < poly.length := by omega
  set L : Nat → List (Int × Int) := fun i =>
    if h : i + 1 < poly.length then segPts poly[i] poly[i + 1]
    else segPts poly[0] poly[poly.length - 1] with hLdef
  have hgood : ∀ i, (hi : i < poly.length) →
      GoodLine poly[i] (poly[(i + 1) % poly.length]'(Nat.mod_lt _ (by omega))) (L i) := by
    intro i hi
    by_cases h : i + 1 < poly.length
    · have : (i + 1) % poly.length = i + 1 := Nat.mod_eq_of_lt h
      simp only [hLdef, dif_pos h, this]
      exact C42_bresenham _ _
    · have e : i + 1 = poly.length := by omega
      have e' : i = poly.length - 1 := by omega
      have : (i + 1) % poly.length = 0 := by rw [e, Nat.mod_self]
      simp only [hLdef, dif_neg h, this]
      subst e'
      exact (C42_bresenham _ _).symm
  have hm : ∀ q : Int × Int, q ∈ ((windows2 poly).flatMap (fun e => segPts e.1 e.2) ++
        (if poly[0] ≠ poly[poly.length - 1] then segPts poly[0] poly[poly.length - 1] else [])) ↔
      ∃ i < poly.length, q ∈ L i := by
    intro q
    rw [List.mem_append, List.mem_flatMap]
    constructor
    · rintro (⟨e, he, hq⟩ | h)
      · obtain ⟨i, hi, rfl⟩ := (mem_windows2 _ _).1 he
        exact ⟨i, by omega, by simp only [hLdef, dif_pos hi]; exact hq⟩
      · by_cases hne : poly[0] ≠ poly[poly.length - 1]
        · rw [if_pos hne] at h
          exact ⟨poly.length - 1, by omega, by
            simp only [hLdef]; rw [dif_neg (by omega)]; exact h⟩
        · rw [if_neg hne] at h; simp at h
    · rintro ⟨i, hi, hq⟩
      by_cases h : i + 1 < poly.length
      · simp only [hLdef, dif_pos h] at hq
        exact Or.inl ⟨_, (mem_windows2 _ _).2 ⟨i, h, rfl⟩, hq⟩
      · simp only [hLdef, dif_neg h] at hq
        by_cases hne : poly[0] ≠ poly[poly.length - 1]
        · rw [if_pos hne]; exact Or.inr hq
        · rw [not_not] at hne
          have hb := (C42_bresenham poly[0] poly[poly.length - 1]).box q hq
          rw [← hne] at hb
          have hqe : q = poly[0] := Prod.ext (by omega) (by omega)
          refine Or.inl ⟨_, (mem_windows2 _ _).2 ⟨0, by omega, rfl⟩, ?_⟩
          rw [hqe]
          exact (C42_bresenham poly[0] poly[1]).start_mem
  refine ⟨L, hgood, fun im c => ?_⟩
  obtain ⟨o, g1, g2, g3, g4⟩ := drawList_overwrite im c
    ((windows2 poly).flatMap (fun e => segPts e.1 e.2) ++
        (if poly[0] ≠ poly[poly.length - 1] then segPts poly[0] poly[poly.length - 1] else []))
  have hcol : ∀ a b : Nat, im.InB a b → (∃ i < poly.length, ((a : Int), (b : Int)) ∈ L i) →
      o.px a b = c := fun a b hab h => by rw [g4 a b hab, if_pos ((hm _).2 h)]
  refine ⟨o, (hollowPolygon_eq _ _ _ h2 _).trans g1, g2, g3, fun a b hab => ⟨hcol a b hab, fun h => ?_⟩,
    fun a b hab hp => ?_⟩
  · rw [g4 a b hab, if_neg]
    intro h'
    obtain ⟨i, hi, hq⟩ := (hm _).1 h'
    exact h i hi hq
  · obtain ⟨i, hi, he⟩ := List.mem_iff_getElem.1 hp
    exact hcol a b hab ⟨i, hi, by rw [← he]; exact (hgood i hi).start_mem⟩

/-- **C100**, degenerate lists: no vertex draws nothing, a single vertex panics. -/
theorem C100_degenerate {α : Type _} (op : α → α → α) (im : Image α) (p : ℚ × ℚ) (c : α) :
    drawHollowPolygon op im [] c = some im ∧ drawHollowPolygon op im [p] c = none := ⟨rfl, rfl⟩

-- A triangle.
example : ((drawHollowPolygon overwrite (Image.new 5 4 0) [(0, 0), (4, 0), (0, 4)] 1).map
    Image.rows) =
    some [[1, 1, 1, 1, 1], [1, 0, 0, 1, 0], [1, 0, 1, 0, 0], [1, 1, 0, 0, 0]] := by decide +kernel

/-! ### Bézier curves -/

theorem bezier_zero (s e a b : ℚ) : bezierCoord s e a b 0 = s := by
  simp [bezierCoord]

theorem bezier_one (s e a b : ℚ) : bezierCoord s e a b 1 = e := by
  simp [bezierCoord]

theorem bezier_le (s e a b t m : ℚ) (h0 : 0 ≤ t) (h1 : t ≤ 1) (hs : s ≤ m) (he : e ≤ m) (ha : a ≤ m)
    (hb : b ≤ m) : bezierCoord s e a b t ≤ m := by
  have hm : 0 ≤ 1 - t := by linarith
  have k : m - bezierCoord s e a b t = (m - s) * (1 - t) ^ 3 + 3 * (m - a) * ((1 - t) ^ 2 * t) +
      3 * (m - b) * ((1 - t) * t ^ 2) + (m - e) * t ^ 3 := by
    unfold bezierCoord; ring
  have : 0 ≤ m - bezierCoord s e a b t := by
    rw [k]
    have := sub_nonneg.2 hs
    have := sub_nonneg.2 he
    have := sub_nonneg.2 ha
    have := sub_nonneg.2 hb
    positivity
  linarith

theorem le_bezier (s e a b t m : ℚ) (h0 : 0 ≤ t) (h1 : t ≤ 1) (hs : m ≤ s) (he : m ≤ e) (ha : m ≤ a)
    (hb : m ≤ b) : m ≤ bezierCoord s e a b t := by
  have := bezier_le (-s) (-e) (-a) (-b) t (-m) h0 h1 (by linarith) (by linarith) (by linarith)
    (by linarith)
  have e : bezierCoord (-s) (-e) (-a) (-b) t = -bezierCoord s e a b t := by unfold bezierCoord; ring
  linarith

theorem bezierLoop_eq {α : Type _} (op : α → α → α) (im : Image α) (s e a b : ℚ × ℚ) (c : α) (d : ℚ)
    (n : Nat) :
    (forRange 0 n ((im, 0) : Image α × ℚ) fun i st =>
      (drawLineInt op st.1 (bezierAt s e a b st.2).1 (bezierAt s e a b st.2).2
        (bezierAt s e a b (((i : ℚ) + 1) * d)).1 (bezierAt s e a b (((i : ℚ) + 1) * d)).2 c).map
        fun im => (im, ((i : ℚ) + 1) * d)) =
    (forList ((List.range n).flatMap fun i : Nat =>
      segPts (bezierAt s e a b ((i : ℚ) * d)) (bezierAt s e a b (((i + 1 : Nat) : ℚ) * d))) im
      fun p out => drawIfInBounds op out p.1 p.2 c).map fun im => (im, (n : ℚ) * d) := by
  induction n with
  | zero => rw [forRange_empty le_rfl]; simp [forList]
  | succ n ih =>
    rw [forRange_succ_last (Nat.zero_le _), ih, List.range_succ, List.flatMap_append, forList_append]
    generalize forList ((List.range n).flatMap _) im _ = o
    cases o with
    | none => rfl
    | some o =>
      rw [Option.map_some, Option.bind_some, Option.bind_some, List.flatMap_singleton,
        drawLineInt_eq]
      push_cast
      rfl

theorem roundQ_near (x : ℚ) : |(roundQ x : ℚ) - x| ≤ 1 / 2 := by
  unfold roundQ
  split
  · have h1 := Int.floor_le (x + 1 / 2)
    have h2 := Int.lt_floor_add_one (x + 1 / 2)
    rw [abs_le]; constructor <;> linarith
  · have h1 := Int.le_ceil (x - 1 / 2)
    have h2 := Int.ceil_lt_add_one (x - 1 / 2)
    rw [abs_le]; constructor <;> linarith

/-- The cubic curve in Bernstein form. -/
def bernstein (s a b e t : ℚ) : ℚ :=
  (1 - t) ^ 3 * s + 3 * (1 - t) ^ 2 * t * a + 3 * (1 - t) * t ^ 2 * b + t ^ 3 * e

/-- **C101.** For all end points `s`, `e` and control points `a`, `b` there are `N ≥ 3` and pixels
`q 0, …, q N`, where `q i` is within half a pixel (in each coordinate) of the point of the
cubic curve at parameter `i / N`, and digital lines between consecutive `q i`, such that on every image the drawing
never fails and colours exactly the image pixels on these lines.  The first and the last pixel are the
rounded end points, and if the four points lie in a box with integer corners then every coloured pixel does.
The number of lines is the integer part of `sqrt (L ^ 2 + 800) / 8`, `L` being the length of the polygon
through the four points.  The square root is any function with `sqrt x ≥ 24` for `x ≥ 800`. -/
theorem C101_bezier (sqrt : ℚ → ℚ) (hsqrt : ∀ x, 800 ≤ x → 24 ≤ sqrt x) (s e a b : ℚ × ℚ) :
    let len : ℚ := sqrt ((s.1 - a.1) ^ 2 + (s.2 - a.2) ^ 2) + sqrt ((a.1 - b.1) ^ 2 + (a.2 - b.2) ^ 2) +
      sqrt ((b.1 - e.1) ^ 2 + (b.2 - e.2) ^ 2)
    ∃ (N : Nat) (q : Nat → Int × Int) (L : Nat → List (Int × Int)), 3 ≤ N ∧
      (N : ℚ) ≤ sqrt (len ^ 2 + 800) / 8 ∧ sqrt (len ^ 2 + 800) / 8 < N + 1 ∧
      q 0 = (roundQ s.1, roundQ s.2) ∧ q N = (roundQ e.1, roundQ e.2) ∧
      (∀ i ≤ N, |((q i).1 : ℚ) - bernstein s.1 a.1 b.1 e.1 ((i : ℚ) / N)| ≤ 1 / 2 ∧
        |((q i).2 : ℚ) - bernstein s.2 a.2 b.2 e.2 ((i : ℚ) / N)| ≤ 1 / 2) ∧
      (∀ i < N, GoodLine (q i) (q (i + 1)) (L i)) ∧
      (∀ l t r d : Int, (∀ p ∈ [s, e, a, b], (l : ℚ) ≤ p.1 ∧ p.1 ≤ r ∧ (t : ℚ) ≤ p.2 ∧ p.2 ≤ d) →
        ∀ i < N, ∀ p ∈ L i, l ≤ p.1 ∧ p.1 ≤ r ∧ t ≤ p.2 ∧ p.2 ≤ d) ∧
      ∀ {α : Type u} (im : Image α) (c : α), ∃ out,
        drawBezier sqrt overwrite im s e a b c = some out ∧ out.w = im.w ∧ out.h = im.h ∧
        ∀ x y : Nat, im.InB x y →
          ((∃ i < N, ((x : Int), (y : Int)) ∈ L i) → out.px x y = c) ∧
          ((∀ i < N, ((x : Int), (y : Int)) ∉ L i) → out.px x y = im.px x y) := by
  intro len
  obtain ⟨N, hN⟩ : ∃ N, N = bezierSegments sqrt s e a b := ⟨_, rfl⟩
  have hlen := hsqrt (len ^ 2 + 800) (by nlinarith [sq_nonneg len])
  have hfl : N = ⌊sqrt (len ^ 2 + 800) / 8⌋ := by
    rw [hN]
    show truncQ (sqrt (len ^ 2 + 800) / 8) = _
    unfold truncQ
    rw [if_pos (by linarith)]
  have h3 : 3 ≤ N := by
    rw [hfl]
    have h' : (3 : ℚ) ≤ sqrt (len ^ 2 + 800) / 8 := by linarith
    exact Int.le_floor.2 (by exact_mod_cast h')
  have hNQ : ((N.toNat : Nat) : ℚ) = (N : ℚ) := by
    have : ((N.toNat : Nat) : Int) = N := Int.toNat_of_nonneg (by omega)
    exact_mod_cast this
  have hNpos : (0 : ℚ) < ((N.toNat : Nat) : ℚ) := by
    have : 0 < N.toNat := by omega
    exact_mod_cast this
  have hmul : ∀ i : Nat, (i : ℚ) * (1 / (N : ℚ)) = (i : ℚ) / ((N.toNat : Nat) : ℚ) := by
    intro i; rw [hNQ]; ring
  set q : Nat → Int × Int := fun i => bezierAt s e a b ((i : ℚ) / ((N.toNat : Nat) : ℚ)) with hq
  have hbern : ∀ s e a b t : ℚ, bezierCoord s e a b t = bernstein s a b e t := by
    intro s e a b t; unfold bezierCoord bernstein; ring
  have hgood : ∀ i, GoodLine (q i) (q (i + 1)) (segPts (q i) (q (i + 1))) := fun i =>
    C42_bresenham _ _
  refine ⟨N.toNat, q, fun i => segPts (q i) (q (i + 1)), by omega, ?_, ?_, ?_, ?_, fun i _ => ⟨?_, ?_⟩,
    fun i _ => hgood i, fun l t r d hbox i hi p hp => ?_, fun im c => ?_⟩
  · rw [hNQ, hfl]; exact Int.floor_le _
  · rw [hNQ, hfl]; exact Int.lt_floor_add_one _
  · simp only [hq, Nat.cast_zero, zero_div, bezierAt, bezier_zero]
  · simp only [hq, div_self hNpos.ne', bezierAt, bezier_one]
  · rw [← hbern]; exact roundQ_near _
  · rw [← hbern]; exact roundQ_near _
  · have hb := (hgood i).box p hp
    have hin : ∀ k ≤ N.toNat, l ≤ (q k).1 ∧ (q k).1 ≤ r ∧ t ≤ (q k).2 ∧ (q k).2 ≤ d := by
      intro k hk
      have k0 : (0 : ℚ) ≤ (k : ℚ) / ((N.toNat : Nat) : ℚ) := by positivity
      have k1 : (k : ℚ) / ((N.toNat : Nat) : ℚ) ≤ 1 := by
        rw [div_le_one hNpos]; exact_mod_cast hk
      have b1 := hbox s (by simp)
      have b2 := hbox e (by simp)
      have b3 := hbox a (by simp)
      have b4 := hbox b (by simp)
      refine ⟨?_, ?_, ?_, ?_⟩
      · rw [← roundQ_int l]
        exact roundQ_mono (le_bezier _ _ _ _ _ _ k0 k1 b1.1 b2.1 b3.1 b4.1)
      · rw [← roundQ_int r]
        exact roundQ_mono (bezier_le _ _ _ _ _ _ k0 k1 b1.2.1 b2.2.1 b3.2.1 b4.2.1)
      · rw [← roundQ_int t]
        exact roundQ_mono (le_bezier _ _ _ _ _ _ k0 k1 b1.2.2.1 b2.2.2.1 b3.2.2.1 b4.2.2.1)
      · rw [← roundQ_int d]
        exact roundQ_mono (bezier_le _ _ _ _ _ _ k0 k1 b1.2.2.2 b2.2.2.2 b3.2.2.2 b4.2.2.2)
    have i1 := hin i (by omega)
    have i2 := hin (i + 1) (by omega)
    omega
  · obtain ⟨o, g1, g2, g3, g4⟩ := drawList_overwrite im c
      ((List.range N.toNat).flatMap fun i : Nat => segPts (q i) (q (i + 1)))
    have hm : ∀ p, p ∈ ((List.range N.toNat).flatMap fun i : Nat => segPts (q i) (q (i + 1))) ↔
        ∃ i < N.toNat, p ∈ segPts (q i) (q (i + 1)) := by
      intro p
      rw [List.mem_flatMap]
      simp only [List.mem_range]
    refine ⟨o, ?_, g2, g3, fun x y hxy => ⟨fun h => ?_, fun h => ?_⟩⟩
    · unfold drawBezier
      dsimp only
      rw [← hN, bezierLoop_eq]
      simp only [hmul]
      rw [g1]
      rfl
    · rw [g4 x y hxy, if_pos ((hm _).2 h)]
    · rw [g4 x y hxy, if_neg]
      intro h'
      obtain ⟨i, hi, hp⟩ := (hm _).1 h'
      exact h i hi hp

/-- A coordinate of the curve changes by at most three times the sum of the legs' extents. -/
theorem bernstein_lipschitz (s a b e t u : ℚ) (ht : 0 ≤ t) (htu : t ≤ u) (hu : u ≤ 1) :
    |bernstein s a b e u - bernstein s a b e t| ≤
      3 * (|s - a| + |a - b| + |b - e|) * (u - t) := by
  have e1 : bernstein s a b e u - bernstein s a b e t =
      (a - s) * ((1 - t) ^ 3 - (1 - u) ^ 3) + (b - a) * (3 * (u ^ 2 - t ^ 2) - 2 * (u ^ 3 - t ^ 3)) +
        (e - b) * (u ^ 3 - t ^ 3) := by
    unfold bernstein; ring
  have hd : 0 ≤ u - t := by linarith
  have k1 : |(1 - t) ^ 3 - (1 - u) ^ 3| ≤ 3 * (u - t) := by
    have f : (1 - t) ^ 3 - (1 - u) ^ 3 =
      (u - t) * ((1 - t) ^ 2 + (1 - t) * (1 - u) + (1 - u) ^ 2) := by ring
    have g0 : 0 ≤ (1 - t) ^ 2 + (1 - t) * (1 - u) + (1 - u) ^ 2 := by
      have := mul_nonneg (show 0 ≤ 1 - t by linarith) (show 0 ≤ 1 - u by linarith)
      positivity
    have g1 : (1 - t) ^ 2 + (1 - t) * (1 - u) + (1 - u) ^ 2 ≤ 3 := by nlinarith
    rw [f, abs_of_nonneg (mul_nonneg hd g0)]
    nlinarith
  have k3 : |u ^ 3 - t ^ 3| ≤ 3 * (u - t) := by
    have f : u ^ 3 - t ^ 3 = (u - t) * (u ^ 2 + u * t + t ^ 2) := by ring
    have hu0 : 0 ≤ u := by linarith
    have g0 : 0 ≤ u ^ 2 + u * t + t ^ 2 := by positivity
    have g1 : u ^ 2 + u * t + t ^ 2 ≤ 3 := by nlinarith
    rw [f, abs_of_nonneg (mul_nonneg hd g0)]
    nlinarith
  have k2 : |3 * (u ^ 2 - t ^ 2) - 2 * (u ^ 3 - t ^ 3)| ≤ 3 * (u - t) := by
    have f : 3 * (u ^ 2 - t ^ 2) - 2 * (u ^ 3 - t ^ 3) =
      (u - t) * (3 * (u + t) - 2 * (u ^ 2 + u * t + t ^ 2)) := by ring
    have hu0 : 0 ≤ u := by linarith
    have g0 : 0 ≤ 3 * (u + t) - 2 * (u ^ 2 + u * t + t ^ 2) := by nlinarith
    have g1 : 3 * (u + t) - 2 * (u ^ 2 + u * t + t ^ 2) ≤ 3 := by
      nlinarith [sq_nonneg (u + t - 1), sq_nonneg (u - t)]
    rw [f, abs_of_nonneg (mul_nonneg hd g0)]
    nlinarith
  rw [e1]
  refine le_trans (abs_add_three _ _ _) ?_
  rw [abs_mul, abs_mul, abs_mul, abs_sub_comm s a, abs_sub_comm a b, abs_sub_comm b e]
  have m1 := mul_le_mul_of_nonneg_left k1 (abs_nonneg (a - s))
  have m2 := mul_le_mul_of_nonneg_left k2 (abs_nonneg (b - a))
  have m3 := mul_le_mul_of_nonneg_left k3 (abs_nonneg (e - b))
  linarith

/-- **C101, spacing.** With a square root accurate to a tenth of a percent, consecutive vertices of the
drawn polyline differ by at most 34 pixels in each coordinate, however long the curve is. -/
theorem C101_spacing (sqrt : ℚ → ℚ) (hs0 : ∀ x, 0 ≤ x → 0 ≤ sqrt x)
    (hs1 : ∀ x, 0 ≤ x → |sqrt x ^ 2 - x| ≤ x / 1000) (s e a b : ℚ × ℚ) :
    ∃ (N : Nat) (q : Nat → Int × Int) (L : Nat → List (Int × Int)),
      q 0 = (roundQ s.1, roundQ s.2) ∧ q N = (roundQ e.1, roundQ e.2) ∧
      (∀ i < N, |(q (i + 1)).1 - (q i).1| ≤ 34 ∧ |(q (i + 1)).2 - (q i).2| ≤ 34) ∧
      (∀ i < N, GoodLine (q i) (q (i + 1)) (L i)) ∧
      ∀ {α : Type u} (im : Image α) (c : α), ∃ out,
        drawBezier sqrt overwrite im s e a b c = some out ∧ out.w = im.w ∧ out.h = im.h ∧
        ∀ x y : Nat, im.InB x y →
          ((∃ i < N, ((x : Int), (y : Int)) ∈ L i) → out.px x y = c) ∧
          ((∀ i < N, ((x : Int), (y : Int)) ∉ L i) → out.px x y = im.px x y) := by
  obtain ⟨N, q, L, h3, -, hN, q0, qN, hq, hL, -, hd⟩ := C101_bezier sqrt (fun x hx => by
    have h0 := hs0 x (by linarith)
    have h1 := (abs_le.1 (hs1 x (by linarith))).1
    nlinarith) s e a b
  refine ⟨N, q, L, q0, qN, fun i hi => ?_, hL, hd⟩
  have h3q : (3 : ℚ) ≤ N := by exact_mod_cast h3
  -- a leg is at least as long as its extent
  have leg : ∀ x y : ℚ, |x| ≤ 1001 / 1000 * sqrt (x ^ 2 + y ^ 2) ∧
      |y| ≤ 1001 / 1000 * sqrt (x ^ 2 + y ^ 2) := by
    intro x y
    have hp : 0 ≤ x ^ 2 + y ^ 2 := by positivity
    have h0 := hs0 _ hp
    have h1 := (abs_le.1 (hs1 _ hp)).1
    set z := sqrt (x ^ 2 + y ^ 2)
    have h2 : x ^ 2 + y ^ 2 ≤ (1001 / 1000 * z) ^ 2 := by nlinarith
    constructor
    · exact abs_le_of_sq_le_sq (by nlinarith [sq_nonneg y]) (by positivity)
    · exact abs_le_of_sq_le_sq (by nlinarith [sq_nonneg x]) (by positivity)
  set len : ℚ := sqrt ((s.1 - a.1) ^ 2 + (s.2 - a.2) ^ 2) + sqrt ((a.1 - b.1) ^ 2 + (a.2 - b.2) ^ 2) +
      sqrt ((b.1 - e.1) ^ 2 + (b.2 - e.2) ^ 2) with hlen
  have l1 := leg (s.1 - a.1) (s.2 - a.2)
  have l2 := leg (a.1 - b.1) (a.2 - b.2)
  have l3 := leg (b.1 - e.1) (b.2 - e.2)
  have len0 : 0 ≤ len := by
    rw [hlen]
    have := hs0 _ (by positivity : 0 ≤ (s.1 - a.1) ^ 2 + (s.2 - a.2) ^ 2)
    have := hs0 _ (by positivity : 0 ≤ (a.1 - b.1) ^ 2 + (a.2 - b.2) ^ 2)
    have := hs0 _ (by positivity : 0 ≤ (b.1 - e.1) ^ 2 + (b.2 - e.2) ^ 2)
    linarith
  have hlN : len ≤ 1001 / 1000 * (32 / 3) * N := by
    have h0 := hs0 (len ^ 2 + 800) (by positivity)
    have h1 := (abs_le.1 (hs1 (len ^ 2 + 800) (by positivity))).1
    set z := sqrt (len ^ 2 + 800)
    have h2 : len ^ 2 ≤ (1001 / 1000 * z) ^ 2 := by nlinarith
    have h4 : len ≤ 1001 / 1000 * z := by
      have := abs_le_of_sq_le_sq h2 (by positivity)
      rwa [abs_of_nonneg len0] at this
    linarith
  have hstep : ((i + 1 : Nat) : ℚ) / N - (i : ℚ) / N = 1 / N := by
    push_cast; ring
  have t0 : (0 : ℚ) ≤ (i : ℚ) / N := by positivity
  have t1 : (i : ℚ) / N ≤ ((i + 1 : Nat) : ℚ) / N := by
    have : (0 : ℚ) ≤ 1 / N := by positivity
    linarith
  have t2 : ((i + 1 : Nat) : ℚ) / N ≤ 1 := by
    rw [div_le_one (by linarith)]; exact_mod_cast hi
  have done : ∀ (A : ℚ) (m n : Int) (B C : ℚ), A ≤ 1001 / 1000 * len → |B - C| ≤ 3 * A * (1 / N) →
      |(m : ℚ) - B| ≤ 1 / 2 → |(n : ℚ) - C| ≤ 1 / 2 → |m - n| ≤ 34 := by
    intro A m n B C hA hBC hm hn
    have hA2 : 3 * A * (1 / N) ≤ 33 := by
      rw [mul_one_div, div_le_iff₀ (by linarith)]
      linarith
    have : |(m : ℚ) - n| ≤ 34 := by
      rw [abs_le] at *
      constructor <;> linarith [hBC.1, hBC.2, hm.1, hm.2, hn.1, hn.2]
    exact_mod_cast this
  obtain ⟨u1, u2⟩ := hq (i + 1) (by omega)
  obtain ⟨v1, v2⟩ := hq i (by omega)
  have w1 := bernstein_lipschitz s.1 a.1 b.1 e.1 _ _ t0 t1 t2
  have w2 := bernstein_lipschitz s.2 a.2 b.2 e.2 _ _ t0 t1 t2
  rw [hstep] at w1 w2
  exact ⟨done _ _ _ _ _ (by linarith [l1.1, l2.1, l3.1]) w1 u1 v1,
    done _ _ _ _ _ (by linarith [l1.2, l2.2, l3.2]) w2 u2 v2⟩

-- The hypotheses of `C101_spacing` are satisfiable: there are rational square roots that accurate.
example : ∃ sqrt : ℚ → ℚ, (∀ x, 0 ≤ x → 0 ≤ sqrt x) ∧ ∀ x, 0 ≤ x → |sqrt x ^ 2 - x| ≤ x / 1000 := by
  have h : ∀ x : ℚ, ∃ y : ℚ, 0 ≤ x → 0 ≤ y ∧ |y ^ 2 - x| ≤ x / 1000 := by
    intro x
    rcases lt_trichotomy x 0 with hx | rfl | hx
    · exact ⟨0, fun h => absurd h (by linarith)⟩
    · exact ⟨0, fun _ => by norm_num⟩
    · have hr : (0 : ℝ) < x := by exact_mod_cast hx
      have hs := Real.sqrt_pos.2 hr
      obtain ⟨y, y1, y2⟩ := exists_rat_btwn (show (1 - 1 / 4000) * √(x : ℝ) < √(x : ℝ) by linarith)
      refine ⟨y, fun _ => ?_⟩
      have y0 : (0 : ℝ) < y := lt_trans (by positivity) y1
      have ss := Real.sq_sqrt hr.le
      refine ⟨by exact_mod_cast y0.le, ?_⟩
      have : |(y : ℝ) ^ 2 - x| ≤ x / 1000 := by
        rw [abs_le]
        constructor <;> nlinarith
      exact_mod_cast this
  choose f hf using h
  exact ⟨f, fun x hx => (hf x hx).1, fun x hx => (hf x hx).2⟩

-- A curve on a 5×4 image, with a crude square root.
example : ((drawBezier (fun _ => 24) overwrite (Image.new 5 4 0) (0, 0) (4, 0) (0, 4) (4, 4) 1).map
    Image.rows) =
    some [[1, 0, 0, 0, 1], [1, 0, 0, 0, 1], [0, 1, 0, 1, 0], [0, 1, 1, 1, 0]] := by decide +kernel

end Verif.Drawing
