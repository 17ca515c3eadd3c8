import Verif.Drawing.PolygonModel
import Verif.Drawing.CircleProps
/-
Property theorem C47 (polygons).
-/
namespace Verif.Drawing
open Verif.Definitions

/-! ### Specification -/

/-- Crossings of the edge `(p, q)` with the row `y`: a non-horizontal edge crosses the rows from
its smaller `y` (inclusive) to its larger `y` (exclusive), at the nearest integer to the ideal
position; a horizontal edge in the row counts with both its ends. -/
def crossings (y : Int) (e : (Int × Int) × (Int × Int)) : List Int :=
  if e.1.2 = e.2.2 then (if e.1.2 = y then [e.1.1, e.2.1] else [])
  else if min e.1.2 e.2.2 ≤ y ∧ y < max e.1.2 e.2.2 then
    [roundQ ((e.1.1 : ℚ) + ((y : ℚ) - e.1.2) / ((e.2.2 : ℚ) - e.1.2) * ((e.2.1 : ℚ) - e.1.1))]
  else []

/-- The edges of the polygon: consecutive vertices, closing back to the first vertex unless the
list already ends there. -/
def polyEdges (poly : List (Int × Int)) : List ((Int × Int) × (Int × Int)) :=
  match poly.head?, poly.getLast? with
  | some f, some l => windows2 (if f = l then poly else poly ++ [f])
  | _, _ => []

/-- Even-odd filling: the pixel is at a crossing of its row or has an odd number of crossings to
its left. -/
def EvenOdd (edges : List ((Int × Int) × (Int × Int))) (x y : Int) : Prop :=
  x ∈ edges.flatMap (crossings y) ∨ Odd ((edges.flatMap (crossings y)).countP (· < x))

/-- Even-odd filling for other crossing positions. -/
def EvenOddWith (inter : Int → (Int × Int) × (Int × Int) → List Int)
    (edges : List ((Int × Int) × (Int × Int))) (x y : Int) : Prop :=
  x ∈ edges.flatMap (inter y) ∨ Odd ((edges.flatMap (inter y)).countP (· < x))

/-- `crossings` for other positions. -/
def crossingsWith (cross : Int → Int × Int → Int × Int → Int) (y : Int)
    (e : (Int × Int) × (Int × Int)) : List Int :=
  if e.1.2 = e.2.2 then (if e.1.2 = y then [e.1.1, e.2.1] else [])
  else if min e.1.2 e.2.2 ≤ y ∧ y < max e.1.2 e.2.2 then [cross y e.1 e.2] else []

theorem roundQ_int (n : Int) : roundQ (n : ℚ) = n := by
  unfold roundQ
  split
  · rw [Int.floor_eq_iff]; constructor <;> linarith
  · rw [Int.ceil_eq_iff]; constructor <;> linarith

theorem roundQ_mono {x y : ℚ} (h : x ≤ y) : roundQ x ≤ roundQ y := by
  unfold roundQ
  by_cases hx : 0 ≤ x
  · rw [if_pos hx, if_pos (hx.trans h)]
    exact Int.floor_le_floor (by linarith)
  · rw [if_neg hx]
    by_cases hy : 0 ≤ y
    · rw [if_pos hy]
      push Not at hx
      have h1 : ⌈x - 1 / 2⌉ ≤ 0 := Int.ceil_le.2 (by push_cast; linarith)
      have h2 : 0 ≤ ⌊y + 1 / 2⌋ := Int.le_floor.2 (by push_cast; linarith)
      omega
    · rw [if_neg hy]
      exact Int.ceil_le_ceil (by linarith)

theorem edgeInterWith_eq (cross : Int → Int × Int → Int × Int → Int) (y : Int)
    (e : (Int × Int) × (Int × Int)) (c0 : e.1.2 ≠ e.2.2 → cross e.1.2 e.1 e.2 = e.1.1)
    (c1 : e.1.2 ≠ e.2.2 → cross e.2.2 e.1 e.2 = e.2.1) :
    edgeInterWith cross y e = crossingsWith cross y e := by
  obtain ⟨⟨x0, y0⟩, ⟨x1, y1⟩⟩ := e
  unfold edgeInterWith
  dsimp only at *
  by_cases h : y0 = y1
  · subst h
    by_cases hy : y0 = y
    · rw [if_pos (by omega), if_pos rfl, crossingsWith, if_pos rfl, if_pos hy]
    · rw [if_neg (by omega), crossingsWith, if_pos rfl, if_neg hy]
  · by_cases h0 : y0 = y
    · subst h0
      rw [if_pos (by omega), if_neg h, if_pos (Or.inl rfl), if_neg (show ¬ y0 > y0 by omega),
        List.append_nil]
      by_cases h1 : y1 > y0
      · rw [if_pos h1, crossingsWith, if_neg h, if_pos (by dsimp only; omega)]
        dsimp only
        rw [c0 h]
      · rw [if_neg h1, crossingsWith, if_neg h, if_neg (by dsimp only; omega)]
    · by_cases h1 : y1 = y
      · subst h1
        rw [if_pos (by omega), if_neg h, if_pos (Or.inr rfl), if_neg (show ¬ y1 > y1 by omega),
          List.nil_append]
        by_cases h2 : y0 > y1
        · rw [if_pos h2, crossingsWith, if_neg h, if_pos (by dsimp only; omega)]
          dsimp only
          rw [c1 h]
        · rw [if_neg h2, crossingsWith, if_neg h, if_neg (by dsimp only; omega)]
      · by_cases hc : min y0 y1 ≤ y ∧ y < max y0 y1
        · rw [if_pos (by omega), if_neg h, if_neg (by omega), crossingsWith, if_neg h, if_pos hc]
        · rw [if_neg (by omega), crossingsWith, if_neg h, if_neg hc]

theorem crossQ_start (p0 p1 : Int × Int) : crossQ p0.2 p0 p1 = p0.1 := by
  unfold crossQ
  dsimp only
  rw [sub_self, Int.cast_zero, zero_div, zero_mul, add_zero, roundQ_int]

theorem crossQ_end (p0 p1 : Int × Int) (h : p0.2 ≠ p1.2) : crossQ p1.2 p0 p1 = p1.1 := by
  unfold crossQ
  dsimp only
  rw [div_self (by intro h2; apply h; have : p1.2 - p0.2 = 0 := by exact_mod_cast h2
                   omega), one_mul]
  push_cast
  rw [show (p0.1 : ℚ) + ((p1.1 : ℚ) - p0.1) = p1.1 by ring, roundQ_int]

theorem crossingsWith_Q (y : Int) (e : (Int × Int) × (Int × Int)) :
    crossingsWith crossQ y e = crossings y e := by
  unfold crossingsWith crossings crossQ
  dsimp only
  push_cast
  rfl

theorem edgeInter_eq (y : Int) (e : (Int × Int) × (Int × Int)) : edgeInter y e = crossings y e := by
  rw [edgeInter, edgeInterWith_eq crossQ y e (fun _ => crossQ_start _ _) (crossQ_end _ _),
    crossingsWith_Q]

/-- The positions do not matter for the number of crossings. -/
theorem crossingsWith_length (c c' : Int → Int × Int → Int × Int → Int) (y : Int)
    (e : (Int × Int) × (Int × Int)) :
    (crossingsWith c y e).length = (crossingsWith c' y e).length := by
  unfold crossingsWith
  split
  · rfl
  · split <;> rfl

/-- Parity of the crossings of a path: even exactly if both ends are on the same side. -/
theorem path_parity (y : Int) : ∀ (l : List (Int × Int)) (f : Int × Int),
    (Even (((windows2 (f :: l)).flatMap (crossings y)).length) ↔
      (f.2 ≤ y ↔ ((f :: l).getLast (by simp)).2 ≤ y))
  | [], f => by simp [windows2]
  | g :: l, f => by
    have ih := path_parity y l g
    have e : windows2 (f :: g :: l) = (f, g) :: windows2 (g :: l) := rfl
    rw [e, List.flatMap_cons, List.length_append, Nat.even_add, ih, List.getLast_cons (List.cons_ne_nil g l)]
    have hc : Even (crossings y (f, g)).length ↔ (f.2 ≤ y ↔ g.2 ≤ y) := by
      unfold crossings
      dsimp only
      by_cases h : f.2 = g.2
      · rw [if_pos h, h]
        split <;> simp
      · rw [if_neg h]
        split
        · simp only [List.length_singleton, Nat.not_even_one, false_iff]; omega
        · simp only [List.length_nil, Even.zero, true_iff]; omega
    rw [hc]
    generalize ((g :: l).getLast _).2 = z
    by_cases h1 : f.2 ≤ y <;> by_cases h2 : g.2 ≤ y <;> by_cases h3 : z ≤ y <;> simp [h1, h2, h3]

/-! ### Programs that draw a list of points -/

/-- `r` is the image `im` after combining the colour into the points of `pts`. -/
def Draws {α : Type _} (op : α → α → α) (c : α) (im : Image α) (r : Option (Image α))
    (pts : List (Int × Int)) : Prop :=
  ∃ out, r = some out ∧ out.w = im.w ∧ out.h = im.h ∧
    ∀ a b, im.InB a b →
      out.px a b = (fun v => op v c)^[pts.count ((a : Int), (b : Int))] (im.px a b)

theorem Draws.nil {α : Type _} (op : α → α → α) (c : α) (im : Image α) :
    Draws op c im (some im) [] := ⟨im, rfl, rfl, rfl, fun _ _ _ => by simp⟩

theorem Draws.bind {α : Type _} {op : α → α → α} {c : α} {im : Image α} {r : Option (Image α)}
    {f : Image α → Option (Image α)} {l m : List (Int × Int)} (h : Draws op c im r l)
    (hf : ∀ o, o.w = im.w → o.h = im.h → Draws op c o (f o) m) :
    Draws op c im (r.bind f) (l ++ m) := by
  obtain ⟨o, h1, h2, h3, h4⟩ := h
  obtain ⟨o', g1, g2, g3, g4⟩ := hf o h2 h3
  refine ⟨o', by rw [h1]; exact g1, by omega, by omega, fun a b hab => ?_⟩
  rw [g4 a b ⟨by rw [h2]; exact hab.1, by rw [h3]; exact hab.2⟩, h4 a b hab, List.count_append,
    Nat.add_comm, Function.iterate_add_apply]

theorem Draws.forList {α β : Type _} {op : α → α → α} {c : α} {f : β → Image α → Option (Image α)}
    {g : β → List (Int × Int)} : ∀ (l : List β) (im : Image α),
    (∀ e ∈ l, ∀ o : Image α, o.w = im.w → o.h = im.h → Draws op c o (f e o) (g e)) →
    Draws op c im (forList l im f) (l.flatMap g)
  | [], im, _ => Draws.nil op c im
  | e :: l, im, h => by
    rw [List.flatMap_cons, Verif.forList]
    refine (h e (by simp) im rfl rfl).bind fun o hw hh => ?_
    exact Draws.forList l o fun e' he' o' hw' hh' => h e' (by simp [he']) o' (by omega) (by omega)

theorem forCount_eq_forList {σ : Type _} (f : Nat → σ → Option σ) : ∀ (n lo : Nat) (s : σ),
    forCount f n lo s = forList (List.range' lo n) s f
  | 0, _, _ => rfl
  | n + 1, lo, s => by
    rw [forCount, List.range'_succ, forList]
    congr 1
    funext t
    exact forCount_eq_forList f n (lo + 1) t

theorem Draws.pixel {α : Type _} (op : α → α → α) (c : α) (im : Image α) (x y : Nat)
    (hx : x < im.w) (hy : y < im.h) :
    Draws op c im (drawPixel op im x y c) [((x : Int), (y : Int))] := by
  rw [drawPixel_of_inB hx hy]
  refine ⟨_, rfl, rfl, rfl, fun a b _ => ?_⟩
  dsimp only
  rw [List.count_singleton]
  by_cases h : a = x ∧ b = y
  · rw [if_pos h, h.1, h.2]; simp
  · rw [if_neg h, if_neg]
    · rfl
    · intro h'
      have := eq_of_beq h'
      simp only [Prod.mk.injEq, Nat.cast_inj] at this
      exact h ⟨this.1.symm, this.2.symm⟩

theorem Draws.line {α : Type _} (op : α → α → α) (c : α) (im : Image α) (s e : Int × Int) :
    Draws op c im (drawLineInt op im s.1 s.2 e.1 e.2 c)
      (bresenham ((s.1 : ℚ), (s.2 : ℚ)) ((e.1 : ℚ), (e.2 : ℚ))) := by
  rw [drawLineInt_eq]
  exact drawList_eq op im c _

/-! ### Filling rows -/

/-- The points coloured by `fillRange`. -/
def rangePts (w : Nat) (y r0 r1 : Int) : List (Int × Int) :=
  if min r0 (w : Int) < w ∧ min r1 ((w : Int) - 1) ≥ 0 then
    (List.range' (max 0 (min r0 (w : Int))).toNat
      ((max 0 (min r1 ((w : Int) - 1)) + 1).toNat - (max 0 (min r0 (w : Int))).toNat)).flatMap
      fun (x : Nat) => [((x : Int), y)]
  else []

theorem Draws.range {α : Type _} (op : α → α → α) (c : α) (im : Image α) (y r0 r1 : Int)
    (hy0 : 0 ≤ y) (hy : y < im.h) :
    Draws op c im (fillRange op im y r0 r1 c) (rangePts im.w y r0 r1) := by
  unfold fillRange rangePts
  dsimp only
  split
  · rw [forRange, forCount_eq_forList]
    refine Draws.forList (g := fun (x : Nat) => [((x : Int), y)]) _ im ?_
    intro x hx o hw hh
    rw [List.mem_range'_1] at hx
    have := Draws.pixel op c o x y.toNat (by omega) (by omega)
    rwa [show ((y.toNat : Nat) : Int) = y by omega] at this
  · exact Draws.nil op c im

theorem rangePts_mem (w : Nat) (y r0 r1 : Int) (a : Nat) (b : Int) (ha : a < w) :
    ((a : Int), b) ∈ rangePts w y r0 r1 ↔ b = y ∧ r0 ≤ a ∧ (a : Int) ≤ r1 := by
  unfold rangePts
  split
  · simp only [List.mem_flatMap, List.mem_singleton, List.mem_range'_1, Prod.mk.injEq,
      Nat.cast_inj]
    constructor
    · rintro ⟨x, hx, rfl, rfl⟩
      omega
    · rintro ⟨h2, h3, h4⟩
      exact ⟨a, by omega, rfl, by omega⟩
  · simp only [List.not_mem_nil, false_iff]
    omega

/-- `x` is in one of the ranges formed by consecutive pairs. -/
def inChunks : List Int → Int → Prop
  | a :: b :: rest, x => (a ≤ x ∧ x ≤ b) ∨ inChunks rest x
  | _, _ => False

/-- The points coloured by `fillChunks`. -/
def chunkPts (w : Nat) (y : Int) : List Int → List (Int × Int)
  | a :: b :: rest => rangePts w y a b ++ chunkPts w y rest
  | _ => []

theorem Draws.chunks {α : Type _} (op : α → α → α) (c : α) (y : Int) (hy0 : 0 ≤ y) :
    ∀ (n : Nat) (L : List Int) (im : Image α), L.length = 2 * n → y < im.h →
      Draws op c im (fillChunks op y c L im) (chunkPts im.w y L)
  | 0, [], im, _, _ => Draws.nil op c im
  | 0, _ :: _, _, h, _ => by simp at h
  | _ + 1, [], _, h, _ => by simp at h
  | _ + 1, [_], _, h, _ => by simp at h; omega
  | n + 1, r0 :: r1 :: rest, im, h, hy => by
    rw [fillChunks, chunkPts]
    refine (Draws.range op c im y r0 r1 hy0 hy).bind fun o hw hh => ?_
    rw [← hw]
    exact Draws.chunks op c y hy0 n rest o (by simp at h; omega) (by omega)

theorem chunkPts_mem (w : Nat) (y : Int) (a : Nat) (b : Int) (ha : a < w) : ∀ (n : Nat)
    (L : List Int), L.length = 2 * n → (((a : Int), b) ∈ chunkPts w y L ↔ b = y ∧ inChunks L a)
  | 0, [], _ => by simp [inChunks, chunkPts]
  | 0, _ :: _, h => by simp at h
  | _ + 1, [], h => by simp at h
  | _ + 1, [_], h => by simp at h; omega
  | n + 1, r0 :: r1 :: rest, h => by
    rw [chunkPts, List.mem_append, rangePts_mem w y r0 r1 a b ha,
      chunkPts_mem w y a b ha n rest (by simp at h; omega), inChunks]
    tauto

/-- In a sorted list of even length, the ranges cover the entries and the positions with an odd
number of entries to their left. -/
theorem inChunks_iff : ∀ (n : Nat) (L : List Int) (x : Int), L.length = 2 * n →
    L.Pairwise (· ≤ ·) → (inChunks L x ↔ x ∈ L ∨ Odd (L.countP (· < x)))
  | 0, [], x, _, _ => by simp [inChunks]
  | 0, _ :: _, _, h, _ => by simp at h
  | _ + 1, [], _, h, _ => by simp at h
  | _ + 1, [_], _, h, _ => by simp at h; omega
  | n + 1, a :: b :: rest, x, h, hs => by
    have hr : rest.length = 2 * n := by simp at h; omega
    rw [List.pairwise_cons, List.pairwise_cons] at hs
    obtain ⟨ha, hb, hs⟩ := hs
    have hab : a ≤ b := ha b (by simp)
    rw [inChunks, inChunks_iff n rest x hr hs, List.countP_cons, List.countP_cons, List.mem_cons,
      List.mem_cons]
    simp only [decide_eq_true_eq]
    have zero : x ≤ b → rest.countP (· < x) = 0 := by
      intro hx
      rw [List.countP_eq_zero]
      intro z hz
      have := hb z hz
      simp only [decide_eq_true_eq]
      omega
    by_cases h1 : b < x
    · rw [if_pos h1, if_pos (show a < x by omega), Nat.odd_add_one, Nat.odd_add_one, not_not]
      constructor
      · rintro (h | h)
        · omega
        · tauto
      · rintro ((h | h | h) | h)
        · omega
        · omega
        · tauto
        · tauto
    · rw [if_neg h1, zero (by omega)]
      by_cases h2 : a < x
      · rw [if_pos h2]
        simp only [zero_add, Nat.odd_iff]
        constructor
        · intro _; right; trivial
        · intro _; left; omega
      · rw [if_neg h2]
        by_cases h3 : a = x
        · subst h3; simp [hab]
        · constructor
          · rintro (h | h | h)
            · omega
            · tauto
            · simp at h
          · rintro ((h | h | h) | h)
            · omega
            · omega
            · tauto
            · simp at h

/-! ### Polygons -/

/-- The number of crossings of each row with a closed path is even, so chunking the crossings of a
row in pairs never fails. -/
theorem closed_even (y : Int) (f : Int × Int) (rest : List (Int × Int)) :
    Even ((windows2 (closePoly (f :: rest) f ((f :: rest).getLast (by simp)))).flatMap
      (crossings y)).length := by
  unfold closePoly
  split
  · rw [List.cons_append, path_parity y (rest ++ [f]) f]
    simp
  · rename_i h
    rw [path_parity y rest f]
    push Not at h
    rw [← h]

theorem polyEdges_cons (f : Int × Int) (rest : List (Int × Int)) : polyEdges (f :: rest) =
    windows2 (closePoly (f :: rest) f ((f :: rest).getLast (by simp))) := by
  unfold polyEdges closePoly
  rw [List.head?_cons, List.getLast?_eq_getLast_of_ne_nil (by simp)]
  dsimp only
  by_cases h : f = (f :: rest).getLast (by simp)
  · rw [if_pos h, if_neg (by push Not; exact h)]
  · rw [if_neg h, if_pos h]

theorem windows2_mem {α : Type _} {l : List α} {e : α × α} (h : e ∈ windows2 l) :
    e.1 ∈ l ∧ e.2 ∈ l :=
  ⟨(List.of_mem_zip h).1, List.mem_of_mem_tail (List.of_mem_zip h).2⟩

theorem polyEdges_mem {poly : List (Int × Int)} {e : (Int × Int) × (Int × Int)}
    (h : e ∈ polyEdges poly) : e.1 ∈ poly ∧ e.2 ∈ poly := by
  cases poly with
  | nil => simp [polyEdges] at h
  | cons f rest =>
    rw [polyEdges_cons] at h
    have := windows2_mem h
    unfold closePoly at this
    split at this
    · simp only [List.mem_append, List.mem_singleton] at this
      constructor
      · rcases this.1 with h | h
        · exact h
        · rw [h]; simp
      · rcases this.2 with h | h
        · exact h
        · rw [h]; simp
    · exact this

theorem foldl_min_le (l : List (Int × Int)) (m : Int) :
    l.foldl (fun m p => min m p.2) m ≤ m ∧ ∀ p ∈ l, l.foldl (fun m p => min m p.2) m ≤ p.2 := by
  induction l generalizing m with
  | nil => simp
  | cons q l ih =>
    rw [List.foldl_cons]
    have := ih (min m q.2)
    refine ⟨by omega, fun p hp => ?_⟩
    rcases List.mem_cons.1 hp with h | h
    · rw [h]; omega
    · exact this.2 p h

theorem le_foldl_max (l : List (Int × Int)) (m : Int) :
    m ≤ l.foldl (fun m p => max m p.2) m ∧ ∀ p ∈ l, p.2 ≤ l.foldl (fun m p => max m p.2) m := by
  induction l generalizing m with
  | nil => simp
  | cons q l ih =>
    rw [List.foldl_cons]
    have := ih (max m q.2)
    refine ⟨by omega, fun p hp => ?_⟩
    rcases List.mem_cons.1 hp with h | h
    · rw [h]; omega
    · exact this.2 p h

theorem crossings_row {y x : Int} {e : (Int × Int) × (Int × Int)} (h : x ∈ crossings y e) :
    min e.1.2 e.2.2 ≤ y ∧ y ≤ max e.1.2 e.2.2 := by
  unfold crossings at h
  split at h
  · split at h
    · omega
    · cases h
  · split at h
    · omega
    · cases h

/-- The position of a crossing is within the horizontal extent of the edge. -/
theorem crossings_col {y x : Int} {e : (Int × Int) × (Int × Int)} (h : x ∈ crossings y e) :
    min e.1.1 e.2.1 ≤ x ∧ x ≤ max e.1.1 e.2.1 := by
  obtain ⟨⟨x0, y0⟩, ⟨x1, y1⟩⟩ := e
  unfold crossings at h
  dsimp only at h ⊢
  split at h
  · split at h
    · simp only [List.mem_cons, List.not_mem_nil, or_false] at h
      omega
    · cases h
  · rename_i hne
    split at h
    · rename_i hy
      rw [List.mem_singleton] at h
      -- the fraction is in [0, 1]
      have hf : 0 ≤ ((y : ℚ) - y0) / ((y1 : ℚ) - y0) ∧ ((y : ℚ) - y0) / ((y1 : ℚ) - y0) ≤ 1 := by
        rcases lt_or_gt_of_ne hne with hl | hl
        · have a1 : (0 : ℚ) < (y1 : ℚ) - y0 := by
            have : (y0 : ℚ) < y1 := by exact_mod_cast hl
            linarith
          have a2 : (y0 : ℚ) ≤ y := by exact_mod_cast (by omega : y0 ≤ y)
          have a3 : (y : ℚ) ≤ y1 := by exact_mod_cast (by omega : y ≤ y1)
          exact ⟨div_nonneg (by linarith) a1.le, (div_le_one a1).2 (by linarith)⟩
        · have a1 : (y1 : ℚ) - y0 < 0 := by
            have : (y1 : ℚ) < y0 := by exact_mod_cast hl
            linarith
          have a2 : (y : ℚ) ≤ y0 := by exact_mod_cast (by omega : y ≤ y0)
          have a3 : (y1 : ℚ) ≤ y := by exact_mod_cast (by omega : y1 ≤ y)
          exact ⟨div_nonneg_of_nonpos (by linarith) a1.le, (div_le_one_of_neg a1).2 (by linarith)⟩
      generalize ((y : ℚ) - y0) / ((y1 : ℚ) - y0) = f at h hf
      have hlo : ((min x0 x1 : Int) : ℚ) ≤ (x0 : ℚ) + f * ((x1 : ℚ) - x0) := by
        rcases le_total x0 x1 with hx | hx
        · rw [min_eq_left hx]
          have : (0 : ℚ) ≤ (x1 : ℚ) - x0 := by
            have : (x0 : ℚ) ≤ x1 := by exact_mod_cast hx
            linarith
          have := mul_nonneg hf.1 this
          linarith
        · rw [min_eq_right hx]
          have : (0 : ℚ) ≤ (x0 : ℚ) - x1 := by
            have : (x1 : ℚ) ≤ x0 := by exact_mod_cast hx
            linarith
          have := mul_nonneg (sub_nonneg.2 hf.2) this
          nlinarith
      have hhi : (x0 : ℚ) + f * ((x1 : ℚ) - x0) ≤ ((max x0 x1 : Int) : ℚ) := by
        rcases le_total x0 x1 with hx | hx
        · rw [max_eq_right hx]
          have : (0 : ℚ) ≤ (x1 : ℚ) - x0 := by
            have : (x0 : ℚ) ≤ x1 := by exact_mod_cast hx
            linarith
          have := mul_nonneg (sub_nonneg.2 hf.2) this
          nlinarith
        · rw [max_eq_left hx]
          have : (0 : ℚ) ≤ (x0 : ℚ) - x1 := by
            have : (x1 : ℚ) ≤ x0 := by exact_mod_cast hx
            linarith
          have := mul_nonneg hf.1 this
          nlinarith
      have g1 := roundQ_mono hlo
      have g2 := roundQ_mono hhi
      rw [roundQ_int] at g1 g2
      rw [h]
      exact ⟨g1, g2⟩
    · cases h

/-- The row points of a polygon. -/
def scanPts (w : Nat) (inter : Int → (Int × Int) × (Int × Int) → List Int)
    (edges : List ((Int × Int) × (Int × Int))) (y : Int) : List (Int × Int) :=
  chunkPts w y ((edges.flatMap (inter y)).insertionSort (· ≤ ·))

/-- The pixel is coloured by the polygon: it lies on the drawn line of an edge or is inside the
polygon by the even-odd rule. -/
def InPolygon (poly : List (Int × Int)) (a b : Int) : Prop :=
  (∃ e ∈ polyEdges poly,
    (a, b) ∈ bresenham ((e.1.1 : ℚ), (e.1.2 : ℚ)) ((e.2.1 : ℚ), (e.2.2 : ℚ))) ∨
  EvenOdd (polyEdges poly) a b

theorem scan_draws {α : Type _} (op : α → α → α)
    (inter : Int → (Int × Int) × (Int × Int) → List Int) (im : Image α) (yMin yMax : Int)
    (edges : List ((Int × Int) × (Int × Int))) (c : α)
    (hev : ∀ y, Even (edges.flatMap (inter y)).length) (h0 : 0 ≤ yMin) (h1 : yMin ≤ yMax)
    (h2 : yMax < im.h) :
    Draws op c im (scanFill op inter im yMin yMax edges c)
      ((List.range' yMin.toNat ((yMax + 1).toNat - yMin.toNat)).flatMap
        fun (y : Nat) => scanPts im.w inter edges y) := by
  unfold scanFill
  rw [forRange, forCount_eq_forList]
  refine Draws.forList (g := fun (y : Nat) => scanPts im.w inter edges y) _ im
    fun y hy o hw hh => ?_
  rw [List.mem_range'_1] at hy
  obtain ⟨n, hn⟩ := hev y
  rw [← hw]
  refine Draws.chunks op c y (by omega) n _ o ?_ (by omega)
  rw [List.length_insertionSort, hn]
  omega

theorem scanPts_mem (w : Nat) (inter : Int → (Int × Int) × (Int × Int) → List Int)
    (edges : List ((Int × Int) × (Int × Int))) (y : Int)
    (hev : Even (edges.flatMap (inter y)).length) (a : Nat) (b : Int) (ha : a < w) :
    ((a : Int), b) ∈ scanPts w inter edges y ↔ b = y ∧ EvenOddWith inter edges a y := by
  obtain ⟨n, hn⟩ := hev
  have hl : ((edges.flatMap (inter y)).insertionSort (· ≤ ·)).length = 2 * n := by
    rw [List.length_insertionSort, hn]
    omega
  unfold scanPts EvenOddWith
  rw [chunkPts_mem w y a b ha n _ hl, inChunks_iff n _ _ hl (List.pairwise_insertionSort _ _),
    List.mem_insertionSort, (List.perm_insertionSort _ _).countP_eq]

/-- The number of values pushed for a row is even. -/
theorem inter_even (inter : Int → (Int × Int) × (Int × Int) → List Int) (poly : List (Int × Int))
    (y : Int) (hlen : ∀ e ∈ polyEdges poly, (inter y e).length = (crossings y e).length) :
    Even ((polyEdges poly).flatMap (inter y)).length := by
  have : ((polyEdges poly).flatMap (inter y)).length =
      ((polyEdges poly).flatMap (crossings y)).length := by
    rw [List.length_flatMap, List.length_flatMap]
    congr 1
    exact List.map_congr_left hlen
  rw [this]
  cases poly with
  | nil => simp [polyEdges]
  | cons f rest => rw [polyEdges_cons]; exact closed_even y f rest

/-- The filling and drawing of a polygon, for all positions of the crossings and all line plotters
that colour a list of points. -/
theorem fill_with {α : Type _} (op : α → α → α)
    (inter : Int → (Int × Int) × (Int × Int) → List Int)
    (plotter : Image α → Int × Int → Int × Int → Option (Image α))
    (pts : (Int × Int) × (Int × Int) → List (Int × Int)) (im : Image α) (hh : 0 < im.h)
    (poly : List (Int × Int)) (c : α)
    (hlen : ∀ y, ∀ e ∈ polyEdges poly, (inter y e).length = (crossings y e).length)
    (hplot : ∀ e ∈ polyEdges poly, ∀ o : Image α, Draws op c o (plotter o e.1 e.2) (pts e)) :
    ∃ out, drawPolygonWith op inter plotter im poly c = some out ∧ out.w = im.w ∧ out.h = im.h ∧
      ∀ a b : Nat, im.InB a b → ∃ n : Nat,
        (0 < n ↔ (∃ e ∈ polyEdges poly, ((a : Int), (b : Int)) ∈ pts e) ∨
          EvenOddWith inter (polyEdges poly) a b) ∧
        out.px a b = (fun v => op v c)^[n] (im.px a b) := by
  have hev := fun y => inter_even inter poly y (hlen y)
  cases poly with
  | nil =>
    refine ⟨im, rfl, rfl, rfl, fun a b _ => ⟨0, ?_, rfl⟩⟩
    simp [EvenOddWith, polyEdges]
  | cons f rest =>
    unfold drawPolygonWith
    dsimp only
    rw [← polyEdges_cons]
    have hmin := foldl_min_le (f :: rest) f.2
    have hmax := le_foldl_max (f :: rest) f.2
    generalize (f :: rest).foldl (fun m p => min m p.2) f.2 = yMin at hmin ⊢
    generalize (f :: rest).foldl (fun m p => max m p.2) f.2 = yMax at hmax ⊢
    have hmm : yMin ≤ yMax := hmin.1.trans hmax.1
    have key := (scan_draws op inter im (max 0 (min yMin ((im.h : Int) - 1)))
      (max 0 (min yMax ((im.h : Int) - 1))) (polyEdges (f :: rest)) c hev (by omega) (by omega)
      (by omega)).bind (fun o _ _ => Draws.forList (g := pts) (polyEdges (f :: rest)) o
        (f := fun e im => plotter im e.1 e.2) fun e he o' _ _ => hplot e he o')
    obtain ⟨out, g1, g2, g3, g4⟩ := key
    refine ⟨out, g1, g2, g3, fun a b hab => ⟨_, ?_, g4 a b hab⟩⟩
    rw [List.count_pos_iff, List.mem_append, List.mem_flatMap, List.mem_flatMap, or_comm]
    refine or_congr Iff.rfl ?_
    constructor
    · rintro ⟨y, _, h⟩
      rw [scanPts_mem im.w inter _ y (hev y) a b hab.1] at h
      rw [h.1]; exact h.2
    · intro h
      refine ⟨b, ?_, (scanPts_mem im.w inter _ b (hev b) a b hab.1).2 ⟨rfl, h⟩⟩
      -- the row has a crossing, so it is between the extreme vertices
      obtain ⟨x, hx⟩ : ∃ x, x ∈ (polyEdges (f :: rest)).flatMap (inter b) := by
        rcases h with h | h
        · exact ⟨_, h⟩
        · have := h.pos
          rw [List.countP_pos_iff] at this
          obtain ⟨x, hx, _⟩ := this
          exact ⟨x, hx⟩
      obtain ⟨e, he, hxe⟩ := List.mem_flatMap.1 hx
      have hpos : 0 < (crossings b e).length := by
        rw [← hlen b e he]; exact List.length_pos_of_mem hxe
      obtain ⟨z, hz⟩ := List.exists_mem_of_length_pos hpos
      obtain ⟨v1, v2⟩ := polyEdges_mem he
      have r := crossings_row hz
      have m1 := hmin.2 _ v1
      have m2 := hmin.2 _ v2
      have m3 := hmax.2 _ v1
      have m4 := hmax.2 _ v2
      have := hab.2
      rw [List.mem_range'_1]
      omega

/-- **C47**, exact statement: for every list of vertices (including the empty one, one vertex,
repeated and collinear vertices), every image with at least one row and every canvas, drawing a
polygon does not fail, leaves pixels outside `InPolygon` unchanged and combines the colour a
positive number of times into the others. -/
theorem C47_fill {α : Type _} (op : α → α → α) (im : Image α) (hh : 0 < im.h)
    (poly : List (Int × Int)) (c : α) :
    ∃ out, drawPolygon op im poly c = some out ∧ out.w = im.w ∧ out.h = im.h ∧
      ∀ a b : Nat, im.InB a b → ∃ n : Nat, (0 < n ↔ InPolygon poly a b) ∧
        out.px a b = (fun v => op v c)^[n] (im.px a b) := by
  have e : edgeInter = crossings := funext fun y => funext fun e => edgeInter_eq y e
  have := fill_with op edgeInter (fun im s e => drawLineInt op im s.1 s.2 e.1 e.2 c)
    (fun e => bresenham ((e.1.1 : ℚ), (e.1.2 : ℚ)) ((e.2.1 : ℚ), (e.2.2 : ℚ))) im hh poly c
    (fun y e _ => by rw [edgeInter_eq]) (fun e _ o => Draws.line op c o e.1 e.2)
  unfold drawPolygon
  rw [e] at this ⊢
  exact this

/-- **C47** for plain images. -/
theorem C47_fill_overwrite {α : Type _} (im : Image α) (hh : 0 < im.h)
    (poly : List (Int × Int)) (c : α) :
    ∃ out, drawPolygon overwrite im poly c = some out ∧ out.w = im.w ∧ out.h = im.h ∧
      ∀ a b : Nat, im.InB a b → (InPolygon poly a b → out.px a b = c) ∧
        (¬ InPolygon poly a b → out.px a b = im.px a b) := by
  obtain ⟨o, h1, h2, h3, h4⟩ := C47_fill overwrite im hh poly c
  refine ⟨o, h1, h2, h3, fun a b hab => ?_⟩
  obtain ⟨n, hn, hpx⟩ := h4 a b hab
  constructor
  · intro h
    have := hn.2 h
    obtain ⟨k, rfl⟩ : ∃ k, n = k + 1 := ⟨n - 1, by omega⟩
    rw [hpx, Function.iterate_succ_apply']
    rfl
  · intro h
    have : n = 0 := by
      by_contra h0
      exact h (hn.1 (by omega))
    rw [hpx, this]
    rfl

/-- **C47**, bounding box: only pixels in the bounding box of the vertices are coloured. -/
theorem C47_bbox (poly : List (Int × Int)) (a b : Int) (h : InPolygon poly a b) :
    (∃ p ∈ poly, p.1 ≤ a) ∧ (∃ p ∈ poly, a ≤ p.1) ∧ (∃ p ∈ poly, p.2 ≤ b) ∧
      (∃ p ∈ poly, b ≤ p.2) := by
  have pick : ∀ (f : Int × Int → Int) (e : (Int × Int) × (Int × Int)) (z : Int),
      e ∈ polyEdges poly → (min (f e.1) (f e.2) ≤ z → ∃ p ∈ poly, f p ≤ z) ∧
        (z ≤ max (f e.1) (f e.2) → ∃ p ∈ poly, z ≤ f p) := by
    intro f e z he
    obtain ⟨v1, v2⟩ := polyEdges_mem he
    constructor
    · intro hz
      rcases min_le_iff.1 hz with h | h
      · exact ⟨_, v1, h⟩
      · exact ⟨_, v2, h⟩
    · intro hz
      rcases le_max_iff.1 hz with h | h
      · exact ⟨_, v1, h⟩
      · exact ⟨_, v2, h⟩
  rcases h with ⟨e, he, hm⟩ | h
  · obtain ⟨b1, b2, b3, b4⟩ := (C42_bresenham e.1 e.2).box _ hm
    exact ⟨(pick Prod.fst e a he).1 b1, (pick Prod.fst e a he).2 b2, (pick Prod.snd e b he).1 b3,
      (pick Prod.snd e b he).2 b4⟩
  · have hev : Even ((polyEdges poly).flatMap (crossings b)).length := by
      cases poly with
      | nil => simp [polyEdges]
      | cons f rest => rw [polyEdges_cons]; exact closed_even b f rest
    obtain ⟨⟨x, hx, hxa⟩, ⟨x', hx', hxa'⟩⟩ :
        (∃ x ∈ (polyEdges poly).flatMap (crossings b), x ≤ a) ∧
        (∃ x ∈ (polyEdges poly).flatMap (crossings b), a ≤ x) := by
      rcases h with h | h
      · exact ⟨⟨_, h, le_refl _⟩, ⟨_, h, le_refl _⟩⟩
      · constructor
        · have := h.pos
          rw [List.countP_pos_iff] at this
          obtain ⟨x, hx, h2⟩ := this
          exact ⟨x, hx, by simp at h2; omega⟩
        · by_contra hc
          push Not at hc
          have : ((polyEdges poly).flatMap (crossings b)).countP (· < a) =
              ((polyEdges poly).flatMap (crossings b)).length := by
            rw [List.countP_eq_length]
            intro z hz
            simpa using hc z hz
          rw [this] at h
          exact (Nat.not_odd_iff_even.2 hev) h
    obtain ⟨e, he, hxe⟩ := List.mem_flatMap.1 hx
    obtain ⟨e', he', hxe'⟩ := List.mem_flatMap.1 hx'
    have r := crossings_row hxe
    have c1 := crossings_col hxe
    have c2 := crossings_col hxe'
    exact ⟨(pick Prod.fst e a he).1 (c1.1.trans hxa), (pick Prod.fst e' a he').2 (hxa'.trans c2.2),
      (pick Prod.snd e b he).1 r.1, (pick Prod.snd e b he).2 r.2⟩

theorem windows2_cover {α : Type _} : ∀ (l : List α), 2 ≤ l.length → ∀ p ∈ l,
    ∃ e ∈ windows2 l, e.1 = p ∨ e.2 = p
  | [], h, _, _ => by simp at h
  | [_], h, _, _ => by simp at h
  | [a, b], _, p, hp => by
    refine ⟨(a, b), by simp [windows2], ?_⟩
    simp only [List.mem_cons, List.not_mem_nil, or_false] at hp
    rcases hp with h | h
    · exact Or.inl h.symm
    · exact Or.inr h.symm
  | a :: b :: c :: l, _, p, hp => by
    have e : windows2 (a :: b :: c :: l) = (a, b) :: windows2 (b :: c :: l) := rfl
    rcases List.mem_cons.1 hp with h | h
    · exact ⟨(a, b), by rw [e]; simp, Or.inl h.symm⟩
    · obtain ⟨x, hx, hx'⟩ := windows2_cover (b :: c :: l) (by simp) p h
      exact ⟨x, by rw [e]; exact List.mem_cons_of_mem _ hx, hx'⟩

theorem bresenham_ends (s e : Int × Int) :
    s ∈ bresenham ((s.1 : ℚ), (s.2 : ℚ)) ((e.1 : ℚ), (e.2 : ℚ)) ∧
    e ∈ bresenham ((s.1 : ℚ), (s.2 : ℚ)) ((e.1 : ℚ), (e.2 : ℚ)) := by
  rcases (C42_bresenham s e).ends with ⟨h1, h2⟩ | ⟨h1, h2⟩
  · exact ⟨List.mem_of_head? h1, List.mem_of_getLast? h2⟩
  · exact ⟨List.mem_of_getLast? h2, List.mem_of_head? h1⟩

/-- **C47**, edges: every pixel of the line between consecutive vertices of the closed path is
coloured. -/
theorem C47_edges (poly : List (Int × Int)) (e : (Int × Int) × (Int × Int))
    (he : e ∈ polyEdges poly) (p : Int × Int)
    (hp : p ∈ bresenham ((e.1.1 : ℚ), (e.1.2 : ℚ)) ((e.2.1 : ℚ), (e.2.2 : ℚ))) :
    InPolygon poly p.1 p.2 := Or.inl ⟨e, he, hp⟩

/-- **C47**, vertices, partial: with at least two vertices every vertex is coloured.  Missing: a
polygon with a single vertex, which draws nothing (`C47_negation`). -/
theorem C47_vertices_partial (poly : List (Int × Int)) (h : 2 ≤ poly.length) (p : Int × Int)
    (hp : p ∈ poly) : InPolygon poly p.1 p.2 := by
  cases poly with
  | nil => simp at h
  | cons f rest =>
    obtain ⟨e, he, hep⟩ := windows2_cover
      (closePoly (f :: rest) f ((f :: rest).getLast (by simp)))
      (by unfold closePoly; split <;> simp at h ⊢; omega) p
      (by unfold closePoly; split
          · exact List.mem_append_left _ hp
          · exact hp)
    rw [← polyEdges_cons] at he
    refine C47_edges _ e he p ?_
    rcases hep with h | h
    · rw [← h]; exact (bresenham_ends e.1 e.2).1
    · rw [← h]; exact (bresenham_ends e.1 e.2).2

/-- **C47, negation** of "every vertex is coloured": a polygon with a single vertex draws nothing,
whatever the vertex. -/
theorem C47_negation {α : Type _} (op : α → α → α) (im : Image α) (hh : 0 < im.h) (c : α)
    (p : Int × Int) : ∃ out, drawPolygon op im [p] c = some out ∧ out.w = im.w ∧ out.h = im.h ∧
      ∀ a b : Nat, im.InB a b → out.px a b = im.px a b := by
  obtain ⟨o, h1, h2, h3, h4⟩ := C47_fill op im hh [p] c
  refine ⟨o, h1, h2, h3, fun a b hab => ?_⟩
  obtain ⟨n, hn, hpx⟩ := h4 a b hab
  have : ¬ InPolygon [p] a b := by simp [InPolygon, EvenOdd, polyEdges, windows2]
  have h0 : n = 0 := by
    by_contra h0
    exact this (hn.1 (by omega))
  rw [hpx, h0]
  rfl

/-- Antialiased polygons do not fail either. -/
theorem C47_antialiased_total {α : Type _} (blend : α → α → ℚ → α) (im : Image α) (hh : 0 < im.h)
    (poly : List (Int × Int)) (c : α) :
    ∃ out, drawAntialiasedPolygon blend im poly c = some out ∧ out.w = im.w ∧ out.h = im.h := by
  cases poly with
  | nil => exact ⟨im, rfl, rfl, rfl⟩
  | cons f rest =>
    unfold drawAntialiasedPolygon drawPolygonWith
    dsimp only
    rw [← polyEdges_cons]
    have hev : ∀ y, Even ((polyEdges (f :: rest)).flatMap (edgeInter y)).length := fun y =>
      inter_even edgeInter _ y fun e _ => by rw [edgeInter_eq]
    have hmin := foldl_min_le (f :: rest) f.2
    have hmax := le_foldl_max (f :: rest) f.2
    generalize (f :: rest).foldl (fun m p => min m p.2) f.2 = yMin at hmin ⊢
    generalize (f :: rest).foldl (fun m p => max m p.2) f.2 = yMax at hmax ⊢
    have hmm : yMin ≤ yMax := hmin.1.trans hmax.1
    obtain ⟨o, h1, h2, h3, -⟩ := scan_draws overwrite edgeInter im (max 0 (min yMin ((im.h : Int) - 1)))
      (max 0 (min yMax ((im.h : Int) - 1))) (polyEdges (f :: rest)) c hev (by omega) (by omega)
      (by omega)
    rw [h1, Option.bind_some]
    obtain ⟨out, g1, g2⟩ := forList_spec (f := fun e im => drawAntialiased blend im e.1 e.2 c)
      (fun _ o => o.w = im.w ∧ o.h = im.h) (polyEdges (f :: rest)) [] o ⟨h2, h3⟩
      (by
        rintro _ e _ o' _ ⟨h4, h5⟩
        obtain ⟨o2, k1, k2, k3, -⟩ := C48_exact blend o' e.1 e.2 c
        exact ⟨o2, k1, by omega, by omega⟩)
    exact ⟨out, g1, g2⟩

-- A triangle with a vertex outside the image, clipped.
example : (drawPolygon overwrite (Image.new 5 4 0) [(0, 0), (6, 0), (0, 3)] 1).map Image.rows =
    some [[1, 1, 1, 1, 1], [1, 1, 1, 1, 1], [1, 1, 1, 1, 0], [1, 1, 0, 0, 0]] := by decide +kernel
-- A single vertex draws nothing; an image without rows makes the function panic.
example : (drawPolygon overwrite (Image.new 1 1 0) [(0, 0)] 1).map Image.rows = some [[0]] := by
  decide +kernel
example : (drawPolygon overwrite (Image.new 2 0 0) [(0, -1), (1, -1), (1, 1), (0, 1)] 1).isNone =
    true := by decide +kernel

end Verif.Drawing
