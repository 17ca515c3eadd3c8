import Verif.Contours.Props
/-
Property C160: the coordinate type `T` of the contours returned by `find_contours` and `find_contours_with_threshold`
(src/contours.rs).  The coordinates are found as `usize` and converted with `num::cast(..).unwrap()`, which panics if the value does not fit an
integer type.  (Floating-point types are excluded by the bound `Eq`.)  `cast` below is the conversion, `none` if it has no value.
-/
namespace Verif.Contours

/-- `Contour<T>` (src/contours.rs:21-29). -/
structure ContourT (τ : Type _) where
  points : List (τ × τ)
  outer : Bool
  parent : Option Nat

variable {τ : Type _}

/-- `Point::new(cast(x).unwrap(), cast(y).unwrap())`, src/contours.rs:150-151, 186. -/
def castPoint (cast : Nat → Option τ) (p : Nat × Nat) : Option (τ × τ) :=
  (cast p.1).bind fun x => (cast p.2).map fun y => (x, y)

/-- The tracing loop (src/contours.rs:149-184) with points of type `T`. -/
def traceLoopT (cast : Nat → Option τ) (num : Nat) (curr pos1 : Nat × Nat) :
    Nat → Image Int → List (Int × Int) → List (τ × τ) → Nat × Nat → Nat × Nat →
      Option (Image Int × List (Int × Int) × List (τ × τ))
  | 0, _, _, _, _, _ => none
  | fuel + 1, v, diffs, points, pos2, pos3 =>
    (castPoint cast pos3).bind fun p =>
    let points := points ++ [p]
    (rotateToValue diffs (diff pos2 pos3)).bind fun diffs =>
    (diffs.reverse.findSome? fun d => nonZeroAt v (shift pos3 d)).bind fun pos4 =>
    let isRightEdge := rightEdge (diff pos4 pos3) diffs.reverse
    (if pos3.1 + 1 = v.w ∨ isRightEdge = true then v.put pos3.1 pos3.2 (-(num : Int))
      else (v.get pos3.1 pos3.2).bind fun old =>
        if old = 1 then v.put pos3.1 pos3.2 num else some v).bind fun v =>
    if pos4 = curr ∧ pos3 = pos1 then some (v, diffs, points)
    else traceLoopT cast num curr pos1 fuel v diffs points pos3 pos4

/-- The state of the raster scan. -/
structure StT (τ : Type _) where
  v : Image Int
  diffs : List (Int × Int)
  contours : List (ContourT τ)
  num : Nat
  parent : Nat

/-- The parent of a new border (src/contours.rs:125-137). -/
def parentOfT (contours : List (ContourT τ)) (parentNum : Nat) (outer : Bool) : Option (Option Nat) :=
  if parentNum > 1 then
    (contours[parentNum - 2]?).map fun pc =>
      if xor outer pc.outer then some (parentNum - 2) else pc.parent
  else some none

/-- Following one border (src/contours.rs:123-189). -/
def followT (cast : Nat → Option τ) (fuel : Nat) (s : StT τ) (x y : Nat) (adj : Nat × Nat) (outer : Bool) : Option (StT τ) :=
  let num := s.num + 1
  (parentOfT s.contours s.parent outer).bind fun parent =>
  (rotateToValue s.diffs (diff adj (x, y))).bind fun diffs =>
  match diffs.findSome? fun d => nonZeroAt s.v (shift (x, y) d) with
  | some pos1 =>
    (traceLoopT cast num (x, y) pos1 fuel s.v diffs [] pos1 (x, y)).map fun (v, diffs, points) =>
      { v := v, diffs := diffs, contours := s.contours ++ [⟨points, outer, parent⟩], num := num,
        parent := s.parent }
  | none =>
    (castPoint cast (x, y)).bind fun p =>
    (s.v.put x y (-(num : Int))).map fun v =>
      { v := v, diffs := diffs, contours := s.contours ++ [⟨[p], outer, parent⟩], num := num,
        parent := s.parent }

/-- One pixel of the raster scan (src/contours.rs:105-194). -/
def visitT (cast : Nat → Option τ) (fuel x y : Nat) (s : StT τ) : Option (StT τ) :=
  (s.v.get x y).bind fun c =>
  if c = 0 then some s
  else
    (if c = 1 ∧ x > 0 then (s.v.get (x - 1) y).map fun l => decide (l = 0)
      else some false).bind fun isOuter =>
    (if isOuter then followT cast fuel s x y (x - 1, y) true
      else
        (if c > 0 ∧ x + 1 < s.v.w then (s.v.get (x + 1) y).map fun r => decide (r = 0)
          else some false).bind fun isHole =>
        if isHole then
          followT cast fuel (if c > 1 then { s with parent := c.toNat } else s) x y (x + 1, y) false
        else some s).bind fun s =>
    (s.v.get x y).map fun c => if c ≠ 1 then { s with parent := c.natAbs } else s

/-- `find_contours_with_threshold::<T>` (src/contours.rs:59-199). -/
def findContoursT (cast : Nat → Option τ) (im : Image Nat) (threshold : Nat) : Option (List (ContourT τ)) :=
  (binarise im threshold).bind fun v =>
  (forRange 0 im.h (⟨v, dirs, [], 1, 1⟩ : StT τ) fun y s =>
    forRange 0 im.w { s with parent := 1 } fun x s =>
      visitT cast (im.w * im.h * 8) x y s).map fun s => s.contours

/-! ### Conversion commutes with tracing -/

/-- Specification: convert every element, or fail. -/
def convList {α β : Type _} (f : α → Option β) : List α → Option (List β)
  | [] => some []
  | a :: l => (f a).bind fun b => (convList f l).map (b :: ·)

/-- Specification: convert the points of a contour. -/
def convContour (cast : Nat → Option τ) (c : Contour) : Option (ContourT τ) :=
  (convList (castPoint cast) c.points).map fun ps => ⟨ps, c.outer, c.parent⟩

theorem convList_append {α β : Type _} (f : α → Option β) (l : List α) (a : α) :
    convList f (l ++ [a]) = (convList f l).bind fun bs => (f a).map fun b => bs ++ [b] := by
  induction l with
  | nil => cases h : f a <;> simp [convList, h]
  | cons x l ih =>
    rw [List.cons_append, convList, convList, ih]
    cases h1 : f x <;> cases h2 : convList f l <;> cases h3 : f a <;> simp

theorem convList_some {α β : Type _} {f : α → Option β} {l : List α} {r : List β} (h : convList f l = some r) :
    r.length = l.length ∧ ∀ i : Nat, r[i]? = l[i]?.bind f := by
  induction l generalizing r with
  | nil => cases h; exact ⟨rfl, fun _ => rfl⟩
  | cons a l ih =>
    obtain ⟨b, e1, h⟩ := Option.bind_eq_some_iff.1 h
    obtain ⟨bs, e2, h⟩ := Option.map_eq_some_iff.1 h
    subst h
    obtain ⟨h1, h2⟩ := ih e2
    refine ⟨by simp [h1], ?_⟩
    rintro (_ | i)
    · simp [e1]
    · simpa using h2 i

theorem convList_none {α β : Type _} {f : α → Option β} {l : List α} : convList f l = none ↔ ∃ a ∈ l, f a = none := by
  induction l with
  | nil => simp [convList]
  | cons a l ih =>
    rw [convList]
    cases h : f a with
    | none => simp [h]
    | some b =>
      rw [Option.bind_some, Option.map_eq_none_iff, ih]
      simp [h]

theorem traceLoop_prefix (num : Nat) (curr pos1 : Nat × Nat) (fuel : Nat) :
    ∀ (v : Image Int) (diffs : List (Int × Int)) (points : List (Nat × Nat)) (pos2 pos3 : Nat × Nat) {r},
      traceLoop num curr pos1 fuel v diffs points pos2 pos3 = some r → ∃ ext, r.2.2 = points ++ pos3 :: ext := by
  induction fuel with
  | zero => intro v diffs points pos2 pos3 r h; cases h
  | succ fuel ih =>
    intro v diffs points pos2 pos3 r h
    unfold traceLoop at h
    obtain ⟨ds, -, h⟩ := Option.bind_eq_some_iff.1 h
    obtain ⟨pos4, -, h⟩ := Option.bind_eq_some_iff.1 h
    obtain ⟨v', -, h⟩ := Option.bind_eq_some_iff.1 h
    split at h
    · cases h
      exact ⟨[], rfl⟩
    · obtain ⟨ext, e⟩ := ih _ _ _ _ _ h
      exact ⟨pos4 :: ext, by rw [e, List.append_assoc]; rfl⟩

theorem traceLoopT_eq (cast : Nat → Option τ) (num : Nat) (curr pos1 : Nat × Nat) (fuel : Nat) :
    ∀ (v : Image Int) (diffs : List (Int × Int)) (points : List (Nat × Nat)) (pts : List (τ × τ)) (pos2 pos3 : Nat × Nat),
      convList (castPoint cast) points = some pts →
      traceLoopT cast num curr pos1 fuel v diffs pts pos2 pos3 =
        (traceLoop num curr pos1 fuel v diffs points pos2 pos3).bind fun r =>
          (convList (castPoint cast) r.2.2).map fun ps => (r.1, r.2.1, ps) := by
  induction fuel with
  | zero => intros; rfl
  | succ fuel ih =>
    intro v diffs points pts pos2 pos3 hp
    cases hc : castPoint cast pos3 with
    | none =>
      rw [traceLoopT, hc, Option.bind_none]
      cases e : traceLoop num curr pos1 (fuel + 1) v diffs points pos2 pos3 with
      | none => rfl
      | some r =>
        obtain ⟨ext, he⟩ := traceLoop_prefix _ _ _ _ _ _ _ _ _ e
        rw [Option.bind_some, convList_none.2 ⟨pos3, by rw [he]; simp, hc⟩]
        rfl
    | some p =>
      have hp' : convList (castPoint cast) (points ++ [pos3]) = some (pts ++ [p]) := by
        rw [convList_append, hp, hc]
        rfl
      rw [traceLoopT, traceLoop, hc, Option.bind_some]
      dsimp only
      cases e1 : rotateToValue diffs (diff pos2 pos3) with
      | none => rfl
      | some ds =>
      simp only [Option.bind_some]
      cases e2 : ds.reverse.findSome? fun d => nonZeroAt v (shift pos3 d) with
      | none => rfl
      | some pos4 =>
      simp only [Option.bind_some]
      generalize (if pos3.1 + 1 = v.w ∨ rightEdge (diff pos4 pos3) ds.reverse = true then v.put pos3.1 pos3.2 (-(num : Int))
        else (v.get pos3.1 pos3.2).bind fun old => if old = 1 then v.put pos3.1 pos3.2 num else some v) = ov
      cases ov with
      | none => rfl
      | some v' =>
      simp only [Option.bind_some]
      by_cases hf : pos4 = curr ∧ pos3 = pos1
      · rw [if_pos hf, if_pos hf, Option.bind_some, hp']
        rfl
      · rw [if_neg hf, if_neg hf]
        exact ih _ _ _ _ _ _ hp'

/-- The state with converted contours. -/
def convSt (cast : Nat → Option τ) (s : St) : Option (StT τ) :=
  (convList (convContour cast) s.contours).map fun cs => ⟨s.v, s.diffs, cs, s.num, s.parent⟩

theorem parentOfT_eq {cast : Nat → Option τ} {cs : List Contour} {ds : List (ContourT τ)} (h : convList (convContour cast) cs = some ds)
    (n : Nat) (outer : Bool) : parentOfT ds n outer = parentOf cs n outer := by
  unfold parentOfT parentOf
  split
  · rw [(convList_some h).2]
    cases e : cs[n - 2]? with
    | none => rfl
    | some c =>
      have hne : convContour cast c ≠ none := fun hn => by
        have := convList_none.2 ⟨c, List.mem_of_getElem? e, hn⟩
        rw [h] at this
        cases this
      obtain ⟨d, hd⟩ := Option.ne_none_iff_exists'.1 hne
      rw [Option.bind_some, hd, Option.map_some, Option.map_some]
      unfold convContour at hd
      obtain ⟨ps, -, hd⟩ := Option.map_eq_some_iff.1 hd
      subst hd
      rfl
  · rfl

theorem followT_eq (cast : Nat → Option τ) (fuel : Nat) {s : St} {s' : StT τ} (h : convSt cast s = some s') (x y : Nat) (adj : Nat × Nat)
    (outer : Bool) : followT cast fuel s' x y adj outer = (follow fuel s x y adj outer).bind (convSt cast) := by
  unfold convSt at h
  obtain ⟨ds, e, h⟩ := Option.map_eq_some_iff.1 h
  subst h
  unfold followT follow
  dsimp only
  rw [parentOfT_eq e]
  cases e1 : parentOf s.contours s.parent outer with
  | none => rfl
  | some parent =>
  simp only [Option.bind_some]
  cases e2 : rotateToValue s.diffs (diff adj (x, y)) with
  | none => rfl
  | some diffs =>
  simp only [Option.bind_some]
  cases e3 : diffs.findSome? fun d => nonZeroAt s.v (shift (x, y) d) with
  | some pos1 =>
    dsimp only
    rw [traceLoopT_eq cast _ _ _ _ _ _ [] [] _ _ rfl]
    cases e4 : traceLoop (s.num + 1) (x, y) pos1 fuel s.v diffs [] pos1 (x, y) with
    | none => rfl
    | some r =>
      obtain ⟨v, dd, ps⟩ := r
      simp only [Option.bind_some, Option.map_some, convSt, convList_append, e, convContour]
      cases convList (castPoint cast) ps <;> rfl
  | none =>
    dsimp only
    cases e4 : s.v.put x y (-((s.num + 1 : Nat) : Int)) with
    | none => cases castPoint cast (x, y) <;> rfl
    | some v =>
      simp only [Option.bind_some, Option.map_some, convSt, convList_append, e, convContour, convList]
      cases castPoint cast (x, y) <;> rfl

theorem follow_prefix {fuel : Nat} {s s' : St} {x y : Nat} {adj : Nat × Nat} {outer : Bool} (h : follow fuel s x y adj outer = some s') :
    ∃ ext, s'.contours = s.contours ++ ext := by
  unfold follow at h
  obtain ⟨parent, -, h⟩ := Option.bind_eq_some_iff.1 h
  obtain ⟨diffs, -, h⟩ := Option.bind_eq_some_iff.1 h
  split at h
  · obtain ⟨⟨v, d, p⟩, -, h⟩ := Option.map_eq_some_iff.1 h
    subst h
    exact ⟨_, rfl⟩
  · obtain ⟨v, -, h⟩ := Option.map_eq_some_iff.1 h
    subst h
    exact ⟨_, rfl⟩

theorem convSt_none {cast : Nat → Option τ} {s : St} : convSt cast s = none ↔ ∃ c ∈ s.contours, convContour cast c = none := by
  unfold convSt
  rw [Option.map_eq_none_iff, convList_none]

theorem convSt_parent (cast : Nat → Option τ) (s : St) (n : Nat) :
    convSt cast { s with parent := n } = (convSt cast s).map fun s => { s with parent := n } := by
  unfold convSt
  cases convList (convContour cast) s.contours <;> rfl

theorem visit_prefix {fuel x y : Nat} {s s' : St} (h : visit fuel x y s = some s') : ∃ ext, s'.contours = s.contours ++ ext := by
  unfold visit at h
  obtain ⟨c, -, h⟩ := Option.bind_eq_some_iff.1 h
  split at h
  · cases h; exact ⟨[], by simp⟩
  obtain ⟨b, -, h⟩ := Option.bind_eq_some_iff.1 h
  obtain ⟨s1, e, h⟩ := Option.bind_eq_some_iff.1 h
  obtain ⟨c', -, h⟩ := Option.map_eq_some_iff.1 h
  have : s'.contours = s1.contours := by
    rw [← h]
    split <;> rfl
  rw [this]
  split at e
  · exact follow_prefix e
  · obtain ⟨b', -, e⟩ := Option.bind_eq_some_iff.1 e
    split at e
    · obtain ⟨ext, e'⟩ := follow_prefix e
      refine ⟨ext, ?_⟩
      rw [e']
      split <;> rfl
    · cases e; exact ⟨[], by simp⟩

theorem visitT_eq (cast : Nat → Option τ) (fuel x y : Nat) {s : St} {s' : StT τ} (h : convSt cast s = some s') :
    visitT cast fuel x y s' = (visit fuel x y s).bind (convSt cast) := by
  have hv : s'.v = s.v := by
    unfold convSt at h
    obtain ⟨ds, -, h⟩ := Option.map_eq_some_iff.1 h
    subst h
    rfl
  have tail : ∀ o : Option St, ((o.bind (convSt cast)).bind fun s : StT τ => (s.v.get x y).map fun c => if c ≠ 1 then { s with parent := c.natAbs } else s) =
      (o.bind fun s : St => (s.v.get x y).map fun c => if c ≠ 1 then { s with parent := c.natAbs } else s).bind (convSt cast) := by
    intro o
    cases o with
    | none => rfl
    | some s =>
      rw [Option.bind_some, Option.bind_some]
      cases e : convSt cast s with
      | none =>
        cases s.v.get x y with
        | none => rfl
        | some c =>
          rw [Option.map_some, Option.bind_some]
          by_cases hc : c ≠ 1
          · rw [if_pos hc, convSt_parent, e]; rfl
          · rw [if_neg hc, e]; rfl
      | some t =>
        have ht : t.v = s.v := by
          unfold convSt at e
          obtain ⟨ds, -, e⟩ := Option.map_eq_some_iff.1 e
          subst e
          rfl
        rw [Option.bind_some, ht]
        cases s.v.get x y with
        | none => rfl
        | some c =>
          rw [Option.map_some, Option.map_some, Option.bind_some]
          by_cases hc : c ≠ 1
          · rw [if_pos hc, if_pos hc, convSt_parent, e, ← ht]; rfl
          · rw [if_neg hc, if_neg hc, e]
  obtain ⟨v', diffs', cs', num', par'⟩ := s'
  dsimp only at hv
  subst hv
  unfold visitT visit
  dsimp only
  cases s.v.get x y with
  | none => rfl
  | some c =>
  simp only [Option.bind_some]
  by_cases hc : c = 0
  · rw [if_pos hc, if_pos hc, Option.bind_some, h]
  rw [if_neg hc, if_neg hc]
  cases (if c = 1 ∧ x > 0 then (s.v.get (x - 1) y).map fun l => decide (l = 0) else some false) with
  | none => rfl
  | some b =>
  rw [Option.bind_some, Option.bind_some, ← tail]
  congr 1
  cases b with
  | true => exact followT_eq cast fuel h x y _ _
  | false =>
    simp only [Bool.false_eq_true, if_false]
    cases (if c > 0 ∧ x + 1 < s.v.w then (s.v.get (x + 1) y).map fun r => decide (r = 0) else some false) with
    | none => rfl
    | some b =>
      rw [Option.bind_some, Option.bind_some]
      cases b with
      | false => rw [if_neg (by simp), if_neg (by simp), Option.bind_some, h]
      | true =>
        rw [if_pos rfl, if_pos rfl]
        refine followT_eq cast fuel ?_ x y _ _
        by_cases h1 : c > 1
        · rw [if_pos h1, if_pos h1, convSt_parent, h]; rfl
        · rw [if_neg h1, if_neg h1, h]

theorem forRange_conv {σ ρ : Type _} {f : Nat → σ → Option σ} {g : Nat → ρ → Option ρ} {conv : σ → Option ρ}
    (h1 : ∀ i s t, conv s = some t → g i t = (f i s).bind conv) (h2 : ∀ i s s', conv s = none → f i s = some s' → conv s' = none)
    {lo hi : Nat} (hle : lo ≤ hi) {s : σ} {t : ρ} (h : conv s = some t) : forRange lo hi t g = (forRange lo hi s f).bind conv := by
  induction hi, hle using Nat.le_induction with
  | base => rw [forRange_empty le_rfl, forRange_empty le_rfl, Option.bind_some, h]
  | succ n hn ih =>
    rw [forRange_succ_last hn, forRange_succ_last hn, ih]
    cases forRange lo n s f with
    | none => rfl
    | some u =>
      rw [Option.bind_some, Option.bind_some]
      cases e : conv u with
      | some t => rw [Option.bind_some, h1 _ _ _ e]
      | none =>
        cases e2 : f n u with
        | none => rfl
        | some u' => rw [Option.bind_none, Option.bind_some, h2 _ _ _ e e2]

theorem forRange_none {σ ρ : Type _} {f : Nat → σ → Option σ} {conv : σ → Option ρ} (h2 : ∀ i s s', conv s = none → f i s = some s' → conv s' = none)
    {lo hi : Nat} (hle : lo ≤ hi) {s s' : σ} (h : conv s = none) (e : forRange lo hi s f = some s') : conv s' = none :=
  forRange_inv (fun _ s => conv s = none) hle h (fun i s s' _ _ h3 h4 => h2 i s s' h3 h4) e

/-- C160: the contours with coordinates of type `T` are those with `usize` coordinates, converted point by point; the call panics exactly if one
of these conversions has no value. -/
theorem C160_cast (cast : Nat → Option τ) (im : Image Nat) (t : Nat) :
    findContoursT cast im t = (findContours im t).bind (convList (convContour cast)) := by
  unfold findContoursT findContours
  cases binarise im t with
  | none => rfl
  | some v =>
  rw [Option.bind_some, Option.bind_some]
  have hv : ∀ y x (s s' : St), convSt cast s = none → visit (im.w * im.h * 8) x y s = some s' → convSt cast s' = none := by
    intro y x s s' h e
    obtain ⟨c, hc, h⟩ := convSt_none.1 h
    obtain ⟨ext, e⟩ := visit_prefix e
    exact convSt_none.2 ⟨c, by rw [e]; exact List.mem_append_left _ hc, h⟩
  rw [forRange_conv (f := fun y s => forRange 0 im.w { s with parent := 1 } fun x s => visit (im.w * im.h * 8) x y s)
    (conv := convSt cast) (s := ⟨v, dirs, [], 1, 1⟩) ?_ ?_ (Nat.zero_le _) rfl]
  · cases (forRange 0 im.h (⟨v, dirs, [], 1, 1⟩ : St) fun y s => forRange 0 im.w { s with parent := 1 } fun x s => visit (im.w * im.h * 8) x y s) with
    | none => rfl
    | some s =>
      rw [Option.bind_some, Option.map_some, Option.bind_some, convSt]
      cases convList (convContour cast) s.contours <;> rfl
  · intro y s t h
    refine forRange_conv (fun x s t h => visitT_eq cast _ x y h) (hv y) (Nat.zero_le _) ?_
    rw [convSt_parent, h]
    rfl
  · intro y s s' h e
    refine forRange_none (hv y) (Nat.zero_le _) ?_ e
    rw [convSt_parent, h]
    rfl

theorem convList_map {α β : Type _} {f : α → Option β} {g : α → β} (l : List α) (h : ∀ a ∈ l, f a = some (g a)) :
    convList f l = some (l.map g) := by
  induction l with
  | nil => rfl
  | cons a l ih =>
    rw [convList, h a (by simp), Option.bind_some, ih fun b hb => h b (by simp [hb])]
    rfl

/-- C160: if the conversion has values `g` for all coordinates of the image, the call does not panic and `g` is applied to the coordinates. -/
theorem C160_total (cast : Nat → Option τ) (g : Nat → τ) (im : Image Nat) (t : Nat) (hx : ∀ n, n < im.w → cast n = some (g n))
    (hy : ∀ n, n < im.h → cast n = some (g n)) :
    ∃ cs, findContours im t = some cs ∧
      findContoursT cast im t = some (cs.map fun c => ⟨c.points.map fun p => (g p.1, g p.2), c.outer, c.parent⟩) := by
  obtain ⟨cs, e⟩ := C51_total im t
  refine ⟨cs, e, ?_⟩
  rw [C160_cast, e, Option.bind_some]
  refine convList_map cs fun c hc => ?_
  unfold convContour
  rw [convList_map (g := fun p : Nat × Nat => (g p.1, g p.2)) c.points fun p hp => ?_, Option.map_some]
  obtain ⟨h1, h2, -⟩ := (C52_chain e hc).2 p hp
  unfold castPoint
  rw [hx _ h1, hy _ h2]
  rfl

/-- C160: with an integer type of maximal value `M`, images of at most `M + 1` columns and rows never panic, and the coordinates are unchanged. -/
theorem C160_fits (M : Nat) (im : Image Nat) (t : Nat) (hw : im.w ≤ M + 1) (hh : im.h ≤ M + 1) :
    ∃ cs, findContours im t = some cs ∧
      findContoursT (fun n => if n ≤ M then some n else none) im t = some (cs.map fun c => ⟨c.points, c.outer, c.parent⟩) := by
  obtain ⟨cs, e, h⟩ := C160_total (fun n => if n ≤ M then some n else none) id im t (fun n h => if_pos (by omega)) (fun n h => if_pos (by omega))
  exact ⟨cs, e, by rw [h]; simp⟩

/-- C160: if the last column is clear and an edge pixel has a coordinate that does not fit, the call panics. -/
theorem C160_panics (M : Nat) (im : Image Nat) (t : Nat) (hcl : ClearRight im t) {p : Nat × Nat} (hp : Fore im t p) (he : EdgePx im t p)
    (hM : M < p.1 ∨ M < p.2) : findContoursT (fun n => if n ≤ M then some n else none) im t = none := by
  obtain ⟨cs, e⟩ := C51_total im t
  obtain ⟨c, hc, hpc⟩ := C94_partial e hcl hp he
  rw [C160_cast, e, Option.bind_some]
  refine convList_none.2 ⟨c, hc, ?_⟩
  unfold convContour
  rw [convList_none.2 ⟨p, hpc, ?_⟩]
  · rfl
  · unfold castPoint
    dsimp only
    by_cases h1 : p.1 ≤ M
    · rw [if_pos h1, if_neg (by omega)]; rfl
    · rw [if_neg h1]; rfl

/-- One row with a single foreground pixel. -/
def dotIm (w k : Nat) : Image Nat := ⟨w, 1, fun x _ => if x = k then 1 else 0⟩

theorem dot_fore {w k : Nat} (h : k < w) : Fore (dotIm w k) 0 (k, 0) ∧ EdgePx (dotIm w k) 0 (k, 0) := by
  refine ⟨⟨h, Nat.zero_lt_one, ?_⟩, Or.inr (Or.inl (Or.inl rfl))⟩
  show (if k = k then 1 else 0) > 0
  rw [if_pos rfl]
  omega

theorem dot_clear {w k : Nat} (h : k + 1 < w) : ClearRight (dotIm w k) 0 := by
  intro y _
  show (if w - 1 = k then 1 else 0) ≤ 0
  rw [if_neg (by omega)]

/-- C160 (false in general): a dot in column 256 of a row makes the search with `u8` coordinates panic. -/
theorem C160_negation : findContoursT (fun n => if n ≤ 255 then some n else none) (dotIm 258 256) 0 = none := by
  obtain ⟨h1, h2⟩ := dot_fore (w := 258) (k := 256) (by omega)
  exact C160_panics 255 _ 0 (dot_clear (by omega)) h1 h2 (Or.inl (by omega))

/-- The ring of C51 with `u8` coordinates: the points are those found with `usize` coordinates. -/
example : ∃ cs, findContours ringIm 0 = some cs ∧ cs.length ≠ 0 ∧
    findContoursT (fun n => if n ≤ 255 then some n else none) ringIm 0 = some (cs.map fun c => ⟨c.points, c.outer, c.parent⟩) := by
  obtain ⟨cs, e, h⟩ := C160_fits 255 ringIm 0 (by decide) (by decide)
  refine ⟨cs, e, ?_, h⟩
  have : (findContours ringIm 0).map List.length ≠ some 0 := by decide +kernel
  intro hl
  rw [e, Option.map_some, hl] at this
  exact this rfl

end Verif.Contours
