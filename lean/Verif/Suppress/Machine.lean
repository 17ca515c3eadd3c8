import Verif.Suppress.Props
import Verif.Suppress.LocalMaxima
import Verif.Contrast.Machine
/-
Property C158: non-maximum suppression (src/suppress.rs) with the `u32` arithmetic of both build profiles: `dbg = true` checks for overflow
(`none` is the panic), `dbg = false` wraps.
-/
namespace Verif.Suppress
open Verif.Machine Verif.Float
set_option linter.unusedSectionVars false
variable {α : Type _} [LinearOrder α]

/-- `a + radius + 1` in `u32`. -/
def add1 (dbg : Bool) (a radius : Nat) : Option Nat :=
  (red dbg (2 ^ 32) (a + radius)).bind fun s => red dbg (2 ^ 32) (s + 1)

/-- The search of one block between explicit bounds (src/suppress.rs:30-47). -/
def blockMaxB (im : Image α) (x y X Y : Nat) : Option (Best α) :=
  (im.get x y).bind fun mi =>
  forYX y Y x X ⟨x, y, mi⟩ fun cx cy b =>
    (im.get cx cy).bind fun ci =>
    if ci < b.v then some b
    else if ci > b.v || lexLt cx cy b.x b.y then some ⟨cx, cy, ci⟩
    else some b

/-- One block of `suppress_non_maximum` (src/suppress.rs:26-71); the bounds, which do not change in the loops, are computed once. -/
def suppressBlockM (dbg : Bool) (im : Image α) (radius x y : Nat) (out : Image α) : Option (Image α) :=
  (add1 dbg y radius).bind fun yr =>
  (add1 dbg x radius).bind fun xr =>
  (blockMaxB im x y (min im.w xr) (min im.h yr)).bind fun b =>
  (add1 dbg b.x radius).bind fun bxr =>
  (add1 dbg b.y radius).bind fun byr =>
  let x0 := b.x - radius
  let x1 := x
  let x2 := min im.w xr
  let x3 := min im.w bxr
  let y0 := b.y - radius
  let y1 := y
  let y2 := min im.h yr
  let y3 := min im.h byr
  (containsGreaterValue im b.x b.y b.v y0 y1 x0 x3).bind fun f1 =>
  (containsGreaterValue im b.x b.y b.v y1 y2 x0 x1).bind fun f2 =>
  (containsGreaterValue im b.x b.y b.v y1 y2 x2 x3).bind fun f3 =>
  (containsGreaterValue im b.x b.y b.v y2 y3 x0 x3).bind fun f4 =>
  if !(f1 || f2 || f3 || f4) then out.put b.x b.y b.v else some out

/-- `suppress_non_maximum` (src/suppress.rs:10-75); `radius as usize + 1` is 64 bits wide. -/
def suppressM (dbg : Bool) (im : Image α) (zero : α) (radius : Nat) : Option (Image α) :=
  let out := Image.new im.w im.h zero
  if im.w = 0 ∨ im.h = 0 then some out
  else
    forYX 0 ((im.h + radius) / (radius + 1)) 0 ((im.w + radius) / (radius + 1)) out
      fun kx ky out => suppressBlockM dbg im radius (kx * (radius + 1)) (ky * (radius + 1)) out

/-- Scanning one row of `local_maxima` (src/suppress.rs:141-160). -/
def scanRowM (dbg : Bool) (radius : Nat) (t : Pt α) : List (Pt α) → Option Bool
  | [] => some true
  | c :: rest =>
    (red dbg (2 ^ 32) (c.x + radius)).bind fun cr =>
    if cr < t.x then scanRowM dbg radius t rest
    else (red dbg (2 ^ 32) (t.x + radius)).bind fun tr =>
    if c.x > tr then some true
    else if c.score > t.score then some false
    else if c.score < t.score then scanRowM dbg radius t rest
    else if lexLt c.y c.x t.y t.x then some false
    else scanRowM dbg radius t rest

/-- `local_maxima` (src/suppress.rs:111-172). -/
def localMaximaM (dbg : Bool) (ts : List (Pt α)) (radius : Nat) : Option (List (Pt α)) :=
  let ordered := ts.mergeSort keyLe
  let height := heightOf ordered
  (red dbg (2 ^ 32) (height + 1)).bind fun n =>
  (forList ordered (List.replicate n []) fun t rows =>
    (rows[t.y]?).map fun row => rows.set t.y (row ++ [t])).bind fun rows =>
  forList ordered [] fun t acc =>
    let rowLower := t.y - radius
    (add1 dbg t.y radius).bind fun s =>
    let rowUpper := if s > height then height else s
    (forRange rowLower rowUpper true fun y isMax =>
      if !isMax then some false
      else (rows[y]?).bind fun row => scanRowM dbg radius t row).map fun isMax =>
    if isMax then acc ++ [t] else acc

theorem add1_ok {dbg : Bool} {a r : Nat} (h : a + r + 1 < 2 ^ 32) : add1 dbg a r = some (a + r + 1) := by
  unfold add1
  rw [red32 (by omega), Option.bind_some, red32 h]

theorem add1_false (a r : Nat) : add1 false a r = some ((a + r + 1) % 2 ^ 32) := by
  show some (((a + r) % 2 ^ 32 + 1) % 2 ^ 32) = _
  rw [Nat.mod_add_mod]

theorem add1_true_none {a r : Nat} (h : 2 ^ 32 ≤ a + r + 1) : add1 true a r = none := by
  unfold add1 red
  rw [if_pos rfl]
  by_cases h2 : a + r < 2 ^ 32
  · rw [if_pos h2, Option.bind_some, if_pos rfl, if_neg (by omega)]
  · rw [if_neg h2]; rfl

theorem forYX_congr {σ : Type _} {f g : Nat → Nat → σ → Option σ} {y0 y1 x0 x1 : Nat} (s : σ)
    (h : ∀ x y s, x < x1 → y < y1 → f x y s = g x y s) : forYX y0 y1 x0 x1 s f = forYX y0 y1 x0 x1 s g := by
  unfold forYX
  exact forRange_congr s fun y s _ hy => forRange_congr s fun x s _ hx => h x y s hx hy

/-- Without overflow both profiles run the exact algorithm. -/
theorem suppressM_eq (dbg : Bool) (im : Image α) (zero : α) (r : Nat) (hw : im.w + r < 2 ^ 32) (hh : im.h + r < 2 ^ 32) :
    suppressM dbg im zero r = suppressNonMaximum im zero r := by
  unfold suppressM suppressNonMaximum
  dsimp only
  by_cases h0 : im.w = 0 ∨ im.h = 0
  · rw [if_pos h0, if_pos h0]
  rw [if_neg h0, if_neg h0]
  refine forYX_congr _ fun kx ky out hkx hky => ?_
  have hR : 0 < r + 1 := by omega
  have hxw : kx * (r + 1) < im.w := by
    have := (Nat.lt_div_iff_mul_lt hR).1 hkx
    omega
  have hyh : ky * (r + 1) < im.h := by
    have := (Nat.lt_div_iff_mul_lt hR).1 hky
    omega
  obtain ⟨b, e, hv, hbx, hby, -⟩ := blockMax_spec im (kx * (r + 1)) (ky * (r + 1)) r hxw hyh
  have e' : blockMaxB im (kx * (r + 1)) (ky * (r + 1)) (min im.w (kx * (r + 1) + r + 1)) (min im.h (ky * (r + 1) + r + 1)) =
    some b := e
  unfold suppressBlockM
  rw [add1_ok (by omega), Option.bind_some, add1_ok (by omega), Option.bind_some, e', e, Option.bind_some,
    Option.bind_some, add1_ok (by omega), Option.bind_some, add1_ok (by omega), Option.bind_some]

theorem contains_empty (im : Image α) (x y : Nat) (v : α) (yl yu xl xu : Nat) (h : yu ≤ yl ∨ xu ≤ xl) :
    containsGreaterValue im x y v yl yu xl xu = some false := by
  unfold containsGreaterValue forYX
  rcases h with h | h
  · rw [forRange_empty h]
  · by_cases hy : yl ≤ yu
    · obtain ⟨s, e, hs⟩ := forRange_spec (fun _ (b : Bool) => b = false) (lo := yl) (hi := yu) (s := false) hy rfl
        (f := fun cy s => forRange xl xu s fun cx found =>
          if found then some true
          else (im.get cx cy).bind fun ci =>
            if ci < v then some false
            else if ci > v || lexLt cx cy x y then some true
            else some false)
        (by intro i s _ _ hs; exact ⟨s, forRange_empty h, hs⟩)
      rw [e, hs]
    · rw [forRange_empty (by omega)]

theorem forYX_one {σ : Type _} (f : Nat → Nat → σ → Option σ) (s : σ) : forYX 0 1 0 1 s f = f 0 0 s := by
  unfold forYX
  rw [forRange_succ_last (by omega), forRange_empty le_rfl, Option.bind_some, forRange_succ_last (by omega),
    forRange_empty le_rfl, Option.bind_some]

/-- A radius of at least the image size: there is one block, and the bound checks on the best pixel are the only other arithmetic. -/
theorem suppressM_single (dbg : Bool) (im : Image α) (zero : α) (r : Nat) (hw0 : 0 < im.w) (hh0 : 0 < im.h)
    (hw : im.w ≤ r + 1) (hh : im.h ≤ r + 1) (hr : r + 1 < 2 ^ 32) :
    ∃ b : Best α, b.x < im.w ∧ b.y < im.h ∧ (∀ cx cy, cx < im.w → cy < im.h → ¬ Beats im cx cy b.x b.y) ∧
      suppressM dbg im zero r =
        ((add1 dbg b.x r).bind fun _ => (add1 dbg b.y r).bind fun _ => suppressNonMaximum im zero r) := by
  obtain ⟨b, e, hv, hbx, hby, hmax⟩ := blockMax_spec im 0 0 r hw0 hh0
  refine ⟨b, by omega, by omega, fun cx cy hx hy => hmax cx cy (by omega) (by omega) (by omega) (by omega), ?_⟩
  have q : ∀ n, 0 < n → n ≤ r + 1 → (n + r) / (r + 1) = 1 := by
    intro n h1 h2
    rw [Nat.div_eq_iff (by omega)]
    constructor <;> simp <;> omega
  have e' : blockMaxB im 0 0 (min im.w (0 + r + 1)) (min im.h (0 + r + 1)) = some b := e
  unfold suppressM suppressNonMaximum
  dsimp only
  rw [if_neg (by omega), if_neg (by omega), q _ hw0 hw, q _ hh0 hh, forYX_one, forYX_one]
  unfold suppressBlockM
  dsimp only
  rw [Nat.zero_mul, add1_ok (by omega), Option.bind_some, Option.bind_some, e', e, Option.bind_some, Option.bind_some,
    contains_empty _ _ _ _ _ 0 _ _ (by omega), contains_empty _ _ _ _ 0 _ _ 0 (by omega),
    contains_empty _ _ _ _ 0 _ (min im.w (0 + r + 1)) (min im.w (b.x + r + 1)) (by omega),
    contains_empty _ _ _ _ (min im.h (0 + r + 1)) (min im.h (b.y + r + 1)) _ _ (by omega)]
  cases e1 : add1 dbg b.x r with
  | none => rfl
  | some p =>
    cases e2 : add1 dbg b.y r with
    | none => rfl
    | some q =>
      simp only [Option.bind_some]
      rw [contains_empty _ _ _ _ (b.y - r) 0 _ _ (by omega),
        contains_empty _ _ _ _ 0 _ (min im.w (0 + r + 1)) (min im.w p) (by omega),
        contains_empty _ _ _ _ (min im.h (0 + r + 1)) (min im.h q) _ _ (by omega)]
      simp only [Option.bind_some]

open Classical in
/-- C158: release builds suppress exactly the pixels that are not window maxima, for every image with sides up to `2 ^ 31` and every radius
but the greatest. -/
theorem C158_release (im : Image α) (zero : α) (r : Nat) (hw : im.w ≤ 2 ^ 31) (hh : im.h ≤ 2 ^ 31) (hr : r + 1 < 2 ^ 32) :
    ∃ out, suppressM false im zero r = some out ∧ out.w = im.w ∧ out.h = im.h ∧
      ∀ x y, x < im.w → y < im.h → out.px x y = if WindowMax im r x y then im.px x y else zero := by
  have key : suppressM false im zero r = suppressNonMaximum im zero r := by
    by_cases h0 : im.w = 0 ∨ im.h = 0
    · unfold suppressM suppressNonMaximum
      dsimp only
      rw [if_pos h0, if_pos h0]
    by_cases h1 : im.w + r < 2 ^ 32 ∧ im.h + r < 2 ^ 32
    · exact suppressM_eq false im zero r h1.1 h1.2
    · obtain ⟨b, -, -, -, e⟩ := suppressM_single false im zero r (by omega) (by omega) (by omega) (by omega) hr
      rw [e, add1_false, add1_false, Option.bind_some, Option.bind_some]
  rw [key]
  exact C29_suppress_non_maximum im zero r

open Classical in
/-- C158: debug builds do so whenever `width + radius` and `height + radius` fit 32 bits. -/
theorem C158_debug (im : Image α) (zero : α) (r : Nat) (hw : im.w + r < 2 ^ 32) (hh : im.h + r < 2 ^ 32) :
    ∃ out, suppressM true im zero r = some out ∧ out.w = im.w ∧ out.h = im.h ∧
      ∀ x y, x < im.w → y < im.h → out.px x y = if WindowMax im r x y then im.px x y else zero := by
  rw [suppressM_eq true im zero r hw hh]
  exact C29_suppress_non_maximum im zero r

/-- C158: beyond that, with a radius covering the whole image, they panic exactly when the greatest pixel of the image plus the radius does not
fit. -/
theorem C158_panics (im : Image α) (zero : α) (r : Nat) (hw0 : 0 < im.w) (hh0 : 0 < im.h)
    (hw : im.w ≤ r + 1) (hh : im.h ≤ r + 1) (hr : r + 1 < 2 ^ 32) (mx my : Nat) (hmx : mx < im.w) (hmy : my < im.h)
    (hm : ∀ cx cy, cx < im.w → cy < im.h → ¬ Beats im cx cy mx my) :
    suppressM true im zero r = none ↔ 2 ^ 32 ≤ mx + r + 1 ∨ 2 ^ 32 ≤ my + r + 1 := by
  obtain ⟨b, hbx, hby, hb, e⟩ := suppressM_single true im zero r hw0 hh0 hw hh hr
  have hs : b.x = mx ∧ b.y = my := by
    by_contra h
    rcases beats_total (im := im) h with h | h
    · exact hm _ _ hbx hby h
    · exact hb _ _ hmx hmy h
  rw [e, hs.1, hs.2]
  by_cases h1 : 2 ^ 32 ≤ mx + r + 1
  · rw [add1_true_none h1]
    exact ⟨fun _ => Or.inl h1, fun _ => rfl⟩
  · rw [add1_ok (by omega), Option.bind_some]
    by_cases h2 : 2 ^ 32 ≤ my + r + 1
    · rw [add1_true_none h2]
      exact ⟨fun _ => Or.inr h2, fun _ => rfl⟩
    · rw [add1_ok (by omega), Option.bind_some]
      obtain ⟨out, e, -⟩ := C29_suppress_non_maximum im zero r
      rw [e]
      simp only [reduceCtorEq, false_iff]
      omega

/-- C158: with the greatest radius, debug builds panic on every image and release builds keep the top left pixel and nothing else. -/
theorem C158_max_radius (im : Image α) (zero : α) (hw0 : 0 < im.w) (hh0 : 0 < im.h) (hw : im.w < 2 ^ 32) (hh : im.h < 2 ^ 32) :
    suppressM true im zero (2 ^ 32 - 1) = none ∧
    ∃ out, suppressM false im zero (2 ^ 32 - 1) = some out ∧ out.w = im.w ∧ out.h = im.h ∧
      ∀ x y, x < im.w → y < im.h → out.px x y = if x = 0 ∧ y = 0 then im.px 0 0 else zero := by
  have q : ∀ n, 0 < n → n < 2 ^ 32 → (n + (2 ^ 32 - 1)) / (2 ^ 32 - 1 + 1) = 1 := by
    intro n h1 h2
    rw [Nat.div_eq_iff (by omega)]
    constructor <;> omega
  unfold suppressM
  dsimp only
  rw [if_neg (by omega), q _ hw0 hw, q _ hh0 hh]
  simp only [if_neg (show ¬ (im.w = 0 ∨ im.h = 0) by omega)]
  rw [forYX_one, forYX_one]
  unfold suppressBlockM
  rw [Nat.zero_mul]
  constructor
  · rw [add1_true_none (by norm_num)]
    rfl
  · have a0 : add1 false 0 (2 ^ 32 - 1) = some 0 := by rw [add1_false]; norm_num
    have bm : blockMaxB im 0 0 (min im.w 0) (min im.h 0) = some ⟨0, 0, im.px 0 0⟩ := by
      unfold blockMaxB forYX
      rw [Image.get_of_inB hw0 hh0, Option.bind_some, forRange_empty (by omega)]
    rw [a0, Option.bind_some, Option.bind_some, bm, Option.bind_some]
    dsimp only
    rw [a0, Option.bind_some, Option.bind_some, contains_empty _ _ _ _ _ _ _ _ (Or.inl (by omega)), Option.bind_some,
      contains_empty _ _ _ _ _ _ _ _ (Or.inl (by omega)), Option.bind_some,
      contains_empty _ _ _ _ _ _ _ _ (Or.inl (by omega)), Option.bind_some,
      contains_empty _ _ _ _ _ _ _ _ (Or.inl (by omega)), Option.bind_some, if_pos (by rfl),
      Image.put_of_inB _ (by exact hw0) (by exact hh0)]
    exact ⟨_, rfl, rfl, rfl, fun x y _ _ => rfl⟩

theorem scanRowM_eq (dbg : Bool) (r : Nat) (t : Pt α) (ht : t.x + r < 2 ^ 32) :
    ∀ l : List (Pt α), (∀ c ∈ l, c.x + r < 2 ^ 32) → scanRowM dbg r t l = some (scanRow r t l)
  | [], _ => rfl
  | c :: l, h => by
    have ih := scanRowM_eq dbg r t ht l fun d hd => h d (List.mem_cons_of_mem _ hd)
    rw [scanRowM, scanRow, red32 (h c List.mem_cons_self), Option.bind_some, red32 ht, Option.bind_some, ih]
    split_ifs <;> rfl

theorem forList_congr {β σ : Type _} {f g : β → σ → Option σ} :
    ∀ (l : List β) (s : σ), (∀ a ∈ l, ∀ s, f a s = g a s) → forList l s f = forList l s g
  | [], _, _ => rfl
  | a :: l, s, h => by
    rw [forList, forList, h a List.mem_cons_self]
    congr 1
    funext t
    exact forList_congr l t fun b hb => h b (List.mem_cons_of_mem _ hb)

/-- Rows only hold points of the list. -/
theorem rows_mem (ord : List (Pt α)) (n : Nat) {rows : List (List (Pt α))}
    (e : (forList ord (List.replicate n []) fun (t : Pt α) (rows : List (List (Pt α))) =>
      (rows[t.y]?).map fun row => rows.set t.y (row ++ [t])) = some rows) :
    ∀ row ∈ rows, ∀ c ∈ row, c ∈ ord := by
  have key : ∀ (l : List (Pt α)) (s : List (List (Pt α))), (∀ t ∈ l, t ∈ ord) → (∀ row ∈ s, ∀ c ∈ row, c ∈ ord) →
      ∀ r, (forList l s fun (t : Pt α) (rows : List (List (Pt α))) =>
        (rows[t.y]?).map fun row => rows.set t.y (row ++ [t])) = some r → ∀ row ∈ r, ∀ c ∈ row, c ∈ ord := by
    intro l
    induction l with
    | nil => intro s _ hs r e; cases e; exact hs
    | cons t l ih =>
      intro s hl hs r e
      rw [forList] at e
      obtain ⟨s', e1, e2⟩ := Option.bind_eq_some_iff.1 e
      obtain ⟨row, e3, e4⟩ := Option.map_eq_some_iff.1 e1
      refine ih s' (fun u hu => hl u (List.mem_cons_of_mem _ hu)) ?_ r e2
      subst e4
      intro row' hr c hc
      rcases List.mem_or_eq_of_mem_set hr with h | h
      · exact hs row' h c hc
      · subst h
        rcases List.mem_append.1 hc with h | h
        · exact hs row (List.mem_of_getElem? e3) c h
        · rw [List.mem_singleton] at h
          subst h
          exact hl _ List.mem_cons_self
  refine key ord _ (fun _ h => h) ?_ rows e
  intro row hr c hc
  rw [List.mem_replicate] at hr
  rw [hr.2] at hc
  cases hc

/-- C158: while coordinates plus the radius fit 32 bits, `local_maxima` is the exact algorithm (characterised in C30) in both profiles. -/
theorem C158_local_maxima (dbg : Bool) (ts : List (Pt α)) (r : Nat)
    (h : ∀ t ∈ ts, t.x + r < 2 ^ 32 ∧ t.y + r + 1 < 2 ^ 32) :
    localMaximaM dbg ts r = some ((ts.mergeSort keyLe).filter fun t => Kept ts r t) := by
  rw [← C30_local_maxima_exact]
  unfold localMaximaM localMaxima
  dsimp only
  have hmem : ∀ t, t ∈ ts.mergeSort keyLe ↔ t ∈ ts := fun t => List.mem_mergeSort
  generalize ts.mergeSort keyLe = ord at hmem
  have hh : heightOf ord + 1 < 2 ^ 32 := by
    unfold heightOf
    cases e : ord.getLast? with
    | none => simp
    | some t =>
      have := h t ((hmem t).1 (List.mem_of_getLast? e))
      simp only
      omega
  rw [red32 hh, Option.bind_some]
  cases e : (forList ord (List.replicate (heightOf ord + 1) []) fun (t : Pt α) (rows : List (List (Pt α))) =>
      (rows[t.y]?).map fun row => rows.set t.y (row ++ [t])) with
  | none => rfl
  | some rows =>
    rw [Option.bind_some, Option.bind_some]
    have hrows := rows_mem ord _ e
    refine forList_congr ord _ fun t ht acc => ?_
    have h1 := h t ((hmem t).1 ht)
    rw [add1_ok h1.2, Option.bind_some]
    unfold scanRows
    congr 1
    refine forRange_congr _ fun y b _ _ => ?_
    split
    · rfl
    · cases er : rows[y]? with
      | none => rfl
      | some row =>
        rw [Option.bind_some, Option.map_some]
        exact scanRowM_eq dbg r t h1.1 row fun c hc => (h c ((hmem c).1 (hrows row (List.mem_of_getElem? er) c hc))).1

/-- C158 (false in general): with radius `u32::MAX`, meant as "anywhere", release builds return both of two points although the second has the
greater score and is not in the last row, and debug builds panic; `suppress_non_maximum` keeps a pixel that is smaller than another one. -/
theorem C158_negation :
    localMaximaM false ([⟨5, 5, 1⟩, ⟨6, 6, 2⟩, ⟨7, 7, 0⟩] : List (Pt Nat)) (2 ^ 32 - 1) =
      some [⟨5, 5, 1⟩, ⟨6, 6, 2⟩, ⟨7, 7, 0⟩] ∧
    localMaximaM true ([⟨5, 5, 1⟩, ⟨6, 6, 2⟩, ⟨7, 7, 0⟩] : List (Pt Nat)) (2 ^ 32 - 1) = none ∧
    ((suppressM false (Image.ofRows 0 [[1, 2], [3, 4]]) 0 (2 ^ 32 - 1)).map Image.rows = some [[1, 0], [0, 0]]) ∧
    ((suppressM false (Image.ofRows 0 [[1, 2], [3, 4]]) 0 (2 ^ 32 - 2)).map Image.rows = some [[0, 0], [0, 4]]) := by
  have hs : List.mergeSort ([⟨5, 5, 1⟩, ⟨6, 6, 2⟩, ⟨7, 7, 0⟩] : List (Pt Nat)) keyLe =
      [⟨5, 5, 1⟩, ⟨6, 6, 2⟩, ⟨7, 7, 0⟩] := List.mergeSort_of_pairwise (by decide)
  refine ⟨?_, ?_, by decide +kernel, by decide +kernel⟩
  · unfold localMaximaM
    rw [hs]
    decide +kernel
  · unfold localMaximaM
    rw [hs]
    decide +kernel

example : (suppressM true (Image.ofRows 0 [[1, 2, 5], [3, 4, 1]]) 0 1).map Image.rows = some [[0, 0, 5], [0, 0, 0]] := by
  decide +kernel

end Verif.Suppress
