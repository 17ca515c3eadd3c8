import Verif.Drawing.TextModel
import Verif.PixelOps.Props
import Mathlib.Algebra.BigOperators.Group.List.Basic
import Mathlib.Data.List.Basic
import Mathlib.Data.List.Induction
import Mathlib.Tactic.Linarith
/-
Property theorem C111: drawing text.
-/
namespace Verif.Drawing
open Verif.PixelOps

/-! ### Specification -/

/-- The pen position after the characters `cs`, starting at `w` with last outlined glyph `prev`, and that
glyph. -/
def advance (font : Font) : ℚ × Option Nat → List Char → ℚ × Option Nat
  | st, [] => st
  | (w, prev), c :: cs =>
    let g := font.glyphId c
    if (font.outline g w font.ascent).isSome then
      advance font (w + font.hAdvance g + (match prev with | some p => font.kern g p | none => 0), some g) cs
    else advance font (w + font.hAdvance g, prev) cs

/-- The outlines drawn for a text, in order: the `i`-th character is placed at the pen position after
the characters before it. -/
def outlines (font : Font) (text : List Char) : List Outline :=
  (List.range text.length).filterMap fun i =>
    (text[i]?).bind fun c => font.outline (font.glyphId c) (advance font (0, none) (text.take i)).1 font.ascent

/-- The coverages that a list of outlines, drawn at `(x, y)`, has at the pixel `(u, v)`, in order. -/
def coverages (gs : List Outline) (x y : Int) (u v : Nat) : List ℚ :=
  gs.flatMap fun g => (g.pixels.filter fun p =>
    decide ((p.1 : Int) + x + roundQ g.minX = u ∧ (p.2.1 : Int) + y + roundQ g.minY = v)).map fun p => p.2.2

/-- One coat of colour: the interpolation between pixel and colour by the coverage clamped to `[0, 1]`. -/
def coat {ι : Type _} (mx : Nat) (color : ι → Nat) (p : ι → Nat) (gv : ℚ) : ι → Nat :=
  interpolate mx color p (max 0 (min 1 gv))

/-! ### Layout -/

theorem forList_append' {σ α : Type _} (f : α → σ → Option σ) : ∀ (l m : List α) (s : σ),
    forList (l ++ m) s f = (forList l s f).bind fun s => forList m s f := by
  intro l
  induction l with
  | nil => intro m s; rfl
  | cons a l ih =>
    intro m s
    show (f a s).bind _ = ((f a s).bind _).bind _
    cases f a s with
    | none => rfl
    | some t => exact ih m t

theorem advance_append (font : Font) : ∀ (l m : List Char) (st : ℚ × Option Nat),
    advance font st (l ++ m) = advance font (advance font st l) m := by
  intro l
  induction l with
  | nil => intro m st; rfl
  | cons c l ih =>
    rintro m ⟨w, prev⟩
    simp only [List.cons_append, advance]
    split <;> exact ih _ _

theorem layout_fold {σ : Type _} (font : Font) (f : Outline → σ → Option σ) (text : List Char) (s : σ) :
    forList text (0, none, s) (layoutStep font f) =
      (forList (outlines font text) s f).map fun s =>
        ((advance font (0, none) text).1, (advance font (0, none) text).2, s) := by
  induction text using List.reverseRecOn with
  | nil => rfl
  | append_singleton l c ih =>
    have ho : outlines font (l ++ [c]) = outlines font l ++
        (font.outline (font.glyphId c) (advance font (0, none) l).1 font.ascent).toList := by
      unfold outlines
      rw [List.length_append, List.length_singleton, List.range_succ, List.filterMap_append]
      congr 1
      · apply List.filterMap_congr
        intro i hi
        rw [List.mem_range] at hi
        rw [List.getElem?_append_left hi, List.take_append_of_le_length hi.le]
      · simp only [List.filterMap_cons, List.filterMap_nil]
        rw [List.getElem?_append_right (le_refl _), Nat.sub_self, List.take_left]
        simp only [List.getElem?_cons_zero, Option.bind_some]
        cases font.outline (font.glyphId c) (advance font (0, none) l).1 font.ascent <;> rfl
    rw [forList_append', ih, ho, forList_append', advance_append]
    cases forList (outlines font l) s f with
    | none => rfl
    | some t =>
      rw [Option.map_some, Option.bind_some, Option.bind_some]
      generalize advance font (0, none) l = st
      obtain ⟨w, prev⟩ := st
      show (layoutStep font f c (w, prev, t)).bind (fun s => forList [] s _) = _
      unfold layoutStep
      dsimp only [advance]
      cases font.outline (font.glyphId c) w font.ascent with
      | none => rfl
      | some g =>
        simp only [Option.isSome_some, if_true, Option.toList]
        show _ = ((f g t).bind fun s => forList [] s f).map _
        cases f g t with
        | none => rfl
        | some t' => cases prev <;> simp [forList]

/-- C111: the size of a text does not depend on where or what is drawn: it is `(0, 0)` for the empty text,
otherwise `1 + ⌈pen position after the last character⌉` by `⌈height⌉`; negative values panic. -/
theorem C111_size (font : Font) (text : List Char) :
    textSize font [] = some (0, 0) ∧
    (text ≠ [] → textSize font text =
      if 0 ≤ ⌈(advance font (0, none) text).1⌉ ∧ 0 ≤ ⌈font.height⌉ then
        some (1 + ⌈(advance font (0, none) text).1⌉.toNat, ⌈font.height⌉.toNat) else none) := by
  refine ⟨rfl, fun h => ?_⟩
  unfold textSize layoutGlyphs
  rw [if_neg h, layout_fold]
  have : forList (outlines font text) () (fun _ (s : Unit) => some s) = some () := by
    generalize outlines font text = l
    induction l with
    | nil => rfl
    | cons a l ih => exact ih
  rw [this, Option.map_some, Option.bind_some]
  dsimp only
  split <;> rfl

/-- C111: the pen position for a font without kerning is the sum of the advances. -/
theorem C111_advance (font : Font) (hk : ∀ a b, font.kern a b = 0) (text : List Char) :
    (advance font (0, none) text).1 = (text.map fun c => font.hAdvance (font.glyphId c)).sum := by
  have : ∀ (l : List Char) (st : ℚ × Option Nat), (advance font st l).1 =
      st.1 + (l.map fun c => font.hAdvance (font.glyphId c)).sum := by
    intro l
    induction l with
    | nil => intro st; simp [advance]
    | cons c l ih =>
      rintro ⟨w, prev⟩
      simp only [advance]
      split
      · rw [ih]
        cases prev <;> simp only [hk, List.map_cons, List.sum_cons] <;> ring
      · rw [ih]
        simp only [List.map_cons, List.sum_cons]
        ring
  rw [this, zero_add]

/-! ### Pixels -/

theorem interpolate_eq_weighted {ι : Type _} (mx : Nat) (color p : ι → Nat) (g : ℚ) :
    weightedSum mx p color (1 - g) g = interpolate mx color p g := by
  funext c
  unfold interpolate weightedSum weightedChannelSum
  rw [add_comm]

theorem drawGlyph_spec {ι : Type _} (mx : Nat) (color : ι → Nat) (x y : Int) (g : Outline)
    (canvas : Image (ι → Nat)) :
    ∃ r, drawGlyph mx overwrite color x y g canvas = some r ∧ r.w = canvas.w ∧ r.h = canvas.h ∧
      ∀ u v, u < canvas.w → v < canvas.h →
        r.px u v = (coverages [g] x y u v).foldl (coat mx color) (canvas.px u v) := by
  unfold drawGlyph coverages
  simp only [List.flatMap_cons, List.flatMap_nil, List.append_nil]
  generalize g.pixels = ps
  induction ps generalizing canvas with
  | nil => exact ⟨canvas, rfl, rfl, rfl, fun u v _ _ => rfl⟩
  | cons p ps ih =>
    have step : ∃ r, drawGlyphPixel mx overwrite color (x + roundQ g.minX) (y + roundQ g.minY) p canvas =
        some r ∧ r.w = canvas.w ∧ r.h = canvas.h ∧ ∀ u v, u < canvas.w → v < canvas.h → r.px u v =
        if (p.1 : Int) + x + roundQ g.minX = u ∧ (p.2.1 : Int) + y + roundQ g.minY = v then
          coat mx color (canvas.px u v) p.2.2 else canvas.px u v := by
      unfold drawGlyphPixel
      dsimp only
      by_cases hb : (0 ≤ (p.1 : Int) + (x + roundQ g.minX) ∧ (p.1 : Int) + (x + roundQ g.minX) < canvas.w) ∧
          0 ≤ (p.2.1 : Int) + (y + roundQ g.minY) ∧ (p.2.1 : Int) + (y + roundQ g.minY) < canvas.h
      · rw [if_pos hb, Image.get_of_inB (by omega) (by omega), Option.bind_some,
          drawPixel_of_inB (by omega) (by omega)]
        refine ⟨_, rfl, rfl, rfl, fun u v hu hv => ?_⟩
        dsimp only
        by_cases he : (p.1 : Int) + x + roundQ g.minX = u ∧ (p.2.1 : Int) + y + roundQ g.minY = v
        · rw [if_pos he, if_pos (by omega)]
          have e1 : ((p.1 : Int) + (x + roundQ g.minX)).toNat = u := by omega
          have e2 : ((p.2.1 : Int) + (y + roundQ g.minY)).toNat = v := by omega
          rw [e1, e2, interpolate_eq_weighted]
          rfl
        · rw [if_neg he, if_neg (by omega)]
      · rw [if_neg hb]
        refine ⟨canvas, rfl, rfl, rfl, fun u v hu hv => ?_⟩
        rw [if_neg (by omega)]
    obtain ⟨r, e, hw, hh, hp⟩ := step
    obtain ⟨r', e', hw', hh', hp'⟩ := ih r
    refine ⟨r', ?_, by rw [hw', hw], by rw [hh', hh], fun u v hu hv => ?_⟩
    · show (drawGlyphPixel _ _ _ _ _ _ _).bind _ = _
      rw [e, Option.bind_some]
      exact e'
    · rw [hp' u v (by omega) (by omega), hp u v hu hv, List.filter_cons]
      by_cases he : (p.1 : Int) + x + roundQ g.minX = u ∧ (p.2.1 : Int) + y + roundQ g.minY = v
      · rw [if_pos he, if_pos (by simpa using he)]
        rfl
      · rw [if_neg he, if_neg (by simpa using he)]

/-- **C111.** Drawing a text on a plain image panics only if the size of the text is negative; otherwise the image
keeps its size and every pixel is the old pixel with one coat of colour for each time the outlines of the
text cover it, in order.  Glyphs may lie partly or completely outside the image. -/
theorem C111_pixels {ι : Type _} (mx : Nat) (font : Font) (color : ι → Nat) (x y : Int) (text : List Char)
    (canvas : Image (ι → Nat)) :
    (drawText mx overwrite font color x y text canvas = none ↔ textSize font text = none) ∧
    ∀ r, drawText mx overwrite font color x y text canvas = some r →
      r.w = canvas.w ∧ r.h = canvas.h ∧ ∀ u v, u < canvas.w → v < canvas.h →
        r.px u v = (coverages (outlines font text) x y u v).foldl (coat mx color) (canvas.px u v) := by
  by_cases ht : text = []
  · subst ht
    refine ⟨by simp [drawText, layoutGlyphs, textSize], fun r hr => ?_⟩
    have : r = canvas := by
      unfold drawText layoutGlyphs at hr
      rw [if_pos rfl] at hr
      exact (Option.some.inj hr).symm
    subst this
    exact ⟨rfl, rfl, fun u v _ _ => rfl⟩
  · have key : ∀ (gs : List Outline) (canvas : Image (ι → Nat)),
        ∃ r, forList gs canvas (drawGlyph mx overwrite color x y) = some r ∧ r.w = canvas.w ∧
        r.h = canvas.h ∧ ∀ u v, u < canvas.w → v < canvas.h →
          r.px u v = (coverages gs x y u v).foldl (coat mx color) (canvas.px u v) := by
      intro gs
      induction gs with
      | nil => exact fun canvas => ⟨canvas, rfl, rfl, rfl, fun u v _ _ => rfl⟩
      | cons g gs ih =>
        intro canvas
        obtain ⟨r, e, hw, hh, hp⟩ := drawGlyph_spec mx color x y g canvas
        obtain ⟨r', e', hw', hh', hp'⟩ := ih r
        refine ⟨r', ?_, by rw [hw', hw], by rw [hh', hh], fun u v hu hv => ?_⟩
        · show (drawGlyph _ _ _ _ _ _ _).bind _ = _
          rw [e, Option.bind_some]
          exact e'
        · rw [hp' u v (by omega) (by omega), hp u v hu hv, ← List.foldl_append]
          unfold coverages
          simp only [List.flatMap_cons, List.flatMap_nil, List.append_nil]
    obtain ⟨r, e, hw, hh, hp⟩ := key (outlines font text) canvas
    have hd : drawText mx overwrite font color x y text canvas =
        if 0 ≤ ⌈(advance font (0, none) text).1⌉ ∧ 0 ≤ ⌈font.height⌉ then some r else none := by
      unfold drawText layoutGlyphs
      rw [if_neg ht, layout_fold, e, Option.map_some, Option.bind_some]
      dsimp only
      split <;> rfl
    rw [hd, (C111_size font text).2 ht]
    constructor
    · split <;> simp
    · intro r' hr'
      split at hr'
      · rw [← Option.some.inj hr']
        exact ⟨hw, hh, hp⟩
      · cases hr'

theorem coat_between {ι : Type _} (mx : Nat) (color p : ι → Nat) (g : ℚ) (c : ι) (hc : color c ≤ mx)
    (hp : p c ≤ mx) : min (color c) (p c) ≤ coat mx color p g c ∧
      coat mx color p g c ≤ max (color c) (p c) :=
  (C102_interpolate mx color p (max 0 (min 1 g)) c hc hp).1 (le_max_left _ _)
    (max_le (by norm_num) (min_le_left _ _))

/-- C111: what the coats do: pixels that no outline covers, or only with coverage at most 0, are unchanged; no
channel leaves the interval between its old value and the colour; a pixel whose last coverage is at
least 1 gets exactly the colour. -/
theorem C111_coats {ι : Type _} (mx : Nat) (color p : ι → Nat) (c : ι) (hc : color c ≤ mx)
    (hp : p c ≤ mx) (l : List ℚ) :
    ((∀ g ∈ l, g ≤ 0) → l.foldl (coat mx color) p c = p c) ∧
    min (color c) (p c) ≤ l.foldl (coat mx color) p c ∧
    l.foldl (coat mx color) p c ≤ max (color c) (p c) ∧
    (∀ g, 1 ≤ g → (l ++ [g]).foldl (coat mx color) p c = color c) := by
  have hb : min (color c) (p c) ≤ l.foldl (coat mx color) p c ∧
      l.foldl (coat mx color) p c ≤ max (color c) (p c) := by
    induction l generalizing p with
    | nil => simp
    | cons g l ih =>
      obtain ⟨h1, h2⟩ := coat_between mx color p g c hc hp
      have h3 : coat mx color p g c ≤ mx := by omega
      obtain ⟨h4, h5⟩ := ih (coat mx color p g) h3
      rw [List.foldl_cons]
      omega
  refine ⟨?_, hb.1, hb.2, ?_⟩
  · intro hg
    clear hb
    induction l generalizing p with
    | nil => rfl
    | cons g l ih =>
      have h0 : coat mx color p g c = p c := by
        unfold coat
        rw [max_eq_left ((min_le_right _ _).trans (hg g (by simp)))]
        exact (C102_interpolate mx color p 0 c hc hp).2.2.1
      rw [List.foldl_cons, ih (coat mx color p g) (by omega) (fun a ha => hg a (by simp [ha])), h0]
  · intro g hg
    rw [List.foldl_append, List.foldl_cons, List.foldl_nil]
    generalize l.foldl (coat mx color) p = q at hb ⊢
    unfold coat
    rw [min_eq_left hg, max_eq_right (by norm_num)]
    exact (C102_interpolate mx color q 1 c hc (by omega)).2.1

/-- C111: moving the text by `(a, b)` moves its coverages. -/
theorem C111_translate (gs : List Outline) (x y : Int) (a b u v : Nat) :
    coverages gs (x + a) (y + b) (u + a) (v + b) = coverages gs x y u v := by
  unfold coverages
  congr 1
  funext g
  congr 1
  apply List.filter_congr
  intro p _
  rw [decide_eq_decide]
  push_cast
  constructor <;> intro h <;> omega

/-- C111 (a deviation from the usual meaning of kerning): the kerning table has no influence at all on texts of
two characters: kerning is added to the pen only after the second character of the pair is placed. -/
theorem C111_kerning_negation (font font' : Font) (h1 : font'.glyphId = font.glyphId)
    (h2 : font'.ascent = font.ascent) (h3 : font'.hAdvance = font.hAdvance)
    (h4 : font'.outline = font.outline) (a b : Char) :
    outlines font' [a, b] = outlines font [a, b] := by
  have h : ∀ i, i < 2 → advance font' (0, none) ([a, b].take i) = advance font (0, none) ([a, b].take i) := by
    intro i hi
    have : i = 0 ∨ i = 1 := by omega
    rcases this with rfl | rfl
    · rfl
    · simp only [List.take, advance, h1, h2, h3, h4]
  unfold outlines
  apply List.filterMap_congr
  intro i hi
  rw [List.mem_range] at hi
  rw [h i hi, h1, h2, h4]

/-- A font whose only glyph is one pixel, half covered. -/
def dotFont : Font := ⟨fun _ => 0, 1, 1, fun _ => 2, fun _ _ => 0, fun _ x _ => some ⟨x, 0, [(0, 0, 1 / 2)]⟩⟩

example : textSize dotFont ['a', 'b'] = some (5, 1) := by decide +kernel
example : ((drawText 255 overwrite dotFont (fun _ : Unit => 200) 1 0 ['a', 'b']
    ⟨5, 1, fun _ _ _ => 100⟩).map fun r => r.rows.map fun row => row.map fun p => p ()) =
    some [[100, 150, 100, 150, 100]] := by decide +kernel

end Verif.Drawing
