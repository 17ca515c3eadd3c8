import Verif.Float.Cross
import Verif.Drawing.Text

/-!
C165: `draw_text` with `i32` coordinates (src/drawing/text.rs:73-107). `dbg` says whether overflow checks
are on. The font, the layout (in exact arithmetic) and the blending are those of `Drawing/TextModel.lean`.
-/

namespace Verif.Float

open Verif Verif.Drawing Verif.PixelOps

/-- `as i32` of a rounded `f32`: saturating. -/
def satZ (z : Int) : Int := max (-2 ^ 31) (min z (2 ^ 31 - 1))

/-- The closure given to `OutlinedGlyph::draw`, text.rs:91-104: `gx as i32 + x_shift`, `gy as i32 + y_shift`
in `i32`, compared with `canvas.width() as i32`, `canvas.height() as i32` (text.rs:84-85). -/
def drawGlyphPixelM {ι : Type _} (dbg : Bool) (mx : Nat) (op : (ι → Nat) → (ι → Nat) → ι → Nat) (color : ι → Nat)
    (xShift yShift : Int) (p : Nat × Nat × ℚ) (canvas : Image (ι → Nat)) : Option (Image (ι → Nat)) :=
  (mi32 dbg (asI32 p.1 + xShift)).bind fun imageX =>
  (mi32 dbg (asI32 p.2.1 + yShift)).bind fun imageY =>
  if (0 ≤ imageX ∧ imageX < asI32 canvas.w) ∧ 0 ≤ imageY ∧ imageY < asI32 canvas.h then
    (canvas.get (castU32 imageX) (castU32 imageY)).bind fun pixel =>
    let gv := max 0 (min 1 p.2.2)
    let weighted := weightedSum mx pixel color (1 - gv) gv
    drawPixel op canvas (castU32 imageX) (castU32 imageY) weighted
  else some canvas

/-- The closure given to `layout_glyphs`, text.rs:87-106: `x + bb.min.x.round() as i32`, `y + bb.min.y.round() as i32`. -/
def drawGlyphM {ι : Type _} (dbg : Bool) (mx : Nat) (op : (ι → Nat) → (ι → Nat) → ι → Nat) (color : ι → Nat)
    (x y : Int) (g : Outline) (canvas : Image (ι → Nat)) : Option (Image (ι → Nat)) :=
  (mi32 dbg (x + satZ (roundQ g.minX))).bind fun xShift =>
  (mi32 dbg (y + satZ (roundQ g.minY))).bind fun yShift =>
  forList g.pixels canvas fun p canvas => drawGlyphPixelM dbg mx op color xShift yShift p canvas

/-- `draw_text_mut`, text.rs:73-107. -/
def drawTextM {ι : Type _} (dbg : Bool) (mx : Nat) (op : (ι → Nat) → (ι → Nat) → ι → Nat) (font : Font)
    (color : ι → Nat) (x y : Int) (text : List Char) (canvas : Image (ι → Nat)) :
    Option (Image (ι → Nat)) :=
  (layoutGlyphs font text (drawGlyphM dbg mx op color x y) canvas).map Prod.snd

/-- The glyphs of a text have extents below `2^30` pixels. -/
def GlyphsBelow (font : Font) (text : List Char) : Prop :=
  ∀ g ∈ outlines font text, |roundQ g.minX| ≤ 2 ^ 30 ∧ |roundQ g.minY| ≤ 2 ^ 30 ∧
    ∀ p ∈ g.pixels, p.1 < 2 ^ 30 ∧ p.2.1 < 2 ^ 30

/-- An integer in the range of `i32`. -/
def FitsI32 (z : Int) : Prop := -2 ^ 31 ≤ z ∧ z < 2 ^ 31

/-- No coordinate computed for a glyph leaves the range of `i32`. -/
def GlyphFits (x y : Int) (g : Outline) : Prop :=
  FitsI32 (x + roundQ g.minX) ∧ FitsI32 (y + roundQ g.minY) ∧
    ∀ p ∈ g.pixels, FitsI32 (p.1 + (x + roundQ g.minX)) ∧ FitsI32 (p.2.1 + (y + roundQ g.minY))

theorem satZ_small {z : Int} (h : |z| ≤ 2 ^ 30) : satZ z = z := by
  rw [abs_le] at h
  unfold satZ
  omega

theorem layout_congr {σ : Type _} (font : Font) (text : List Char) (f g : Outline → σ → Option σ) (s : σ)
    (h : forList (outlines font text) s f = forList (outlines font text) s g) :
    layoutGlyphs font text f s = layoutGlyphs font text g s := by
  unfold layoutGlyphs
  split
  · rfl
  · rw [layout_fold, layout_fold, h]

theorem drawGlyphPixel_dims {ι : Type _} {mx : Nat} {op : (ι → Nat) → (ι → Nat) → ι → Nat} {color : ι → Nat} {a b : Int}
    {p : Nat × Nat × ℚ} {s s' : Image (ι → Nat)} (h : drawGlyphPixel mx op color a b p s = some s') :
    s'.w = s.w ∧ s'.h = s.h := by
  unfold drawGlyphPixel at h
  dsimp only at h
  split at h
  · obtain ⟨v, -, h⟩ := Option.bind_eq_some_iff.1 h
    exact drawPixel_dims h
  · cases h; exact ⟨rfl, rfl⟩

theorem drawGlyphPixelM_dims {ι : Type _} {dbg : Bool} {mx : Nat} {op : (ι → Nat) → (ι → Nat) → ι → Nat} {color : ι → Nat} {a b : Int}
    {p : Nat × Nat × ℚ} {s s' : Image (ι → Nat)} (h : drawGlyphPixelM dbg mx op color a b p s = some s') :
    s'.w = s.w ∧ s'.h = s.h := by
  unfold drawGlyphPixelM at h
  obtain ⟨i, -, h⟩ := Option.bind_eq_some_iff.1 h
  obtain ⟨j, -, h⟩ := Option.bind_eq_some_iff.1 h
  split at h
  · obtain ⟨v, -, h⟩ := Option.bind_eq_some_iff.1 h
    exact drawPixel_dims h
  · cases h; exact ⟨rfl, rfl⟩

theorem drawGlyph_dims {ι : Type _} {mx : Nat} {op : (ι → Nat) → (ι → Nat) → ι → Nat} {color : ι → Nat} {x y : Int}
    {g : Outline} {s s' : Image (ι → Nat)} (h : drawGlyph mx op color x y g s = some s') :
    s'.w = s.w ∧ s'.h = s.h :=
  forList_inv (fun t => t.w = s.w ∧ t.h = s.h)
    (fun _ _ _ ht e => ⟨(drawGlyphPixel_dims e).1.trans ht.1, (drawGlyphPixel_dims e).2.trans ht.2⟩) _ s s' ⟨rfl, rfl⟩ h

/-- A pixel whose wrapped coordinates agree with the exact ones as far as the image is concerned. -/
theorem glyphPixel_eq {ι : Type _} (dbg : Bool) (mx : Nat) (op : (ι → Nat) → (ι → Nat) → ι → Nat) (color : ι → Nat)
    (a b a' b' i j : Int) (p : Nat × Nat × ℚ) (s : Image (ι → Nat)) (hw : s.w < 2 ^ 31) (hh : s.h < 2 ^ 31)
    (hi : mi32 dbg (asI32 p.1 + a) = some i) (hj : mi32 dbg (asI32 p.2.1 + b) = some j)
    (ha : i = p.1 + a' ∨ (i < 0 ∨ (s.w : Int) ≤ i) ∧ ((p.1 : Int) + a' < 0 ∨ (s.w : Int) ≤ p.1 + a'))
    (hb : j = p.2.1 + b' ∨ (j < 0 ∨ (s.h : Int) ≤ j) ∧ ((p.2.1 : Int) + b' < 0 ∨ (s.h : Int) ≤ p.2.1 + b')) :
    drawGlyphPixelM dbg mx op color a b p s = drawGlyphPixel mx op color a' b' p s := by
  unfold drawGlyphPixelM drawGlyphPixel
  rw [hi, hj, Option.bind_some, Option.bind_some, asI32_small hw, asI32_small hh]
  dsimp only
  by_cases h : (0 ≤ i ∧ i < s.w) ∧ 0 ≤ j ∧ j < s.h
  · have e1 : i = p.1 + a' := by omega
    have e2 : j = p.2.1 + b' := by omega
    rw [if_pos h, if_pos (by rw [← e1, ← e2]; exact h), castU32_small (by omega) (by omega), castU32_small (by omega) (by omega), e1, e2]
  · rw [if_neg h, if_neg (by omega)]

theorem mi32_false (z : Int) : mi32 false z = some (Int.bmod z (2 ^ 32)) := rfl

/-- The wrapped value of an out-of-range number. -/
theorem wrap_far {z w : Int} (h1 : -2 ^ 31 - 2 ^ 30 ≤ z) (h2 : z < 2 ^ 32) (hw : w ≤ 2 ^ 30) :
    Int.bmod z (2 ^ 32) = z ∨ (Int.bmod z (2 ^ 32) < 0 ∨ w ≤ Int.bmod z (2 ^ 32)) ∧ (z < 0 ∨ w ≤ z) := by
  by_cases h3 : z < -2 ^ 31
  · right
    rw [bmod32_congr (b := z + 2 ^ 32) (by omega), bmod32 (by omega) (by omega)]
    omega
  by_cases h4 : 2 ^ 31 ≤ z
  · right
    rw [bmod32_congr (b := z - 2 ^ 32) (by omega), bmod32 (by omega) (by omega)]
    omega
  · left
    exact bmod32 (by omega) (by omega)

/-- C165 (release builds): wherever the text is placed, the result is that of exact arithmetic (described by C111). -/
theorem C165_release {ι : Type _} (mx : Nat) (op : (ι → Nat) → (ι → Nat) → ι → Nat) (font : Font)
    (color : ι → Nat) (x y : Int) (text : List Char) (canvas : Image (ι → Nat)) (hx : FitsI32 x) (hy : FitsI32 y)
    (hg : GlyphsBelow font text) (hw : canvas.w ≤ 2 ^ 30) (hh : canvas.h ≤ 2 ^ 30) :
    drawTextM false mx op font color x y text canvas = drawText mx op font color x y text canvas := by
  unfold drawTextM drawText
  rw [layout_congr font text _ (drawGlyph mx op color x y)]
  refine forList_congr_inv (fun s => s.w = canvas.w ∧ s.h = canvas.h) _ canvas ⟨rfl, rfl⟩ ?_
    (fun _ s s' hs e => ⟨(drawGlyph_dims e).1.trans hs.1, (drawGlyph_dims e).2.trans hs.2⟩)
  intro g hgm s hs
  obtain ⟨g1, g2, g3⟩ := hg g hgm
  unfold drawGlyphM drawGlyph
  rw [mi32_false, mi32_false, Option.bind_some, Option.bind_some, satZ_small g1, satZ_small g2]
  refine forList_congr_inv (fun s => s.w = canvas.w ∧ s.h = canvas.h) _ s hs ?_
    (fun _ s s' hs e => ⟨(drawGlyphPixel_dims e).1.trans hs.1, (drawGlyphPixel_dims e).2.trans hs.2⟩)
  intro p hp s hs
  obtain ⟨p1, p2⟩ := g3 p hp
  have r1 := abs_le.1 g1
  have r2 := abs_le.1 g2
  unfold FitsI32 at hx hy
  have w1 : ∀ (n : Nat) (z : Int), n < 2 ^ 30 → mi32 false (asI32 n + Int.bmod z (2 ^ 32)) = some (Int.bmod (n + z) (2 ^ 32)) := by
    intro n z hn
    rw [asI32_small (by omega), mi32_false]
    congr 1
    refine bmod32_congr ?_
    have := bmod32_emod z
    omega
  refine glyphPixel_eq false mx op color _ _ _ _ _ _ p s (by omega) (by omega) (w1 _ _ p1) (w1 _ _ p2) ?_ ?_
  · exact wrap_far (by omega) (by omega) (by omega)
  · exact wrap_far (by omega) (by omega) (by omega)

/-- C165 (debug builds): if no coordinate of a glyph leaves the `i32` range, the result is that of exact arithmetic. -/
theorem C165_debug {ι : Type _} (mx : Nat) (op : (ι → Nat) → (ι → Nat) → ι → Nat) (font : Font)
    (color : ι → Nat) (x y : Int) (text : List Char) (canvas : Image (ι → Nat))
    (hg : GlyphsBelow font text) (hw : canvas.w < 2 ^ 31) (hh : canvas.h < 2 ^ 31)
    (hf : ∀ g ∈ outlines font text, GlyphFits x y g) :
    drawTextM true mx op font color x y text canvas = drawText mx op font color x y text canvas := by
  unfold drawTextM drawText
  rw [layout_congr font text _ (drawGlyph mx op color x y)]
  refine forList_congr_inv (fun s => s.w = canvas.w ∧ s.h = canvas.h) _ canvas ⟨rfl, rfl⟩ ?_
    (fun _ s s' hs e => ⟨(drawGlyph_dims e).1.trans hs.1, (drawGlyph_dims e).2.trans hs.2⟩)
  intro g hgm s hs
  obtain ⟨g1, g2, g3⟩ := hg g hgm
  obtain ⟨f1, f2, f3⟩ := hf g hgm
  unfold drawGlyphM drawGlyph
  rw [satZ_small g1, satZ_small g2, mi32_some true f1.1 f1.2, mi32_some true f2.1 f2.2, Option.bind_some, Option.bind_some]
  refine forList_congr_inv (fun s => s.w = canvas.w ∧ s.h = canvas.h) _ s hs ?_
    (fun _ s s' hs e => ⟨(drawGlyphPixel_dims e).1.trans hs.1, (drawGlyphPixel_dims e).2.trans hs.2⟩)
  intro p hp s hs
  obtain ⟨p1, p2⟩ := g3 p hp
  obtain ⟨q1, q2⟩ := f3 p hp
  refine glyphPixel_eq true mx op color _ _ _ _ _ _ p s (by omega) (by omega) ?_ ?_ (Or.inl rfl) (Or.inl rfl)
  · rw [asI32_small (by omega)]; exact mi32_some true q1.1 q1.2
  · rw [asI32_small (by omega)]; exact mi32_some true q2.1 q2.2

theorem mi32_true_none' {z : Int} (h : ¬FitsI32 z) : mi32 true z = none := by
  unfold FitsI32 at h
  exact mi32_true_none (by omega)

theorem drawGlyphM_panics {ι : Type _} (mx : Nat) (op : (ι → Nat) → (ι → Nat) → ι → Nat) (color : ι → Nat)
    (x y : Int) (g : Outline) (s : Image (ι → Nat)) (g1 : |roundQ g.minX| ≤ 2 ^ 30) (g2 : |roundQ g.minY| ≤ 2 ^ 30)
    (g3 : ∀ p ∈ g.pixels, p.1 < 2 ^ 30 ∧ p.2.1 < 2 ^ 30) (hf : ¬GlyphFits x y g) :
    drawGlyphM true mx op color x y g s = none := by
  unfold drawGlyphM
  rw [satZ_small g1, satZ_small g2]
  by_cases f1 : FitsI32 (x + roundQ g.minX)
  · by_cases f2 : FitsI32 (y + roundQ g.minY)
    · rw [mi32_some true f1.1 f1.2, mi32_some true f2.1 f2.2, Option.bind_some, Option.bind_some]
      obtain ⟨p, hp, hq⟩ : ∃ p ∈ g.pixels, ¬(FitsI32 (p.1 + (x + roundQ g.minX)) ∧ FitsI32 (p.2.1 + (y + roundQ g.minY))) := by
        by_contra hc
        push Not at hc
        exact hf ⟨f1, f2, hc⟩
      refine forList_fail_inv (b0 := p) (fun _ => True) (fun _ _ _ _ _ => trivial) (fun t _ => ?_) _ s hp trivial
      obtain ⟨p1, p2⟩ := g3 p hp
      unfold drawGlyphPixelM
      rw [asI32_small (by omega), asI32_small (by omega)]
      by_cases q1 : FitsI32 (p.1 + (x + roundQ g.minX))
      · rw [mi32_some true q1.1 q1.2, Option.bind_some, mi32_true_none' (fun q2 => hq ⟨q1, q2⟩)]
        rfl
      · rw [mi32_true_none' q1]
        rfl
    · rw [mi32_true_none' f2]
      cases mi32 true (x + roundQ g.minX) <;> rfl
  · rw [mi32_true_none' f1]
    rfl

/-- C165 (debug builds): the call panics if some coordinate of a glyph leaves the `i32` range, wherever that is
relative to the image. -/
theorem C165_panics {ι : Type _} (mx : Nat) (op : (ι → Nat) → (ι → Nat) → ι → Nat) (font : Font)
    (color : ι → Nat) (x y : Int) (text : List Char) (canvas : Image (ι → Nat))
    (hg : GlyphsBelow font text) (hf : ∃ g ∈ outlines font text, ¬GlyphFits x y g) :
    drawTextM true mx op font color x y text canvas = none := by
  obtain ⟨g, hgm, hf⟩ := hf
  have ht : text ≠ [] := by
    rintro rfl
    simp [outlines] at hgm
  unfold drawTextM layoutGlyphs
  rw [if_neg ht, layout_fold, forList_fail_inv (b0 := g) (fun _ => True) (fun _ _ _ _ _ => trivial) ?_ _ canvas hgm trivial]
  · rfl
  · intro s _
    obtain ⟨g1, g2, g3⟩ := hg g hgm
    exact drawGlyphM_panics mx op color x y g s g1 g2 g3 hf

/-- One glyph of two pixels, three wide. -/
def sampleFont : Font :=
  { glyphId := fun _ => 1, ascent := 0, height := 2, hAdvance := fun _ => 3, kern := fun _ _ => 0,
    outline := fun _ x y => some ⟨x, y, [(0, 0, 1), (1, 0, 1)]⟩ }

/-- C165 is false as stated: text placed at the right end of the `i32` range is off the image, but a debug build
panics. -/
theorem C165_negation :
    drawTextM true 255 overwrite sampleFont (fun _ : Unit => 200) 2147483647 0 ['a'] (Image.new 2 2 fun _ => 0) = none ∧
    (drawTextM false 255 overwrite sampleFont (fun _ : Unit => 200) 2147483647 0 ['a'] (Image.new 2 2 fun _ => 0)).map
      (fun o => (o.px 0 0 (), o.px 1 0 ())) = some (0, 0) := by
  constructor <;> decide +kernel

example : (drawTextM true 255 overwrite sampleFont (fun _ : Unit => 200) (-1) 0 ['a', 'b'] (Image.new 4 1 fun _ => 0)).map
    (fun o => (o.px 0 0 (), o.px 1 0 (), o.px 2 0 (), o.px 3 0 ())) = some (200, 0, 200, 200) := by decide +kernel

example : GlyphsBelow sampleFont ['a', 'b'] := by
  intro g hg
  have : outlines sampleFont ['a', 'b'] = [⟨0, 0, [(0, 0, 1), (1, 0, 1)]⟩, ⟨3, 0, [(0, 0, 1), (1, 0, 1)]⟩] := by
    simp [outlines, advance, sampleFont, List.range_succ]
  rw [this] at hg
  have h3 : roundQ 3 = 3 := by decide +kernel
  have h0 : roundQ 0 = 0 := by decide +kernel
  simp only [List.mem_cons, List.not_mem_nil, or_false] at hg
  rcases hg with rfl | rfl
  · refine ⟨by rw [h0]; norm_num, by rw [h0]; norm_num, ?_⟩
    simp
  · refine ⟨by dsimp only; rw [h3]; norm_num, by rw [h0]; norm_num, ?_⟩
    simp

end Verif.Float
