import Verif.Drawing.Canvas
import Verif.Drawing.PolygonModel
import Verif.PixelOps.Model
/-
Model of `/repo/src/drawing/text.rs`.  The font (crate `ab_glyph`) is a parameter: any glyph ids, metrics,
kerning table and outlines.  `f32` values are rational numbers; `i32` coordinates do not overflow.  A
pixel with channel set `ι` is a function `ι → Nat` with maximal channel value `mx`.
-/
namespace Verif.Drawing
open Verif.PixelOps

/-- An `OutlinedGlyph` with its `px_bounds().min` and the calls that its `draw` makes (text.rs:30-36,
88-91): pixel within the glyph and coverage. -/
structure Outline where
  minX : ℚ
  minY : ℚ
  pixels : List (Nat × Nat × ℚ)

/-- A scaled font (text.rs:19, 25-31); `kern first second`; `outline` gets the glyph id and its position. -/
structure Font where
  glyphId : Char → Nat
  ascent : ℚ
  height : ℚ
  hAdvance : Nat → ℚ
  kern : Nat → Nat → ℚ
  outline : Nat → ℚ → ℚ → Option Outline

/-- Body of the loop of `layout_glyphs`, text.rs:24-36; the state is `(w, prev, s)` where `s` is the state
of the closure `f`. -/
def layoutStep {σ : Type _} (font : Font) (f : Outline → σ → Option σ) (c : Char)
    (st : ℚ × Option Nat × σ) : Option (ℚ × Option Nat × σ) :=
  let w := st.1
  let prev := st.2.1
  let glyphId := font.glyphId c
  let position := (w, font.ascent)
  let w := w + font.hAdvance glyphId
  match font.outline glyphId position.1 position.2 with
  | some g =>
    let w := match prev with
      | some prev => w + font.kern glyphId prev
      | none => w
    (f g st.2.2).bind fun s => some (w, some glyphId, s)
  | none => some (w, prev, st.2.2)

/-- text.rs:10-43 `layout_glyphs`; the assertions are panics. -/
def layoutGlyphs {σ : Type _} (font : Font) (text : List Char) (f : Outline → σ → Option σ) (s : σ) :
    Option ((Nat × Nat) × σ) :=
  if text = [] then some ((0, 0), s)
  else
    (forList text (0, none, s) (layoutStep font f)).bind fun st =>
    let w := ⌈st.1⌉
    let h := ⌈font.height⌉
    if 0 ≤ w ∧ 0 ≤ h then some ((1 + w.toNat, h.toNat), st.2.2) else none

/-- text.rs:46-48 `text_size`. -/
def textSize (font : Font) (text : List Char) : Option (Nat × Nat) :=
  (layoutGlyphs font text (fun _ (s : Unit) => some s) ()).map Prod.fst

/-- text.rs:91-104: the closure given to `OutlinedGlyph::draw`. -/
def drawGlyphPixel {ι : Type _} (mx : Nat) (op : (ι → Nat) → (ι → Nat) → ι → Nat) (color : ι → Nat)
    (xShift yShift : Int) (p : Nat × Nat × ℚ) (canvas : Image (ι → Nat)) : Option (Image (ι → Nat)) :=
  let imageX := (p.1 : Int) + xShift
  let imageY := (p.2.1 : Int) + yShift
  if (0 ≤ imageX ∧ imageX < canvas.w) ∧ 0 ≤ imageY ∧ imageY < canvas.h then
    (canvas.get imageX.toNat imageY.toNat).bind fun pixel =>
    let gv := max 0 (min 1 p.2.2)
    let weighted := weightedSum mx pixel color (1 - gv) gv
    drawPixel op canvas imageX.toNat imageY.toNat weighted
  else some canvas

/-- text.rs:87-106: the closure given to `layout_glyphs`. -/
def drawGlyph {ι : Type _} (mx : Nat) (op : (ι → Nat) → (ι → Nat) → ι → Nat) (color : ι → Nat)
    (x y : Int) (g : Outline) (canvas : Image (ι → Nat)) : Option (Image (ι → Nat)) :=
  forList g.pixels canvas fun p canvas =>
    drawGlyphPixel mx op color (x + roundQ g.minX) (y + roundQ g.minY) p canvas

/-- text.rs:73-107 `draw_text_mut` (`draw_text` works on a copy). -/
def drawText {ι : Type _} (mx : Nat) (op : (ι → Nat) → (ι → Nat) → ι → Nat) (font : Font)
    (color : ι → Nat) (x y : Int) (text : List Char) (canvas : Image (ι → Nat)) :
    Option (Image (ι → Nat)) :=
  (layoutGlyphs font text (drawGlyph mx op color x y) canvas).map Prod.snd

end Verif.Drawing
