import Verif.Edges.Full
import Verif.Stats.Machine
/-
`canny` (src/edges.rs) with the `u32` arithmetic of its sizes and coordinates, in debug builds
(overflow panics) and release builds (overflow wraps), on all images including empty and very
large ones.  The blur and the gradients are those of `Edges/Full.lean`.  Property theorem C203.
-/
namespace Verif.Edges
open Verif.Stats (u32)
open Verif.Gradients
variable {α : Type _} [LinearOrder α]

/-! ### The model -/

/-- `a - b` on `u32`. -/
def usub (dbg : Bool) (a b : Nat) : Option Nat :=
  if b ≤ a then some (a - b) else if dbg then none else some (a + 2 ^ 32 - b)

/-- The neighbours inspected from `(nx, ny)`, edges.rs:131-138, on `u32`. -/
def neighboursM (dbg : Bool) (nx ny : Nat) : Option (List (Nat × Nat)) :=
  (u32 dbg (nx + 1)).bind fun xp => (u32 dbg (ny + 1)).bind fun yp =>
  (usub dbg nx 1).bind fun xm => (usub dbg ny 1).bind fun ym =>
  some [(xp, ny), (xp, yp), (nx, yp), (xm, ym), (xm, ny), (xm, yp)]

/-- The `while let Some(..) = edges.pop()` loop, edges.rs:130-148, with fuel. -/
def trackM (dbg : Bool) (inp : Image α) (lo : α) :
    Nat → Image Nat → List (Nat × Nat) → Option (Image Nat)
  | _, out, [] => some out
  | 0, _, _ :: _ => none
  | n + 1, out, p :: st =>
    (neighboursM dbg p.1 p.2).bind fun l =>
    (forList l (out, st) (visit inp lo)).bind fun r => trackM dbg inp lo n r.1 r.2

/-- `hysteresis`, edges.rs:114-153, with the capacity computation of line 120. -/
def hysteresisM (dbg : Bool) (inp : Image α) (lo hi : α) : Option (Image Nat) :=
  (u32 dbg (inp.w * inp.h)).bind fun _ =>
  (usub dbg inp.h 1).bind fun y1 =>
  forRange 1 y1 (Image.new inp.w inp.h 0) fun y out =>
  (usub dbg inp.w 1).bind fun x1 =>
  forRange 1 x1 out fun x out =>
    (inp.get x y).bind fun i => (out.get x y).bind fun o =>
    if hi ≤ i ∧ o = 0 then
      (out.put x y 255).bind fun out => trackM dbg inp lo (inp.w * inp.h + 1) out [(x, y)]
    else some out

/-- `non_maximum_suppression`, edges.rs:56-110, on `u32`.  In the loops `1 ≤ x, y` and
`x + 1, y + 1 ≤ 2^32 - 1`, so the neighbour coordinates of `compared` are exact. -/
def nonMaxSuppressionM [Zero α] {β : Type _} (dbg : Bool) (sector : β → β → Sector) (g : Image α)
    (gx gy : Image β) : Option (Image α) :=
  (usub dbg g.h 1).bind fun y1 =>
  forRange 1 y1 (Image.new g.w g.h 0) fun y out =>
  (usub dbg g.w 1).bind fun x1 =>
  forRange 1 x1 out fun x out =>
    (gx.get x y).bind fun dx => (gy.get x y).bind fun dy =>
    (compared g x y (sector dx dy)).bind fun c =>
    (g.get x y).bind fun p =>
    if p < c.1 ∨ p < c.2 then out.put x y 0 else out.put x y p

/-- `canny`, edges.rs:30-53, from the gradients on. -/
def cannyM [Zero α] {β : Type _} (dbg : Bool) (sector : β → β → Sector) (mag : β → β → α)
    (gx gy : Image β) (lo hi : α) : Option (Image Nat) :=
  if lo ≤ hi then
    (nonMaxSuppressionM dbg sector ⟨gx.w, gx.h, fun x y => mag (gx.px x y) (gy.px x y)⟩ gx gy).bind
      fun thinned => hysteresisM dbg thinned lo hi
  else none

/-- `canny`, edges.rs:30-53. -/
noncomputable def cannyImageM (dbg : Bool) (im : Image (Unit → Nat)) (lo hi : ℝ) :
    Option (Image Nat) :=
  if hi ≥ lo then
    (gaussianBlur im 1.4).bind fun blurred =>
    (horizontalSobel blurred).bind fun gx =>
    (verticalSobel blurred).bind fun gy =>
    cannyM dbg sectorOf (fun h v => √((h : ℝ) ^ 2 + (v : ℝ) ^ 2))
      ⟨gx.w, gx.h, fun x y => gx.px x y ()⟩ ⟨gy.w, gy.h, fun x y => gy.px x y ()⟩ lo hi
  else none

/-! ### Proofs -/

theorem usub_of_le (dbg : Bool) {a b : Nat} (h : b ≤ a) : usub dbg a b = csub a b := by
  rw [usub, if_pos h, csub_of_le h]

theorem forRange_some {σ : Type _} {f : Nat → σ → Option σ} {lo hi : Nat} {s : σ}
    (h : ∀ i t, lo ≤ i → i < hi → f i t = some t) : forRange lo hi s f = some s := by
  by_cases hl : lo ≤ hi
  · obtain ⟨s', e, i⟩ := forRange_spec (f := f) (s := s) (fun _ t => t = s) hl rfl
      (fun i t h1 h2 ht => ⟨t, h i t h1 h2, ht⟩)
    rw [e, i]
  · exact forRange_empty (by omega)

theorem forRange_first_none {σ : Type _} {f : Nat → σ → Option σ} {lo hi : Nat} {s : σ}
    (hl : lo < hi) (h : f lo s = none) : forRange lo hi s f = none := by
  unfold forRange
  obtain ⟨k, hk⟩ : ∃ k, hi - lo = k + 1 := ⟨hi - lo - 1, by omega⟩
  rw [hk]
  simp [forCount, h]

theorem visit_none {inp : Image α} {lo : α} {p : Nat × Nat} (h : inp.w ≤ p.1 ∨ inp.h ≤ p.2)
    (s : Image Nat × List (Nat × Nat)) : visit inp lo p s = none := by
  unfold visit
  rw [Image.get, if_neg (by unfold Image.InB; omega)]
  rfl

theorem forList_mem_none {σ β : Type _} {f : β → σ → Option σ} {a : β} (h : ∀ s, f a s = none) :
    ∀ (l : List β) (s : σ), a ∈ l → forList l s f = none
  | [], _, hm => by cases hm
  | b :: l, s, hm => by
    rw [forList]
    rcases List.mem_cons.1 hm with rfl | hm
    · rw [h]; rfl
    · rcases f b s with _ | s'
      · rfl
      · exact forList_mem_none h l s' hm

theorem forList_push {inp : Image α} {lo : α} :
    ∀ (l : List (Nat × Nat)) (s r : Image Nat × List (Nat × Nat)),
      (∀ p ∈ s.2, p.1 < inp.w ∧ p.2 < inp.h) → forList l s (visit inp lo) = some r →
      ∀ p ∈ r.2, p.1 < inp.w ∧ p.2 < inp.h
  | [], s, r, hs, e => by cases e; exact hs
  | q :: l, s, r, hs, e => by
    rw [forList] at e
    rcases ev : visit inp lo q s with _ | s'
    · rw [ev] at e; cases e
    · rw [ev] at e
      refine forList_push l s' r ?_ e
      by_cases hq : inp.w ≤ q.1 ∨ inp.h ≤ q.2
      · rw [visit_none hq] at ev; cases ev
      · unfold visit at ev
        simp only [Option.bind_eq_some_iff] at ev
        obtain ⟨i, -, o, -, ev⟩ := ev
        split_ifs at ev
        · simp only [Option.bind_eq_some_iff, Option.some.injEq] at ev
          obtain ⟨out, -, rfl⟩ := ev
          intro p hp
          rcases List.mem_cons.1 hp with rfl | hp
          · omega
          · exact hs p hp
        · cases ev; exact hs

theorem trackM_eq (dbg : Bool) {inp : Image α} {lo : α} (hw : inp.w < 2 ^ 32)
    (hh : inp.h < 2 ^ 32) : ∀ (n : Nat) (out : Image Nat) (st : List (Nat × Nat)),
      (∀ p ∈ st, p.1 < inp.w ∧ p.2 < inp.h) → trackM dbg inp lo n out st = track inp lo n out st
  | 0, _, [], _ => rfl
  | 0, _, _ :: _, _ => rfl
  | n + 1, _, [], _ => rfl
  | n + 1, out, p :: st, hst => by
    have hp := hst p (List.mem_cons_self ..)
    have hst' : ∀ q ∈ st, q.1 < inp.w ∧ q.2 < inp.h := fun q hq => hst q (List.mem_cons_of_mem _ hq)
    rw [trackM, track]
    unfold neighboursM neighbours
    rw [Stats.u32, if_pos (by omega), Option.bind_some, Stats.u32, if_pos (by omega),
      Option.bind_some]
    by_cases hx : 1 ≤ p.1
    · by_cases hy : 1 ≤ p.2
      · rw [usub_of_le dbg hx, usub_of_le dbg hy, csub_of_le hx, csub_of_le hy]
        simp only [Option.bind_some]
        rcases e : forList [(p.1 + 1, p.2), (p.1 + 1, p.2 + 1), (p.1, p.2 + 1), (p.1 - 1, p.2 - 1),
          (p.1 - 1, p.2), (p.1 - 1, p.2 + 1)] (out, st) (visit inp lo) with _ | r
        · rfl
        · exact trackM_eq dbg hw hh n r.1 r.2 (forList_push _ _ _ hst' e)
      · rw [usub_of_le dbg hx, csub_of_le hx, Option.bind_some, Option.bind_some,
          show csub p.2 1 = none by unfold csub; rw [if_neg hy], usub, if_neg hy]
        cases dbg
        · obtain ⟨k, hk, hk2⟩ : ∃ k, k = p.2 + 2 ^ 32 - 1 ∧ inp.h ≤ k := ⟨_, rfl, by omega⟩
          rw [if_neg (by simp), ← hk, Option.bind_some, Option.bind_some,
            forList_mem_none (a := (p.1 - 1, k)) (fun s => visit_none (Or.inr hk2) s) _ _
              (by simp)]
          rfl
        · rfl
    · rw [show csub p.1 1 = none by unfold csub; rw [if_neg hx], usub, if_neg hx]
      cases dbg
      · obtain ⟨k, hk, hk2⟩ : ∃ k, k = p.1 + 2 ^ 32 - 1 ∧ inp.w ≤ k := ⟨_, rfl, by omega⟩
        rw [if_neg (by simp), ← hk, Option.bind_some]
        rcases usub false p.2 1 with _ | ym
        · rfl
        · rw [Option.bind_some, Option.bind_some,
            forList_mem_none (a := (k, p.2)) (fun s => visit_none (Or.inl hk2) s) _ _ (by simp)]
          rfl
      · rfl

theorem nonMaxSuppressionM_eq [Zero α] {β : Type _} (dbg : Bool) (sector : β → β → Sector)
    (g : Image α) (gx gy : Image β) (hw : 0 < g.w) (hh : 0 < g.h) :
    nonMaxSuppressionM dbg sector g gx gy = nonMaxSuppression sector g gx gy := by
  unfold nonMaxSuppressionM nonMaxSuppression
  rw [usub_of_le dbg hh, usub_of_le dbg hw]

theorem hysteresisM_eq (dbg : Bool) (inp : Image α) (lo hi : α) (hw : 0 < inp.w) (hh : 0 < inp.h)
    (hw2 : inp.w < 2 ^ 32) (hh2 : inp.h < 2 ^ 32) (hd : dbg = true → inp.w * inp.h < 2 ^ 32) :
    hysteresisM dbg inp lo hi = hysteresis inp lo hi := by
  unfold hysteresisM hysteresis
  rw [usub_of_le dbg hh, usub_of_le dbg hw]
  have hu : ∃ v, u32 dbg (inp.w * inp.h) = some v := by
    unfold Stats.u32
    by_cases h : inp.w * inp.h < 2 ^ 32
    · exact ⟨_, if_pos h⟩
    · rw [if_neg h]
      cases dbg
      · exact ⟨_, if_neg (by simp)⟩
      · exact absurd (hd rfl) h
  obtain ⟨v, hv⟩ := hu
  rw [hv, Option.bind_some]
  have hb : ∀ (x y : Nat) (out : Image Nat),
      ((inp.get x y).bind fun i => (out.get x y).bind fun o => if hi ≤ i ∧ o = 0 then
        (out.put x y 255).bind fun out => trackM dbg inp lo (inp.w * inp.h + 1) out [(x, y)]
        else some out) =
      ((inp.get x y).bind fun i => (out.get x y).bind fun o => if hi ≤ i ∧ o = 0 then
        (out.put x y 255).bind fun out => track inp lo (inp.w * inp.h + 1) out [(x, y)]
        else some out) := by
    intro x y out
    by_cases hin : x < inp.w ∧ y < inp.h
    · have : ∀ o, trackM dbg inp lo (inp.w * inp.h + 1) o [(x, y)] =
          track inp lo (inp.w * inp.h + 1) o [(x, y)] := fun o =>
        trackM_eq dbg hw2 hh2 _ o _ (by intro p hp; rw [List.mem_singleton.1 hp]; exact hin)
      simp only [this]
    · rw [Image.get, if_neg (by unfold Image.InB; omega)]; rfl
  simp only [hb]

theorem nonMaxSuppressionM_size [Zero α] {β : Type _} (dbg : Bool) (sector : β → β → Sector)
    (g : Image α) (gx gy : Image β) (hw : 0 < g.w) (hh : 0 < g.h) (hxw : gx.w = g.w)
    (hxh : gx.h = g.h) (hyw : gy.w = g.w) (hyh : gy.h = g.h) :
    ∃ t, nonMaxSuppressionM dbg sector g gx gy = some t ∧ t.w = g.w ∧ t.h = g.h := by
  rw [nonMaxSuppressionM_eq dbg sector g gx gy hw hh]
  obtain ⟨t, e, h1, h2, -⟩ := C89_suppression sector g gx gy hw hh hxw hxh hyw hyh
  exact ⟨t, e, h1, h2⟩

/-- The two loops on an image without pixels, whose body always panics. -/
theorem loops_empty {σ : Type _} (dbg : Bool) (w h : Nat) (he : w = 0 ∨ h = 0) (hw : w < 2 ^ 32)
    (hh : h < 2 ^ 32) (s : σ) :
    ((usub dbg h 1).bind fun y1 => forRange 1 y1 s fun _ out =>
      (usub dbg w 1).bind fun x1 => forRange 1 x1 out fun _ _ => none) =
      if h = 1 ∨ h = 2 ∨ dbg = false ∧ (w = 1 ∨ w = 2) then some s else none := by
  have hneg : ∀ v, v = 0 → usub false v 1 = some (2 ^ 32 - 1) := by
    rintro v rfl
    rw [usub, if_neg (by omega), if_neg (by simp), Nat.zero_add]
  by_cases h12 : h = 1 ∨ h = 2
  · rw [if_pos (by tauto), usub, if_pos (by omega), Option.bind_some, forRange_empty (by omega)]
  by_cases hrel : dbg = false ∧ (w = 1 ∨ w = 2)
  · obtain ⟨rfl, hw12⟩ := hrel
    have h0 : h = 0 := by omega
    rw [if_pos (by tauto), hneg h h0, Option.bind_some]
    refine forRange_some fun y t _ _ => ?_
    rw [usub, if_pos (by omega), Option.bind_some, forRange_empty (by omega)]
  rw [if_neg (by tauto)]
  cases dbg
  · have hbig : ∀ v, v < 2 ^ 32 → v ≠ 1 → v ≠ 2 → ∃ k, usub false v 1 = some k ∧ 1 < k := by
      intro v hv h1 h2
      by_cases h0 : v = 0
      · exact ⟨_, hneg v h0, by omega⟩
      · exact ⟨v - 1, by rw [usub, if_pos (by omega)], by omega⟩
    obtain ⟨ky, ey, hy⟩ := hbig h hh (by omega) (by omega)
    obtain ⟨kx, ex, hx⟩ := hbig w hw (by simp at hrel; omega) (by simp at hrel; omega)
    rw [ey, Option.bind_some]
    refine forRange_first_none hy ?_
    rw [ex, Option.bind_some]
    exact forRange_first_none hx rfl
  · by_cases h0 : h = 0
    · rw [usub, if_neg (by omega), if_pos rfl]; rfl
    · rw [usub, if_pos (by omega), Option.bind_some]
      refine forRange_first_none (by omega) ?_
      rw [usub, if_neg (by omega), if_pos rfl]; rfl

/-- Suppression on an image without pixels. -/
theorem nonMaxSuppressionM_empty [Zero α] {β : Type _} (dbg : Bool) (sector : β → β → Sector)
    (g : Image α) (gx gy : Image β) (he : g.w = 0 ∨ g.h = 0) (hw : g.w < 2 ^ 32)
    (hh : g.h < 2 ^ 32) (hxw : gx.w = g.w) (hxh : gx.h = g.h) :
    nonMaxSuppressionM dbg sector g gx gy =
      if g.h = 1 ∨ g.h = 2 ∨ dbg = false ∧ (g.w = 1 ∨ g.w = 2) then some (Image.new g.w g.h 0)
      else none := by
  unfold nonMaxSuppressionM
  have hget : ∀ x y, gx.get x y = none := fun x y => by
    rw [Image.get, if_neg (by unfold Image.InB; omega)]
  simp only [hget, Option.bind_none]
  exact loops_empty dbg g.w g.h he hw hh _

/-- C203: on an image without pixels `canny` (with `low ≤ high`) returns the empty image in debug
builds exactly if the height is 1 or 2, in release builds exactly if the width or the height is 1
or 2; otherwise it panics. -/
theorem C203_empty (dbg : Bool) (im : Image (Unit → Nat)) (hu : IsU8 im) (he : im.w = 0 ∨ im.h = 0)
    (lo hi : ℝ) (hlh : lo ≤ hi) :
    cannyImageM dbg im lo hi =
      if im.h = 1 ∨ im.h = 2 ∨ dbg = false ∧ (im.w = 1 ∨ im.w = 2) then
        some (Image.new im.w im.h 0) else none := by
  have hw : im.w < 2 ^ 32 := by have := hu.1; omega
  have hh : im.h < 2 ^ 32 := by have := hu.2.1; omega
  obtain ⟨bl, b1, b2, b3, b4, -⟩ := C88_gaussian im hu 1.4 (by norm_num)
  obtain ⟨⟨gx, x1, x2, x3, x4⟩, ⟨gy, y1, y2, y3, y4⟩, -⟩ := C76_values bl b4
  unfold cannyImageM cannyM
  rw [if_pos hlh, b1, Option.bind_some, x1, Option.bind_some, y1, Option.bind_some, if_pos hlh]
  have e := nonMaxSuppressionM_empty dbg sectorOf
    ⟨gx.w, gx.h, fun x y => √((gx.px x y () : ℝ) ^ 2 + (gy.px x y () : ℝ) ^ 2)⟩
    ⟨gx.w, gx.h, fun x y => gx.px x y ()⟩ ⟨gy.w, gy.h, fun x y => gy.px x y ()⟩
    (by dsimp only; omega) (by dsimp only; omega) (by dsimp only; omega) rfl rfl
  dsimp only at e ⊢
  rw [e]
  rw [x2, x3, b2, b3]
  by_cases hc : im.h = 1 ∨ im.h = 2 ∨ dbg = false ∧ (im.w = 1 ∨ im.w = 2)
  · rw [if_pos hc, if_pos hc, Option.bind_some]
    unfold hysteresisM
    have hget : ∀ x y, (Image.new im.w im.h (0 : ℝ)).get x y = none := fun x y => by
      rw [Image.get, if_neg (by unfold Image.InB Image.new; dsimp only; omega)]
    simp only [hget, Option.bind_none]
    have hz : im.w * im.h = 0 := by rcases he with h | h <;> rw [h] <;> simp
    change (u32 dbg (im.w * im.h)).bind _ = _
    rw [hz, Stats.u32, if_pos (by norm_num), Option.bind_some]
    change ((usub dbg im.h 1).bind fun y1 => forRange 1 y1 (Image.new im.w im.h 0) fun y out =>
      (usub dbg im.w 1).bind fun x1 => forRange 1 x1 out fun _ _ => none) = _
    rw [loops_empty dbg im.w im.h he hw hh, if_pos hc]
  · rw [if_neg hc, if_neg hc]; rfl

/-- C203 (partial: non-empty images, fewer than 2^32 pixels in debug builds, see `C203_empty` and
`C203_large`): on every non-empty image with sides below `2^31` both build profiles agree with the
detector of C115, in debug builds as long as the number of pixels fits in a `u32`. -/
theorem C203_nonempty_partial (dbg : Bool) (im : Image (Unit → Nat)) (hu : IsU8 im) (hw : 0 < im.w)
    (hh : 0 < im.h) (hd : dbg = true → im.w * im.h < 2 ^ 32) (lo hi : ℝ) :
    cannyImageM dbg im lo hi = cannyImage im lo hi := by
  have hw2 : im.w < 2 ^ 32 := by have := hu.1; omega
  have hh2 : im.h < 2 ^ 32 := by have := hu.2.1; omega
  obtain ⟨bl, b1, b2, b3, b4, -⟩ := C88_gaussian im hu 1.4 (by norm_num)
  obtain ⟨⟨gx, x1, x2, x3, x4⟩, ⟨gy, y1, y2, y3, y4⟩, -⟩ := C76_values bl b4
  unfold cannyImageM cannyImage cannyM canny
  rw [b1, Option.bind_some, Option.bind_some, x1, Option.bind_some, Option.bind_some, y1,
    Option.bind_some, Option.bind_some, nonMaxSuppressionM_eq dbg _ _ _ _ (by dsimp only; omega)
    (by dsimp only; omega)]
  obtain ⟨t, e, t1, t2, -⟩ := C89_suppression sectorOf
    ⟨gx.w, gx.h, fun x y => √((gx.px x y () : ℝ) ^ 2 + (gy.px x y () : ℝ) ^ 2)⟩
    ⟨gx.w, gx.h, fun x y => gx.px x y ()⟩ ⟨gy.w, gy.h, fun x y => gy.px x y ()⟩
    (by dsimp only; omega) (by dsimp only; omega) rfl rfl (by dsimp only; omega)
    (by dsimp only; omega)
  dsimp only at e t1 t2 ⊢
  have tw : t.w = im.w := by omega
  have th : t.h = im.h := by omega
  rw [e, Option.bind_some, Option.bind_some, hysteresisM_eq dbg t lo hi (by omega) (by omega)
    (by omega) (by omega) (by rw [tw, th]; exact hd)]

example : (hysteresisM true hystExample 3 8).map Image.rows =
    (hysteresis hystExample 3 8).map Image.rows ∧ (hysteresis hystExample 3 8).isSome = true := by
  decide +kernel

/-- C203: a debug build panics on every image with `2^32` or more pixels. -/
theorem C203_large (im : Image (Unit → Nat)) (hu : IsU8 im) (hl : 2 ^ 32 ≤ im.w * im.h)
    (lo hi : ℝ) : cannyImageM true im lo hi = none := by
  have hw : 0 < im.w := by
    rcases Nat.eq_zero_or_pos im.w with h | h
    · rw [h, Nat.zero_mul] at hl; norm_num at hl
    · exact h
  have hh : 0 < im.h := by
    rcases Nat.eq_zero_or_pos im.h with h | h
    · rw [h, Nat.mul_zero] at hl; norm_num at hl
    · exact h
  obtain ⟨bl, b1, b2, b3, b4, -⟩ := C88_gaussian im hu 1.4 (by norm_num)
  obtain ⟨⟨gx, x1, x2, x3, x4⟩, ⟨gy, y1, y2, y3, y4⟩, -⟩ := C76_values bl b4
  unfold cannyImageM cannyM
  by_cases hlh : hi ≥ lo
  · rw [if_pos hlh, b1, Option.bind_some, x1, Option.bind_some, y1, Option.bind_some, if_pos hlh]
    obtain ⟨t, e, t1, t2⟩ := nonMaxSuppressionM_size true sectorOf
      ⟨gx.w, gx.h, fun x y => √((gx.px x y () : ℝ) ^ 2 + (gy.px x y () : ℝ) ^ 2)⟩
      ⟨gx.w, gx.h, fun x y => gx.px x y ()⟩ ⟨gy.w, gy.h, fun x y => gy.px x y ()⟩
      (by dsimp only; omega) (by dsimp only; omega) rfl rfl (by dsimp only; omega)
      (by dsimp only; omega)
    dsimp only at e t1 t2 ⊢
    have tw : t.w = im.w := by omega
    have th : t.h = im.h := by omega
    rw [e, Option.bind_some]
    unfold hysteresisM
    rw [tw, th, Stats.u32, if_neg (by omega)]
    rfl
  · rw [if_neg hlh]

/-- C203 is false of the code: the 1x0 image makes `canny` panic in a debug build, although a
release build returns the empty image; and a 0x3 image makes both panic, although both accept the
0x2 image. -/
theorem C203_negation :
    cannyImageM true (Image.new 1 0 fun _ => 0) 1 2 = none ∧
    cannyImageM false (Image.new 1 0 fun _ => 0) 1 2 = some (Image.new 1 0 0) ∧
    (∀ dbg, cannyImageM dbg (Image.new 0 3 fun _ => 0) 1 2 = none) ∧
    ∀ dbg, cannyImageM dbg (Image.new 0 2 fun _ => 0) 1 2 = some (Image.new 0 2 0) := by
  have key : ∀ dbg w h, (w = 0 ∨ h = 0) → w < 4 → h < 4 →
      cannyImageM dbg (Image.new w h fun _ => 0) 1 2 =
        if h = 1 ∨ h = 2 ∨ dbg = false ∧ (w = 1 ∨ w = 2) then some (Image.new w h 0) else none :=
    fun dbg w h he hw hh => C203_empty dbg (Image.new w h fun _ => 0)
      ⟨by change w < _; omega, by change h < _; omega, fun _ _ _ _ _ => by simp [Image.new]⟩ he
      1 2 (by norm_num)
  refine ⟨?_, ?_, fun dbg => ?_, fun dbg => ?_⟩
  · rw [key true 1 0 (by decide) (by decide) (by decide)]; rfl
  · rw [key false 1 0 (by decide) (by decide) (by decide)]; rfl
  · rw [key dbg 0 3 (by decide) (by decide) (by decide)]; simp
  · rw [key dbg 0 2 (by decide) (by decide) (by decide)]; rfl

end Verif.Edges
