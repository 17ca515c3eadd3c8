import Verif.Relations.Gradients
import Verif.Corners.Fast
/-
C182: FAST corners against flips, turns, brightness offsets and inversion.
-/
namespace Verif.Relations
open Verif.Corners Verif.Compose

/-! ### Turns -/

/-- Specification: an offset, turned. -/
def turnOff (s fx fy : Bool) (o : Int × Int) : Int × Int := swapIf s (negIf fx o.1) (negIf fy o.2)

theorem at_turnOff {s fx fy : Bool} {im im' : Image Nat} (t : Turned s fx fy im im') {x y : Nat}
    (hi : Inside im x y) {o : Int × Int} (h1 : o.1.natAbs ≤ 3) (h2 : o.2.natAbs ≤ 3) :
    at_ im' (turn s fx fy im.w im.h x y).1 (turn s fx fy im.w im.h x y).2 (turnOff s fx fy o) =
      at_ im x y o := by
  obtain ⟨a, b, c, d⟩ := hi
  have key := t.px ((x : Int) + o.1).toNat ((y : Int) + o.2).toNat (by omega) (by omega)
  unfold at_
  rw [← key]
  obtain ⟨o1, o2⟩ := o
  dsimp only at h1 h2
  have hm : ∀ (b : Bool) (n z : Nat) (d : Int), 3 ≤ z → z + 3 < n → d.natAbs ≤ 3 →
      ((mirrorIf b n z : Int) + negIf b d).toNat = mirrorIf b n ((z : Int) + d).toNat := by
    intro b n z d g1 g2 g3
    unfold mirrorIf negIf
    cases b
    · simp
    · simp only [if_true]; omega
  have e1 := hm fx im.w x o1 a c h1
  have e2 := hm fy im.h y o2 b d h2
  unfold turnOff turn swapIf
  cases s
  · simp only [Bool.false_eq_true, if_false]
    rw [e1, e2]
  · simp only [if_true]
    rw [e1, e2]

theorem inside_turned {s fx fy : Bool} {im im' : Image Nat} (t : Turned s fx fy im im') {x y : Nat}
    (hx : x < im.w) (hy : y < im.h) :
    Inside im' (turn s fx fy im.w im.h x y).1 (turn s fx fy im.w im.h x y).2 ↔ Inside im x y := by
  have hs := t.size
  cases s
  · obtain ⟨h1, h2⟩ := Prod.mk.inj hs
    unfold Inside turn swapIf mirrorIf
    cases fx <;> cases fy <;> simp <;> omega
  · obtain ⟨h1, h2⟩ := Prod.mk.inj hs
    unfold Inside turn swapIf mirrorIf
    cases fx <;> cases fy <;> simp <;> omega

/-- Every turn is a rotation or a reflection of the circle. -/
theorem ring_turned (s fx fy : Bool) :
    (∃ c, c < 16 ∧ ∀ j, j < 16 → ∀ o ∈ ring[j]?, ring[(j + c) % 16]? = some (turnOff s fx fy o)) ∨
    ∃ c, c < 16 ∧ ∀ j, j < 16 → ∀ o ∈ ring[j]?, ring[(c + 16 - j) % 16]? = some (turnOff s fx fy o) := by
  cases s <;> cases fx <;> cases fy
  · exact Or.inl ⟨0, by decide, by decide⟩
  · exact Or.inr ⟨8, by decide, by decide⟩
  · exact Or.inr ⟨0, by decide, by decide⟩
  · exact Or.inl ⟨8, by decide, by decide⟩
  · exact Or.inr ⟨12, by decide, by decide⟩
  · exact Or.inl ⟨4, by decide, by decide⟩
  · exact Or.inl ⟨12, by decide, by decide⟩
  · exact Or.inr ⟨4, by decide, by decide⟩

theorem hasArc_turned (s fx fy : Bool) {n : Nat} (hn : n ≤ 16) {p p' : Int × Int → Bool}
    (h : ∀ o ∈ ring, p' (turnOff s fx fy o) = p o) (ha : HasArc n (ring.map p)) :
    HasArc n (ring.map p') := by
  obtain ⟨j, hj, ha⟩ := ha
  have hl : ∀ q : Int × Int → Bool, (ring.map q).length = 16 := fun q => by rw [List.length_map]; rfl
  rw [hl] at hj
  simp only [hl] at ha
  have hget : ∀ i, i < 16 → ∃ o, ring[i]? = some o ∧ o ∈ ring := fun i hi =>
    ⟨ring[i]'(by exact hi), List.getElem?_eq_getElem _, List.getElem_mem _⟩
  rcases ring_turned s fx fy with ⟨c, hc, hr⟩ | ⟨c, hc, hr⟩
  · refine ⟨(j + c) % 16, by rw [hl]; omega, fun k hk => ?_⟩
    rw [hl]
    obtain ⟨o, ho, hm⟩ := hget ((j + k) % 16) (Nat.mod_lt _ (by decide))
    have := ha k hk
    rw [List.getElem?_map, ho] at this
    have e := hr _ (Nat.mod_lt _ (by decide)) o ho
    rw [show ((j + k) % 16 + c) % 16 = ((j + c) % 16 + k) % 16 by omega] at e
    rw [List.getElem?_map, e]
    change some _ = _
    rw [h o hm]
    exact this
  · refine ⟨(c + 32 - j - (n - 1)) % 16, by rw [hl]; omega, fun k hk => ?_⟩
    rw [hl]
    obtain ⟨o, ho, hm⟩ := hget ((j + (n - 1 - k)) % 16) (Nat.mod_lt _ (by decide))
    have := ha (n - 1 - k) (by omega)
    rw [List.getElem?_map, ho] at this
    have e := hr _ (Nat.mod_lt _ (by decide)) o ho
    rw [show (c + 16 - (j + (n - 1 - k)) % 16) % 16 = ((c + 32 - j - (n - 1)) % 16 + k) % 16 by omega] at e
    rw [List.getElem?_map, e]
    change some _ = _
    rw [h o hm]
    exact this

theorem ring_small : ∀ o ∈ ring, o.1.natAbs ≤ 3 ∧ o.2.natAbs ≤ 3 := by decide

theorem Turned.back {α : Type _} {s fx fy : Bool} {im im' : Image α} (t : Turned s fx fy im im') :
    Turned s (if s then fy else fx) (if s then fx else fy) im' im := by
  have hs := t.size
  refine ⟨?_, fun a b ha hb => ?_⟩
  · cases s
    · obtain ⟨h1, h2⟩ := Prod.mk.inj hs; rw [h1, h2]; rfl
    · obtain ⟨h1, h2⟩ := Prod.mk.inj hs; rw [h1, h2]; rfl
  · obtain ⟨x, y, hx, hy, e⟩ := t.onto ha hb
    have := t.px x y hx hy
    rw [e] at this
    rw [this]
    have hb' : turn s (if s then fy else fx) (if s then fx else fy) im'.w im'.h a b = (x, y) := by
      unfold turn swapIf mirrorIf at e ⊢
      cases s
      · obtain ⟨h1, h2⟩ := Prod.mk.inj hs
        rw [h1, h2]
        cases fx <;> cases fy <;> simp at e ⊢ <;> omega
      · obtain ⟨h1, h2⟩ := Prod.mk.inj hs
        rw [h1, h2]
        cases fx <;> cases fy <;> simp at e ⊢ <;> omega
    rw [hb']

theorem turn_back {α : Type _} {s fx fy : Bool} {im im' : Image α} (t : Turned s fx fy im im')
    {x y : Nat} (hx : x < im.w) (hy : y < im.h) :
    turn s (if s then fy else fx) (if s then fx else fy) im'.w im'.h
      (turn s fx fy im.w im.h x y).1 (turn s fx fy im.w im.h x y).2 = (x, y) := by
  have hs := t.size
  unfold turn swapIf mirrorIf
  cases s
  · obtain ⟨h1, h2⟩ := Prod.mk.inj hs
    rw [h1, h2]
    cases fx <;> cases fy <;> simp <;> omega
  · obtain ⟨h1, h2⟩ := Prod.mk.inj hs
    rw [h1, h2]
    cases fx <;> cases fy <;> simp <;> omega

theorem detected_turned_mp {s fx fy : Bool} (v : Fast) (hv : v = .nine ∨ s = false) {im im' : Image Nat}
    (t : Turned s fx fy im im') {x y : Nat} (hx : x < im.w) (hy : y < im.h) {thr : Nat}
    (h : Detected v im thr x y) :
    Detected v im' thr (turn s fx fy im.w im.h x y).1 (turn s fx fy im.w im.h x y).2 := by
  have hi : Inside im x y := by cases v <;> exact h.1
  have hi' := (inside_turned t hx hy).mpr hi
  have ec : at_ im' (turn s fx fy im.w im.h x y).1 (turn s fx fy im.w im.h x y).2 (0, 0) =
      at_ im x y (0, 0) := by
    rw [← at_turnOff t hi (o := (0, 0)) (by decide) (by decide)]
    congr 1
    cases s <;> cases fx <;> cases fy <;> rfl
  have eo : ∀ o ∈ ring, at_ im' (turn s fx fy im.w im.h x y).1 (turn s fx fy im.w im.h x y).2
      (turnOff s fx fy o) = at_ im x y o := fun o ho =>
    at_turnOff t hi (ring_small o ho).1 (ring_small o ho).2
  have br : ∀ n, n ≤ 16 → Bright n im thr x y →
      Bright n im' thr (turn s fx fy im.w im.h x y).1 (turn s fx fy im.w im.h x y).2 := by
    intro n hn hb
    refine hasArc_turned s fx fy hn (fun o ho => ?_) hb
    rw [eo o ho, ec]
  have dk : ∀ n, n ≤ 16 → Dark n im thr x y →
      Dark n im' thr (turn s fx fy im.w im.h x y).1 (turn s fx fy im.w im.h x y).2 := by
    intro n hn hb
    refine hasArc_turned s fx fy hn (fun o ho => ?_) hb
    rw [eo o ho, ec]
  cases v
  · exact ⟨hi', h.2.imp (br 9 (by decide)) (dk 9 (by decide))⟩
  · have hs : s = false := hv.resolve_left (by intro h; cases h)
    subst hs
    have top := eo (0, -3) (by decide)
    have bot := eo (0, 3) (by decide)
    refine ⟨hi', ?_⟩
    obtain ⟨-, h⟩ := h
    cases fy
    · have e1 : turnOff false fx false (0, -3) = (0, -3) := by cases fx <;> rfl
      have e2 : turnOff false fx false (0, 3) = (0, 3) := by cases fx <;> rfl
      rw [e1] at top; rw [e2] at bot
      rw [top, bot, ec]
      exact h.imp (fun h => ⟨h.1, h.2.1, br 12 (by decide) h.2.2⟩)
        (fun h => ⟨h.1, h.2.1, dk 12 (by decide) h.2.2⟩)
    · have e1 : turnOff false fx true (0, -3) = (0, 3) := by cases fx <;> rfl
      have e2 : turnOff false fx true (0, 3) = (0, -3) := by cases fx <;> rfl
      rw [e1] at top; rw [e2] at bot
      rw [top, bot, ec]
      exact h.imp (fun h => ⟨h.2.1, h.1, br 12 (by decide) h.2.2⟩)
        (fun h => ⟨h.2.1, h.1, dk 12 (by decide) h.2.2⟩)

theorem detected_turned {s fx fy : Bool} (v : Fast) (hv : v = .nine ∨ s = false) {im im' : Image Nat}
    (t : Turned s fx fy im im') {x y : Nat} (hx : x < im.w) (hy : y < im.h) {thr : Nat} :
    Detected v im' thr (turn s fx fy im.w im.h x y).1 (turn s fx fy im.w im.h x y).2 ↔
      Detected v im thr x y := by
  refine ⟨fun h => ?_, detected_turned_mp v hv t hx hy⟩
  have hm := t.maps hx hy
  have := detected_turned_mp v hv t.back hm.1 hm.2 h
  rw [turn_back t hx hy] at this
  exact this

/-- **C182.** The FAST-9 corners of a flipped or turned image are the flipped or turned corners, with
the same scores; for FAST-12 this holds for flips and half turns. -/
theorem C182_turned_partial {s fx fy : Bool} (v : Fast) (hv : v = .nine ∨ s = false) {im im' : Image Nat}
    (t : Turned s fx fy im im') (hw : im.w < 2 ^ 32) (hh : im.h < 2 ^ 32) {thr : Nat} (ht : thr ≤ 255) :
    ∃ l l', corners v im thr = some l ∧ corners v im' thr = some l' ∧
      ∀ x y sc, x < im.w → y < im.h →
        (((turn s fx fy im.w im.h x y).1, (turn s fx fy im.w im.h x y).2, sc) ∈ l' ↔ (x, y, sc) ∈ l) := by
  have hw' : im'.w < 2 ^ 32 ∧ im'.h < 2 ^ 32 := by
    have hs := t.size
    cases s
    · obtain ⟨h1, h2⟩ := Prod.mk.inj hs; omega
    · obtain ⟨h1, h2⟩ := Prod.mk.inj hs; omega
  obtain ⟨l, el, l1, -⟩ := C65_list v im hw hh ht
  obtain ⟨l', el', l1', -⟩ := C65_list v im' hw'.1 hw'.2 ht
  refine ⟨l, l', el, el', fun x y sc hx hy => ?_⟩
  have dt : ∀ u, Detected v im' u (turn s fx fy im.w im.h x y).1 (turn s fx fy im.w im.h x y).2 ↔
      Detected v im u x y := fun u => detected_turned v hv t hx hy
  have es : score v im' thr (turn s fx fy im.w im.h x y).1 (turn s fx fy im.w im.h x y).2 =
      score v im thr x y := by
    unfold score
    congr 1
    funext u
    obtain ⟨b, e, hb⟩ := isCorner_spec v im hw hh u x y
    obtain ⟨b', e', hb'⟩ := isCorner_spec v im' hw'.1 hw'.2 u (turn s fx fy im.w im.h x y).1
      (turn s fx fy im.w im.h x y).2
    rw [e, e']
    congr 1
    rw [Bool.eq_iff_iff, hb, hb', dt]
  rw [l1, l1', dt, es]

/-- **C182.** FAST-12 does not follow quarter turns: the centre of this image is a corner only after
turning it. -/
theorem C182_negation : ∃ im', rotate270 0 missed = some im' ∧
    isCorner12 missed 4 3 3 = some false ∧ isCorner12 im' 4 3 3 = some true := by
  have key : ((rotate270 0 missed).bind fun o => isCorner12 o 4 3 3) = some true := by decide +kernel
  obtain ⟨o, eo, ho⟩ := Option.bind_eq_some_iff.mp key
  exact ⟨o, eo, by decide +kernel, ho⟩

/-! ### Brightness -/

theorem corners_congr {im im' : Image Nat} (v : Fast) (hw : im'.w = im.w) (hh : im'.h = im.h)
    (h1 : im.w < 2 ^ 32) (h2 : im.h < 2 ^ 32)
    (h : ∀ u x y, Detected v im' u x y ↔ Detected v im u x y) (thr : Nat) :
    corners v im' thr = corners v im thr := by
  have e : ∀ u x y, isCorner v im' u x y = isCorner v im u x y := by
    intro u x y
    obtain ⟨b, e, hb⟩ := isCorner_spec v im h1 h2 u x y
    obtain ⟨b', e', hb'⟩ := isCorner_spec v im' (by omega) (by omega) u x y
    rw [e, e']
    congr 1
    rw [Bool.eq_iff_iff, hb, hb', h]
  unfold corners score
  rw [hw, hh]
  simp only [e]

/-- **C182.** Adding a constant to every pixel (without saturation) changes no corner and no score. -/
theorem C182_offset (v : Fast) {im im' : Image Nat} (d : Nat) (hw : im'.w = im.w) (hh : im'.h = im.h)
    (hp : ∀ x y, x < im.w → y < im.h → im'.px x y = im.px x y + d)
    (h1 : im.w < 2 ^ 32) (h2 : im.h < 2 ^ 32) (thr : Nat) :
    corners v im' thr = corners v im thr := by
  refine corners_congr v hw hh h1 h2 (fun u x y => ?_) thr
  have hin : Inside im' x y ↔ Inside im x y := by unfold Inside; rw [hw, hh]
  by_cases hi : Inside im x y
  · have ea : ∀ o : Int × Int, o.1.natAbs ≤ 3 → o.2.natAbs ≤ 3 → at_ im' x y o = at_ im x y o + d := by
      intro o g1 g2
      obtain ⟨a, b, c, e⟩ := hi
      unfold at_
      rw [hp _ _ (by omega) (by omega)]
      push_cast; rfl
    have br : ∀ n, Bright n im' u x y ↔ Bright n im u x y := by
      intro n
      unfold Bright
      rw [List.map_congr_left fun o ho => ?_]
      rw [ea o (ring_small o ho).1 (ring_small o ho).2, ea (0, 0) (by decide) (by decide)]
      congr 1
      exact propext (by omega)
    have dk : ∀ n, Dark n im' u x y ↔ Dark n im u x y := by
      intro n
      unfold Dark
      rw [List.map_congr_left fun o ho => ?_]
      rw [ea o (ring_small o ho).1 (ring_small o ho).2, ea (0, 0) (by decide) (by decide)]
      congr 1
      exact propext (by omega)
    cases v
    · change FastCorner 9 im' u x y ↔ FastCorner 9 im u x y
      unfold FastCorner
      rw [hin, br, dk]
    · change Corner12 im' u x y ↔ Corner12 im u x y
      unfold Corner12
      rw [hin, br, dk, ea (0, 0) (by decide) (by decide), ea (0, -3) (by decide) (by decide),
        ea (0, 3) (by decide) (by decide)]
      refine and_congr_right fun _ => or_congr ?_ ?_
      · refine and_congr (by omega) (and_congr (by omega) Iff.rfl)
      · refine and_congr (by omega) (and_congr (by omega) Iff.rfl)
  · have : ¬ Inside im' x y := fun h => hi (hin.mp h)
    cases v
    · exact ⟨fun h => (this h.1).elim, fun h => (hi h.1).elim⟩
    · exact ⟨fun h => (this h.1).elim, fun h => (hi h.1).elim⟩

/-- **C182.** Inverting an 8-bit image changes no corner and no score. -/
theorem C182_invert (v : Fast) {im im' : Image Nat} (hw : im'.w = im.w) (hh : im'.h = im.h)
    (hu : ∀ x y, x < im.w → y < im.h → im.px x y ≤ 255)
    (hp : ∀ x y, x < im.w → y < im.h → im'.px x y = 255 - im.px x y)
    (h1 : im.w < 2 ^ 32) (h2 : im.h < 2 ^ 32) (thr : Nat) :
    corners v im' thr = corners v im thr := by
  refine corners_congr v hw hh h1 h2 (fun u x y => ?_) thr
  have hin : Inside im' x y ↔ Inside im x y := by unfold Inside; rw [hw, hh]
  by_cases hi : Inside im x y
  · have ea : ∀ o : Int × Int, o.1.natAbs ≤ 3 → o.2.natAbs ≤ 3 → at_ im' x y o = 255 - at_ im x y o := by
      intro o g1 g2
      obtain ⟨a, b, c, e⟩ := hi
      unfold at_
      rw [hp _ _ (by omega) (by omega)]
      have := hu ((x : Int) + o.1).toNat ((y : Int) + o.2).toNat (by omega) (by omega)
      omega
    have br : ∀ n, Bright n im' u x y ↔ Dark n im u x y := by
      intro n
      unfold Bright Dark
      rw [List.map_congr_left fun o ho => ?_]
      rw [ea o (ring_small o ho).1 (ring_small o ho).2, ea (0, 0) (by decide) (by decide)]
      congr 1
      exact propext (by omega)
    have dk : ∀ n, Dark n im' u x y ↔ Bright n im u x y := by
      intro n
      unfold Bright Dark
      rw [List.map_congr_left fun o ho => ?_]
      rw [ea o (ring_small o ho).1 (ring_small o ho).2, ea (0, 0) (by decide) (by decide)]
      congr 1
      exact propext (by omega)
    cases v
    · change FastCorner 9 im' u x y ↔ FastCorner 9 im u x y
      unfold FastCorner
      rw [hin, br, dk, or_comm]
    · change Corner12 im' u x y ↔ Corner12 im u x y
      unfold Corner12
      rw [hin, br, dk, ea (0, 0) (by decide) (by decide), ea (0, -3) (by decide) (by decide),
        ea (0, 3) (by decide) (by decide), or_comm]
      refine and_congr_right fun _ => or_congr ?_ ?_
      · refine and_congr (by omega) (and_congr (by omega) Iff.rfl)
      · refine and_congr (by omega) (and_congr (by omega) Iff.rfl)
  · have : ¬ Inside im' x y := fun h => hi (hin.mp h)
    cases v
    · exact ⟨fun h => (this h.1).elim, fun h => (hi h.1).elim⟩
    · exact ⟨fun h => (this h.1).elim, fun h => (hi h.1).elim⟩

example : corners .nine missed 4 = some [(3, 3, 8)] ∧
    corners .nine { missed with px := fun x y => 255 - missed.px x y } 4 = some [(3, 3, 8)] := by decide +kernel

end Verif.Relations
