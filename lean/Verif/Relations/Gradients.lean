import Verif.Relations.Filters
import Verif.Float.Gradient
/-
C179: gradients follow flips and quarter turns.
-/
namespace Verif.Relations
open Verif.Filter Verif.Compose Verif.Gradients Verif.Float

variable {ι β : Type _}

/-- Specification: sign change if `b`. -/
def negIf (b : Bool) (v : Int) : Int := if b then -v else v

theorem at_turned {s fx fy : Bool} {im im' : Image (ι → Nat)} (t : Turned s fx fy im im') (c : ι)
    {x y : Nat} (hx : x < im.w) (hy : y < im.h) {dx dy : Int} (h1 : -1 ≤ dx) (h2 : dx ≤ 1) (h3 : -1 ≤ dy)
    (h4 : dy ≤ 1) :
    at' im' c (turn s fx fy im.w im.h x y).1 (turn s fx fy im.w im.h x y).2
      (swapIf s (negIf fx dx) (negIf fy dy)).1 (swapIf s (negIf fx dx) (negIf fy dy)).2 =
      at' im c x y dx dy := by
  obtain ⟨i, rfl⟩ : ∃ i : Nat, dx = (i : Int) - 1 := ⟨(dx + 1).toNat, by omega⟩
  obtain ⟨j, rfl⟩ : ∃ j : Nat, dy = (j : Int) - 1 := ⟨(dy + 1).toNat, by omega⟩
  have e := congrFun (t.window (rx := 1) (ry := 1) (rx' := 1) (ry' := 1) (by cases s <;> rfl) hx hy
    (i := i) (j := j) (by omega) (by omega)) c
  have m : ∀ (b : Bool) (k : Nat), (k : Int) - 1 ≤ 1 → ((mirrorIf b (2 * 1 + 1) k : Nat) : Int) - 1 = negIf b ((k : Int) - 1) := by
    intro b k hk
    cases b
    · rfl
    · unfold mirrorIf negIf; simp only [if_true]; omega
  unfold at'
  cases s
  · unfold turn swapIf at e ⊢
    simp only [Bool.false_eq_true, if_false] at e ⊢
    simp only [add_sub_assoc, Nat.cast_one, m _ _ h2, m _ _ h4] at e
    exact_mod_cast e
  · unfold turn swapIf at e ⊢
    simp only [if_true] at e ⊢
    simp only [add_sub_assoc, Nat.cast_one, m _ _ h2, m _ _ h4] at e
    exact_mod_cast e

theorem diff_turned {s fx fy : Bool} {im im' : Image (ι → Nat)} (t : Turned s fx fy im im') (c : ι)
    (a b : Int) {x y : Nat} (hx : x < im.w) (hy : y < im.h) :
    hDiff a b im' c (turn s fx fy im.w im.h x y).1 (turn s fx fy im.w im.h x y).2 =
      (if s then negIf fy (vDiff a b im c x y) else negIf fx (hDiff a b im c x y)) ∧
    vDiff a b im' c (turn s fx fy im.w im.h x y).1 (turn s fx fy im.w im.h x y).2 =
      (if s then negIf fx (hDiff a b im c x y) else negIf fy (vDiff a b im c x y)) := by
  have e := fun dx dy h1 h2 h3 h4 => at_turned t c hx hy (dx := dx) (dy := dy) h1 h2 h3 h4
  have e1 := e (-1) (-1) (by omega) (by omega) (by omega) (by omega)
  have e2 := e 0 (-1) (by omega) (by omega) (by omega) (by omega)
  have e3 := e 1 (-1) (by omega) (by omega) (by omega) (by omega)
  have e4 := e (-1) 0 (by omega) (by omega) (by omega) (by omega)
  have e6 := e 1 0 (by omega) (by omega) (by omega) (by omega)
  have e7 := e (-1) 1 (by omega) (by omega) (by omega) (by omega)
  have e8 := e 0 1 (by omega) (by omega) (by omega) (by omega)
  have e9 := e 1 1 (by omega) (by omega) (by omega) (by omega)
  clear e
  unfold hDiff vDiff
  rw [← e1, ← e2, ← e3, ← e4, ← e6, ← e7, ← e8, ← e9]
  clear e1 e2 e3 e4 e6 e7 e8 e9
  cases s <;> cases fx <;> cases fy <;>
    simp only [swapIf, negIf, Bool.false_eq_true, if_true, if_false, neg_neg, neg_zero] <;>
    constructor <;> first | trivial | ring

theorem magnitude_neg (b b' : Bool) (p q : Int) :
    gradientMagnitude32 (negIf b p) (negIf b' q) = gradientMagnitude32 p q := by
  unfold gradientMagnitude32 negIf
  cases b <;> cases b' <;> simp

theorem magnitude_comm (p q : Int) : gradientMagnitude32 p q = gradientMagnitude32 q p := by
  unfold gradientMagnitude32
  rw [add_comm]

theorem Turned.isU8 {s fx fy : Bool} {im im' : Image (ι → Nat)} (t : Turned s fx fy im im')
    (h : IsU8 im) : IsU8 im' := by
  obtain ⟨h1, h2, h3⟩ := h
  have hs := t.size
  refine ⟨?_, ?_, ?_⟩
  · cases s
    · have := (Prod.mk.inj hs).1; omega
    · have := (Prod.mk.inj hs).1; omega
  · cases s
    · have := (Prod.mk.inj hs).2; omega
    · have := (Prod.mk.inj hs).2; omega
  · intro a b c ha hb
    obtain ⟨x, y, hx, hy, e⟩ := t.onto ha hb
    have := t.px x y hx hy
    rw [e] at this
    rw [this]
    exact h3 x y c hx hy

/-- **C179.** The Sobel, Scharr and Prewitt operators of a flipped or turned image: the horizontal
operator shows the horizontal (after a quarter turn: the vertical) operator of the original, with the
sign changed when that direction was reversed; likewise the vertical operator. -/
theorem C179_operators {s fx fy : Bool} {im im' : Image (ι → Nat)} (t : Turned s fx fy im im')
    (h : IsU8 im) :
    ∀ ops ∈ [((horizontalSobel : Image (ι → Nat) → _), (verticalSobel : Image (ι → Nat) → _)),
        (horizontalScharr, verticalScharr), (horizontalPrewitt, verticalPrewitt)],
    ∃ rh rv rh' rv', ops.1 im = some rh ∧ ops.2 im = some rv ∧ ops.1 im' = some rh' ∧
      ops.2 im' = some rv' ∧ ∀ x y, x < im.w → y < im.h → ∀ c,
        rh'.px (turn s fx fy im.w im.h x y).1 (turn s fx fy im.w im.h x y).2 c =
          (if s then negIf fy (rv.px x y c) else negIf fx (rh.px x y c)) ∧
        rv'.px (turn s fx fy im.w im.h x y).1 (turn s fx fy im.w im.h x y).2 c =
          (if s then negIf fx (rh.px x y c) else negIf fy (rv.px x y c)) := by
  obtain ⟨a1, a2, a3, a4, a5, a6⟩ := C76_values im h
  obtain ⟨b1, b2, b3, b4, b5, b6⟩ := C76_values im' (t.isU8 h)
  have key : ∀ (a b : Int) (oh ov : Image (ι → Nat) → Option (Image (ι → Int))),
      Computes (oh im) im (hDiff a b im) → Computes (ov im) im (vDiff a b im) →
      Computes (oh im') im' (hDiff a b im') → Computes (ov im') im' (vDiff a b im') →
      ∃ rh rv rh' rv', oh im = some rh ∧ ov im = some rv ∧ oh im' = some rh' ∧
      ov im' = some rv' ∧ ∀ x y, x < im.w → y < im.h → ∀ c,
        rh'.px (turn s fx fy im.w im.h x y).1 (turn s fx fy im.w im.h x y).2 c =
          (if s then negIf fy (rv.px x y c) else negIf fx (rh.px x y c)) ∧
        rv'.px (turn s fx fy im.w im.h x y).1 (turn s fx fy im.w im.h x y).2 c =
          (if s then negIf fx (rh.px x y c) else negIf fy (rv.px x y c)) := by
    rintro a b oh ov ⟨rh, e1, -, -, p1⟩ ⟨rv, e2, -, -, p2⟩ ⟨rh', e3, -, -, p3⟩ ⟨rv', e4, -, -, p4⟩
    refine ⟨rh, rv, rh', rv', e1, e2, e3, e4, fun x y hx hy c => ?_⟩
    obtain ⟨m1, m2⟩ := t.maps hx hy
    rw [p1 x y hx hy, p2 x y hx hy, p3 _ _ m1 m2, p4 _ _ m1 m2]
    exact diff_turned t c a b hx hy
  intro ops ho
  simp only [List.mem_cons, List.not_mem_nil, or_false] at ho
  rcases ho with rfl | rfl | rfl
  · exact key _ _ _ _ a1 a2 b1 b2
  · exact key _ _ _ _ a3 a4 b3 b4
  · exact key _ _ _ _ a5 a6 b5 b6

/-- **C179.** Gradient images (in single precision, through any pixel map) follow every flip and turn,
bit for bit, for the Sobel, Scharr and Prewitt kernels. -/
theorem C179_gradients (z : β) (f : (ι → Nat) → β) {s fx fy : Bool} {im im' : Image (ι → Nat)}
    (t : Turned s fx fy im im') (h : IsU8 im) :
    ∀ ks ∈ [(sobelH, sobelV), (scharrH, scharrV), (prewittH, prewittV)],
    ∃ r r', gradients32 z im ks.1 ks.2 f = some r ∧ gradients32 z im' ks.1 ks.2 f = some r' ∧
      Turned s fx fy r r' := by
  obtain ⟨a1, a2, a3, a4, a5, a6⟩ := C76_values im h
  obtain ⟨b1, b2, b3, b4, b5, b6⟩ := C76_values im' (t.isU8 h)
  have key : ∀ (a b : Int) (hk vk : Kernel Int),
      Computes (filterI16 im hk) im (hDiff a b im) → Computes (filterI16 im vk) im (vDiff a b im) →
      Computes (filterI16 im' hk) im' (hDiff a b im') → Computes (filterI16 im' vk) im' (vDiff a b im') →
      ∃ r r', gradients32 z im hk vk f = some r ∧ gradients32 z im' hk vk f = some r' ∧
      Turned s fx fy r r' := by
    intro a b hk vk c1 c2 c3 c4
    obtain ⟨r, e1, r1, r2, r3⟩ := gradients32_eq z im hk vk f _ _ c1 c2
    obtain ⟨r', e2, s1, s2, s3⟩ := gradients32_eq z im' hk vk f _ _ c3 c4
    refine ⟨r, r', e1, e2, turned_result t r1 r2 s1 s2 fun x y hx hy => ?_⟩
    obtain ⟨m1, m2⟩ := t.maps hx hy
    rw [r3 x y hx hy, s3 _ _ m1 m2]
    congr 1
    funext c
    obtain ⟨d1, d2⟩ := diff_turned t c a b hx hy
    rw [d1, d2]
    cases s
    · exact magnitude_neg _ _ _ _
    · rw [if_pos rfl, if_pos rfl, magnitude_neg, magnitude_comm]
  intro ks ho
  simp only [List.mem_cons, List.not_mem_nil, or_false] at ho
  rcases ho with rfl | rfl | rfl
  · exact key _ _ _ _ a1 a2 b1 b2
  · exact key _ _ _ _ a3 a4 b3 b4
  · exact key _ _ _ _ a5 a6 b5 b6

/-- **C179.** The Laplacian follows every flip and turn. -/
theorem C179_laplacian {s fx fy : Bool} {im im' : Image (ι → Nat)} (t : Turned s fx fy im im')
    (h : IsU8 im) : ∃ r r', laplacianFilter im = some r ∧ laplacianFilter im' = some r' ∧
      Turned s fx fy r r' := by
  refine C178_filter_turned _ _ _ t (data := [0, 1, 0, 1, -4, 1, 0, 1, 0])
    (data' := [0, 1, 0, 1, -4, 1, 0, 1, 0]) (rx := 1) (ry := 1) (rx' := 1) (ry' := 1) rfl rfl ?_ h.1 h.2.1
  refine ⟨by cases s <;> rfl, ?_⟩
  intro x y hx hy
  have hx' : x < 3 := hx
  have hy' : y < 3 := hy
  interval_cases x <;> interval_cases y <;> cases s <;> cases fx <;> cases fy <;> rfl

/-- **C179.** With the two by two Roberts kernels the gradient image does not follow a flip: it is
shifted by one pixel. -/
theorem C179_roberts_negation : ∃ im im' : Image (Unit → Nat), flipHorizontal im = some im' ∧ IsU8 im ∧
    (gradients 0 im robertsH robertsV fun p => p ()).map (fun r => (r.px 0 0, r.px 1 0)) = some (0, 14) ∧
    (gradients 0 im' robertsH robertsV fun p => p ()).map (fun r => (r.px 0 0, r.px 1 0)) = some (0, 14) := by
  have key : ((flipHorizontal (⟨2, 1, fun x _ _ => if x = 1 then 10 else 0⟩ : Image (Unit → Nat))).bind
      fun o => (gradients 0 o robertsH robertsV fun p => p ()).map (fun r => (r.px 0 0, r.px 1 0))) =
      some (0, 14) := by decide +kernel
  obtain ⟨o, eo, ho⟩ := Option.bind_eq_some_iff.mp key
  refine ⟨_, o, eo, ⟨by decide, by decide, ?_⟩, by decide +kernel, ho⟩
  intro x y c _ _
  dsimp only
  split <;> decide

example : (flipHorizontal (⟨3, 1, fun x _ _ => [0, 10, 50].getD x 0⟩ : Image (Unit → Nat))).bind (fun o =>
      (horizontalSobel o).map fun r => [r.px 0 0 (), r.px 1 0 (), r.px 2 0 ()]) = some [-160, -200, -40] ∧
    (horizontalSobel (⟨3, 1, fun x _ _ => [0, 10, 50].getD x 0⟩ : Image (Unit → Nat))).map
      (fun r => [r.px 0 0 (), r.px 1 0 (), r.px 2 0 ()]) = some [40, 200, 160] := by decide +kernel

end Verif.Relations
