import Verif.Relations.Motion
import Verif.Relations.Morph
import Verif.Filter.Box
import Verif.Filter.Props
import Mathlib.Algebra.BigOperators.Intervals
import Mathlib.Tactic.IntervalCases
/-
C178: two-dimensional filtering is linear; filters follow flips and quarter turns (with the kernel
or the radii turned along).  The box filter follows flips but, because it rounds down after the
horizontal pass, not quarter turns.
-/
namespace Verif.Relations
open Finset Verif.Filter Verif.Compose

/-! ### The eight flips and turns of a rectangle -/

/-- Specification: coordinate `x` of `0..n-1`, mirrored if `b`. -/
def mirrorIf (b : Bool) (n x : Nat) : Nat := if b then n - 1 - x else x

/-- Specification: exchanged if `s`. -/
def swapIf {α : Type _} (s : Bool) (a b : α) : α × α := if s then (b, a) else (a, b)

/-- Specification: where pixel `(x, y)` of a `w` by `h` image goes: mirrored horizontally if `fx`,
vertically if `fy`, then reflected in the diagonal if `s`. -/
def turn (s fx fy : Bool) (w h x y : Nat) : Nat × Nat := swapIf s (mirrorIf fx w x) (mirrorIf fy h y)

/-- Specification: `im'` is `im` turned. -/
structure Turned {α : Type _} (s fx fy : Bool) (im im' : Image α) : Prop where
  size : (im'.w, im'.h) = swapIf s im.w im.h
  px : ∀ x y, x < im.w → y < im.h →
    im'.px (turn s fx fy im.w im.h x y).1 (turn s fx fy im.w im.h x y).2 = im.px x y

theorem turned_of_moved {α : Type _} {σ : Nat → Nat → Nat × Nat} {im im' : Image α} {s fx fy : Bool}
    (m : Moved σ im im') (hs : (im'.w, im'.h) = swapIf s im.w im.h)
    (h : ∀ x y, σ x y = turn s fx fy im.w im.h x y) : Turned s fx fy im im' :=
  ⟨hs, fun x y hx hy => by rw [← h]; exact m.px x y hx hy⟩

/-- The five library functions are five of the eight motions. -/
theorem turned_flipHorizontal {α : Type _} {im out : Image α} (h : flipHorizontal im = some out) :
    Turned false true false im out := by
  refine turned_of_moved (flipHorizontal_moved h) ?_ fun x y => rfl
  obtain ⟨o, e, h1, h2, -⟩ := C21_flip_horizontal im
  rw [e] at h
  obtain rfl := Option.some.inj h
  rw [h1, h2]; rfl

theorem turned_flipVertical {α : Type _} {im out : Image α} (h : flipVertical im = some out) :
    Turned false false true im out := by
  refine turned_of_moved (flipVertical_moved h) ?_ fun x y => rfl
  obtain ⟨o, e, h1, h2, -⟩ := C21_flip_vertical im
  rw [e] at h
  obtain rfl := Option.some.inj h
  rw [h1, h2]; rfl

theorem turned_rotate180 {α : Type _} {im out : Image α} (h : rotate180 im = some out) :
    Turned false true true im out := by
  refine turned_of_moved (rotate180_moved h) ?_ fun x y => rfl
  obtain ⟨o, e, h1, h2, -⟩ := C21_rotate180 im
  rw [e] at h
  obtain rfl := Option.some.inj h
  rw [h1, h2]; rfl

theorem turned_rotate90 {α : Type _} {z : α} {im out : Image α} (h : rotate90 z im = some out) :
    Turned true false true im out := by
  refine turned_of_moved (rotate90_moved h) ?_ fun x y => rfl
  obtain ⟨o, e, h1, h2, -⟩ := C21_rotate90 z im
  rw [e] at h
  obtain rfl := Option.some.inj h
  rw [h1, h2]; rfl

theorem turned_rotate270 {α : Type _} {z : α} {im out : Image α} (h : rotate270 z im = some out) :
    Turned true true false im out := by
  refine turned_of_moved (rotate270_moved h) ?_ fun x y => rfl
  obtain ⟨o, e, h1, h2, -⟩ := C21_rotate270 z im
  rw [e] at h
  obtain rfl := Option.some.inj h
  rw [h1, h2]; rfl

theorem mirrorIf_lt {b : Bool} {n x : Nat} (h : x < n) : mirrorIf b n x < n := by
  unfold mirrorIf; split <;> omega

theorem clampTo_mirrorIf (b : Bool) {n x r i : Nat} (hx : x < n) (hi : i < 2 * r + 1) :
    clampTo n ((mirrorIf b n x : Int) + mirrorIf b (2 * r + 1) i - r) =
      mirrorIf b n (clampTo n ((x : Int) + i - r)) := by
  unfold mirrorIf clampTo
  cases b
  · rfl
  · simp only [if_true]; omega

theorem sum_mirrorIf {M : Type _} [AddCommMonoid M] (b : Bool) (n : Nat) (f : Nat → M) :
    ∑ i ∈ range n, f (mirrorIf b n i) = ∑ i ∈ range n, f i := by
  cases b
  · rfl
  · exact sum_range_reflect f n

/-- A turned table has the same total. -/
theorem sum_turn {M : Type _} [AddCommMonoid M] (s fx fy : Bool) {w h w' h' : Nat}
    (e : (w', h') = swapIf s w h) (g g' : Nat → Nat → M)
    (hg : ∀ i j, i < w → j < h → g' (turn s fx fy w h i j).1 (turn s fx fy w h i j).2 = g i j) :
    ∑ j ∈ range h', ∑ i ∈ range w', g' i j = ∑ j ∈ range h, ∑ i ∈ range w, g i j := by
  have key : ∑ j ∈ range h, ∑ i ∈ range w, g i j =
      ∑ j ∈ range h, ∑ i ∈ range w, g' (swapIf s i j).1 (swapIf s i j).2 := by
    rw [← sum_mirrorIf fy h fun j => ∑ i ∈ range w, g' (swapIf s i j).1 (swapIf s i j).2]
    refine sum_congr rfl fun j hj => ?_
    rw [← sum_mirrorIf fx w fun i => g' (swapIf s i (mirrorIf fy h j)).1 (swapIf s i (mirrorIf fy h j)).2]
    refine sum_congr rfl fun i hi => ?_
    exact (hg i j (mem_range.mp hi) (mem_range.mp hj)).symm
  rw [key]
  cases s
  · obtain ⟨rfl, rfl⟩ := Prod.mk.inj e; rfl
  · obtain ⟨rfl, rfl⟩ := Prod.mk.inj e
    exact sum_comm

/-- What the window around a turned pixel shows at the turned offset. -/
theorem Turned.window {α : Type _} {s fx fy : Bool} {im im' : Image α} (t : Turned s fx fy im im')
    {rx ry rx' ry' : Nat} (hr : (rx', ry') = swapIf s rx ry) {x y : Nat} (hx : x < im.w)
    (hy : y < im.h) {i j : Nat} (hi : i < 2 * rx + 1) (hj : j < 2 * ry + 1) :
    im'.px (clampTo im'.w (((turn s fx fy im.w im.h x y).1 : Int) +
        (turn s fx fy (2 * rx + 1) (2 * ry + 1) i j).1 - rx'))
      (clampTo im'.h (((turn s fx fy im.w im.h x y).2 : Int) +
        (turn s fx fy (2 * rx + 1) (2 * ry + 1) i j).2 - ry')) =
    im.px (clampTo im.w ((x : Int) + i - rx)) (clampTo im.h ((y : Int) + j - ry)) := by
  have e := t.px (clampTo im.w ((x : Int) + i - rx)) (clampTo im.h ((y : Int) + j - ry))
    (clampTo_lt (by omega) _) (clampTo_lt (by omega) _)
  rw [← e]
  have hs := t.size
  cases s
  · obtain ⟨h1, h2⟩ := Prod.mk.inj hs
    obtain ⟨rfl, rfl⟩ := Prod.mk.inj hr
    rw [h1, h2]
    unfold turn swapIf
    simp only [Bool.false_eq_true, if_false]
    rw [clampTo_mirrorIf fx hx hi, clampTo_mirrorIf fy hy hj]
  · obtain ⟨h1, h2⟩ := Prod.mk.inj hs
    obtain ⟨rfl, rfl⟩ := Prod.mk.inj hr
    rw [h1, h2]
    unfold turn swapIf
    simp only [if_true]
    rw [clampTo_mirrorIf fx hx hi, clampTo_mirrorIf fy hy hj]

theorem Turned.maps {α : Type _} {s fx fy : Bool} {im im' : Image α} (t : Turned s fx fy im im')
    {x y : Nat} (hx : x < im.w) (hy : y < im.h) : (turn s fx fy im.w im.h x y).1 < im'.w ∧
      (turn s fx fy im.w im.h x y).2 < im'.h := by
  have hs := t.size
  cases s
  · obtain ⟨h1, h2⟩ := Prod.mk.inj hs
    rw [h1, h2]; exact ⟨mirrorIf_lt hx, mirrorIf_lt hy⟩
  · obtain ⟨h1, h2⟩ := Prod.mk.inj hs
    rw [h1, h2]; exact ⟨mirrorIf_lt hy, mirrorIf_lt hx⟩

theorem Turned.onto {α : Type _} {s fx fy : Bool} {im im' : Image α} (t : Turned s fx fy im im')
    {a b : Nat} (ha : a < im'.w) (hb : b < im'.h) :
    ∃ x y, x < im.w ∧ y < im.h ∧ turn s fx fy im.w im.h x y = (a, b) := by
  have hs := t.size
  cases s
  · obtain ⟨h1, h2⟩ := Prod.mk.inj hs
    refine ⟨mirrorIf fx im.w a, mirrorIf fy im.h b, mirrorIf_lt (by omega), mirrorIf_lt (by omega), ?_⟩
    unfold turn swapIf mirrorIf
    cases fx <;> cases fy <;> simp <;> omega
  · obtain ⟨h1, h2⟩ := Prod.mk.inj hs
    refine ⟨mirrorIf fx im.w b, mirrorIf fy im.h a, mirrorIf_lt (by omega), mirrorIf_lt (by omega), ?_⟩
    unfold turn swapIf mirrorIf
    cases fx <;> cases fy <;> simp <;> omega

theorem turned_result {α β : Type _} {s fx fy : Bool} {im im' : Image α} (t : Turned s fx fy im im')
    {r r' : Image β} (h1 : r.w = im.w) (h2 : r.h = im.h) (h3 : r'.w = im'.w) (h4 : r'.h = im'.h)
    (h : ∀ x y, x < im.w → y < im.h →
      r'.px (turn s fx fy im.w im.h x y).1 (turn s fx fy im.w im.h x y).2 = r.px x y) :
    Turned s fx fy r r' := by
  refine ⟨by rw [h1, h2, h3, h4]; exact t.size, fun x y hx hy => ?_⟩
  rw [h1, h2]
  exact h x y (h1 ▸ hx) (h2 ▸ hy)

/-! ### Two-dimensional filters -/

variable {ι σ τ K : Type _}

/-- Specification: the kernel as an image. -/
def kernelImage [Zero K] (data : List K) (kw kh : Nat) : Image K :=
  ⟨kw, kh, fun x y => data.getD (y * kw + x) 0⟩

/-- **C178.** Filtering a flipped or turned image with the kernel flipped or turned the same way
gives the flipped or turned result, for every kernel with odd sides. -/
theorem C178_filter_turned [CommSemiring K] (into : σ → K) (zt : τ) (f : K → τ) {s fx fy : Bool}
    {im im' : Image (ι → σ)} (t : Turned s fx fy im im') {data data' : List K} {rx ry rx' ry' : Nat}
    {k k' : Kernel K} (hk : Kernel.new data (2 * rx + 1) (2 * ry + 1) = some k)
    (hk' : Kernel.new data' (2 * rx' + 1) (2 * ry' + 1) = some k')
    (tk : Turned s fx fy (kernelImage data (2 * rx + 1) (2 * ry + 1))
      (kernelImage data' (2 * rx' + 1) (2 * ry' + 1)))
    (hw : im.w < 2147483648) (hh : im.h < 2147483648) :
    ∃ r r', filter into zt im k f = some r ∧ filter into zt im' k' f = some r' ∧
      Turned s fx fy r r' := by
  have hw' : im'.w < 2147483648 ∧ im'.h < 2147483648 := by
    have hs := t.size
    cases s
    · obtain ⟨h1, h2⟩ := Prod.mk.inj hs; omega
    · obtain ⟨h1, h2⟩ := Prod.mk.inj hs; omega
  obtain ⟨r, er, r1, r2, r3⟩ := C37_filter_sum into zt im hk f hw hh
  obtain ⟨r', er', s1, s2, s3⟩ := C37_filter_sum into zt im' hk' f hw'.1 hw'.2
  refine ⟨r, r', er, er', turned_result t r1 r2 s1 s2 fun x y hx hy => ?_⟩
  obtain ⟨m1, m2⟩ := t.maps hx hy
  funext c
  rw [r3 x y hx hy c, s3 _ _ m1 m2 c]
  have hsz : (2 * rx' + 1, 2 * ry' + 1) = swapIf s (2 * rx + 1) (2 * ry + 1) := tk.size
  have hr : (rx', ry') = swapIf s rx ry := by
    cases s
    · obtain ⟨h1, h2⟩ := Prod.mk.inj hsz
      exact Prod.ext_iff.mpr ⟨by show rx' = rx; omega, by show ry' = ry; omega⟩
    · obtain ⟨h1, h2⟩ := Prod.mk.inj hsz
      exact Prod.ext_iff.mpr ⟨by show rx' = ry; omega, by show ry' = rx; omega⟩
  congr 1
  refine sum_turn s fx fy hsz _ _ fun i j hi hj => ?_
  have e1 := tk.px i j hi hj
  have e2 := t.window hr hx hy hi hj
  have half : ∀ n : Nat, ((2 * n + 1 : Nat) : Int) / 2 = n := fun n => by omega
  rw [half, half, half, half]
  rw [e2]
  congr 1

/-- **C178.** Filtering is linear in the image: for a weighted sum of two images of the same size it
gives the weighted sum of the two results (exact arithmetic, any kernel). -/
theorem C178_linear [CommSemiring K] (a b : K) (u v w : Image (ι → K)) (huv : v.w = u.w ∧ v.h = u.h)
    (huw : w.w = u.w ∧ w.h = u.h)
    (hsum : ∀ x y, x < u.w → y < u.h → ∀ c, w.px x y c = a * u.px x y c + b * v.px x y c)
    {data : List K} {kw kh : Nat} {k : Kernel K} (hk : Kernel.new data kw kh = some k)
    (hw : u.w < 2147483648) (hh : u.h < 2147483648) :
    ∃ ru rv rw', filter id 0 u k id = some ru ∧ filter id 0 v k id = some rv ∧
      filter id 0 w k id = some rw' ∧
      ∀ x y, x < u.w → y < u.h → ∀ c, rw'.px x y c = a * ru.px x y c + b * rv.px x y c := by
  obtain ⟨ru, eu, u1, u2, u3⟩ := C37_filter_sum id (0 : K) u hk id hw hh
  obtain ⟨rv, ev, v1, v2, v3⟩ := C37_filter_sum id (0 : K) v hk id (by omega) (by omega)
  obtain ⟨rw', ew, w1, w2, w3⟩ := C37_filter_sum id (0 : K) w hk id (by omega) (by omega)
  refine ⟨ru, rv, rw', eu, ev, ew, fun x y hx hy c => ?_⟩
  rw [u3 x y hx hy c, v3 x y (by omega) (by omega) c, w3 x y (by omega) (by omega) c]
  simp only [id]
  rw [mul_sum, mul_sum, ← sum_add_distrib]
  refine sum_congr rfl fun j _ => ?_
  rw [mul_sum, mul_sum, ← sum_add_distrib]
  refine sum_congr rfl fun i _ => ?_
  rw [huv.1, huv.2, huw.1, huw.2, hsum _ _ (clampTo_lt (by omega) _) (clampTo_lt (by omega) _)]
  ring

theorem list_sum_getD [AddCommMonoid K] (l : List K) :
    l.sum = ∑ i ∈ range l.length, l.getD i 0 := by
  induction l with
  | nil => rfl
  | cons a l ih =>
    rw [List.sum_cons, List.length_cons, sum_range_succ', ih, add_comm]
    rfl

theorem sum_rows [AddCommMonoid K] (kh kw : Nat) (f : Nat → K) :
    ∑ i ∈ range (kh * kw), f i = ∑ j ∈ range kh, ∑ i ∈ range kw, f (j * kw + i) := by
  induction kh with
  | zero => simp
  | succ n ih => rw [sum_range_succ, ← ih, Nat.succ_mul, sum_range_add]

/-- **C178.** Adding a constant to every subpixel adds the constant times the total weight of the
kernel: nothing for gradient kernels, the constant itself for averaging kernels. -/
theorem C178_offset [CommSemiring K] (d : K) (u w : Image (ι → K))
    (huw : w.w = u.w ∧ w.h = u.h)
    (hsum : ∀ x y, x < u.w → y < u.h → ∀ c, w.px x y c = u.px x y c + d)
    {data : List K} {kw kh : Nat} {k : Kernel K} (hk : Kernel.new data kw kh = some k)
    (hw : u.w < 2147483648) (hh : u.h < 2147483648) :
    ∃ ru rw', filter id 0 u k id = some ru ∧ filter id 0 w k id = some rw' ∧
      ∀ x y, x < u.w → y < u.h → ∀ c, rw'.px x y c = ru.px x y c + data.sum * d := by
  obtain ⟨ru, eu, u1, u2, u3⟩ := C37_filter_sum id (0 : K) u hk id hw hh
  obtain ⟨rw', ew, w1, w2, w3⟩ := C37_filter_sum id (0 : K) w hk id (by omega) (by omega)
  refine ⟨ru, rw', eu, ew, fun x y hx hy c => ?_⟩
  rw [u3 x y hx hy c, w3 x y (by omega) (by omega) c]
  simp only [id]
  have hlen : kw * kh = data.length := by
    unfold Kernel.new at hk
    split at hk
    · split at hk
      · assumption
      · cases hk
    · cases hk
  have tot : data.sum = ∑ j ∈ range kh, ∑ i ∈ range kw, data.getD (j * kw + i) 0 := by
    rw [list_sum_getD, ← hlen, Nat.mul_comm kw kh, sum_rows]
  rw [tot, sum_mul, ← sum_add_distrib]
  refine sum_congr rfl fun j _ => ?_
  rw [sum_mul, ← sum_add_distrib]
  refine sum_congr rfl fun i _ => ?_
  rw [huw.1, huw.2, hsum _ _ (clampTo_lt (by omega) _) (clampTo_lt (by omega) _)]
  ring

/-! ### Median and box filter -/

theorem range_mirrorIf (b : Bool) (n : Nat) :
    ((List.range n).map (mirrorIf b n)).Perm (List.range n) := by
  cases b
  · rw [show mirrorIf false n = id from rfl, List.map_id]
  · have : (List.range n).map (mirrorIf true n) = (List.range n).reverse := by
      apply List.ext_getElem
      · simp
      · intro i h1 h2
        simp [mirrorIf]
    rw [this]
    exact List.reverse_perm _

/-- A turned table has the same entries. -/
theorem perm_turn {M : Type _} (s fx fy : Bool) {w h w' h' : Nat}
    (e : (w', h') = swapIf s w h) (g g' : Nat → Nat → M)
    (hg : ∀ i j, i < w → j < h → g' (turn s fx fy w h i j).1 (turn s fx fy w h i j).2 = g i j) :
    ((List.range h').flatMap fun j => (List.range w').map fun i => g' i j).Perm
      ((List.range h).flatMap fun j => (List.range w).map fun i => g i j) := by
  have key : ((List.range h).flatMap fun j => (List.range w).map fun i => g i j).Perm
      ((List.range h).flatMap fun j => (List.range w).map fun i =>
        g' (swapIf s i j).1 (swapIf s i j).2) := by
    refine List.Perm.trans ?_ ((range_mirrorIf fy h).flatMap_right _)
    rw [List.flatMap_map]
    refine List.Perm.flatMap_left _ fun j hj => ?_
    refine List.Perm.trans ?_ ((range_mirrorIf fx w).map _)
    rw [List.map_map]
    refine List.Perm.of_eq (List.map_congr_left fun i hi => ?_)
    exact (hg i j (List.mem_range.mp hi) (List.mem_range.mp hj)).symm
  refine List.Perm.trans ?_ key.symm
  cases s
  · obtain ⟨rfl, rfl⟩ := Prod.mk.inj e; exact List.Perm.refl _
  · obtain ⟨rfl, rfl⟩ := Prod.mk.inj e
    rw [← Multiset.coe_eq_coe, ← Multiset.coe_bind, ← Multiset.coe_bind]
    simp only [← Multiset.map_coe]
    exact Multiset.bind_map_comm _ _

/-- **C178.** The median filter follows every flip and turn, with the radii exchanged for quarter
turns. -/
theorem C178_median_turned {n : Nat} {s fx fy : Bool} {im im' : Image (Fin n → Nat)}
    (t : Turned s fx fy im im') (hu : Median.U8 im) {rx ry rx' ry' : Nat}
    (hr : (rx', ry') = swapIf s rx ry) (hw : im.w + rx ≤ 2147483647) (hh : im.h + ry ≤ 2147483647)
    (hE : (2 * rx + 1) * (2 * ry + 1) < 2147483648) :
    ∃ r r', Median.medianFilter im rx ry = some r ∧ Median.medianFilter im' rx' ry' = some r' ∧
      Turned s fx fy r r' := by
  have hu' : Median.U8 im' := by
    intro a b c ha hb
    obtain ⟨x, y, hx, hy, e⟩ := t.onto ha hb
    have := t.px x y hx hy
    rw [e] at this
    rw [this]
    exact hu x y c hx hy
  have hb : im'.w + rx' ≤ 2147483647 ∧ im'.h + ry' ≤ 2147483647 ∧
      (2 * rx' + 1) * (2 * ry' + 1) < 2147483648 := by
    have hs := t.size
    cases s
    · obtain ⟨h1, h2⟩ := Prod.mk.inj hs
      obtain ⟨rfl, rfl⟩ := Prod.mk.inj hr
      exact ⟨by omega, by omega, hE⟩
    · obtain ⟨h1, h2⟩ := Prod.mk.inj hs
      obtain ⟨rfl, rfl⟩ := Prod.mk.inj hr
      exact ⟨by omega, by omega, by rw [Nat.mul_comm]; exact hE⟩
  obtain ⟨r, er, r1, r2, r3⟩ := Median.C39_median_filter im hu rx ry hw hh hE
  obtain ⟨r', er', s1, s2, s3⟩ := Median.C39_median_filter im' hu' rx' ry' hb.1 hb.2.1 hb.2.2
  refine ⟨r, r', er, er', turned_result t r1 r2 s1 s2 fun x y hx hy => ?_⟩
  obtain ⟨m1, m2⟩ := t.maps hx hy
  funext c
  have p : (Median.windowValues im' rx' ry' (turn s fx fy im.w im.h x y).1
      (turn s fx fy im.w im.h x y).2 c).Perm (Median.windowValues im rx ry x y c) := by
    refine perm_turn s fx fy (w := 2 * rx + 1) (h := 2 * ry + 1) ?_ _ _ fun i j hi hj => ?_
    · cases s
      · obtain ⟨rfl, rfl⟩ := Prod.mk.inj hr; rfl
      · obtain ⟨rfl, rfl⟩ := Prod.mk.inj hr; rfl
    · exact congrFun (t.window hr hx hy hi hj) c
  refine Morphology.IsMedian.unique (s3 _ _ m1 m2 c) ?_
  obtain ⟨l, l1, l2, l3⟩ := r3 x y hx hy c
  exact ⟨l, l1.trans p.symm, l2, by rw [p.length_eq]; exact l3⟩

/-- **C178.** The box filter follows flips. -/
theorem C178_box_flipped {fx fy : Bool} {im im' : Image Nat} (t : Turned false fx fy im im')
    (hu : ∀ x y, x < im.w → y < im.h → im.px x y < 256)
    (hu' : ∀ x y, x < im'.w → y < im'.h → im'.px x y < 256) (rx ry : Nat) :
    ∃ r r', Box.boxFilter im rx ry = some r ∧ Box.boxFilter im' rx ry = some r' ∧
      Turned false fx fy r r' := by
  obtain ⟨r, er, r1, r2, r3⟩ := Box.C40_box_filter im rx ry hu
  obtain ⟨r', er', s1, s2, s3⟩ := Box.C40_box_filter im' rx ry hu'
  refine ⟨r, r', er, er', turned_result t r1 r2 s1 s2 fun x y hx hy => ?_⟩
  obtain ⟨m1, m2⟩ := t.maps hx hy
  rw [r3 x y hx hy, s3 _ _ m1 m2]
  unfold Box.boxSpec Box.meanOf
  congr 1
  rw [← sum_mirrorIf fy]
  refine sum_congr rfl fun j hj => ?_
  dsimp only
  congr 1
  rw [← sum_mirrorIf fx]
  refine sum_congr rfl fun i hi => ?_
  exact t.window (rx := rx) (ry := ry) rfl hx hy (mem_range.mp hi) (mem_range.mp hj)

/-- **C178.** The box filter does not follow quarter turns: rounding down after the horizontal pass
makes rows and columns different.  At the centre of this 3 by 3 image it gives 0, at the centre of the
turned image 1. -/
theorem C178_box_negation : ∃ im im' : Image Nat, rotate90 0 im = some im' ∧
    (∀ x y, x < im.w → y < im.h → im.px x y < 256) ∧
    (Box.boxFilter im 1 1).map (·.px 1 1) = some 0 ∧
    (Box.boxFilter im' 1 1).map (·.px 1 1) = some 1 := by
  have hb : ∀ x y, (if x = 2 then if y = 2 then 5 else 2 else 0 : Nat) < 256 := by
    intro x y
    split
    · split <;> decide
    · decide
  have key : ((rotate90 0 (⟨3, 3, fun x y => if x = 2 then if y = 2 then 5 else 2 else 0⟩ : Image Nat)).bind
      fun o => (Box.boxFilter o 1 1).map (·.px 1 1)) = some 1 := by decide +kernel
  obtain ⟨o, eo, ho⟩ := Option.bind_eq_some_iff.mp key
  exact ⟨_, o, eo, fun x y _ _ => hb x y, by decide +kernel, ho⟩

/-- Flipping a 3 by 1 image and mirroring the kernel: the hypotheses of the theorem hold for a kernel
that is not symmetric. -/
example : Turned false true false (kernelImage [1, 2, 7] (2 * 1 + 1) (2 * 0 + 1))
    (kernelImage ([7, 2, 1] : List Int) (2 * 1 + 1) (2 * 0 + 1)) :=
  ⟨rfl, by
    intro x y hx hy
    have hx' : x < 3 := hx
    have hy' : y < 1 := hy
    interval_cases x <;> interval_cases y <;> rfl⟩

example : (flipHorizontal (⟨3, 1, fun x _ _ => [10, 20, 40].getD x 0⟩ : Image (Unit → Int))).bind (fun im' =>
      (filter id 0 im' (⟨[7, 2, 1], 3, 1⟩ : Kernel Int) id).map fun r => [r.px 0 0 (), r.px 1 0 (), r.px 2 0 ()]) =
    some [380, 330, 170] ∧
    (filter id 0 (⟨3, 1, fun x _ _ => [10, 20, 40].getD x 0⟩ : Image (Unit → Int))
      (⟨[1, 2, 7], 3, 1⟩ : Kernel Int) id).map (fun r => [r.px 0 0 (), r.px 1 0 (), r.px 2 0 ()]) =
    some [170, 330, 380] := by decide +kernel

/-- Median filter with different radii and a quarter turn. -/
example : (Median.medianFilter (⟨3, 2, fun x y _ => [[1, 9, 4], [7, 3, 8]].getD y [] |>.getD x 0⟩ :
      Image (Fin 1 → Nat)) 1 0).map (fun r => r.px 1 0 0) = some 4 ∧
    ((rotate90 (fun _ => 0) (⟨3, 2, fun x y _ => [[1, 9, 4], [7, 3, 8]].getD y [] |>.getD x 0⟩ :
      Image (Fin 1 → Nat))).bind fun o => (Median.medianFilter o 0 1).map (fun r => r.px 1 1 0)) = some 4 := by
  decide +kernel

end Verif.Relations
