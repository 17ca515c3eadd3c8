import Verif.Seam.Remove
import Verif.Stats.Machine
/-
`find_vertical_seam` and `shrink_width` (src/seam_carving.rs) with `u32` path energies, in debug builds (overflow panics)
and release builds (overflow wraps).  Property theorem C197.
-/
namespace Verif.Seam
open Verif.Gradients Verif.Stats Finset

/-! ### The models -/

/-- `set_path_energy`, seam_carving.rs:119-134, with a checked sum. -/
def setPathEnergyM (dbg : Bool) (x y : Nat) (e : Image Nat) : Option (Image Nat) :=
  (csub y 1).bind fun ym =>
  (e.get x ym).bind fun above =>
  (if 0 < x then (e.get (x - 1) ym).map fun l => min above l else some above).bind fun m =>
  (csub e.w 1).bind fun w1 =>
  (if x < w1 then (e.get (x + 1) ym).map fun r => min m r else some m).bind fun m =>
  (e.get x y).bind fun cur =>
  (u32 dbg (m + cur)).bind fun v => e.put x y v

/-- The two loops of seam_carving.rs:70-74. -/
def pathEnergiesM (dbg : Bool) (g : Image Nat) : Option (Image Nat) := forYX 1 g.h 0 g.w g (setPathEnergyM dbg)

/-- The search in the table of path energies, seam_carving.rs:76-115 (as in `seamOfEnergies`). -/
def seamFrom (e : Image Nat) : Option (List Nat) :=
  (bottomMin e).bind fun b =>
  (forRange 1 e.h (b.1, b.2, [b.1]) fun i s => retraceStep e (e.h - i) s).map fun s => s.2.2

/-- `find_vertical_seam` from the gradient image on, seam_carving.rs:69-115. -/
def seamOfEnergiesM (dbg : Bool) (g : Image Nat) : Option (List Nat) := (pathEnergiesM dbg g).bind seamFrom

/-- `find_vertical_seam`, seam_carving.rs:47-116.  The `u16` sum of at most four gradients of at most 1442 cannot
overflow. -/
def findVerticalSeamM (dbg : Bool) {n : Nat} (im : Image (Fin n → Nat)) : Option (List Nat) :=
  if 2 ≤ im.w then
    (gradients 0 im sobelH sobelV meanGradient).bind (seamOfEnergiesM dbg)
  else none

/-- `shrink_width`, seam_carving.rs:23-43. -/
def shrinkWidthM (dbg : Bool) {n : Nat} (im : Image (Fin n → Nat)) (target : Nat) :
    Option (Image (Fin n → Nat)) :=
  if target ≤ im.w then
    forRange 0 (im.w - target) im fun _ im =>
      (findVerticalSeamM dbg im).bind fun seam => removeVerticalSeam (fun _ => 0) im seam
  else none

/-! ### Specification -/

/-- The table of a release build: least path energies, every sum reduced modulo `2 ^ 32`. -/
def energyW (g : Image Nat) : Nat → Nat → Nat
  | 0, x => g.px x 0
  | y + 1, x => (minAbove g.w (energyW g y) x + g.px x (y + 1)) % 2 ^ 32

/-! ### Tables -/

theorem setPathEnergyM_eq (dbg : Bool) {e : Image Nat} {x y : Nat} (hx : x < e.w) (hy : y < e.h) (h0 : 0 < y) :
    setPathEnergyM dbg x y e =
      (u32 dbg (minAbove e.w (fun a => e.px a (y - 1)) x + e.px x y)).bind fun v => e.put x y v := by
  unfold setPathEnergyM
  rw [csub_of_le (by omega), Option.bind_some, Image.get_of_inB hx (by omega), Option.bind_some]
  have e1 : (if 0 < x then (e.get (x - 1) (y - 1)).map fun l => min (e.px x (y - 1)) l
      else some (e.px x (y - 1))) =
      some (if 0 < x then min (e.px x (y - 1)) (e.px (x - 1) (y - 1)) else e.px x (y - 1)) := by
    split
    · rw [Image.get_of_inB (by omega) (by omega)]; rfl
    · rfl
  rw [e1, Option.bind_some, csub_of_le (by omega), Option.bind_some]
  generalize hm : (if 0 < x then min (e.px x (y - 1)) (e.px (x - 1) (y - 1)) else e.px x (y - 1)) = m
  have e2 : (if x < e.w - 1 then (e.get (x + 1) (y - 1)).map fun r => min m r else some m) =
      some (if x < e.w - 1 then min m (e.px (x + 1) (y - 1)) else m) := by
    split
    · rw [Image.get_of_inB (by omega) (by omega)]; rfl
    · rfl
  rw [e2, Option.bind_some, Image.get_of_inB hx hy, Option.bind_some]
  unfold minAbove
  dsimp only
  rw [hm]

theorem minAbove_congr {w : Nat} {e e' : Nat → Nat} {x : Nat} (hx : x < w) (h : ∀ a, a < w → e a = e' a) :
    minAbove w e x = minAbove w e' x := by
  unfold minAbove
  dsimp only
  rw [h x hx]
  have e1 : (if 0 < x then min (e' x) (e (x - 1)) else e' x) = if 0 < x then min (e' x) (e' (x - 1)) else e' x := by
    split
    · rw [h (x - 1) (by omega)]
    · rfl
  rw [e1]
  split
  · rw [h (x + 1) (by omega)]
  · rfl

/-- The image with the first rows, and the first `x` columns of row `y`, replaced by a table. -/
def mixed (g : Image Nat) (E : Nat → Nat → Nat) (x y : Nat) : Image Nat :=
  ⟨g.w, g.h, fun a b => if a < g.w ∧ (b < y ∨ b = y ∧ a < x) then E b a else g.px a b⟩

theorem mixed_step (dbg : Bool) (g : Image Nat) (E : Nat → Nat → Nat) {x y : Nat} (hx : x < g.w) (hy0 : 1 ≤ y)
    (hy : y < g.h) :
    setPathEnergyM dbg x y (mixed g E x y) =
      (u32 dbg (minAbove g.w (E (y - 1)) x + g.px x y)).map fun v =>
        ⟨g.w, g.h, fun a b => if a = x ∧ b = y then v else (mixed g E x y).px a b⟩ := by
  rw [setPathEnergyM_eq dbg (show x < (mixed g E x y).w from hx) (show y < (mixed g E x y).h from hy) (by omega)]
  have e1 : minAbove (mixed g E x y).w (fun a => (mixed g E x y).px a (y - 1)) x = minAbove g.w (E (y - 1)) x :=
    minAbove_congr hx fun a ha => if_pos ⟨ha, Or.inl (by omega)⟩
  have e2 : (mixed g E x y).px x y = g.px x y := if_neg (by omega)
  rw [e1, e2]
  rcases u32 dbg (minAbove g.w (E (y - 1)) x + g.px x y) with _ | v
  · rfl
  · rw [Option.bind_some, Image.put_of_inB _ (show x < (mixed g E x y).w from hx) (show y < (mixed g E x y).h from hy)]
    rfl

theorem mixed_succ (g : Image Nat) (E : Nat → Nat → Nat) {x y : Nat} (hx : x < g.w) :
    (⟨g.w, g.h, fun a b => if a = x ∧ b = y then E y x else (mixed g E x y).px a b⟩ : Image Nat) =
      mixed g E (x + 1) y := by
  unfold mixed
  congr 1
  funext a b
  dsimp only
  by_cases h : a = x ∧ b = y
  · obtain ⟨rfl, rfl⟩ := h
    rw [if_pos ⟨rfl, rfl⟩, if_pos ⟨hx, Or.inr ⟨rfl, by omega⟩⟩]
  · rw [if_neg h]
    by_cases h' : a < g.w ∧ (b < y ∨ b = y ∧ a < x)
    · rw [if_pos h', if_pos (by omega)]
    · rw [if_neg h', if_neg (by omega)]

theorem mixed_row (g : Image Nat) (E : Nat → Nat → Nat) (y : Nat) : mixed g E g.w y = mixed g E 0 (y + 1) := by
  unfold mixed
  congr 1
  funext a b
  by_cases h : a < g.w ∧ (b < y ∨ b = y ∧ a < g.w)
  · rw [if_pos h, if_pos (by omega)]
  · rw [if_neg h, if_neg (by omega)]

theorem mixed_init (g : Image Nat) (E : Nat → Nat → Nat) (h : ∀ x, E 0 x = g.px x 0) : mixed g E 0 1 = g := by
  unfold mixed
  obtain ⟨w, h', px⟩ := g
  congr 1
  funext a b
  split
  · obtain rfl : b = 0 := by omega
    exact h a
  · rfl

/-- The table is `E` whenever `E` follows the recursion of the checked sum. -/
theorem pathEnergiesM_of (dbg : Bool) (g : Image Nat) (hh : 0 < g.h) (E : Nat → Nat → Nat) (h0 : ∀ x, E 0 x = g.px x 0)
    (hs : ∀ x y, x < g.w → 1 ≤ y → y < g.h → u32 dbg (minAbove g.w (E (y - 1)) x + g.px x y) = some (E y x)) :
    pathEnergiesM dbg g = some (mixed g E 0 g.h) := by
  obtain ⟨e, e1, e2⟩ := forYX_spec (f := setPathEnergyM dbg) (y0 := 1) (y1 := g.h) (x0 := 0) (x1 := g.w) (s := g)
    (fun x y e => e = mixed g E x y) (by omega) (Nat.zero_le _) (mixed_init g E h0).symm
    (by
      rintro x y e _ hx hy1 hy rfl
      rw [mixed_step dbg g E hx hy1 hy, hs x y hx hy1 hy]
      exact ⟨_, rfl, mixed_succ g E hx⟩)
    (by rintro y e _ _ rfl; exact mixed_row g E y)
  unfold pathEnergiesM
  rw [e1, e2]

theorem u32_release (z : Nat) : u32 false z = some (z % 2 ^ 32) := by
  unfold u32
  split
  · rename_i h; rw [Nat.mod_eq_of_lt h]
  · rfl

theorem u32_fits (dbg : Bool) {z : Nat} (h : z < 2 ^ 32) : u32 dbg z = some z := if_pos h

theorem table_fits (dbg : Bool) (g : Image Nat) (hh : 0 < g.h)
    (hf : ∀ x y, x < g.w → y < g.h → energy g y x < 2 ^ 32) :
    pathEnergiesM dbg g = some (mixed g (energy g) 0 g.h) :=
  pathEnergiesM_of dbg g hh (energy g) (fun _ => rfl) fun x y hx hy1 hy => by
    obtain ⟨y', rfl⟩ : ∃ y', y = y' + 1 := ⟨y - 1, by omega⟩
    exact u32_fits dbg (hf x _ hx hy)

theorem table_release (g : Image Nat) (hh : 0 < g.h) : pathEnergiesM false g = some (mixed g (energyW g) 0 g.h) :=
  pathEnergiesM_of false g hh (energyW g) (fun _ => rfl) fun x y hx hy1 hy => by
    obtain ⟨y', rfl⟩ : ∃ y', y = y' + 1 := ⟨y - 1, by omega⟩
    exact u32_release _

theorem setPathEnergy_get {e : Image Nat} {x y : Nat} (hx : x < e.w) (hy : y < e.h) (h0 : 0 < y) :
    setPathEnergy x y e = (some (minAbove e.w (fun a => e.px a (y - 1)) x + e.px x y)).bind fun v => e.put x y v := by
  rw [setPathEnergy_eq hx hy h0, Option.bind_some]

/-- The exact table (C59). -/
theorem table_exact (g : Image Nat) (hh : 0 < g.h) : pathEnergies g = some (mixed g (energy g) 0 g.h) := by
  obtain ⟨e, e1, e2⟩ := forYX_spec (f := setPathEnergy) (y0 := 1) (y1 := g.h) (x0 := 0) (x1 := g.w) (s := g)
    (fun x y e => e = mixed g (energy g) x y) (by omega) (Nat.zero_le _) (mixed_init g _ fun _ => rfl).symm
    (by
      rintro x y e _ hx hy1 hy rfl
      rw [setPathEnergy_eq (show x < (mixed g (energy g) x y).w from hx)
        (show y < (mixed g (energy g) x y).h from hy) (by omega),
        Image.put_of_inB _ (show x < (mixed g (energy g) x y).w from hx) (show y < (mixed g (energy g) x y).h from hy)]
      refine ⟨_, rfl, ?_⟩
      have e1 : minAbove (mixed g (energy g) x y).w (fun a => (mixed g (energy g) x y).px a (y - 1)) x =
          minAbove g.w (energy g (y - 1)) x := minAbove_congr hx fun a ha => if_pos ⟨ha, Or.inl (by omega)⟩
      have e2 : (mixed g (energy g) x y).px x y = g.px x y := if_neg (by omega)
      have e3 : minAbove g.w (energy g (y - 1)) x + g.px x y = energy g y x := by
        obtain ⟨y', rfl⟩ : ∃ y', y = y' + 1 := ⟨y - 1, by omega⟩
        rfl
      rw [e1, e2, e3]
      exact mixed_succ g _ hx)
    (by rintro y e _ _ rfl; exact mixed_row g _ y)
  unfold pathEnergies
  rw [e1, e2]

theorem energy_least (g : Image Nat) {x y : Nat} (hx : x < g.w) : IsLeastEnergy g x y (energy g y x) :=
  ⟨energy_attained g y x hx, fun p hp hpx => hpx ▸ energy_le g y p hp⟩

/-- **C197.** While all path energies are below `2 ^ 32` both builds find the seam of the exact model (C59). -/
theorem C197_fits (dbg : Bool) (g : Image Nat) (hf : ∀ x y v, x < g.w → y < g.h → IsLeastEnergy g x y v → v < 2 ^ 32) :
    seamOfEnergiesM dbg g = seamOfEnergies g := by
  rcases Nat.eq_zero_or_pos g.h with hh | hh
  · unfold seamOfEnergiesM seamOfEnergies pathEnergiesM pathEnergies forYX
    rw [hh, forRange_empty (by omega), forRange_empty (by omega)]
    rfl
  · unfold seamOfEnergiesM seamOfEnergies
    rw [table_exact g hh, table_fits dbg g hh fun x y hx hy => hf x y _ hx hy (energy_least g hx)]
    rfl

/-- **C197.** A debug build panics exactly when the least energy of the paths to some pixel does not fit in a `u32`
(the top row holds gradients, which fit). -/
theorem C197_debug_iff (g : Image Nat) (hw : 0 < g.w) (hh : 0 < g.h) (h0 : ∀ x, x < g.w → g.px x 0 < 2 ^ 32) :
    seamOfEnergiesM true g = none ↔ ∃ x y v, x < g.w ∧ y < g.h ∧ IsLeastEnergy g x y v ∧ 2 ^ 32 ≤ v := by
  constructor
  · intro h
    by_contra hn
    push Not at hn
    rw [C197_fits true g fun x y v hx hy hv => hn x y v hx hy hv] at h
    obtain ⟨seam, e, -⟩ := seamOfEnergies_spec g hw hh
    rw [e] at h
    cases h
  · rintro ⟨x, y, v, hx, hy, ⟨⟨p, p1, p2, p3⟩, hv2⟩, hv⟩
    have hE : 2 ^ 32 ≤ energy g y x := by
      obtain ⟨q, q1, q2, q3⟩ := energy_attained g y x hx
      have := hv2 q q1 q2
      omega
    unfold seamOfEnergiesM
    rcases hp : pathEnergiesM true g with _ | e
    · rfl
    exfalso
    have key := forYX_inv (f := setPathEnergyM true) (y0 := 1) (y1 := g.h) (x0 := 0) (x1 := g.w) (s := g) (r := e)
      (fun x y e => e = mixed g (energy g) x y ∧ ∀ a b, a < g.w → b < y ∨ b = y ∧ a < x → energy g b a < 2 ^ 32)
      (by omega) (Nat.zero_le _) ⟨(mixed_init g _ fun _ => rfl).symm, fun a b ha hb => by
        obtain rfl : b = 0 := by omega
        exact h0 a ha⟩
      (by
        rintro x y e e' _ hx hy1 hy ⟨rfl, hlt⟩ hs
        rw [mixed_step true g _ hx hy1 hy] at hs
        have e3 : minAbove g.w (energy g (y - 1)) x + g.px x y = energy g y x := by
          obtain ⟨y', rfl⟩ : ∃ y', y = y' + 1 := ⟨y - 1, by omega⟩
          rfl
        rw [e3] at hs
        by_cases hc : energy g y x < 2 ^ 32
        · rw [u32_fits true hc] at hs
          cases hs
          refine ⟨mixed_succ g _ hx, fun a b ha hb => ?_⟩
          by_cases hab : b = y ∧ a = x
          · obtain ⟨rfl, rfl⟩ := hab; exact hc
          · exact hlt a b ha (by omega)
        · rw [u32, if_neg hc] at hs
          cases hs)
      (by
        rintro y e _ _ ⟨rfl, hlt⟩
        exact ⟨mixed_row g _ y, fun a b ha hb => hlt a b ha (by omega)⟩) hp
    have := key.2 x y hx (Or.inl hy)
    omega

/-! ### Images -/

/-- Averaged Sobel gradients of 8-bit images are at most 1442. -/
theorem gradient_le {n : Nat} (im : Image (Fin n → Nat)) (hu : IsU8 im) :
    ∃ g, gradients 0 im sobelH sobelV meanGradient = some g ∧ g.w = im.w ∧ g.h = im.h ∧
      ∀ x y, x < g.w → y < g.h → g.px x y ≤ 1442 := by
  obtain ⟨v1, v2, -⟩ := C76_values im hu
  obtain ⟨g, g1, g2, g3, g4⟩ := C76_gradients 0 im sobelH sobelV meanGradient _ _ v1 v2
  refine ⟨g, g1, g2, g3, fun x y hx hy => ?_⟩
  obtain ⟨m, hm, hc⟩ := g4 x y (by omega) (by omega)
  rw [hm, meanGradient, ← Fin.sum_univ_def]
  have hb : ∀ c, m c ≤ 1442 := by
    intro c
    have key : ∀ dx dy dx' dy' : Int, -255 ≤ at' im c x y dx dy - at' im c x y dx' dy' ∧
        at' im c x y dx dy - at' im c x y dx' dy' ≤ 255 := fun dx dy dx' dy' => by
      have := at_range hu c (x := x) (y := y) (by omega) (by omega) dx dy
      have := at_range hu c (x := x) (y := y) (by omega) (by omega) dx' dy'
      omega
    have hH : hDiff 1 2 im c x y ^ 2 ≤ 1020 ^ 2 := by
      have a1 := key 1 (-1) (-1) (-1)
      have a2 := key 1 0 (-1) 0
      have a3 := key 1 1 (-1) 1
      have : -1020 ≤ hDiff 1 2 im c x y ∧ hDiff 1 2 im c x y ≤ 1020 := by unfold hDiff; omega
      nlinarith
    have hV : vDiff 1 2 im c x y ^ 2 ≤ 1020 ^ 2 := by
      have a1 := key (-1) 1 (-1) (-1)
      have a2 := key 0 1 0 (-1)
      have a3 := key 1 1 1 (-1)
      have : -1020 ≤ vDiff 1 2 im c x y ∧ vDiff 1 2 im c x y ≤ 1020 := by unfold vDiff; omega
      nlinarith
    by_contra hgt
    have h1 := (hc c).1
    have h2 : (1443 : Int) ≤ m c := by exact_mod_cast Nat.lt_of_not_le hgt
    nlinarith
  rcases Nat.eq_zero_or_pos n with rfl | hn
  · simp
  · rw [Nat.div_le_iff_le_mul_add_pred hn]
    have : ∑ c, m c ≤ ∑ _c : Fin n, 1442 := sum_le_sum fun c _ => hb c
    rw [sum_const, card_univ, Fintype.card_fin, smul_eq_mul, Nat.mul_comm] at this
    exact le_trans this (by rw [Nat.mul_comm]; exact Nat.le_add_right _ _)

theorem energy_bound (g : Image Nat) {B : Nat} (hb : ∀ x y, x < g.w → y < g.h → g.px x y ≤ B) :
    ∀ y x, x < g.w → y < g.h → energy g y x ≤ B * (y + 1)
  | 0, x, hx, hy => by rw [energy, Nat.zero_add, Nat.mul_one]; exact hb x 0 hx hy
  | y + 1, x, hx, hy => by
    obtain ⟨x', k1, k2, k3, k4⟩ := minAbove_eq (w := g.w) (energy g y) hx
    have ih := energy_bound g hb y x' k1 (by omega)
    have := hb x (y + 1) hx hy
    rw [energy, k4, Nat.mul_succ]
    omega

/-- **C197.** For images of up to 2 978 479 rows both builds find the seam of the exact model. -/
theorem C197_find_fits (dbg : Bool) {n : Nat} (im : Image (Fin n → Nat)) (hu : IsU8 im) (hh : 1442 * im.h < 2 ^ 32) :
    findVerticalSeamM dbg im = findVerticalSeam im := by
  unfold findVerticalSeamM findVerticalSeam
  obtain ⟨g, g1, g2, g3, g4⟩ := gradient_le im hu
  rw [g1, Option.bind_some, Option.bind_some]
  rw [C197_fits dbg g fun x y v hx hy hv => ?_]
  obtain ⟨q, q1, q2, q3⟩ := energy_attained g y x hx
  have h1 := hv.2 q q1 q2
  have h2 := energy_bound g g4 y x hx hy
  have h3 : 1442 * (y + 1) ≤ 1442 * im.h := Nat.mul_le_mul_left _ (by omega)
  omega

theorem seamFrom_spec (e : Image Nat) (hw : 0 < e.w) (hh : 0 < e.h) :
    ∃ seam, seamFrom e = some seam ∧ seam.length = e.h ∧ IsPath e.w e.h (pathOf e.h seam) ∧
      ∀ x, x < e.w → e.px (seam.getD 0 0) (e.h - 1) ≤ e.px x (e.h - 1) ∧
        (x < seam.getD 0 0 → e.px (seam.getD 0 0) (e.h - 1) < e.px x (e.h - 1)) := by
  obtain ⟨b, b1, b2, b3, b4⟩ := bottomMin_spec e hw hh
  unfold seamFrom
  rw [b1, Option.bind_some]
  obtain ⟨s, s1, s2, s3, s4, s5, s6, s7⟩ := forRange_spec (lo := 1) (hi := e.h)
    (s := (b.1, b.2, [b.1])) (f := fun i s => retraceStep e (e.h - i) s)
    (fun i (s : Nat × Nat × List Nat) => s.1 < e.w ∧ s.2.2.length = i ∧ s.2.2.getD 0 0 = b.1 ∧
      s.2.2.getD (i - 1) 0 = s.1 ∧ (∀ k, k < i → s.2.2.getD k 0 < e.w) ∧
      ∀ k, k + 1 < i → s.2.2.getD k 0 ≤ s.2.2.getD (k + 1) 0 + 1 ∧
        s.2.2.getD (k + 1) 0 ≤ s.2.2.getD k 0 + 1) (by omega)
    ⟨b2, rfl, rfl, rfl, fun k hk => by
      obtain rfl : k = 0 := by omega
      exact b2, fun k hk => by omega⟩
    (by
      rintro i s hi1 hi ⟨h1, h2, h3, h4, h5, h6⟩
      obtain ⟨s', k1, k2, k3, k4, k5⟩ := retraceStep_spec e (y := e.h - i) (by omega) (by omega) s h1
      have g1 : ∀ k, k < i → s'.2.2.getD k 0 = s.2.2.getD k 0 := fun k hk => by
        rw [k5, List.getD_eq_getElem?_getD, List.getD_eq_getElem?_getD,
          List.getElem?_append_left (by omega)]
      have g2 : s'.2.2.getD i 0 = s'.1 := by
        rw [k5, List.getD_eq_getElem?_getD, List.getElem?_append_right (by omega), h2, Nat.sub_self]; rfl
      refine ⟨s', k1, k2, by rw [k5]; simp [h2], by rw [g1 0 (by omega)]; exact h3,
        by rw [Nat.add_sub_cancel]; exact g2, fun k hk => ?_, fun k hk => ?_⟩
      · by_cases hki : k = i
        · rw [hki, g2]; exact k2
        · rw [g1 k (by omega)]; exact h5 k (by omega)
      · by_cases hki : k + 1 = i
        · rw [hki, g2, g1 k (by omega), show k = i - 1 by omega, h4]; omega
        · rw [g1 k (by omega), g1 (k + 1) (by omega)]; exact h6 k (by omega))
  rw [s1, Option.map_some]
  refine ⟨_, rfl, s3, ⟨fun y hy => ?_, fun y hy => ?_⟩, by rw [s4]; exact b4⟩
  · unfold pathOf; exact s6 (e.h - 1 - y) (by omega)
  · unfold pathOf
    have := s7 (e.h - 1 - (y + 1)) (by omega)
    rw [show e.h - 1 - (y + 1) + 1 = e.h - 1 - y by omega] at this
    omega

/-- **C197.** A release build finds a connected seam with one pixel per row in every image, whatever wraps; it ends at the
first least entry of the wrapped bottom row. -/
theorem C197_release (g : Image Nat) (hw : 0 < g.w) (hh : 0 < g.h) :
    ∃ seam, seamOfEnergiesM false g = some seam ∧ seam.length = g.h ∧ IsPath g.w g.h (pathOf g.h seam) ∧
      ∀ x, x < g.w → energyW g (g.h - 1) (seam.getD 0 0) ≤ energyW g (g.h - 1) x ∧
        (x < seam.getD 0 0 → energyW g (g.h - 1) (seam.getD 0 0) < energyW g (g.h - 1) x) := by
  unfold seamOfEnergiesM
  rw [table_release g hh, Option.bind_some]
  obtain ⟨seam, h1, h2, h3, h4⟩ := seamFrom_spec (mixed g (energyW g) 0 g.h) hw hh
  refine ⟨seam, h1, h2, h3, fun x hx => ?_⟩
  have hs : seam.getD 0 0 < g.w := by
    have := h3.1 (g.h - 1) (by show g.h - 1 < g.h; omega)
    unfold pathOf at this
    rwa [show (mixed g (energyW g) 0 g.h).h - 1 - (g.h - 1) = 0 from Nat.sub_self _] at this
  have e : ∀ a, a < g.w → (mixed g (energyW g) 0 g.h).px a ((mixed g (energyW g) 0 g.h).h - 1) = energyW g (g.h - 1) a :=
    fun a ha => if_pos ⟨ha, Or.inl (by show g.h - 1 < g.h; omega)⟩
  have := h4 x hx
  rw [e _ hs, e _ hx] at this
  exact this

theorem removed_u8 {n : Nat} {im : Image (Fin n → Nat)} (hu : IsU8 im) (hw : 0 < im.w) {seam : List Nat}
    (hl : seam.length = im.h) (hp : IsPath im.w im.h (pathOf im.h seam)) :
    ∃ out, removeVerticalSeam (fun _ => 0) im seam = some out ∧ out.w = im.w - 1 ∧ out.h = im.h ∧ IsU8 out ∧
      ∀ y, y < im.h → row out y = (row im y).eraseIdx (pathOf im.h seam y) := by
  have hm := mem_of_path hl hp
  obtain ⟨o', r1, r2, r3, r4⟩ := remove_px (fun _ => 0) im seam hl hw hm
  obtain ⟨o'', q1, -, -, q4⟩ := C60_remove (fun _ => 0) im seam hl hw hm
  rw [r1, Option.some.injEq] at q1
  subst q1
  refine ⟨o', r1, r2, r3, ⟨?_, ?_, ?_⟩, q4⟩
  · have := hu.1; omega
  · have := hu.2.1; omega
  · intro x y c hx hy
    rw [r4 x y (by omega) (by omega)]
    refine hu.2.2 _ _ _ ?_ (by omega)
    split <;> omega

/-- **C197.** For images of up to 2 978 479 rows shrinking does not depend on the build and is that of C60. -/
theorem C197_shrink_fits (dbg : Bool) {n : Nat} (im : Image (Fin n → Nat)) (hu : IsU8 im) (h0 : 0 < im.h)
    (hh : 1442 * im.h < 2 ^ 32) (t : Nat) (ht1 : 1 ≤ t) (ht : t ≤ im.w) : shrinkWidthM dbg im t = shrinkWidth im t := by
  unfold shrinkWidthM shrinkWidth
  rw [if_pos ht, if_pos ht]
  have key : ∀ k, k ≤ im.w - t → ∃ out, out.w = im.w - k ∧ out.h = im.h ∧ IsU8 out ∧
      (forRange 0 k im fun _ im => (findVerticalSeamM dbg im).bind fun seam => removeVerticalSeam (fun _ => 0) im seam) =
        some out ∧
      (forRange 0 k im fun _ im => (findVerticalSeam im).bind fun seam => removeVerticalSeam (fun _ => 0) im seam) =
        some out := by
    intro k
    induction k with
    | zero => intro _; exact ⟨im, rfl, rfl, hu, forRange_empty (le_refl _), forRange_empty (le_refl _)⟩
    | succ k ih =>
      intro hk
      obtain ⟨o, o1, o2, o3, o4, o5⟩ := ih (by omega)
      obtain ⟨g, seam, -, -, -, s1, -, s2, s3⟩ := C59_find o o3 (by omega) (by omega)
      obtain ⟨o', r1, r2, r3, r4, -⟩ := removed_u8 o3 (by omega) s2 s3
      refine ⟨o', by omega, by omega, r4, ?_, ?_⟩
      · rw [forRange_succ_last (Nat.zero_le _), o4, Option.bind_some, C197_find_fits dbg o o3 (by rw [o2]; exact hh), s1,
          Option.bind_some, r1]
      · rw [forRange_succ_last (Nat.zero_le _), o5, Option.bind_some, s1, Option.bind_some, r1]
  obtain ⟨out, -, -, -, e1, e2⟩ := key _ (le_refl _)
  rw [e1, e2]

/-- **C197.** A release build shrinks images of every height to the target width by deleting one pixel per row and
seam. -/
theorem C197_shrink_release {n : Nat} (im : Image (Fin n → Nat)) (hu : IsU8 im) (hh : 0 < im.h) (t : Nat)
    (ht1 : 1 ≤ t) (ht : t ≤ im.w) :
    ∃ out, shrinkWidthM false im t = some out ∧ out.w = t ∧ out.h = im.h ∧
      ∀ y, y < im.h → (row out y).Sublist (row im y) := by
  unfold shrinkWidthM
  rw [if_pos ht]
  obtain ⟨out, h1, h2, h3, h4, h5⟩ := forRange_spec (lo := 0) (hi := im.w - t) (s := im)
    (f := fun _ im => (findVerticalSeamM false im).bind fun seam => removeVerticalSeam (fun _ => 0) im seam)
    (fun i o => o.w = im.w - i ∧ o.h = im.h ∧ IsU8 o ∧
      ∀ y, y < im.h → (row o y).Sublist (row im y)) (Nat.zero_le _)
    ⟨rfl, rfl, hu, fun _ _ => List.Sublist.refl _⟩
    (by
      rintro i o _ hi ⟨h1, h2, h3, h4⟩
      obtain ⟨g, g1, g2, g3, -⟩ := gradient_le o h3
      obtain ⟨seam, s1, s2, s3, -⟩ := C197_release g (by omega) (by omega)
      rw [g2, g3] at s3
      rw [g3] at s2
      obtain ⟨o', r1, r2, r3, r4, r5⟩ := removed_u8 h3 (by omega) s2 s3
      have hf : findVerticalSeamM false o = some seam := by
        unfold findVerticalSeamM
        rw [if_pos (by omega), g1, Option.bind_some, s1]
      refine ⟨o', by rw [hf, Option.bind_some, r1], by omega, by omega, r4, fun y hy => ?_⟩
      rw [r5 y (by omega)]
      exact (List.eraseIdx_sublist _ _).trans (h4 y hy))
  exact ⟨out, h1, by omega, h3, h5⟩

/-! ### A tall image -/

/-- Two columns, black and white, of 4 210 753 rows; the last row is black. -/
def tall : Image (Fin 1 → Nat) := ⟨2, 4210753, fun x y _ => if x = 1 ∧ y < 4210752 then 255 else 0⟩

theorem sq_unique {m k : Nat} {N : Int} (h1 : (m : Int) ^ 2 ≤ N) (h2 : N < ((m : Int) + 1) ^ 2) (h3 : (k : Int) ^ 2 ≤ N)
    (h4 : N < ((k : Int) + 1) ^ 2) : m = k := by
  rcases Nat.lt_trichotomy m k with h | h | h
  · have : (m : Int) + 1 ≤ k := by exact_mod_cast h
    nlinarith
  · exact h
  · have : (k : Int) + 1 ≤ m := by exact_mod_cast h
    nlinarith

theorem tall_at (x y : Nat) (dx dy : Int) : at' tall 0 x y dx dy =
    if 1 ≤ (x : Int) + dx ∧ (y : Int) + dy < 4210752 then 255 else 0 := by
  unfold at' tall clampTo
  dsimp only
  by_cases h : 1 ≤ (x : Int) + dx ∧ (y : Int) + dy < 4210752
  · rw [if_pos h, if_pos (by omega)]; rfl
  · rw [if_neg h, if_neg (by omega)]; rfl

theorem tall_gradient : ∃ g, gradients 0 tall sobelH sobelV meanGradient = some g ∧ g.w = 2 ∧ g.h = 4210753 ∧
    (∀ x y, x < 2 → y < 4210751 → g.px x y = 1020) ∧ g.px 0 4210751 = 806 ∧ g.px 1 4210751 = 1081 ∧
    g.px 0 4210752 = 360 ∧ g.px 1 4210752 = 806 := by
  have hu : IsU8 tall := ⟨by decide, by decide, fun x y c _ _ => by
    show (if _ then 255 else 0) ≤ 255
    split <;> omega⟩
  obtain ⟨v1, v2, -⟩ := C76_values tall hu
  obtain ⟨g, g1, g2, g3, g4⟩ := C76_gradients 0 tall sobelH sobelV meanGradient _ _ v1 v2
  have val : ∀ (x y k : Nat), x < 2 → y < 4210753 →
      (k : Int) ^ 2 ≤ hDiff 1 2 tall 0 x y ^ 2 + vDiff 1 2 tall 0 x y ^ 2 →
      hDiff 1 2 tall 0 x y ^ 2 + vDiff 1 2 tall 0 x y ^ 2 < ((k : Int) + 1) ^ 2 → g.px x y = k := by
    intro x y k hx hy h1 h2
    obtain ⟨m, hm, hc⟩ := g4 x y hx hy
    rw [hm, meanGradient, ← sq_unique (hc 0).1 (hc 0).2 h1 h2, ← Fin.sum_univ_def]
    simp
  refine ⟨g, g1, g2, g3, fun x y hx hy => ?_, ?_, ?_, ?_, ?_⟩
  · have hH : hDiff 1 2 tall 0 x y = 1020 := by
      unfold hDiff
      rw [tall_at, tall_at, tall_at, tall_at, tall_at, tall_at, if_pos (by omega), if_neg (by omega), if_pos (by omega),
        if_neg (by omega), if_pos (by omega), if_neg (by omega)]
      norm_num
    have hV : vDiff 1 2 tall 0 x y = 0 := by
      unfold vDiff
      rw [tall_at, tall_at, tall_at, tall_at, tall_at, tall_at]
      obtain rfl | rfl : x = 0 ∨ x = 1 := by omega
      · rw [if_neg (by omega), if_neg (by omega), if_neg (by omega), if_neg (by omega), if_pos (by omega),
          if_pos (by omega)]
        norm_num
      · rw [if_neg (by omega), if_neg (by omega), if_pos (by omega), if_pos (by omega), if_pos (by omega),
          if_pos (by omega)]
        norm_num
    exact val x y 1020 hx (by omega) (by rw [hH, hV]; norm_num) (by rw [hH, hV]; norm_num)
  all_goals
    refine val _ _ _ (by omega) (by omega) ?_ ?_ <;> unfold hDiff vDiff <;> simp only [tall_at] <;> norm_num

/-- **C197, negation.** In the image `tall` (8 million pixels) the search panics in debug builds, and in release builds
the seam ends in column 1, although no path of least energy does. -/
theorem C197_negation : findVerticalSeamM true tall = none ∧
    ∃ g seam, gradients 0 tall sobelH sobelV meanGradient = some g ∧ findVerticalSeamM false tall = some seam ∧
      pathOf tall.h seam (tall.h - 1) = 1 ∧
      ∀ p, IsPath g.w g.h p → p (g.h - 1) = 1 → ∃ q, IsPath g.w g.h q ∧ cost g g.h q < cost g g.h p := by
  obtain ⟨g, g1, g2, g3, r, a0, a1, b0, b1⟩ := tall_gradient
  have ma : ∀ (e : Nat → Nat) x, x < 2 → minAbove g.w e x = min (e 0) (e 1) := by
    intro e x hx
    rw [g2]
    obtain rfl | rfl : x = 0 ∨ x = 1 := by omega
    · rfl
    · exact Nat.min_comm _ _
  have top : ∀ y x, x < 2 → y < 4210751 → energy g y x = 1020 * (y + 1) := by
    intro y
    induction y with
    | zero => intro x hx hy; rw [energy, r x 0 hx hy]
    | succ y ih =>
      intro x hx hy
      rw [energy, ma _ x hx, ih 0 (by omega) (by omega), ih 1 (by omega) (by omega), r x _ hx hy]
      omega
  have e0 : energy g 4210751 0 = 4294966826 := by
    rw [show 4210751 = 4210750 + 1 from rfl, energy, ma _ 0 (by omega), top _ 0 (by omega) (by omega),
      top _ 1 (by omega) (by omega), a0]
    norm_num
  have e1 : energy g 4210751 1 = 4294967101 := by
    rw [show 4210751 = 4210750 + 1 from rfl, energy, ma _ 1 (by omega), top _ 0 (by omega) (by omega),
      top _ 1 (by omega) (by omega), a1]
    norm_num
  have f0 : energy g 4210752 0 = 4294967186 := by
    rw [show 4210752 = 4210751 + 1 from rfl, energy, ma _ 0 (by omega), e0, e1, b0]
    norm_num
  have f1 : energy g 4210752 1 = 4294967632 := by
    rw [show 4210752 = 4210751 + 1 from rfl, energy, ma _ 1 (by omega), e0, e1, b1]
    norm_num
  have eq : ∀ y x, x < 2 → y < 4210752 → energyW g y x = energy g y x := by
    intro y
    induction y with
    | zero => intro x _ _; rfl
    | succ y ih =>
      intro x hx hy
      have hlt : energy g (y + 1) x < 2 ^ 32 := by
        rcases Nat.lt_or_ge (y + 1) 4210751 with h | h
        · rw [top _ x hx h]; omega
        · obtain rfl : y = 4210750 := by omega
          obtain rfl | rfl : x = 0 ∨ x = 1 := by omega
          · rw [e0]; omega
          · rw [e1]; omega
      rw [energy, ma _ x hx] at hlt
      rw [energyW, energy, ma _ x hx, ma _ x hx, ih 0 (by omega) (by omega), ih 1 (by omega) (by omega),
        Nat.mod_eq_of_lt hlt]
  have w0 : energyW g 4210752 0 = 4294967186 := by
    rw [show 4210752 = 4210751 + 1 from rfl, energyW, ma _ 0 (by omega), eq _ 0 (by omega) (by omega),
      eq _ 1 (by omega) (by omega), e0, e1, b0]
    norm_num
  have w1 : energyW g 4210752 1 = 336 := by
    rw [show 4210752 = 4210751 + 1 from rfl, energyW, ma _ 1 (by omega), eq _ 0 (by omega) (by omega),
      eq _ 1 (by omega) (by omega), e0, e1, b1]
    norm_num
  refine ⟨?_, ?_⟩
  · unfold findVerticalSeamM
    rw [if_pos (show 2 ≤ tall.w from le_refl _), g1, Option.bind_some]
    rw [C197_debug_iff g (by omega) (by omega) (fun x hx => (r x 0 (g2 ▸ hx) (by norm_num)).trans_lt (by norm_num))]
    refine ⟨1, 4210752, energy g 4210752 1, by omega, by omega,
      energy_least g (by omega), by rw [f1]; norm_num⟩
  · obtain ⟨seam, h1, h2, h3, h4⟩ := C197_release g (by omega) (by omega)
    refine ⟨g, seam, g1, ?_, ?_, fun p hp hp1 => ?_⟩
    · unfold findVerticalSeamM
      rw [if_pos (show 2 ≤ tall.w from le_refl _), g1, Option.bind_some, h1]
    · have hs : seam.getD 0 0 < g.w := by
        have := h3.1 (g.h - 1) (by omega)
        unfold pathOf at this
        rwa [Nat.sub_self] at this
      have hle := (h4 1 (by omega)).1
      show seam.getD (4210753 - 1 - (4210753 - 1)) 0 = 1
      rw [Nat.sub_self]
      rw [g3] at hle
      by_contra hne
      have h0 : seam.getD 0 0 = 0 := by omega
      rw [h0, show 4210753 - 1 = 4210752 from rfl, w0, w1] at hle
      omega
    · obtain ⟨q, q1, q2, q3⟩ := energy_attained g 4210752 0 (by omega)
      have := energy_le g 4210752 p (by rw [g3] at hp; exact hp)
      rw [g3] at hp1 ⊢
      rw [show 4210753 - 1 = 4210752 from rfl] at hp1
      rw [hp1, f1] at this
      exact ⟨q, q1, by
        show cost g (4210752 + 1) q < cost g (4210752 + 1) p
        omega⟩

example : seamOfEnergiesM true ⟨3, 3, fun x y => [[5, 1, 9], [4, 8, 2], [9, 9, 1]].getD y [] |>.getD x 0⟩ =
    some [2, 2, 1] ∧
    seamOfEnergiesM true ⟨2, 2, fun x y => [[4294967295, 4294967295], [0, 1]].getD y [] |>.getD x 0⟩ = none ∧
    seamOfEnergiesM false ⟨2, 2, fun x y => [[4294967295, 4294967295], [0, 1]].getD y [] |>.getD x 0⟩ =
      some [1, 1] := by decide

end Verif.Seam
