import Verif.Morphology.MaskModel
import Mathlib.Data.List.Nodup
import Mathlib.Data.List.Range
import Mathlib.Data.Finset.Prod
import Mathlib.Algebra.Order.Ring.Abs
import Mathlib.Tactic.Linarith
import Mathlib.Tactic.Ring
/- C36: the structuring masks contain exactly the documented offsets. -/
namespace Verif.Morphology

theorem mem_irange {a b x : Int} : x ∈ irange a b ↔ a ≤ x ∧ x ≤ b := by
  simp only [irange, List.mem_map, List.mem_range]
  constructor
  · rintro ⟨i, hi, rfl⟩; omega
  · intro h; exact ⟨(x - a).toNat, by omega, by omega⟩

theorem pairwise_irange (a b : Int) : (irange a b).Pairwise (· < ·) := by
  unfold irange
  rw [List.pairwise_map]
  exact List.pairwise_lt_range.imp (by intro i j h; omega)

instance : Trans offLt offLt offLt where
  trans := by
    rintro ⟨a, b⟩ ⟨c, d⟩ ⟨e, f⟩ h1 h2
    simp only [offLt] at *
    split at h1 <;> split at h2 <;> split <;> omega

/-- Rows of increasing `x` at increasing `y` are sorted. -/
theorem sorted_rows {β : Type} (l : List β) (y : β → Int) (xs : β → List Int)
    (hy : l.Pairwise fun a b => y a < y b) (hx : ∀ a ∈ l, (xs a).Pairwise (· < ·)) :
    (l.flatMap fun a => (xs a).map fun x => ((x, y a) : Off)).Pairwise offLt := by
  rw [List.pairwise_flatMap]
  constructor
  · intro a ha
    rw [List.pairwise_map]
    exact (hx a ha).imp (by intro i j h; simp [offLt, h])
  · refine hy.imp ?_
    intro a b hab p hp q hq
    simp only [List.mem_map] at hp hq
    obtain ⟨i, _, rfl⟩ := hp
    obtain ⟨j, _, rfl⟩ := hq
    simp only [offLt]
    rw [if_neg (by omega)]; exact hab

theorem offLt_ne {a b : Off} (h : offLt a b) : a ≠ b := by
  rintro rfl; simp [offLt] at h

/-- A sorted list of offsets inside a 511x511 window passes the assertions of `Mask::new`. -/
theorem maskNew_of_sorted {l : List Off} (hs : l.Pairwise offLt) {x0 y0 : Int}
    (hb : ∀ p ∈ l, (x0 ≤ p.1 ∧ p.1 < x0 + 511) ∧ (y0 ≤ p.2 ∧ p.2 < y0 + 511)) :
    maskNew l = some l := by
  have hnd : l.Nodup := hs.imp offLt_ne
  have hlen : l.length ≤ 511 * 511 := by
    obtain ⟨N, hN⟩ : ∃ N : Nat, N = 511 := ⟨_, rfl⟩
    rw [← hN]
    have h1 : (l.map fun p => ((p.1 - x0).toNat, (p.2 - y0).toNat)).Nodup := by
      rw [List.nodup_map_iff_inj_on hnd]
      rintro ⟨a, b⟩ hp ⟨c, d⟩ hq heq
      have h2 := hb _ hp
      have h3 := hb _ hq
      simp only [Prod.mk.injEq] at heq ⊢
      dsimp only at h2 h3
      omega
    have h2 := List.toFinset_card_of_nodup h1
    have h3 : (l.map fun p => ((p.1 - x0).toNat, (p.2 - y0).toNat)).toFinset ⊆
        Finset.range N ×ˢ Finset.range N := by
      intro q hq
      rw [List.mem_toFinset, List.mem_map] at hq
      obtain ⟨p, hp, rfl⟩ := hq
      have := hb p hp
      rw [Finset.mem_product, Finset.mem_range, Finset.mem_range]
      dsimp only
      omega
    have h4 := Finset.card_le_card h3
    rw [h2, List.length_map, Finset.card_product, Finset.card_range] at h4
    exact h4
  unfold maskNew
  rw [if_pos hlen, if_pos hs.isChain]

/-- C36: the square mask contains exactly the offsets with LInf norm at most `r`. -/
theorem C36_square (r : Nat) (hr : r ≤ 255) :
    ∃ m, square r = some m ∧ m.Nodup ∧
      ∀ x y : Int, (x, y) ∈ m ↔ max x.natAbs y.natAbs ≤ r := by
  have hs := sorted_rows (irange (-(r : Int)) r) id (fun _ => irange (-(r : Int)) r)
    (pairwise_irange _ _) (fun _ _ => pairwise_irange _ _)
  have hm : ∀ x y : Int, (x, y) ∈ ((irange (-(r : Int)) r).flatMap fun a =>
      (irange (-(r : Int)) r).map fun x => ((x, id a) : Off)) ↔ max x.natAbs y.natAbs ≤ r := by
    intro x y
    simp only [List.mem_flatMap, List.mem_map, mem_irange, id, Prod.mk.injEq]
    constructor
    · rintro ⟨a, ha, b, hb, rfl, rfl⟩; omega
    · intro h; exact ⟨y, by omega, x, by omega, rfl, rfl⟩
  refine ⟨_, maskNew_of_sorted hs (x0 := -255) (y0 := -255) ?_, hs.imp offLt_ne, hm⟩
  rintro ⟨x, y⟩ hp
  have := (hm x y).1 hp
  dsimp only; omega

/-- C36: the diamond mask contains exactly the offsets with L1 norm at most `r`. -/
theorem C36_diamond (r : Nat) (hr : r ≤ 255) :
    ∃ m, diamond r = some m ∧ m.Nodup ∧
      ∀ x y : Int, (x, y) ∈ m ↔ x.natAbs + y.natAbs ≤ r := by
  have hs := sorted_rows (irange (-(r : Int)) r) id
    (fun y => irange ((y.natAbs : Int) - r) ((r : Int) - y.natAbs))
    (pairwise_irange _ _) (fun _ _ => pairwise_irange _ _)
  have hm : ∀ x y : Int, (x, y) ∈ ((irange (-(r : Int)) r).flatMap fun a =>
      (irange ((a.natAbs : Int) - r) ((r : Int) - a.natAbs)).map fun x => ((x, id a) : Off)) ↔
        x.natAbs + y.natAbs ≤ r := by
    intro x y
    simp only [List.mem_flatMap, List.mem_map, mem_irange, id, Prod.mk.injEq]
    constructor
    · rintro ⟨a, ha, b, hb, rfl, rfl⟩; omega
    · intro h; exact ⟨y, by omega, x, by omega, rfl, rfl⟩
  refine ⟨_, maskNew_of_sorted hs (x0 := -255) (y0 := -255) ?_, hs.imp offLt_ne, hm⟩
  rintro ⟨x, y⟩ hp
  have := (hm x y).1 hp
  dsimp only; omega

/-! ### The disk -/

/-- `w` is the half width of the disk of radius `r` at height `h`. -/
def IsHalf (r h w : Nat) : Prop := w ^ 2 + h ^ 2 ≤ r ^ 2 ∧ r ^ 2 < (w + 1) ^ 2 + h ^ 2

theorem IsHalf.le {r h w : Nat} (hw : IsHalf r h w) : w ≤ r := by
  have := hw.1
  by_contra hc
  have : (r + 1) ^ 2 ≤ w ^ 2 := Nat.pow_le_pow_left (by omega) 2
  have : r ^ 2 < (r + 1) ^ 2 := Nat.pow_lt_pow_left (by omega) (by omega)
  omega

theorem IsHalf.mem {r h w : Nat} (hw : IsHalf r h w) (x : Nat) : x ≤ w ↔ x ^ 2 + h ^ 2 ≤ r ^ 2 := by
  constructor
  · intro h'
    have := Nat.pow_le_pow_left h' 2
    have := hw.1
    omega
  · intro h'
    by_contra hc
    have : (w + 1) ^ 2 ≤ x ^ 2 := Nat.pow_le_pow_left (by omega) 2
    have := hw.2
    omega

theorem findUp_spec {r h : Nat} :
    ∀ (fuel x : Nat), r + 1 ≤ fuel + x → x ^ 2 + h ^ 2 ≤ r ^ 2 →
      ∃ w, findUp r h fuel x = some w ∧ IsHalf r h w
  | 0, x, hf, hx => by
    have : (r + 1) ^ 2 ≤ x ^ 2 := Nat.pow_le_pow_left (by omega) 2
    have : r ^ 2 < (r + 1) ^ 2 := Nat.pow_lt_pow_left (by omega) (by omega)
    omega
  | fuel + 1, x, hf, hx => by
    unfold findUp
    by_cases h' : (x + 1) ^ 2 + h ^ 2 > r ^ 2
    · rw [if_pos h']; exact ⟨x, rfl, hx, h'⟩
    · rw [if_neg h']; exact findUp_spec fuel (x + 1) (by omega) (by omega)

theorem findDown_spec {r h : Nat} (hr : h ≤ r) :
    ∀ (x : Nat), r ^ 2 < (x + 1) ^ 2 + h ^ 2 → ∃ w, findDown r h x = some w ∧ IsHalf r h w
  | 0, hx => by
    have := Nat.pow_le_pow_left hr 2
    unfold findDown
    rw [if_pos (by simpa using this)]
    exact ⟨0, rfl, by simpa using this, hx⟩
  | x + 1, hx => by
    unfold findDown
    by_cases h' : (x + 1) ^ 2 + h ^ 2 ≤ r ^ 2
    · rw [if_pos h']; exact ⟨x + 1, rfl, h', hx⟩
    · rw [if_neg h']; exact findDown_spec hr x (by omega)

theorem halfWidths_spec {r : Nat} (hr : r ≤ 255) :
    ∀ (fuel : Nat) (h : Int) (w : Nat), -(r : Int) ≤ h → h ≤ r → r - h < fuel →
      IsHalf r h.natAbs w →
      ∃ l, halfWidths r fuel (h, w) = some l ∧ (l.Pairwise fun a b => a.1 < b.1) ∧
        (∀ p ∈ l, h ≤ p.1 ∧ p.1 ≤ r ∧ IsHalf r p.1.natAbs p.2) ∧
        ∀ y, h ≤ y → y ≤ r → ∃ p ∈ l, p.1 = y
  | 0, h, w, _, _, h3, _ => by exfalso; omega
  | fuel + 1, h, w, h1, h2, h3, hw => by
    unfold halfWidths
    by_cases hh : h = r
    · have : nextHalfWidth r h w = some none := by unfold nextHalfWidth; rw [if_pos hh]
      dsimp only
      rw [this, Option.bind_some]
      refine ⟨[(h, w)], rfl, List.pairwise_singleton _ _, ?_, ?_⟩
      · intro p hp
        simp only [List.mem_singleton] at hp
        subst hp
        exact ⟨le_refl _, h2, hw⟩
      · intro y hy1 hy2
        exact ⟨(h, w), by simp, by dsimp only; omega⟩
    · have key : ∃ w', nextHalfWidth r h w = some (some (h + 1, w')) ∧
          IsHalf r (h + 1).natAbs w' := by
        unfold nextHalfWidth
        rw [if_neg hh]
        dsimp only
        by_cases hn : h + 1 ≤ 0
        · have hle : (h + 1).natAbs ^ 2 ≤ h.natAbs ^ 2 := Nat.pow_le_pow_left (by omega) 2
          obtain ⟨w', e, hw'⟩ := findUp_spec (r := r) (h := (h + 1).natAbs) (r + 1) w (by omega)
            (by have := hw.1; omega)
          have := hw'.le
          rw [if_pos hn, e, Option.bind_some, if_pos (by omega)]
          exact ⟨w', rfl, hw'⟩
        · have hle : h.natAbs ^ 2 ≤ (h + 1).natAbs ^ 2 := Nat.pow_le_pow_left (by omega) 2
          obtain ⟨w', e, hw'⟩ := findDown_spec (r := r) (h := (h + 1).natAbs) (by omega) w
            (by have := hw.2; omega)
          have := hw'.le
          rw [if_neg hn, e]
          dsimp only
          rw [if_pos (by omega)]
          exact ⟨w', rfl, hw'⟩
      obtain ⟨w', e, hw'⟩ := key
      obtain ⟨l, el, l1, l2, l3⟩ := halfWidths_spec hr fuel (h + 1) w' (by omega) (by omega)
        (by omega) hw'
      dsimp only
      rw [e, Option.bind_some]
      dsimp only
      rw [el]
      refine ⟨(h, w) :: l, rfl, ?_, ?_, ?_⟩
      · rw [List.pairwise_cons]
        exact ⟨fun p hp => by have := (l2 p hp).1; dsimp only; omega, l1⟩
      · intro p hp
        rcases List.mem_cons.1 hp with rfl | hp
        · exact ⟨le_refl _, h2, hw⟩
        · have := l2 p hp
          exact ⟨by omega, this.2⟩
      · intro y hy1 hy2
        by_cases hy : y = h
        · exact ⟨(h, w), by simp, by dsimp only; omega⟩
        · obtain ⟨p, hp, e⟩ := l3 y (by omega) hy2
          exact ⟨p, List.mem_cons_of_mem _ hp, e⟩

/-- C36: the disk mask contains exactly the offsets with Euclidean norm at most `r`. -/
theorem C36_disk (r : Nat) (hr : r ≤ 255) :
    ∃ m, disk r = some m ∧ m.Nodup ∧
      ∀ x y : Int, (x, y) ∈ m ↔ x ^ 2 + y ^ 2 ≤ (r : Int) ^ 2 := by
  obtain ⟨l, el, l1, l2, l3⟩ := halfWidths_spec hr (2 * r + 1) (-(r : Int)) 0 (le_refl _)
    (by omega) (by omega) (by
      constructor
      · simp
      · simp)
  have hs := sorted_rows l Prod.fst (fun p => irange (-(p.2 : Int)) p.2) l1
    (fun _ _ => pairwise_irange _ _)
  have sq : ∀ x y : Int, x.natAbs ^ 2 + y.natAbs ^ 2 ≤ r ^ 2 ↔ x ^ 2 + y ^ 2 ≤ (r : Int) ^ 2 := by
    intro x y
    rw [← Int.ofNat_le]
    push_cast
    rw [sq_abs, sq_abs]
  have hm : ∀ x y : Int, (x, y) ∈ (l.flatMap fun a =>
      (irange (-(a.2 : Int)) a.2).map fun x => ((x, a.1) : Off)) ↔
        x ^ 2 + y ^ 2 ≤ (r : Int) ^ 2 := by
    intro x y
    simp only [List.mem_flatMap, List.mem_map, mem_irange, Prod.mk.injEq]
    rw [← sq]
    constructor
    · rintro ⟨p, hp, b, hb, rfl, rfl⟩
      obtain ⟨h1, h2, h3⟩ := l2 p hp
      rw [← h3.mem]; omega
    · intro h
      have hy : y.natAbs ≤ r := by
        by_contra hc
        have : (r + 1) ^ 2 ≤ y.natAbs ^ 2 := Nat.pow_le_pow_left (by omega) 2
        have : r ^ 2 < (r + 1) ^ 2 := Nat.pow_lt_pow_left (by omega) (by omega)
        omega
      obtain ⟨p, hp, rfl⟩ := l3 y (by omega) (by omega)
      obtain ⟨h1, h2, h3⟩ := l2 p hp
      rw [← h3.mem] at h
      exact ⟨p, hp, x, by omega, rfl, rfl⟩
  have hb : ∀ p ∈ (l.flatMap fun a => (irange (-(a.2 : Int)) a.2).map fun x => ((x, a.1) : Off)),
      ((-255 ≤ p.1 ∧ p.1 < -255 + 511) ∧ (-255 ≤ p.2 ∧ p.2 < -255 + 511) : Prop) := by
    rintro ⟨x, y⟩ hp
    simp only [List.mem_flatMap, List.mem_map, mem_irange, Prod.mk.injEq] at hp
    obtain ⟨p, hp, b, hb, rfl, rfl⟩ := hp
    obtain ⟨h1, h2, h3⟩ := l2 p hp
    have := h3.le
    dsimp only; omega
  refine ⟨_, ?_, hs.imp offLt_ne, hm⟩
  unfold disk
  rw [el, Option.bind_some]
  exact maskNew_of_sorted hs hb

/-- C36: a mask built from an image contains exactly the offsets of its foreground pixels relative
to the centre. -/
theorem C36_from_image (im : Image Nat) (cx cy : Nat) (hw : im.w < 512) (hh : im.h < 512) :
    ∃ m, fromImage im cx cy = some m ∧ m.Nodup ∧
      ∀ x y : Int, (x, y) ∈ m ↔
        ∃ a b : Nat, a < im.w ∧ b < im.h ∧ im.px a b ≠ 0 ∧ (x, y) = ((a : Int) - cx, (b : Int) - cy) := by
  have hc : (Utils.coords im.w im.h).Pairwise fun p q =>
      offLt ((p.1 : Int) - cx, (p.2 : Int) - cy) ((q.1 : Int) - cx, (q.2 : Int) - cy) := by
    unfold Utils.coords
    rw [List.pairwise_flatMap]
    constructor
    · intro y _
      rw [List.pairwise_map]
      exact List.pairwise_lt_range.imp (by intro i j h; simp only [offLt, if_true]; omega)
    · refine List.pairwise_lt_range.imp ?_
      intro a b hab p hp q hq
      simp only [List.mem_map] at hp hq
      obtain ⟨i, _, rfl⟩ := hp
      obtain ⟨j, _, rfl⟩ := hq
      simp only [offLt]
      rw [if_neg (by omega)]; omega
  have hs : (((Utils.coords im.w im.h).filter fun p => im.px p.1 p.2 ≠ 0).map fun p =>
      (((p.1 : Int) - cx, (p.2 : Int) - cy) : Off)).Pairwise offLt := by
    rw [List.pairwise_map]
    exact hc.filter _
  refine ⟨_, ?_, hs.imp offLt_ne, ?_⟩
  · unfold fromImage
    rw [if_pos hw, if_pos hh]
    refine maskNew_of_sorted hs (x0 := -(cx : Int)) (y0 := -(cy : Int)) ?_
    intro p hp
    simp only [List.mem_map, List.mem_filter, Utils.mem_coords] at hp
    obtain ⟨q, ⟨hq, _⟩, rfl⟩ := hp
    dsimp only; omega
  · intro x y
    simp only [List.mem_map, List.mem_filter, Utils.mem_coords, decide_eq_true_eq]
    constructor
    · rintro ⟨p, ⟨⟨h1, h2⟩, h3⟩, h4⟩
      exact ⟨p.1, p.2, h1, h2, h3, h4.symm⟩
    · rintro ⟨a, b, h1, h2, h3, h4⟩
      exact ⟨(a, b), ⟨⟨h1, h2⟩, h3⟩, h4.symm⟩

/-- C36: `from_image` panics on wider or taller images. -/
theorem C36_from_image_panics (im : Image Nat) (cx cy : Nat) (h : 512 ≤ im.w ∨ 512 ≤ im.h) :
    fromImage im cx cy = none := by
  unfold fromImage
  by_cases hw : im.w < 512
  · rw [if_pos hw, if_neg (by omega)]
  · rw [if_neg hw]

example : disk 2 = some [(0, -2), (-1, -1), (0, -1), (1, -1), (-2, 0), (-1, 0), (0, 0), (1, 0), (2, 0),
    (-1, 1), (0, 1), (1, 1), (0, 2)] := by decide
example : diamond 1 = some [(0, -1), (-1, 0), (0, 0), (1, 0), (0, 1)] := by decide
example : (square 1).map List.length = some 9 := by decide
example : fromImage (Image.ofRows 0 [[1, 0], [0, 1]]) 1 0 = some [(-1, 0), (0, 1)] := by decide

end Verif.Morphology
