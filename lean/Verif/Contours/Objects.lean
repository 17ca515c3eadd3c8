import Verif.Contours.Tree
import Verif.Regions.Props
import Mathlib.Order.Interval.Finset.Nat
/-
Contours as objects and holes (C166), their nesting (C167), and the number of objects (C168).

The theorems are about images without foreground in the first column: for other images the properties
are false of the code, which never starts an outer border in the first column
(src/contours.rs:109-111).
-/
namespace Verif.Contours
variable {im : Image Nat} {t : Nat}

theorem of_result_ext {cs : List Contour} (hcl : ClearLeft im t)
    (h : findContours im t = some cs) :
    ∃ s Ts, cs = s.contours ∧ Inv im t 0 im.h s Ts ∧ Ext im t 0 im.h s Ts := by
  obtain ⟨s, Ts, e, hI, hE⟩ := result_ext hcl
  rw [e] at h
  exact ⟨s, Ts, (Option.some.inj h).symm, hI, hE⟩

/-! ### The plane and the image -/

theorem un_natCast (p : Nat × Nat) : un ((p.1 : Int), (p.2 : Int)) = p := rfl

theorem cast_un {p : Int × Int} (h : fg im t p = true) :
    (((un p).1 : Int), ((un p).2 : Int)) = p := by
  have := fg_low h
  unfold un
  exact Prod.ext (by dsimp only; omega) (by dsimp only; omega)

theorem fg_fore {p : Nat × Nat} : fg im t ((p.1 : Int), (p.2 : Int)) = true ↔ Fore im t p := by
  rw [fg_natCast]
  unfold Fore
  rw [and_assoc]

/-- Regions of the plane and regions of the image agree. -/
theorem region_iff {p q : Nat × Nat} :
    Region im t p q ↔ Conn8 (fg im t) ((p.1 : Int), (p.2 : Int)) ((q.1 : Int), (q.2 : Int)) := by
  constructor
  · intro h
    induction h with
    | refl => exact Relation.ReflTransGen.refl
    | tail _ h2 ih =>
      refine ih.tail ⟨fg_fore.mpr h2.1, fg_fore.mpr h2.2.1, ?_⟩
      obtain ⟨_, a, b, c, d⟩ := h2.2.2
      unfold Touch
      dsimp only
      omega
  · intro h
    obtain ⟨Q, hQ⟩ : ∃ Q : Int × Int, Q = ((q.1 : Int), (q.2 : Int)) := ⟨_, rfl⟩
    have hq : q = un Q := by rw [hQ]; rfl
    rw [← hQ] at h
    rw [hq]
    clear hQ hq
    induction h with
    | refl => exact Relation.ReflTransGen.refl
    | @tail a b h1 h2 ih =>
      have la := fg_low h2.1
      have lb := fg_low h2.2.1
      by_cases e : un a = un b
      · rw [← e]; exact ih
      · refine ih.tail ⟨?_, ?_, e, ?_⟩
        · rw [← fg_fore, cast_un h2.1]; exact h2.1
        · rw [← fg_fore, cast_un h2.2.1]; exact h2.2.1
        · obtain ⟨a1, a2, a3, a4⟩ := h2.2.2
          unfold un
          dsimp only
          omega

theorem region_fore {p q : Nat × Nat} (h : Region im t p q) (hp : Fore im t p) : Fore im t q := by
  rcases Relation.ReflTransGen.cases_tail h with rfl | ⟨_, _, h2⟩
  · exact hp
  · exact h2.2.1

/-- Specification: the background region of the plane that contains `p` is not enclosed. -/
def Open (im : Image Nat) (t : Nat) (p : Int × Int) : Prop := Conn4 (fg im t) p (-1, -1)

theorem fg_out {p : Int × Int} (h : p.1 < 0 ∨ p.2 < 0) : fg im t p = false := by
  rw [Bool.eq_false_iff]
  intro hc
  have := fg_low hc
  omega

theorem open_out {p : Int × Int} (h : p.1 < 0 ∨ p.2 < 0) : Open im t p := by
  obtain ⟨x, y⟩ := p
  dsimp only at h
  have row : ∀ a b y : Int, (a < 0 ∧ b < 0 ∨ y < 0) → Conn4 (fg im t) (a, y) (b, y) := by
    intro a b y hc
    rcases le_total a b with hab | hab
    · have := conn4_row (F := fg im t) y (b - a).toNat a (by
        intro c h1 h2
        exact fg_out (by dsimp only; omega))
      rwa [show a + ((b - a).toNat : Int) = b by omega] at this
    · have := conn4_row (F := fg im t) y (a - b).toNat b (by
        intro c h1 h2
        exact fg_out (by dsimp only; omega))
      rw [show b + ((a - b).toNat : Int) = a by omega] at this
      exact this.symm
  have col : ∀ x a b : Int, (a < 0 ∧ b < 0 ∨ x < 0) → Conn4 (fg im t) (x, a) (x, b) := by
    intro x a b hc
    rcases le_total a b with hab | hab
    · have := conn4_col (F := fg im t) x (b - a).toNat a (by
        intro c h1 h2
        exact fg_out (by dsimp only; omega))
      rwa [show a + ((b - a).toNat : Int) = b by omega] at this
    · have := conn4_col (F := fg im t) x (a - b).toNat b (by
        intro c h1 h2
        exact fg_out (by dsimp only; omega))
      rw [show b + ((a - b).toNat : Int) = a by omega] at this
      exact this.symm
  unfold Open
  rcases h with h | h
  · exact (col x y (-1) (by omega)).trans (row x (-1) (-1) (by omega))
  · exact (row x (-1) y (by omega)).trans (col (-1) y (-1) (by omega))

theorem firstBg_closed {Q : Int × Int} (h : FirstBg (fg im t) Q) : ¬ Open im t Q := by
  intro hc
  have h1 := h.2 _ hc
  have h2 := fg_low h.west
  obtain ⟨X, Y⟩ := Q
  rw [D0_eq] at h2
  unfold RLe at h1
  dsimp only at h1 h2
  omega

theorem closed_first {q : Int × Int} (hq : fg im t q = false) (ho : ¬ Open im t q) :
    ∃ Q, FirstBg (fg im t) Q ∧ Conn4 (fg im t) q Q := by
  obtain ⟨Q, h2, h3⟩ := first_exists (P := fun r => Conn4 (fg im t) q r)
    (fun r hr => by
      by_contra hc
      exact ho (hr.trans (open_out (by omega)))) ⟨q, Relation.ReflTransGen.refl⟩
  exact ⟨Q, ⟨Conn4.bg h2 hq, fun r hr => h3 r (h2.trans hr)⟩, h2⟩

/-! ### Starts of contours -/

theorem starts_inj {cs : List Contour} (h : findContours im t = some cs) {i j : Nat}
    {c c' : Contour} (hi : cs[i]? = some c) (hj : cs[j]? = some c') {p : Int × Int}
    (hp : c.points.head? = some (un p)) (hp' : c'.points.head? = some (un p))
    (hf : fg im t p = true) (ho : c.outer = c'.outer) : i = j :=
  C95_once h hi hj hp hf hp' hf ⟨0, by rw [ho]; rfl⟩

theorem before_end {p : Int × Int} (hp : fg im t p = true) :
    Before (un p).1 (un p).2 0 im.h := by
  have := (fg_iff.mp hp).1
  unfold Before un
  dsimp only
  omega

theorem contour_kind {cs : List Contour} (hcl : ClearLeft im t) (h : findContours im t = some cs)
    {i : Nat} {c : Contour} (hi : cs[i]? = some c) :
    ∃ p, c.points.head? = some (un p) ∧ fg im t p = true ∧ Kind (fg im t) c.outer p := by
  obtain ⟨s, Ts, rfl, _, hE⟩ := of_result_ext hcl h
  obtain ⟨p, h1, h2, _, h3⟩ := hE.kinds i c hi
  exact ⟨p, h1, h2, h3⟩

theorem outer_exists {cs : List Contour} (hcl : ClearLeft im t) (h : findContours im t = some cs)
    {P : Int × Int} (hP : FirstFg (fg im t) P) :
    ∃ (i : Nat) (c : Contour), cs[i]? = some c ∧ c.outer = true ∧ c.points.head? = some (un P) := by
  obtain ⟨s, Ts, rfl, _, hE⟩ := of_result_ext hcl h
  obtain ⟨i, c, h1, h2, h3⟩ := hE.firsts P hP (before_end hP.1)
  exact ⟨i, c, h1, h2, h3⟩

theorem hole_exists {cs : List Contour} (hcl : ClearLeft im t) (h : findContours im t = some cs)
    {Q : Int × Int} (hQ : FirstBg (fg im t) Q) :
    ∃ (i : Nat) (c : Contour), cs[i]? = some c ∧ c.outer = false ∧ c.points.head? = some (un (Q + D 0)) := by
  obtain ⟨s, Ts, rfl, hI, hE⟩ := of_result_ext hcl h
  obtain ⟨i, c, σ, h1, h2, h3, h4⟩ := early_east hI.core hE hQ (before_end hQ.west)
  obtain ⟨p, k1, k2, _, k4⟩ := hE.kinds i c h1
  have htr := hI.core.traced i c h1
  have hcon := (htr.conn k1 k2 h2 (by rfl) h4).2
  rw [h3, west_east] at hcon
  cases ho : c.outer
  · rw [ho] at k4 hcon
    have k4 : FirstBg (fg im t) (p + D 4) := k4
    refine ⟨i, c, h1, ho, ?_⟩
    have e : Q = p + D 4 := hQ.unique k4 hcon
    rw [e, east_west]
    exact k1
  · exfalso
    rw [ho] at k4
    have k4 : FirstFg (fg im t) p := k4
    obtain ⟨s0, a1, a2, a3, _, a5⟩ := htr.start
    obtain ⟨r, er⟩ := a5 σ 4 h2 (by rfl) h4
    have e0 : s0.1 = p := un_inj (htr.isfg _ a1) k2 (Option.some.inj (a2.symm.trans k1))
    rw [ho, e0, h3] at er
    exact not_outer_and_hole _ (all_darts im t) hQ.dart k4 hQ
      ((mem_orb _ (all_darts im t) hQ.dart).mpr ⟨r, er⟩) (orb_self _ (all_darts im t) hQ.dart)

/-! ### C166: one outer contour per object, one hole contour per hole -/

/-- If the first column contains no foreground, every foreground region has exactly one outer
contour. -/
theorem C166_outer_partial {cs : List Contour} (hcl : ClearLeft im t)
    (h : findContours im t = some cs) {p : Nat × Nat} (hp : Fore im t p) :
    ∃! i : Nat, ∃ c : Contour, cs[i]? = some c ∧ c.outer = true ∧ ∃ q ∈ c.points, Region im t p q := by
  obtain ⟨P, hP, hc⟩ := exists_firstFg (allStates im) (all_darts im t) (fun _ => fg_low)
    (fg_fore.mpr hp)
  have key : ∀ (i : Nat) (c : Contour), cs[i]? = some c → c.outer = true →
      (∃ q ∈ c.points, Region im t p q) → c.points.head? = some (un P) := by
    rintro i c hi ho ⟨q, hq, hr⟩
    obtain ⟨p', k1, k2, k3⟩ := contour_kind hcl h hi
    rw [ho] at k3
    have k3 : FirstFg (fg im t) p' := k3
    obtain ⟨hring, hfore⟩ := C52_chain h (List.mem_of_getElem? hi)
    have hreg := ring_region hring hfore k1 q hq
    have h1 : Region im t p (un p') := hr.trans (region_symm hreg)
    rw [region_iff, cast_un k2] at h1
    rw [k1, hP.unique k3 (hc.symm.trans h1)]
  obtain ⟨i, c, h1, h2, h3⟩ := outer_exists hcl h hP
  refine ⟨i, ⟨c, h1, h2, un P, List.mem_of_mem_head? (by rw [h3]; rfl), ?_⟩, ?_⟩
  · rw [region_iff, cast_un hP.1]; exact hc
  · rintro j ⟨c', k1, k2, k3⟩
    exact starts_inj h k1 h1 (key j c' k1 k2 k3) h3 hP.1 (by rw [k2, h2])

/-- ... which starts at the first pixel of the region in raster order. -/
theorem C166_first_partial {cs : List Contour} (hcl : ClearLeft im t)
    (h : findContours im t = some cs) {c : Contour} (hc : c ∈ cs) (ho : c.outer = true) :
    ∃ p, c.points.head? = some p ∧ Fore im t p ∧
      ∀ q, Region im t p q → p.2 < q.2 ∨ p.2 = q.2 ∧ p.1 ≤ q.1 := by
  obtain ⟨i, hi⟩ := List.mem_iff_getElem?.mp hc
  obtain ⟨p', k1, k2, k3⟩ := contour_kind hcl h hi
  rw [ho] at k3
  have k3 : FirstFg (fg im t) p' := k3
  have hf : Fore im t (un p') := by rw [← fg_fore, cast_un k2]; exact k2
  refine ⟨un p', k1, hf, fun q hq => ?_⟩
  rw [region_iff, cast_un k2] at hq
  have := k3.2 _ hq
  have hl := fg_low k2
  unfold RLe at this
  unfold un
  dsimp only at this ⊢
  omega

/-- If the first column contains no foreground, every enclosed background region has exactly one
hole contour, the one whose first point has its right neighbour in that region. -/
theorem C166_hole_partial {cs : List Contour} (hcl : ClearLeft im t)
    (h : findContours im t = some cs) {q : Int × Int} (hq : fg im t q = false)
    (ho : ¬ Open im t q) :
    ∃! i : Nat, ∃ (c : Contour) (p : Nat × Nat), cs[i]? = some c ∧ c.outer = false ∧ c.points.head? = some p ∧
      Conn4 (fg im t) q ((p.1 : Int) + 1, (p.2 : Int)) := by
  obtain ⟨Q, hQ, hc⟩ := closed_first hq ho
  obtain ⟨i, c, h1, h2, h3⟩ := hole_exists hcl h hQ
  refine ⟨i, ⟨c, _, h1, h2, h3, ?_⟩, ?_⟩
  · have e : (((un (Q + D 0)).1 : Int) + 1, ((un (Q + D 0)).2 : Int)) = Q := by
      have := cast_un hQ.west
      rw [← D4_eq, this, west_east]
    rw [e]
    exact hc
  · rintro j ⟨c', p, k1, k2, k3, k4⟩
    obtain ⟨p', m1, m2, m3⟩ := contour_kind hcl h k1
    rw [k2] at m3
    have m3 : FirstBg (fg im t) (p' + D 4) := m3
    rw [k3] at m1
    have ep : p = un p' := Option.some.inj m1
    have e : ((p.1 : Int) + 1, (p.2 : Int)) = p' + D 4 := by
      rw [← D4_eq, ep, cast_un m2]
    rw [e] at k4
    have e2 : Q = p' + D 4 := hQ.unique m3 (hc.symm.trans k4)
    have e3 : Q + D 0 = p' := by rw [e2, east_west]
    rw [e3] at h3
    exact starts_inj h k1 h1 (by rw [k3, ep]) h3 m2 (by rw [k2, h2])

/-- Conversely the right neighbour of the first point of a hole contour lies in an enclosed
background region, and is the first pixel of that region in raster order. -/
theorem C166_enclosed_partial {cs : List Contour} (hcl : ClearLeft im t)
    (h : findContours im t = some cs) {c : Contour} (hc : c ∈ cs) (ho : c.outer = false) :
    ∃ p, c.points.head? = some p ∧ fg im t ((p.1 : Int) + 1, (p.2 : Int)) = false ∧
      ¬ Open im t ((p.1 : Int) + 1, (p.2 : Int)) ∧
      ∀ q : Int × Int, Conn4 (fg im t) ((p.1 : Int) + 1, (p.2 : Int)) q →
        (p.2 : Int) < q.2 ∨ (p.2 : Int) = q.2 ∧ (p.1 : Int) + 1 ≤ q.1 := by
  obtain ⟨i, hi⟩ := List.mem_iff_getElem?.mp hc
  obtain ⟨p', k1, k2, k3⟩ := contour_kind hcl h hi
  rw [ho] at k3
  have k3 : FirstBg (fg im t) (p' + D 4) := k3
  have e : (((un p').1 : Int) + 1, ((un p').2 : Int)) = p' + D 4 := by rw [← D4_eq, cast_un k2]
  refine ⟨un p', k1, ?_⟩
  rw [e]
  refine ⟨k3.1, firstBg_closed k3, fun q hq => ?_⟩
  have := k3.2 q hq
  rw [← e] at this
  exact this

theorem side_dart {F : Int × Int → Bool} {q : Int × Int} {d : Side} (h : IsSide F (q, d)) :
    Dart F (q, d.num) := isSide_iff.mp h

/-- The points of a contour are exactly the pixels of its region that have a side towards the
background region next to its start: the region around the object for an outer contour, the hole for
a hole contour. -/
theorem C166_points_partial {cs : List Contour} (hcl : ClearLeft im t)
    (h : findContours im t = some cs) {c : Contour} (hc : c ∈ cs) :
    ∃ p, c.points.head? = some (un p) ∧ fg im t p = true ∧
      ∀ q, fg im t q = true → (un q ∈ c.points ↔ Conn8 (fg im t) p q ∧
        ∃ d : Side, Conn4 (fg im t) (p + (startSide c.outer).out) (q + d.out) ∧
          fg im t (q + d.out) = false) := by
  obtain ⟨s, Ts, rfl, hI, hE⟩ := of_result_ext hcl h
  obtain ⟨i, hi⟩ := List.mem_iff_getElem?.mp hc
  obtain ⟨p, k1, k2, _, k3⟩ := hE.kinds i c hi
  have htr := hI.core.traced i c hi
  obtain ⟨s0, a1, a2, a3, _, a5⟩ := htr.start
  have e0 : s0.1 = p := un_inj (htr.isfg _ a1) k2 (Option.some.inj (a2.symm.trans k1))
  have hsd : p + (startSide c.outer).out = p + D (startDir c.outer) := by
    rw [← out_eq, start_num]
  refine ⟨p, k1, k2, fun q hq => ?_⟩
  rw [htr.mem, hsd]
  constructor
  · rintro ⟨σ, b1, b2⟩
    have e1 : σ.1 = q := un_inj (htr.isfg _ b1) hq b2
    obtain ⟨d, hd, hsee⟩ := htr.bord σ b1
    have hdd := sees_dart (htr.isfg σ b1) hd hsee
    obtain ⟨x1, x2⟩ := htr.conn k1 k2 b1 hd hsee
    obtain ⟨e', he'⟩ := side_of hdd.2.1 hd
    rw [e1] at x1 x2
    refine ⟨x1.symm, e', ?_, ?_⟩
    · rw [← out_eq, he']; exact x2.symm
    · rw [← out_eq, he', ← e1]; exact sees_bg hsee
  · rintro ⟨hc8, d, hc4, hbg⟩
    have hdd : Dart (fg im t) (q, d.num) := isSide_iff.mp ⟨hq, hbg⟩
    rw [← out_eq] at hc4
    -- the side lies on the border of the contour
    suffices hin : (p, startDir c.outer) ∈ orb (allStates im) (fg im t) (q, d.num) by
      obtain ⟨σ, b1, b2, _⟩ := htr.whole a1 (startDir_lt _).2 a3 (by
        rw [e0]
        exact orb_symm hdd hin)
      exact ⟨σ, b1, by rw [b2]⟩
    cases ho : c.outer
    · rw [ho] at k3 hc4
      have k3 : FirstBg (fg im t) (p + D 4) := k3
      rcases outer_or_hole _ (all_darts im t) (fun _ => fg_low) hdd with
        ⟨P', hP', x1, hm⟩ | ⟨Q, hQ, x1, hm⟩
      · exfalso
        have r1 := hP'.2 p (Conn8.symm (hc8.trans x1))
        have x2 := (orb_conn _ (all_darts im t) hdd hm).2
        have r2 := k3.2 _ (hc4.trans x2)
        obtain ⟨a, b⟩ := p
        obtain ⟨a', b'⟩ := P'
        dsimp only at r2
        rw [D4_eq, D0_eq] at r2
        unfold RLe at r1 r2
        dsimp only at r1 r2
        omega
      · have e : p + D 4 = Q := k3.unique hQ (hc4.trans x1)
        rw [← e, east_west] at hm
        exact hm
    · rw [ho] at k3 hc4
      have k3 : FirstFg (fg im t) p := k3
      rcases outer_or_hole _ (all_darts im t) (fun _ => fg_low) hdd with
        ⟨P', hP', x1, hm⟩ | ⟨Q, hQ, x1, hm⟩
      · rw [k3.unique hP' (hc8.trans x1)]
        exact hm
      · exfalso
        have r1 := hQ.2 _ (Conn4.symm (hc4.trans x1))
        have x2 := (orb_conn _ (all_darts im t) hdd hm).1
        have r2 := k3.2 _ (hc8.trans x2)
        have e0 : D (startDir true) = D 0 := rfl
        rw [e0] at r1
        obtain ⟨a, b⟩ := p
        obtain ⟨a', b'⟩ := Q
        dsimp only at r1 r2
        rw [D0_eq] at r1 r2
        unfold RLe at r1 r2
        dsimp only at r1 r2
        omega

/-- As stated the property is false: a single foreground pixel in the first column is reported as a
hole, and there is no outer contour. -/
theorem C166_negation : ∃ (im : Image Nat), Fore im 0 (0, 0) ∧
    findContours im 0 = some [⟨[(0, 0)], false, none⟩] :=
  ⟨⟨3, 1, fun x _ => if x = 0 then 1 else 0⟩, ⟨by decide, by decide, by decide⟩, by decide +kernel⟩

/-- Two nested rings: an object with a hole that contains another object. -/
def nestIm : Image Nat :=
  ⟨7, 7, fun x y => if (x = 1 ∨ x = 5) ∧ 1 ≤ y ∧ y ≤ 5 ∨ (y = 1 ∨ y = 5) ∧ 1 ≤ x ∧ x ≤ 5 ∨
    x = 3 ∧ y = 3 then 9 else 0⟩

theorem nest_clear : ClearLeft nestIm 0 := by
  intro y hy
  have : ∀ y, y < 7 → nestIm.px 0 y ≤ 0 := by decide
  exact this y hy

theorem nest_contours : findContours nestIm 0 = some
    [⟨[(1, 1), (1, 2), (1, 3), (1, 4), (1, 5), (2, 5), (3, 5), (4, 5), (5, 5), (5, 4), (5, 3), (5, 2),
        (5, 1), (4, 1), (3, 1), (2, 1)], true, none⟩,
      ⟨[(1, 2), (2, 1), (3, 1), (4, 1), (5, 2), (5, 3), (5, 4), (4, 5), (3, 5), (2, 5), (1, 4),
        (1, 3)], false, some 0⟩,
      ⟨[(3, 3)], true, some 1⟩] := by decide +kernel

example : ∃ (cs : List Contour) (i : Nat) (c : Contour), findContours nestIm 0 = some cs ∧ cs[i]? = some c ∧ c.outer = true ∧
    c.points = [(3, 3)] := by
  exact ⟨_, 2, _, nest_contours, rfl, rfl, rfl⟩

/-! ### C94, C95: nothing is missed -/

/-- If the first column contains no foreground, every side lies on the border of some contour. -/
theorem C95_left_partial {cs : List Contour} (h : findContours im t = some cs)
    (hcl : ClearLeft im t) {q : Int × Int} {e : Side} (hs : IsSide (fg im t) (q, e)) :
    ∃ c ∈ cs, ∃ p, c.points.head? = some (un p) ∧ fg im t p = true ∧
      OnBorder (fg im t) (p, startSide c.outer) (q, e) := by
  have hd := isSide_iff.mp hs
  have fin : ∀ {p : Int × Int} {o : Bool}, (p, (startSide o).num) ∈ orb (allStates im) (fg im t)
      (q, e.num) → OnBorder (fg im t) (p, startSide o) (q, e) := by
    intro p o hm
    obtain ⟨n, hn⟩ := (mem_orb _ (all_darts im t) hd).mp hm
    have hd' : Dart (fg im t) (p, (startSide o).num) := by
      rw [← hn]; exact dart_iter _ (all_darts im t) hd n
    rw [onBorder_iff]
    exact (mem_orb _ (all_darts im t) hd').mp (orb_symm hd hm)
  rcases outer_or_hole _ (all_darts im t) (fun _ => fg_low) hd with
    ⟨P, hP, _, hm⟩ | ⟨Q, hQ, _, hm⟩
  · obtain ⟨i, c, h1, h2, h3⟩ := outer_exists hcl h hP
    refine ⟨c, List.mem_of_getElem? h1, P, h3, hP.1, ?_⟩
    rw [h2]
    exact fin hm
  · obtain ⟨i, c, h1, h2, h3⟩ := hole_exists hcl h hQ
    refine ⟨c, List.mem_of_getElem? h1, Q + D 0, h3, hQ.west, ?_⟩
    rw [h2]
    exact fin hm

/-- If the first column contains no foreground, every edge pixel of the foreground is on a
contour. -/
theorem C94_left_partial {cs : List Contour} (h : findContours im t = some cs)
    (hcl : ClearLeft im t) {p : Nat × Nat} (hp : Fore im t p) (he : EdgePx im t p) :
    ∃ c ∈ cs, p ∈ c.points := by
  have he' : EdgePx im t (un ((p.1 : Int), (p.2 : Int))) := he
  rw [edge_iff (fg_cast hp)] at he'
  obtain ⟨d, hd⟩ := he'
  obtain ⟨e, rfl⟩ := side_of hd.2.1 hd.2.2.1
  obtain ⟨c, hc, p0, h1, h2, h3⟩ := C95_left_partial h hcl (isSide_iff.mpr hd)
  obtain ⟨p1, k1, k2, k3⟩ := C95_border h hc
  have e0 : p1 = p0 := un_inj k2.1 h2 (Option.some.inj (k1.symm.trans h1))
  rw [e0] at k3
  exact ⟨c, hc, (k3 p).mpr ⟨_, e, un_natCast p, h3⟩⟩

/-! ### C167: nesting -/

/-- If the first column contains no foreground, the parent of a hole contour is the outer contour of
the region around the hole. -/
theorem C167_hole_partial {cs : List Contour} (hcl : ClearLeft im t)
    (h : findContours im t = some cs) {c : Contour} (hc : c ∈ cs) (ho : c.outer = false) :
    ∃ (j : Nat) (c' : Contour), c.parent = some j ∧ cs[j]? = some c' ∧ c'.outer = true ∧
      ∀ p ∈ c.points, ∀ q ∈ c'.points, Region im t p q := by
  obtain ⟨i, hi⟩ := List.mem_iff_getElem?.mp hc
  obtain ⟨p, k1, k2, _⟩ := contour_kind hcl h hi
  have hfam : Family im t cs c p := by
    obtain ⟨s, Ts, rfl, _, hE⟩ := of_result_ext hcl h
    exact hE.family i c p hi k1 k2
  unfold Family at hfam
  rw [ho, if_neg (by decide)] at hfam
  obtain ⟨j, c', p', h1, h2, h3, h4, h5, h6⟩ := hfam
  refine ⟨j, c', h1, h2, h3, fun a ha b hb => ?_⟩
  obtain ⟨hr, hf⟩ := C52_chain h hc
  obtain ⟨hr', hf'⟩ := C52_chain h (List.mem_of_getElem? h2)
  have r1 := ring_region hr hf k1 a ha
  have r2 := ring_region hr' hf' h4 b hb
  have hfp : Fore im t (un p) := by rw [← fg_fore, cast_un k2]; exact k2
  have r3 : Region im t (un p) (un p') := by
    rw [region_iff, cast_un k2, cast_un h5]; exact h6
  exact (region_symm r1).trans (r3.trans r2)

/-- The parent of an outer contour is the hole contour of the background region around its region;
it has no parent exactly if that background region is not enclosed. -/
theorem C167_outer_partial {cs : List Contour} (hcl : ClearLeft im t)
    (h : findContours im t = some cs) {c : Contour} (hc : c ∈ cs) (ho : c.outer = true) :
    ∃ p, c.points.head? = some p ∧
      (c.parent = none ↔ Open im t ((p.1 : Int) - 1, (p.2 : Int))) ∧
      ∀ j, c.parent = some j → ∃ (c' : Contour) (p' : Nat × Nat), cs[j]? = some c' ∧ c'.outer = false ∧
        c'.points.head? = some p' ∧
        Conn4 (fg im t) ((p.1 : Int) - 1, (p.2 : Int)) ((p'.1 : Int) + 1, (p'.2 : Int)) := by
  obtain ⟨i, hi⟩ := List.mem_iff_getElem?.mp hc
  obtain ⟨p, k1, k2, _⟩ := contour_kind hcl h hi
  have hfam : Family im t cs c p := by
    obtain ⟨s, Ts, rfl, _, hE⟩ := of_result_ext hcl h
    exact hE.family i c p hi k1 k2
  unfold Family at hfam
  rw [ho, if_pos rfl] at hfam
  have e : (((un p).1 : Int) - 1, ((un p).2 : Int)) = p + D 0 := by rw [← D0_eq, cast_un k2]
  refine ⟨un p, k1, ?_⟩
  rw [e]
  rcases hfam with ⟨h1, h2⟩ | ⟨j, c', p', h1, h2, h3, h4, h5, h6⟩
  · refine ⟨⟨fun _ => h2, fun _ => h1⟩, ?_⟩
    intro j hj
    rw [h1] at hj
    simp at hj
  · obtain ⟨p2, m1, m2, m3⟩ := contour_kind hcl h h2
    rw [h3] at m3
    have m3 : FirstBg (fg im t) (p2 + D 4) := m3
    have ep : p' = p2 := un_inj h5 m2 (Option.some.inj (h4.symm.trans m1))
    rw [ep] at h6
    refine ⟨⟨fun hn => ?_, fun hop => ?_⟩, ?_⟩
    · rw [h1] at hn
      simp at hn
    · exact (firstBg_closed m3 (h6.symm.trans hop)).elim
    · intro j' hj'
      rw [h1] at hj'
      obtain rfl := Option.some.inj hj'
      refine ⟨c', un p2, h2, h3, m1, ?_⟩
      rw [← D4_eq, cast_un m2]
      exact h6

/-- As stated the property is false: of two separate pixels in a row, the first one in the first
column, the second one is reported as lying in a hole of the first one, although the background
around it is not enclosed. -/
theorem C167_negation : ∃ (im : Image Nat) (c : Contour) (cs : List Contour),
    findContours im 0 = some (c :: cs) ∧ Open im 0 (1, 0) ∧
    ∃ c' ∈ cs, c'.outer = true ∧ c'.points = [(2, 0)] ∧ c'.parent = some 0 := by
  refine ⟨⟨4, 1, fun x _ => if x = 0 ∨ x = 2 then 1 else 0⟩, ⟨[(0, 0)], false, none⟩,
    [⟨[(2, 0)], true, some 0⟩], by decide +kernel, ?_, _, List.mem_singleton_self _, rfl, rfl, rfl⟩
  refine Relation.ReflTransGen.head (b := (1, -1)) ⟨by decide +kernel, by decide +kernel, ?_⟩
    (open_out (by decide))
  unfold Touch4 Touch
  decide

/-- ... and the hole of a ring that touches the left edge of the image has no parent. -/
theorem C167_negation_hole : ∃ (im : Image Nat) (cs : List Contour) (c : Contour),
    findContours im 0 = some cs ∧ c ∈ cs ∧ c.outer = false ∧ c.parent = none ∧
    c.points.head? = some (0, 1) ∧ fg im 0 (1, 1) = false ∧ ¬ Open im 0 (1, 1) := by
  refine ⟨⟨4, 3, fun x y => if x = 3 ∨ (x = 1 ∧ y = 1) then 0 else 1⟩,
    [⟨[(2, 0), (1, 0), (0, 0), (0, 1), (0, 2), (1, 2), (2, 2), (2, 1)], false, none⟩,
    ⟨[(0, 1), (1, 0), (2, 1), (1, 2)], false, none⟩], _, by decide +kernel,
    List.mem_of_getElem? (i := 1) rfl, rfl, rfl, rfl, by decide +kernel, ?_⟩
  intro ho
  have key : ∀ q, Conn4 (fg ⟨4, 3, fun x y => if x = 3 ∨ (x = 1 ∧ y = 1) then 0 else 1⟩ 0) (1, 1) q →
      q = (1, 1) := by
    intro q hq
    induction hq with
    | refl => rfl
    | @tail a b _ h2 ih =>
      subst ih
      obtain ⟨_, h2, h3⟩ := h2
      obtain ⟨x, y⟩ := b
      unfold Touch4 Touch at h3
      dsimp only at h3
      have : (x = 1 ∧ y = 0) ∨ (x = 1 ∧ y = 2) ∨ (x = 0 ∧ y = 1) ∨ (x = 2 ∧ y = 1) ∨
        (x = 1 ∧ y = 1) := by omega
      rcases this with ⟨rfl, rfl⟩ | ⟨rfl, rfl⟩ | ⟨rfl, rfl⟩ | ⟨rfl, rfl⟩ | ⟨rfl, rfl⟩
      · exact absurd h2 (by decide +kernel)
      · exact absurd h2 (by decide +kernel)
      · exact absurd h2 (by decide +kernel)
      · exact absurd h2 (by decide +kernel)
      · rfl
  exact absurd (key _ ho) (by decide)

example : ∃ (cs : List Contour) (c : Contour), findContours nestIm 0 = some cs ∧ c ∈ cs ∧ c.outer = true ∧
    c.parent = some 1 := by
  exact ⟨_, _, nest_contours, List.mem_of_getElem? (i := 2) rfl, rfl, rfl⟩

/-! ### C168: counting objects -/

/-- The colour classes of a two-coloured image are the regions of the image it was made from. -/
theorem region_connected {α : Type _} {b : Image α} {bg v : α} (hv : v ≠ bg) (hw : b.w = im.w)
    (hh : b.h = im.h) (hb : ∀ x y, im.InB x y → (b.px x y = if im.px x y > t then v else bg))
    {p q : Nat × Nat} (hp : Fore im t p) :
    Regions.Connected b .eight p q ↔ Region im t p q := by
  have col : ∀ r : Nat × Nat, im.InB r.1 r.2 → (b.px r.1 r.2 = v ↔ Fore im t r) := by
    intro r hr
    rw [hb _ _ hr]
    have hr' := hr
    unfold Fore
    split
    · rename_i h; exact ⟨fun _ => ⟨hr.1, hr.2, h⟩, fun _ => rfl⟩
    · rename_i h; exact ⟨fun e => (hv e.symm).elim, fun e => (h e.2.2).elim⟩
  constructor
  · intro h
    suffices Region im t p q ∧ Fore im t q from this.1
    induction h with
    | refl => exact ⟨Relation.ReflTransGen.refl, hp⟩
    | @tail a c _ h2 ih =>
      obtain ⟨h3, h4, h5, h6⟩ := h2
      have h3' : im.InB a.1 a.2 := ⟨hw ▸ h3.1, hh ▸ h3.2⟩
      have h4' : im.InB c.1 c.2 := ⟨hw ▸ h4.1, hh ▸ h4.2⟩
      have hc : Fore im t c := by
        rw [← col c h4', ← h6]
        exact (col a h3').mpr ih.2
      refine ⟨ih.1.tail ⟨ih.2, hc, h5.1, ?_⟩, hc⟩
      have := h5.2
      omega
  · intro h
    induction h with
    | refl => exact Relation.ReflTransGen.refl
    | @tail a c _ h2 ih =>
      obtain ⟨h3, h4, h5⟩ := h2
      have ha : im.InB a.1 a.2 := ⟨h3.1, h3.2.1⟩
      have hc : im.InB c.1 c.2 := ⟨h4.1, h4.2.1⟩
      refine ih.tail ⟨⟨hw ▸ ha.1, hh ▸ ha.2⟩, ⟨hw ▸ hc.1, hh ▸ hc.2⟩, ⟨h5.1, ?_⟩, ?_⟩
      · have := h5.2
        omega
      · rw [(col a ha).mpr h3, (col c hc).mpr h4]

/-- If the first column contains no foreground, the number of outer contours is the largest label
that `connected_components` (eight neighbours) assigns to the thresholded image. -/
theorem C168_count_partial {α : Type _} [DecidableEq α] {b : Image α} {bg v : α} {out : Image Nat}
    {cs : List Contour} (hcl : ClearLeft im t) (h : findContours im t = some cs) (hv : v ≠ bg)
    (hw : b.w = im.w) (hh : b.h = im.h)
    (hb : ∀ x y, im.InB x y → (b.px x y = if im.px x y > t then v else bg))
    (e : Regions.connectedComponents b .eight bg = some out) :
    (∀ x y, im.InB x y → out.px x y ≤ cs.countP (·.outer)) ∧
    (cs.countP (·.outer) ≠ 0 → ∃ x y, im.InB x y ∧ out.px x y = cs.countP (·.outer)) := by
  obtain ⟨_, _, h4⟩ := Regions.C04_labels_iff_connected b .eight bg out e
  obtain ⟨h5, h6⟩ := Regions.C05_labels_raster_order b .eight bg out e
  have inb : ∀ {x y}, im.InB x y ↔ b.InB x y := by
    intro x y
    unfold Image.InB
    rw [hw, hh]
  have col : ∀ {r : Nat × Nat}, Fore im t r → b.px r.1 r.2 ≠ bg := by
    intro r hr
    rw [hb _ _ ⟨hr.1, hr.2.1⟩, if_pos hr.2.2]
    exact hv
  have hlab : ∀ {p q : Nat × Nat}, Fore im t p → Fore im t q →
      (out.px p.1 p.2 = out.px q.1 q.2 ↔ Region im t p q) := by
    intro p q hp hq
    rw [h4 p q (inb.mp ⟨hp.1, hp.2.1⟩) (inb.mp ⟨hq.1, hq.2.1⟩) (col hp) (col hq),
      region_connected hv hw hh hb hp]
  let lab : Contour → Nat := fun c => out.px (c.points.headD (0, 0)).1 (c.points.headD (0, 0)).2
  let L := (cs.filter (·.outer)).map lab
  have hlen : L.length = cs.countP (·.outer) := by
    rw [List.length_map, List.countP_eq_length_filter]
  -- heads
  have head : ∀ c ∈ cs, c.outer = true → ∃ p, c.points.head? = some p ∧ Fore im t p ∧
      lab c = out.px p.1 p.2 := by
    intro c hc ho
    obtain ⟨p, k1, k2, _⟩ := C166_first_partial hcl h hc ho
    refine ⟨p, k1, k2, ?_⟩
    show out.px (c.points.headD (0, 0)).1 (c.points.headD (0, 0)).2 = _
    rw [List.headD_eq_head?_getD, k1]
    rfl
  have hnd : L.Nodup := by
    show List.Pairwise _ _
    rw [List.pairwise_map]
    have hpw : cs.Pairwise (fun c c' => c.outer = true → c'.outer = true → lab c ≠ lab c') := by
      rw [List.pairwise_iff_getElem]
      intro i j hi hj hij ho ho' heq
      obtain ⟨p, k1, k2, k3⟩ := head _ (List.getElem_mem hi) ho
      obtain ⟨p', m1, m2, m3⟩ := head _ (List.getElem_mem hj) ho'
      rw [k3, m3, hlab k2 m2] at heq
      have hu := C166_outer_partial hcl h k2
      have := hu.unique (y₁ := i) (y₂ := j)
        ⟨_, List.getElem?_eq_getElem hi, ho, p, List.mem_of_mem_head? (by rw [k1]; rfl),
          Relation.ReflTransGen.refl⟩
        ⟨_, List.getElem?_eq_getElem hj, ho', p', List.mem_of_mem_head? (by rw [m1]; rfl), heq⟩
      omega
    refine (hpw.filter _).imp_of_mem ?_
    intro c c' hc hc' hne
    exact hne (List.mem_filter.mp hc).2 (List.mem_filter.mp hc').2
  have hmem : ∀ n, n ∈ L ↔ n ≠ 0 ∧ ∃ x y, im.InB x y ∧ out.px x y = n := by
    intro n
    constructor
    · intro hn
      obtain ⟨c, hc, rfl⟩ := List.mem_map.mp hn
      obtain ⟨hc1, hc2⟩ := List.mem_filter.mp hc
      obtain ⟨p, k1, k2, k3⟩ := head c hc1 hc2
      have hi : im.InB p.1 p.2 := ⟨k2.1, k2.2.1⟩
      rw [k3]
      exact ⟨fun h0 => col k2 ((h5 p (inb.mp hi)).mp h0), _, _, hi, rfl⟩
    · rintro ⟨hn, x, y, hi, hxy⟩
      have hf : Fore im t (x, y) := by
        by_contra hc
        apply hn
        rw [← hxy, h5 (x, y) (inb.mp hi), hb _ _ hi, if_neg]
        exact fun h1 => hc ⟨hi.1, hi.2, h1⟩
      obtain ⟨i, ⟨c, h1, h2, q, h3, h4'⟩, _⟩ := C166_outer_partial hcl h hf
      have hc := List.mem_of_getElem? h1
      obtain ⟨p, k1, k2, k3⟩ := head c hc h2
      obtain ⟨hr, hfo⟩ := C52_chain h hc
      have hreg : Region im t (x, y) p := h4'.trans (region_symm (ring_region hr hfo k1 q h3))
      refine List.mem_map.mpr ⟨c, List.mem_filter.mpr ⟨hc, h2⟩, ?_⟩
      rw [k3, ← hxy]
      exact ((hlab hf k2).mpr hreg).symm
  have hdown : ∀ n ∈ L, ∀ j, 1 ≤ j → j ≤ n → j ∈ L := by
    intro n hn j h1 h2
    rcases Nat.lt_or_ge j n with h3 | h3
    · obtain ⟨_, x, y, hi, hxy⟩ := (hmem n).mp hn
      obtain ⟨q, hq, _, hj⟩ := h6 (x, y) (inb.mp hi) j h1 (by dsimp only; omega)
      exact (hmem j).mpr ⟨by omega, _, _, inb.mpr hq, hj⟩
    · rw [show j = n by omega]; exact hn
  have hcard : L.toFinset.card = cs.countP (·.outer) := by
    rw [List.toFinset_card_of_nodup hnd, hlen]
  constructor
  · intro x y hi
    by_cases h0 : out.px x y = 0
    · omega
    · have hn := (hmem _).mpr ⟨h0, x, y, hi, rfl⟩
      have hsub : Finset.Icc 1 (out.px x y) ⊆ L.toFinset := by
        intro j hj
        rw [Finset.mem_Icc] at hj
        exact List.mem_toFinset.mpr (hdown _ hn j hj.1 hj.2)
      have := Finset.card_le_card hsub
      rw [hcard, Nat.card_Icc] at this
      omega
  · intro h0
    by_contra hc
    push Not at hc
    have hsub : L.toFinset ⊆ Finset.Icc 1 (cs.countP (·.outer) - 1) := by
      intro j hj
      have hj := List.mem_toFinset.mp hj
      have hj0 := ((hmem j).mp hj).1
      rw [Finset.mem_Icc]
      refine ⟨by omega, ?_⟩
      by_contra hgt
      have hin := hdown j hj (cs.countP (·.outer)) (by omega) (by omega)
      obtain ⟨_, x, y, hi, hxy⟩ := (hmem _).mp hin
      exact hc x y hi hxy
    have := Finset.card_le_card hsub
    rw [hcard, Nat.card_Icc] at this
    omega

/-- As stated the property is false: a single pixel in the first column is one component, but there
is no outer contour. -/
theorem C168_negation : ∃ (im : Image Nat) (cs : List Contour) (out : Image Nat),
    findContours im 0 = some cs ∧ cs.countP (·.outer) = 0 ∧
    Regions.connectedComponents im .eight 0 = some out ∧ out.px 0 0 = 1 := by
  refine ⟨⟨3, 1, fun x _ => if x = 0 then 1 else 0⟩, [⟨[(0, 0)], false, none⟩], _,
    by decide +kernel, rfl, rfl, ?_⟩
  decide +kernel

example : ∃ cs out, findContours nestIm 0 = some cs ∧ cs.countP (·.outer) = 2 ∧
    Regions.connectedComponents nestIm .eight 0 = some out ∧ out.px 3 3 = 2 := by
  refine ⟨_, _, nest_contours, rfl, rfl, ?_⟩
  decide +kernel

end Verif.Contours
