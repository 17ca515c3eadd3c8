import Verif.Contours.Props
import Verif.Contours.Wind
/-
Which contours are outer borders and which are holes, and how they are nested.
-/
namespace Verif.Contours
variable {im : Image Nat} {t : Nat}

/-- No foreground in the first column. -/
def ClearLeft (im : Image Nat) (t : Nat) : Prop := ∀ y, y < im.h → im.px 0 y ≤ t

theorem fg_low {p : Int × Int} (h : fg im t p = true) : 0 ≤ p.1 ∧ 0 ≤ p.2 := by
  have := (fg_iff.mp h).1
  omega

theorem fg_natCast {a b : Nat} : fg im t ((a : Int), (b : Int)) = true ↔
    (a < im.w ∧ b < im.h) ∧ im.px a b > t := by
  rw [fg_iff]
  dsimp only
  rw [Int.toNat_natCast, Int.toNat_natCast]
  refine and_congr_left fun _ => ?_
  omega

theorem fg_natCast_false {a b : Nat} (ha : a < im.w) (hb : b < im.h) :
    fg im t ((a : Int), (b : Int)) = false ↔ im.px a b ≤ t := by
  rw [Bool.eq_false_iff, Ne, fg_natCast]
  have : a < im.w ∧ b < im.h := ⟨ha, hb⟩
  constructor
  · intro h
    by_contra hc
    exact h ⟨this, by omega⟩
  · intro h h'
    omega

theorem D0_eq (x y : Int) : ((x, y) : Int × Int) + D 0 = (x - 1, y) := by
  refine Prod.ext ?_ ?_
  · simp [D, dirs]; omega
  · simp [D, dirs]

theorem D4_eq (x y : Int) : ((x, y) : Int × Int) + D 4 = (x + 1, y) := by
  refine Prod.ext ?_ ?_ <;> simp [D, dirs]

theorem conn4_row {F : Int × Int → Bool} (y : Int) (n : Nat) (a : Int)
    (h : ∀ c, a ≤ c → c ≤ a + n → F (c, y) = false) : Conn4 F (a, y) (a + n, y) := by
  induction n with
  | zero => rw [show a + ((0 : Nat) : Int) = a by omega]; exact Relation.ReflTransGen.refl
  | succ n ih =>
    refine (ih fun c h1 h2 => h c h1 (by push_cast; omega)).tail
      ⟨h _ (by omega) (by push_cast; omega), h _ (by push_cast; omega) (le_refl _), ?_⟩
    unfold Touch4 Touch
    push_cast
    omega

theorem conn8_row {F : Int × Int → Bool} (y : Int) (n : Nat) (a : Int)
    (h : ∀ c, a ≤ c → c ≤ a + n → F (c, y) = true) : Conn8 F (a, y) (a + n, y) := by
  induction n with
  | zero => rw [show a + ((0 : Nat) : Int) = a by omega]; exact Relation.ReflTransGen.refl
  | succ n ih =>
    refine (ih fun c h1 h2 => h c h1 (by push_cast; omega)).tail
      ⟨h _ (by omega) (by push_cast; omega), h _ (by push_cast; omega) (le_refl _), ?_⟩
    unfold Touch
    push_cast
    omega

theorem conn4_col {F : Int × Int → Bool} (x : Int) (n : Nat) (a : Int)
    (h : ∀ c, a ≤ c → c ≤ a + n → F (x, c) = false) : Conn4 F (x, a) (x, a + n) := by
  induction n with
  | zero => rw [show a + ((0 : Nat) : Int) = a by omega]; exact Relation.ReflTransGen.refl
  | succ n ih =>
    refine (ih fun c h1 h2 => h c h1 (by push_cast; omega)).tail
      ⟨h _ (by omega) (by push_cast; omega), h _ (by push_cast; omega) (le_refl _), ?_⟩
    unfold Touch4 Touch
    push_cast
    omega

theorem orb_symm {s u : (Int × Int) × Nat} (h : Dart (fg im t) s)
    (hu : u ∈ orb (allStates im) (fg im t) s) : s ∈ orb (allStates im) (fg im t) u := by
  obtain ⟨n, rfl⟩ := (mem_orb _ (all_darts im t) h).mp hu
  exact (mem_orb _ (all_darts im t) (dart_iter _ (all_darts im t) h n)).mpr
    (crack_back _ (all_darts im t) h n)

/-- A trace that sees one side of a border sees all of them. -/
theorem Traced.whole {c : Contour} {T : (Int × Int) × Nat → Prop} (h : Traced im t c T)
    {s : (Int × Int) × Nat} {d : Nat} (hs : T s) (hd : d % 2 = 0) (hsee : Sees (fg im t) s d)
    {q : Int × Int} {e : Nat} (hq : (q, e) ∈ orb (allStates im) (fg im t) (s.1, d)) :
    ∃ s', T s' ∧ s'.1 = q ∧ Sees (fg im t) s' e := by
  have hdart := sees_dart (h.isfg s hs) hd hsee
  obtain ⟨n, e1⟩ := (mem_orb _ (all_darts im t) hdart).mp hq
  obtain ⟨s', a, b, _, c⟩ := h.iter hs hd hsee n
  rw [e1] at b c
  exact ⟨s', a, b, c⟩

/-- All sides of a trace are connected to its start. -/
theorem Traced.conn {c : Contour} {T : (Int × Int) × Nat → Prop} (h : Traced im t c T)
    {p : Int × Int} (hp : c.points.head? = some (un p)) (hpf : fg im t p = true)
    {s : (Int × Int) × Nat} {d : Nat} (hs : T s) (hd : d % 2 = 0) (hsee : Sees (fg im t) s d) :
    Conn8 (fg im t) s.1 p ∧ Conn4 (fg im t) (s.1 + D d) (p + D (startDir c.outer)) := by
  obtain ⟨s0, a1, a2, a3, _, a5⟩ := h.start
  have e0 : s0.1 = p := un_inj (h.isfg _ a1) hpf (Option.some.inj (a2.symm.trans hp))
  obtain ⟨r, er⟩ := a5 s d hs hd hsee
  have := iter_conn (sees_dart (h.isfg s hs) hd hsee) r
  rw [er, e0] at this
  exact this

theorem Traced.conn8 {c : Contour} {T : (Int × Int) × Nat → Prop} (h : Traced im t c T)
    {p : Int × Int} (hp : c.points.head? = some (un p)) (hpf : fg im t p = true)
    {s : (Int × Int) × Nat} (hs : T s) : Conn8 (fg im t) s.1 p := by
  obtain ⟨d, hd, hsee⟩ := h.bord s hs
  exact (h.conn hp hpf hs hd hsee).1

/-- Where a contour of either type starts. -/
def Kind (F : Int × Int → Bool) (outer : Bool) (p : Int × Int) : Prop :=
  if outer then FirstFg F p else FirstBg F (p + D 4)

/-- The parent of a contour with first point `p` that is listed in `cs`: for an outer contour the
hole that contains its region, for a hole the outer contour of the region around it. -/
def Family (im : Image Nat) (t : Nat) (cs : List Contour) (c : Contour) (p : Int × Int) : Prop :=
  if c.outer then
    (c.parent = none ∧ Conn4 (fg im t) (p + D 0) (-1, -1)) ∨
    ∃ j c' p', c.parent = some j ∧ cs[j]? = some c' ∧ c'.outer = false ∧
      c'.points.head? = some (un p') ∧ fg im t p' = true ∧ Conn4 (fg im t) (p + D 0) (p' + D 4)
  else
    ∃ j c' p', c.parent = some j ∧ cs[j]? = some c' ∧ c'.outer = true ∧
      c'.points.head? = some (un p') ∧ fg im t p' = true ∧ Conn8 (fg im t) p p'

theorem Family.mono {cs : List Contour} {c : Contour} {p : Int × Int} (h : Family im t cs c p)
    (l : List Contour) : Family im t (cs ++ l) c p := by
  have key : ∀ (j : Nat) (c' : Contour), cs[j]? = some c' → (cs ++ l)[j]? = some c' := by
    intro j c' hj
    rw [List.getElem?_append_left]
    · exact hj
    · by_contra hc
      rw [List.getElem?_eq_none (by omega)] at hj
      simp at hj
  unfold Family at h ⊢
  split
  · rename_i ho
    rw [if_pos ho] at h
    refine h.imp id ?_
    rintro ⟨j, c', p', h1, h2, h3⟩
    exact ⟨j, c', p', h1, key j c' h2, h3⟩
  · rename_i ho
    rw [if_neg ho] at h
    obtain ⟨j, c', p', h1, h2, h3⟩ := h
    exact ⟨j, c', p', h1, key j c' h2, h3⟩

/-- The rest of the invariant of the scan, for images whose first column is background. -/
structure Ext (im : Image Nat) (t : Nat) (x y : Nat) (s : St)
    (Ts : Nat → (Int × Int) × Nat → Prop) : Prop where
  easts : ∀ a b, a < im.w → b < im.h → Before a b x y → im.px a b > t →
    a + 1 < im.w → im.px (a + 1) b ≤ t → s.v.px a b < 0
  neg : ∀ a b, a + 1 < im.w → b < im.h → s.v.px a b < 0 →
    ∃ σ, Ts ((s.v.px a b).natAbs - 2) σ ∧ un σ.1 = (a, b) ∧ Sees (fg im t) σ 4
  kinds : ∀ (i : Nat) (c : Contour), s.contours[i]? = some c → ∃ p, c.points.head? = some (un p) ∧ fg im t p = true ∧
    Before (un p).1 (un p).2 x y ∧ Kind (fg im t) c.outer p
  firsts : ∀ p, FirstFg (fg im t) p → Before (un p).1 (un p).2 x y →
    ∃ (i : Nat) (c : Contour), s.contours[i]? = some c ∧ c.outer = true ∧
      c.points.head? = some (un p)
  family : ∀ (i : Nat) (c : Contour) (p : Int × Int), s.contours[i]? = some c → c.points.head? = some (un p) → fg im t p = true →
    Family im t s.contours c p
  last : (s.parent = 1 ∧ ∀ a, a < x → s.v.px a y = 0 ∨ s.v.px a y = 1) ∨
    ∃ a, a < x ∧ 2 ≤ s.parent ∧ s.v.px a y ≠ 0 ∧ s.v.px a y ≠ 1 ∧
      (s.v.px a y).natAbs = s.parent ∧
      ∀ a', a < a' → a' < x → s.v.px a' y = 0 ∨ s.v.px a' y = 1

section step
variable {x y : Nat} {s : St} {Ts : Nat → (Int × Int) × Nat → Prop}

theorem zero_iff (h : Core im t s Ts) {a b : Nat} (ha : a < im.w) (hb : b < im.h) :
    s.v.px a b = 0 ↔ im.px a b ≤ t := by
  have := h.rel.2.2 a b ha hb
  constructor
  · intro e
    by_contra hc
    exact this.mpr (by omega) e
  · intro e
    by_contra hc
    have := this.mp hc
    omega

/-- A visited pixel belongs to the region of a contour. -/
theorem visited (h : Core im t s Ts) (hE : Ext im t x y s Ts) {a b : Nat} (ha : a < im.w)
    (hb : b < im.h) (hf : im.px a b > t) (hv : s.v.px a b ≠ 1) :
    ∃ c p, s.contours[(s.v.px a b).natAbs - 2]? = some c ∧ c.points.head? = some (un p) ∧
      fg im t p = true ∧ Before (un p).1 (un p).2 x y ∧ Kind (fg im t) c.outer p ∧
      Conn8 (fg im t) ((a : Int), (b : Int)) p := by
  obtain ⟨_, _, σ, h1, h2⟩ := h.val a b ha hb hf hv
  have hi := h.dom _ σ h1
  have htr := h.traced _ _ (List.getElem?_eq_getElem hi)
  obtain ⟨p, k1, k2, k3, k4⟩ := hE.kinds _ _ (List.getElem?_eq_getElem hi)
  have e : σ.1 = ((a : Int), (b : Int)) :=
    un_inj (htr.isfg _ h1) (fg_natCast.mpr ⟨⟨ha, hb⟩, hf⟩) h2
  refine ⟨_, p, List.getElem?_eq_getElem hi, k1, k2, k3, k4, ?_⟩
  rw [← e]
  exact htr.conn8 k1 k2 h1

theorem before_of {p : Int × Int} (hp : fg im t p = true) (h : RLe p ((x : Int), (y : Int)))
    (hne : p ≠ ((x : Int), (y : Int))) : Before (un p).1 (un p).2 x y := by
  have := fg_low hp
  unfold RLe at h
  dsimp only at h
  unfold Before un
  dsimp only
  by_contra hc
  exact hne (Prod.ext (by dsimp only; omega) (by dsimp only; omega))

theorem not_before {p : Int × Int} (hp : fg im t p = true) (h : RLe ((x : Int), (y : Int)) p) :
    ¬ Before (un p).1 (un p).2 x y := by
  have := fg_low hp
  unfold RLe at h
  dsimp only at h
  unfold Before un
  dsimp only
  omega

/-- The first pixel of a region has not been visited when the scan reaches it. -/
theorem first_unvisited (h : Core im t s Ts) (hE : Ext im t x y s Ts) (hx : x < im.w) (hy : y < im.h)
    (hP : FirstFg (fg im t) ((x : Int), (y : Int))) : s.v.px x y = 1 := by
  by_contra hv
  obtain ⟨c, p, _, _, k2, k3, _, k5⟩ := visited h hE hx hy (fg_natCast.mp hP.1).2 hv
  exact not_before k2 (hP.2 p k5) k3

/-- Sides to the left of first pixels of holes have been traced once the scan has passed them. -/
theorem early_east (h : Core im t s Ts) (hE : Ext im t x y s Ts) {Q : Int × Int}
    (hQ : FirstBg (fg im t) Q) (hb : Before (un (Q + D 0)).1 (un (Q + D 0)).2 x y) :
    ∃ i c σ, s.contours[i]? = some c ∧ Ts i σ ∧ σ.1 = Q + D 0 ∧ Sees (fg im t) σ 4 := by
  have hW := hQ.west
  have hN := hQ.north
  obtain ⟨X, Y⟩ := Q
  have e2 : ((X, Y) : Int × Int) + D 2 = (X, Y - 1) := by
    refine Prod.ext ?_ ?_ <;> simp [D, dirs]; omega
  rw [D0_eq] at hb hW ⊢
  rw [e2] at hN
  have b1 := fg_iff.mp hW
  have b2 := (fg_iff.mp hN).1
  dsimp only at b1 b2
  unfold un at hb
  dsimp only at hb
  have hbg : im.px ((X - 1).toNat + 1) Y.toNat ≤ t := by
    have := hQ.1
    rw [show ((X, Y) : Int × Int) = ((((X - 1).toNat + 1 : Nat) : Int), ((Y.toNat : Nat) : Int)) from
      Prod.ext (by dsimp only; omega) (by dsimp only; omega),
      fg_natCast_false (by omega) (by omega)] at this
    exact this
  have hneg := hE.easts (X - 1).toNat Y.toNat (by omega) (by omega) hb b1.2 (by omega) hbg
  obtain ⟨σ, q1, q2, q3⟩ := hE.neg _ _ (by omega) (by omega) hneg
  have hi := h.dom _ σ q1
  have htr := h.traced _ _ (List.getElem?_eq_getElem hi)
  exact ⟨_, _, σ, List.getElem?_eq_getElem hi, q1, un_inj (htr.isfg _ q1) hW q2, q3⟩

/-- Sides of first pixels of regions have been traced once the scan has passed them. -/
theorem early_west (h : Core im t s Ts) (hE : Ext im t x y s Ts) {P : Int × Int}
    (hP : FirstFg (fg im t) P) (hb : Before (un P).1 (un P).2 x y) :
    ∃ i c σ, s.contours[i]? = some c ∧ Ts i σ ∧ σ.1 = P ∧ Sees (fg im t) σ 0 := by
  obtain ⟨i, c, h1, h2, h3⟩ := hE.firsts P hP hb
  have htr := h.traced i c h1
  obtain ⟨s0, a1, a2, a3, _⟩ := htr.start
  rw [h2] at a3
  exact ⟨i, c, s0, h1, a1, un_inj (htr.isfg _ a1) hP.1 (Option.some.inj (a2.symm.trans h3)), a3⟩

/-- An outer border is only started at the first pixel of a region. -/
theorem outer_first (h : Core im t s Ts) (hE : Ext im t x y s Ts) (hx : x < im.w) (hy : y < im.h)
    (hout : (s.v.px x y = 1 ∧ x > 0) ∧ im.px (x - 1) y ≤ t) :
    FirstFg (fg im t) ((x : Int), (y : Int)) := by
  have hf : im.px x y > t := by
    by_contra hc
    have := (zero_iff h hx hy).mpr (by omega)
    omega
  have hPf : fg im t ((x : Int), (y : Int)) = true := fg_natCast.mpr ⟨⟨hx, hy⟩, hf⟩
  have hW : fg im t (((x : Int), (y : Int)) + D 0) = false := by
    rw [D0_eq, show ((x : Int) - 1) = ((x - 1 : Nat) : Int) by omega,
      fg_natCast_false (by omega) hy]
    exact hout.2
  have hd : Dart (fg im t) (((x : Int), (y : Int)), 0) :=
    ⟨hPf, show 0 < 8 by decide, show 0 % 2 = 0 from rfl, hW⟩
  -- nothing traced so far passes through the pixel
  have hno : ∀ i c σ e, s.contours[i]? = some c → Ts i σ → e % 2 = 0 → Sees (fg im t) σ e →
      (((x : Int), (y : Int)), 0) ∈ orb (allStates im) (fg im t) (σ.1, e) → False := by
    intro i c σ e h1 h2 h3 h4 h5
    obtain ⟨σ', a, b, _⟩ := (h.traced i c h1).whole h2 h3 h4 h5
    have := h.one i σ' a
    rw [b] at this
    exact this hout.1.1
  rcases outer_or_hole _ (all_darts im t) (fun _ => fg_low) hd with ⟨P0, hP0, hc, hm⟩ | ⟨Q, hQ, hc, hm⟩
  · by_cases he : P0 = ((x : Int), (y : Int))
    · rw [← he]; exact hP0
    · exfalso
      obtain ⟨i, c, σ, h1, h2, h3, h4⟩ := early_west h hE hP0
        (before_of hP0.1 (hP0.2 _ hc.symm) he)
      refine hno i c σ 0 h1 h2 rfl h4 ?_
      rw [h3]
      exact orb_symm hd hm
  · exfalso
    have hle := hQ.2 _ (Conn4.symm hc)
    have hb : Before (un (Q + D 0)).1 (un (Q + D 0)).2 x y := by
      apply before_of hQ.west
      · obtain ⟨X, Y⟩ := Q
        dsimp only at hle
        rw [D0_eq] at hle ⊢
        unfold RLe at hle ⊢
        dsimp only at hle ⊢
        omega
      · intro he
        obtain ⟨X, Y⟩ := Q
        dsimp only at hle
        rw [D0_eq] at hle he
        simp only [Prod.mk.injEq] at he
        unfold RLe at hle
        dsimp only at hle
        omega
    obtain ⟨i, c, σ, h1, h2, h3, h4⟩ := early_east h hE hQ hb
    refine hno i c σ 4 h1 h2 rfl h4 ?_
    rw [h3]
    exact orb_symm hd hm

/-- A hole border is only started to the left of the first pixel of a hole. -/
theorem hole_first (hcl : ClearLeft im t) (h : Core im t s Ts) (hE : Ext im t x y s Ts)
    (hx : x < im.w) (hy : y < im.h)
    (hout : ¬ ((s.v.px x y = 1 ∧ x > 0) ∧ im.px (x - 1) y ≤ t))
    (hhole : (s.v.px x y > 0 ∧ x + 1 < im.w) ∧ im.px (x + 1) y ≤ t) :
    FirstBg (fg im t) (((x : Int), (y : Int)) + D 4) := by
  have hf : im.px x y > t := by
    by_contra hc
    have := (zero_iff h hx hy).mpr (by omega)
    omega
  have hx0 : x ≠ 0 := by
    rintro rfl
    have := hcl y hy
    omega
  have hPf : fg im t ((x : Int), (y : Int)) = true := fg_natCast.mpr ⟨⟨hx, hy⟩, hf⟩
  have hEb : fg im t (((x : Int), (y : Int)) + D 4) = false := by
    rw [D4_eq, show ((x : Int) + 1) = ((x + 1 : Nat) : Int) by omega,
      fg_natCast_false (by omega) hy]
    exact hhole.2
  have hd : Dart (fg im t) (((x : Int), (y : Int)), 4) :=
    ⟨hPf, show 4 < 8 by decide, show 4 % 2 = 0 from rfl, hEb⟩
  have hno : ∀ i c σ e, s.contours[i]? = some c → Ts i σ → e % 2 = 0 → Sees (fg im t) σ e →
      (((x : Int), (y : Int)), 4) ∈ orb (allStates im) (fg im t) (σ.1, e) → False := by
    intro i c σ e h1 h2 h3 h4 h5
    obtain ⟨σ', a, b, b'⟩ := (h.traced i c h1).whole h2 h3 h4 h5
    have := h.east i σ' a b'
    rw [b] at this
    have e1 : un ((x : Int), (y : Int)) = (x, y) := rfl
    rw [e1] at this
    dsimp only at this
    omega
  rcases outer_or_hole _ (all_darts im t) (fun _ => fg_low) hd with ⟨P0, hP0, hc, hm⟩ | ⟨Q, hQ, hc, hm⟩
  · exfalso
    by_cases he : P0 = ((x : Int), (y : Int))
    · rw [he] at hP0
      have h1 := first_unvisited h hE hx hy hP0
      have h2 := hP0.west
      rw [D0_eq, show ((x : Int) - 1) = ((x - 1 : Nat) : Int) by omega,
        fg_natCast_false (by omega) hy] at h2
      exact hout ⟨⟨h1, by omega⟩, h2⟩
    · obtain ⟨i, c, σ, h1, h2, h3, h4⟩ := early_west h hE hP0
        (before_of hP0.1 (hP0.2 _ hc.symm) he)
      refine hno i c σ 0 h1 h2 rfl h4 ?_
      rw [h3]
      exact orb_symm hd hm
  · by_cases he : Q = ((x : Int), (y : Int)) + D 4
    · rw [← he]; exact hQ
    · exfalso
      have hle := hQ.2 _ (Conn4.symm hc)
      have hb : Before (un (Q + D 0)).1 (un (Q + D 0)).2 x y := by
        apply before_of hQ.west
        · obtain ⟨X, Y⟩ := Q
          dsimp only at hle
          rw [D4_eq] at hle
          rw [D0_eq]
          unfold RLe at hle ⊢
          dsimp only at hle ⊢
          omega
        · intro he'
          apply he
          rw [← he', west_east]
      obtain ⟨i, c, σ, h1, h2, h3, h4⟩ := early_east h hE hQ hb
      refine hno i c σ 4 h1 h2 rfl h4 ?_
      rw [h3]
      exact orb_symm hd hm

/-- Left of the last marked pixel there is nothing to see: before the first marked pixel of a row
everything is background. -/
theorem row_clear (hcl : ClearLeft im t) (hI : Inv im t x y s Ts) (hx : x < im.w) (hy : y < im.h)
    (hl : ∀ a, a < x → s.v.px a y = 0 ∨ s.v.px a y = 1) : ∀ a, a < x → im.px a y ≤ t := by
  intro a
  induction a with
  | zero => intro _; exact hcl y hy
  | succ a ih =>
    intro ha
    have h1 := ih (by omega)
    by_contra hc
    have h2 := hI.sides (a + 1) y (by omega) hy (Or.inr ⟨rfl, ha⟩) (by omega)
      (Or.inl ⟨by omega, h1⟩)
    rcases hl (a + 1) ha with e | e
    · exact hc ((zero_iff hI.core (by omega) hy).mp e)
    · exact h2 e

/-- Between the last marked pixel and a pixel with background on its left there is only
background. -/
theorem gap_clear (hI : Inv im t x y s Ts) (hx : x < im.w) (hy : y < im.h) {a : Nat}
    (hl : ∀ a', a < a' → a' < x → s.v.px a' y = 0 ∨ s.v.px a' y = 1) (_hx0 : 0 < x)
    (hbg : im.px (x - 1) y ≤ t) : ∀ k, a < x - 1 - k → im.px (x - 1 - k) y ≤ t := by
  intro k
  induction k with
  | zero => intro _; exact hbg
  | succ k ih =>
    intro hk
    have h1 := ih (by omega)
    rw [show x - 1 - k = x - 1 - (k + 1) + 1 by omega] at h1
    by_contra hc
    have h2 := hI.sides (x - 1 - (k + 1)) y (by omega) hy (Or.inr ⟨rfl, by omega⟩) (by omega)
      (Or.inr ⟨by omega, h1⟩)
    rcases hl (x - 1 - (k + 1)) hk (by omega) with e | e
    · exact hc ((zero_iff hI.core (by omega) hy).mp e)
    · exact h2 e

/-- Between the last marked pixel and a pixel with foreground on its left there is only
foreground. -/
theorem gap_full (hI : Inv im t x y s Ts) (hx : x < im.w) (hy : y < im.h) {a : Nat}
    (hl : ∀ a', a < a' → a' < x → s.v.px a' y = 0 ∨ s.v.px a' y = 1) (hx0 : 0 < x)
    (hfg : im.px (x - 1) y > t) : ∀ k, a < x - 1 - k → im.px (x - 1 - k) y > t := by
  intro k
  induction k with
  | zero => intro _; exact hfg
  | succ k ih =>
    intro hk
    have h1 := ih (by omega)
    by_contra hc
    have h2 := hI.sides (x - 1 - k) y (by omega) hy (Or.inr ⟨rfl, by omega⟩) h1
      (Or.inl ⟨by omega, by rw [show x - 1 - k - 1 = x - 1 - (k + 1) by omega]; omega⟩)
    rcases hl (x - 1 - k) (by omega) (by omega) with e | e
    · have := (zero_iff hI.core (by omega) hy).mp e
      omega
    · exact h2 e

theorem parentOf_one (cs : List Contour) (o : Bool) : parentOf cs 1 o = some none := rfl

theorem parentOf_big {cs : List Contour} {n : Nat} (hn : 2 ≤ n) {c : Contour}
    (hc : cs[n - 2]? = some c) (o : Bool) :
    parentOf cs n o = some (if xor o c.outer then some (n - 2) else c.parent) := by
  unfold parentOf
  rw [if_pos (by omega), hc]
  rfl

/-- The parent of an outer border. -/
theorem family_outer (hcl : ClearLeft im t) (hI : Inv im t x y s Ts) (hE : Ext im t x y s Ts)
    (hx : x < im.w) (hy : y < im.h)
    (hout : (s.v.px x y = 1 ∧ x > 0) ∧ im.px (x - 1) y ≤ t) {par : Option Nat}
    (hpar : parentOf s.contours s.parent true = some par) (pts : List (Nat × Nat)) :
    Family im t s.contours ⟨pts, true, par⟩ ((x : Int), (y : Int)) := by
  unfold Family
  dsimp only
  rw [if_pos rfl, D0_eq]
  rcases hE.last with ⟨h1, hl⟩ | ⟨a, ha, h2, hv0, hv1, hab, hl⟩
  · left
    rw [h1, parentOf_one] at hpar
    refine ⟨(Option.some.inj hpar).symm, ?_⟩
    have hclear := row_clear hcl hI hx hy hl
    have c1 := conn4_row (F := fg im t) (y : Int) x (-1) (by
      intro c hc1 hc2
      by_cases hneg : c < 0
      · rw [Bool.eq_false_iff]
        intro hc
        have := fg_low hc
        dsimp only at this
        omega
      · rw [show c = ((c.toNat : Nat) : Int) by omega, fg_natCast_false (by omega) hy]
        exact hclear _ (by omega))
    have c2 := conn4_col (F := fg im t) (-1) (y + 1) (-1) (by
      intro c _ _
      rw [Bool.eq_false_iff]
      intro hc
      have := fg_low hc
      dsimp only at this
      omega)
    rw [show (-1 : Int) + (x : Int) = (x : Int) - 1 by omega] at c1
    rw [show (-1 : Int) + ((y + 1 : Nat) : Int) = (y : Int) by push_cast; omega] at c2
    exact c1.symm.trans c2.symm
  · have haf : im.px a y > t := by
      by_contra hc
      exact hv0 ((zero_iff hI.core (by omega) hy).mpr (by omega))
    have hax : a + 1 < x := by
      by_contra hc
      have : a = x - 1 := by omega
      rw [this] at haf
      omega
    have hclear := gap_clear hI hx hy hl hout.1.2 hout.2
    have hab1 : im.px (a + 1) y ≤ t := by
      have := hclear (x - 1 - (a + 1)) (by omega)
      rwa [show x - 1 - (x - 1 - (a + 1)) = a + 1 by omega] at this
    have hneg := hE.easts a y (by omega) hy (Or.inr ⟨rfl, ha⟩) haf (by omega) hab1
    obtain ⟨σ, q1, q2, q3⟩ := hE.neg a y (by omega) hy hneg
    rw [hab] at q1
    have hi := hI.core.dom _ σ q1
    have hci : s.contours[s.parent - 2]? = some s.contours[s.parent - 2] :=
      List.getElem?_eq_getElem hi
    have htr := hI.core.traced _ _ hci
    obtain ⟨p', k1, k2, _, _⟩ := hE.kinds _ _ hci
    have eσ : σ.1 = ((a : Int), (y : Int)) :=
      un_inj (htr.isfg _ q1) (fg_natCast.mpr ⟨⟨by omega, hy⟩, haf⟩) q2
    have hcon := (htr.conn k1 k2 q1 (by rfl) q3).2
    rw [eσ, D4_eq] at hcon
    have c1 := conn4_row (F := fg im t) (y : Int) (x - 1 - (a + 1)) ((a : Int) + 1) (by
      intro c hc1 hc2
      rw [show c = ((c.toNat : Nat) : Int) by omega, fg_natCast_false (by omega) hy]
      have := hclear (x - 1 - c.toNat) (by omega)
      rwa [show x - 1 - (x - 1 - c.toNat) = c.toNat by omega] at this)
    rw [show (a : Int) + 1 + ((x - 1 - (a + 1) : Nat) : Int) = (x : Int) - 1 by omega] at c1
    have hall := c1.symm.trans hcon
    rw [parentOf_big h2 hci] at hpar
    have hfam := hE.family _ _ p' hci k1 k2
    cases ho : (s.contours[s.parent - 2]).outer
    · rw [ho] at hpar hall
      refine Or.inr ⟨s.parent - 2, _, p', ?_, hci, ho, k1, k2, hall⟩
      exact (Option.some.inj hpar).symm
    · rw [ho] at hpar hall
      unfold Family at hfam
      rw [ho, if_pos rfl] at hfam
      have hpar : (s.contours[s.parent - 2]).parent = par := Option.some.inj hpar
      rw [hpar] at hfam
      refine hfam.imp (fun h => ⟨h.1, hall.trans h.2⟩) ?_
      rintro ⟨j, c', p2, h1, h2, h3, h4, h5, h6⟩
      exact ⟨j, c', p2, h1, h2, h3, h4, h5, hall.trans h6⟩

/-- The parent of a hole, when a contour of the same region is known. -/
theorem family_of_region (hE : Ext im t x y s Ts) {n : Nat} (hn : 2 ≤ n)
    {c : Contour} {p q : Int × Int} (hc : s.contours[n - 2]? = some c)
    (hp : c.points.head? = some (un p)) (hpf : fg im t p = true) (hq : Conn8 (fg im t) q p)
    {par : Option Nat} (hpar : parentOf s.contours n false = some par) (pts : List (Nat × Nat)) :
    Family im t s.contours ⟨pts, false, par⟩ q := by
  unfold Family
  dsimp only
  rw [if_neg (by decide)]
  rw [parentOf_big hn hc] at hpar
  have hfam := hE.family _ _ p hc hp hpf
  cases ho : c.outer
  · rw [ho] at hpar
    unfold Family at hfam
    rw [ho, if_neg (by decide)] at hfam
    have hpar : c.parent = par := Option.some.inj hpar
    rw [hpar] at hfam
    obtain ⟨j, c', p2, h1, h2, h3, h4, h5, h6⟩ := hfam
    exact ⟨j, c', p2, h1, h2, h3, h4, h5, hq.trans h6⟩
  · rw [ho] at hpar
    exact ⟨n - 2, c, p, (Option.some.inj hpar).symm, hc, ho, hp, hpf, hq⟩

/-- The parent of a hole border. -/
theorem family_hole (hcl : ClearLeft im t) (hI : Inv im t x y s Ts) (hE : Ext im t x y s Ts)
    (hx : x < im.w) (hy : y < im.h)
    (hout : ¬ ((s.v.px x y = 1 ∧ x > 0) ∧ im.px (x - 1) y ≤ t)) (hpos : s.v.px x y > 0)
    {par : Option Nat}
    (hpar : parentOf s.contours (if s.v.px x y > 1 then (s.v.px x y).toNat else s.parent) false =
      some par) (pts : List (Nat × Nat)) :
    Family im t s.contours ⟨pts, false, par⟩ ((x : Int), (y : Int)) := by
  have hf : im.px x y > t := by
    by_contra hc
    have := (zero_iff hI.core hx hy).mpr (by omega)
    omega
  by_cases hgt : s.v.px x y > 1
  · rw [if_pos hgt, show (s.v.px x y).toNat = (s.v.px x y).natAbs by omega] at hpar
    obtain ⟨c, p, k1, k2, k3, _, _, k6⟩ := visited hI.core hE hx hy hf (by omega)
    exact family_of_region hE (by omega) k1 k2 k3 k6 hpar pts
  · rw [if_neg hgt] at hpar
    have hv1 : s.v.px x y = 1 := by omega
    have hx0 : 0 < x := by
      by_contra hc
      have : x = 0 := by omega
      subst this
      have := hcl y hy
      omega
    have hleft : im.px (x - 1) y > t := by
      by_contra hc
      exact hout ⟨⟨hv1, hx0⟩, by omega⟩
    rcases hE.last with ⟨h1, hl⟩ | ⟨a, ha, h2, hv0, hv1', hab, hl⟩
    · have := row_clear hcl hI hx hy hl (x - 1) (by omega)
      omega
    · have haf : im.px a y > t := by
        by_contra hc
        exact hv0 ((zero_iff hI.core (by omega) hy).mpr (by omega))
      have hfull := gap_full hI hx hy hl hx0 hleft
      obtain ⟨c, p, k1, k2, k3, _, _, k6⟩ := visited hI.core hE (by omega) hy haf hv1'
      rw [hab] at k1
      have c1 := conn8_row (F := fg im t) (y : Int) (x - a) (a : Int) (by
        intro c hc1 hc2
        rw [show c = ((c.toNat : Nat) : Int) by omega, fg_natCast]
        refine ⟨⟨by omega, hy⟩, ?_⟩
        by_cases e1 : c.toNat = x
        · rw [e1]; exact hf
        · by_cases e2 : c.toNat = a
          · rw [e2]; exact haf
          · have := hfull (x - 1 - c.toNat) (by omega)
            rwa [show x - 1 - (x - 1 - c.toNat) = c.toNat by omega] at this)
      rw [show (a : Int) + ((x - a : Nat) : Int) = (x : Int) by omega] at c1
      exact family_of_region hE h2 k1 k2 k3 (c1.symm.trans k6) hpar pts

theorem before_succ {a b : Nat} (h : Before a b (x + 1) y) : Before a b x y ∨ (a = x ∧ b = y) := by
  unfold Before at h ⊢
  omega

theorem before_mono {a b : Nat} (h : Before a b x y) : Before a b (x + 1) y := by
  unfold Before at h ⊢
  omega

/-- Visiting a pixel where a border starts preserves the invariant. -/
theorem Ext.started (hcl : ClearLeft im t) (hI : Inv im t x y s Ts) (hE : Ext im t x y s Ts)
    (hx : x < im.w) (hy : y < im.h) {outer : Bool} {pn : Nat} {s' : St}
    {Ts' : Nat → (Int × Int) × Nat → Prop} (hs : Started im t x y outer pn s s' Ts Ts')
    (hI' : Inv im t (x + 1) y s' Ts') (hf : im.px x y > t)
    (hkind : Kind (fg im t) outer ((x : Int), (y : Int)))
    (hout : outer = false → ¬ ((s.v.px x y = 1 ∧ x > 0) ∧ im.px (x - 1) y ≤ t))
    (hfam : ∀ par pts, parentOf s.contours pn outer = some par →
      Family im t s.contours ⟨pts, outer, par⟩ ((x : Int), (y : Int))) :
    Ext im t (x + 1) y s' Ts' := by
  obtain ⟨v', k, par, pts, T, epar, ehd, hm, ⟨σ0, hσ0, hσ1, hσ2⟩, htr, rfl, rfl⟩ := hs
  have hnum := hI.core.num
  have hPf : fg im t ((x : Int), (y : Int)) = true := fg_natCast.mpr ⟨⟨hx, hy⟩, hf⟩
  have hup : un ((x : Int), (y : Int)) = (x, y) := rfl
  have hσP : σ0.1 = ((x : Int), (y : Int)) := un_inj (htr.isfg _ hσ0) hPf hσ1
  have hmono := fun a b => hm.mono (by omega) a b
  have hne1 : v'.px x y ≠ 1 := by
    have := hI'.core.one s.contours.length σ0 (by rw [if_pos rfl]; exact hσ0)
    rw [hσ1] at this
    exact this
  have hne0 : v'.px x y ≠ 0 := (hI'.core.rel.2.2 x y hx hy).mpr hf
  have hval := hI'.core.val x y hx hy hf hne1
  refine ⟨?_, ?_, ?_, ?_, ?_, ?_⟩
  · intro a b ha hb hbf hfg hw hr
    dsimp only
    rcases before_succ hbf with hb' | ⟨rfl, rfl⟩
    · exact (hmono a b).2 (hE.easts a b ha hb hb' hfg hw hr)
    · -- the east side belongs to the new border
      have hEb : fg im t (((a : Int), (b : Int)) + D 4) = false := by
        rw [D4_eq, show ((a : Int) + 1) = ((a + 1 : Nat) : Int) by omega, fg_natCast_false hw hb]
        exact hr
      obtain ⟨σ', p1, p2, p3⟩ : ∃ σ', T σ' ∧ σ'.1 = ((a : Int), (b : Int)) ∧
          Sees (fg im t) σ' 4 := by
        cases outer
        · exact ⟨σ0, hσ0, hσP, hσ2⟩
        · have hP : FirstFg (fg im t) ((a : Int), (b : Int)) := hkind
          have hd : Dart (fg im t) (((a : Int), (b : Int)), 4) :=
            ⟨hPf, show 4 < 8 by decide, show 4 % 2 = 0 from rfl, hEb⟩
          have := first_east _ (all_darts im t) (fun _ => fg_low) hP hEb
          refine htr.whole hσ0 (by rfl) hσ2 ?_
          rw [hσP]
          exact orb_symm hd ((mem_orb _ (all_darts im t) hd).mpr this)
      have := hm.right σ' p1 (Or.inr p3)
      rw [p2, hup] at this
      dsimp only at this
      omega
  · intro a b ha hb hneg
    dsimp only at hneg ⊢
    rcases hm.cases a b with ⟨⟨σ, p, q, r⟩, e1⟩ | ⟨⟨σ, p, q⟩, _, e1, _⟩ | ⟨e1, e2, _⟩
    · refine ⟨σ, ?_, q, ?_⟩
      · rw [if_pos (by rw [e1]; omega)]; exact p
      · rcases r with r | r
        · exfalso
          have hf := (fg_iff.mp (htr.isfg σ p)).1
          unfold un at q
          simp only [Prod.mk.injEq] at q
          omega
        · exact r
    · omega
    · rw [e1] at hneg ⊢
      obtain ⟨σ, h1, h2, h3⟩ := hE.neg a b ha hb hneg
      have := hI.core.dom _ σ h1
      exact ⟨σ, by rw [if_neg (by omega)]; exact h1, h2, h3⟩
  · intro i c hc
    dsimp only at hc
    by_cases hi : i < s.contours.length
    · rw [List.getElem?_append_left hi] at hc
      obtain ⟨p, h1, h2, h3, h4⟩ := hE.kinds i c hc
      exact ⟨p, h1, h2, before_mono h3, h4⟩
    · rw [List.getElem?_append_right (by omega)] at hc
      have hi0 : i - s.contours.length = 0 := by
        by_contra hc'
        rw [List.getElem?_eq_none (by simp; omega)] at hc
        simp at hc
      rw [hi0] at hc
      simp only [List.getElem?_cons_zero, Option.some.injEq] at hc
      subst hc
      exact ⟨((x : Int), (y : Int)), ehd, hPf, by unfold Before; right; rw [hup]; exact ⟨rfl, by dsimp only; omega⟩, hkind⟩
  · intro p hp hb
    dsimp only
    rcases before_succ hb with hb | ⟨h1, h2⟩
    · obtain ⟨i, c, h1, h2, h3⟩ := hE.firsts p hp hb
      refine ⟨i, c, ?_, h2, h3⟩
      rw [List.getElem?_append_left]
      · exact h1
      · by_contra hc
        rw [List.getElem?_eq_none (by omega)] at h1
        simp at h1
    · have e : p = ((x : Int), (y : Int)) := un_inj hp.1 hPf (by rw [hup]; exact Prod.ext h1 h2)
      rw [e] at hp
      refine ⟨s.contours.length, ⟨pts, outer, par⟩, ?_, ?_, by rw [e]; exact ehd⟩
      · rw [List.getElem?_append_right (Nat.le_refl _), Nat.sub_self]; rfl
      · dsimp only
        cases ho : outer
        · exfalso
          have h1 := first_unvisited hI.core hE hx hy hp
          have hx0 : x ≠ 0 := by
            rintro rfl
            have := hcl y hy
            omega
          have h2 := hp.west
          rw [D0_eq, show ((x : Int) - 1) = ((x - 1 : Nat) : Int) by omega,
            fg_natCast_false (by omega) hy] at h2
          exact hout ho ⟨⟨h1, by omega⟩, h2⟩
        · rfl
  · intro i c p hc hp hpf
    dsimp only at hc ⊢
    by_cases hi : i < s.contours.length
    · rw [List.getElem?_append_left hi] at hc
      exact (hE.family i c p hc hp hpf).mono _
    · rw [List.getElem?_append_right (by omega)] at hc
      have hi0 : i - s.contours.length = 0 := by
        by_contra hc'
        rw [List.getElem?_eq_none (by simp; omega)] at hc
        simp at hc
      rw [hi0] at hc
      simp only [List.getElem?_cons_zero, Option.some.injEq] at hc
      subst hc
      have e : p = ((x : Int), (y : Int)) :=
        un_inj hpf hPf (Option.some.inj (hp.symm.trans ehd))
      rw [e]
      exact (hfam par pts epar).mono _
  · right
    exact ⟨x, by omega, hval.1, hne0, hne1, rfl, by intro a' h1 h2; omega⟩

/-- Visiting a pixel preserves the invariant. -/
theorem Ext.step (hcl : ClearLeft im t) (hI : Inv im t x y s Ts) (hE : Ext im t x y s Ts)
    (hx : x < im.w) (hy : y < im.h) {s' : St} {Ts' : Nat → (Int × Int) × Nat → Prop}
    (hs : Step im t x y s s' Ts Ts') (hI' : Inv im t (x + 1) y s' Ts') :
    Ext im t (x + 1) y s' Ts' := by
  have hfz : s.v.px x y ≠ 0 → im.px x y > t := by
    intro h0
    by_contra hc
    exact h0 ((zero_iff hI.core hx hy).mpr (by omega))
  have hnofirst : ∀ p, FirstFg (fg im t) p → un p = (x, y) → s.v.px x y ≠ 0 →
      ¬ ((s.v.px x y = 1 ∧ x > 0) ∧ im.px (x - 1) y ≤ t) → False := by
    intro p hp hup h0 hout
    have e : p = ((x : Int), (y : Int)) :=
      un_inj hp.1 (fg_natCast.mpr ⟨⟨hx, hy⟩, hfz h0⟩) hup
    rw [e] at hp
    have h1 := first_unvisited hI.core hE hx hy hp
    have hx0 : x ≠ 0 := by
      rintro rfl
      have := hcl y hy
      have := hfz h0
      omega
    have h2 := hp.west
    rw [D0_eq, show ((x : Int) - 1) = ((x - 1 : Nat) : Int) by omega,
      fg_natCast_false (by omega) hy] at h2
    exact hout ⟨⟨h1, by omega⟩, h2⟩
  rcases hs with ⟨h0, rfl, rfl⟩ | ⟨hout, hst⟩ | ⟨hout, hhole, hst⟩ | ⟨h0, hout, hhole, rfl, rfl⟩
  · have hle := (zero_iff hI.core hx hy).mp h0
    refine ⟨?_, hE.neg, ?_, ?_, hE.family, ?_⟩
    · intro a b ha hb hbf hfg hw hr
      rcases before_succ hbf with hb' | ⟨rfl, rfl⟩
      · exact hE.easts a b ha hb hb' hfg hw hr
      · omega
    · intro i c hc
      obtain ⟨p, h1, h2, h3, h4⟩ := hE.kinds i c hc
      exact ⟨p, h1, h2, before_mono h3, h4⟩
    · intro p hp hb
      rcases before_succ hb with hb | ⟨h1, h2⟩
      · exact hE.firsts p hp hb
      · have := (fg_iff.mp hp.1).2
        unfold un at h1 h2
        dsimp only at h1 h2
        rw [h1, h2] at this
        omega
    · rcases hE.last with ⟨h1, hl⟩ | ⟨a, ha, h2, hv0, hv1, hab, hl⟩
      · left
        refine ⟨h1, fun a ha => ?_⟩
        by_cases e : a = x
        · left; rw [e]; exact h0
        · exact hl a (by omega)
      · right
        refine ⟨a, by omega, h2, hv0, hv1, hab, fun a' h1 h3 => ?_⟩
        by_cases e : a' = x
        · left; rw [e]; exact h0
        · exact hl a' h1 (by omega)
  · exact hE.started hcl hI hx hy hst hI' (hfz (by omega)) (outer_first hI.core hE hx hy hout)
      (by simp) (fun par pts hpar => family_outer hcl hI hE hx hy hout hpar pts)
  · exact hE.started hcl hI hx hy hst hI' (hfz (by omega))
      (hole_first hcl hI.core hE hx hy hout hhole) (fun _ => hout)
      (fun par pts hpar => family_hole hcl hI hE hx hy hout hhole.1.1 hpar pts)
  · refine ⟨?_, hE.neg, ?_, ?_, hE.family, ?_⟩
    · intro a b ha hb hbf hfg hw hr
      dsimp only
      rcases before_succ hbf with hb' | ⟨rfl, rfl⟩
      · exact hE.easts a b ha hb hb' hfg hw hr
      · by_contra hc
        exact hhole ⟨⟨by omega, hw⟩, hr⟩
    · intro i c hc
      obtain ⟨p, h1, h2, h3, h4⟩ := hE.kinds i c hc
      exact ⟨p, h1, h2, before_mono h3, h4⟩
    · intro p hp hb
      rcases before_succ hb with hb | ⟨h1, h2⟩
      · exact hE.firsts p hp hb
      · exact (hnofirst p hp (Prod.ext h1 h2) h0 hout).elim
    · dsimp only
      by_cases hv : s.v.px x y = 1
      · rw [if_neg (by simpa using hv)]
        rcases hE.last with ⟨h1, hl⟩ | ⟨a, ha, h2, hv0, hv1, hab, hl⟩
        · left
          refine ⟨h1, fun a ha => ?_⟩
          by_cases e : a = x
          · right; rw [e]; exact hv
          · exact hl a (by omega)
        · right
          refine ⟨a, by omega, h2, hv0, hv1, hab, fun a' h1 h3 => ?_⟩
          by_cases e : a' = x
          · right; rw [e]; exact hv
          · exact hl a' h1 (by omega)
      · rw [if_pos hv]
        right
        exact ⟨x, by omega, (hI.core.val x y hx hy (hfz h0) hv).1, h0, hv, rfl,
          by intro a' h1 h2; omega⟩

end step

theorem result_ext (hcl : ClearLeft im t) :
    ∃ s Ts, findContours im t = some s.contours ∧ Inv im t 0 im.h s Ts ∧ Ext im t 0 im.h s Ts := by
  obtain ⟨v, e, hw, hh, hv⟩ := binarise_spec im t
  unfold findContours
  rw [e, Option.bind_some]
  have hcore : Core im t ⟨v, dirs, [], 1, 1⟩ (fun _ _ => False) := by
    refine ⟨⟨hw, hh, ?_⟩, ⟨0, by decide, rotL_zero.symm⟩, rfl, ⟨Nat.le_refl _, Nat.le_refl _⟩, ?_, ?_, ?_,
      ?_, ?_, ?_, ?_, ?_⟩
    · intro x y hx hy
      dsimp only
      rw [hv x y hx hy]
      split <;> simp_all
    · intro i c h; simp at h
    · intro i σ h; exact h.elim
    · intro i c q h; simp at h
    · intro i σ h; exact h.elim
    · intro a b ha hb hf hne
      dsimp only at hne
      rw [hv a b ha hb, if_pos hf] at hne
      exact absurd rfl hne
    · intro i σ h; exact h.elim
    · intro a b ha hb hneg
      dsimp only at hneg
      rw [hv a b (by omega) hb] at hneg
      split at hneg <;> omega
    · intro i j σ σ' d h; exact h.elim
  have hext : Ext im t 0 0 ⟨v, dirs, [], 1, 1⟩ (fun _ _ => False) := by
    refine ⟨by unfold Before; intros; omega, ?_, ?_, by unfold Before; intros; omega, ?_, ?_⟩
    · intro a b ha hb hneg
      dsimp only at hneg
      rw [hv a b (by omega) hb] at hneg
      split at hneg <;> omega
    · intro i c h; simp at h
    · intro i c p h; simp at h
    · left; exact ⟨rfl, by intro a ha; omega⟩
  have hrow : ∀ {x y x' y' : Nat} {s : St} {Ts : Nat → (Int × Int) × Nat → Prop},
      Ext im t x y s Ts → (∀ a b, a < im.w → b < im.h → (Before a b x' y' ↔ Before a b x y)) →
      x' = 0 → Ext im t x' y' { s with parent := 1 } Ts := by
    intro x y x' y' s Ts h hb hx'
    have hbp : ∀ p, fg im t p = true →
        (Before (un p).1 (un p).2 x' y' ↔ Before (un p).1 (un p).2 x y) := by
      intro p hp
      have := (fg_iff.mp hp).1
      exact hb _ _ (by unfold un; dsimp only; omega) (by unfold un; dsimp only; omega)
    refine ⟨fun a b h1 h2 h3 => h.easts a b h1 h2 ((hb a b h1 h2).mp h3), h.neg, ?_, ?_, h.family,
      ?_⟩
    · intro i c hc
      obtain ⟨p, h1, h2, h3, h4⟩ := h.kinds i c hc
      exact ⟨p, h1, h2, (hbp p h2).mpr h3, h4⟩
    · intro p hp hb'
      exact h.firsts p hp ((hbp p hp.1).mp hb')
    · left; exact ⟨rfl, by intro a ha; omega⟩
  obtain ⟨s, es, ⟨Ts, hI, hE⟩⟩ := forRange_spec (σ := St)
    (f := fun (y : Nat) (s : St) => forRange 0 im.w { s with parent := 1 } fun x s =>
      visit (im.w * im.h * 8) x y s)
    (fun (y : Nat) (s : St) => ∃ Ts, Inv im t 0 y s Ts ∧ Ext im t 0 y { s with parent := 1 } Ts)
    (lo := 0) (hi := im.h) (s := ⟨v, dirs, [], 1, 1⟩) (Nat.zero_le _)
    ⟨fun _ _ => False, ⟨hcore, by simp, by unfold Before; intros; omega,
      by unfold Before; intros; omega⟩, hext⟩
    (by
      intro y s _ hy ⟨Ts, hI, hE⟩
      obtain ⟨s', es, Ts', hI', hE'⟩ := forRange_spec (σ := St)
        (f := fun (x : Nat) (s : St) => visit (im.w * im.h * 8) x y s)
        (fun (x : Nat) (s : St) => ∃ Ts, Inv im t x y s Ts ∧ Ext im t x y s Ts)
        (lo := 0) (hi := im.w) (s := { s with parent := 1 }) (Nat.zero_le _)
        ⟨Ts, hI.row (Nat.le_refl _) (fun _ _ _ _ h => h) ⟨Nat.le_refl _, by
          have := hI.core.num; omega⟩, hE⟩
        (by
          rintro x s _ hx ⟨Ts, hI, hE⟩
          obtain ⟨s', Ts', e, hI', hst⟩ := visit_step hx hy hI
          exact ⟨s', e, Ts', hI', hE.step hcl hI hx hy hst hI'⟩)
      refine ⟨s', es, Ts', ?_, ?_⟩
      · exact hI'.row (by rw [Nat.succ_mul]; omega)
          (fun a b h1 _ h3 => by unfold Before at h3 ⊢; omega) hI'.core.par
      · exact hrow hE' (fun a b h1 _ => by unfold Before; omega) rfl)
  refine ⟨{ s with parent := 1 }, Ts, by rw [es]; rfl, ?_, hE⟩
  exact hI.row (Nat.le_refl _) (fun _ _ _ _ h => h) ⟨Nat.le_refl _, by have := hI.core.num; omega⟩

end Verif.Contours
