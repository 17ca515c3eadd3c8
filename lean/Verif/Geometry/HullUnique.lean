import Verif.Geometry.MinRect
/-
C174: the convex hull is determined by the set of input points.  Order and repetitions do not matter,
the hull of the hull is the hull, points inside do not change it, and it moves with the points.
-/
namespace Verif.Geometry

/-- What C54 says of the hull of the points `P`. -/
structure IsHull (P : Pt → Prop) (H : List Pt) : Prop where
  len : 2 ≤ H.length
  nodup : H.Nodup
  mem : ∀ v ∈ H, P v
  left : ∀ i, ∀ q, P q → 0 ≤ det (vertex H i) (vertex H (i + 1)) q
  turn : 3 ≤ H.length → ∀ i, 0 < det (vertex H i) (vertex H (i + 1)) (vertex H (i + 2))
  first : ∀ q, P q → Above (vertex H 0) q
  segment : ∀ a b, H = [a, b] → ∀ q, P q → det a b q = 0 ∧ 0 ≤ dot a q b ∧ dot a q b ≤ distSq a b

theorem hull_isHull (pts : List Pt) (hne : ∃ a ∈ pts, ∃ b ∈ pts, a ≠ b) :
    IsHull (· ∈ pts) (convexHull pts) := by
  obtain ⟨h1, h2, h3, h4⟩ := C54_hull pts hne
  obtain ⟨h5, s, h6, h7⟩ := C54_once pts hne
  refine ⟨h1, h5, h2, h3, h4, ?_, fun a b e => C54_segment pts a b e⟩
  have : vertex (convexHull pts) 0 = s := by
    unfold vertex
    cases e : convexHull pts with
    | nil => rw [e] at h6; cases h6
    | cons a l => rw [e] at h6; simpa using h6
  rw [this]
  exact h7

theorem cross_zero {p q r : Pt} (h : det p q r = 0) (x : Pt) :
    distSq p q * det p r x = dot p q r * det p q x := by
  unfold distSq dot
  unfold det at h ⊢
  linear_combination -((q.1 - p.1) * (x.1 - p.1) + (q.2 - p.2) * (x.2 - p.2)) * h

theorem cross_beyond {v u u' w : Pt} (h : det v u u' = 0) :
    distSq v u * det u w u' = (distSq v u - dot v u u') * det v u w := by
  unfold distSq dot
  unfold det at h ⊢
  linear_combination ((w.1 - u.1) * (u.1 - v.1) + (w.2 - u.2) * (u.2 - v.2)) * h

theorem distSq_pos' {a b : Pt} (h : a ≠ b) : 0 < distSq a b := by
  unfold distSq
  by_contra hc
  apply h
  have h1 := sq_nonneg (a.1 - b.1)
  have h2 := sq_nonneg (a.2 - b.2)
  have e1 : (a.1 - b.1) ^ 2 = 0 := by omega
  have e2 : (a.2 - b.2) ^ 2 = 0 := by omega
  rw [sq_eq_zero_iff] at e1 e2
  exact Prod.ext (by omega) (by omega)

theorem distSq_third (v u u' : Pt) : distSq u u' = distSq v u + distSq v u' - 2 * dot v u u' := by
  unfold distSq dot
  ring

/-- Two points on a ray, neither beyond the other, are equal. -/
theorem eq_of_ray {v u u' : Pt} (hu : v ≠ u) (hu' : v ≠ u') (h : det v u u' = 0)
    (h0 : 0 ≤ dot v u u') (h1 : dot v u u' ≤ distSq v u) (h2 : dot v u u' ≤ distSq v u') :
    u = u' := by
  by_contra hne
  have := distSq_pos' hne
  rw [distSq_third v] at this
  have e := dot_sq h
  have a := distSq_pos' hu
  have b := distSq_pos' hu'
  have k1 : distSq v u' ≤ dot v u u' := by
    by_contra hc
    push Not at hc
    nlinarith
  have k2 : distSq v u ≤ dot v u u' := by
    by_contra hc
    push Not at hc
    nlinarith
  omega

theorem vertex_ne {H : List Pt} (h : 2 ≤ H.length) (hn : H.Nodup) (i : Nat) :
    vertex H i ≠ vertex H (i + 1) := by
  unfold vertex
  have hi := Nat.mod_lt i (show 0 < H.length by omega)
  have hj := Nat.mod_lt (i + 1) (show 0 < H.length by omega)
  rw [List.getD_eq_getElem _ _ hi, List.getD_eq_getElem _ _ hj]
  intro e
  have e := (List.Nodup.getElem_inj_iff hn).mp e
  rw [Nat.add_mod, Nat.mod_eq_of_lt (show 1 < H.length by omega)] at e
  by_cases hc : i % H.length + 1 < H.length
  · rw [Nat.mod_eq_of_lt hc] at e; omega
  · rw [show i % H.length + 1 = H.length by omega, Nat.mod_self] at e; omega

theorem det_swap' (a b c : Pt) : det a c b = - det a b c := by unfold det; ring

theorem dot_comm' (a b c : Pt) : dot a c b = dot a b c := by unfold dot; ring

theorem next_unique {P : Pt → Prop} {H H' : List Pt} (A : IsHull P H) (B : IsHull P H')
    (h3 : 3 ≤ H.length) (h3' : 3 ≤ H'.length) {i j : Nat} (e : vertex H i = vertex H' j) :
    vertex H (i + 1) = vertex H' (j + 1) := by
  have nA := vertex_ne A.len A.nodup i
  have nB := vertex_ne B.len B.nodup j
  have mA : ∀ k, P (vertex H k) := fun k => A.mem _ (vertex_mem (by rintro rfl; simp at h3) k)
  have mB : ∀ k, P (vertex H' k) := fun k => B.mem _ (vertex_mem (by rintro rfl; simp at h3') k)
  have l1 := A.left i _ (mB (j + 1))
  have l2 := B.left j _ (mA (i + 1))
  rw [← e] at nB l2
  have tA := A.turn h3 i
  have tB := B.turn h3' j
  rw [← e] at tB
  have fA := B.left j _ (mA (i + 2))
  rw [← e] at fA
  have gA := A.left (i + 1) _ (mB (j + 1))
  have gB := B.left (j + 1) _ (mA (i + 1))
  rw [show i + 1 + 1 = i + 2 from rfl] at gA
  rw [show j + 1 + 1 = j + 2 from rfl] at gB
  generalize vertex H i = v at *
  generalize vertex H (i + 1) = u at *
  generalize vertex H (i + 2) = w at *
  generalize vertex H' (j + 1) = u' at *
  generalize vertex H' (j + 2) = w' at *
  have hz : det v u u' = 0 := by
    have := det_swap' v u u'
    omega
  have pu := distSq_pos' nA
  have pu' := distSq_pos' nB
  have c1 := cross_zero hz w
  have hd : 0 ≤ dot v u u' := by
    by_contra hc
    push Not at hc
    nlinarith
  have hz' : det v u' u = 0 := by rw [det_swap', hz]; rfl
  have c2 := cross_beyond (w := w) hz
  have c3 := cross_beyond (w := w') hz'
  rw [dot_comm'] at c3
  refine eq_of_ray nA nB hz hd ?_ ?_
  · by_contra hc
    push Not at hc
    nlinarith
  · by_contra hc
    push Not at hc
    nlinarith

theorem IsHull.two_iff {P : Pt → Prop} {H : List Pt} (A : IsHull P H) :
    H.length = 2 ↔ ∀ a b c, P a → P b → P c → det a b c = 0 := by
  constructor
  · intro h
    obtain ⟨u, v, rfl⟩ : ∃ u v, H = [u, v] := List.length_eq_two.mp h
    intro a b c ha hb hc
    have s := A.segment u v rfl
    have a1 := (s a ha).1
    have b1 := (s b hb).1
    have c1 := (s c hc).1
    have hne : u ≠ v := by have := A.nodup; simpa using this
    have pos := distSq_pos' hne
    have : distSq u v * det a b c = 0 := by
      have e1 := cross_zero (p := u) (q := v) (r := a) (by rw [a1]) b
      have e2 := cross_zero (p := u) (q := v) (r := b) (by rw [b1]) c
      have e3 := cross_zero (p := u) (q := v) (r := c) (by rw [c1]) a
      rw [b1] at e1
      rw [c1] at e2
      rw [a1] at e3
      have e : det a b c = det u a b + det u b c + det u c a := by unfold det; ring
      rw [e]
      linarith
    rcases mul_eq_zero.mp this with h | h
    · omega
    · exact h
  · intro h
    by_contra hc
    have h3 : 3 ≤ H.length := by have := A.len; omega
    have ne : H ≠ [] := by rintro rfl; simp at h3
    have := A.turn h3 0
    rw [h _ _ _ (A.mem _ (vertex_mem ne _)) (A.mem _ (vertex_mem ne _))
      (A.mem _ (vertex_mem ne _))] at this
    omega

theorem above_antisymm {a b : Pt} (h : Above a b) (h' : Above b a) : a = b := by
  unfold Above at h h'
  exact Prod.ext (by omega) (by omega)

theorem length_le_of_vertex {H H' : List Pt} (h : ∀ i, vertex H i = vertex H' i) (hn : H.Nodup)
    (h0 : 0 < H.length) (h0' : 0 < H'.length) : H.length ≤ H'.length := by
  by_contra hc
  push Not at hc
  have e : vertex H H'.length = vertex H 0 := by
    rw [h, h]
    unfold vertex
    rw [Nat.mod_self, Nat.zero_mod]
  unfold vertex at e
  rw [Nat.mod_eq_of_lt hc, Nat.zero_mod, List.getD_eq_getElem _ _ hc, List.getD_eq_getElem _ _ h0]
    at e
  have := (List.Nodup.getElem_inj_iff hn).mp e
  omega

/-- There is at most one such polygon. -/
theorem IsHull.unique {P : Pt → Prop} {H H' : List Pt} (A : IsHull P H) (B : IsHull P H') :
    H = H' := by
  have neA : H ≠ [] := by rintro rfl; have := A.len; simp at this
  have neB : H' ≠ [] := by rintro rfl; have := B.len; simp at this
  have h0 : vertex H 0 = vertex H' 0 :=
    above_antisymm (A.first _ (B.mem _ (vertex_mem neB 0))) (B.first _ (A.mem _ (vertex_mem neA 0)))
  by_cases h2 : H.length = 2
  · have h2' : H'.length = 2 := B.two_iff.mpr (A.two_iff.mp h2)
    obtain ⟨a, b, rfl⟩ := List.length_eq_two.mp h2
    obtain ⟨a', b', rfl⟩ := List.length_eq_two.mp h2'
    have ea : a = a' := h0
    subst ea
    have hb : a ≠ b := by have := A.nodup; simpa using this
    have hb' : a ≠ b' := by have := B.nodup; simpa using this
    obtain ⟨k1, k2, k3⟩ := A.segment a b rfl b' (B.mem _ (by simp))
    obtain ⟨m1, m2, m3⟩ := B.segment a b' rfl b (A.mem _ (by simp))
    rw [dot_comm'] at k2 k3
    rw [eq_of_ray hb hb' k1 k2 k3 m3]
  · have h3 : 3 ≤ H.length := by have := A.len; omega
    have h3' : 3 ≤ H'.length := by
      have := B.len
      by_contra hc
      exact h2 (A.two_iff.mpr (B.two_iff.mp (by omega)))
    have hv : ∀ i, vertex H i = vertex H' i := by
      intro i
      induction i with
      | zero => exact h0
      | succ i ih => exact next_unique A B h3 h3' ih
    have hl : H.length = H'.length := le_antisymm
      (length_le_of_vertex hv A.nodup (by omega) (by omega))
      (length_le_of_vertex (fun i => (hv i).symm) B.nodup (by omega) (by omega))
    refine List.ext_getElem hl fun i h1 h2 => ?_
    have := hv i
    unfold vertex at this
    rwa [Nat.mod_eq_of_lt h1, Nat.mod_eq_of_lt h2, List.getD_eq_getElem _ _ h1,
      List.getD_eq_getElem _ _ h2] at this

/-- The hull depends only on which points there are: their order and repetitions do not matter. -/
theorem C174_set (pts pts' : List Pt) (hne : ∃ a ∈ pts, ∃ b ∈ pts, a ≠ b)
    (h : ∀ q, q ∈ pts ↔ q ∈ pts') : convexHull pts = convexHull pts' := by
  obtain ⟨a, ha, b, hb, hab⟩ := hne
  refine (hull_isHull pts ⟨a, ha, b, hb, hab⟩).unique ?_
  have := hull_isHull pts' ⟨a, (h a).mp ha, b, (h b).mp hb, hab⟩
  rw [show (· ∈ pts) = (· ∈ pts') from funext fun q => propext (h q)]
  exact this

/-- So does the smallest rectangle. -/
theorem C174_rect (pts pts' : List Pt) (hne : ∃ a ∈ pts, ∃ b ∈ pts, a ≠ b)
    (h : ∀ q, q ∈ pts ↔ q ∈ pts') : minAreaRect pts = minAreaRect pts' := by
  unfold minAreaRect
  rw [C174_set pts pts' hne h]

theorem IsHull.anti {P Q : Pt → Prop} {H : List Pt} (A : IsHull P H) (hQ : ∀ q, Q q → P q)
    (hm : ∀ v ∈ H, Q v) : IsHull Q H :=
  ⟨A.len, A.nodup, hm, fun i q h => A.left i q (hQ q h), A.turn, fun q h => A.first q (hQ q h),
    fun a b e q h => A.segment a b e q (hQ q h)⟩

/-- Any selection of the points that keeps the vertices has the same hull; in particular the hull of
the hull is the hull. -/
theorem C174_idempotent (pts sub : List Pt) (hne : ∃ a ∈ pts, ∃ b ∈ pts, a ≠ b)
    (h1 : ∀ q ∈ sub, q ∈ pts) (h2 : ∀ v ∈ convexHull pts, v ∈ sub) :
    convexHull sub = convexHull pts ∧ convexHull (convexHull pts) = convexHull pts := by
  have A := hull_isHull pts hne
  have d : ∃ a ∈ convexHull pts, ∃ b ∈ convexHull pts, a ≠ b := by
    have ne : convexHull pts ≠ [] := by intro e; have := A.len; rw [e] at this; simp at this
    exact ⟨_, vertex_mem ne 0, _, vertex_mem ne 1, vertex_ne A.len A.nodup 0⟩
  constructor
  · obtain ⟨a, ha, b, hb, hab⟩ := d
    exact (hull_isHull sub ⟨a, h2 a ha, b, h2 b hb, hab⟩).unique (A.anti h1 h2)
  · exact (hull_isHull _ d).unique (A.anti A.mem fun _ h => h)

/-- A point inside or on the border of the hull (of at least three vertices) does not change it. -/
theorem C174_inside (pts : List Pt) (q : Pt)
    (hnc : ∃ a ∈ pts, ∃ b ∈ pts, ∃ c ∈ pts, det a b c ≠ 0)
    (hq : ∀ i, 0 ≤ det (vertex (convexHull pts) i) (vertex (convexHull pts) (i + 1)) q) :
    convexHull (q :: pts) = convexHull pts := by
  obtain ⟨a, ha, b, hb, c, hc, hd⟩ := hnc
  have hab : a ≠ b := by
    rintro rfl
    apply hd; unfold det; ring
  have A := hull_isHull pts ⟨a, ha, b, hb, hab⟩
  have h3 : 3 ≤ (convexHull pts).length := by
    by_contra h
    exact hd (A.two_iff.mp (by have := A.len; omega) a b c ha hb hc)
  refine (hull_isHull (q :: pts) ⟨a, List.mem_cons_of_mem _ ha, b, List.mem_cons_of_mem _ hb,
    hab⟩).unique ?_
  generalize convexHull pts = H at *
  have ne : H ≠ [] := by rintro rfl; simp at h3
  refine ⟨A.len, A.nodup, fun v hv => List.mem_cons_of_mem _ (A.mem v hv), ?_, A.turn, ?_, ?_⟩
  · intro i p hp
    rcases List.mem_cons.mp hp with rfl | hp
    · exact hq i
    · exact A.left i p hp
  · intro p hp
    rcases List.mem_cons.mp hp with rfl | hp
    · -- in the cone of the two edges at the first vertex
      have e1 := hq 0
      have e2 := hq (H.length - 1)
      have hw : vertex H (H.length - 1 + 1) = vertex H 0 := by
        unfold vertex
        rw [show H.length - 1 + 1 = H.length by omega, Nat.mod_self, Nat.zero_mod]
      have hw1 : vertex H (H.length - 1 + 2) = vertex H 1 := by
        unfold vertex
        rw [show H.length - 1 + 2 = 1 + H.length by omega, Nat.add_mod_right]
      have tn := A.turn h3 (H.length - 1)
      rw [hw] at e2 tn
      rw [hw1] at tn
      have f1 := A.first _ (A.mem _ (vertex_mem ne 1))
      have f2 := A.first _ (A.mem _ (vertex_mem ne (H.length - 1)))
      rw [Nat.zero_add] at e1
      generalize vertex H 0 = s at *
      generalize vertex H 1 = u at *
      generalize vertex H (H.length - 1) = t at *
      have i1 : det t s u * (p.1 - s.1) = det t s p * (u.1 - s.1) + det s u p * (t.1 - s.1) := by
        unfold det; ring
      have i2 : det t s u * (p.2 - s.2) = det t s p * (u.2 - s.2) + det s u p * (t.2 - s.2) := by
        unfold det; ring
      unfold Above at f1 f2 ⊢
      have y1 : 0 ≤ u.2 - s.2 := by omega
      have y2 : 0 ≤ t.2 - s.2 := by omega
      have yp : 0 ≤ p.2 - s.2 := by
        by_contra hc'
        push Not at hc'
        nlinarith [mul_nonneg e2 y1, mul_nonneg e1 y2]
      by_cases hz : p.2 = s.2
      · right
        refine ⟨hz.symm, ?_⟩
        rw [hz, sub_self, mul_zero] at i2
        have k1 : det t s p * (u.2 - s.2) = 0 := by
          have := mul_nonneg e2 y1
          have := mul_nonneg e1 y2
          omega
        have k2 : det s u p * (t.2 - s.2) = 0 := by omega
        have m1 : 0 ≤ det t s p * (u.1 - s.1) := by
          rcases mul_eq_zero.mp k1 with h | h
          · rw [h, zero_mul]
          · exact mul_nonneg e2 (by omega)
        have m2 : 0 ≤ det s u p * (t.1 - s.1) := by
          rcases mul_eq_zero.mp k2 with h | h
          · rw [h, zero_mul]
          · exact mul_nonneg e1 (by omega)
        by_contra hc'
        push Not at hc'
        nlinarith
      · left; omega
    · exact A.first p hp
  · intro u v e
    rw [e] at h3
    simp at h3

/-- Moving all points moves the hull. -/
theorem C174_translate (pts : List Pt) (d : Pt) (hne : ∃ a ∈ pts, ∃ b ∈ pts, a ≠ b) :
    convexHull (pts.map fun p => (p.1 + d.1, p.2 + d.2)) =
      (convexHull pts).map fun p => (p.1 + d.1, p.2 + d.2) := by
  have A := hull_isHull pts hne
  obtain ⟨a, ha, b, hb, hab⟩ := hne
  let f : Pt → Pt := fun p => (p.1 + d.1, p.2 + d.2)
  have inj : Function.Injective f := by
    intro p q h
    have h := Prod.ext_iff.mp h
    simp only [f] at h
    exact Prod.ext (by omega) (by omega)
  have hdet : ∀ p q r, det (f p) (f q) (f r) = det p q r := by
    intro p q r
    simp only [f, det]
    ring
  have ne : convexHull pts ≠ [] := by intro e; have := A.len; rw [e] at this; simp at this
  have hv : ∀ i, vertex ((convexHull pts).map f) i = f (vertex (convexHull pts) i) := by
    intro i
    unfold vertex
    have hi := Nat.mod_lt i (List.length_pos_of_ne_nil ne)
    rw [List.length_map, List.getD_eq_getElem _ _ hi,
      List.getD_eq_getElem _ _ (by rw [List.length_map]; exact hi), List.getElem_map]
  refine (hull_isHull (pts.map f) ⟨f a, List.mem_map_of_mem ha, f b, List.mem_map_of_mem hb,
    fun h => hab (inj h)⟩).unique (H' := (convexHull pts).map f) ?_
  have memf : ∀ q, q ∈ pts.map f → ∃ p ∈ pts, q = f p := by
    intro q hq
    obtain ⟨p, hp, e⟩ := List.mem_map.mp hq
    exact ⟨p, hp, e.symm⟩
  refine ⟨by rw [List.length_map]; exact A.len, A.nodup.map inj, ?_, ?_, ?_, ?_, ?_⟩
  · intro v hv'
    obtain ⟨p, hp, rfl⟩ := List.mem_map.mp hv'
    exact List.mem_map_of_mem (A.mem p hp)
  · intro i q hq
    obtain ⟨p, hp, rfl⟩ := memf q hq
    rw [hv, hv, hdet]
    exact A.left i p hp
  · intro h i
    rw [List.length_map] at h
    rw [hv, hv, hv, hdet]
    exact A.turn h i
  · intro q hq
    obtain ⟨p, hp, rfl⟩ := memf q hq
    rw [hv]
    have := A.first p hp
    unfold Above at this ⊢
    simp only [f]
    omega
  · intro u v e q hq
    obtain ⟨p, hp, rfl⟩ := memf q hq
    have hl : (convexHull pts).length = 2 := by
      have := congrArg List.length e
      simpa using this
    obtain ⟨u', v', e'⟩ := List.length_eq_two.mp hl
    rw [e'] at e
    simp only [List.map_cons, List.map_nil, List.cons.injEq, and_true] at e
    obtain ⟨rfl, rfl⟩ := e
    have := A.segment u' v' e' p hp
    rw [hdet]
    unfold dot distSq at this ⊢
    simp only [f]
    refine ⟨this.1, ?_, ?_⟩
    · have h := this.2.1
      ring_nf at h ⊢
      exact h
    · have h := this.2.2
      ring_nf at h ⊢
      exact h

/-- The same points in another order and repeated. -/
example : convexHull [(2, 2), (4, 0), (0, 0), (4, 4), (2, 0), (0, 4)] =
    convexHull [(0, 4), (0, 4), (4, 4), (2, 0), (0, 0), (2, 2), (4, 0), (0, 0)] := by decide +kernel

/-- For equal points the repetitions do matter. -/
example : convexHull [(3, 1)] = [(3, 1)] ∧ convexHull [(3, 1), (3, 1)] = [(3, 1), (3, 1)] := by
  decide +kernel

end Verif.Geometry
