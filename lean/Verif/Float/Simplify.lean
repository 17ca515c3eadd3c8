import Verif.Geometry.Simplify
import Verif.Float.Stats
/-
`approximate_polygon_dp` (src/geometry.rs:26-66) with the distances of src/point.rs:126-137 in `f64` (C145).
Over the reals; `sqrt` is correctly rounded, `powf(2.0)` is taken to be the correctly rounded square.  The
distance from a line through two equal points is `0/0`, a NaN, for which every comparison is false; in the model
it is `0`, which is not greater than the initial maximum either.  A denominator that underflows to zero is not
represented.
-/
namespace Verif.Float
open Verif.Geometry

/-- `Line::from_points(p, q).distance_from_point(r)`, point.rs:126-137. -/
noncomputable def lineDist64 (p q r : ℝ × ℝ) : ℝ :=
  let a := rnd64 (p.2 - q.2)
  let b := rnd64 (q.1 - p.1)
  let c := rnd64 (rnd64 (p.1 * q.2) - rnd64 (q.1 * p.2))
  rnd64 (|rnd64 (rnd64 (rnd64 (a * r.1) + rnd64 (b * r.2)) + c)| /
    rnd64 (Real.sqrt (rnd64 (rnd64 (a * a) + rnd64 (b * b)))))

/-- The loop of geometry.rs:39-45 for the distance `d`: `i` is the index of the head of the list, the state is
`(index, dmax)`. -/
noncomputable def farthestBy (d : ℝ × ℝ → ℝ) : List (ℝ × ℝ) → Nat → Nat × ℝ → Nat × ℝ
  | [], _, s => s
  | r :: l, i, s => if d r > s.2 then farthestBy d l (i + 1) (i, d r) else farthestBy d l (i + 1) s

/-- `approximate_polygon_dp` with `closed = false`, geometry.rs:26-66, for the distance `d p q r` of `r` from the
line through `p` and `q`; the recursion is on fuel. -/
noncomputable def simplifyBy (d : ℝ × ℝ → ℝ × ℝ → ℝ × ℝ → ℝ) (eps : ℝ) :
    Nat → List (ℝ × ℝ) → Option (List (ℝ × ℝ))
  | 0, _ => none
  | n + 1, curve =>
    if eps ≤ 0 then none
    else (csub curve.length 1).bind fun e =>
      (curve[0]?).bind fun first => (curve[e]?).bind fun last =>
      let s := farthestBy (d first last) (curve.drop 1) 1 (0, 0)
      if s.2 > eps then
        (simplifyBy d eps n (curve.take (s.1 + 1))).bind fun p1 =>
        (simplifyBy d eps n (curve.drop s.1)).bind fun p2 => some (p1.dropLast ++ p2)
      else some [first, last]

/-- `approximate_polygon_dp` in `f64`, geometry.rs:26-66, with recursion depth at most `fuel`. -/
noncomputable def approximatePolygon64 (fuel : Nat) (curve : List (ℝ × ℝ)) (eps : ℝ) (closed : Bool) :
    Option (List (ℝ × ℝ)) :=
  (simplifyBy lineDist64 eps fuel curve).bind fun res => some (if closed then res.dropLast else res)

/-! ### The recursion, for any distance -/

theorem farthestBy_spec (d : ℝ × ℝ → ℝ) : ∀ (l : List (ℝ × ℝ)) (i : Nat) (s : Nat × ℝ),
    s.2 ≤ (farthestBy d l i s).2 ∧ (∀ r ∈ l, d r ≤ (farthestBy d l i s).2) ∧
    (farthestBy d l i s = s ∨ ∃ j r, l[j]? = some r ∧ (farthestBy d l i s).1 = i + j ∧
      s.2 < (farthestBy d l i s).2 ∧ (farthestBy d l i s).2 = d r)
  | [], i, s => ⟨le_refl _, (fun r hr => absurd hr List.not_mem_nil), Or.inl rfl⟩
  | r :: l, i, s => by
    rw [farthestBy]
    split
    · rename_i hc
      obtain ⟨h1, h2, h3⟩ := farthestBy_spec d l (i + 1) (i, d r)
      dsimp only at h1
      refine ⟨le_trans (le_of_lt hc) h1, ?_, Or.inr ?_⟩
      · intro r' hr'
        rcases List.mem_cons.1 hr' with rfl | hr'
        · exact h1
        · exact h2 r' hr'
      · rcases h3 with h3 | ⟨j, r', h4, h5, h6, h7⟩
        · refine ⟨0, r, rfl, ?_, ?_, ?_⟩
          · rw [h3]; rfl
          · rw [h3]; exact hc
          · rw [h3]
        · exact ⟨j + 1, r', by simpa using h4, by rw [h5]; omega, lt_trans hc h6, h7⟩
    · rename_i hc
      obtain ⟨h1, h2, h3⟩ := farthestBy_spec d l (i + 1) s
      refine ⟨h1, ?_, ?_⟩
      · intro r' hr'
        rcases List.mem_cons.1 hr' with rfl | hr'
        · exact le_trans (not_lt.1 hc) h1
        · exact h2 r' hr'
      · rcases h3 with h3 | ⟨j, r', h4, h5, h6, h7⟩
        · exact Or.inl h3
        · exact Or.inr ⟨j + 1, r', by simpa using h4, by rw [h5]; omega, h6, h7⟩

theorem farthestBy_first (d : ℝ × ℝ → ℝ) : ∀ (l : List (ℝ × ℝ)) (i : Nat) (s : Nat × ℝ),
    s.2 < (farthestBy d l i s).2 → ∀ k r, l[k]? = some r → i + k < (farthestBy d l i s).1 →
      d r < (farthestBy d l i s).2
  | [], i, s, h, k, r, hr, hk => by simp at hr
  | r0 :: l, i, s, h, k, r, hr, hk => by
    rw [farthestBy] at h hk ⊢
    split at h
    · rename_i hc
      rw [if_pos hc] at hk ⊢
      obtain ⟨g1, g2, g3⟩ := farthestBy_spec d l (i + 1) (i, d r0)
      dsimp only at g1
      by_cases hlt : d r0 < (farthestBy d l (i + 1) (i, d r0)).2
      · cases k with
        | zero => obtain rfl : r0 = r := by simpa using hr
                  exact hlt
        | succ k => exact farthestBy_first d l (i + 1) _ hlt k r (by simpa using hr) (by omega)
      · rcases g3 with g3 | ⟨j, r', _, _, g4, _⟩
        · rw [g3] at hk; dsimp only at hk; omega
        · exact absurd g4 hlt
    · rename_i hc
      rw [if_neg hc] at hk ⊢
      cases k with
      | zero => obtain rfl : r0 = r := by simpa using hr
                exact lt_of_le_of_lt (not_lt.1 hc) h
      | succ k => exact farthestBy_first d l (i + 1) s h k r (by simpa using hr) (by omega)

theorem simplifyBy_mono {d : ℝ × ℝ → ℝ × ℝ → ℝ × ℝ → ℝ} {eps : ℝ} : ∀ (n : Nat) (curve out : List (ℝ × ℝ)),
    simplifyBy d eps n curve = some out → simplifyBy d eps (n + 1) curve = some out
  | 0, curve, out, h => by simp [simplifyBy] at h
  | n + 1, curve, out, h => by
    rw [simplifyBy] at h ⊢
    by_cases he : eps ≤ 0
    · rw [if_pos he] at h; simp at h
    rw [if_neg he] at h ⊢
    simp only [Option.bind_eq_some_iff] at h ⊢
    obtain ⟨e, h1, a, h2, b, h3, h4⟩ := h
    refine ⟨e, h1, a, h2, b, h3, ?_⟩
    split at h4
    · rename_i hc
      rw [if_pos hc]
      simp only [Option.bind_eq_some_iff] at h4 ⊢
      obtain ⟨p1, h5, p2, h6, h7⟩ := h4
      exact ⟨p1, simplifyBy_mono n _ _ h5, p2, simplifyBy_mono n _ _ h6, h7⟩
    · rename_i hc
      rw [if_neg hc]; exact h4

theorem simplifyBy_fuel {d : ℝ × ℝ → ℝ × ℝ → ℝ × ℝ → ℝ} {eps : ℝ} {n m : Nat} {curve out : List (ℝ × ℝ)} (hnm : n ≤ m)
    (h : simplifyBy d eps n curve = some out) : simplifyBy d eps m curve = some out := by
  induction hnm with
  | refl => exact h
  | step _ ih => exact simplifyBy_mono _ _ _ ih

theorem simplifyBy_spec {d : ℝ × ℝ → ℝ × ℝ → ℝ × ℝ → ℝ} {P : ℝ × ℝ → Prop}
    {ok : ℝ × ℝ → ℝ × ℝ → ℝ × ℝ → Prop} {eps : ℝ} (he : 0 < eps)
    (hend : ∀ p q, P p → P q → d p q q ≤ 0) (hok : ∀ p q r, P p → P q → P r → d p q r ≤ eps → ok p q r) :
    ∀ (n : Nat) (curve : List (ℝ × ℝ)), (∀ p ∈ curve, P p) →
    2 ≤ curve.length → curve.length ≤ n → ∃ out, simplifyBy d eps n curve = some out ∧
      2 ≤ out.length ∧ Simplifies ok out curve
  | 0, curve, hP, h1, h2 => by omega
  | n + 1, curve, hP, h1, h2 => by
    obtain ⟨a, mid, b, rfl⟩ : ∃ a mid b, curve = a :: (mid ++ [b]) := by
      match curve, h1 with
      | a :: l, h1 =>
        rcases List.eq_nil_or_concat l with h | ⟨m, c, h⟩
        · subst h; simp at h1
        · exact ⟨a, m, c, by rw [h]; simp⟩
    rw [simplifyBy, if_neg (not_le.2 he), csub_of_le (by omega), Option.bind_some]
    have e0 : (a :: (mid ++ [b]))[0]? = some a := rfl
    have elast : (a :: (mid ++ [b]))[(a :: (mid ++ [b])).length - 1]? = some b := by simp
    rw [e0, Option.bind_some, elast, Option.bind_some]
    dsimp only
    rw [show (a :: (mid ++ [b])).drop 1 = mid ++ [b] from rfl]
    obtain ⟨f1, f2, f3⟩ := farthestBy_spec (d a b) (mid ++ [b]) 1 (0, 0)
    dsimp only at f1
    split
    · rename_i hc
      rcases f3 with f3 | ⟨j, r, f4, f5, f6, f7⟩
      · rw [f3] at hc
        exact absurd hc (not_lt.2 he.le)
      · have hj : j < mid.length := by
          by_contra hcon
          have hlt : j < (mid ++ [b]).length := (List.getElem?_eq_some_iff.1 f4).1
          have : j = mid.length := by simp at hlt; omega
          rw [this] at f4
          simp at f4
          rw [f7, ← f4] at f6
          exact absurd f6 (not_lt.2 (hend a b (hP a (by simp)) (hP b (by simp))))
        rw [List.getElem?_append_left hj] at f4
        obtain ⟨hj', f4⟩ := List.getElem?_eq_some_iff.1 f4
        obtain ⟨pre, post, hmid, hlen⟩ : ∃ pre post, mid = pre ++ r :: post ∧ pre.length = j :=
          ⟨mid.take j, mid.drop (j + 1), by
            rw [← f4, ← List.drop_eq_getElem_cons hj', List.take_append_drop], by simp; omega⟩
        rw [f5]
        clear f1 f2 f5 f6 f7 hc f4 hj hj' elast e0 h1
        subst hmid hlen
        have hsplit : a :: (pre ++ r :: post ++ [b]) = (a :: pre) ++ r :: (post ++ [b]) := by simp
        have hsplit' : a :: (pre ++ r :: post ++ [b]) = ((a :: pre) ++ [r]) ++ (post ++ [b]) := by
          simp
        have et : (a :: (pre ++ r :: post ++ [b])).take (1 + pre.length + 1) = (a :: pre) ++ [r] := by
          rw [hsplit', List.take_left' (by simp; omega)]
        have ed : (a :: (pre ++ r :: post ++ [b])).drop (1 + pre.length) = r :: (post ++ [b]) := by
          rw [hsplit, List.drop_left' (by simp; omega)]
        rw [et, ed]
        simp only [List.length_cons, List.length_append, List.length_nil] at h2
        obtain ⟨o1, g1, g2, g3⟩ := simplifyBy_spec he hend hok n ((a :: pre) ++ [r])
          (fun p hp => hP p (by simp at hp ⊢; rcases hp with h | h | h <;> simp [h])) (by simp) (by simp; omega)
        obtain ⟨o2, k1, k2, k3⟩ := simplifyBy_spec he hend hok n (r :: (post ++ [b]))
          (fun p hp => hP p (by simp at hp ⊢; rcases hp with h | h | h <;> simp [h])) (by simp) (by simp; omega)
        rw [g1, Option.bind_some, k1, Option.bind_some]
        refine ⟨_, rfl, ?_, ?_⟩
        · simp; omega
        · rw [hsplit]
          obtain ⟨o1', rfl⟩ := simplifies_last _ _ g3
          cases o2 with
          | nil => simp at k2
          | cons m o2 =>
            obtain ⟨l, hl⟩ := simplifies_head k3
            obtain rfl : r = m := by
              have := congrArg List.head? hl
              simpa using this
            rw [List.dropLast_concat]
            exact simplifies_join k3 o1' (a :: pre) g3
    · rename_i hc
      refine ⟨_, rfl, le_refl _, mid, [], rfl, fun r hr => ?_, rfl⟩
      exact hok a b r (hP a (by simp)) (hP b (by simp)) (hP r (by simp [hr]))
        (le_trans (f2 r (List.mem_append_left _ hr)) (not_lt.1 hc))

theorem simplifyBy_kept {d : ℝ × ℝ → ℝ × ℝ → ℝ × ℝ → ℝ} {P : ℝ × ℝ → Prop} {eps : ℝ} (he : 0 < eps)
    (hend : ∀ p q, P p → P q → d p q q ≤ 0) (a b : ℝ × ℝ) (mid : List (ℝ × ℝ))
    (hP : ∀ p ∈ a :: (mid ++ [b]), P p) :
    ((∀ r ∈ mid, d a b r ≤ eps) ∧ simplifyBy d eps (mid.length + 3) (a :: (mid ++ [b])) = some [a, b]) ∨
    ∃ pre r post o1 o2, mid = pre ++ r :: post ∧ eps < d a b r ∧
      (∀ p ∈ mid, d a b p ≤ d a b r) ∧ (∀ p ∈ pre, d a b p < d a b r) ∧
      simplifyBy d eps (pre.length + 3) (a :: (pre ++ [r])) = some (o1 ++ [r]) ∧
      simplifyBy d eps (post.length + 3) (r :: (post ++ [b])) = some (r :: o2) ∧
      simplifyBy d eps (mid.length + 3) (a :: (mid ++ [b])) = some (o1 ++ r :: o2) := by
  have e0 : (a :: (mid ++ [b]))[0]? = some a := rfl
  have elast : (a :: (mid ++ [b]))[(a :: (mid ++ [b])).length - 1]? = some b := by simp
  have hun : simplifyBy d eps (mid.length + 3) (a :: (mid ++ [b])) =
      let s := farthestBy (d a b) (mid ++ [b]) 1 (0, 0)
      if s.2 > eps then
        (simplifyBy d eps (mid.length + 2) ((a :: (mid ++ [b])).take (s.1 + 1))).bind fun p1 =>
        (simplifyBy d eps (mid.length + 2) ((a :: (mid ++ [b])).drop s.1)).bind fun p2 =>
          some (p1.dropLast ++ p2)
      else some [a, b] := by
    rw [simplifyBy, if_neg (not_le.2 he), csub_of_le (by simp), Option.bind_some, e0,
      Option.bind_some, elast, Option.bind_some]
    simp
  dsimp only at hun
  obtain ⟨f1, f2, f3⟩ := farthestBy_spec (d a b) (mid ++ [b]) 1 (0, 0)
  have f8 := farthestBy_first (d a b) (mid ++ [b]) 1 (0, 0)
  dsimp only at f1 f8
  by_cases hc : (farthestBy (d a b) (mid ++ [b]) 1 (0, 0)).2 > eps
  · right
    rw [if_pos hc] at hun
    rcases f3 with f3 | ⟨j, r, f4, f5, f6, f7⟩
    · rw [f3] at hc
      exact absurd hc (not_lt.2 he.le)
    · have f8 := f8 f6
      have hj : j < mid.length := by
        by_contra hcon
        have hlt : j < (mid ++ [b]).length := (List.getElem?_eq_some_iff.1 f4).1
        have : j = mid.length := by simp at hlt; omega
        rw [this] at f4
        simp at f4
        rw [f7, ← f4] at f6
        exact absurd f6 (not_lt.2 (hend a b (hP a (by simp)) (hP b (by simp))))
      rw [List.getElem?_append_left hj] at f4
      obtain ⟨hj', f4⟩ := List.getElem?_eq_some_iff.1 f4
      obtain ⟨pre, post, hmid, hlen⟩ : ∃ pre post, mid = pre ++ r :: post ∧ pre.length = j :=
        ⟨mid.take j, mid.drop (j + 1), by
          rw [← f4, ← List.drop_eq_getElem_cons hj', List.take_append_drop], by simp; omega⟩
      rw [f5] at hun f8
      rw [f7] at hc f2 f8
      clear f1 f5 f6 f7 f4 hj hj' elast e0
      subst hmid hlen
      have hsplit : a :: (pre ++ r :: post ++ [b]) = (a :: pre) ++ r :: (post ++ [b]) := by simp
      have hsplit' : a :: (pre ++ r :: post ++ [b]) = ((a :: pre) ++ [r]) ++ (post ++ [b]) := by simp
      have et : (a :: (pre ++ r :: post ++ [b])).take (1 + pre.length + 1) = (a :: pre) ++ [r] := by
        rw [hsplit', List.take_left' (by simp; omega)]
      have ed : (a :: (pre ++ r :: post ++ [b])).drop (1 + pre.length) = r :: (post ++ [b]) := by
        rw [hsplit, List.drop_left' (by simp; omega)]
      rw [et, ed] at hun
      obtain ⟨o1, g1, -, g3⟩ := simplifyBy_spec (ok := fun _ _ _ => True) he hend (fun _ _ _ _ _ _ _ => trivial)
        (((a :: pre) ++ [r]).length + 1) ((a :: pre) ++ [r])
        (fun p hp => hP p (by simp at hp ⊢; rcases hp with h | h | h <;> simp [h])) (by simp) (by simp)
      obtain ⟨o2, k1, -, k3⟩ := simplifyBy_spec (ok := fun _ _ _ => True) he hend (fun _ _ _ _ _ _ _ => trivial)
        ((r :: (post ++ [b])).length + 1) (r :: (post ++ [b]))
        (fun p hp => hP p (by simp at hp ⊢; rcases hp with h | h | h <;> simp [h])) (by simp) (by simp)
      obtain ⟨o1', rfl⟩ := simplifies_last _ _ g3
      cases o2 with
      | nil => exact k3.elim
      | cons m o2 =>
        obtain ⟨l, hl⟩ := simplifies_head k3
        obtain rfl : r = m := by
          have := congrArg List.head? hl
          simpa using this
        refine ⟨pre, r, post, o1', o2, rfl, hc, fun p hp => f2 p (List.mem_append_left _ hp), ?_,
          by simpa using g1, by simpa using k1, ?_⟩
        · intro p hp
          obtain ⟨k, hk, rfl⟩ := List.mem_iff_getElem.1 hp
          refine f8 k _ ?_ (by omega)
          rw [List.append_assoc, List.getElem?_append_left hk, List.getElem?_eq_getElem hk]
        · rw [hun, simplifyBy_fuel (by simp) g1, Option.bind_some,
            simplifyBy_fuel (by simp) k1, Option.bind_some, List.dropLast_concat]
  · left
    rw [if_neg hc] at hun
    exact ⟨fun r hr => le_trans (f2 r (List.mem_append_left _ hr)) (not_lt.1 hc), hun⟩

/-! ### Distances between integer points -/

theorem zero64 : rnd64 (0 : ℝ) = 0 := rnd_zero

theorem cast64 (x : ℚ) : rnd64 (x : ℝ) = ((rnd64 x : ℚ) : ℝ) := rnd_cast x

theorem r64 {n : Int} (h : |n| ≤ 2 ^ 53) : rnd64 (n : ℝ) = n := rnd_int (by norm_num) (by norm_num) h

/-- A point with integer coordinates of absolute value at most `2^25`. -/
def SmallInt (p : ℝ × ℝ) : Prop :=
  ∃ x y : Int, p = ((x : ℝ), (y : ℝ)) ∧ |x| ≤ 2 ^ 25 ∧ |y| ≤ 2 ^ 25

theorem lineDist64_int {p q r : ℝ × ℝ} (hp : SmallInt p) (hq : SmallInt q) (hr : SmallInt r) :
    ∃ N D : Int, 0 ≤ N ∧ 0 ≤ D ∧ N ≤ 2 ^ 53 ∧ D ≤ 2 ^ 53 ∧
      lineDist64 p q r = rnd64 ((N : ℝ) / rnd64 (Real.sqrt D)) ∧ lineDistSq p q r = (N : ℝ) ^ 2 / D ∧
      (D = 0 → N = 0) ∧ (r = q → N = 0) := by
  obtain ⟨px, py, rfl, hpx, hpy⟩ := hp
  obtain ⟨qx, qy, rfl, hqx, hqy⟩ := hq
  obtain ⟨rx, ry, rfl, hrx, hry⟩ := hr
  have ha : |py - qy| ≤ 2 ^ 26 := (abs_sub _ _).trans (by omega)
  have hb : |qx - px| ≤ 2 ^ 26 := (abs_sub _ _).trans (by omega)
  have prod : ∀ {u v : Int} {A B : Int}, |u| ≤ A → |v| ≤ B → |u * v| ≤ A * B := by
    intro u v A B hu hv
    rw [abs_mul]
    exact mul_le_mul hu hv (abs_nonneg _) (le_trans (abs_nonneg _) hu)
  have m1 := prod hpx hqy
  have m2 := prod hqx hpy
  have m3 := prod ha hrx
  have m4 := prod hb hry
  have m5 := prod ha ha
  have m6 := prod hb hb
  have hc : |px * qy - qx * py| ≤ 2 ^ 51 := (abs_sub _ _).trans (by norm_num at m1 m2 ⊢; omega)
  have hs : |(py - qy) * rx + (qx - px) * ry| ≤ 2 ^ 52 := (abs_add_le _ _).trans (by norm_num at m3 m4 ⊢; omega)
  have ht : |(py - qy) * rx + (qx - px) * ry + (px * qy - qx * py)| ≤ 2 ^ 53 :=
    (abs_add_le _ _).trans (by norm_num at hc hs ⊢; omega)
  have hd : |(py - qy) * (py - qy) + (qx - px) * (qx - px)| ≤ 2 ^ 53 :=
    (abs_add_le _ _).trans (by norm_num at m5 m6 ⊢; omega)
  have hd0 : 0 ≤ (py - qy) * (py - qy) + (qx - px) * (qx - px) :=
    add_nonneg (mul_self_nonneg _) (mul_self_nonneg _)
  refine ⟨|(py - qy) * rx + (qx - px) * ry + (px * qy - qx * py)|,
    (py - qy) * (py - qy) + (qx - px) * (qx - px), abs_nonneg _, hd0, ht, by rwa [abs_of_nonneg hd0] at hd,
    ?_, ?_, ?_, ?_⟩
  · unfold lineDist64
    dsimp only
    have e1 : rnd64 ((py : ℝ) - qy) = ((py - qy : Int) : ℝ) := by
      rw [← Int.cast_sub]; exact r64 (by norm_num at ha ⊢; omega)
    have e2 : rnd64 ((qx : ℝ) - px) = ((qx - px : Int) : ℝ) := by
      rw [← Int.cast_sub]; exact r64 (by norm_num at hb ⊢; omega)
    have e3 : rnd64 ((px : ℝ) * qy) = ((px * qy : Int) : ℝ) := by
      rw [← Int.cast_mul]; exact r64 (by norm_num at m1 ⊢; omega)
    have e4 : rnd64 ((qx : ℝ) * py) = ((qx * py : Int) : ℝ) := by
      rw [← Int.cast_mul]; exact r64 (by norm_num at m2 ⊢; omega)
    rw [e1, e2, e3, e4]
    have e5 : rnd64 (((px * qy : Int) : ℝ) - ((qx * py : Int) : ℝ)) = ((px * qy - qx * py : Int) : ℝ) := by
      rw [← Int.cast_sub]; exact r64 (by norm_num at hc ⊢; omega)
    have e6 : rnd64 (((py - qy : Int) : ℝ) * rx) = (((py - qy) * rx : Int) : ℝ) := by
      rw [← Int.cast_mul]; exact r64 (by norm_num at m3 ⊢; omega)
    have e7 : rnd64 (((qx - px : Int) : ℝ) * ry) = (((qx - px) * ry : Int) : ℝ) := by
      rw [← Int.cast_mul]; exact r64 (by norm_num at m4 ⊢; omega)
    have e8 : rnd64 (((py - qy : Int) : ℝ) * ((py - qy : Int) : ℝ)) = (((py - qy) * (py - qy) : Int) : ℝ) := by
      rw [← Int.cast_mul]; exact r64 (by norm_num at m5 ⊢; omega)
    have e9 : rnd64 (((qx - px : Int) : ℝ) * ((qx - px : Int) : ℝ)) = (((qx - px) * (qx - px) : Int) : ℝ) := by
      rw [← Int.cast_mul]; exact r64 (by norm_num at m6 ⊢; omega)
    rw [e5, e6, e7, e8, e9, ← Int.cast_add, ← Int.cast_add, r64 (by norm_num at hs ⊢; omega), ← Int.cast_add,
      r64 ht, r64 hd, Int.cast_abs]
  · unfold lineDistSq
    push_cast
    rw [sq_abs]
    ring
  · intro h0
    have h1 : (py - qy) * (py - qy) = 0 := by
      have := mul_self_nonneg (py - qy); have := mul_self_nonneg (qx - px); omega
    have h2 : (qx - px) * (qx - px) = 0 := by
      have := mul_self_nonneg (py - qy); have := mul_self_nonneg (qx - px); omega
    have h1 := mul_self_eq_zero.1 h1
    have h2 := mul_self_eq_zero.1 h2
    have h3 : py = qy := by omega
    have h4 : qx = px := by omega
    subst h3 h4
    simp
  · intro h
    have h1 : (rx : ℝ) = qx := congrArg Prod.fst h
    have h2 : (ry : ℝ) = qy := congrArg Prod.snd h
    have h1 : rx = qx := by exact_mod_cast h1
    have h2 : ry = qy := by exact_mod_cast h2
    subst h1 h2
    rw [abs_eq_zero]
    ring

/-- The computed distance has relative error at most `2^-51`. -/
theorem lineDist64_rel {p q r : ℝ × ℝ} (hp : SmallInt p) (hq : SmallInt q) (hr : SmallInt r) :
    |lineDist64 p q r - Real.sqrt (lineDistSq p q r)| ≤ Real.sqrt (lineDistSq p q r) / 2 ^ 51 := by
  obtain ⟨N, D, hN, hD, hN2, hD2, e1, e2, e3, -⟩ := lineDist64_int hp hq hr
  rw [e1, e2]
  rcases eq_or_lt_of_le hN with h0 | h0
  · subst h0
    rw [Int.cast_zero, zero_div, zero64, zero_pow (by norm_num), zero_div, Real.sqrt_zero]
    norm_num
  have hDp : 1 ≤ D := by
    by_contra h
    have : D = 0 := by omega
    have := e3 this
    omega
  have hNR : (1 : ℝ) ≤ N := by exact_mod_cast h0
  have hDR : (1 : ℝ) ≤ D := by exact_mod_cast hDp
  have hDR2 : (D : ℝ) ≤ 2 ^ 54 := by
    have : (D : ℝ) ≤ 2 ^ 53 := by exact_mod_cast hD2
    linarith
  have hs1 : 1 ≤ Real.sqrt D := Real.one_le_sqrt.2 hDR
  have hs2 : Real.sqrt D ≤ 2 ^ 27 := by
    rw [Real.sqrt_le_left (by norm_num)]
    norm_num at hDR2 ⊢
    linarith
  rw [Real.sqrt_div (by positivity), Real.sqrt_sq (by linarith)]
  set s := Real.sqrt D with hsdef
  have k1 : |rnd64 s - s| ≤ s / 2 ^ 53 := by
    have := rnd_error_rel (p := 53) (emin := -1074) (x := s)
      (by rw [abs_of_pos (by linarith)]
          refine le_trans ?_ hs1
          exact zpow_le_one_of_nonpos₀ (by norm_num) (by norm_num))
    rw [abs_of_pos (show (0 : ℝ) < s by linarith)] at this
    refine this.trans (le_of_eq ?_)
    norm_num
    ring
  obtain ⟨k2, k3⟩ := abs_le.1 k1
  set t := rnd64 s with htdef
  have ht1 : s * (1 - 1 / 2 ^ 53) ≤ t := by linarith
  have ht2 : t ≤ s * (1 + 1 / 2 ^ 53) := by linarith
  have htpos : 0 < t := lt_of_lt_of_le (by nlinarith) ht1
  have hspos : 0 < s := by linarith
  have hq0 : 0 < (N : ℝ) / s := by positivity
  have q1 : (N : ℝ) / t ≤ N / s * (1 + 1 / 2 ^ 52) := by
    rw [div_le_iff₀ htpos]
    have : N / s * (1 + 1 / 2 ^ 52) * (s * (1 - 1 / 2 ^ 53)) ≤ N / s * (1 + 1 / 2 ^ 52) * t :=
      mul_le_mul_of_nonneg_left ht1 (by positivity)
    refine le_trans ?_ this
    have e : N / s * (1 + 1 / 2 ^ 52) * (s * (1 - 1 / 2 ^ 53)) =
        (N : ℝ) * ((1 + 1 / 2 ^ 52) * (1 - 1 / 2 ^ 53)) := by
      field_simp
    rw [e]
    have : (1 : ℝ) ≤ (1 + 1 / 2 ^ 52) * (1 - 1 / 2 ^ 53) := by norm_num
    nlinarith
  have q2 : N / s * (1 - 1 / 2 ^ 52) ≤ (N : ℝ) / t := by
    rw [le_div_iff₀ htpos]
    have : N / s * (1 - 1 / 2 ^ 52) * t ≤ N / s * (1 - 1 / 2 ^ 52) * (s * (1 + 1 / 2 ^ 53)) :=
      mul_le_mul_of_nonneg_left ht2 (mul_nonneg hq0.le (by norm_num))
    refine le_trans this ?_
    have e : N / s * (1 - 1 / 2 ^ 52) * (s * (1 + 1 / 2 ^ 53)) =
        (N : ℝ) * ((1 - 1 / 2 ^ 52) * (1 + 1 / 2 ^ 53)) := by
      field_simp
    rw [e]
    have : (1 - 1 / 2 ^ 52) * (1 + 1 / 2 ^ 53) ≤ (1 : ℝ) := by norm_num
    nlinarith
  have hqt : 0 < (N : ℝ) / t := by positivity
  have hbig : 1 / 2 ^ 30 ≤ (N : ℝ) / t := by
    refine le_trans ?_ q2
    have : 1 / 2 ^ 27 ≤ (N : ℝ) / s := by
      rw [le_div_iff₀ hspos]
      have : 1 / 2 ^ 27 * s ≤ 1 / 2 ^ 27 * 2 ^ 27 := mul_le_mul_of_nonneg_left hs2 (by norm_num)
      linarith
    nlinarith
  have k4 : |rnd64 ((N : ℝ) / t) - N / t| ≤ N / t / 2 ^ 53 := by
    have := rnd_error_rel (p := 53) (emin := -1074) (x := (N : ℝ) / t)
      (by rw [abs_of_pos hqt]
          refine le_trans ?_ hbig
          rw [show (1 : ℝ) / 2 ^ 30 = 2 ^ (-30 : Int) by norm_num]
          exact zpow_le_zpow_right₀ (by norm_num) (by norm_num))
    rw [abs_of_pos hqt] at this
    refine this.trans (le_of_eq ?_)
    norm_num
    ring
  have hN0 : (N : ℝ) / s / 2 ^ 51 = N / s * (1 / 2 ^ 51) := by ring
  rw [hN0]
  obtain ⟨k5, k6⟩ := abs_le.1 k4
  rw [abs_le]
  constructor <;> linarith

theorem lineDist64_end {p q : ℝ × ℝ} (hp : SmallInt p) (hq : SmallInt q) : lineDist64 p q q = 0 := by
  obtain ⟨N, D, -, -, -, -, e1, -, -, e4⟩ := lineDist64_int hp hq hq
  rw [e1, e4 rfl, Int.cast_zero, zero_div, zero64]

/-! ### C145 -/

/-- A computed distance of at most `eps` means at most `eps (1 + 2^-50)`. -/
theorem near_of_dist64 {eps : ℝ} (he : 0 < eps) {p q r : ℝ × ℝ} (hp : SmallInt p) (hq : SmallInt q)
    (hr : SmallInt r) (h : lineDist64 p q r ≤ eps) :
    p = q ∨ NearLine (eps * (1 + 1 / 2 ^ 50)) p q r := by
  by_cases hpq : p = q
  · exact Or.inl hpq
  refine Or.inr (near_of_dist hpq ?_)
  have k := (abs_le.1 (lineDist64_rel hp hq hr)).1
  set s := Real.sqrt (lineDistSq p q r) with hs
  have hs0 : 0 ≤ s := Real.sqrt_nonneg _
  have h1 : s ≤ eps * (1 + 1 / 2 ^ 50) := by
    have : s * (1 - 1 / 2 ^ 51) ≤ eps := by linarith
    nlinarith
  have h2 : 0 ≤ lineDistSq p q r := by
    unfold lineDistSq
    positivity
  calc lineDistSq p q r = s ^ 2 := (Real.sq_sqrt h2).symm
    _ ≤ _ := by gcongr

/-- **C145** (partial: coordinates of absolute value above `2^25` and fractional coordinates are excluded, see the
negation).  For a curve of integer points the call returns; the result selects points of the curve in order from
its first to its last, and every skipped point is within `eps`, up to a relative error of `2^-50`, of the line
through the two selected points around it, or these two coincide. -/
theorem C145_integer_partial {eps : ℝ} (he : 0 < eps) (curve : List (ℝ × ℝ)) (h : 2 ≤ curve.length)
    (hc : ∀ p ∈ curve, SmallInt p) (fuel : Nat) (hf : curve.length ≤ fuel) :
    ∃ out, approximatePolygon64 fuel curve eps false = some out ∧
      approximatePolygon64 fuel curve eps true = some out.dropLast ∧
      Simplifies (fun a b r => a = b ∨ NearLine (eps * (1 + 1 / 2 ^ 50)) a b r) out curve ∧
      out.Sublist curve ∧ out.head? = curve.head? ∧ out.getLast? = curve.getLast? := by
  obtain ⟨out, h1, -, h3⟩ := simplifyBy_spec (d := lineDist64) (P := SmallInt)
    (ok := fun a b r => a = b ∨ NearLine (eps * (1 + 1 / 2 ^ 50)) a b r) he
    (fun p q hp hq => (lineDist64_end hp hq).le) (fun p q r hp hq hr hd => near_of_dist64 he hp hq hr hd)
    fuel curve hc h hf
  refine ⟨out, ?_, ?_, h3, h3.sublist, h3.head_eq, h3.last_eq⟩ <;>
  · unfold approximatePolygon64
    rw [h1]; rfl

/-- **C145.** Which points are kept: if all points are within `eps` of the line through the first and the last
point only these two are kept.  Otherwise a point farther than `eps` is kept that is farthest from that line, all
up to a relative error of `2^-49`, and the two halves of the curve at that point are simplified in the same way. -/
theorem C145_kept {eps : ℝ} (he : 0 < eps) (a b : ℝ × ℝ) (mid : List (ℝ × ℝ))
    (hc : ∀ p ∈ a :: (mid ++ [b]), SmallInt p) :
    ((∀ r ∈ mid, Real.sqrt (lineDistSq a b r) ≤ eps * (1 + 1 / 2 ^ 50)) ∧
      approximatePolygon64 (mid.length + 3) (a :: (mid ++ [b])) eps false = some [a, b]) ∨
    ∃ pre r post o1 o2, mid = pre ++ r :: post ∧ eps * (1 - 1 / 2 ^ 50) < Real.sqrt (lineDistSq a b r) ∧
      (∀ p ∈ mid, Real.sqrt (lineDistSq a b p) ≤ Real.sqrt (lineDistSq a b r) * (1 + 1 / 2 ^ 49)) ∧
      approximatePolygon64 (pre.length + 3) (a :: (pre ++ [r])) eps false = some (o1 ++ [r]) ∧
      approximatePolygon64 (post.length + 3) (r :: (post ++ [b])) eps false = some (r :: o2) ∧
      approximatePolygon64 (mid.length + 3) (a :: (mid ++ [b])) eps false = some (o1 ++ r :: o2) := by
  have hopen : ∀ n c, approximatePolygon64 n c eps false = simplifyBy lineDist64 eps n c := by
    intro n c
    unfold approximatePolygon64
    cases simplifyBy lineDist64 eps n c <;> rfl
  have ha := hc a (by simp)
  have hb := hc b (by simp)
  have hm : ∀ r ∈ mid, SmallInt r := fun r hr => hc r (by simp [hr])
  rcases simplifyBy_kept (d := lineDist64) (P := SmallInt) he (fun p q hp hq => (lineDist64_end hp hq).le)
    a b mid hc with ⟨h1, h2⟩ | ⟨pre, r, post, o1, o2, h1, h2, h3, -, h5, h6, h7⟩
  · refine Or.inl ⟨fun r hr => ?_, by rw [hopen]; exact h2⟩
    have k := (abs_le.1 (lineDist64_rel ha hb (hm r hr))).1
    have := h1 r hr
    have hs0 : 0 ≤ Real.sqrt (lineDistSq a b r) := Real.sqrt_nonneg _
    nlinarith
  · have hr : r ∈ mid := by rw [h1]; simp
    obtain ⟨k1, k2⟩ := abs_le.1 (lineDist64_rel ha hb (hm r hr))
    have hs0 : 0 ≤ Real.sqrt (lineDistSq a b r) := Real.sqrt_nonneg _
    refine Or.inr ⟨pre, r, post, o1, o2, h1, by nlinarith, fun p hp => ?_, by rw [hopen]; exact h5,
      by rw [hopen]; exact h6, by rw [hopen]; exact h7⟩
    have k3 := (abs_le.1 (lineDist64_rel ha hb (hm p hp))).1
    have k4 := h3 p hp
    have hs1 : 0 ≤ Real.sqrt (lineDistSq a b p) := Real.sqrt_nonneg _
    nlinarith

/-! ### Large coordinates -/

/-- If the computed distance of the last point from the line exceeds `eps` and that of no earlier point does,
the recursion calls itself with the same curve for ever. -/
theorem simplifyBy_loops {d : ℝ × ℝ → ℝ × ℝ → ℝ × ℝ → ℝ} {eps : ℝ} (he : 0 < eps) (p q : ℝ × ℝ)
    (h : eps < d p q q) : ∀ n, simplifyBy d eps n [p, q] = none := by
  intro n
  induction n with
  | zero => rfl
  | succ n ih =>
    rw [simplifyBy, if_neg (not_le.2 he), csub_of_le (by simp), Option.bind_some]
    have hpos : d p q q > 0 := lt_trans he h
    simp [farthestBy, hpos, h, ih]

theorem big_dist : lineDist64 (100000000, 100000001) (100000001, 100000001) (100000001, 100000001) = 1 := by
  have c1 : rnd64 ((100000000 : ℝ) * 100000001) = 10000000100000000 := by
    have : rnd64 (10000000100000000 : ℚ) = 10000000100000000 := by decide +kernel
    rw [show (100000000 : ℝ) * 100000001 = ((10000000100000000 : ℚ) : ℝ) by norm_num, cast64, this]
    norm_num
  have c2 : rnd64 ((100000001 : ℝ) * 100000001) = 10000000200000000 := by
    have : rnd64 (10000000200000001 : ℚ) = 10000000200000000 := by decide +kernel
    rw [show (100000001 : ℝ) * 100000001 = ((10000000200000001 : ℚ) : ℝ) by norm_num, cast64, this]
    norm_num
  have z : ∀ n : Int, |n| ≤ 2 ^ 53 → ∀ x : ℝ, x = n → rnd64 x = n := by
    intro n hn x hx
    rw [hx]; exact r64 hn
  unfold lineDist64
  dsimp only
  rw [c1, c2, sub_self, zero64, z 1 (by norm_num) (100000001 - 100000000) (by norm_num),
    z (-100000000) (by norm_num) (10000000100000000 - 10000000200000000) (by norm_num)]
  rw [zero_mul, zero64, zero_mul, zero64, z 1 (by norm_num) (((1 : Int) : ℝ) * ((1 : Int) : ℝ)) (by norm_num),
    z 100000001 (by norm_num) (((1 : Int) : ℝ) * 100000001) (by norm_num), zero_add,
    z 100000001 (by norm_num) ((100000001 : Int) : ℝ) rfl, zero_add, z 1 (by norm_num) ((1 : Int) : ℝ) rfl]
  rw [z 1 (by norm_num) (((100000001 : Int) : ℝ) + ((-100000000 : Int) : ℝ)) (by norm_num), Int.cast_one,
    Real.sqrt_one, z 1 (by norm_num) 1 (by norm_num), Int.cast_one, abs_one, div_one,
    z 1 (by norm_num) 1 (by norm_num), Int.cast_one]

/-- **C145, negation.** For two neighbouring points with coordinates around `10^8`, which an `i32` holds, and
`epsilon = 1/2` the computed distance of the second point from the line through both is `1`: the recursion never
ends, whatever the depth. -/
theorem C145_negation (fuel : Nat) (closed : Bool) :
    approximatePolygon64 fuel [(100000000, 100000001), (100000001, 100000001)] (1 / 2) closed = none := by
  unfold approximatePolygon64
  rw [simplifyBy_loops (by norm_num) _ _ (by rw [big_dist]; norm_num)]
  rfl

/-- **C145.** The same for every curve of two points whose second point is computed to be farther than `epsilon`
from the line through both. -/
theorem C145_diverges {eps : ℝ} (he : 0 < eps) (p q : ℝ × ℝ) (h : eps < lineDist64 p q q) (fuel : Nat)
    (closed : Bool) : approximatePolygon64 fuel [p, q] eps closed = none := by
  unfold approximatePolygon64
  rw [simplifyBy_loops he _ _ h]
  rfl

theorem small (x y : Int) (hx : |x| ≤ 2 ^ 25) (hy : |y| ≤ 2 ^ 25) : SmallInt ((x : ℝ), (y : ℝ)) :=
  ⟨x, y, rfl, hx, hy⟩

/-- A bend of the curve is kept, a small deviation may be dropped. -/
example : ∃ out, approximatePolygon64 4 [(((0 : Int) : ℝ), ((0 : Int) : ℝ)), (((1 : Int) : ℝ), ((1 : Int) : ℝ)),
      (((20 : Int) : ℝ), ((50 : Int) : ℝ)), (((40 : Int) : ℝ), ((0 : Int) : ℝ))] 1 false = some out ∧
    out.head? = some (((0 : Int) : ℝ), ((0 : Int) : ℝ)) ∧
    out.getLast? = some (((40 : Int) : ℝ), ((0 : Int) : ℝ)) := by
  obtain ⟨out, h1, -, -, -, h5, h6⟩ := C145_integer_partial (eps := 1) (by norm_num)
    [(((0 : Int) : ℝ), ((0 : Int) : ℝ)), (((1 : Int) : ℝ), ((1 : Int) : ℝ)),
      (((20 : Int) : ℝ), ((50 : Int) : ℝ)), (((40 : Int) : ℝ), ((0 : Int) : ℝ))] (by decide)
    (by
      intro p hp
      simp only [List.mem_cons, List.not_mem_nil, or_false] at hp
      rcases hp with rfl | rfl | rfl | rfl <;> exact small _ _ (by norm_num) (by norm_num)) 4 (by decide)
  exact ⟨out, h1, h5, h6⟩

end Verif.Float
