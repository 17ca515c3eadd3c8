import Verif.Basic.Loop
import Mathlib.Algebra.Order.Field.Basic
import Mathlib.Algebra.Order.Ring.Rat
import Mathlib.Data.List.Nodup
import Mathlib.Tactic.Ring
import Mathlib.Tactic.Linarith
import Mathlib.Tactic.FieldSimp
import Mathlib.Tactic.Push
/-
Model of `approximate_polygon_dp`, `/repo/src/geometry.rs`, and of `Line`, `/repo/src/point.rs`,
and property theorem C56.  Arithmetic is exact over an arbitrary ordered field.  Distances are
non-negative and are only compared, so the model compares their squares.  A line through two equal
points gives the distance `0/0`, a NaN, for which every comparison is false; in the model it is `0`,
which is not greater than the initial maximum `0` either.
-/
set_option linter.unusedSectionVars false
namespace Verif.Geometry
variable {K : Type _} [Field K] [LinearOrder K] [IsStrictOrderedRing K]

/-- Square of `Line::from_points(p, q).distance_from_point(r)`, point.rs:126-137. -/
def lineDistSq (p q r : K × K) : K :=
  let a := p.2 - q.2
  let b := q.1 - p.1
  let c := p.1 * q.2 - q.1 * p.2
  (a * r.1 + b * r.2 + c) ^ 2 / (a ^ 2 + b ^ 2)

/-- The loop of geometry.rs:39-45: `i` is the index of the head of the list, the state is
`(index, dmax²)`. -/
def farthest (p q : K × K) : List (K × K) → Nat → Nat × K → Nat × K
  | [], _, s => s
  | r :: l, i, s =>
    if lineDistSq p q r > s.2 then farthest p q l (i + 1) (i, lineDistSq p q r)
    else farthest p q l (i + 1) s

/-- `approximate_polygon_dp` with `closed = false`, geometry.rs:26-66; the recursion is on fuel. -/
def simplifyOpen (eps : K) : Nat → List (K × K) → Option (List (K × K))
  | 0, _ => none
  | n + 1, curve =>
    if eps ≤ 0 then none
    else (csub curve.length 1).bind fun e =>
      (curve[0]?).bind fun first => (curve[e]?).bind fun last =>
      let s := farthest first last (curve.drop 1) 1 (0, 0)
      if s.2 > eps ^ 2 then
        (simplifyOpen eps n (curve.take (s.1 + 1))).bind fun p1 =>
        (simplifyOpen eps n (curve.drop s.1)).bind fun p2 => some (p1.dropLast ++ p2)
      else some [first, last]

/-- `approximate_polygon_dp`, geometry.rs:26-66. -/
def approximatePolygon (curve : List (K × K)) (eps : K) (closed : Bool) : Option (List (K × K)) :=
  (simplifyOpen eps (curve.length + 1) curve).bind fun res =>
  some (if closed then res.dropLast else res)

/-! ### Specification -/

/-- `r` is within `eps` of a point of the line through `p` and `q`. -/
def NearLine (eps : K) (p q r : K × K) : Prop :=
  ∃ t : K, (r.1 - (p.1 + t * (q.1 - p.1))) ^ 2 + (r.2 - (p.2 + t * (q.2 - p.2))) ^ 2 ≤ eps ^ 2

/-- `out` selects points of `curve` in order, starting with the first and ending with the last, and
`ok a b r` holds for every point `r` skipped between consecutive selected points `a`, `b`. -/
def Simplifies (ok : K × K → K × K → K × K → Prop) : List (K × K) → List (K × K) → Prop
  | [], _ => False
  | [a], curve => curve = [a]
  | a :: b :: o, curve => ∃ mid rest, curve = a :: (mid ++ b :: rest) ∧ (∀ r ∈ mid, ok a b r) ∧
      Simplifies ok (b :: o) (b :: rest)

/-! ### Lemmas -/

theorem simplifies_head {ok : K × K → K × K → K × K → Prop} {a : K × K} {o curve : List (K × K)}
    (h : Simplifies ok (a :: o) curve) : ∃ l, curve = a :: l := by
  cases o with
  | nil => exact ⟨[], h⟩
  | cons b o => obtain ⟨mid, rest, h1, -⟩ := h; exact ⟨_, h1⟩

theorem simplifies_join {ok : K × K → K × K → K × K → Prop} {m : K × K} {o2 c2 : List (K × K)}
    (h2 : Simplifies ok (m :: o2) (m :: c2)) : ∀ (o1 c1 : List (K × K)),
      Simplifies ok (o1 ++ [m]) (c1 ++ [m]) → Simplifies ok (o1 ++ m :: o2) (c1 ++ m :: c2)
  | [], c1, h => by
    have : c1 = [] := by
      have h' : c1 ++ [m] = [m] := h
      simpa using h'
    subst this
    exact h2
  | [a], c1, h => by
    obtain ⟨mid, rest, h1, h3, h4⟩ := h
    have h4' : m :: rest = [m] := h4
    obtain rfl : rest = [] := by simpa using h4'
    have h1' : c1 ++ [m] = (a :: mid) ++ [m] := by simpa using h1
    have h5 : c1 = a :: mid := List.append_cancel_right h1'
    exact ⟨mid, c2, by rw [h5]; simp, h3, h2⟩
  | a :: b :: o1, c1, h => by
    obtain ⟨mid, rest, h1, h3, h4⟩ := h
    obtain ⟨c', hc'⟩ : ∃ c', b :: rest = c' ++ [m] := by
      have : (b :: rest) ≠ [] := by simp
      refine ⟨(b :: rest).dropLast, ?_⟩
      have hl : (b :: rest).getLast this = m := by
        have h5 : (c1 ++ [m]).getLast (by simp) = m := by simp
        have h6 : (a :: (mid ++ b :: rest)).getLast (by simp) = (b :: rest).getLast this := by
          rw [List.getLast_cons (by simp), List.getLast_append_of_right_ne_nil _ _ this]
        rw [← h6, ← h5]
        simp only [h1]
      rw [← hl]
      exact (List.dropLast_append_getLast this).symm
    rw [hc'] at h4
    have := simplifies_join h2 (b :: o1) c' h4
    cases c' with
    | nil =>
      simp only [List.nil_append, List.cons.injEq] at hc'
      obtain ⟨rfl, rfl⟩ := hc'
      have h1' : c1 ++ [b] = (a :: mid) ++ [b] := by simpa using h1
      have h5 : c1 = a :: mid := List.append_cancel_right h1'
      exact ⟨mid, c2, by rw [h5]; simp, h3, this⟩
    | cons b' c' =>
      simp only [List.cons_append, List.cons.injEq] at hc'
      obtain ⟨rfl, rfl⟩ := hc'
      have h1' : c1 ++ [m] = (a :: (mid ++ b :: c')) ++ [m] := by simpa using h1
      have h5 : c1 = a :: (mid ++ b :: c') := List.append_cancel_right h1'
      exact ⟨mid, c' ++ m :: c2, by rw [h5]; simp, h3, this⟩

theorem simplifies_last {ok : K × K → K × K → K × K → Prop} {m : K × K} :
    ∀ (o c : List (K × K)), Simplifies ok o (c ++ [m]) → ∃ o', o = o' ++ [m]
  | [], c, h => h.elim
  | [a], c, h => by
    have h' : c ++ [m] = [a] := h
    have := congrArg List.getLast? h'
    exact ⟨[], by simpa using this.symm⟩
  | a :: b :: o, c, h => by
    obtain ⟨mid, rest, h1, -, h4⟩ := h
    have hl := congrArg List.getLast? h1
    have e : (a :: (mid ++ b :: rest)).getLast? = (b :: rest).getLast? := by
      rw [show a :: (mid ++ b :: rest) = (a :: mid) ++ (b :: rest) from rfl, List.getLast?_append]
      cases hq : (b :: rest).getLast? with
      | none => exact absurd (List.getLast?_eq_none_iff.1 hq) (by simp)
      | some v => rfl
    rw [e, List.getLast?_concat] at hl
    obtain ⟨ys, hys⟩ := List.getLast?_eq_some_iff.1 hl.symm
    rw [hys] at h4
    obtain ⟨o', ho'⟩ := simplifies_last (b :: o) ys h4
    exact ⟨a :: o', by rw [ho']; rfl⟩

theorem farthest_spec (p q : K × K) : ∀ (l : List (K × K)) (i : Nat) (s : Nat × K),
    s.2 ≤ (farthest p q l i s).2 ∧ (∀ r ∈ l, lineDistSq p q r ≤ (farthest p q l i s).2) ∧
    (farthest p q l i s = s ∨ ∃ j r, l[j]? = some r ∧ (farthest p q l i s).1 = i + j ∧
      s.2 < (farthest p q l i s).2 ∧ (farthest p q l i s).2 = lineDistSq p q r)
  | [], i, s => ⟨le_refl _, (fun r hr => absurd hr List.not_mem_nil), Or.inl rfl⟩
  | r :: l, i, s => by
    rw [farthest]
    split
    · rename_i hc
      obtain ⟨h1, h2, h3⟩ := farthest_spec p q l (i + 1) (i, lineDistSq p q r)
      dsimp only at h1
      refine ⟨le_trans (le_of_lt hc) h1, ?_, Or.inr ?_⟩
      · intro r' hr'
        rcases List.mem_cons.1 hr' with rfl | hr'
        · exact h1
        · exact h2 r' hr'
      · rcases h3 with h3 | ⟨j, r', h4, h5, h6, h7⟩
        · refine ⟨0, r, rfl, ?_, ?_, ?_⟩
          · rw [h3]; rfl
          · rw [h3]; exact hc
          · rw [h3]
        · exact ⟨j + 1, r', by simpa using h4, by rw [h5]; omega, lt_trans hc h6, h7⟩
    · rename_i hc
      obtain ⟨h1, h2, h3⟩ := farthest_spec p q l (i + 1) s
      refine ⟨h1, ?_, ?_⟩
      · intro r' hr'
        rcases List.mem_cons.1 hr' with rfl | hr'
        · exact le_trans (not_lt.1 hc) h1
        · exact h2 r' hr'
      · rcases h3 with h3 | ⟨j, r', h4, h5, h6, h7⟩
        · exact Or.inl h3
        · exact Or.inr ⟨j + 1, r', by simpa using h4, by rw [h5]; omega, h6, h7⟩

theorem lineDistSq_end (p q : K × K) : lineDistSq p q q = 0 := by
  unfold lineDistSq
  dsimp only
  rw [show (p.2 - q.2) * q.1 + (q.1 - p.1) * q.2 + (p.1 * q.2 - q.1 * p.2) = 0 by ring]
  simp

theorem near_of_dist {eps : K} {p q r : K × K} (hpq : p ≠ q) (h : lineDistSq p q r ≤ eps ^ 2) :
    NearLine eps p q r := by
  unfold lineDistSq at h
  dsimp only at h
  have hpos : 0 < (p.2 - q.2) ^ 2 + (q.1 - p.1) ^ 2 := by
    by_contra hc
    have h1 : p.2 - q.2 = 0 := by
      have := sq_nonneg (p.2 - q.2)
      have := sq_nonneg (q.1 - p.1)
      exact pow_eq_zero_iff (n := 2) (by norm_num) |>.1 (by linarith)
    have h2 : q.1 - p.1 = 0 := by
      have := sq_nonneg (p.2 - q.2)
      have := sq_nonneg (q.1 - p.1)
      exact pow_eq_zero_iff (n := 2) (by norm_num) |>.1 (by linarith)
    exact hpq (Prod.ext (by linarith) (by linarith))
  refine ⟨((r.1 - p.1) * (q.1 - p.1) + (r.2 - p.2) * (q.2 - p.2)) /
    ((p.2 - q.2) ^ 2 + (q.1 - p.1) ^ 2), le_trans (le_of_eq ?_) h⟩
  field_simp
  ring

/-! ### C56 -/

theorem simplifyOpen_spec {eps : K} (he : 0 < eps) : ∀ (n : Nat) (curve : List (K × K)),
    2 ≤ curve.length → curve.length ≤ n → ∃ out, simplifyOpen eps n curve = some out ∧
      2 ≤ out.length ∧ Simplifies (fun a b r => a = b ∨ NearLine eps a b r) out curve
  | 0, curve, h1, h2 => by omega
  | n + 1, curve, h1, h2 => by
    obtain ⟨a, mid, b, rfl⟩ : ∃ a mid b, curve = a :: (mid ++ [b]) := by
      match curve, h1 with
      | a :: l, h1 =>
        rcases List.eq_nil_or_concat l with h | ⟨m, c, h⟩
        · subst h; simp at h1
        · exact ⟨a, m, c, by rw [h]; simp⟩
    rw [simplifyOpen, if_neg (not_le.2 he), csub_of_le (by omega), Option.bind_some]
    have e0 : (a :: (mid ++ [b]))[0]? = some a := rfl
    have elast : (a :: (mid ++ [b]))[(a :: (mid ++ [b])).length - 1]? = some b := by simp
    rw [e0, Option.bind_some, elast, Option.bind_some]
    dsimp only
    rw [show (a :: (mid ++ [b])).drop 1 = mid ++ [b] from rfl]
    obtain ⟨f1, f2, f3⟩ := farthest_spec a b (mid ++ [b]) 1 (0, 0)
    dsimp only at f1
    split
    · rename_i hc
      rcases f3 with f3 | ⟨j, r, f4, f5, f6, f7⟩
      · rw [f3] at hc
        exact absurd hc (not_lt.2 (sq_nonneg eps))
      · have hj : j < mid.length := by
          by_contra hcon
          have hlt : j < (mid ++ [b]).length := (List.getElem?_eq_some_iff.1 f4).1
          have : j = mid.length := by simp at hlt; omega
          rw [this] at f4
          simp at f4
          rw [f7, ← f4, lineDistSq_end] at f6
          exact absurd f6 (lt_irrefl _)
        rw [List.getElem?_append_left hj] at f4
        obtain ⟨hj', f4⟩ := List.getElem?_eq_some_iff.1 f4
        obtain ⟨pre, post, hmid, hlen⟩ : ∃ pre post, mid = pre ++ r :: post ∧ pre.length = j :=
          ⟨mid.take j, mid.drop (j + 1), by
            rw [← f4, ← List.drop_eq_getElem_cons hj', List.take_append_drop], by simp; omega⟩
        rw [f5]
        clear f1 f2 f5 f6 f7 hc f4 hj hj' elast e0 h1
        subst hmid hlen
        have hsplit : a :: (pre ++ r :: post ++ [b]) = (a :: pre) ++ r :: (post ++ [b]) := by simp
        have hsplit' : a :: (pre ++ r :: post ++ [b]) = ((a :: pre) ++ [r]) ++ (post ++ [b]) := by
          simp
        have et : (a :: (pre ++ r :: post ++ [b])).take (1 + pre.length + 1) = (a :: pre) ++ [r] := by
          rw [hsplit', List.take_left' (by simp; omega)]
        have ed : (a :: (pre ++ r :: post ++ [b])).drop (1 + pre.length) = r :: (post ++ [b]) := by
          rw [hsplit, List.drop_left' (by simp; omega)]
        rw [et, ed]
        simp only [List.length_cons, List.length_append, List.length_nil] at h2
        obtain ⟨o1, g1, g2, g3⟩ := simplifyOpen_spec he n ((a :: pre) ++ [r])
          (by simp) (by simp; omega)
        obtain ⟨o2, k1, k2, k3⟩ := simplifyOpen_spec he n (r :: (post ++ [b]))
          (by simp) (by simp; omega)
        rw [g1, Option.bind_some, k1, Option.bind_some]
        refine ⟨_, rfl, ?_, ?_⟩
        · simp; omega
        · rw [hsplit]
          obtain ⟨o1', rfl⟩ := simplifies_last _ _ g3
          cases o2 with
          | nil => simp at k2
          | cons m o2 =>
            obtain ⟨l, hl⟩ := simplifies_head k3
            obtain rfl : r = m := by
              have := congrArg List.head? hl
              simpa using this
            rw [List.dropLast_concat]
            exact simplifies_join k3 o1' (a :: pre) g3
    · rename_i hc
      refine ⟨_, rfl, le_refl _, mid, [], rfl, fun r hr => ?_, rfl⟩
      by_cases hab : a = b
      · exact Or.inl hab
      · exact Or.inr (near_of_dist hab (le_trans (f2 r (List.mem_append_left _ hr)) (not_lt.1 hc)))

theorem Simplifies.sublist {ok : K × K → K × K → K × K → Prop} :
    ∀ (o c : List (K × K)), Simplifies ok o c → o.Sublist c
  | [], c, h => h.elim
  | [a], c, h => by rw [show c = [a] from h]
  | a :: b :: o, c, h => by
    obtain ⟨mid, rest, rfl, -, h4⟩ := h
    exact ((Simplifies.sublist _ _ h4).trans (List.sublist_append_right mid _)).cons_cons a

theorem Simplifies.head_eq {ok : K × K → K × K → K × K → Prop} :
    ∀ (o c : List (K × K)), Simplifies ok o c → o.head? = c.head?
  | [], c, h => h.elim
  | [a], c, h => by rw [show c = [a] from h]
  | a :: b :: o, c, h => by obtain ⟨mid, rest, rfl, -, h4⟩ := h; rfl

theorem Simplifies.last_eq {ok : K × K → K × K → K × K → Prop} (o c : List (K × K))
    (h : Simplifies ok o c) : o.getLast? = c.getLast? := by
  rcases List.eq_nil_or_concat c with rfl | ⟨c', m, rfl⟩
  · have := Simplifies.sublist _ _ h
    rw [List.sublist_nil.1 this] 
  · rw [List.concat_eq_append] at h
    obtain ⟨o', rfl⟩ := simplifies_last _ _ h
    simp

theorem Simplifies.distinct {ok : K × K → K × K → K × K → Prop} :
    ∀ (o c : List (K × K)), c.Nodup → Simplifies (fun a b r => a = b ∨ ok a b r) o c →
      Simplifies ok o c
  | [], c, hd, h => h
  | [a], c, hd, h => h
  | a :: b :: o, c, hd, h => by
    obtain ⟨mid, rest, rfl, h3, h4⟩ := h
    have hne : a ≠ b := by
      rintro rfl
      exact (List.nodup_cons.1 hd).1 (by simp)
    have hd' : (b :: rest).Nodup := (List.nodup_append.1 (List.nodup_cons.1 hd).2).2.1
    exact ⟨mid, rest, rfl, fun r hr => (h3 r hr).resolve_left hne, Simplifies.distinct _ _ hd' h4⟩

/-- C56, for open curves of at least two points: the call returns, the result selects points of the
curve in order from its first to its last, and every skipped point is within `eps` of the line
through the two selected points around it, or these two coincide.  Not provable: the distance bound
when the two selected points coincide, see `C56_negation`. -/
theorem C56_open_partial {eps : K} (he : 0 < eps) (curve : List (K × K)) (h : 2 ≤ curve.length) :
    ∃ out, approximatePolygon curve eps false = some out ∧
      Simplifies (fun a b r => a = b ∨ NearLine eps a b r) out curve ∧
      out.Sublist curve ∧ out.head? = curve.head? ∧ out.getLast? = curve.getLast? := by
  obtain ⟨out, h1, -, h3⟩ := simplifyOpen_spec he (curve.length + 1) curve h (by omega)
  refine ⟨out, ?_, h3, h3.sublist, h3.head_eq, h3.last_eq⟩
  unfold approximatePolygon
  rw [h1]; rfl

/-- C56, in full for curves without repeated points. -/
theorem C56_distinct {eps : K} (he : 0 < eps) (curve : List (K × K)) (h : 2 ≤ curve.length)
    (hd : curve.Nodup) :
    ∃ out, approximatePolygon curve eps false = some out ∧
      Simplifies (NearLine eps) out curve := by
  obtain ⟨out, h1, h2, -⟩ := C56_open_partial he curve h
  exact ⟨out, h1, Simplifies.distinct _ _ hd h2⟩

/-- C56, closed curves: the result is the one for the open curve without its last point. -/
theorem C56_closed {eps : K} (he : 0 < eps) (curve : List (K × K)) (h : 2 ≤ curve.length) :
    ∃ out, approximatePolygon curve eps false = some out ∧
      approximatePolygon curve eps true = some out.dropLast ∧
      Simplifies (fun a b r => a = b ∨ NearLine eps a b r) out curve := by
  obtain ⟨out, h1, -, h3⟩ := simplifyOpen_spec he (curve.length + 1) curve h (by omega)
  refine ⟨out, ?_, ?_, h3⟩ <;> · unfold approximatePolygon; rw [h1]; rfl

theorem simplifyOpen_mono {eps : K} : ∀ (n : Nat) (curve out : List (K × K)),
    simplifyOpen eps n curve = some out → simplifyOpen eps (n + 1) curve = some out
  | 0, curve, out, h => by simp [simplifyOpen] at h
  | n + 1, curve, out, h => by
    rw [simplifyOpen] at h ⊢
    by_cases he : eps ≤ 0
    · rw [if_pos he] at h; simp at h
    rw [if_neg he] at h ⊢
    simp only [Option.bind_eq_some_iff] at h ⊢
    obtain ⟨e, h1, a, h2, b, h3, h4⟩ := h
    refine ⟨e, h1, a, h2, b, h3, ?_⟩
    split at h4
    · rename_i hc
      rw [if_pos hc]
      simp only [Option.bind_eq_some_iff] at h4 ⊢
      obtain ⟨p1, h5, p2, h6, h7⟩ := h4
      exact ⟨p1, simplifyOpen_mono n _ _ h5, p2, simplifyOpen_mono n _ _ h6, h7⟩
    · rename_i hc
      rw [if_neg hc]; exact h4

theorem simplifyOpen_fuel {eps : K} {n m : Nat} {curve out : List (K × K)} (hnm : n ≤ m)
    (h : simplifyOpen eps n curve = some out) : simplifyOpen eps m curve = some out := by
  induction hnm with
  | refl => exact h
  | step _ ih => exact simplifyOpen_mono _ _ _ ih

/-- The first point attaining the maximum is found. -/
theorem farthest_first (p q : K × K) : ∀ (l : List (K × K)) (i : Nat) (s : Nat × K),
    s.2 < (farthest p q l i s).2 → ∀ k r, l[k]? = some r → i + k < (farthest p q l i s).1 →
      lineDistSq p q r < (farthest p q l i s).2
  | [], i, s, h, k, r, hr, hk => by simp at hr
  | r0 :: l, i, s, h, k, r, hr, hk => by
    rw [farthest] at h hk ⊢
    split at h
    · rename_i hc
      rw [if_pos hc] at hk ⊢
      obtain ⟨g1, g2, g3⟩ := farthest_spec p q l (i + 1) (i, lineDistSq p q r0)
      dsimp only at g1
      by_cases hlt : lineDistSq p q r0 < (farthest p q l (i + 1) (i, lineDistSq p q r0)).2
      · cases k with
        | zero => obtain rfl : r0 = r := by simpa using hr
                  exact hlt
        | succ k => exact farthest_first p q l (i + 1) _ hlt k r (by simpa using hr) (by omega)
      · rcases g3 with g3 | ⟨j, r', _, _, g4, _⟩
        · rw [g3] at hk; dsimp only at hk; omega
        · exact absurd g4 hlt
    · rename_i hc
      rw [if_neg hc] at hk ⊢
      cases k with
      | zero => obtain rfl : r0 = r := by simpa using hr
                exact lt_of_le_of_lt (not_lt.1 hc) h
      | succ k => exact farthest_first p q l (i + 1) s h k r (by simpa using hr) (by omega)

/-- C56, the distance used: for two different points it is the least squared distance from a point
of the line through them; for equal points it is 0. -/
theorem C56_distance (p q r : K × K) :
    (p ≠ q → (∃ t : K, (r.1 - (p.1 + t * (q.1 - p.1))) ^ 2 + (r.2 - (p.2 + t * (q.2 - p.2))) ^ 2 =
        lineDistSq p q r) ∧
      ∀ t : K, lineDistSq p q r ≤
        (r.1 - (p.1 + t * (q.1 - p.1))) ^ 2 + (r.2 - (p.2 + t * (q.2 - p.2))) ^ 2) ∧
    (p = q → lineDistSq p q r = 0) := by
  refine ⟨fun hpq => ?_, fun h => by subst h; unfold lineDistSq; simp⟩
  have hpos : 0 < (p.2 - q.2) ^ 2 + (q.1 - p.1) ^ 2 := by
    rcases lt_or_eq_of_le (add_nonneg (sq_nonneg (p.2 - q.2)) (sq_nonneg (q.1 - p.1))) with h | h
    · exact h
    · have := sq_nonneg (p.2 - q.2)
      have := sq_nonneg (q.1 - p.1)
      have h1 : p.2 - q.2 = 0 := pow_eq_zero_iff (n := 2) (by norm_num) |>.1 (by linarith)
      have h2 : q.1 - p.1 = 0 := pow_eq_zero_iff (n := 2) (by norm_num) |>.1 (by linarith)
      exact absurd (Prod.ext (by linarith) (by linarith)) hpq
  constructor
  · refine ⟨((r.1 - p.1) * (q.1 - p.1) + (r.2 - p.2) * (q.2 - p.2)) /
      ((p.2 - q.2) ^ 2 + (q.1 - p.1) ^ 2), ?_⟩
    unfold lineDistSq
    dsimp only
    field_simp
    ring
  · intro t
    unfold lineDistSq
    dsimp only
    rw [div_le_iff₀ hpos]
    have := sq_nonneg ((r.1 - (p.1 + t * (q.1 - p.1))) * (q.1 - p.1) +
      (r.2 - (p.2 + t * (q.2 - p.2))) * (q.2 - p.2))
    nlinarith [this]

/-- C56, which points are kept: if all points are within `eps` of the line through the first and the
last point (or these coincide) only these two are kept.  Otherwise the first of the points farthest
from that line is kept, and the two halves of the curve at that point are simplified in the same
way. -/
theorem C56_kept {eps : K} (he : 0 < eps) (a b : K × K) (mid : List (K × K)) :
    ((∀ r ∈ mid, lineDistSq a b r ≤ eps ^ 2) ∧
      approximatePolygon (a :: (mid ++ [b])) eps false = some [a, b]) ∨
    ∃ pre r post o1 o2, mid = pre ++ r :: post ∧ eps ^ 2 < lineDistSq a b r ∧
      (∀ p ∈ mid, lineDistSq a b p ≤ lineDistSq a b r) ∧
      (∀ p ∈ pre, lineDistSq a b p < lineDistSq a b r) ∧
      approximatePolygon (a :: (pre ++ [r])) eps false = some (o1 ++ [r]) ∧
      approximatePolygon (r :: (post ++ [b])) eps false = some (r :: o2) ∧
      approximatePolygon (a :: (mid ++ [b])) eps false = some (o1 ++ r :: o2) := by
  have hopen : ∀ c : List (K × K), approximatePolygon c eps false = simplifyOpen eps (c.length + 1) c := by
    intro c
    unfold approximatePolygon
    cases simplifyOpen eps (c.length + 1) c <;> rfl
  have e0 : (a :: (mid ++ [b]))[0]? = some a := rfl
  have elast : (a :: (mid ++ [b]))[(a :: (mid ++ [b])).length - 1]? = some b := by simp
  have hun : approximatePolygon (a :: (mid ++ [b])) eps false =
      let s := farthest a b (mid ++ [b]) 1 (0, 0)
      if s.2 > eps ^ 2 then
        (simplifyOpen eps (mid.length + 2) ((a :: (mid ++ [b])).take (s.1 + 1))).bind fun p1 =>
        (simplifyOpen eps (mid.length + 2) ((a :: (mid ++ [b])).drop s.1)).bind fun p2 =>
          some (p1.dropLast ++ p2)
      else some [a, b] := by
    rw [hopen, simplifyOpen, if_neg (not_le.2 he), csub_of_le (by simp), Option.bind_some, e0,
      Option.bind_some, elast, Option.bind_some]
    simp
  dsimp only at hun
  obtain ⟨f1, f2, f3⟩ := farthest_spec a b (mid ++ [b]) 1 (0, 0)
  have f8 := farthest_first a b (mid ++ [b]) 1 (0, 0)
  dsimp only at f1 f8
  by_cases hc : (farthest a b (mid ++ [b]) 1 (0, 0)).2 > eps ^ 2
  · right
    rw [if_pos hc] at hun
    rcases f3 with f3 | ⟨j, r, f4, f5, f6, f7⟩
    · rw [f3] at hc
      exact absurd hc (not_lt.2 (sq_nonneg eps))
    · have f8 := f8 f6
      have hj : j < mid.length := by
        by_contra hcon
        have hlt : j < (mid ++ [b]).length := (List.getElem?_eq_some_iff.1 f4).1
        have : j = mid.length := by simp at hlt; omega
        rw [this] at f4
        simp at f4
        rw [f7, ← f4, lineDistSq_end] at f6
        exact absurd f6 (lt_irrefl _)
      rw [List.getElem?_append_left hj] at f4
      obtain ⟨hj', f4⟩ := List.getElem?_eq_some_iff.1 f4
      obtain ⟨pre, post, hmid, hlen⟩ : ∃ pre post, mid = pre ++ r :: post ∧ pre.length = j :=
        ⟨mid.take j, mid.drop (j + 1), by
          rw [← f4, ← List.drop_eq_getElem_cons hj', List.take_append_drop], by simp; omega⟩
      rw [f5] at hun f8
      rw [f7] at hc f2 f8
      clear f1 f5 f6 f7 f4 hj hj' elast e0
      subst hmid hlen
      have hsplit : a :: (pre ++ r :: post ++ [b]) = (a :: pre) ++ r :: (post ++ [b]) := by simp
      have hsplit' : a :: (pre ++ r :: post ++ [b]) = ((a :: pre) ++ [r]) ++ (post ++ [b]) := by simp
      have et : (a :: (pre ++ r :: post ++ [b])).take (1 + pre.length + 1) = (a :: pre) ++ [r] := by
        rw [hsplit', List.take_left' (by simp; omega)]
      have ed : (a :: (pre ++ r :: post ++ [b])).drop (1 + pre.length) = r :: (post ++ [b]) := by
        rw [hsplit, List.drop_left' (by simp; omega)]
      rw [et, ed] at hun
      obtain ⟨o1, g1, -, g3⟩ := simplifyOpen_spec he (((a :: pre) ++ [r]).length + 1) ((a :: pre) ++ [r])
        (by simp) (by simp)
      obtain ⟨o2, k1, -, k3⟩ := simplifyOpen_spec he ((r :: (post ++ [b])).length + 1)
        (r :: (post ++ [b])) (by simp) (by simp)
      obtain ⟨o1', rfl⟩ := simplifies_last _ _ g3
      cases o2 with
      | nil => exact k3.elim
      | cons m o2 =>
        obtain ⟨l, hl⟩ := simplifies_head k3
        obtain rfl : r = m := by
          have := congrArg List.head? hl
          simpa using this
        refine ⟨pre, r, post, o1', o2, rfl, hc, fun p hp => f2 p (List.mem_append_left _ hp), ?_,
          by rw [hopen]; exact g1, by rw [hopen]; exact k1, ?_⟩
        · intro p hp
          obtain ⟨k, hk, rfl⟩ := List.mem_iff_getElem.1 hp
          refine f8 k _ ?_ (by omega)
          rw [List.append_assoc, List.getElem?_append_left hk, List.getElem?_eq_getElem hk]
        · rw [hun, simplifyOpen_fuel (by simp) g1, Option.bind_some,
            simplifyOpen_fuel (by simp) k1, Option.bind_some, List.dropLast_concat]
  · left
    rw [if_neg hc] at hun
    exact ⟨fun r hr => le_trans (f2 r (List.mem_append_left _ hr)) (not_lt.1 hc), hun⟩

/-- C56, the panics: a non-positive `eps` and an empty curve. -/
theorem C56_panic {eps : K} (curve : List (K × K)) (closed : Bool) (h : eps ≤ 0 ∨ curve = []) :
    approximatePolygon curve eps closed = none := by
  unfold approximatePolygon
  rw [simplifyOpen]
  rcases h with h | h
  · rw [if_pos h]; rfl
  · subst h
    split <;> rfl

/-- C56 is false for curves whose first and last point coincide: a vertex at distance more than any
bound from the remaining points is dropped. -/
theorem C56_negation : ∀ d : K, 0 < d →
    approximatePolygon [((0 : K), 0), (d, d), (0, 0)] 1 false = some [(0, 0), (0, 0)] := by
  intro d _
  have hz : ∀ r : K × K, lineDistSq (0, 0) (0, 0) r = 0 := by
    intro r; unfold lineDistSq; simp
  unfold approximatePolygon
  rw [simplifyOpen, if_neg (not_le.2 one_pos), csub_of_le (by simp), Option.bind_some]
  simp [farthest, hz]

/-- A one-point curve yields the point twice. -/
theorem C56_single (p : K × K) {eps : K} (he : 0 < eps) :
    approximatePolygon [p] eps false = some [p, p] := by
  unfold approximatePolygon
  rw [simplifyOpen, if_neg (not_le.2 he), csub_of_le (by simp), Option.bind_some]
  simp [farthest, not_lt.2 (sq_nonneg eps)]

/-- Near-collinear points are dropped, the bound and the order are as stated. -/
example : ∃ out, approximatePolygon [((0 : ℚ), 0), (1, 1/2), (2, 5), (4, 0)] 1 false = some out ∧
    Simplifies (NearLine 1) out [((0 : ℚ), 0), (1, 1/2), (2, 5), (4, 0)] :=
  C56_distinct (by norm_num) _ (by decide) (by decide +kernel)

example : approximatePolygon [((0 : ℚ), 0), (1, 1/2), (2, 5), (3, 0), (4, 0)] 1 false =
    some [(0, 0), (2, 5), (4, 0)] := by decide +kernel

/-- An unclosed square given with `closed = true` loses its last corner. -/
example : approximatePolygon [((0 : ℚ), 0), (4, 0), (4, 4), (0, 4)] 1 true =
    some [(0, 0), (4, 0), (4, 4)] := by decide +kernel

end Verif.Geometry
