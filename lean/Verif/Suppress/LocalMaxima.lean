import Verif.Suppress.Model
import Mathlib.Tactic.Linarith
import Mathlib.Order.Basic
/- Property theorem C30 (local maxima of scored points). -/
namespace Verif.Suppress
set_option linter.unusedSectionVars false
variable {α : Type _} [LinearOrder α]

/-- `c` dominates `t`: greater score, or equal score and lexicographically smaller `(y, x)`. -/
def Dominates (c t : Pt α) : Prop :=
  t.score < c.score ∨ c.score = t.score ∧ (c.y < t.y ∨ c.y = t.y ∧ c.x < t.x)

/-- `c` is within `r` of `t` in both coordinates. -/
def Near (r : Nat) (c t : Pt α) : Prop :=
  t.x ≤ c.x + r ∧ c.x ≤ t.x + r ∧ t.y ≤ c.y + r ∧ c.y ≤ t.y + r

instance (c t : Pt α) : Decidable (Dominates c t) := by unfold Dominates; infer_instance
instance (r : Nat) (c t : Pt α) : Decidable (Near r c t) := by unfold Near; infer_instance

theorem keyLe_iff {a b : Pt α} : keyLe a b = true ↔ a.y < b.y ∨ a.y = b.y ∧ a.x ≤ b.x := by
  simp [keyLe]

theorem lexLt_iff' {a b c d : Nat} : lexLt a b c d = true ↔ (a < c ∨ a = c ∧ b < d) := by
  simp [lexLt]

theorem sorted_ordered (ts : List (Pt α)) :
    (ts.mergeSort keyLe).Pairwise fun a b => keyLe a b = true := by
  apply List.pairwise_mergeSort
  · intro a b c h1 h2
    rw [keyLe_iff] at *; omega
  · intro a b
    rw [Bool.or_eq_true, keyLe_iff, keyLe_iff]; omega

/-- Scanning a row sorted by `x`. -/
theorem scanRow_iff (r : Nat) (t : Pt α) (y : Nat) : ∀ row : List (Pt α),
    (∀ c ∈ row, c.y = y) → row.Pairwise (fun a b => a.x ≤ b.x) →
    (scanRow r t row = true ↔
      ∀ c ∈ row, ¬ (t.x ≤ c.x + r ∧ c.x ≤ t.x + r ∧ Dominates c t))
  | [], _, _ => by simp [scanRow]
  | c :: rest, hy, hp => by
    rw [List.pairwise_cons] at hp
    have ih := scanRow_iff r t y rest (fun a ha => hy a (by simp [ha])) hp.2
    unfold scanRow
    rw [List.forall_mem_cons]
    split
    · rename_i h
      rw [ih]
      exact ⟨fun h1 => ⟨fun h2 => by omega, h1⟩, fun h1 => h1.2⟩
    · rename_i h
      split
      · rename_i h'
        simp only [true_iff]
        refine ⟨fun h2 => by omega, fun d hd h2 => ?_⟩
        have := hp.1 d hd
        omega
      · rename_i h'
        split
        · rename_i hgt
          simp only [Bool.false_eq_true, false_iff]
          exact fun h2 => h2.1 ⟨by omega, by omega, Or.inl hgt⟩
        · rename_i hng
          split
          · rename_i hlt
            rw [ih]
            refine ⟨fun h1 => ⟨?_, h1⟩, fun h1 => h1.2⟩
            rintro ⟨_, _, h2 | h2⟩
            · exact hng h2
            · exact absurd h2.1 hlt.ne
          · rename_i hnlt
            have heq : c.score = t.score := le_antisymm (not_lt.1 hng) (not_lt.1 hnlt)
            split
            · rename_i hlex
              simp only [Bool.false_eq_true, false_iff]
              exact fun h2 => h2.1 ⟨by omega, by omega, Or.inr ⟨heq, lexLt_iff'.1 hlex⟩⟩
            · rename_i hlex
              rw [ih]
              refine ⟨fun h1 => ⟨?_, h1⟩, fun h1 => h1.2⟩
              rintro ⟨_, _, h2 | h2⟩
              · exact hng h2
              · exact hlex (lexLt_iff'.2 h2.2)

/-- Last row containing a point. -/
def lastRow (ts : List (Pt α)) : Nat := (ts.map Pt.y).foldr max 0

theorem le_lastRow {ts : List (Pt α)} {t : Pt α} (h : t ∈ ts) : t.y ≤ lastRow ts := by
  induction ts with
  | nil => simp at h
  | cons a l ih =>
    simp only [lastRow, List.map_cons, List.foldr_cons]
    rcases List.mem_cons.1 h with h | h
    · subst h; exact le_max_left _ _
    · exact le_trans (ih h) (le_max_right _ _)

theorem lastRow_attained {ts : List (Pt α)} (h : ts ≠ []) : ∃ t ∈ ts, t.y = lastRow ts := by
  induction ts with
  | nil => exact absurd rfl h
  | cons a l ih =>
    by_cases hl : l = []
    · subst hl; exact ⟨a, by simp, by simp [lastRow]⟩
    · obtain ⟨t, ht, e⟩ := ih hl
      simp only [lastRow, List.map_cons, List.foldr_cons] at *
      rcases le_total a.y ((l.map Pt.y).foldr max 0) with h1 | h1
      · exact ⟨t, by simp [ht], by rw [e, max_eq_right h1]⟩
      · exact ⟨a, by simp, by rw [max_eq_left h1]⟩

/-- The height computed from the sorted list is the last row. -/
theorem height_eq (ts : List (Pt α)) :
    heightOf (ts.mergeSort keyLe) = lastRow ts := by
  unfold heightOf
  cases hl : (ts.mergeSort keyLe).getLast? with
  | none =>
    have h1 : ts.mergeSort keyLe = [] := List.getLast?_eq_none_iff.1 hl
    have : ts = [] := by
      have := (List.mergeSort_perm ts keyLe).length_eq
      rw [h1] at this
      exact List.length_eq_zero_iff.1 this.symm
    subst this; rfl
  | some t =>
    dsimp only
    obtain ⟨pre, hpre⟩ := List.getLast?_eq_some_iff.1 hl
    have hs := sorted_ordered ts
    rw [hpre, List.pairwise_append] at hs
    have htm : t ∈ ts := by
      rw [← List.mem_mergeSort (le := keyLe), hpre]; simp
    apply le_antisymm (le_lastRow htm)
    obtain ⟨u, hu, e⟩ := lastRow_attained (List.ne_nil_of_mem htm)
    rw [← e]
    rw [← List.mem_mergeSort (le := keyLe), hpre, List.mem_append] at hu
    rcases hu with hu | hu
    · have := keyLe_iff.1 (hs.2.2 u hu t (by simp)); omega
    · simp at hu; rw [hu]

/-- The point is kept by the code: nothing *in a row before the last one* dominates it. -/
def Kept (ts : List (Pt α)) (r : Nat) (t : Pt α) : Prop :=
  ∀ c ∈ ts, c.y < lastRow ts → Near r c t → ¬ Dominates c t

instance (ts : List (Pt α)) (r : Nat) (t : Pt α) : Decidable (Kept ts r t) := by
  unfold Kept; infer_instance

/-- C30: exact behaviour: the result is the list of points, sorted by row and column, that are not
dominated by a nearby point outside the last row. -/
theorem C30_local_maxima_exact (ts : List (Pt α)) (r : Nat) :
    localMaxima ts r = some ((ts.mergeSort keyLe).filter fun t => Kept ts r t) := by
  unfold localMaxima
  dsimp only
  rw [height_eq ts]
  generalize hH : lastRow ts = H
  generalize hO : ts.mergeSort keyLe = ord
  have hmem : ∀ t, t ∈ ord ↔ t ∈ ts := fun t => by rw [← hO]; exact List.mem_mergeSort
  have hsort : ord.Pairwise fun a b => keyLe a b = true := by rw [← hO]; exact sorted_ordered ts
  have hle : ∀ t ∈ ord, t.y ≤ H := fun t ht => by rw [← hH]; exact le_lastRow ((hmem t).1 ht)
  -- the row table
  obtain ⟨rows, e, hl, hrows⟩ := forList_spec
    (f := fun (t : Pt α) (rows : List (List (Pt α))) =>
      (rows[t.y]?).map fun row => rows.set t.y (row ++ [t]))
    (fun p rows => rows.length = H + 1 ∧
      ∀ y, y ≤ H → rows[y]? = some (p.filter fun t => t.y = y))
    ord [] (List.replicate (H + 1) [])
    ⟨by simp, by intro y hy; simp [Nat.lt_succ_of_le hy]⟩
    (by
      rintro p a q rows hpq ⟨hl, hr⟩
      have ha : a ∈ ord := by rw [List.nil_append] at hpq; rw [hpq]; simp
      have hay := hle a ha
      rw [hr a.y hay]
      refine ⟨_, rfl, by simpa using hl, ?_⟩
      intro y hy
      rw [List.filter_append]
      by_cases hya : a.y = y
      · subst hya
        rw [List.getElem?_set_self (by omega)]
        simp
      · rw [List.getElem?_set_ne hya, hr y hy]
        simp [hya])
  rw [e, Option.bind_some]
  simp only [List.nil_append] at hrows
  -- one point
  have hscan : ∀ t, scanRows r t rows (t.y - r)
      (if t.y + r + 1 > H then H else t.y + r + 1) = some (decide (Kept ts r t)) := by
    intro t
    unfold scanRows
    generalize hU : (if t.y + r + 1 > H then H else t.y + r + 1) = U
    have hUH : U ≤ H ∧ U ≤ t.y + r + 1 ∧ (U = H ∨ U = t.y + r + 1) := by
      rw [← hU]; split <;> omega
    have hfin : ∀ b : Bool, (b = true ↔ ∀ c ∈ ord, t.y - r ≤ c.y → c.y < U →
        ¬ (t.x ≤ c.x + r ∧ c.x ≤ t.x + r ∧ Dominates c t)) → b = decide (Kept ts r t) := by
      intro b hb
      rw [Bool.eq_iff_iff, hb, decide_eq_true_eq]
      unfold Kept
      rw [hH]
      constructor
      · intro h c hc hcH hn hd
        exact h c ((hmem c).2 hc) (by unfold Near at hn; omega) (by unfold Near at hn; omega)
          ⟨hn.1, hn.2.1, hd⟩
      · rintro h c hc h1 h2 ⟨h3, h4, h5⟩
        exact h c ((hmem c).1 hc) (by omega) ⟨h3, h4, by omega, by omega⟩ h5
    by_cases hlo : t.y - r ≤ U
    · obtain ⟨b, e, hI⟩ := forRange_spec
        (f := fun y (isMax : Bool) => if !isMax then some false
          else (rows[y]?).map fun row => scanRow r t row)
        (fun y (isMax : Bool) => (isMax = true ↔ ∀ c ∈ ord, t.y - r ≤ c.y → c.y < y →
          ¬ (t.x ≤ c.x + r ∧ c.x ≤ t.x + r ∧ Dominates c t))) hlo
        (s := true) (by simp only [true_iff]; intro c _ h1 h2; omega)
        (by
          intro y b h1 h2 hI
          cases b with
          | false =>
            refine ⟨false, rfl, ?_⟩
            simp only [Bool.false_eq_true, false_iff] at hI ⊢
            intro h
            exact hI fun c hc a1 a2 => h c hc a1 (by omega)
          | true =>
            simp only [Bool.not_true, Bool.false_eq_true, if_false]
            rw [hrows y (by omega)]
            refine ⟨_, rfl, ?_⟩
            rw [scanRow_iff r t y _ (by intro c hc; simpa using (List.mem_filter.1 hc).2) (by
              refine List.Pairwise.imp_of_mem ?_ (hsort.filter _)
              intro a b ha hb hab
              have h1 := (List.mem_filter.1 ha).2
              have h2 := (List.mem_filter.1 hb).2
              simp only [decide_eq_true_eq] at h1 h2
              have := keyLe_iff.1 hab
              omega)]
            simp only [true_iff] at hI
            constructor
            · intro h c hc a1 a2
              by_cases hcy : c.y = y
              · exact h c (List.mem_filter.2 ⟨hc, by simpa using hcy⟩)
              · exact hI c hc a1 (by omega)
            · intro h c hc
              rw [List.mem_filter] at hc
              simp only [decide_eq_true_eq] at hc
              exact h c hc.1 (by omega) (by omega))
      rw [e, hfin b hI]
    · rw [forRange_empty (by omega), hfin true]
      simp only [true_iff]
      intro c _ h1 h2
      omega
  obtain ⟨res, e2, hres⟩ := forList_spec
    (f := fun (t : Pt α) (acc : List (Pt α)) =>
      (scanRows r t rows (t.y - r) (if t.y + r + 1 > H then H else t.y + r + 1)).map fun isMax =>
        if isMax then acc ++ [t] else acc)
    (fun p acc => acc = p.filter fun t => Kept ts r t) ord [] [] rfl
    (by
      rintro p a q acc _ hI
      rw [hscan a]
      refine ⟨_, rfl, ?_⟩
      rw [hI, List.filter_append]
      by_cases hk : Kept ts r a <;> simp [hk])
  rw [e2, hres]
  simp

/-- C30 (partial: for point sets whose last occupied row dominates nothing nearby): a point is
returned exactly when no point within the radius in both coordinates dominates it. -/
theorem C30_local_maxima_partial (ts : List (Pt α)) (r : Nat)
    (hlast : ∀ c ∈ ts, c.y = lastRow ts → ∀ t ∈ ts, Near r c t → ¬ Dominates c t) :
    ∃ out, localMaxima ts r = some out ∧
      ∀ t, t ∈ out ↔ t ∈ ts ∧ ∀ c ∈ ts, Near r c t → ¬ Dominates c t := by
  refine ⟨_, C30_local_maxima_exact ts r, ?_⟩
  intro t
  rw [List.mem_filter, List.mem_mergeSort, decide_eq_true_eq]
  unfold Kept
  constructor
  · rintro ⟨h1, h2⟩
    refine ⟨h1, fun c hc hn hd => ?_⟩
    rcases lt_or_eq_of_le (le_lastRow hc) with h | h
    · exact h2 c hc h hn hd
    · exact hlast c hc h t h1 hn hd
  · rintro ⟨h1, h2⟩
    exact ⟨h1, fun c hc _ hn => h2 c hc hn⟩

/-- C30: nothing that should be returned is lost: undominated points are always returned. -/
theorem C30_undominated_returned (ts : List (Pt α)) (r : Nat) :
    ∃ out, localMaxima ts r = some out ∧ out.Sublist (ts.mergeSort keyLe) ∧
      ∀ t ∈ ts, (∀ c ∈ ts, Near r c t → ¬ Dominates c t) → t ∈ out := by
  refine ⟨_, C30_local_maxima_exact ts r, List.filter_sublist, ?_⟩
  intro t ht h
  rw [List.mem_filter, List.mem_mergeSort, decide_eq_true_eq]
  exact ⟨ht, fun c hc _ hn => h c hc hn⟩

/-- C30 is false of the code: the last occupied row is never examined, so with two adjacent points
in one row both are returned although one has a greater score. -/
theorem C30_negation :
    localMaxima ([⟨0, 0, 1⟩, ⟨1, 0, 2⟩] : List (Pt Nat)) 1 = some [⟨0, 0, 1⟩, ⟨1, 0, 2⟩] ∧
    Near 1 (⟨1, 0, 2⟩ : Pt Nat) ⟨0, 0, 1⟩ ∧ Dominates (⟨1, 0, 2⟩ : Pt Nat) ⟨0, 0, 1⟩ := by
  refine ⟨?_, by decide, by decide⟩
  rw [C30_local_maxima_exact, List.mergeSort_of_pairwise (by decide)]
  decide

-- with a later row present the same pair is handled correctly
example : localMaxima ([⟨0, 0, 1⟩, ⟨1, 0, 2⟩, ⟨9, 9, 1⟩] : List (Pt Nat)) 1 =
    some [⟨1, 0, 2⟩, ⟨9, 9, 1⟩] := by
  rw [C30_local_maxima_exact, List.mergeSort_of_pairwise (by decide)]
  decide

end Verif.Suppress
