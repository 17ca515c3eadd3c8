import Verif.Corners.Model
import Mathlib.Tactic.Common
import Mathlib.Data.Nat.Basic
import Mathlib.Order.Basic
/-
`search_span` finds exactly the circles with a long enough cyclic run.
-/
namespace Verif.Corners

/-- `l`, read as a circle, has `n` cyclically contiguous `true` entries. -/
def HasArc (n : Nat) (l : List Bool) : Prop :=
  ∃ j, j < l.length ∧ ∀ k, k < n → l[(j + k) % l.length]? = some true

/-- State of the search after `i` entries of `l` without success. -/
structure Inv (n : Nat) (l : List Bool) (i ok : Nat) (start : Option Nat) : Prop where
  le : i ≤ l.length
  ok_le : ok ≤ i
  ok_lt : ok < n
  run : ∀ k, i - ok ≤ k → k < i → l[k]? = some true
  maximal : ok = i ∨ l[i - ok - 1]? = some false
  start_none : start = none → ok = i
  start_some : ∀ s, start = some s → s < i ∧ (∀ k, k < s → l[k]? = some true) ∧ l[s]? = some false
  no_run : ∀ j, j + n ≤ i → ∃ k, k < n ∧ l[j + k]? = some false

theorem search_inv {n : Nat} {l : List Bool} (hn : n ≤ l.length) :
    ∀ (rest : List Bool) (i ok : Nat) (start : Option Nat), Inv n l i ok start → l.drop i = rest →
      (searchLoop n rest ok start = some true ∧ HasArc n l) ∨
      (searchLoop n rest ok start = some false ∧ ¬ HasArc n l)
  | [], i, ok, start, inv, hd => by
    have hi : i = l.length := by
      have := congrArg List.length hd
      simp at this
      have := inv.le
      omega
    have hpos := inv.ok_lt
    unfold searchLoop
    cases hs : start with
    | none =>
      have := inv.start_none hs
      omega
    | some s =>
      obtain ⟨h1, h2, h3⟩ := inv.start_some s hs
      rw [Option.bind_some]
      by_cases hge : ok + s ≥ n
      · left
        refine ⟨by simp [hge], ?_⟩
        -- the run starting `ok` before the end
        rcases Nat.eq_zero_or_pos ok with h0 | h0
        · refine ⟨0, by omega, fun k hk => ?_⟩
          rw [Nat.zero_add, Nat.mod_eq_of_lt (by omega)]
          exact h2 k (by omega)
        refine ⟨l.length - ok, by omega, fun k hk => ?_⟩
        by_cases hk' : k < ok
        · rw [Nat.mod_eq_of_lt (by omega)]
          exact inv.run _ (by omega) (by omega)
        · rw [show l.length - ok + k = (k - ok) + l.length by
            have := inv.ok_le; omega, Nat.add_mod_right, Nat.mod_eq_of_lt (by omega)]
          exact h2 _ (by omega)
      · right
        refine ⟨by simp [hge], ?_⟩
        rintro ⟨j, hj, hrun⟩
        by_cases hlin : j + n ≤ l.length
        · obtain ⟨k, hk, hf⟩ := inv.no_run j (by omega)
          have := hrun k hk
          rw [Nat.mod_eq_of_lt (by omega), hf] at this
          simp at this
        · -- the run wraps
          have hj1 : l.length - ok ≤ j := by
            by_contra hcon
            rcases inv.maximal with h | h
            · -- everything true contradicts the false entry at `s`
              have := inv.run s (by omega) (by omega)
              rw [h3] at this
              simp at this
            · have := hrun (i - ok - 1 - j) (by omega)
              rw [show j + (i - ok - 1 - j) = i - ok - 1 by omega, Nat.mod_eq_of_lt (by omega), h]
                at this
              simp at this
          have := hrun (l.length - j + s) (by omega)
          rw [show j + (l.length - j + s) = s + l.length by omega, Nat.add_mod_right,
            Nat.mod_eq_of_lt (by omega), h3] at this
          simp at this
  | c :: cs, i, ok, start, inv, hd => by
    have hi : i < l.length := by
      have := congrArg List.length hd
      simp at this
      omega
    have hc : l[i]? = some c := by
      have : (l.drop i)[0]? = some c := by rw [hd]; rfl
      rwa [List.getElem?_drop, Nat.add_zero] at this
    have hd' : l.drop (i + 1) = cs := by
      have := congrArg (List.drop 1) hd
      rwa [List.drop_drop, List.drop_one, List.tail_cons] at this
    have hok := inv.ok_lt
    have hole := inv.ok_le
    unfold searchLoop
    cases c with
    | true =>
      rw [if_pos rfl]
      have hrun' : ∀ k, i + 1 - (ok + 1) ≤ k → k < i + 1 → l[k]? = some true := by
        intro k h1 h2
        rcases Nat.lt_or_ge k i with h | h
        · exact inv.run k (by omega) h
        · rw [show k = i by omega, hc]
      by_cases hfound : ok + 1 = n
      · rw [if_pos hfound]
        left
        refine ⟨rfl, i - ok, by omega, fun k hk => ?_⟩
        rw [Nat.mod_eq_of_lt (by omega)]
        exact hrun' _ (by omega) (by omega)
      · rw [if_neg hfound]
        refine search_inv hn cs (i + 1) (ok + 1) start ⟨hi, by omega, by omega, hrun', ?_, ?_, ?_, ?_⟩
          hd'
        · rcases inv.maximal with h | h
          · left; omega
          · right
            rw [show i + 1 - (ok + 1) - 1 = i - ok - 1 by omega]; exact h
        · intro hs
          have := inv.start_none hs
          omega
        · intro s hs
          obtain ⟨a, b⟩ := inv.start_some s hs
          exact ⟨by omega, b⟩
        · intro j hj
          by_cases hj' : j + n ≤ i
          · exact inv.no_run j hj'
          · rcases inv.maximal with h | h
            · omega
            · have : j + n = i + 1 := by omega
              refine ⟨i - ok - 1 - j, by omega, ?_⟩
              rw [show j + (i - ok - 1 - j) = i - ok - 1 by omega]
              exact h
    | false =>
      rw [if_neg (by decide)]
      refine search_inv hn cs (i + 1) 0 _ ⟨hi, by omega, by omega, ?_, ?_, ?_, ?_, ?_⟩ hd'
      · intro k h1 h2; omega
      · right
        simpa using hc
      · cases start <;> simp
      · intro s hs
        cases hst : start with
        | none =>
          rw [hst] at hs
          simp at hs
          have := inv.start_none hst
          subst hs
          refine ⟨by omega, fun k hk => inv.run k (by omega) (by omega), ?_⟩
          rw [this]; exact hc
        | some s' =>
          rw [hst] at hs
          simp at hs
          subst hs
          obtain ⟨a, b⟩ := inv.start_some s' hst
          exact ⟨by omega, b⟩
      · intro j hj
        by_cases hj' : j + n ≤ i
        · exact inv.no_run j hj'
        · exact ⟨i - j, by omega, by rw [show j + (i - j) = i by omega]; exact hc⟩

/-- The search of a non-empty arc on a circle decides whether there is one. -/
theorem searchLoop_spec {n : Nat} {l : List Bool} (h0 : 0 < n) (hn : n ≤ l.length) :
    (searchLoop n l 0 none = some true ∧ HasArc n l) ∨
    (searchLoop n l 0 none = some false ∧ ¬ HasArc n l) :=
  search_inv hn l 0 0 none ⟨by omega, by omega, h0, fun k _ _ => by omega, Or.inl rfl,
    fun _ => rfl, fun s h => by simp at h, fun j hj => by omega⟩ (by simp)

example : searchLoop 9 [true, true, true, true, false, false, false, false, false, false, false, true,
    true, true, true, true] 0 none = some true := by decide
example : searchLoop 9 [true, true, true, false, false, false, false, false, false, false, false, true,
    true, true, true, true] 0 none = some false := by decide

end Verif.Corners
