import Verif.ImageHash.Model
import Mathlib.Data.Finset.Card
import Mathlib.Order.Interval.Finset.Nat
import Mathlib.Data.Fintype.Basic
import Mathlib.Data.Finset.Range
/-
Property theorem C69: 64-bit hashes.
-/
namespace Verif.ImageHash
open Finset

/-! ### Specification -/

/-- Number of positions in which two hashes differ. -/
def differing (a b : BitVec 64) : Nat :=
  #{i ∈ range 64 | a.getLsbD i ≠ b.getLsbD i}

/-! ### Bits -/

theorem getLsbD_one_shift {n i : Nat} (hn : n < 64) :
    ((1 : BitVec 64) <<< n).getLsbD i = decide (i = n) := by
  rw [BitVec.getLsbD_shiftLeft]
  by_cases h : i = n
  · subst h; simp [hn]
  · simp only [h, decide_false]
    by_cases h' : i < n
    · simp [h']
    · have : ¬ (i - n = 0) := by omega
      simp [this]

theorem bitAt_eq (b : BitVec 64) {n : Nat} (hn : n < 64) : bitAt b n = some (b.getLsbD n) := by
  unfold bitAt
  rw [if_pos hn]
  congr 1
  cases h : b.getLsbD n
  · have : b &&& ((1 : BitVec 64) <<< n) = 0 := by
      apply BitVec.eq_of_getLsbD_eq
      intro i hi
      rw [BitVec.getLsbD_and, getLsbD_one_shift hn]
      by_cases hin : i = n
      · subst hin; simp [h]
      · simp [hin]
    rw [this]; rfl
  · rw [bne_iff_ne]
    intro hc
    have := congrArg (fun v => v.getLsbD n) hc
    simp only [BitVec.getLsbD_and, getLsbD_one_shift hn, h] at this
    simp at this

theorem setBit_eq (b : BitVec 64) {n : Nat} (hn : n < 64) :
    ∃ c, setBit b n = some c ∧ ∀ i, i < 64 → c.getLsbD i = if i = n then true else b.getLsbD i := by
  refine ⟨_, by unfold setBit; rw [if_pos hn], fun i hi => ?_⟩
  rw [BitVec.getLsbD_or, getLsbD_one_shift hn]
  by_cases h : i = n <;> simp [h]

theorem unsetBit_eq (b : BitVec 64) {n : Nat} (hn : n < 64) :
    ∃ c, unsetBit b n = some c ∧ ∀ i, i < 64 → c.getLsbD i = if i = n then false else b.getLsbD i := by
  refine ⟨_, by unfold unsetBit; rw [if_pos hn], fun i hi => ?_⟩
  rw [BitVec.getLsbD_and, BitVec.getLsbD_not, getLsbD_one_shift hn]
  by_cases h : i = n
  · simp [h]
  · simp [h, hi]

/-! ### C69 -/

/-- **C69.** Packing exactly 64 booleans succeeds and stores boolean `n` in bit `n`. -/
theorem C69_new (v : List Bool) (hv : v.length = 64) :
    ∃ b, bitsNew v = some b ∧ ∀ i (h : i < v.length), b.getLsbD i = v[i] := by
  unfold bitsNew
  have key := forList_spec (f := fun bit (s : BitVec 64 × Nat) =>
      (if bit then setBit s.1 s.2 else unsetBit s.1 s.2).map fun b => (b, s.2 + 1))
    (fun pre s => s.2 = pre.length ∧ ∀ i (h : i < pre.length), s.1.getLsbD i = pre[i]) v []
    ((0 : BitVec 64), 0) ⟨rfl, fun i h => by simp at h⟩
    (by
      rintro p a q s e ⟨h1, h2⟩
      have hlen : p.length < 64 := by
        have := congrArg List.length e
        simp at this; omega
      have step : ∃ c, (if a then setBit s.1 s.2 else unsetBit s.1 s.2) = some c ∧
          ∀ i, i < 64 → c.getLsbD i = if i = p.length then a else s.1.getLsbD i := by
        rw [h1]
        cases a
        · exact unsetBit_eq s.1 hlen
        · exact setBit_eq s.1 hlen
      obtain ⟨c, hc, hb⟩ := step
      rw [hc, Option.map_some]
      refine ⟨_, rfl, by simp [h1], fun i hi => ?_⟩
      rw [List.length_append, List.length_singleton] at hi
      dsimp only
      rw [hb i (by omega)]
      by_cases h : i = p.length
      · subst h; simp
      · rw [if_neg h, h2 i (by omega), List.getElem_append_left])
  obtain ⟨s, k1, k2, k3⟩ := key
  rw [k1, Option.bind_some]
  rw [List.nil_append] at k2
  refine ⟨s.1, by rw [if_pos (by omega)], fun i h => ?_⟩
  have := k3 i (by simpa using h)
  simpa using this

/-- **C69.** Any other number of booleans is rejected. -/
theorem C69_new_reject (v : List Bool) (hv : v.length ≠ 64) : bitsNew v = none := by
  unfold bitsNew
  have key : ∀ (v : List Bool) (s r : BitVec 64 × Nat), forList v s (fun bit (s : BitVec 64 × Nat) =>
      (if bit then setBit s.1 s.2 else unsetBit s.1 s.2).map fun b => (b, s.2 + 1)) = some r →
      r.2 = s.2 + v.length := by
    intro v
    induction v with
    | nil => intro s r h; cases h; rfl
    | cons a v ih =>
      intro s r h
      rw [forList, Option.bind_eq_some_iff] at h
      obtain ⟨t, h1, h2⟩ := h
      rw [Option.map_eq_some_iff] at h1
      obtain ⟨b, -, rfl⟩ := h1
      rw [ih _ _ h2, List.length_cons]
      dsimp only; omega
  cases h : forList v ((0 : BitVec 64), 0) (fun bit (s : BitVec 64 × Nat) =>
      (if bit then setBit s.1 s.2 else unsetBit s.1 s.2).map fun b => (b, s.2 + 1)) with
  | none => rfl
  | some r =>
    rw [Option.bind_some, if_neg]
    have := key _ _ _ h
    dsimp only at this
    omega

/-- **C69.** Unpacking never fails and lists the 64 bits. -/
theorem C69_unpack (b : BitVec 64) :
    ∃ v, toBitArray b = some v ∧ v.length = 64 ∧ ∀ i (h : i < v.length), v[i] = b.getLsbD i := by
  unfold toBitArray
  obtain ⟨v, h1, h2, h3⟩ := forRange_spec (lo := 0) (hi := 64) (s := List.replicate 64 false)
    (f := fun n (bits : List Bool) => (bitAt b n).map fun v => bits.set n v)
    (fun n (v : List Bool) => v.length = 64 ∧ ∀ i (h : i < v.length), i < n → v[i] = b.getLsbD i) (by decide)
    ⟨by simp, fun i _ h => by omega⟩
    (by
      rintro n v _ hn ⟨h1, h2⟩
      rw [bitAt_eq b hn, Option.map_some]
      refine ⟨_, rfl, by simp [h1], fun i hi hin => ?_⟩
      rw [List.getElem_set]
      split
      · rename_i h; rw [h]
      · exact h2 i (by simpa using hi) (by omega))
  exact ⟨v, h1, h2, fun i h => h3 i h (by omega)⟩

/-- **C69.** Packing and unpacking give back the booleans; unpacking and packing give back the
hash. -/
theorem C69_roundtrip (v : List Bool) (hv : v.length = 64) :
    (bitsNew v).bind toBitArray = some v := by
  obtain ⟨b, h1, h2⟩ := C69_new v hv
  obtain ⟨w, k1, k2, k3⟩ := C69_unpack b
  rw [h1, Option.bind_some, k1]
  congr 1
  exact List.ext_getElem (by omega) fun i hi hi' => by rw [k3, h2 i hi']

theorem C69_roundtrip' (b : BitVec 64) : (toBitArray b).bind bitsNew = some b := by
  obtain ⟨w, k1, k2, k3⟩ := C69_unpack b
  obtain ⟨c, h1, h2⟩ := C69_new w k2
  rw [k1, Option.bind_some, h1]
  congr 1
  exact BitVec.eq_of_getLsbD_eq fun i hi => by rw [h2 i (by omega), k3]

/-- **C69.** The Hamming distance is the number of differing positions. -/
theorem C69_distance (a b : BitVec 64) : hammingDistance a b = differing a b := by
  unfold hammingDistance countOnes64 differing
  rw [← List.toFinset_card_of_nodup (List.nodup_range.filter _)]
  congr 1
  ext i
  simp only [List.mem_toFinset, List.mem_filter, List.mem_range, Finset.mem_filter, Finset.mem_range,
    BitVec.getLsbD_xor]
  refine and_congr_right fun _ => ?_
  cases a.getLsbD i <;> cases b.getLsbD i <;> simp

/-- **C69.** The distance is symmetric, zero exactly for equal hashes, at most 64, and satisfies
the triangle inequality. -/
theorem C69_metric (a b c : BitVec 64) :
    hammingDistance a b = hammingDistance b a ∧
    (hammingDistance a b = 0 ↔ a = b) ∧ hammingDistance a b ≤ 64 ∧
    hammingDistance a c ≤ hammingDistance a b + hammingDistance b c := by
  simp only [C69_distance]
  refine ⟨?_, ?_, ?_, ?_⟩
  · unfold differing; congr 1; ext i; simp only [mem_filter]; rw [ne_comm]
  · unfold differing
    rw [card_eq_zero, filter_eq_empty_iff]
    constructor
    · intro h
      exact BitVec.eq_of_getLsbD_eq fun i hi => by
        have := h (mem_range.2 hi); simpa using this
    · rintro rfl i _; simp
  · exact le_trans (card_filter_le _ _) (by simp)
  · unfold differing
    refine le_trans (card_le_card ?_) (card_union_le _ _)
    intro i
    simp only [mem_filter, mem_union]
    rintro ⟨h1, h2⟩
    by_cases h : a.getLsbD i = b.getLsbD i
    · exact Or.inr ⟨h1, fun h' => h2 (h.trans h')⟩
    · exact Or.inl ⟨h1, h⟩

example : bitsNew ((List.range 64).map fun i => i = 0 ∨ i = 63) = some 0x8000000000000001#64 ∧
    hammingDistance 0x8000000000000001#64 0x3#64 = 2 := by decide +kernel

end Verif.ImageHash
