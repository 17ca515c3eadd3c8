import Verif.Haar.Release
import Verif.Stats.Machine
import Mathlib.Data.Set.Card
/-
Property theorem C199: the number of Haar-like features of frames of every `u32` size, in both build
profiles.
-/
namespace Verif.Haar
open Stats (u32)

/-- `a - b` on `u32` (haar.rs l.379): a debug build (`dbg`) panics below zero, a release build
wraps. -/
def sub32 (dbg : Bool) (a b : Nat) : Option Nat :=
  if b ≤ a then some (a - b) else if dbg then none else some (a + 2 ^ 32 - b)

/-- haar.rs l.377-380 `num_features` in a build profile. -/
def numFeaturesM (dbg : Bool) (side blocks : Nat) : Option Nat :=
  let m := side / blocks
  (u32 dbg (side + 1)).bind fun s1 => (u32 dbg (m * s1)).bind fun a =>
  (u32 dbg (m + 1)).bind fun m1 => (u32 dbg (m * m1)).bind fun mm =>
  (u32 dbg (blocks * (mm / 2))).bind fun b => sub32 dbg a b

/-- haar.rs l.361-375 `number_of_haar_features` in a build profile. -/
def numberOfFeaturesM (dbg : Bool) (w h : Nat) : Option Nat :=
  let prod (i j : Nat) : Option Nat :=
    (numFeaturesM dbg w i).bind fun a => (numFeaturesM dbg h j).bind fun b => u32 dbg (a * b)
  (prod 2 1).bind fun p1 =>
  (prod 3 1).bind fun p2 => (u32 dbg (p1 + p2)).bind fun s =>
  (prod 1 2).bind fun p3 => (u32 dbg (s + p3)).bind fun s =>
  (prod 1 3).bind fun p4 => (u32 dbg (s + p4)).bind fun s =>
  (prod 2 2).bind fun p5 => (u32 dbg (s + p5)).bind fun s =>
  u32 dbg (s * 2)

/-- The features in a frame. -/
def inFrame (w h : Nat) : Set Feature := {f | f.InFrame w h}

/-- All features of a frame as a list. -/
def allFeatures (w h : Nat) : List Feature :=
  [Kind.twoH, .threeH, .twoV, .threeV, .four].flatMap fun k => ofKind k w h

theorem mem_allFeatures {w h : Nat} {f : Feature} : f ∈ allFeatures w h ↔ f.InFrame w h := by
  simp only [allFeatures, List.mem_flatMap, mem_ofKind]
  constructor
  · rintro ⟨k, _, _, h⟩; exact h
  · intro h
    refine ⟨f.kind, ?_, rfl, h⟩
    cases f.kind <;> decide

theorem nodup_allFeatures (w h : Nat) : (allFeatures w h).Nodup := by
  refine nodup_flatMap_key Feature.kind (by decide) (fun k _ => nodup_ofKind k w h) ?_
  intro k f hf
  exact (mem_ofKind.mp hf).1

theorem ncard_inFrame (w h : Nat) :
    (inFrame w h).Finite ∧ (inFrame w h).ncard =
      2 * (placements w 2 * placements h 1 + placements w 3 * placements h 1 +
        placements w 1 * placements h 2 + placements w 1 * placements h 3 +
        placements w 2 * placements h 2) := by
  classical
  have : inFrame w h = ((allFeatures w h).toFinset : Set Feature) := by
    ext f
    simp [inFrame, mem_allFeatures]
  rw [this]
  refine ⟨Finset.finite_toSet _, ?_⟩
  rw [Set.ncard_coe_finset, List.toFinset_card_of_nodup (nodup_allFeatures w h), allFeatures,
    List.length_flatMap]
  simp only [length_ofKind, List.map_cons, List.map_nil, List.sum_cons, List.sum_nil, Kind.shape]
  omega

theorem u32_release (z : Nat) : u32 false z = some (z % 2 ^ 32) := by
  unfold u32
  split
  · rw [Nat.mod_eq_of_lt ‹_›]
  · rfl

theorem numFeaturesM_release (n k : Nat) :
    ∃ v, numFeaturesM false n k = some v ∧ v % 2 ^ 31 = placements n k % 2 ^ 31 := by
  have hc := placements_closed n k
  unfold numFeaturesM sub32
  simp only [u32_release, Option.bind_some]
  have ha : n / k * ((n + 1) % 2 ^ 32) % 2 ^ 32 = n / k * (n + 1) % 2 ^ 32 := by
    rw [Nat.mul_mod, Nat.mod_mod, ← Nat.mul_mod]
  have hm : n / k * ((n / k + 1) % 2 ^ 32) % 2 ^ 32 = n / k * (n / k + 1) % 2 ^ 32 := by
    rw [Nat.mul_mod, Nat.mod_mod, ← Nat.mul_mod]
  rw [ha, hm]
  have hq : n / k * (n / k + 1) % 2 ^ 32 / 2 = n / k * (n / k + 1) / 2 % 2 ^ 31 := by omega
  rw [hq]
  have hb : k * (n / k * (n / k + 1) / 2 % 2 ^ 31) % 2 ^ 31 =
      k * (n / k * (n / k + 1) / 2) % 2 ^ 31 := by
    rw [Nat.mul_mod, Nat.mod_mod, ← Nat.mul_mod]
  generalize k * (n / k * (n / k + 1) / 2 % 2 ^ 31) = b at *
  generalize k * (n / k * (n / k + 1) / 2) = B at *
  generalize n / k * (n + 1) = A at *
  split
  · exact ⟨_, rfl, by omega⟩
  · rw [if_neg (by simp)]
    exact ⟨_, rfl, by omega⟩

theorem mul_mod31 {a b A B : Nat} (ha : a % 2 ^ 31 = A % 2 ^ 31) (hb : b % 2 ^ 31 = B % 2 ^ 31) :
    a * b % 2 ^ 32 % 2 ^ 31 = A * B % 2 ^ 31 := by
  have : a * b % 2 ^ 31 = A * B % 2 ^ 31 := by rw [Nat.mul_mod, ha, hb, ← Nat.mul_mod]
  omega

/-- C199: for every frame size a release build returns the number of features modulo `2^32`. -/
theorem C199_release (w h : Nat) :
    (inFrame w h).Finite ∧ numberOfFeaturesM false w h = some ((inFrame w h).ncard % 2 ^ 32) := by
  refine ⟨(ncard_inFrame w h).1, ?_⟩
  rw [(ncard_inFrame w h).2]
  obtain ⟨w1, ew1, hw1⟩ := numFeaturesM_release w 1
  obtain ⟨w2, ew2, hw2⟩ := numFeaturesM_release w 2
  obtain ⟨w3, ew3, hw3⟩ := numFeaturesM_release w 3
  obtain ⟨h1, eh1, hh1⟩ := numFeaturesM_release h 1
  obtain ⟨h2, eh2, hh2⟩ := numFeaturesM_release h 2
  obtain ⟨h3, eh3, hh3⟩ := numFeaturesM_release h 3
  unfold numberOfFeaturesM
  simp only [ew1, ew2, ew3, eh1, eh2, eh3, u32_release, Option.bind_some]
  have p1 := mul_mod31 hw2 hh1
  have p2 := mul_mod31 hw3 hh1
  have p3 := mul_mod31 hw1 hh2
  have p4 := mul_mod31 hw1 hh3
  have p5 := mul_mod31 hw2 hh2
  generalize w2 * h1 % 2 ^ 32 = a1 at *
  generalize w3 * h1 % 2 ^ 32 = a2 at *
  generalize w1 * h2 % 2 ^ 32 = a3 at *
  generalize w1 * h3 % 2 ^ 32 = a4 at *
  generalize w2 * h2 % 2 ^ 32 = a5 at *
  generalize placements w 2 * placements h 1 = q1 at *
  generalize placements w 3 * placements h 1 = q2 at *
  generalize placements w 1 * placements h 2 = q3 at *
  generalize placements w 1 * placements h 3 = q4 at *
  generalize placements w 2 * placements h 2 = q5 at *
  congr 1
  omega

theorem u32_true (z : Nat) : u32 true z = ck32 z := by
  unfold u32 ck32
  split <;> simp_all

theorem numFeaturesM_true (n k : Nat) : numFeaturesM true n k = numFeatures n k := by
  unfold numFeaturesM numFeatures sub32 csub
  simp only [u32_true]
  simp

theorem numFeatures_one_none {n : Nat} (hn : 65536 ≤ n) : numFeatures n 1 = none := by
  have : 65536 * 65537 ≤ n * (n + 1) := Nat.mul_le_mul hn (by omega)
  unfold numFeatures ck32
  simp only [Nat.div_one]
  split
  · rw [Option.bind_some, if_neg (by omega), Option.bind_none]
  · rw [Option.bind_none]

/-- C199: a debug build returns the number of features exactly when it fits into 32 bits and both
sides are at most 65535; in every other case it panics. -/
theorem C199_debug (w h n : Nat) : numberOfFeaturesM true w h = some n ↔
    w ≤ 65535 ∧ h ≤ 65535 ∧ (inFrame w h).ncard < 2 ^ 32 ∧ n = (inFrame w h).ncard := by
  rw [(ncard_inFrame w h).2]
  have hsq : ∀ n, n ≤ 65535 → n * (n + 1) < 2 ^ 32 := fun n hn => by
    have : n * (n + 1) ≤ 65535 * 65536 := Nat.mul_le_mul (by omega) (by omega)
    omega
  unfold numberOfFeaturesM
  simp only [numFeaturesM_true, u32_true]
  by_cases hw : w ≤ 65535
  swap
  · rw [numFeatures_one_none (n := w) (by omega)]
    simp [hw]
  by_cases hh : h ≤ 65535
  swap
  · rw [numFeatures_one_none (n := h) (by omega)]
    simp [hh]
  simp only [numFeatures_eq _ (hsq w hw), numFeatures_eq _ (hsq h hh), Option.bind_some]
  generalize placements w 2 * placements h 1 = q1 at *
  generalize placements w 3 * placements h 1 = q2 at *
  generalize placements w 1 * placements h 2 = q3 at *
  generalize placements w 1 * placements h 3 = q4 at *
  generalize placements w 2 * placements h 2 = q5 at *
  have hck : ∀ z, z < 2 ^ 32 → ck32 z = some z := fun z hz => if_pos hz
  constructor
  · intro he
    unfold ck32 at he
    simp only [Option.bind_eq_some_iff, Option.ite_none_right_eq_some, Option.some.injEq] at he
    obtain ⟨a, ⟨-, rfl⟩, b, ⟨-, rfl⟩, s, ⟨-, rfl⟩, c, ⟨-, rfl⟩, s, ⟨-, rfl⟩, d, ⟨-, rfl⟩, s,
      ⟨-, rfl⟩, e, ⟨-, rfl⟩, s, ⟨-, rfl⟩, hlt, rfl⟩ := he
    exact ⟨hw, hh, by omega, by omega⟩
  · rintro ⟨-, -, hlt, rfl⟩
    rw [hck _ (by omega), Option.bind_some, hck _ (by omega), Option.bind_some,
      hck _ (by omega), Option.bind_some, hck _ (by omega), Option.bind_some,
      hck _ (by omega), Option.bind_some, hck _ (by omega), Option.bind_some,
      hck _ (by omega), Option.bind_some, hck _ (by omega), Option.bind_some,
      hck _ (by omega), Option.bind_some, hck _ (by omega)]
    congr 1
    omega

theorem placements_value (n k v : Nat) (h : v + k * (n / k * (n / k + 1) / 2) = n / k * (n + 1)) :
    placements n k = v := by
  have := placements_closed n k
  omega

/-- The number of features of a frame of 640 × 480 pixels. -/
theorem ncard_vga : (inFrame 640 480).ncard = 90525593600 := by
  rw [(ncard_inFrame 640 480).2, placements_value 640 1 205120 (by decide),
    placements_value 640 2 102400 (by decide), placements_value 640 3 68160 (by decide),
    placements_value 480 1 115440 (by decide),
    placements_value 480 2 57600 (by decide), placements_value 480 3 38320 (by decide)]

/-- C199: the claim is false: for an image of 640 × 480 pixels a debug build panics and a release
build returns less than a hundredth of the number of features. -/
theorem C199_negation : numberOfFeaturesM true 640 480 = none ∧
    numberOfFeaturesM false 640 480 = some 331280384 ∧
    331280384 * 100 < (inFrame 640 480).ncard := by
  refine ⟨?_, ?_, ?_⟩
  · rw [Option.eq_none_iff_forall_not_mem]
    intro n hn
    have := ((C199_debug 640 480 n).mp hn).2.2.1
    rw [ncard_vga] at this
    omega
  · rw [(C199_release 640 480).2, ncard_vga]
    decide
  · rw [ncard_vga]
    omega

/-- C199: the count is right in both build profiles whenever it fits and both sides are at most
65535. -/
theorem C199_fits_partial {w h : Nat} (hw : w ≤ 65535) (hh : h ≤ 65535)
    (hc : (inFrame w h).ncard < 2 ^ 32) (dbg : Bool) :
    numberOfFeaturesM dbg w h = some (inFrame w h).ncard := by
  cases dbg
  · rw [(C199_release w h).2, Nat.mod_eq_of_lt hc]
  · exact (C199_debug w h _).mpr ⟨hw, hh, hc, rfl⟩

theorem inFrame_mono {w h w' h' : Nat} (hw : w ≤ w') (hh : h ≤ h') : inFrame w h ⊆ inFrame w' h' := by
  intro f hf
  obtain ⟨a, b, c, d⟩ := hf
  exact ⟨a, b, by omega, by omega⟩

/-- C199: every frame with both sides at most 258 is counted right in both build profiles, and no
frame with both sides at least 259 is. -/
theorem C199_square {w h : Nat} (dbg : Bool) :
    (w ≤ 258 → h ≤ 258 → numberOfFeaturesM dbg w h = some (inFrame w h).ncard) ∧
    (259 ≤ w → 259 ≤ h → numberOfFeaturesM dbg w h ≠ some (inFrame w h).ncard) := by
  constructor
  · intro hw hh
    refine C199_fits_partial (by omega) (by omega) ?_ dbg
    have h1 := Set.ncard_le_ncard (inFrame_mono hw hh) (ncard_inFrame _ _).1
    rw [(ncard_inFrame 258 258).2, placements_value 258 1 33411 (by decide),
      placements_value 258 2 16641 (by decide), placements_value 258 3 11051 (by decide)] at h1
    omega
  · intro hw hh he
    have h1 := Set.ncard_le_ncard (inFrame_mono hw hh) (ncard_inFrame _ _).1
    rw [(ncard_inFrame 259 259).2, placements_value 259 1 33670 (by decide),
      placements_value 259 2 16770 (by decide), placements_value 259 3 11137 (by decide)] at h1
    cases dbg
    · rw [(C199_release w h).2, Option.some.injEq] at he
      have := Nat.mod_lt (inFrame w h).ncard (show 0 < 2 ^ 32 by omega)
      omega
    · have := ((C199_debug w h _).mp he).2.2.1
      omega

/-- A frame whose count overflows in between but comes out right in release builds: 65536 × 1. -/
example : numberOfFeaturesM true 65536 1 = none ∧
    numberOfFeaturesM false 65536 1 = some 3579117568 ∧ (inFrame 65536 1).ncard = 3579117568 := by
  refine ⟨?_, by decide +kernel, ?_⟩
  · rw [Option.eq_none_iff_forall_not_mem]
    intro n hn
    have := ((C199_debug 65536 1 n).mp hn).1
    omega
  · have hc := (ncard_inFrame 65536 1).2
    rw [hc, placements_value 65536 1 2147516416 (by decide), placements_value 65536 2 1073741824 (by decide),
      placements_value 65536 3 715816960 (by decide), placements_value 1 1 1 (by decide),
      placements_value 1 2 0 (by decide), placements_value 1 3 0 (by decide)]

end Verif.Haar
