import Verif.Haar.Enumerate
/-
Property theorem C198: enumeration of Haar-like features in both build profiles.
-/
namespace Verif.Haar

/-- Result of `u8` arithmetic (haar.rs l.252-348): a debug build (`dbg`) panics on overflow, a
release build wraps. -/
def ck8M (dbg : Bool) (n : Nat) : Option Nat :=
  if n < 256 then some n else if dbg then none else some (n % 256)

/-- haar.rs l.252-258 `feature_size` in a build profile. -/
def featureSizeM (dbg : Bool) (k : Kind) (bw bh : Nat) : Option (Nat × Nat) :=
  (ck8M dbg (k.shape.1 * bw)).bind fun w => (ck8M dbg (k.shape.2 * bh)).bind fun h => some (w, h)

/-- haar.rs l.329-334 `block_sizes` in a build profile; the range `1..u` is empty for `u = 0`. -/
def blockSizesM (dbg : Bool) (shape frame : Nat × Nat) : Option (List (Nat × Nat)) :=
  (ck8M dbg (frame.1 / shape.1 + 1)).bind fun uw =>
  (ck8M dbg (frame.2 / shape.2 + 1)).bind fun uh =>
  some ((List.range' 1 (uw - 1)).flatMap fun w => (List.range' 1 (uh - 1)).map fun h => (w, h))

/-- haar.rs l.338-341 `start_positions` in a build profile. -/
def startPositionsM (dbg : Bool) (inner outer : Nat) : Option Nat :=
  if inner > outer then some 0 else ck8M dbg (outer - inner + 1)

/-- haar.rs l.344-348 `feature_positions` in a build profile. -/
def featurePositionsM (dbg : Bool) (size frame : Nat × Nat) : Option (List (Nat × Nat)) :=
  (startPositionsM dbg size.1 frame.1).bind fun ux =>
  (startPositionsM dbg size.2 frame.2).bind fun uy =>
  some ((List.range ux).flatMap fun x => (List.range uy).map fun y => (x, y))

/-- haar.rs l.279-300 `haar_features_of_type` in a build profile. -/
def featuresOfTypeM (dbg : Bool) (k : Kind) (frame : Nat × Nat) : Option (List Feature) :=
  (blockSizesM dbg k.shape frame).bind fun sizes =>
  forList sizes [] fun b features =>
    (featureSizeM dbg k b.1 b.2).bind fun size =>
    (featurePositionsM dbg size frame).bind fun ps =>
    forList ps features fun p features =>
      forList [true, false] features fun s features =>
        some (features ++ [⟨s, k, b.1, b.2, p.1, p.2⟩])

/-- haar.rs l.262-277 `enumerate_haar_features` in a build profile. -/
def enumerateM (dbg : Bool) (w h : Nat) : Option (List Feature) :=
  forList [Kind.twoH, .threeH, .twoV, .threeV, .four] [] fun k features =>
    (featuresOfTypeM dbg k (w, h)).bind fun fs => some (features ++ fs)

theorem ck8M_of {dbg : Bool} {n : Nat} (h : n < 256) : ck8M dbg n = some n := if_pos h

theorem ck8M_true (n : Nat) : ck8M true n = ck8 n := by
  unfold ck8M ck8
  split <;> simp_all

/-- A kind whose blocks span a whole side of 255 pixels one by one: its number of block sizes is
256, one more than a `u8` holds. -/
def Kind.Lost (k : Kind) (w h : Nat) : Prop :=
  (w = 255 ∧ k.shape.1 = 1) ∨ (h = 255 ∧ k.shape.2 = 1)

instance (k : Kind) (w h : Nat) : Decidable (k.Lost w h) := by unfold Kind.Lost; infer_instance

theorem featuresOfTypeM_eq {dbg : Bool} {k : Kind} {w h : Nat} (hw : w ≤ 255) (hh : h ≤ 255)
    (hl : ¬ k.Lost w h) : featuresOfTypeM dbg k (w, h) = some (ofKind k w h) := by
  obtain ⟨h1, h2, -⟩ := shape_pos k
  have key : ∀ n s, n ≤ 255 → ¬ (n = 255 ∧ s = 1) → 0 < s → n / s + 1 < 256 := by
    intro n s hn hns hs
    rcases Nat.lt_or_ge s 2 with h | h
    · have : s = 1 := by omega
      subst this
      rw [Nat.div_one]
      omega
    · have : n / s ≤ n / 2 := Nat.div_le_div_left h (by omega)
      omega
  have hw' := key w k.shape.1 hw (fun h => hl (Or.inl h)) h1
  have hh' := key h k.shape.2 hh (fun h => hl (Or.inr h)) h2
  unfold featuresOfTypeM blockSizesM
  simp only
  rw [ck8M_of hw', Option.bind_some, ck8M_of hh', Option.bind_some, Option.bind_some]
  have := forList_append (f := fun (b : Nat × Nat) (features : List Feature) =>
    (featureSizeM dbg k b.1 b.2).bind fun size =>
    (featurePositionsM dbg size (w, h)).bind fun ps =>
    forList ps features fun p features =>
      forList [true, false] features fun s features =>
        some (features ++ [⟨s, k, b.1, b.2, p.1, p.2⟩]))
    (fun b => (positions k w h b.1 b.2).flatMap fun p =>
      [(⟨true, k, b.1, b.2, p.1, p.2⟩ : Feature), ⟨false, k, b.1, b.2, p.1, p.2⟩])
    (sizes k w h) [] (by
      intro b hb s
      rw [mem_sizes] at hb
      have p1 : 1 * 1 ≤ k.shape.1 * b.1 := Nat.mul_le_mul h1 hb.1
      have p2 : 1 * 1 ≤ k.shape.2 * b.2 := Nat.mul_le_mul h2 hb.2.2.1
      unfold featureSizeM featurePositionsM startPositionsM
      rw [ck8M_of (by omega), Option.bind_some, ck8M_of (by omega), Option.bind_some,
        Option.bind_some]
      dsimp only
      rw [if_neg (by omega), if_neg (by omega), ck8M_of (by omega), Option.bind_some,
        ck8M_of (by omega), Option.bind_some, Option.bind_some]
      apply forList_append
      intro p _ s
      simp [forList])
  rw [List.nil_append] at this
  exact this

theorem featuresOfTypeM_lost {k : Kind} {w h : Nat} (hw : w ≤ 255) (hh : h ≤ 255)
    (hl : k.Lost w h) : featuresOfTypeM false k (w, h) = some [] := by
  have hs : ∀ s n, n ≤ 255 → ∃ u, ck8M false (n / s + 1) = some u := by
    intro s n _
    unfold ck8M
    split
    · exact ⟨_, rfl⟩
    · exact ⟨_, rfl⟩
  have h0 : ck8M false (255 / 1 + 1) = some 0 := by decide
  have hb : blockSizesM false k.shape (w, h) = some [] := by
    unfold blockSizesM
    dsimp only
    obtain ⟨u, hu⟩ := hs k.shape.1 w hw
    obtain ⟨v, hv⟩ := hs k.shape.2 h hh
    rcases hl with ⟨rfl, h1⟩ | ⟨rfl, h1⟩
    · rw [hv, h1, h0]
      simp
    · rw [hu, h1, h0]
      simp
  unfold featuresOfTypeM
  rw [hb, Option.bind_some]
  rfl

theorem enumerateM_eq {w h : Nat} (hw : w ≤ 255) (hh : h ≤ 255) :
    enumerateM false w h = some ([Kind.twoH, .threeH, .twoV, .threeV, .four].flatMap fun k =>
      if k.Lost w h then [] else ofKind k w h) := by
  unfold enumerateM
  rw [forList_append (fun k => if k.Lost w h then [] else ofKind k w h)]
  · simp
  · intro k _ s
    by_cases hl : k.Lost w h
    · rw [featuresOfTypeM_lost hw hh hl, Option.bind_some, if_pos hl]
    · rw [featuresOfTypeM_eq hw hh hl, Option.bind_some, if_neg hl]

theorem number_eq {w h : Nat} (hw : w ≤ 255) (hh : h ≤ 255) :
    numberOfFeatures w h = some
      ([Kind.twoH, .threeH, .twoV, .threeV, .four].flatMap fun k => ofKind k w h).length := by
  rw [List.length_flatMap]
  simp only [length_ofKind, List.map_cons, List.map_nil, List.sum_cons, List.sum_nil, Kind.shape]
  have hsq : ∀ n, n ≤ 255 → n * (n + 1) < 2 ^ 32 := fun n hn => by
    have : n * (n + 1) ≤ 255 * 256 := Nat.mul_le_mul (by omega) (by omega)
    omega
  have hb : ∀ n, n ≤ 255 → placements n 1 ≤ 32640 ∧ placements n 2 ≤ 16256 ∧
      placements n 3 ≤ 10880 := by
    intro n hn
    have c1 := placements_closed n 1
    have c2 := placements_closed n 2
    have c3 := placements_closed n 3
    have : ∀ n, n < 256 → n / 1 * (n + 1) ≤ 32640 + 1 * (n / 1 * (n / 1 + 1) / 2) ∧
      n / 2 * (n + 1) ≤ 16256 + 2 * (n / 2 * (n / 2 + 1) / 2) ∧
      n / 3 * (n + 1) ≤ 10880 + 3 * (n / 3 * (n / 3 + 1) / 2) := by decide +kernel
    have := this n (by omega)
    omega
  obtain ⟨w1, w2, w3⟩ := hb w hw
  obtain ⟨h1, h2, h3⟩ := hb h hh
  unfold numberOfFeatures
  simp only [numFeatures_eq 1 (hsq w hw),
    numFeatures_eq 2 (hsq w hw), numFeatures_eq 3 (hsq w hw),
    numFeatures_eq 1 (hsq h hh), numFeatures_eq 2 (hsq h hh),
    numFeatures_eq 3 (hsq h hh), Option.bind_some]
  have m1 := Nat.mul_le_mul w2 h1
  have m2 := Nat.mul_le_mul w3 h1
  have m3 := Nat.mul_le_mul w1 h2
  have m4 := Nat.mul_le_mul w1 h3
  have m5 := Nat.mul_le_mul w2 h2
  generalize placements w 2 * placements h 1 = p1 at *
  generalize placements w 3 * placements h 1 = p2 at *
  generalize placements w 1 * placements h 2 = p3 at *
  generalize placements w 1 * placements h 3 = p4 at *
  generalize placements w 2 * placements h 2 = p5 at *
  unfold ck32
  rw [if_pos (by omega), Option.bind_some, if_pos (by omega), Option.bind_some, if_pos (by omega),
    Option.bind_some, if_pos (by omega), Option.bind_some, if_pos (by omega),
    Option.bind_some, if_pos (by omega), Option.bind_some, if_pos (by omega),
    Option.bind_some, if_pos (by omega), Option.bind_some, if_pos (by omega), Option.bind_some,
    if_pos (by omega)]
  congr 1
  omega

/-- C198: the debug build is the checked one: it panics exactly for frames with a side of 255
pixels. -/
theorem C198_debug {w h : Nat} (hw : w ≤ 255) (hh : h ≤ 255) :
    enumerateM true w h = enumerate w h ∧
      (enumerateM true w h = none ↔ w = 255 ∨ h = 255) := by
  have he : enumerateM true w h = enumerate w h := by
    unfold enumerateM enumerate featuresOfTypeM featuresOfType blockSizesM blockSizes
      featureSizeM featureSize featurePositionsM featurePositions startPositionsM startPositions
    simp only [ck8M_true]
  exact ⟨he, he ▸ C64_defined hw hh⟩

/-- C198: below 255 pixels the build profile does not matter. -/
theorem C198_profile_partial {w h : Nat} (hw : w < 255) (hh : h < 255) (dbg : Bool) :
    enumerateM dbg w h = enumerate w h := by
  cases dbg
  · rw [enumerateM_eq (by omega) (by omega), enumerate_eq hw hh]
    have : ∀ k : Kind, ¬ k.Lost w h := fun k hl => by
      unfold Kind.Lost at hl
      omega
    simp only [this, if_false]
  · exact (C198_debug (by omega) (by omega)).1

/-- C198: a release build lists, for every frame, every feature in the frame exactly once, except
for all features one block wide if the frame is 255 wide, and all features one block high if the
frame is 255 high. -/
theorem C198_release {w h : Nat} (hw : w ≤ 255) (hh : h ≤ 255) :
    ∃ l, enumerateM false w h = some l ∧ l.Nodup ∧ ∀ f, f ∈ l ↔ f.InFrame w h ∧
      ¬ (w = 255 ∧ f.kind.shape.1 = 1) ∧ ¬ (h = 255 ∧ f.kind.shape.2 = 1) := by
  refine ⟨_, enumerateM_eq hw hh, ?_, ?_⟩
  · refine nodup_flatMap_key Feature.kind (by decide) (fun k _ => ?_) ?_
    · split
      · exact List.nodup_nil
      · exact nodup_ofKind k w h
    · intro k f hf
      split at hf
      · exact absurd hf List.not_mem_nil
      · exact (mem_ofKind.mp hf).1
  · intro f
    simp only [List.mem_flatMap]
    constructor
    · rintro ⟨k, _, hf⟩
      split at hf
      · exact absurd hf List.not_mem_nil
      · rename_i hl
        obtain ⟨rfl, hin⟩ := mem_ofKind.mp hf
        exact ⟨hin, fun h => hl (Or.inl h), fun h => hl (Or.inr h)⟩
    · rintro ⟨hf, h1, h2⟩
      refine ⟨f.kind, by cases f.kind <;> decide, ?_⟩
      rw [if_neg (by rintro (h | h); exacts [h1 h, h2 h])]
      exact mem_ofKind.mpr ⟨rfl, hf⟩

/-- C198: the documented count is right for every frame of a `u8` size, also where the list is not:
it is the number of features in the frame. -/
theorem C198_number {w h : Nat} (hw : w ≤ 255) (hh : h ≤ 255) :
    ∃ l : List Feature, l.Nodup ∧ (∀ f, f ∈ l ↔ f.InFrame w h) ∧
      numberOfFeatures w h = some l.length := by
  refine ⟨_, ?_, ?_, number_eq hw hh⟩
  · refine nodup_flatMap_key Feature.kind (by decide) (fun k _ => nodup_ofKind k w h) ?_
    intro k f hf
    exact (mem_ofKind.mp hf).1
  · intro f
    simp only [List.mem_flatMap, mem_ofKind]
    constructor
    · rintro ⟨k, _, _, h⟩; exact h
    · intro h
      refine ⟨f.kind, ?_, rfl, h⟩
      cases f.kind <;> decide

/-- C198: the claim is false for every frame with a side of 255 pixels and the other side at least
2: the release list is shorter than the number of features. -/
theorem C198_negation {w h : Nat} (hw : w ≤ 255) (hh : h ≤ 255) (hs : w = 255 ∨ h = 255)
    (hw2 : 2 ≤ w) (hh2 : 2 ≤ h) :
    ∃ l n, enumerateM false w h = some l ∧ numberOfFeatures w h = some n ∧ l.length < n := by
  obtain ⟨l, hl, hn, hm⟩ := C198_release hw hh
  obtain ⟨a, ha, hma, hna⟩ := C198_number hw hh
  refine ⟨l, _, hl, hna, ?_⟩
  obtain ⟨f, hf, hfl⟩ : ∃ f : Feature, f ∈ a ∧ f ∉ l := by
    rcases hs with rfl | rfl
    · refine ⟨⟨true, .twoV, 1, 1, 0, 0⟩, (hma _).mpr ?_, fun h => ((hm _).mp h).2.1 ⟨rfl, rfl⟩⟩
      unfold Feature.InFrame Kind.shape
      dsimp only
      omega
    · refine ⟨⟨true, .twoH, 1, 1, 0, 0⟩, (hma _).mpr ?_, fun h => ((hm _).mp h).2.2 ⟨rfl, rfl⟩⟩
      unfold Feature.InFrame Kind.shape
      dsimp only
      omega
  have hsub : (f :: l).Nodup := List.nodup_cons.mpr ⟨hfl, hn⟩
  have : (f :: l) ⊆ a := by
    intro e he
    rcases List.mem_cons.mp he with rfl | he
    · exact hf
    · exact (hma e).mpr ((hm e).mp he).1
  have := (List.subperm_of_subset hsub this).length_le
  rw [List.length_cons] at this
  omega

/-- A frame of 255 × 1 pixels: no vertical features fit, and the horizontal ones are all there. -/
example : ∃ l, enumerateM false 255 1 = some l ∧ (⟨true, .twoH, 127, 1, 1, 0⟩ : Feature) ∈ l ∧
    enumerateM true 255 1 = none := by
  obtain ⟨l, hl, -, hm⟩ := C198_release (w := 255) (h := 1) (by omega) (by omega)
  exact ⟨l, hl, (hm _).mpr (by unfold Feature.InFrame Kind.shape; decide),
    (C198_debug (by omega) (by omega)).2.mpr (by omega)⟩

/-- A frame of 2 × 255 pixels: the count includes the horizontal features, the release list does
not. -/
example : ∃ l, enumerateM false 2 255 = some l ∧ (⟨true, .twoV, 2, 127, 0, 1⟩ : Feature) ∈ l ∧
    (⟨true, .twoH, 1, 255, 0, 0⟩ : Feature) ∉ l ∧ (⟨true, .four, 1, 127, 0, 1⟩ : Feature) ∈ l := by
  obtain ⟨l, hl, -, hm⟩ := C198_release (w := 2) (h := 255) (by omega) (by omega)
  exact ⟨l, hl, (hm _).mpr (by unfold Feature.InFrame Kind.shape; decide),
    fun h => ((hm _).mp h).2.2 ⟨rfl, rfl⟩,
    (hm _).mpr (by unfold Feature.InFrame Kind.shape; decide)⟩

end Verif.Haar
