import Verif.Haar.Evaluate
import Mathlib.Data.List.Nodup
import Mathlib.Data.List.Range
import Mathlib.Algebra.BigOperators.Group.List.Basic
import Mathlib.Algebra.BigOperators.Ring.List
/-
Property theorem C64: enumeration and count of Haar-like features.
-/
namespace Verif.Haar

/-- A feature with non-empty blocks inside a `w × h` frame. -/
def Feature.InFrame (f : Feature) (w h : Nat) : Prop :=
  1 ≤ f.bw ∧ 1 ≤ f.bh ∧ f.left + f.kind.shape.1 * f.bw ≤ w ∧ f.top + f.kind.shape.2 * f.bh ≤ h

theorem forList_append {α β : Type _} (g : α → List β) {f : α → List β → Option (List β)} :
    ∀ (l : List α) (s : List β), (∀ a ∈ l, ∀ s, f a s = some (s ++ g a)) →
      forList l s f = some (s ++ l.flatMap g)
  | [], s, _ => by simp [forList]
  | a :: l, s, h => by
    rw [forList, h a List.mem_cons_self, Option.bind_some,
      forList_append g l _ fun b hb => h b (List.mem_cons_of_mem _ hb)]
    simp

theorem nodup_flatMap_key {α β : Type _} (key : β → α) {f : α → List β} {l : List α} (hl : l.Nodup)
    (h1 : ∀ x ∈ l, (f x).Nodup) (h2 : ∀ x, ∀ e ∈ f x, key e = x) : (l.flatMap f).Nodup := by
  rw [List.nodup_flatMap]
  refine ⟨h1, ?_⟩
  refine List.Pairwise.imp ?_ hl
  intro a b hab e ha hb
  exact hab ((h2 a e ha).symm.trans (h2 b e hb))

theorem shape_pos (k : Kind) : 0 < k.shape.1 ∧ 0 < k.shape.2 ∧ k.shape.1 ≤ 3 ∧ k.shape.2 ≤ 3 := by
  cases k <;> decide

/-- The block sizes of a kind, as a list. -/
def sizes (k : Kind) (w h : Nat) : List (Nat × Nat) :=
  (List.range' 1 (w / k.shape.1)).flatMap fun bw =>
    (List.range' 1 (h / k.shape.2)).map fun bh => (bw, bh)

/-- The positions of a feature, as a list. -/
def positions (k : Kind) (w h bw bh : Nat) : List (Nat × Nat) :=
  (List.range (w - k.shape.1 * bw + 1)).flatMap fun x =>
    (List.range (h - k.shape.2 * bh + 1)).map fun y => (x, y)

/-- The features of a kind, as a list. -/
def ofKind (k : Kind) (w h : Nat) : List Feature :=
  (sizes k w h).flatMap fun b => (positions k w h b.1 b.2).flatMap fun p =>
    [⟨true, k, b.1, b.2, p.1, p.2⟩, ⟨false, k, b.1, b.2, p.1, p.2⟩]

theorem mem_sizes {k : Kind} {w h : Nat} {b : Nat × Nat} : b ∈ sizes k w h ↔
    1 ≤ b.1 ∧ k.shape.1 * b.1 ≤ w ∧ 1 ≤ b.2 ∧ k.shape.2 * b.2 ≤ h := by
  obtain ⟨h1, h2, -⟩ := shape_pos k
  have key : ∀ {n k b : Nat}, 0 < k → (b ≤ n / k ↔ k * b ≤ n) := fun hk => by
    rw [Nat.le_div_iff_mul_le hk, Nat.mul_comm]
  unfold sizes
  simp only [List.mem_flatMap, List.mem_range'_1, List.mem_map]
  constructor
  · rintro ⟨x, hx, y, hy, rfl⟩
    exact ⟨hx.1, (key h1).mp (by omega), hy.1, (key h2).mp (by omega)⟩
  · rintro ⟨a, b', c, d⟩
    have := (key h1).mpr b'
    have := (key h2).mpr d
    exact ⟨b.1, by omega, b.2, by omega, rfl⟩

theorem featuresOfType_eq {k : Kind} {w h : Nat} (hw : w < 255) (hh : h < 255) :
    featuresOfType k (w, h) = some (ofKind k w h) := by
  obtain ⟨h1, h2, -⟩ := shape_pos k
  have hw' := Nat.div_le_self w k.shape.1
  have hh' := Nat.div_le_self h k.shape.2
  unfold featuresOfType blockSizes
  simp only
  rw [ck8_of (by omega), Option.bind_some, ck8_of (by omega), Option.bind_some, Option.bind_some]
  have := forList_append (f := fun (b : Nat × Nat) (features : List Feature) =>
    (featureSize k b.1 b.2).bind fun size =>
    (featurePositions size (w, h)).bind fun ps =>
    forList ps features fun p features =>
      forList [true, false] features fun s features =>
        some (features ++ [⟨s, k, b.1, b.2, p.1, p.2⟩]))
    (fun b => (positions k w h b.1 b.2).flatMap fun p =>
      [(⟨true, k, b.1, b.2, p.1, p.2⟩ : Feature), ⟨false, k, b.1, b.2, p.1, p.2⟩])
    (sizes k w h) [] (by
      intro b hb s
      rw [mem_sizes] at hb
      have p1 : 1 * 1 ≤ k.shape.1 * b.1 := Nat.mul_le_mul h1 hb.1
      have p2 : 1 * 1 ≤ k.shape.2 * b.2 := Nat.mul_le_mul h2 hb.2.2.1
      unfold featureSize featurePositions startPositions
      rw [ck8_of (by omega), Option.bind_some, ck8_of (by omega), Option.bind_some, Option.bind_some]
      dsimp only
      rw [if_neg (by omega), if_neg (by omega), ck8_of (by omega), Option.bind_some,
        ck8_of (by omega), Option.bind_some, Option.bind_some]
      apply forList_append
      intro p _ s
      simp [forList])
  rw [List.nil_append] at this
  exact this

theorem enumerate_eq {w h : Nat} (hw : w < 255) (hh : h < 255) :
    enumerate w h =
      some ([Kind.twoH, .threeH, .twoV, .threeV, .four].flatMap fun k => ofKind k w h) := by
  unfold enumerate
  rw [forList_append (fun k => ofKind k w h)]
  · simp
  · intro k _ s
    rw [featuresOfType_eq hw hh, Option.bind_some]

theorem mem_ofKind {k : Kind} {w h : Nat} {f : Feature} :
    f ∈ ofKind k w h ↔ f.kind = k ∧ f.InFrame w h := by
  unfold ofKind positions Feature.InFrame
  simp only [List.mem_flatMap, mem_sizes, List.mem_range, List.mem_map, List.mem_cons,
    List.not_mem_nil, or_false]
  constructor
  · rintro ⟨b, hb, p, ⟨x, hx, y, hy, rfl⟩, rfl | rfl⟩
    all_goals exact ⟨rfl, hb.1, hb.2.2.1, by dsimp only; omega, by dsimp only; omega⟩
  · rintro ⟨rfl, h1, h2, h3, h4⟩
    refine ⟨(f.bw, f.bh), ⟨h1, by dsimp only; omega, h2, by dsimp only; omega⟩, (f.left, f.top),
      ⟨f.left, by dsimp only; omega, f.top, by dsimp only; omega, rfl⟩, ?_⟩
    obtain ⟨p, k, bw, bh, l, t⟩ := f
    cases p <;> simp

theorem nodup_ofKind (k : Kind) (w h : Nat) : (ofKind k w h).Nodup := by
  unfold ofKind
  refine nodup_flatMap_key (fun f => (f.bw, f.bh)) ?_ ?_ ?_
  · unfold sizes
    refine nodup_flatMap_key Prod.fst List.nodup_range' ?_ ?_
    · intro x _
      exact List.Nodup.map (fun a b h => by simpa using h) List.nodup_range'
    · intro x e he
      obtain ⟨y, _, rfl⟩ := List.mem_map.mp he
      rfl
  · intro b _
    refine nodup_flatMap_key (fun f => (f.left, f.top)) ?_ ?_ ?_
    · unfold positions
      refine nodup_flatMap_key Prod.fst List.nodup_range ?_ ?_
      · intro x _
        exact List.Nodup.map (fun a b h => by simpa using h) List.nodup_range
      · intro x e he
        obtain ⟨y, _, rfl⟩ := List.mem_map.mp he
        rfl
    · intro p _
      simp
    · intro p e he
      simp only [List.mem_cons, List.not_mem_nil, or_false] at he
      rcases he with rfl | rfl <;> rfl
  · intro b e he
    simp only [List.mem_flatMap, List.mem_cons, List.not_mem_nil, or_false] at he
    obtain ⟨p, _, rfl | rfl⟩ := he <;> rfl

/-- Number of placements of `k` equal intervals side by side in an interval of length `n`. -/
def placements (n k : Nat) : Nat := ((List.range' 1 (n / k)).map fun b => n - k * b + 1).sum

theorem length_sum_product (l1 l2 : List Nat) (f g : Nat → Nat) :
    ((l1.flatMap fun a => l2.map fun b => (a, b)).map fun p => f p.1 * g p.2).sum =
      (l1.map f).sum * (l2.map g).sum := by
  induction l1 with
  | nil => simp
  | cons a l ih =>
    rw [List.flatMap_cons, List.map_append, List.sum_append, ih, List.map_cons, List.sum_cons,
      Nat.add_mul, List.map_map]
    congr 1
    rw [← List.sum_map_mul_left]
    rfl

theorem length_positions (k : Kind) (w h bw bh : Nat) : (positions k w h bw bh).length =
    (w - k.shape.1 * bw + 1) * (h - k.shape.2 * bh + 1) := by
  simp [positions, List.length_flatMap]

theorem length_ofKind (k : Kind) (w h : Nat) :
    (ofKind k w h).length = 2 * (placements w k.shape.1 * placements h k.shape.2) := by
  unfold ofKind
  rw [List.length_flatMap]
  have : (fun b : Nat × Nat => ((positions k w h b.1 b.2).flatMap fun p =>
      [(⟨true, k, b.1, b.2, p.1, p.2⟩ : Feature), ⟨false, k, b.1, b.2, p.1, p.2⟩]).length) =
      fun b => (w - k.shape.1 * b.1 + 1) * (h - k.shape.2 * b.2 + 1) * 2 := by
    funext b
    rw [List.length_flatMap]
    simp only [List.length_cons, List.length_nil]
    rw [List.map_const', List.sum_replicate, length_positions]
    rfl
  rw [this]
  unfold sizes placements
  rw [← length_sum_product, ← List.sum_map_mul_left]
  congr 1
  apply List.map_congr_left
  intro b _
  ring

/-- The closed form of the documentation: `M (n + 1) - k (M (M + 1) / 2)` with `M = n / k`. -/
theorem placements_closed (n k : Nat) :
    placements n k + k * (n / k * (n / k + 1) / 2) = n / k * (n + 1) := by
  have key : ∀ q, k * q ≤ n → ((List.range' 1 q).map fun b => n - k * b + 1).sum +
      k * (q * (q + 1) / 2) = q * (n + 1) := by
    intro q
    induction q with
    | zero => simp
    | succ q ih =>
      intro hq
      have h1 : k * q ≤ k * (q + 1) := Nat.mul_le_mul_left _ (by omega)
      have h2 := ih (by omega)
      rw [List.range'_concat, List.map_append, List.sum_append]
      simp only [List.map_cons, List.map_nil, List.sum_cons, List.sum_nil, Nat.one_mul, Nat.add_zero]
      have h3 : (q + 1) * (q + 1 + 1) / 2 = q * (q + 1) / 2 + (q + 1) := by
        rw [show (q + 1) * (q + 1 + 1) = q * (q + 1) + (q + 1) * 2 by ring,
          Nat.add_mul_div_right _ _ (by omega)]
      rw [Nat.add_comm 1 q, h3, Nat.mul_add k (q * (q + 1) / 2), show (q + 1) * (n + 1) = q * (n + 1) + (n + 1) by ring]
      omega
  exact key _ (Nat.mul_div_le n k)

theorem numFeatures_eq {n : Nat} (k : Nat) (hn : n * (n + 1) < 2 ^ 32) :
    numFeatures n k = some (placements n k) := by
  have hc := placements_closed n k
  have hm := Nat.div_le_self n k
  have h0 : n / k * (n + 1) ≤ n * (n + 1) := Nat.mul_le_mul_right _ hm
  have h1 : n / k * (n / k + 1) ≤ n * (n + 1) := Nat.mul_le_mul hm (by omega)
  have hn1 : n < 2 ^ 16 := by
    by_contra hcon
    have : 2 ^ 16 * 2 ^ 16 ≤ n * (n + 1) := Nat.mul_le_mul (by omega) (by omega)
    omega
  unfold numFeatures ck32
  simp only
  rw [if_pos (by omega), Option.bind_some, if_pos (by omega), Option.bind_some, if_pos (by omega),
    Option.bind_some, if_pos (by omega), Option.bind_some, if_pos (by omega), Option.bind_some,
    csub_of_le (by omega)]
  congr 1
  omega

/-- C64: for every frame size whose features can be enumerated, the list contains exactly the
features with non-empty blocks inside the frame, each once, and its length is the closed-form
number of features. -/
theorem C64_enumerate {w h : Nat} (hw : w < 255) (hh : h < 255) :
    ∃ l, enumerate w h = some l ∧ l.Nodup ∧ (∀ f, f ∈ l ↔ f.InFrame w h) ∧
      numberOfFeatures w h = some l.length := by
  refine ⟨_, enumerate_eq hw hh, ?_, ?_, ?_⟩
  · refine nodup_flatMap_key Feature.kind (by decide) (fun k _ => nodup_ofKind k w h) ?_
    intro k f hf
    exact (mem_ofKind.mp hf).1
  · intro f
    simp only [List.mem_flatMap, mem_ofKind]
    constructor
    · rintro ⟨k, _, _, h⟩; exact h
    · intro h
      refine ⟨f.kind, ?_, rfl, h⟩
      cases f.kind <;> decide
  · rw [List.length_flatMap]
    simp only [length_ofKind, List.map_cons, List.map_nil, List.sum_cons, List.sum_nil, Kind.shape]
    have hsq : ∀ n, n < 255 → n * (n + 1) < 2 ^ 32 := fun n hn => by
      have : n * (n + 1) ≤ 255 * 256 := Nat.mul_le_mul (by omega) (by omega)
      omega
    have hb : ∀ n, n < 255 → placements n 1 ≤ 32640 ∧ placements n 2 ≤ 16256 ∧
        placements n 3 ≤ 10880 := by
      intro n hn
      have c1 := placements_closed n 1
      have c2 := placements_closed n 2
      have c3 := placements_closed n 3
      have : ∀ n, n < 255 → n / 1 * (n + 1) ≤ 32640 + 1 * (n / 1 * (n / 1 + 1) / 2) ∧
        n / 2 * (n + 1) ≤ 16256 + 2 * (n / 2 * (n / 2 + 1) / 2) ∧
        n / 3 * (n + 1) ≤ 10880 + 3 * (n / 3 * (n / 3 + 1) / 2) := by decide +kernel
      have := this n hn
      omega
    obtain ⟨w1, w2, w3⟩ := hb w hw
    obtain ⟨h1, h2, h3⟩ := hb h hh
    unfold numberOfFeatures
    simp only [numFeatures_eq 1 (hsq w hw),
      numFeatures_eq 2 (hsq w hw), numFeatures_eq 3 (hsq w hw),
      numFeatures_eq 1 (hsq h hh), numFeatures_eq 2 (hsq h hh),
      numFeatures_eq 3 (hsq h hh), Option.bind_some]
    have m1 := Nat.mul_le_mul w2 h1
    have m2 := Nat.mul_le_mul w3 h1
    have m3 := Nat.mul_le_mul w1 h2
    have m4 := Nat.mul_le_mul w1 h3
    have m5 := Nat.mul_le_mul w2 h2
    generalize placements w 2 * placements h 1 = p1 at *
    generalize placements w 3 * placements h 1 = p2 at *
    generalize placements w 1 * placements h 2 = p3 at *
    generalize placements w 1 * placements h 3 = p4 at *
    generalize placements w 2 * placements h 2 = p5 at *
    unfold ck32
    rw [if_pos (by omega), Option.bind_some, if_pos (by omega), Option.bind_some, if_pos (by omega),
      Option.bind_some, if_pos (by omega), Option.bind_some, if_pos (by omega),
      Option.bind_some, if_pos (by omega), Option.bind_some, if_pos (by omega),
      Option.bind_some, if_pos (by omega), Option.bind_some, if_pos (by omega), Option.bind_some,
      if_pos (by omega)]
    congr 1
    omega

/-- C64: the 8-bit frame sizes for which the enumeration is undefined (overflow panic) are exactly
those with a side of 255. -/
theorem C64_defined {w h : Nat} (hw : w ≤ 255) (hh : h ≤ 255) :
    enumerate w h = none ↔ w = 255 ∨ h = 255 := by
  constructor
  · intro he
    by_contra hn
    rw [enumerate_eq (by omega) (by omega)] at he
    simp at he
  · rintro (rfl | rfl)
    · have : featuresOfType .twoV (255, h) = none := by
        unfold featuresOfType blockSizes
        rw [show ck8 ((255, h).1 / Kind.twoV.shape.1 + 1) = none by simp [ck8, Kind.shape]]
        rfl
      unfold enumerate
      simp only [forList]
      cases featuresOfType .twoH (255, h) with
      | none => rfl
      | some a =>
        rw [Option.bind_some, Option.bind_some]
        cases featuresOfType .threeH (255, h) with
        | none => rfl
        | some b => rw [Option.bind_some, Option.bind_some, this]; rfl
    · have : featuresOfType .twoH (w, 255) = none := by
        unfold featuresOfType blockSizes
        cases ck8 ((w, 255).1 / Kind.twoH.shape.1 + 1) with
        | none => rfl
        | some a =>
          rw [Option.bind_some, show ck8 ((w, 255).2 / Kind.twoH.shape.2 + 1) = none by simp [ck8, Kind.shape]]
          rfl
      unfold enumerate
      simp only [forList]
      rw [this]
      rfl

/-- C63 and C64 together: every enumerated feature can be evaluated on every 8-bit image of the
frame size. -/
theorem C64_evaluable {w h : Nat} {l : List Feature} (hw : w < 255) (hh : h < 255)
    (hl : enumerate w h = some l) (f : Feature) (hf : f ∈ l) : f.Fits w h := by
  obtain ⟨l', e, -, hm, -⟩ := C64_enumerate hw hh
  rw [hl] at e
  obtain rfl := Option.some.inj e
  obtain ⟨-, -, h1, h2⟩ := (hm f).mp hf
  exact ⟨h1, h2, by omega, by omega⟩

example : (enumerate 2 1).map List.length = some 2 ∧ numberOfFeatures 2 1 = some 2 := by
  decide +kernel
example : (enumerate 3 2).map List.length = numberOfFeatures 3 2 := by decide +kernel
example : numberOfFeatures 24 24 = some (2 * 162336) := by decide +kernel

end Verif.Haar
