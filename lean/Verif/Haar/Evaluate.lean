import Verif.Haar.Model
import Verif.Integral.Props
import Mathlib.Algebra.BigOperators.Ring.Finset
import Mathlib.Tactic.Ring
import Mathlib.Tactic.Linarith
/-
Property theorem C63: evaluation and drawing of a Haar-like feature.
-/
namespace Verif.Haar
open Finset Verif.Integral

/-- The feature lies inside a `w × h` frame and its coordinates fit in 8 bits. -/
structure Feature.Fits (f : Feature) (w h : Nat) : Prop where
  right : f.left + f.kind.shape.1 * f.bw ≤ w
  bottom : f.top + f.kind.shape.2 * f.bh ≤ h
  right8 : f.left + f.kind.shape.1 * f.bw < 256
  bottom8 : f.top + f.kind.shape.2 * f.bh < 256

/-- Sum of the pixels of block `(i, j)` of a feature. -/
def blockSum (im : Image Nat) (f : Feature) (i j : Nat) : Int :=
  ∑ dy ∈ range f.bh, ∑ dx ∈ range f.bw,
    (im.px (f.left + i * f.bw + dx) (f.top + j * f.bh + dy) : Int)

/-- Sign of block `(i, j)`: alternating like a chess board, starting from the top left block. -/
def blockSign (f : Feature) (i j : Nat) : Int :=
  if f.positive then (if (i + j) % 2 = 0 then 1 else -1) else (if (i + j) % 2 = 0 then -1 else 1)

theorem ck8_of {n : Nat} (h : n < 256) : ck8 n = some n := if_pos h

theorem boundary_some (f : Feature) {w h : Nat} (hf : f.Fits w h) {x y : Nat}
    (hx : x ≤ f.kind.shape.1) (hy : y ≤ f.kind.shape.2) :
    f.blockBoundary x y = some (f.left + x * f.bw, f.top + y * f.bh) := by
  have h1 : x * f.bw ≤ f.kind.shape.1 * f.bw := Nat.mul_le_mul_right _ hx
  have h2 : y * f.bh ≤ f.kind.shape.2 * f.bh := Nat.mul_le_mul_right _ hy
  have := hf.right8
  have := hf.bottom8
  unfold Feature.blockBoundary
  rw [ck8_of (by omega), Option.bind_some, ck8_of (by omega), Option.bind_some,
    ck8_of (by omega), Option.bind_some, ck8_of (by omega), Option.bind_some]

theorem prefixSum_le_255 (im : Image Nat) (h8 : ∀ x y, x < im.w → y < im.h → im.px x y < 256)
    {x y : Nat} (hx : x ≤ im.w) (hy : y ≤ im.h) (hx8 : x < 256) (hy8 : y < 256) :
    prefixSum im (fun v => v) x y ≤ 255 * 255 * 255 := by
  unfold prefixSum
  calc ∑ j ∈ range y, ∑ i ∈ range x, im.px i j ≤ ∑ j ∈ range y, ∑ i ∈ range x, 255 := by
        apply sum_le_sum; intro j hj
        apply sum_le_sum; intro i hi
        rw [mem_range] at hi hj
        have := h8 i j (by omega) (by omega)
        omega
    _ = y * (x * 255) := by simp
    _ ≤ 255 * (255 * 255) := Nat.mul_le_mul (by omega) (Nat.mul_le_mul (by omega) (Nat.le_refl _))
    _ = _ := by norm_num

/-- Prefix sum at a block corner. -/
def corner (im : Image Nat) (f : Feature) (x y : Nat) : Int :=
  (prefixSum im (fun v => v) (f.left + x * f.bw) (f.top + y * f.bh) : Nat)

theorem block_corners (im : Image Nat) (f : Feature) (i j : Nat) :
    blockSum im f i j = corner im f (i + 1) (j + 1) - corner im f i (j + 1) -
      corner im f (i + 1) j + corner im f i j := by
  unfold blockSum corner prefixSum
  have e1 : f.left + (i + 1) * f.bw = (f.left + i * f.bw) + f.bw := by ring
  have e2 : f.top + (j + 1) * f.bh = (f.top + j * f.bh) + f.bh := by ring
  rw [e1, e2, sum_range_add, sum_range_add]
  push_cast
  have : ∀ y, ∑ i_1 ∈ range (f.left + i * f.bw + f.bw), (im.px i_1 y : Int) =
      ∑ x ∈ range (f.left + i * f.bw), (im.px x y : Int) +
      ∑ dx ∈ range f.bw, (im.px (f.left + i * f.bw + dx) y : Int) := fun y => sum_range_add ..
  have h2 : ∑ y ∈ range (f.top + j * f.bh + f.bh), ∑ x ∈ range (f.left + i * f.bw), (im.px x y : Int) =
      ∑ y ∈ range (f.top + j * f.bh), ∑ x ∈ range (f.left + i * f.bw), (im.px x y : Int) +
      ∑ dy ∈ range f.bh, ∑ x ∈ range (f.left + i * f.bw), (im.px x (f.top + j * f.bh + dy) : Int) :=
    sum_range_add ..
  rw [h2]
  simp only [this, sum_add_distrib]
  ring

theorem sumTerms_spec (im I : Image Nat) (f : Feature) (hf : f.Fits im.w im.h)
    (h8 : ∀ x y, x < im.w → y < im.h → im.px x y < 256)
    (hI : I.w = im.w + 1 ∧ I.h = im.h + 1 ∧
      ∀ x y, x ≤ im.w → y ≤ im.h → I.px x y = prefixSum im (fun v => v) x y)
    (ts : List (Int × Nat × Nat))
    (hts : ∀ t ∈ ts, t.2.1 ≤ f.kind.shape.1 ∧ t.2.2 ≤ f.kind.shape.2) (acc : Int)
    (hb : acc.natAbs + (ts.map fun t => t.1.natAbs).sum * 16581375 < 2 ^ 31) :
    sumTerms f I ts acc = some (acc + (ts.map fun t => t.1 * corner im f t.2.1 t.2.2).sum) := by
  induction ts generalizing acc with
  | nil => simp [sumTerms, forList]
  | cons t ts ih =>
    obtain ⟨hx, hy⟩ := hts t List.mem_cons_self
    have h1 : t.2.1 * f.bw ≤ f.kind.shape.1 * f.bw := Nat.mul_le_mul_right _ hx
    have h2 : t.2.2 * f.bh ≤ f.kind.shape.2 * f.bh := Nat.mul_le_mul_right _ hy
    have r1 := hf.right
    have r2 := hf.bottom
    have r3 := hf.right8
    have r4 := hf.bottom8
    have hle := prefixSum_le_255 im h8 (x := f.left + t.2.1 * f.bw) (y := f.top + t.2.2 * f.bh)
      (by omega) (by omega) (by omega) (by omega)
    unfold sumTerms forList
    rw [boundary_some f hf hx hy, Option.bind_some, Image.get_of_inB (by omega) (by omega),
      Option.bind_some, hI.2.2 _ _ (by omega) (by omega)]
    generalize hp : prefixSum im (fun v => v) (f.left + t.2.1 * f.bw) (f.top + t.2.2 * f.bh) = P at *
    have hc : corner im f t.2.1 t.2.2 = P := by rw [corner, hp]
    have hP : P ≤ 16581375 := by omega
    have has : asI32 P = P := if_pos (by omega)
    rw [has]
    rw [List.map_cons, List.sum_cons, Nat.add_mul] at hb
    have hmul : t.1.natAbs * P ≤ t.1.natAbs * 16581375 := Nat.mul_le_mul_left _ hP
    have habs : (t.1 * (P : Int)).natAbs = t.1.natAbs * P := by
      rw [Int.natAbs_mul, Int.natAbs_natCast]
    have hcast : ((t.1.natAbs : Int) * (P : Int)) = ((t.1.natAbs * P : Nat) : Int) := by push_cast; rfl
    rw [hcast]
    obtain ⟨A, hA⟩ : ∃ A, A = t.1.natAbs * P := ⟨_, rfl⟩
    obtain ⟨B, hB⟩ : ∃ B, B = t.1 * (P : Int) := ⟨_, rfl⟩
    rw [← hA, ← hB] at habs
    rw [← hA] at hmul
    rw [← hA, ← hB]
    norm_num at hb
    have hck1 : cki32 (A : Int) = some (A : Int) := by
      unfold cki32; norm_num; omega
    have hck2 : cki32 (acc + B) = some (acc + B) := by
      unfold cki32; norm_num; omega
    rw [hck1, Option.bind_some, hck2, Option.bind_some]
    have := ih (fun t ht => hts t (List.mem_cons_of_mem _ ht)) (acc + B) (by norm_num; omega)
    unfold sumTerms at this
    rw [this, List.map_cons, List.sum_cons, hc, ← hB, add_assoc]

/-- C63: evaluating a feature on the integral image of an 8-bit image gives, without overflow, the
sum over its blocks of the signed sum of the block's pixels. -/
theorem C63_evaluate (im : Image Nat) (h8 : ∀ x y, x < im.w → y < im.h → im.px x y < 256)
    (f : Feature) (hf : f.Fits im.w im.h) :
    ∃ I, integralImage im (fun v => v) = some I ∧
      f.evaluate I = some (∑ i ∈ range f.kind.shape.1, ∑ j ∈ range f.kind.shape.2,
        blockSign f i j * blockSum im f i j) := by
  obtain ⟨I, e, hI⟩ := integralImage_spec im (fun v => v)
  refine ⟨I, e, ?_⟩
  have r1 := hf.right
  have r2 := hf.bottom
  have r3 := hf.right8
  have r4 := hf.bottom8
  unfold Feature.evaluate featureSize
  rw [ck8_of (by omega), Option.bind_some, ck8_of (by omega), Option.bind_some, Option.bind_some,
    if_pos (by dsimp only; omega)]
  rw [sumTerms_spec im I f hf h8 hI f.kind.terms (by cases f.kind <;> decide) 0
    (by cases f.kind <;> decide), Option.bind_some]
  have hb : ∀ x y, x ≤ f.kind.shape.1 → y ≤ f.kind.shape.2 → 0 ≤ corner im f x y ∧
      corner im f x y ≤ 16581375 := by
    intro x y hx hy
    have h1 : x * f.bw ≤ f.kind.shape.1 * f.bw := Nat.mul_le_mul_right _ hx
    have h2 : y * f.bh ≤ f.kind.shape.2 * f.bh := Nat.mul_le_mul_right _ hy
    have := prefixSum_le_255 im h8 (x := f.left + x * f.bw) (y := f.top + y * f.bh)
      (by omega) (by omega) (by omega) (by omega)
    unfold corner
    omega
  have key : (0 : Int) + (f.kind.terms.map fun t => t.1 * corner im f t.2.1 t.2.2).sum =
      ∑ i ∈ range f.kind.shape.1, ∑ j ∈ range f.kind.shape.2,
        (if (i + j) % 2 = 0 then 1 else -1) * blockSum im f i j := by
    simp only [block_corners]
    cases f.kind <;> simp [Kind.terms, Kind.shape, sum_range_succ] <;> ring
  have hneg : (∑ i ∈ range f.kind.shape.1, ∑ j ∈ range f.kind.shape.2,
        blockSign f i j * blockSum im f i j) =
      (∑ i ∈ range f.kind.shape.1, ∑ j ∈ range f.kind.shape.2,
        (if (i + j) % 2 = 0 then 1 else -1) * blockSum im f i j) *
        (if f.positive then 1 else -1) := by
    rw [sum_mul]
    apply sum_congr rfl; intro i _
    rw [sum_mul]
    apply sum_congr rfl; intro j _
    unfold blockSign
    split_ifs <;> ring
  rw [hneg, ← key]
  have hbound : -2 ^ 31 < (0 : Int) + (f.kind.terms.map fun t => t.1 * corner im f t.2.1 t.2.2).sum ∧
      (0 : Int) + (f.kind.terms.map fun t => t.1 * corner im f t.2.1 t.2.2).sum < 2 ^ 31 := by
    have hl : ∀ ts : List (Int × Nat × Nat), (∀ t ∈ ts, t.2.1 ≤ f.kind.shape.1 ∧
        t.2.2 ≤ f.kind.shape.2) → ((ts.map fun t => t.1 * corner im f t.2.1 t.2.2).sum).natAbs ≤
        (ts.map fun t => t.1.natAbs).sum * 16581375 := by
      intro ts
      induction ts with
      | nil => simp
      | cons t ts ih =>
        intro h
        obtain ⟨hx, hy⟩ := h t List.mem_cons_self
        have h1 := ih fun t ht => h t (List.mem_cons_of_mem _ ht)
        have h2 := hb _ _ hx hy
        have h3 : (t.1 * corner im f t.2.1 t.2.2).natAbs ≤ t.1.natAbs * 16581375 := by
          rw [Int.natAbs_mul]
          exact Nat.mul_le_mul_left _ (by omega)
        rw [List.map_cons, List.sum_cons, List.map_cons, List.sum_cons, Nat.add_mul]
        omega
    have h1 := hl f.kind.terms (by cases f.kind <;> decide)
    have h2 : (f.kind.terms.map fun t => t.1.natAbs).sum ≤ 16 := by cases f.kind <;> decide
    omega
  generalize (0 : Int) + (f.kind.terms.map fun t => t.1 * corner im f t.2.1 t.2.2).sum = S at *
  unfold cki32
  rw [if_pos]
  split <;> omega

/-- C63: the assertions of `evaluate` reject integral images too small for the feature, so the
unchecked reads are never out of bounds. -/
theorem C63_reject (f : Feature) (I : Image Nat)
    (h : I.w ≤ f.left + f.kind.shape.1 * f.bw ∨ I.h ≤ f.top + f.kind.shape.2 * f.bh) :
    f.evaluate I = none := by
  unfold Feature.evaluate featureSize ck8
  by_cases h1 : f.kind.shape.1 * f.bw < 256
  · by_cases h2 : f.kind.shape.2 * f.bh < 256
    · rw [if_pos h1, if_pos h2]
      simp only [Option.bind_some]
      rw [if_neg (by omega)]
    · rw [if_neg h2]; simp
  · rw [if_neg h1]; simp

/-- The set of positions painted and the painted colours, for one drawing step. -/
def Paints {α : Type _} (W H : Nat) (col : Nat → Nat → α) (g : Image α → Option (Image α))
    (S : Nat → Nat → Prop) : Prop :=
  ∀ im : Image α, im.w = W → im.h = H → ∃ out, g im = some out ∧ out.w = W ∧ out.h = H ∧
    ∀ x y, (S x y → out.px x y = col x y) ∧ (¬ S x y → out.px x y = im.px x y)

theorem Paints.forRange {α : Type _} {W H : Nat} {col : Nat → Nat → α} {n : Nat}
    {g : Nat → Image α → Option (Image α)} {S : Nat → Nat → Nat → Prop}
    (h : ∀ i, i < n → Paints W H col (g i) (S i)) :
    Paints W H col (fun im => Verif.forRange 0 n im g) (fun x y => ∃ i, i < n ∧ S i x y) := by
  intro im hw hh
  obtain ⟨out, e, h1, h2, h3⟩ := forRange_spec (f := g) (s := im)
    (fun k (o : Image α) => o.w = W ∧ o.h = H ∧ ∀ x y,
      ((∃ i, i < k ∧ S i x y) → o.px x y = col x y) ∧
      ((¬ ∃ i, i < k ∧ S i x y) → o.px x y = im.px x y))
    (Nat.zero_le n)
    ⟨hw, hh, fun x y => ⟨fun ⟨i, hi, _⟩ => by omega, fun _ => rfl⟩⟩
    (fun i o _ hi ⟨a, b, c⟩ => by
      obtain ⟨o', e, h1, h2, h3⟩ := h i hi o a b
      refine ⟨o', e, h1, h2, fun x y => ⟨?_, ?_⟩⟩
      · rintro ⟨k, hk, hS⟩
        by_cases hi' : S i x y
        · exact (h3 x y).1 hi'
        · rw [(h3 x y).2 hi']
          refine (c x y).1 ⟨k, ?_, hS⟩
          rcases Nat.lt_or_ge k i with h | h
          · exact h
          · exact absurd ((show k = i by omega) ▸ hS) hi'
      · intro hn
        rw [(h3 x y).2 (fun hS => hn ⟨i, by omega, hS⟩)]
        exact (c x y).2 (fun ⟨k, hk, hS⟩ => hn ⟨k, by omega, hS⟩))
  exact ⟨out, e, h1, h2, h3⟩

/-- C63: drawing paints exactly the pixels of the feature's blocks: white in the blocks that count
positively in the evaluation, black in those that count negatively. -/
theorem C63_draw {α : Type _} (white black : α) (im : Image α) (f : Feature)
    (hf : f.Fits im.w im.h) :
    ∃ out, draw white black im f = some out ∧ out.w = im.w ∧ out.h = im.h ∧
      (∀ i j dx dy, i < f.kind.shape.1 → j < f.kind.shape.2 → dx < f.bw → dy < f.bh →
        out.px (f.left + i * f.bw + dx) (f.top + j * f.bh + dy) =
          if blockSign f i j = 1 then white else black) ∧
      (∀ x y, ¬ (f.left ≤ x ∧ x < f.left + f.kind.shape.1 * f.bw ∧ f.top ≤ y ∧
        y < f.top + f.kind.shape.2 * f.bh) → out.px x y = im.px x y) := by
  have r1 := hf.right
  have r2 := hf.bottom
  have r3 := hf.right8
  have r4 := hf.bottom8
  let col : Nat → Nat → α := fun x y =>
    if blockSign f ((x - f.left) / f.bw) ((y - f.top) / f.bh) = 1 then white else black
  have hcol : ∀ i j dx dy, dx < f.bw → dy < f.bh →
      col (f.left + i * f.bw + dx) (f.top + j * f.bh + dy) =
        if blockSign f i j = 1 then white else black := by
    intro i j dx dy hx hy
    have e1 : (f.left + i * f.bw + dx - f.left) / f.bw = i := by
      rw [show f.left + i * f.bw + dx - f.left = dx + i * f.bw by omega,
        Nat.add_mul_div_right _ _ (by omega), Nat.div_eq_of_lt hx, Nat.zero_add]
    have e2 : (f.top + j * f.bh + dy - f.top) / f.bh = j := by
      rw [show f.top + j * f.bh + dy - f.top = dy + j * f.bh by omega,
        Nat.add_mul_div_right _ _ (by omega), Nat.div_eq_of_lt hy, Nat.zero_add]
    dsimp only [col]
    rw [e1, e2]
  have hlt : ∀ {i n b d : Nat}, i < n → d < b → i * b + d < n * b := by
    intro i n b d hi hd
    calc i * b + d < i * b + b := by omega
      _ = (i + 1) * b := by ring
      _ ≤ n * b := Nat.mul_le_mul_right _ hi
  have hp : Paints im.w im.h col (fun im => draw white black im f) (fun x y =>
      ∃ i, i < f.kind.shape.1 ∧ ∃ j, j < f.kind.shape.2 ∧ ∃ dx, dx < f.bw ∧ ∃ dy, dy < f.bh ∧
        x = f.left + i * f.bw + dx ∧ y = f.top + j * f.bh + dy) := by
    unfold draw
    dsimp only
    refine Paints.forRange (S := fun i x y => ∃ j, j < f.kind.shape.2 ∧ ∃ dx, dx < f.bw ∧
        ∃ dy, dy < f.bh ∧ x = f.left + i * f.bw + dx ∧ y = f.top + j * f.bh + dy) fun i hi =>
      Paints.forRange (S := fun j x y => ∃ dx, dx < f.bw ∧
        ∃ dy, dy < f.bh ∧ x = f.left + i * f.bw + dx ∧ y = f.top + j * f.bh + dy) fun j hj =>
      Paints.forRange (S := fun dx x y =>
        ∃ dy, dy < f.bh ∧ x = f.left + i * f.bw + dx ∧ y = f.top + j * f.bh + dy) fun dx hx =>
      Paints.forRange (S := fun dy x y =>
        x = f.left + i * f.bw + dx ∧ y = f.top + j * f.bh + dy) fun dy hy => ?_
    intro o ow oh
    have b1 := hlt hi hx
    have b2 := hlt hj hy
    dsimp only
    rw [ck8_of (by omega), Option.bind_some, ck8_of (by omega), Option.bind_some, ck8_of (by omega),
      Option.bind_some, ck8_of (by omega), Option.bind_some, ck8_of (by omega), Option.bind_some,
      ck8_of (by omega), Option.bind_some, Image.put_of_inB _ (by omega) (by omega)]
    refine ⟨_, rfl, ow, oh, fun x y => ⟨?_, ?_⟩⟩
    · rintro ⟨rfl, rfl⟩
      rw [hcol i j dx dy hx hy]
      dsimp only
      rw [if_pos ⟨rfl, rfl⟩]
      refine if_congr ?_ rfl rfl
      unfold blockSign
      cases f.positive
      · simp only [Bool.false_eq_true, if_false]
        split <;> omega
      · simp only [if_true]
        split <;> omega
    · intro hn
      dsimp only
      rw [if_neg hn]
  obtain ⟨out, e, h1, h2, h3⟩ := hp im rfl rfl
  refine ⟨out, e, h1, h2, ?_, ?_⟩
  · intro i j dx dy hi hj hx hy
    rw [(h3 _ _).1 ⟨i, hi, j, hj, dx, hx, dy, hy, rfl, rfl⟩, hcol i j dx dy hx hy]
  · intro x y hn
    apply (h3 x y).2
    rintro ⟨i, hi, j, hj, dx, hx, dy, hy, rfl, rfl⟩
    have b1 := hlt hi hx
    have b2 := hlt hj hy
    exact hn ⟨by omega, by omega, by omega, by omega⟩

/-- A four-region feature on a 3 × 3 image. -/
example : ((integralImage (Image.ofRows 0 [[1, 2, 3], [4, 5, 6], [7, 8, 10]]) (fun v : Nat => v)).bind
    (Feature.evaluate ⟨true, .four, 1, 1, 1, 1⟩)) = some (5 - 6 - 8 + 10) := by decide +kernel
example : ((integralImage (Image.ofRows 0 [[1, 2, 3], [4, 5, 6], [7, 8, 10]]) (fun v : Nat => v)).bind
    (Feature.evaluate ⟨false, .threeV, 2, 1, 0, 0⟩)) = some (-3 + 9 - 15) := by decide +kernel
example : ((draw 255 0 (Image.ofRows 9 [[1, 2, 3], [4, 5, 6]]) ⟨true, .twoH, 1, 2, 1, 0⟩).map
    Image.rows) = some [[1, 255, 0], [4, 255, 0]] := by decide +kernel

end Verif.Haar
