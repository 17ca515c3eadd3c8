import Verif.Filter.Props
import Mathlib.Algebra.Order.BigOperators.Ring.Finset
import Mathlib.Algebra.BigOperators.Field
import Mathlib.Algebra.Order.Field.Basic
import Mathlib.Algebra.Order.Field.Rat
/-
Model of src/filter/bilateral.rs and property theorem C41.

Arithmetic is over an exact ordered field `K`; `into` is `f32::from(subpixel)`, `cast` is
`f32 as subpixel`.  The spatial weight `gaussian_weight(wx² + wy², sigma²)` is an arbitrary
function `spatial wx wy` and the colour distance an arbitrary function of two pixels.  The index
into the spatial table is computed in `i16`; leaving `i16` is `none` (it panics in a debug build;
in a release build the first wrapped index, -32768, becomes a huge `usize` and the table lookup
panics).
-/
namespace Verif.Filter.Bilateral
open Finset

variable {ι σ K : Type _}

/-- `-radius..=radius` cartesian product with itself: `(w_y, w_x)`, `w_y` outer. -/
def offsets (r : Nat) : List (Int × Int) :=
  (List.range (2 * r + 1)).flatMap fun (j : Nat) => (List.range (2 * r + 1)).map fun (i : Nat) =>
    ((j : Int) - r, (i : Int) - r)

/-- The spatial table, bilateral.rs:112-122. -/
def spatialTable (spatial : Int → Int → K) (r : Nat) : List K :=
  (offsets r).map fun p => spatial p.2 p.1

/-- `spatial_distance_lookup[(window_len * (w_y + radius) + (w_x + radius)) as usize]` with the
index in `i16`, bilateral.rs:148-149. -/
def lookup (tbl : List K) (r : Nat) (wy wx : Int) : Option K :=
  let idx := (2 * (r : Int) + 1) * (wy + r) + (wx + r)
  if 0 ≤ idx ∧ idx ≤ 32767 then tbl[idx.toNat]? else none

/-- `weights_and_values` for one pixel, bilateral.rs:124-155. -/
def weightsAndValues [Mul K] (spatial : Int → Int → K) (color : (ι → σ) → (ι → σ) → K)
    (im : Image (ι → σ)) (r x y : Nat) : Option (List (K × (ι → σ))) :=
  (im.get x y).bind fun center =>
  (offsets r).mapM fun p =>
    let wy := (max 0 (min (p.1 + (y : Int)) ((im.h : Int) - 1))).toNat
    let wx := (max 0 (min (p.2 + (x : Int)) ((im.w : Int) - 1))).toNat
    (im.get wx wy).bind fun window =>
    (lookup (spatialTable spatial r) r p.1 p.2).bind fun s =>
    some (s * color center window, window)

/-- `Iterator::reduce`. -/
def reduce {β : Type _} (f : β → β → β) : List β → Option β
  | [] => none
  | a :: l => some (l.foldl f a)

/-- `weighted_average`, bilateral.rs:164-196. -/
def weightedAverage [Add K] [Mul K] [Div K] (into : σ → K) (cast : K → σ)
    (l : List (K × (ι → σ))) : Option (ι → σ) :=
  (reduce (fun (a b : K × (ι → K)) => (a.1 + b.1, fun c => a.2 c + b.2 c))
    (l.map fun p => (p.1, fun c => p.1 * into (p.2 c)))).map fun s =>
  fun c => cast (s.2 c / s.1)

/-- `bilateral_filter`, bilateral.rs:93-162.  The first two asserts apply `!` (bitwise not) to a
`u32`. -/
def bilateralFilter [Add K] [Mul K] [Div K] [Inhabited σ] (into : σ → K) (cast : K → σ)
    (spatial : Int → Int → K) (color : (ι → σ) → (ι → σ) → K) (im : Image (ι → σ)) (r : Nat) :
    Option (Image (ι → σ)) :=
  if 4294967295 - im.w > 2147483647 ∧ 4294967295 - im.h > 2147483647 ∧ im.w ≠ 0 ∧ im.h ≠ 0 then
    Image.fromFn im.w im.h fun x y =>
      (weightsAndValues spatial color im r x y).bind fun l => weightedAverage into cast l
  else none

/-! ### Specification -/

/-- The pixel at offset `(i - r, j - r)` of `(x, y)`, clamped into the image. -/
def win (im : Image (ι → σ)) (r x y i j : Nat) : ι → σ :=
  im.px (clampTo im.w ((x : Int) + i - r)) (clampTo im.h ((y : Int) + j - r))

/-- Weight of offset `(i - r, j - r)`. -/
def wt [Mul K] (spatial : Int → Int → K) (color : (ι → σ) → (ι → σ) → K) (im : Image (ι → σ))
    (r x y i j : Nat) : K :=
  spatial ((i : Int) - r) ((j : Int) - r) * color (im.px x y) (win im r x y i j)

theorem offsets_get (r i j : Nat) (hi : i < 2 * r + 1) (hj : j < 2 * r + 1) :
    (offsets r)[(2 * r + 1) * j + i]? = some ((j : Int) - r, (i : Int) - r) := by
  unfold offsets
  generalize 2 * r + 1 = N at *
  have hlen : ∀ (M : Nat) (f : Nat → Nat → Int × Int),
      ((List.range M).flatMap fun j => (List.range N).map (f j)).length = N * M := by
    intro M f
    rw [List.length_flatMap]
    induction M with
    | zero => simp
    | succ M ih => rw [List.range_succ, List.map_append, List.sum_append, ih]; simp [Nat.mul_succ]
  have aux : ∀ (M j : Nat) (f : Nat → Nat → Int × Int), j < M →
      ((List.range M).flatMap fun j => (List.range N).map (f j))[N * j + i]? = some (f j i) := by
    intro M
    induction M with
    | zero => intro j f h; omega
    | succ M ih =>
      intro j f hj
      have hlen := hlen M f
      rw [List.range_succ, List.flatMap_append]
      by_cases h : j < M
      · have hlt : N * j + i < N * M := by
          calc N * j + i < N * j + N := by omega
            _ = N * (j + 1) := by rw [Nat.mul_succ]
            _ ≤ N * M := Nat.mul_le_mul_left _ h
        rw [List.getElem?_append_left (by omega)]
        exact ih j f h
      · have : j = M := by omega
        subst this
        rw [List.getElem?_append_right (by omega), hlen, Nat.add_sub_cancel_left]
        simp [hi]
  exact aux N j (fun j i => ((j : Int) - r, (i : Int) - r)) hj

theorem lookup_spec (spatial : Int → Int → K) (r i j : Nat) (hi : i < 2 * r + 1)
    (hj : j < 2 * r + 1) (hr : r ≤ 90) :
    lookup (spatialTable spatial r) r ((j : Int) - r) ((i : Int) - r) =
      some (spatial ((i : Int) - r) ((j : Int) - r)) := by
  unfold lookup spatialTable
  have e : (2 * (r : Int) + 1) * (((j : Int) - r) + r) + (((i : Int) - r) + r) =
      (((2 * r + 1) * j + i : Nat) : Int) := by
    push_cast
    rw [Int.sub_add_cancel, Int.sub_add_cancel]
  have hle : (2 * r + 1) * j + i ≤ 32767 := by
    have h1 : (2 * r + 1) * j ≤ 181 * 180 := Nat.mul_le_mul (by omega) (by omega)
    omega
  dsimp only
  rw [e, if_pos ⟨by omega, by omega⟩, Int.toNat_natCast, List.getElem?_map,
    offsets_get r i j hi hj]
  rfl

/-- `mapM` over a list with a total function. -/
theorem mapM_eq_map {α β : Type _} (l : List α) (f : α → Option β) (g : α → β)
    (h : ∀ a ∈ l, f a = some (g a)) : l.mapM f = some (l.map g) := by
  induction l with
  | nil => rfl
  | cons a l ih =>
    rw [List.mapM_cons, h a (by simp), ih (fun b hb => h b (by simp [hb]))]
    rfl

theorem weightsAndValues_spec [Mul K] (spatial : Int → Int → K) (color : (ι → σ) → (ι → σ) → K)
    (im : Image (ι → σ)) (r x y : Nat) (hx : x < im.w) (hy : y < im.h) (hr : r ≤ 90) :
    weightsAndValues spatial color im r x y =
      some ((List.range (2 * r + 1)).flatMap fun j => (List.range (2 * r + 1)).map fun i =>
        (wt spatial color im r x y i j, win im r x y i j)) := by
  unfold weightsAndValues
  rw [Image.get_of_inB hx hy, Option.bind_some]
  rw [mapM_eq_map (offsets r) _ (fun p =>
    (spatial p.2 p.1 * color (im.px x y) (im.px (clampTo im.w (p.2 + x)) (clampTo im.h (p.1 + y))),
      im.px (clampTo im.w (p.2 + x)) (clampTo im.h (p.1 + y))))]
  · congr 1
    unfold offsets
    rw [List.map_flatMap]
    congr 1
    funext j
    rw [List.map_map]
    congr 1
    funext i
    unfold wt win
    simp only [Function.comp]
    rw [show ((i : Int) - r + x) = (x : Int) + i - r by omega,
      show ((j : Int) - r + y) = (y : Int) + j - r by omega]
  · intro p hp
    unfold offsets at hp
    simp only [List.mem_flatMap, List.mem_map, List.mem_range] at hp
    obtain ⟨j, hj, i, hi, rfl⟩ := hp
    dsimp only
    have ex : ∀ (n : Nat) (i : Int), (max 0 (min i ((n : Int) - 1))).toNat = clampTo n i :=
      fun _ _ => rfl
    rw [ex, ex, Image.get_of_inB (clampTo_lt (by omega) _) (clampTo_lt (by omega) _),
      Option.bind_some, lookup_spec spatial r i j hi hj hr, Option.bind_some]

/-- Reduction by componentwise addition is the pair of sums. -/
theorem reduce_sum [AddCommMonoid K] (l : List (K × (ι → K))) (hl : l ≠ []) :
    reduce (fun (a b : K × (ι → K)) => (a.1 + b.1, fun c => a.2 c + b.2 c)) l =
      some ((l.map fun p => p.1).sum, fun c => (l.map fun p => p.2 c).sum) := by
  cases l with
  | nil => exact absurd rfl hl
  | cons a l =>
    clear hl
    show some _ = some _
    congr 1
    induction l generalizing a with
    | nil => simp
    | cons b l ih =>
      rw [List.foldl_cons, ih]
      simp [add_assoc]

theorem sum_flatMap_range [AddCommMonoid K] (N M : Nat) (f : Nat → Nat → K) :
    (((List.range M).flatMap fun j => (List.range N).map fun i => f i j)).sum =
      ∑ j ∈ range M, ∑ i ∈ range N, f i j := by
  have row : ∀ (g : Nat → K), ((List.range N).map g).sum = ∑ i ∈ range N, g i := by
    intro g
    induction N with
    | zero => simp
    | succ N ih => rw [List.range_succ, List.map_append, List.sum_append, ih, sum_range_succ]; simp
  induction M with
  | zero => simp
  | succ M ih =>
    rw [List.range_succ, List.flatMap_append, List.sum_append, ih, sum_range_succ]
    simp [row]

/-- **C41**, formula: for radii up to 90 the output is, in every channel, the conversion of the
weighted mean of the clamped window. -/
theorem C41_formula [Field K] [Inhabited σ] (into : σ → K) (cast : K → σ)
    (spatial : Int → Int → K) (color : (ι → σ) → (ι → σ) → K) (im : Image (ι → σ)) (r : Nat)
    (hw0 : 0 < im.w) (hw : im.w < 2147483648) (hh0 : 0 < im.h) (hh : im.h < 2147483648)
    (hr : r ≤ 90) :
    ∃ out, bilateralFilter into cast spatial color im r = some out ∧ out.w = im.w ∧
      out.h = im.h ∧ ∀ x y, x < im.w → y < im.h → ∀ c, out.px x y c =
        cast ((∑ j ∈ range (2 * r + 1), ∑ i ∈ range (2 * r + 1),
            wt spatial color im r x y i j * into (win im r x y i j c)) /
          ∑ j ∈ range (2 * r + 1), ∑ i ∈ range (2 * r + 1), wt spatial color im r x y i j) := by
  unfold bilateralFilter
  rw [if_pos (by omega)]
  obtain ⟨out, e, h1, h2, h3⟩ := Image.fromFn_of_some (w := im.w) (h := im.h)
    (f := fun x y => (weightsAndValues spatial color im r x y).bind fun l =>
      weightedAverage into cast l)
    (g := fun x y c => cast ((∑ j ∈ range (2 * r + 1), ∑ i ∈ range (2 * r + 1),
            wt spatial color im r x y i j * into (win im r x y i j c)) /
          ∑ j ∈ range (2 * r + 1), ∑ i ∈ range (2 * r + 1), wt spatial color im r x y i j))
    (by
      intro x y hx hy
      rw [weightsAndValues_spec spatial color im r x y hx hy hr, Option.bind_some]
      unfold weightedAverage
      rw [reduce_sum]
      · rw [Option.map_some]
        congr 1
        funext c
        simp only [List.map_map, List.map_flatMap, Function.comp_def]
        rw [sum_flatMap_range, sum_flatMap_range]
      · intro hnil
        have := congrArg List.length hnil
        simp [List.length_flatMap] at this)
  exact ⟨out, e, h1, h2, fun x y hx hy c => by rw [h3 x y hx hy]⟩

/-- **C41**, range (partial: radii up to 90; `C41_large_radius` shows that larger ones panic).
For positive weights every output value lies between any bounds of the values of the clamped
window.  `hlo`, `hhi`: the conversion does not cross representable values (true for truncation of
values in range). -/
theorem C41_range_partial [Field K] [LinearOrder K] [IsStrictOrderedRing K] [Inhabited σ]
    (into : σ → K) (cast : K → σ) (hlo : ∀ a v, into a ≤ v → into a ≤ into (cast v))
    (hhi : ∀ b v, v ≤ into b → into (cast v) ≤ into b)
    (spatial : Int → Int → K) (color : (ι → σ) → (ι → σ) → K)
    (hs : ∀ i j, 0 < spatial i j) (hc : ∀ p q, 0 < color p q) (im : Image (ι → σ)) (r : Nat)
    (hw0 : 0 < im.w) (hw : im.w < 2147483648) (hh0 : 0 < im.h) (hh : im.h < 2147483648)
    (hr : r ≤ 90) :
    ∃ out, bilateralFilter into cast spatial color im r = some out ∧ out.w = im.w ∧
      out.h = im.h ∧ ∀ x y, x < im.w → y < im.h → ∀ c a b,
        (∀ i j, i < 2 * r + 1 → j < 2 * r + 1 →
          into a ≤ into (win im r x y i j c) ∧ into (win im r x y i j c) ≤ into b) →
        into a ≤ into (out.px x y c) ∧ into (out.px x y c) ≤ into b := by
  obtain ⟨out, e, h1, h2, h3⟩ := C41_formula into cast spatial color im r hw0 hw hh0 hh hr
  refine ⟨out, e, h1, h2, fun x y hx hy c a b hab => ?_⟩
  rw [h3 x y hx hy c]
  have hpos : ∀ i j, 0 < wt spatial color im r x y i j := fun i j => mul_pos (hs _ _) (hc _ _)
  have hsum : 0 < ∑ j ∈ range (2 * r + 1), ∑ i ∈ range (2 * r + 1),
      wt spatial color im r x y i j :=
    sum_pos (fun j _ => sum_pos (fun i _ => hpos i j) ⟨0, by simp⟩) ⟨0, by simp⟩
  refine ⟨hlo _ _ ?_, hhi _ _ ?_⟩
  · rw [le_div_iff₀ hsum, mul_sum]
    refine sum_le_sum fun j hj => ?_
    rw [mul_sum]
    refine sum_le_sum fun i hi => ?_
    rw [mul_comm]
    exact mul_le_mul_of_nonneg_left (hab i j (mem_range.1 hi) (mem_range.1 hj)).1 (hpos i j).le
  · rw [div_le_iff₀ hsum, mul_sum]
    refine sum_le_sum fun j hj => ?_
    rw [mul_sum]
    refine sum_le_sum fun i hi => ?_
    rw [mul_comm (into b)]
    exact mul_le_mul_of_nonneg_left (hab i j (mem_range.1 hi) (mem_range.1 hj)).2 (hpos i j).le

/-- **C41**, uniform channels are fixed (partial: radii up to 90). -/
theorem C41_uniform_partial [Field K] [LinearOrder K] [IsStrictOrderedRing K] [Inhabited σ]
    (into : σ → K) (hinj : Function.Injective into) (cast : K → σ)
    (hlo : ∀ a v, into a ≤ v → into a ≤ into (cast v))
    (hhi : ∀ b v, v ≤ into b → into (cast v) ≤ into b)
    (spatial : Int → Int → K) (color : (ι → σ) → (ι → σ) → K)
    (hs : ∀ i j, 0 < spatial i j) (hc : ∀ p q, 0 < color p q) (im : Image (ι → σ)) (r : Nat)
    (hw0 : 0 < im.w) (hw : im.w < 2147483648) (hh0 : 0 < im.h) (hh : im.h < 2147483648)
    (hr : r ≤ 90) (c : ι) (v : σ) (hv : ∀ x y, x < im.w → y < im.h → im.px x y c = v) :
    ∃ out, bilateralFilter into cast spatial color im r = some out ∧
      ∀ x y, x < im.w → y < im.h → out.px x y c = v := by
  obtain ⟨out, e, _, _, h⟩ := C41_range_partial into cast hlo hhi spatial color hs hc im r hw0 hw
    hh0 hh hr
  refine ⟨out, e, fun x y hx hy => hinj ?_⟩
  have := h x y hx hy c v v (fun i j _ _ => by
    unfold win
    rw [hv _ _ (clampTo_lt hw0 _) (clampTo_lt hh0 _)]
    exact ⟨le_refl _, le_refl _⟩)
  exact le_antisymm this.2 this.1

/-- **C41, the property is false for radii from 91 on**: the index into the spatial table leaves
`i16`, so the call panics for every non-empty image. -/
theorem C41_large_radius [Field K] [Inhabited σ] (into : σ → K) (cast : K → σ)
    (spatial : Int → Int → K) (color : (ι → σ) → (ι → σ) → K) (im : Image (ι → σ)) (r : Nat)
    (hw0 : 0 < im.w) (hh0 : 0 < im.h) (hr : 91 ≤ r) :
    bilateralFilter into cast spatial color im r = none := by
  have mapM_none : ∀ (l : List (Int × Int)) (f : Int × Int → Option (K × (ι → σ))) p,
      p ∈ l → f p = none → l.mapM f = none := by
    intro l f p hp hf
    induction l with
    | nil => cases hp
    | cons a l ih =>
      rw [List.mapM_cons]
      rcases List.mem_cons.1 hp with h | h
      · rw [← h, hf]; rfl
      · cases hfa : f a with
        | none => rfl
        | some v => rw [ih h]; rfl
  have hnone : weightsAndValues spatial color im r 0 0 = none := by
    unfold weightsAndValues
    rw [Image.get_of_inB hw0 hh0, Option.bind_some]
    refine mapM_none _ _ ((r : Int), (r : Int)) ?_ ?_
    · unfold offsets
      simp only [List.mem_flatMap, List.mem_map, List.mem_range]
      exact ⟨2 * r, by omega, 2 * r, by omega, by
        have : ((2 * r : Nat) : Int) - r = r := by omega
        rw [this]⟩
    · have hl : lookup (spatialTable spatial r) r (r : Int) (r : Int) = none := by
        unfold lookup
        dsimp only
        rw [if_neg]
        intro ⟨_, h⟩
        have h1 : ((2 * 91 + 1 : Int)) * (91 + 91) ≤ (2 * (r : Int) + 1) * ((r : Int) + r) :=
          mul_le_mul (by omega) (by omega) (by omega) (by omega)
        omega
      dsimp only
      rw [hl]
      cases im.get _ _ <;> rfl
  unfold bilateralFilter
  split
  · unfold Image.fromFn
    rw [if_neg]
    intro h
    have := h 0 hh0 0 hw0
    dsimp only at this
    rw [hnone] at this
    cases this
  · rfl

/-- **C41.** Empty images and images of 2^31 or more columns or rows are rejected. -/
theorem C41_rejects [Field K] [Inhabited σ] (into : σ → K) (cast : K → σ)
    (spatial : Int → Int → K) (color : (ι → σ) → (ι → σ) → K) (im : Image (ι → σ)) (r : Nat)
    (h : im.w = 0 ∨ im.h = 0 ∨ 2147483648 ≤ im.w ∨ 2147483648 ≤ im.h) :
    bilateralFilter into cast spatial color im r = none := if_neg (by omega)

example : (bilateralFilter (ι := Unit) (fun v : Nat => (v : ℚ)) (fun v => (v.floor).toNat)
    (fun i j => if i = 0 ∧ j = 0 then 2 else 1) (fun _ _ => 1)
    ⟨2, 1, fun x _ _ => 10 * x + 10⟩ 1).map
      (fun o => (Image.mk o.w o.h fun x y => o.px x y ()).rows) = some [[13, 17]] := by
  decide +kernel

end Verif.Filter.Bilateral
