import Verif.ImageHash.Model
import Mathlib.Tactic.Ring
/-
Property theorem C70: transposition, in place and out of place.
-/
namespace Verif.ImageHash

variable {α : Type _}

theorem idx_lt {n m x y : Nat} (hx : x < n) (hy : y < m) : x + n * y < n * m := by
  calc x + n * y < n * y + n := by omega
    _ = n * (y + 1) := by ring
    _ ≤ n * m := Nat.mul_le_mul_left _ hy

theorem idx_mod {n x y : Nat} (hx : x < n) : (x + n * y) % n = x := by
  rw [Nat.add_mul_mod_self_left, Nat.mod_eq_of_lt hx]

theorem idx_div {n x y : Nat} (hx : x < n) : (x + n * y) / n = y := by
  rw [Nat.add_mul_div_left _ _ (by omega), Nat.div_eq_of_lt hx, Nat.zero_add]

theorem idx_inj {n x y x' y' : Nat} (hx : x < n) (hx' : x' < n) :
    x + n * y = x' + n * y' ↔ x = x' ∧ y = y' := by
  constructor
  · intro h
    have h1 := congrArg (· % n) h
    have h2 := congrArg (· / n) h
    simp only [idx_mod hx, idx_mod hx', idx_div hx, idx_div hx'] at h1 h2
    exact ⟨h1, h2⟩
  · rintro ⟨rfl, rfl⟩; rfl

/-- Which off-diagonal pairs have been exchanged before step `(row, col)`. -/
def swapped (row col x y : Nat) : Prop :=
  min x y < row ∨ min x y = row ∧ max x y < col

instance (row col x y : Nat) : Decidable (swapped row col x y) := by unfold swapped; infer_instance

/-- **C70.** The in-place transposition of an `n` by `n` buffer never goes out of range and
exchanges entry `(x, y)` with entry `(y, x)` for all positions. -/
theorem C70_buffer (n : Nat) (buf : List α) (h : buf.length = n * n) :
    ∃ out, transposeBuf n buf = some out ∧ out.length = n * n ∧
      ∀ x y, x < n → y < n → out[x + n * y]? = buf[y + n * x]? := by
  unfold transposeBuf
  rw [if_pos h]
  obtain ⟨out, h1, h2, h3⟩ := forRange_spec (lo := 0) (hi := n) (s := buf)
    (f := fun row (buf : List α) => forRange row n buf fun col buf =>
      (buf[row + n * col]?).bind fun a => (buf[col + n * row]?).bind fun b =>
      some ((buf.set (row + n * col) b).set (col + n * row) a))
    (fun row b => b.length = n * n ∧ ∀ x y, x < n → y < n →
      b[x + n * y]? = if swapped row row x y then buf[y + n * x]? else buf[x + n * y]?)
    (Nat.zero_le _) ⟨h, fun x y _ _ => by rw [if_neg (by unfold swapped; omega)]⟩
    (by
      rintro row b _ hrow ⟨i1, i2⟩
      obtain ⟨b', j1, j2, j3⟩ := forRange_spec (lo := row) (hi := n) (s := b)
        (f := fun col (buf : List α) =>
          (buf[row + n * col]?).bind fun a => (buf[col + n * row]?).bind fun b =>
          some ((buf.set (row + n * col) b).set (col + n * row) a))
        (fun col b => b.length = n * n ∧ ∀ x y, x < n → y < n →
          b[x + n * y]? = if swapped row col x y then buf[y + n * x]? else buf[x + n * y]?)
        (Nat.le_of_lt hrow) ⟨i1, i2⟩
        (by
          rintro col b hc hcol ⟨i1, i2⟩
          have l1 := idx_lt hrow hcol
          have l2 := idx_lt hcol hrow
          have e1 : b[row + n * col]? = buf[row + n * col]? := by
            rw [i2 _ _ hrow hcol, if_neg (by unfold swapped; omega)]
          have e2 : b[col + n * row]? = buf[col + n * row]? := by
            rw [i2 _ _ hcol hrow, if_neg (by unfold swapped; omega)]
          rw [e1, e2, List.getElem?_eq_getElem (by omega), List.getElem?_eq_getElem (by omega),
            Option.bind_some, Option.bind_some]
          refine ⟨_, rfl, by simp [i1], fun x y hx hy => ?_⟩
          rw [List.getElem?_set, List.getElem?_set]
          by_cases c1 : x = col ∧ y = row
          · obtain ⟨rfl, rfl⟩ := c1
            rw [if_pos rfl, if_pos (by rw [List.length_set]; omega),
              if_pos (by unfold swapped; omega), List.getElem?_eq_getElem (by omega)]
          · rw [if_neg (by rw [idx_inj hcol hx]; omega)]
            by_cases c2 : x = row ∧ y = col
            · obtain ⟨rfl, rfl⟩ := c2
              rw [if_pos rfl, if_pos (by omega), if_pos (by unfold swapped; omega),
                List.getElem?_eq_getElem (by omega)]
            · rw [if_neg (by rw [idx_inj hrow hx]; omega), i2 x y hx hy]
              exact if_congr (by unfold swapped; omega) rfl rfl)
      refine ⟨b', j1, j2, fun x y hx hy => ?_⟩
      rw [j3 x y hx hy]
      exact if_congr (by unfold swapped; omega) rfl rfl)
  refine ⟨out, h1, h2, fun x y hx hy => ?_⟩
  rw [h3 x y hx hy, if_pos (by unfold swapped; omega)]

/-- **C70.** Transposing a buffer in place twice restores it. -/
theorem C70_buffer_involution (n : Nat) (buf : List α) (h : buf.length = n * n) :
    (transposeBuf n buf).bind (transposeBuf n) = some buf := by
  obtain ⟨out, h1, h2, h3⟩ := C70_buffer n buf h
  obtain ⟨o, k1, k2, k3⟩ := C70_buffer n out h2
  rw [h1, Option.bind_some, k1]
  congr 1
  apply List.ext_getElem?
  intro i
  by_cases hi : i < n * n
  · have hn : 0 < n := Nat.pos_of_ne_zero (by rintro rfl; simp at hi)
    have hm := Nat.mod_lt i hn
    have hd : i / n < n := Nat.div_lt_of_lt_mul hi
    have e : i = i % n + n * (i / n) := (Nat.mod_add_div i n).symm
    rw [e, k3 _ _ hm hd, h3 _ _ hd hm]
  · rw [List.getElem?_eq_none (by omega), List.getElem?_eq_none (by omega)]

theorem length_toBuf (im : Image α) : (toBuf im).length = im.w * im.h := by simp [toBuf]

theorem getElem?_toBuf (im : Image α) {x y : Nat} (hx : x < im.w) (hy : y < im.h) :
    (toBuf im)[x + im.w * y]? = some (im.px x y) := by
  unfold toBuf
  rw [List.getElem?_map, List.getElem?_range (idx_lt hx hy), Option.map_some, idx_mod hx, idx_div hx]

variable [Inhabited α]

/-- **C70.** In-place transposition of a square image: pixel `(x, y)` of the result is pixel
`(y, x)` of the input. -/
theorem C70_inplace (im : Image α) (h : im.w = im.h) :
    ∃ out, transposeInplace im = some out ∧ out.w = im.h ∧ out.h = im.w ∧
      ∀ x y, x < out.w → y < out.h → out.px x y = im.px y x := by
  obtain ⟨out, h1, h2, h3⟩ := C70_buffer im.w (toBuf im) (by rw [length_toBuf, h])
  unfold transposeInplace
  rw [if_pos h, h1, Option.map_some]
  refine ⟨_, rfl, h, h.symm, fun x y hx hy => ?_⟩
  change x < im.w at hx
  change y < im.h at hy
  change out.getD (x + im.w * y) default = _
  rw [List.getD_eq_getElem?_getD, h3 x y hx (by omega), getElem?_toBuf im (by omega) (by omega)]
  rfl

/-- **C70.** Out-of-place transposition of any image. -/
theorem C70_transpose (im : Image α) :
    ∃ out, transpose im = some out ∧ out.w = im.h ∧ out.h = im.w ∧
      ∀ x y, x < out.w → y < out.h → out.px x y = im.px y x := by
  obtain ⟨out, h1, h2, h3, h4⟩ := Image.fromFn_of_some (w := im.h) (h := im.w)
    (f := fun x y => im.get y x) (g := fun x y => im.px y x)
    fun x y hx hy => Image.get_of_inB hy hx
  exact ⟨out, h1, h2, h3, fun x y hx hy => h4 x y (by omega) (by omega)⟩

/-- **C70.** The dispatching transposition has the same specification, so the square and the
rectangular code agree. -/
theorem C70_any (im : Image α) :
    ∃ out, transposeAny im = some out ∧ out.w = im.h ∧ out.h = im.w ∧
      ∀ x y, x < out.w → y < out.h → out.px x y = im.px y x := by
  unfold transposeAny
  by_cases h : im.w = im.h
  · rw [if_pos h]; exact C70_inplace im h
  · rw [if_neg h]; exact C70_transpose im

/-- **C70.** On square images both transpositions give the same image. -/
theorem C70_agree (im : Image α) (h : im.w = im.h) :
    ∃ a b, transposeInplace im = some a ∧ transpose im = some b ∧ Image.Same a b := by
  obtain ⟨a, h1, h2, h3, h4⟩ := C70_inplace im h
  obtain ⟨b, k1, k2, k3, k4⟩ := C70_transpose im
  exact ⟨a, b, h1, k1, by omega, by omega, fun x y hx hy => by
    rw [h4 x y hx hy, k4 x y (by omega) (by omega)]⟩

/-- **C70.** Transposing twice is the identity. -/
theorem C70_involution (im : Image α) :
    ∃ out, (transposeAny im).bind transposeAny = some out ∧ Image.Same out im := by
  obtain ⟨a, h1, h2, h3, h4⟩ := C70_any im
  obtain ⟨b, k1, k2, k3, k4⟩ := C70_any a
  rw [h1, Option.bind_some]
  exact ⟨b, k1, by omega, by omega, fun x y hx hy => by
    rw [k4 x y hx hy, h4 y x (by omega) (by omega)]⟩

theorem C70_rect_involution (im : Image α) :
    ∃ out, (transpose im).bind transpose = some out ∧ Image.Same out im := by
  obtain ⟨a, h1, h2, h3, h4⟩ := C70_transpose im
  obtain ⟨b, k1, k2, k3, k4⟩ := C70_transpose a
  rw [h1, Option.bind_some]
  exact ⟨b, k1, by omega, by omega, fun x y hx hy => by
    rw [k4 x y hx hy, h4 y x (by omega) (by omega)]⟩

/-- **C70.** The in-place transposition rejects images that are not square. -/
theorem C70_inplace_reject (im : Image α) (h : im.w ≠ im.h) : transposeInplace im = none := by
  unfold transposeInplace; rw [if_neg h]

example : transposeBuf 3 [1, 2, 3, 4, 5, 6, 7, 8, 9] = some [1, 4, 7, 2, 5, 8, 3, 6, 9] := by
  decide +kernel
example : ((transpose (Image.ofRows 0 [[1, 2, 3], [4, 5, 6]])).map Image.rows) =
    some [[1, 4], [2, 5], [3, 6]] := by decide +kernel

end Verif.ImageHash
