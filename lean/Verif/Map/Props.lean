import Verif.Map.Model
import Mathlib.Data.List.Perm.Basic
import Mathlib.Data.List.Nodup
import Mathlib.Tactic.Ring
import Mathlib.Tactic.Linarith
/- Property theorems C73, C74 (pixel mapping). -/
namespace Verif.Map
variable {α β γ : Type _}

/-- The buffer holds exactly `n` sub-pixels per pixel. -/
def Valid (n : Nat) (im : Buf α) : Prop := im.data.length = im.w * im.h * n

theorem slot_length {n : Nat} {d : List α} {k : Nat} (h : (k + 1) * n ≤ d.length) :
    (slot n d k).length = n := by
  unfold slot
  rw [Nat.succ_mul] at h
  simp; omega

theorem slot_index {n : Nat} {d : List α} {k i : Nat} (h : i < n) :
    (slot n d k)[i]? = d[k * n + i]? := by
  unfold slot
  rw [List.getElem?_take_of_lt h, List.getElem?_drop]

theorem slot_flatten {m : Nat} : ∀ (L : List (List α)) (k : Nat), (∀ l ∈ L, l.length = m) →
    (hk : k < L.length) → slot m L.flatten k = L[k]
  | [], k, _, hk => by simp at hk
  | a :: L, 0, h, _ => by
    have : a.length = m := h a (by simp)
    simp [slot, ← this]
  | a :: L, k + 1, h, hk => by
    have ha : a.length = m := h a (by simp)
    have ih := slot_flatten L k (fun l hl => h l (by simp [hl])) (by simpa using hk)
    have : slot m (a :: L).flatten (k + 1) = slot m L.flatten k := by
      unfold slot
      rw [List.flatten_cons, Nat.succ_mul, Nat.add_comm, ← List.drop_drop, ← ha,
        List.drop_left]
    rw [this, ih]
    simp

theorem index_lt {w h x y : Nat} (hx : x < w) (hy : y < h) : y * w + x < w * h := by
  have : (y + 1) * w ≤ h * w := Nat.mul_le_mul_right w hy
  rw [Nat.mul_comm w h]
  linarith [Nat.succ_mul y w]

theorem flatten_length {m : Nat} : ∀ (L : List (List α)), (∀ l ∈ L, l.length = m) →
    L.flatten.length = L.length * m
  | [], _ => by simp
  | a :: L, h => by
    rw [List.flatten_cons, List.length_append, h a (by simp),
      flatten_length L (fun l hl => h l (by simp [hl])), List.length_cons, Nat.succ_mul,
      Nat.add_comm]

/-- Storing a chunk list: succeeds, has the right size and can be read back. -/
theorem fromVec_flatten {m w h : Nat} (L : List (List α)) (hlen : L.length = w * h)
    (hm : ∀ l ∈ L, l.length = m) :
    ∃ out, fromVec m w h L.flatten = some out ∧ Valid m out ∧ out.w = w ∧ out.h = h ∧
      ∀ x y (hx : x < w) (hy : y < h),
        out.pixel m x y = L[y * w + x]'(by rw [hlen]; exact index_lt hx hy) := by
  have hl := flatten_length L hm
  refine ⟨⟨w, h, L.flatten⟩, ?_, ?_, rfl, rfl, ?_⟩
  · unfold fromVec
    rw [if_pos (by rw [hl, hlen])]
  · show L.flatten.length = w * h * m
    rw [hl, hlen]
  · intro x y hx hy
    exact slot_flatten L _ hm (by rw [hlen]; exact index_lt hx hy)

/-- C73: `map_pixels` returns an image of equal size whose pixel at each location is the function
applied to the input pixel there. -/
theorem C73_map_pixels (n m : Nat) (im : Buf α) (f : List α → List β) (hf : ∀ p, (f p).length = m) :
    ∃ out, mapPixels n m im f = some out ∧ Valid m out ∧ out.w = im.w ∧ out.h = im.h ∧
      ∀ x y, x < im.w → y < im.h → out.pixel m x y = f (im.pixel n x y) := by
  unfold mapPixels
  rw [List.flatMap_def]
  obtain ⟨out, h1, h2, h3, h4, h5⟩ := fromVec_flatten (w := im.w) (h := im.h) (m := m)
    ((im.pixels n).map f) (by simp [Buf.pixels])
    (by intro l hl; simp only [List.mem_map] at hl; obtain ⟨p, -, rfl⟩ := hl; exact hf p)
  refine ⟨out, h1, h2, h3, h4, ?_⟩
  intro x y hx hy
  rw [h5 x y hx hy]
  simp [Buf.pixels, Buf.pixel]

theorem mod_index {w x y : Nat} (hx : x < w) : (y * w + x) % w = x ∧ (y * w + x) / w = y := by
  constructor
  · rw [Nat.mul_comm, Nat.mul_add_mod, Nat.mod_eq_of_lt hx]
  · rw [Nat.mul_comm, Nat.mul_add_div (by omega), Nat.div_eq_of_lt hx, Nat.add_zero]

/-- C73: `map_enumerated_pixels` also passes the location. -/
theorem C73_map_enumerated_pixels (n m : Nat) (im : Buf α) (f : Nat → Nat → List α → List β)
    (hf : ∀ x y p, (f x y p).length = m) :
    ∃ out, mapEnumeratedPixels n m im f = some out ∧ Valid m out ∧ out.w = im.w ∧ out.h = im.h ∧
      ∀ x y, x < im.w → y < im.h → out.pixel m x y = f x y (im.pixel n x y) := by
  unfold mapEnumeratedPixels
  rw [List.flatMap_def]
  obtain ⟨out, h1, h2, h3, h4, h5⟩ := fromVec_flatten (w := im.w) (h := im.h) (m := m)
    ((im.enumeratePixels n).map fun p => f p.1 p.2.1 p.2.2) (by simp [Buf.enumeratePixels])
    (by intro l hl; simp only [List.mem_map] at hl; obtain ⟨p, -, rfl⟩ := hl; exact hf _ _ _)
  refine ⟨out, h1, h2, h3, h4, ?_⟩
  intro x y hx hy
  rw [h5 x y hx hy]
  simp [Buf.enumeratePixels, Buf.pixel, mod_index hx]

/-- C73: `map_subpixels` applies the function to every channel of every pixel. -/
theorem C73_map_subpixels (n : Nat) (im : Buf α) (hv : Valid n im) (f : α → β) :
    ∃ out, mapSubpixels n im f = some out ∧ Valid n out ∧ out.w = im.w ∧ out.h = im.h ∧
      ∀ x y, out.pixel n x y = (im.pixel n x y).map f := by
  refine ⟨⟨im.w, im.h, im.data.map f⟩, ?_, ?_, rfl, rfl, ?_⟩
  · unfold mapSubpixels fromVec
    rw [if_pos (by rw [List.length_map, hv])]
  · simpa [Valid] using hv
  · intro x y
    simp [Buf.pixel, slot, List.map_take, List.map_drop]

theorem writeSlot_length {n : Nat} {d v : List α} {k : Nat} (hk : (k + 1) * n ≤ d.length)
    (hv : v.length = n) : (writeSlot n d k v).length = d.length := by
  unfold writeSlot
  rw [Nat.succ_mul] at *
  simp; omega

theorem slot_writeSlot {n : Nat} {d v : List α} {k j : Nat} (hk : (k + 1) * n ≤ d.length)
    (hv : v.length = n) : slot n (writeSlot n d k v) j = if j = k then v else slot n d j := by
  have hkn : k * n ≤ d.length := by rw [Nat.succ_mul] at hk; omega
  have htake : (d.take (k * n)).length = k * n := by simp; omega
  by_cases hjk : j = k
  · subst hjk
    rw [if_pos rfl]
    unfold slot writeSlot
    rw [List.append_assoc, List.drop_append_of_le_length (by omega)]
    rw [List.drop_of_length_le (by omega)]
    simp [← hv]
  · rw [if_neg hjk]
    apply List.ext_getElem?
    intro i
    by_cases hi : i < n
    · rw [slot_index hi, slot_index hi]
      unfold writeSlot
      rcases Nat.lt_or_gt_of_ne hjk with h | h
      · have : (j + 1) * n ≤ k * n := Nat.mul_le_mul_right n h
        rw [Nat.succ_mul] at this
        rw [List.append_assoc, List.getElem?_append_left (by omega),
          List.getElem?_take_of_lt (by omega)]
      · have : (k + 1) * n ≤ j * n := Nat.mul_le_mul_right n h
        have e : (k + 1) * n = k * n + n := Nat.succ_mul k n
        rw [List.getElem?_append_right (by simp; omega), List.getElem?_drop]
        congr 1
        simp
        omega
    · rw [List.getElem?_eq_none (by unfold slot; simp; omega),
        List.getElem?_eq_none (by unfold slot; simp; omega)]

/-- C73: the in-place versions, sequential or parallel: under every order in which the pixels are
processed (each once) the result is the function applied at every location. -/
theorem C73_map_pixels_mut_schedule (n : Nat) (im : Buf α) (hv : Valid n im)
    (f : Nat → Nat → List α → List α) (hf : ∀ x y p, p.length = n → (f x y p).length = n)
    (sched : List Nat) (hs : sched.Perm (List.range (im.w * im.h))) :
    (mapPixelsMut n im sched f).w = im.w ∧ (mapPixelsMut n im sched f).h = im.h ∧
    Valid n (mapPixelsMut n im sched f) ∧
    ∀ x y, x < im.w → y < im.h →
      (mapPixelsMut n im sched f).pixel n x y = f x y (im.pixel n x y) := by
  have hnd : sched.Nodup := hs.nodup_iff.2 List.nodup_range
  have hmem : ∀ k, k ∈ sched ↔ k < im.w * im.h := fun k => by rw [hs.mem_iff, List.mem_range]
  -- invariant over the processed prefix
  have key : ∀ (L : List Nat) (d : List α), L.Nodup → (∀ k ∈ L, k < im.w * im.h) →
      d.length = im.w * im.h * n →
      let r := L.foldl (fun d k => writeSlot n d k (f (k % im.w) (k / im.w) (slot n d k))) d
      r.length = im.w * im.h * n ∧ ∀ j, slot n r j =
        if j ∈ L then f (j % im.w) (j / im.w) (slot n d j) else slot n d j := by
    intro L
    induction L with
    | nil => intro d _ _ hd; simp [hd]
    | cons k L ih =>
      intro d hL hk hd
      dsimp only
      rw [List.foldl_cons]
      have hk' : (k + 1) * n ≤ d.length := by
        rw [hd]; exact Nat.mul_le_mul_right n (hk k (by simp))
      have hfl : (f (k % im.w) (k / im.w) (slot n d k)).length = n := hf _ _ _ (slot_length hk')
      rw [List.nodup_cons] at hL
      obtain ⟨h1, h2⟩ := ih _ hL.2 (fun j hj => hk j (by simp [hj]))
        ((writeSlot_length hk' hfl).trans hd)
      refine ⟨h1, ?_⟩
      intro j
      rw [h2 j, slot_writeSlot hk' hfl]
      by_cases hjk : j = k
      · subst hjk
        simp [hL.1]
      · simp [hjk]
  obtain ⟨h1, h2⟩ := key sched im.data hnd (fun k hk => (hmem k).1 hk) hv
  refine ⟨rfl, rfl, h1, ?_⟩
  intro x y hx hy
  show slot n _ (y * im.w + x) = _
  unfold mapPixelsMut
  dsimp only
  rw [h2, if_pos ((hmem _).2 (index_lt hx hy)), (mod_index hx).1, (mod_index hx).2]
  rfl

/-- C73: the parallel collecting versions: under every order in which the items are processed the
collected list is the sequential one. -/
theorem C73_collect_schedule (items : List α) (f : α → β) (sched : List Nat)
    (hs : sched.Perm (List.range items.length)) :
    collectParallel items sched f = (items.map f).map some := by
  have hmem : ∀ k, k ∈ sched ↔ k < items.length := fun k => by rw [hs.mem_iff, List.mem_range]
  have key : ∀ (L : List Nat) (acc : List (Option β)), acc.length = items.length →
      let r := L.foldl (fun acc k => acc.set k (items[k]?.map f)) acc
      r.length = items.length ∧ ∀ j, j < items.length →
        r[j]? = if j ∈ L then some (items[j]?.map f) else acc[j]? := by
    intro L
    induction L with
    | nil => intro acc h; simp [h]
    | cons k L ih =>
      intro acc h
      dsimp only
      rw [List.foldl_cons]
      obtain ⟨h1, h2⟩ := ih (acc.set k (items[k]?.map f)) (by simpa using h)
      refine ⟨h1, ?_⟩
      intro j hj
      rw [h2 j hj]
      by_cases hjL : j ∈ L
      · simp [hjL]
      · by_cases hjk : j = k
        · subst hjk
          simp [hjL, h, hj]
        · simp only [hjL, if_false, List.mem_cons, hjk, or_self]
          rw [List.getElem?_set_ne (by omega)]
  obtain ⟨h1, h2⟩ := key sched (items.map fun _ => none) (by simp)
  apply List.ext_getElem?
  intro j
  by_cases hj : j < items.length
  · have := h2 j hj
    rw [if_pos ((hmem j).2 hj)] at this
    unfold collectParallel
    rw [this]
    simp [hj]
  · unfold collectParallel
    rw [List.getElem?_eq_none (by rw [h1]; omega), List.getElem?_eq_none (by simp; omega)]

/-- C73: extracting the channel just inserted returns the image; other channels are black. -/
theorem C73_channel_round_trip (i j : Nat) (hi : i < 3) (hj : j < 3) (im : Buf Nat)
    (hv : Valid 1 im) :
    ∃ rgb out, fromChannel i im = some rgb ∧ intoChannel j rgb = some out ∧
      out.w = im.w ∧ out.h = im.h ∧
      ∀ x y, x < im.w → y < im.h →
        out.pixel 1 x y = if i = j then im.pixel 1 x y else [0] := by
  obtain ⟨rgb, h1, h2, h3, h4, h5⟩ := C73_map_pixels 1 3 im
    (fun p => (List.range 3).map fun j => if j = i then p.getD 0 0 else 0) (by simp)
  obtain ⟨out, k1, k2, k3, k4, k5⟩ := C73_map_pixels 3 1 rgb (fun p => [p.getD j 0]) (by simp)
  refine ⟨rgb, out, h1, k1, by omega, by omega, ?_⟩
  intro x y hx hy
  rw [k5 x y (by omega) (by omega), h5 x y hx hy]
  have hlen : (im.pixel 1 x y).length = 1 := by
    apply slot_length
    rw [hv]
    exact Nat.mul_le_mul_right 1 (index_lt hx hy)
  obtain ⟨a, ha⟩ := List.length_eq_one_iff.1 hlen
  rw [ha]
  by_cases hij : i = j
  · subst hij; simp [List.getD_eq_getElem?_getD, hi]
  · simp [List.getD_eq_getElem?_getD, hj, hij, Ne.symm hij]

/-- C74: exact condition for `map_pixels2` to panic. -/
theorem C74_panics_iff (n1 n2 m : Nat) (hm : 0 < m) (im1 : Buf α) (im2 : Buf β)
    (f : List α → List β → List γ) (hf : ∀ p q, (f p q).length = m) :
    mapPixels2 n1 n2 m im1 im2 f = none ↔
      ¬ (im1.w = 0 ∨ im2.h = 0 ∨ (im2.h ≤ im1.h ∧ im1.w ≤ im2.w)) := by
  unfold mapPixels2 fromVec
  rw [List.flatMap_def, flatten_length (m := m) _ (by
    intro l hl; simp only [List.mem_map] at hl; obtain ⟨p, -, rfl⟩ := hl; exact hf _ _)]
  have hlen : (((im1.pixels n1).zip (im2.pixels n2)).map fun p => f p.1 p.2).length =
      min (im1.w * im1.h) (im2.w * im2.h) := by
    simp [Buf.pixels]
  rw [hlen]
  have h1 : im1.w * im2.h * m ≤ min (im1.w * im1.h) (im2.w * im2.h) * m ↔
      im1.w * im2.h ≤ min (im1.w * im1.h) (im2.w * im2.h) := Nat.mul_le_mul_right_iff hm
  rw [le_min_iff] at h1
  have h2 : (im1.w * im2.h ≤ im1.w * im1.h ∧ im1.w * im2.h ≤ im2.w * im2.h) ↔
      (im1.w = 0 ∨ im2.h = 0 ∨ (im2.h ≤ im1.h ∧ im1.w ≤ im2.w)) := by
    rcases Nat.eq_zero_or_pos im1.w with h0 | h0
    · simp [h0]
    rcases Nat.eq_zero_or_pos im2.h with h3 | h3
    · simp [h3]
    rw [Nat.mul_le_mul_left_iff h0, Nat.mul_le_mul_right_iff h3]
    omega
  rw [← h2, ← h1]
  split <;> simp_all

/-- C74 is false of the code: images of sizes 1x2 and 2x1 are combined without a panic into a
1x1 image. -/
theorem C74_negation :
    ∃ out, mapPixels2 1 1 1 (⟨1, 2, [10, 20]⟩ : Buf Nat) (⟨2, 1, [3, 4]⟩ : Buf Nat)
      (fun p q => [p.getD 0 0 + q.getD 0 0]) = some out ∧ out.w = 1 ∧ out.h = 1 := by
  refine ⟨_, rfl, rfl, rfl⟩

/-- C74 is false of the code, misaligned pixels: a 1x2 image combined with a 2x2 image pairs the
second row of the first with the second column of the first row of the other. -/
theorem C74_negation_misaligned :
    (mapPixels2 1 1 1 (⟨1, 2, [10, 20]⟩ : Buf Nat) (⟨2, 2, [1, 2, 3, 4]⟩ : Buf Nat)
      (fun p q => [p.getD 0 0 + q.getD 0 0])).map (·.data) = some [11, 22] := by decide

/-- C74 (partial: only the equal-dimension half of the claim): images of equal dimensions are
combined pixel by pixel. -/
theorem C74_map_pixels2_partial (n1 n2 m : Nat) (im1 : Buf α) (im2 : Buf β)
    (hw : im1.w = im2.w) (hh : im1.h = im2.h)
    (f : List α → List β → List γ) (hf : ∀ p q, (f p q).length = m) :
    ∃ out, mapPixels2 n1 n2 m im1 im2 f = some out ∧ Valid m out ∧ out.w = im1.w ∧
      out.h = im1.h ∧ ∀ x y, x < im1.w → y < im1.h →
        out.pixel m x y = f (im1.pixel n1 x y) (im2.pixel n2 x y) := by
  unfold mapPixels2
  rw [List.flatMap_def, ← hh]
  obtain ⟨out, h1, h2, h3, h4, h5⟩ := fromVec_flatten (w := im1.w) (h := im1.h) (m := m)
    (((im1.pixels n1).zip (im2.pixels n2)).map fun p => f p.1 p.2)
    (by simp [Buf.pixels, hw, hh])
    (by intro l hl; simp only [List.mem_map] at hl; obtain ⟨p, -, rfl⟩ := hl; exact hf _ _)
  refine ⟨out, h1, h2, h3, h4, ?_⟩
  intro x y hx hy
  rw [h5 x y hx hy]
  simp [Buf.pixels, Buf.pixel, hw]

example : (mapEnumeratedPixels 1 1 (⟨2, 2, [1, 2, 3, 4]⟩ : Buf Nat)
    fun x y p => [10 * p.getD 0 0 + x + 5 * y]).map (·.data) = some [10, 21, 35, 46] := by decide
example : (mapPixelsMut 2 (⟨2, 1, [1, 2, 3, 4]⟩ : Buf Nat) [1, 0] fun _ _ p => p.reverse).data =
    [2, 1, 4, 3] := by decide

end Verif.Map
