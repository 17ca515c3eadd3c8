import Verif.Drawing.CircleModel
import Verif.Drawing.LineProps
import Mathlib.Analysis.Real.Sqrt
import Mathlib.Tactic.Linarith
import Mathlib.Tactic.Positivity
/-
Property theorems C45 (hollow circles) and C46 (filled circles).
-/
namespace Verif.Drawing
open Verif.Definitions

/-! ### Drawing lists of points -/

theorem forList_append {σ α : Type _} (f : α → σ → Option σ) (l m : List α) (s : σ) :
    forList (l ++ m) s f = (forList l s f).bind fun s => forList m s f := by
  induction l generalizing s with
  | nil => rfl
  | cons a l ih =>
    rw [List.cons_append, forList, forList]
    cases f a s with
    | none => rfl
    | some t => exact ih t

theorem forList_flatMap {σ α β : Type _} (f : α → σ → Option σ) (g : β → List α) (l : List β)
    (s : σ) : forList (l.flatMap g) s f = forList l s fun b s => forList (g b) s f := by
  induction l generalizing s with
  | nil => rfl
  | cons a l ih =>
    rw [List.flatMap_cons, forList_append, forList]
    congr 1
    funext t
    exact ih t

/-- Drawing a list of points: each point inside the image is combined with the colour as often as
it occurs in the list. -/
theorem drawList_eq {α : Type _} (op : α → α → α) (im : Image α) (c : α) (L : List (Int × Int)) :
    ∃ out, (forList L im fun p out => drawIfInBounds op out p.1 p.2 c) = some out ∧
      out.w = im.w ∧ out.h = im.h ∧
      ∀ a b, im.InB a b → out.px a b = (fun v => op v c)^[L.count ((a : Int), (b : Int))] (im.px a b) := by
  refine forList_spec (fun l (o : Image α) => o.w = im.w ∧ o.h = im.h ∧
    ∀ a b, im.InB a b →
      o.px a b = (fun v => op v c)^[l.count ((a : Int), (b : Int))] (im.px a b))
    L [] im ⟨rfl, rfl, fun a b _ => by simp⟩ ?_
  rintro l p q o - ⟨hw, hh, hpx⟩
  unfold drawIfInBounds
  by_cases hb : p.1 ≥ 0 ∧ p.1 < o.w ∧ p.2 ≥ 0 ∧ p.2 < o.h
  · rw [if_pos hb, drawPixel_of_inB (by omega) (by omega)]
    refine ⟨_, rfl, hw, hh, fun a b hab => ?_⟩
    dsimp only
    rw [List.count_append, List.count_singleton]
    by_cases hp : a = p.1.toNat ∧ b = p.2.toNat
    · have e : p = ((a : Int), (b : Int)) := Prod.ext (by dsimp only; omega) (by dsimp only; omega)
      rw [if_pos hp, if_pos (by rw [e]; exact beq_self_eq_true _), Function.iterate_succ_apply',
        ← hpx a b hab, hp.1, hp.2]
    · rw [if_neg hp, if_neg, add_zero, hpx a b hab]
      intro h
      have := eq_of_beq h
      rw [this] at hp
      exact hp ⟨rfl, rfl⟩
  · rw [if_neg hb]
    refine ⟨_, rfl, hw, hh, fun a b hab => ?_⟩
    rw [List.count_append, List.count_singleton, if_neg, add_zero, hpx a b hab]
    intro h
    have := eq_of_beq h
    obtain ⟨h1, h2⟩ := hab
    rw [this] at hb
    dsimp only at hb
    omega

/-- Drawing a list of points on an image with an overwriting canvas. -/
theorem drawList_overwrite {α : Type _} (im : Image α) (c : α) (L : List (Int × Int)) :
    ∃ out, (forList L im fun p out => drawIfInBounds overwrite out p.1 p.2 c) = some out ∧
      out.w = im.w ∧ out.h = im.h ∧
      ∀ a b, im.InB a b → out.px a b = if ((a : Int), (b : Int)) ∈ L then c else im.px a b := by
  obtain ⟨o, h1, h2, h3, h4⟩ := drawList_eq overwrite im c L
  refine ⟨o, h1, h2, h3, fun a b hab => ?_⟩
  rw [h4 a b hab]
  by_cases h : ((a : Int), (b : Int)) ∈ L
  · rw [if_pos h]
    obtain ⟨n, hn⟩ : ∃ n, L.count ((a : Int), (b : Int)) = n + 1 :=
      ⟨L.count ((a : Int), (b : Int)) - 1, by have := List.count_pos_iff.2 h; omega⟩
    rw [hn, Function.iterate_succ_apply']
    rfl
  · rw [if_neg h, List.count_eq_zero.2 h]
    rfl

/-! ### The octant -/

/-- The points `(x, y)` visited by the loop. -/
def octList : Nat → Int → Int → Int → List (Int × Int)
  | 0, _, _, _ => []
  | n + 1, x, y, p =>
    if x ≤ y then
      (x, y) :: (if p < 0 then octList n (x + 1) y (p + (2 * (x + 1) + 1))
        else octList n (x + 1) (y - 1) (p + (2 * ((x + 1) - (y - 1)) + 1)))
    else []

/-- The loop ends and performs the drawing statements for the points of `octList`. -/
theorem circleLoop_eq {σ : Type _} (draw : Int → Int → σ → Option σ) :
    ∀ (n : Nat) (x y p : Int) (s : σ), y + 1 - x ≤ n →
      circleLoop draw n x y p s = forList (octList n x y p) s fun q s => draw q.1 q.2 s
  | 0, x, y, p, s, h => by
    rw [circleLoop, if_neg (by push_cast at h; omega)]; rfl
  | n + 1, x, y, p, s, h => by
    rw [circleLoop, octList]
    by_cases hxy : x ≤ y
    · rw [if_pos hxy, if_pos hxy, forList]
      congr 1
      funext t
      push_cast at h
      by_cases hp : p < 0
      · rw [if_pos hp, if_pos hp]; exact circleLoop_eq draw n _ _ _ t (by omega)
      · rw [if_neg hp, if_neg hp]; exact circleLoop_eq draw n _ _ _ t (by omega)
    · rw [if_neg hxy, if_neg hxy]; rfl

/-- Integer form of the midpoint criterion for `0 ≤ x ≤ y`. -/
def Crit (r x y : Int) : Prop := (y = 0 ∨ y * y - y < r * r - x * x) ∧ r * r - x * x ≤ y * y + y

/-- When the loop ends no point satisfying the criterion is left. -/
theorem crit_exit (r x y a b : Int) (hxy : y < x) (hx : 0 ≤ x) (hy : -1 ≤ y) (h01 : 0 ≤ y ∨ 1 ≤ x)
    (hu : r * r - x * x ≤ y * y + y) (ha : x ≤ a) (hab : a ≤ b) : ¬ Crit r a b := by
  rintro ⟨h1 | h1, h2⟩
  · omega
  · have e1 : x * x ≤ a * a := mul_self_le_mul_self hx ha
    have e2 : 0 ≤ b * b - b := by
      rw [show b * b - b = b * (b - 1) by ring]
      rcases eq_or_lt_of_le (show 0 ≤ b by omega) with h | h
      · rw [← h]; simp
      · exact mul_nonneg (by omega) (by omega)
    rcases eq_or_lt_of_le hy with h | h
    · rw [← h] at hu; omega
    · have e3 : y * (y + 1) ≤ (b - 1) * b :=
        mul_le_mul (by omega) (by omega) (by omega) (by omega)
      have e4 : y * (y + 1) = y * y + y := by ring
      have e5 : (b - 1) * b = b * b - b := by ring
      omega

/-- The criterion determines `y`. -/
theorem crit_unique (r x y z : Int) (h : Crit r x y) (h' : Crit r x z) (hy : 0 ≤ y) (hz : 0 ≤ z) :
    y = z := by
  have key : ∀ y z : Int, Crit r x y → Crit r x z → 0 ≤ y → 0 ≤ z → ¬ y < z := by
    rintro y z ⟨_, h2⟩ ⟨h3, _⟩ hy hz hlt
    rcases h3 with h3 | h3
    · omega
    · have e3 : y * (y + 1) ≤ (z - 1) * z :=
        mul_le_mul (by omega) (by omega) (by omega) (by omega)
      have e4 : y * (y + 1) = y * y + y := by ring
      have e5 : (z - 1) * z = z * z - z := by ring
      omega
  have h1 := key y z h h' hy hz
  have h2 := key z y h' h hz hy
  omega

theorem octList_mem (r : Int) : ∀ (n : Nat) (x y p : Int), y + 1 - x ≤ n → 0 ≤ x → -1 ≤ y →
    (0 ≤ y ∨ 1 ≤ x) →
    p = (x + 1) * (x + 1) + y * y - y - r * r → r * r - x * x ≤ y * y + y →
    (x ≤ y → y = 0 ∨ y * y - y < r * r - x * x) →
    ∀ q : Int × Int, q ∈ octList n x y p ↔ x ≤ q.1 ∧ q.1 ≤ q.2 ∧ Crit r q.1 q.2
  | 0, x, y, p, hn, hx, hy, h01, hp, hu, hl, q => by
    rw [octList]
    constructor
    · intro h; cases h
    · rintro ⟨h1, h2, h3⟩
      exact absurd h3 (crit_exit r x y _ _ (by push_cast at hn; omega) hx hy h01 hu h1 h2)
  | n + 1, x, y, p, hn, hx, hy, h01, hp, hu, hl, q => by
    rw [octList]
    by_cases hxy : x ≤ y
    · rw [if_pos hxy, List.mem_cons]
      have hc : Crit r x y := ⟨hl hxy, hu⟩
      have split : (x ≤ q.1 ∧ q.1 ≤ q.2 ∧ Crit r q.1 q.2) ↔
          q = (x, y) ∨ (x + 1 ≤ q.1 ∧ q.1 ≤ q.2 ∧ Crit r q.1 q.2) := by
        constructor
        · rintro ⟨h1, h2, h3⟩
          rcases eq_or_lt_of_le h1 with h | h
          · left
            rw [← h] at h3 h2
            have := crit_unique r x y q.2 hc h3 (by omega) (by omega)
            exact Prod.ext h.symm this.symm
          · exact Or.inr ⟨h, h2, h3⟩
        · rintro (h | ⟨h1, h2, h3⟩)
          · rw [h]; exact ⟨le_refl _, hxy, hc⟩
          · exact ⟨by omega, h2, h3⟩
      rw [split]
      refine or_congr Iff.rfl ?_
      push_cast at hn
      have ex : (x + 1) * (x + 1) = x * x + 2 * x + 1 := by ring
      by_cases hp0 : p < 0
      · rw [if_pos hp0]
        exact octList_mem r n (x + 1) y _ (by omega) (by omega) hy (by omega)
          (by rw [hp]; ring) (by omega) (fun _ => Or.inr (by omega)) q
      · rw [if_neg hp0]
        have ey : (y - 1) * (y - 1) = y * y - 2 * y + 1 := by ring
        refine octList_mem r n (x + 1) (y - 1) _ (by omega) (by omega) (by omega) (by omega)
          (by rw [hp]; ring) (by omega) (fun h => ?_) q
        right
        have := hl hxy
        omega
    · rw [if_neg hxy]
      constructor
      · intro h; cases h
      · rintro ⟨h1, h2, h3⟩
        exact absurd h3 (crit_exit r x y _ _ (by omega) hx hy h01 hu h1 h2)

/-- The octant visited for radius `r`. -/
def octant (r : Int) : List (Int × Int) := octList (r + 1).toNat 0 r (1 - r)

theorem octant_mem (r : Int) (q : Int × Int) :
    q ∈ octant r ↔ 0 ≤ r ∧ 0 ≤ q.1 ∧ q.1 ≤ q.2 ∧ Crit r q.1 q.2 := by
  unfold octant
  by_cases hr : 0 ≤ r
  · rw [octList_mem r _ 0 r (1 - r) (by omega) (le_refl _) (by omega) (Or.inl hr) (by ring)
      (by omega) (fun _ => ?_)]
    · exact ⟨fun h => ⟨hr, h⟩, fun h => h.2⟩
    · omega
  · rw [show (r + 1).toNat = 0 by omega]
    constructor
    · intro h; cases h
    · intro h; exact absurd h.1 hr

/-! ### Hollow circles -/

/-- The pixel at offset `(dx, dy)` from the centre is on the outline of the circle of radius `r`:
along the axis in which the pixel is further from the centre, the ideal circle passes within half
a pixel of it. -/
def OnCircle (r dx dy : Int) : Prop :=
  0 ≤ r ∧ ∃ t : ℝ, 0 ≤ t ∧ t * t + ((min |dx| |dy| : Int) : ℝ) * ((min |dx| |dy| : Int) : ℝ) =
    (r : ℝ) * (r : ℝ) ∧ |t - ((max |dx| |dy| : Int) : ℝ)| ≤ 1 / 2

theorem crit_iff_real (r m M : Int) (hm : 0 ≤ m) (hM : m ≤ M) : Crit r m M ↔
    ∃ t : ℝ, 0 ≤ t ∧ t * t + (m : ℝ) * m = (r : ℝ) * r ∧ |t - (M : ℝ)| ≤ 1 / 2 := by
  have hM' : (0 : ℝ) ≤ M := by exact_mod_cast hm.trans hM
  constructor
  · rintro ⟨h1, h2⟩
    have hMM : M = 0 ∨ 0 ≤ M * M - M := by
      rcases eq_or_lt_of_le (hm.trans hM) with h | h
      · exact Or.inl h.symm
      · right
        rw [show M * M - M = M * (M - 1) by ring]
        exact mul_nonneg (by omega) (by omega)
    have hnn : 0 ≤ r * r - m * m := by
      rcases hMM with h | h
      · have hm0 : m = 0 := by omega
        rw [hm0]
        have := mul_self_nonneg r
        omega
      · rcases h1 with h1 | h1
        · have hm0 : m = 0 := by omega
          rw [hm0]
          have := mul_self_nonneg r
          omega
        · omega
    have hnn' : (0 : ℝ) ≤ (r : ℝ) * r - m * m := by exact_mod_cast hnn
    have h2' : (r : ℝ) * r - m * m ≤ M * M + M := by exact_mod_cast h2
    refine ⟨Real.sqrt ((r : ℝ) * r - m * m), Real.sqrt_nonneg _, ?_, ?_⟩
    · rw [Real.mul_self_sqrt hnn']; ring
    · have ht := Real.sqrt_nonneg ((r : ℝ) * r - m * m)
      have hts := Real.mul_self_sqrt hnn'
      generalize Real.sqrt ((r : ℝ) * r - m * m) = t at ht hts
      rw [abs_le]
      constructor
      · rcases h1 with h1 | h1
        · rw [h1]; push_cast; linarith
        · have h1' : (M : ℝ) * M - M + 1 ≤ (r : ℝ) * r - m * m := by exact_mod_cast h1
          by_contra hc
          push Not at hc
          nlinarith
      · by_contra hc
        push Not at hc
        nlinarith
  · rintro ⟨t, ht, he, hd⟩
    obtain ⟨hd1, hd2⟩ := abs_le.1 hd
    constructor
    · rcases eq_or_lt_of_le (hm.trans hM) with h | h
      · exact Or.inl h.symm
      · right
        have h1 : (1 : ℝ) ≤ M := by exact_mod_cast h
        have : (M : ℝ) * M - M < (r : ℝ) * r - m * m := by nlinarith
        exact_mod_cast this
    · have : (r : ℝ) * r - m * m < M * M + M + 1 := by nlinarith
      have h2 : r * r - m * m < M * M + M + 1 := by exact_mod_cast this
      omega

theorem onCircle_iff (r dx dy : Int) : OnCircle r dx dy ↔
    (min |dx| |dy|, max |dx| |dy|) ∈ octant r := by
  rw [octant_mem]
  have h1 := abs_nonneg dx
  have h2 := abs_nonneg dy
  unfold OnCircle
  rw [← crit_iff_real r _ _ (by omega) (by omega)]
  constructor
  · rintro ⟨h3, h4⟩; exact ⟨h3, by dsimp only; omega, by dsimp only; omega, h4⟩
  · rintro ⟨h3, _, _, h4⟩; exact ⟨h3, h4⟩

/-- The points drawn by the hollow circle. -/
def hollowPts (x0 y0 r : Int) : List (Int × Int) :=
  (octant r).flatMap fun q => [(x0 + q.1, y0 + q.2), (x0 + q.2, y0 + q.1), (x0 - q.2, y0 + q.1),
    (x0 - q.1, y0 + q.2), (x0 - q.1, y0 - q.2), (x0 - q.2, y0 - q.1), (x0 + q.2, y0 - q.1),
    (x0 + q.1, y0 - q.2)]

theorem hollow_eq {α : Type _} (op : α → α → α) (im : Image α) (center : Int × Int) (r : Int)
    (c : α) : drawHollowCircle op im center r c =
      forList (hollowPts center.1 center.2 r) im fun p out => drawIfInBounds op out p.1 p.2 c := by
  unfold drawHollowCircle hollowPts
  dsimp only
  rw [circleLoop_eq _ _ _ _ _ _ (by omega), forList_flatMap]
  congr 1
  funext q im
  simp only [forList]
  cases h : drawIfInBounds op im (center.1 + q.1) (center.2 + q.2) c <;> simp

theorem hollowPts_mem (x0 y0 r : Int) (q : Int × Int) :
    q ∈ hollowPts x0 y0 r ↔ OnCircle r (q.1 - x0) (q.2 - y0) := by
  rw [onCircle_iff]
  obtain ⟨a, b⟩ := q
  unfold hollowPts
  rw [List.mem_flatMap]
  dsimp only
  constructor
  · rintro ⟨⟨x, y⟩, hq, h⟩
    have hq' := (octant_mem r (x, y)).1 hq
    dsimp only at hq' h
    obtain ⟨_, hx, hxy, _⟩ := hq'
    have e : min |a - x0| |b - y0| = x ∧ max |a - x0| |b - y0| = y := by
      simp only [List.mem_cons, Prod.mk.injEq, List.not_mem_nil, or_false] at h
      rcases h with h | h | h | h | h | h | h | h <;> obtain ⟨rfl, rfl⟩ := h <;>
        simp only [add_sub_cancel_left, sub_sub_cancel_left, abs_neg, abs_of_nonneg hx,
          abs_of_nonneg (hx.trans hxy)] <;> omega
    rw [e.1, e.2]
    exact hq
  · intro h
    refine ⟨_, h, ?_⟩
    simp only [List.mem_cons, Prod.mk.injEq, List.not_mem_nil, or_false]
    rcases abs_cases (a - x0) with ⟨h1, h2⟩ | ⟨h1, h2⟩ <;>
    rcases abs_cases (b - y0) with ⟨h3, h4⟩ | ⟨h3, h4⟩ <;> rw [h1, h3] <;> omega

/-- **C45.** For every image, centre and radius, drawing a hollow circle terminates without
failure and colours exactly the image pixels whose distance to the ideal circle, measured along
the axis in which the pixel is further from the centre, is at most half a pixel (with a negative
radius it draws nothing). -/
theorem C45_hollow {α : Type _} (im : Image α) (x0 y0 r : Int) (c : α) :
    ∃ out, drawHollowCircle overwrite im (x0, y0) r c = some out ∧ out.w = im.w ∧ out.h = im.h ∧
      ∀ a b : Nat, im.InB a b →
        (OnCircle r (a - x0) (b - y0) → out.px a b = c) ∧
        (¬ OnCircle r (a - x0) (b - y0) → out.px a b = im.px a b) := by
  obtain ⟨o, h1, h2, h3, h4⟩ := drawList_overwrite im c (hollowPts x0 y0 r)
  refine ⟨o, by rw [hollow_eq]; exact h1, h2, h3, fun a b hab => ⟨fun h => ?_, fun h => ?_⟩⟩
  · rw [h4 a b hab, if_pos ((hollowPts_mem x0 y0 r ((a : Int), (b : Int))).2 h)]
  · rw [h4 a b hab, if_neg (fun h' => h ((hollowPts_mem x0 y0 r ((a : Int), (b : Int))).1 h'))]

/-- **C45** for canvases that combine colours (`Blend`): pixels off the circle are unchanged and
each pixel on the circle is combined with the colour a positive number of times.  (Pixels on the
axes and the diagonals are combined more than once.) -/
theorem C45_hollow_blend {α : Type _} (op : α → α → α) (im : Image α) (x0 y0 r : Int) (c : α) :
    ∃ out, drawHollowCircle op im (x0, y0) r c = some out ∧ out.w = im.w ∧ out.h = im.h ∧
      ∀ a b : Nat, im.InB a b → ∃ n : Nat, (0 < n ↔ OnCircle r (a - x0) (b - y0)) ∧
        out.px a b = (fun v => op v c)^[n] (im.px a b) := by
  obtain ⟨o, h1, h2, h3, h4⟩ := drawList_eq op im c (hollowPts x0 y0 r)
  refine ⟨o, by rw [hollow_eq]; exact h1, h2, h3, fun a b hab =>
    ⟨(hollowPts x0 y0 r).count ((a : Int), (b : Int)), ?_, h4 a b hab⟩⟩
  rw [List.count_pos_iff]
  exact hollowPts_mem x0 y0 r ((a : Int), (b : Int))

/-- **C45**, symmetry: the outline is invariant under the symmetries of the square. -/
theorem C45_symmetric (r dx dy : Int) : (OnCircle r (-dx) dy ↔ OnCircle r dx dy) ∧
    (OnCircle r dx (-dy) ↔ OnCircle r dx dy) ∧ (OnCircle r dy dx ↔ OnCircle r dx dy) := by
  unfold OnCircle
  rw [abs_neg, abs_neg, min_comm |dy|, max_comm |dy|]
  exact ⟨Iff.rfl, Iff.rfl, Iff.rfl⟩

-- Radius 2 on a 5x5 image.
example : ((drawHollowCircle overwrite (Image.new 5 5 0) (2, 2) 2 1).map Image.rows) =
    some [[0, 1, 1, 1, 0], [1, 0, 0, 0, 1], [1, 0, 0, 0, 1], [1, 0, 0, 0, 1], [0, 1, 1, 1, 0]] := by
  decide +kernel
-- A circle mostly outside the image; radius zero draws the centre.
example : ((drawHollowCircle overwrite (Image.new 2 2 0) (-1, 0) 2 1).map Image.rows) =
    some [[0, 1], [0, 1]] := by decide +kernel
example : ((drawHollowCircle overwrite (Image.new 2 1 0) (1, 0) 0 1).map Image.rows) =
    some [[0, 1]] := by decide +kernel

/-! ### Filled circles -/

theorem mem_horizontal (u v y : Int) (huv : u ≤ v) (q : Int × Int) :
    q ∈ bresenham ((u : ℚ), (y : ℚ)) ((v : ℚ), (y : ℚ)) ↔ u ≤ q.1 ∧ q.1 ≤ v ∧ q.2 = y := by
  have e : bresenham ((u : ℚ), (y : ℚ)) ((v : ℚ), (y : ℚ)) =
      (Bres.mk' false (u : ℚ) (y : ℚ) (v : ℚ) (y : ℚ)).toList := by
    unfold bresenham Bres.new
    dsimp only
    rw [if_neg (by rw [sub_self, abs_zero]; exact not_lt.2 (abs_nonneg _)), Bres.ordered,
      if_neg (not_lt.2 (by exact_mod_cast huv))]
  constructor
  · intro h
    have := (C42_bresenham (u, y) (v, y)).box q h
    dsimp only at this
    omega
  · rintro ⟨h1, h2, h3⟩
    obtain ⟨f, hL, h0, -, hdev, -⟩ := Bres.run false u y v y huv (by simp; omega)
    rw [e, hL]
    refine List.mem_map.2 ⟨(q.1 - u).toNat, List.mem_range.2 (by omega), ?_⟩
    have := minor_range (v - u) y y (f (q.1 - u).toNat) (q.1 - u).toNat (by omega) (by omega)
      (fun h => by rw [show (q.1 - u).toNat = 0 by omega]; exact h0) (hdev _ (by omega))
    refine Prod.ext ?_ ?_
    · show u + (((q.1 - u).toNat : Nat) : Int) = q.1; omega
    · show f (q.1 - u).toNat = q.2; omega

theorem drawPixel_dims {α : Type _} {op : α → α → α} {im out : Image α} {x y : Nat} {c : α}
    (h : drawPixel op im x y c = some out) : out.w = im.w ∧ out.h = im.h := by
  unfold drawPixel at h
  obtain ⟨v, hv, h⟩ := Option.bind_eq_some_iff.1 h
  rw [Image.get_eq_some] at hv
  rw [Image.put_of_inB _ hv.1.1 hv.1.2] at h
  cases h
  exact ⟨rfl, rfl⟩

theorem drawLineInt_eq {α : Type _} (op : α → α → α) (im : Image α) (sx sy ex ey : Int) (c : α) :
    drawLineInt op im sx sy ex ey c =
      forList (bresenham ((sx : ℚ), (sy : ℚ)) ((ex : ℚ), (ey : ℚ))) im
        fun p out => drawIfInBounds op out p.1 p.2 c := by
  unfold drawLineInt drawLine
  have key : ∀ (l : List (Int × Int)) (out : Image α), out.w = im.w → out.h = im.h →
      (forList l out fun p out =>
        if inBounds im p = true then drawPixel op out p.1.toNat p.2.toNat c else some out) =
      forList l out fun p out => drawIfInBounds op out p.1 p.2 c := by
    intro l
    induction l with
    | nil => intro out _ _; rfl
    | cons p l ih =>
      intro out hw hh
      rw [forList, forList, drawIfInBounds, hw, hh]
      have hb := inBounds_iff im p
      by_cases h : inBounds im p = true
      · have h' := hb.1 h
        rw [if_pos h, if_pos (by omega)]
        cases ho : drawPixel op out p.1.toNat p.2.toNat c with
        | none => rfl
        | some o =>
          obtain ⟨d1, d2⟩ := drawPixel_dims ho
          exact ih o (by omega) (by omega)
      · rw [if_neg h, if_neg (fun h' => h (hb.2 (by omega)))]
        exact ih out hw hh
  exact key _ im rfl rfl

/-- The points of the horizontal segment between `(u, y)` and `(v, y)`. -/
def hline (u v y : Int) : List (Int × Int) := bresenham ((u : ℚ), (y : ℚ)) ((v : ℚ), (y : ℚ))

/-- The points drawn by the filled circle. -/
def filledPts (x0 y0 r : Int) : List (Int × Int) :=
  (octant r).flatMap fun q => hline (x0 - q.1) (x0 + q.1) (y0 + q.2) ++
    (hline (x0 - q.2) (x0 + q.2) (y0 + q.1) ++ (hline (x0 - q.1) (x0 + q.1) (y0 - q.2) ++
      hline (x0 - q.2) (x0 + q.2) (y0 - q.1)))

theorem filled_eq {α : Type _} (op : α → α → α) (im : Image α) (center : Int × Int) (r : Int)
    (c : α) : drawFilledCircle op im center r c =
      forList (filledPts center.1 center.2 r) im fun p out => drawIfInBounds op out p.1 p.2 c := by
  unfold drawFilledCircle filledPts
  dsimp only
  rw [circleLoop_eq _ _ _ _ _ _ (by omega), forList_flatMap]
  congr 1
  funext q im
  simp only [forList_append, drawLineInt_eq, hline]

theorem filledPts_mem (x0 y0 r : Int) (q : Int × Int) : q ∈ filledPts x0 y0 r ↔
    ∃ a, OnCircle r a (q.2 - y0) ∧ |q.1 - x0| ≤ |a| := by
  unfold filledPts
  rw [List.mem_flatMap]
  constructor
  · rintro ⟨⟨x, y⟩, hq, h⟩
    have hq' := (octant_mem r (x, y)).1 hq
    dsimp only at hq' h
    obtain ⟨_, hx, hxy, _⟩ := hq'
    unfold hline at h
    simp only [List.mem_append] at h
    rw [mem_horizontal _ _ _ (by omega), mem_horizontal _ _ _ (by omega),
      mem_horizontal _ _ _ (by omega), mem_horizontal _ _ _ (by omega)] at h
    have hs : OnCircle r x y := by
      rw [onCircle_iff, abs_of_nonneg hx, abs_of_nonneg (hx.trans hxy), min_eq_left hxy,
        max_eq_right hxy]; exact hq
    have hs' : OnCircle r y x := (C45_symmetric r x y).2.2.2 hs
    rcases h with h | h | h | h
    · refine ⟨x, ?_, by rw [abs_of_nonneg hx, abs_le]; omega⟩
      rw [show q.2 - y0 = y by omega]; exact hs
    · refine ⟨y, ?_, by rw [abs_of_nonneg (hx.trans hxy), abs_le]; omega⟩
      rw [show q.2 - y0 = x by omega]; exact hs'
    · refine ⟨x, ?_, by rw [abs_of_nonneg hx, abs_le]; omega⟩
      rw [show q.2 - y0 = -y by omega]; exact (C45_symmetric r x y).2.1.2 hs
    · refine ⟨y, ?_, by rw [abs_of_nonneg (hx.trans hxy), abs_le]; omega⟩
      rw [show q.2 - y0 = -x by omega]; exact (C45_symmetric r y x).2.1.2 hs'
  · rintro ⟨a, ha, hle⟩
    rw [onCircle_iff] at ha
    refine ⟨_, ha, ?_⟩
    have h1 := abs_nonneg a
    have h2 := abs_nonneg (q.2 - y0)
    have hle' := abs_le.1 hle
    unfold hline
    simp only [List.mem_append]
    rw [mem_horizontal _ _ _ (by omega), mem_horizontal _ _ _ (by omega),
      mem_horizontal _ _ _ (by omega), mem_horizontal _ _ _ (by omega)]
    rcases abs_cases (q.2 - y0) with ⟨h3, h4⟩ | ⟨h3, h4⟩ <;> rw [h3] <;>
    rcases le_total |a| |q.2 - y0| with h5 | h5 <;> rw [h3] at h5
    · rw [min_eq_left h5, max_eq_right h5]; left; omega
    · rw [min_eq_right h5, max_eq_left h5]; right; left; omega
    · rw [min_eq_left h5, max_eq_right h5]; right; right; left; omega
    · rw [min_eq_right h5, max_eq_left h5]; right; right; right; omega

/-- The pixel at offset `(dx, dy)` lies between two mirror-image outline pixels of its row. -/
def InDisc (r dx dy : Int) : Prop := ∃ a, OnCircle r a dy ∧ |dx| ≤ |a|

/-- **C46.** For every image, centre and radius, drawing a filled circle terminates without
failure and colours exactly the image pixels that lie between (inclusive) two outline pixels of
their row. -/
theorem C46_filled {α : Type _} (im : Image α) (x0 y0 r : Int) (c : α) :
    ∃ out, drawFilledCircle overwrite im (x0, y0) r c = some out ∧ out.w = im.w ∧ out.h = im.h ∧
      ∀ a b : Nat, im.InB a b →
        (InDisc r (a - x0) (b - y0) → out.px a b = c) ∧
        (¬ InDisc r (a - x0) (b - y0) → out.px a b = im.px a b) := by
  obtain ⟨o, h1, h2, h3, h4⟩ := drawList_overwrite im c (filledPts x0 y0 r)
  refine ⟨o, by rw [filled_eq]; exact h1, h2, h3, fun a b hab => ⟨fun h => ?_, fun h => ?_⟩⟩
  · rw [h4 a b hab, if_pos ((filledPts_mem x0 y0 r ((a : Int), (b : Int))).2 h)]
  · rw [h4 a b hab, if_neg (fun h' => h ((filledPts_mem x0 y0 r ((a : Int), (b : Int))).1 h'))]

/-- **C46** for canvases that combine colours. -/
theorem C46_filled_blend {α : Type _} (op : α → α → α) (im : Image α) (x0 y0 r : Int) (c : α) :
    ∃ out, drawFilledCircle op im (x0, y0) r c = some out ∧ out.w = im.w ∧ out.h = im.h ∧
      ∀ a b : Nat, im.InB a b → ∃ n : Nat, (0 < n ↔ InDisc r (a - x0) (b - y0)) ∧
        out.px a b = (fun v => op v c)^[n] (im.px a b) := by
  obtain ⟨o, h1, h2, h3, h4⟩ := drawList_eq op im c (filledPts x0 y0 r)
  refine ⟨o, by rw [filled_eq]; exact h1, h2, h3, fun a b hab =>
    ⟨(filledPts x0 y0 r).count ((a : Int), (b : Int)), ?_, h4 a b hab⟩⟩
  rw [List.count_pos_iff]
  exact filledPts_mem x0 y0 r ((a : Int), (b : Int))

theorem octant_radius {r x y : Int} (h : (x, y) ∈ octant r) :
    0 ≤ r ∧ 0 ≤ x ∧ x ≤ y ∧ x * x + y * y ≤ r * r + r := by
  obtain ⟨h0, h1, h2, h3, h4⟩ := (octant_mem r (x, y)).1 h
  dsimp only at h1 h2 h3 h4
  refine ⟨h0, h1, h2, ?_⟩
  rcases h3 with h3 | h3
  · have : x = 0 := by omega
    subst this; subst h3
    have := mul_self_nonneg r
    omega
  · -- y ≤ r
    have hy : y ≤ r := by
      by_contra hc
      have e1 : (r + 1) * r ≤ y * (y - 1) :=
        mul_le_mul (by omega) (by omega) h0 (by omega)
      have e2 : y * (y - 1) = y * y - y := by ring
      have e3 : (r + 1) * r = r * r + r := by ring
      have := mul_self_nonneg x
      omega
    omega

/-- **C46**, outer bound: nothing further than `r + 1/2` (hence `r + 1`) from the centre is
coloured. -/
theorem C46_outer (r dx dy : Int) (h : InDisc r dx dy) :
    dx * dx + dy * dy ≤ r * r + r ∧ dx * dx + dy * dy ≤ (r + 1) * (r + 1) := by
  obtain ⟨a, ha, hle⟩ := h
  rw [onCircle_iff] at ha
  obtain ⟨h0, h1, h2, h3⟩ := octant_radius ha
  have e1 : dx * dx ≤ a * a := by
    have := mul_self_le_mul_self (abs_nonneg dx) hle
    rwa [abs_mul_abs_self, abs_mul_abs_self] at this
  have e2 : min |a| |dy| * min |a| |dy| + max |a| |dy| * max |a| |dy| = a * a + dy * dy := by
    rw [← abs_mul_abs_self a, ← abs_mul_abs_self dy]
    rcases le_total |a| |dy| with h | h
    · rw [min_eq_left h, max_eq_right h]
    · rw [min_eq_right h, max_eq_left h]; ring
  have e3 : (r + 1) * (r + 1) = r * r + r + (r + 1) := by ring
  constructor <;> omega

/-- The largest natural number below `n` with a downward closed property. -/
theorem exists_greatest (P : Int → Prop) (lo : Int) (hlo : P lo) (B : Int)
    (hB : ∀ z, P z → z ≤ B) : ∃ z, lo ≤ z ∧ P z ∧ ¬ P (z + 1) := by
  by_contra hc
  push Not at hc
  have : ∀ n : Nat, P (lo + n) := by
    intro n
    induction n with
    | zero => simpa using hlo
    | succ n ih =>
      have := hc (lo + n) (by omega) ih
      rw [show lo + ((n + 1 : Nat) : Int) = lo + n + 1 by push_cast; ring]
      exact this
  have h1 := hB _ (this ((B - lo).toNat + 1))
  omega

/-- **C46**, inner bound: everything at squared distance at most `r² - r` from the centre, hence
everything at distance at most `r - 1`, is coloured. -/
theorem C46_inner_sq (r dx dy : Int) (hr : 1 ≤ r) (h : dx * dx + dy * dy ≤ r * r - r) :
    InDisc r dx dy := by
  have hD0 := abs_nonneg dx
  have hd0 := abs_nonneg dy
  rw [← abs_mul_abs_self dx, ← abs_mul_abs_self dy] at h
  have hDD := mul_self_nonneg |dx|
  have hdd := mul_self_nonneg |dy|
  by_cases hA : 2 * (|dy| * |dy|) + |dy| < r * r ∨ |dy| ≤ |dx|
  · obtain ⟨y, hy, h1, h2⟩ := exists_greatest (fun z => z * z - z < r * r - |dy| * |dy|)
      (max |dx| |dy|) (by
        rcases le_total |dx| |dy| with h' | h'
        · rw [max_eq_right h']
          rcases hA with hA | hA
          · omega
          · have : |dx| = |dy| := by omega
            rw [this] at h
            omega
        · rw [max_eq_left h']; omega) r (by
        intro z hz
        by_contra hc
        have e1 : (r + 1) * r ≤ z * (z - 1) :=
          mul_le_mul (by omega) (by omega) (by omega) (by omega)
        have e2 : z * (z - 1) = z * z - z := by ring
        have e3 : (r + 1) * r = r * r + r := by ring
        omega)
    have hy0 : 0 ≤ y := by omega
    refine ⟨y, ?_, by rw [abs_of_nonneg hy0]; omega⟩
    rw [onCircle_iff, abs_of_nonneg hy0, min_eq_right (by omega), max_eq_left (by omega),
      octant_mem]
    refine ⟨by omega, hd0, by dsimp only; omega, Or.inr h1, ?_⟩
    have e : (y + 1) * (y + 1) = y * y + 2 * y + 1 := by ring
    dsimp only
    omega
  · push Not at hA
    obtain ⟨hA1, hA2⟩ := hA
    obtain ⟨z, hz, h1, h2⟩ := exists_greatest (fun z => z * z < r * r - |dy| * |dy| + |dy|)
      |dx| (by omega) |dy| (by
        intro z hz
        by_contra hc
        have e1 : (|dy| + 1) * (|dy| + 1) ≤ z * z := mul_self_le_mul_self (by omega) (by omega)
        have e2 : (|dy| + 1) * (|dy| + 1) = |dy| * |dy| + 2 * |dy| + 1 := by ring
        omega)
    have hz0 : 0 ≤ z := by omega
    have hzd : z ≤ |dy| := by
      by_contra hc
      have e1 : (|dy| + 1) * (|dy| + 1) ≤ z * z := mul_self_le_mul_self (by omega) (by omega)
      have e2 : (|dy| + 1) * (|dy| + 1) = |dy| * |dy| + 2 * |dy| + 1 := by ring
      omega
    refine ⟨z, ?_, by rw [abs_of_nonneg hz0]; omega⟩
    rw [onCircle_iff, abs_of_nonneg hz0, min_eq_left hzd, max_eq_right hzd, octant_mem]
    refine ⟨by omega, hz0, hzd, Or.inr (by dsimp only; omega), ?_⟩
    have e : (z + 1) * (z + 1) = z * z + 2 * z + 1 := by ring
    dsimp only
    rcases eq_or_lt_of_le hzd with h3 | h3
    · have : z * z = |dy| * |dy| := by rw [h3]
      omega
    · omega

theorem C46_inner (r dx dy : Int) (hr : 1 ≤ r) (h : dx * dx + dy * dy ≤ (r - 1) * (r - 1)) :
    InDisc r dx dy := by
  refine C46_inner_sq r dx dy hr ?_
  have e : (r - 1) * (r - 1) = r * r - 2 * r + 1 := by ring
  omega

example : ((drawFilledCircle overwrite (Image.new 5 5 0) (2, 2) 2 1).map Image.rows) =
    some [[0, 1, 1, 1, 0], [1, 1, 1, 1, 1], [1, 1, 1, 1, 1], [1, 1, 1, 1, 1], [0, 1, 1, 1, 0]] := by
  decide +kernel

end Verif.Drawing
