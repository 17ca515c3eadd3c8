import Verif.Float.Clip
import Verif.Float.Line
import Verif.Hough.Draw
/-
Property C194: `draw_polar_lines` (src/hough.rs:100-125) in single precision: clipping (C152) and line drawing
(C118) together.
-/
namespace Verif.Float
open Verif.Hough Verif.Drawing Verif.Definitions

variable {α : Type _}

/-- `draw_polar_line` (src/hough.rs:118-125) in `f32`; `trig m` is the sine and cosine of `m` degrees in `f32`. -/
def drawPolarLine32 (trig : Nat → ℚ × ℚ) (im : Image α) (l : PolarLine) (color : α) : Option (Image α) :=
  match intersectionPoints32 (trig l.angle).1 (trig l.angle).2 l.r l.angle im.w im.h with
  | some (s, e) => drawLine32 overwrite im s e color
  | none => some im

/-- `draw_polar_lines_mut` (src/hough.rs:109-116) in `f32`. -/
def drawPolarLines32 (trig : Nat → ℚ × ℚ) (im : Image α) (ls : List PolarLine) (color : α) : Option (Image α) :=
  forList ls im fun l im => drawPolarLine32 trig im l color

/-- A pixel on the drawn course of a line. -/
def Drawn32 (trig : Nat → ℚ × ℚ) (w h : Nat) (l : PolarLine) (p : Int × Int) : Prop :=
  ∃ s e, intersectionPoints32 (trig l.angle).1 (trig l.angle).2 l.r l.angle w h = some (s, e) ∧ p ∈ bresenham32 s e

theorem bresenham32_nodup (s e : ℚ × ℚ) : (bresenham32 s e).Nodup := by
  unfold bresenham32
  generalize new32 s e = b
  by_cases h : 0 ≤ b.endX + 1 - b.x
  · rw [collect32_eq _ _ (by omega)]
    refine List.Nodup.map ?_ List.nodup_range
    intro k k' hk
    obtain ⟨c1, -, c3, -⟩ := adv32_consts b k
    obtain ⟨d1, -, d3, -⟩ := adv32_consts b k'
    dsimp only at hk
    rw [Bres.pt_eq, Bres.pt_eq, c1, c3, d1, d3] at hk
    unfold orient at hk
    cases hb : b.steep <;> rw [hb] at hk <;> simp only [Bool.false_eq_true, if_true, if_false, Prod.mk.injEq] at hk <;> omega
  · rw [Int.toNat_of_nonpos (by omega)]
    exact List.nodup_nil

/-- Drawing a line in `f32` never fails and paints exactly the in-bounds points of its course. -/
theorem drawLine32_spec (op : α → α → α) (im : Image α) (s e : ℚ × ℚ) (c : α) :
    ∃ out, drawLine32 op im s e c = some out ∧ out.w = im.w ∧ out.h = im.h ∧
      ∀ a b, out.px a b = if im.InB a b ∧ ((a : Int), (b : Int)) ∈ bresenham32 s e
        then op (im.px a b) c else im.px a b :=
  draw_points op im c _ (bresenham32_nodup s e)

open Classical in
/-- **C194.** Drawing any list of lines never panics and keeps the size; a pixel gets the colour iff it lies on the
course between the two clipped end points of some line, otherwise it is unchanged. -/
theorem C194_pixels (trig : Nat → ℚ × ℚ) (im : Image α) (ls : List PolarLine) (color : α) :
    ∃ out, drawPolarLines32 trig im ls color = some out ∧ out.w = im.w ∧ out.h = im.h ∧
      ∀ a b, out.px a b = if im.InB a b ∧ ∃ l ∈ ls, Drawn32 trig im.w im.h l ((a : Int), (b : Int))
        then color else im.px a b := by
  refine forList_spec (fun done (o : Image α) => o.w = im.w ∧ o.h = im.h ∧
    ∀ a b, o.px a b = if im.InB a b ∧ ∃ l ∈ done, Drawn32 trig im.w im.h l ((a : Int), (b : Int))
      then color else im.px a b) ls [] im ⟨rfl, rfl, fun a b => by simp⟩ ?_
  rintro done l rest o - ⟨hw, hh, hpx⟩
  unfold drawPolarLine32
  have hiff : ∀ a b : Nat, (∃ l' ∈ done ++ [l], Drawn32 trig im.w im.h l' ((a : Int), (b : Int))) ↔
      (∃ l' ∈ done, Drawn32 trig im.w im.h l' ((a : Int), (b : Int))) ∨
      Drawn32 trig im.w im.h l ((a : Int), (b : Int)) := by
    intro a b
    simp only [List.mem_append, List.mem_singleton]
    constructor
    · rintro ⟨l', h | rfl, h'⟩
      · exact Or.inl ⟨l', h, h'⟩
      · exact Or.inr h'
    · rintro (⟨l', h, h'⟩ | h)
      · exact ⟨l', Or.inl h, h'⟩
      · exact ⟨l, Or.inr rfl, h⟩
  rw [hw, hh]
  rcases he : intersectionPoints32 (trig l.angle).1 (trig l.angle).2 l.r l.angle im.w im.h with _ | ⟨s, e⟩
  · refine ⟨o, rfl, hw, hh, fun a b => ?_⟩
    rw [hpx]
    refine if_congr ?_ rfl rfl
    rw [hiff]
    have : ¬ Drawn32 trig im.w im.h l ((a : Int), (b : Int)) := by
      rintro ⟨s, e, h, -⟩
      rw [he] at h
      cases h
    simp [this]
  · obtain ⟨o', h1, h2, h3, h4⟩ := drawLine32_spec overwrite o s e color
    refine ⟨o', h1, by rw [h2, hw], by rw [h3, hh], fun a b => ?_⟩
    rw [h4, hpx]
    have hd : Drawn32 trig im.w im.h l ((a : Int), (b : Int)) ↔ ((a : Int), (b : Int)) ∈ bresenham32 s e := by
      constructor
      · rintro ⟨s', e', h, h'⟩
        rw [he] at h
        cases h
        exact h'
      · intro h
        exact ⟨s, e, he, h⟩
    have hb : o.InB a b ↔ im.InB a b := by
      unfold Image.InB
      rw [hw, hh]
    simp only [hiff, hd, hb]
    by_cases hin : im.InB a b
    · by_cases hbr : ((a : Int), (b : Int)) ∈ bresenham32 s e
      · simp [hin, hbr, overwrite]
      · simp [hin, hbr]
    · simp [hin]

theorem rep_int32_nat {n : Nat} (h : n ≤ 2 ^ 24) : Rep (K := ℚ) 24 (-149) (n : ℚ) :=
  ⟨n, 0, by rw [abs_of_nonneg (by omega)]; exact_mod_cast h, by norm_num, by simp⟩

/-- The end points are numbers of the format. -/
theorem ends_rep {sin cos r : ℚ} {m w h : Nat} (hw : w ≤ 2 ^ 24) (hh : h ≤ 2 ^ 24) (hr : Rep 24 (-149) r)
    {p q z : ℚ × ℚ} (e : intersectionPoints32 sin cos r m w h = some (p, q)) (hz : z = p ∨ z = q) :
    Rep 24 (-149) z.1 ∧ Rep 24 (-149) z.2 := by
  have rw' := rep_int32_nat hw
  have rh' := rep_int32_nat hh
  have r0 : Rep (K := ℚ) 24 (-149) 0 := by simpa using rep_int32_nat (n := 0) (by norm_num)
  unfold intersectionPoints32 at e
  dsimp only at e
  rw [rnd32_natQ hw, rnd32_natQ hh] at e
  split at e
  · split at e
    · simp only [Option.some.injEq, Prod.mk.injEq] at e
      obtain ⟨rfl, rfl⟩ := e
      rcases hz with rfl | rfl
      · exact ⟨hr, r0⟩
      · exact ⟨hr, rh'⟩
    · simp at e
  · split at e
    · split at e
      · simp only [Option.some.injEq, Prod.mk.injEq] at e
        obtain ⟨rfl, rfl⟩ := e
        rcases hz with rfl | rfl
        · exact ⟨r0, hr⟩
        · exact ⟨rw', hr⟩
      · simp at e
    · obtain ⟨-, hc⟩ := pick_cases (by positivity) (by positivity) e z hz
      rcases hc with rfl | rfl | rfl | rfl
      · exact ⟨rw', rep_rnd _⟩
      · exact ⟨r0, rep_rnd _⟩
      · exact ⟨rep_rnd _, rh'⟩
      · exact ⟨rep_rnd _, r0⟩

/-- From the line through the end points to the line itself, along the longer side. -/
theorem near_core {d1 d2 c n u v δ : ℚ} (h0 : d1 ≠ 0) (h2 : |d2| ≤ |d1| * (1 + 1 / 2 ^ 20))
    (hn : |v * d1 - u * d2| ≤ 3 * max |d1| |d2|) (hu : |u| ≤ |d1| + 1) (hd : |d1 * c + d2 * n| ≤ 2 * δ) :
    |u * c + v * n| ≤ 2 * δ + 51 / 10 * max |n| |c| := by
  have hp : 0 < |d1| := abs_pos.2 h0
  have m1 := le_max_left |n| |c|
  have m2 := le_max_right |n| |c|
  have n0 := abs_nonneg n
  have c0 := abs_nonneg c
  have e1 : d1 * (u * c + v * n) = u * (d1 * c + d2 * n) + n * (v * d1 - u * d2) := by ring
  have x1 : max |d1| |d2| ≤ |d1| * (1 + 1 / 2 ^ 20) := max_le (by nlinarith) h2
  have x2 : |d1 * c + d2 * n| ≤ |d1| * (|c| + (1 + 1 / 2 ^ 20) * |n|) := by
    refine (abs_add_le _ _).trans ?_
    rw [abs_mul, abs_mul]
    have := mul_le_mul_of_nonneg_right h2 n0
    linarith
  have x3 : |u| * |d1 * c + d2 * n| ≤ |d1| * (2 * δ) + |d1| * (|c| + (1 + 1 / 2 ^ 20) * |n|) := by
    have a := mul_le_mul_of_nonneg_right hu (abs_nonneg (d1 * c + d2 * n))
    have b := mul_le_mul_of_nonneg_left hd hp.le
    linarith
  have x4 : |n| * |v * d1 - u * d2| ≤ |n| * (3 * (|d1| * (1 + 1 / 2 ^ 20))) :=
    mul_le_mul_of_nonneg_left (by linarith) n0
  have x5 : |d1| * |u * c + v * n| ≤ |d1| * (2 * δ + (|c| + 4 * (1 + 1 / 2 ^ 20) * |n|)) := by
    rw [← abs_mul, e1]
    refine (abs_add_le _ _).trans ?_
    rw [abs_mul, abs_mul]
    linarith
  have x6 := le_of_mul_le_mul_left x5 hp
  norm_num at x6
  linarith

theorem flat_exact {a b c d : ℚ} (ra : Rep 24 (-149) a) (rb : Rep 24 (-149) b) (rc : Rep 24 (-149) c)
    (rd : Rep 24 (-149) d) (h : |rnd32 (a - b)| ≤ |rnd32 (c - d)|) : |a - b| ≤ |c - d| * (1 + 1 / 2 ^ 20) := by
  have e1 : |rnd32 (a - b) - (a - b)| ≤ |a - b| * 2 ^ (-(24 : Nat) : Int) := rnd_sub_error (by norm_num) ra rb
  have e2 : |rnd32 (c - d) - (c - d)| ≤ |c - d| * 2 ^ (-(24 : Nat) : Int) := rnd_sub_error (by norm_num) rc rd
  have f1 := abs_sub_abs_le_abs_sub (a - b) (rnd32 (a - b))
  have f2 := abs_sub_abs_le_abs_sub (rnd32 (c - d)) (c - d)
  rw [abs_sub_comm (a - b) (rnd32 (a - b))] at f1
  have n1 := abs_nonneg (a - b)
  have n2 := abs_nonneg (c - d)
  norm_num at e1 e2 ⊢
  linarith

theorem bresenham32_self (s : ℚ × ℚ) : bresenham32 s s = [(truncQ s.1, truncQ s.2)] := by
  unfold bresenham32 new32 ordered32
  rw [if_neg (by simp [rnd32]), if_neg (lt_irrefl _)]
  have : ((mk32 false s.1 s.2 s.1 s.2).endX + 1 - (mk32 false s.1 s.2 s.1 s.2).x).toNat = 1 := by
    simp [mk32]
  rw [this]
  simp [collect32, next32, mk32, Bres.pt]

/-- A coordinate between the truncated end points. -/
theorem trunc_between {s e : ℚ} (hs : 0 ≤ s) (he : 0 ≤ e) {a : Int} (h1 : min (truncQ s) (truncQ e) ≤ a)
    (h2 : a ≤ max (truncQ s) (truncQ e)) : |(a : ℚ) - s| ≤ |e - s| + 1 := by
  have t1 := truncQ_near s
  have t2 := truncQ_near e
  have u1 : ((truncQ s : Int) : ℚ) ≤ s := by unfold truncQ; rw [if_pos hs]; exact Int.floor_le s
  have u2 : ((truncQ e : Int) : ℚ) ≤ e := by unfold truncQ; rw [if_pos he]; exact Int.floor_le e
  rw [abs_lt] at t1 t2
  have g1 := le_abs_self (e - s)
  have g2 := neg_abs_le (e - s)
  have g3 := abs_nonneg (e - s)
  rw [abs_le]
  constructor
  · rcases min_le_iff.1 h1 with g | g
    · have : ((truncQ s : Int) : ℚ) ≤ a := by exact_mod_cast g
      linarith
    · have : ((truncQ e : Int) : ℚ) ≤ a := by exact_mod_cast g
      linarith
  · rcases le_max_iff.1 h2 with g | g
    · have : (a : ℚ) ≤ (truncQ s : Int) := by exact_mod_cast g
      linarith
    · have : (a : ℚ) ≤ (truncQ e : Int) := by exact_mod_cast g
      linarith

/-- **C194** (partial: images up to `2 ^ 19` pixels per side, and only what is drawn is judged).  Every drawn pixel is
within `51/10 max(|sin|, |cos|)` plus a rounding allowance of the line. -/
theorem C194_near_partial (trig : Nat → ℚ × ℚ) {w h : Nat} (hw : 0 < w) (hh : 0 < h) (hw' : w ≤ 2 ^ 19)
    (hh' : h ≤ 2 ^ 19) (l : PolarLine) (hr : Rep 24 (-149) l.r) {sin cos : ℚ} (ht : trig l.angle = (sin, cos))
    (hs : l.angle = 0 ∧ sin = 0 ∧ cos = 1 ∨ l.angle = 90 ∧ sin = 1 ∧ cos = 0 ∨
      l.angle ≠ 0 ∧ l.angle ≠ 90 ∧ 1 / 2 ^ 20 ≤ |sin| ∧ |sin| ≤ 1 ∧ 1 / 2 ^ 20 ≤ |cos| ∧ |cos| ≤ 1)
    (p : Int × Int) (hp : Drawn32 trig w h l p) :
    |(p.1 : ℚ) * cos + p.2 * sin - l.r| ≤ 51 / 10 * max |sin| |cos| + max (w : ℚ) h / 2 ^ 20 := by
  obtain ⟨s, e, hl, hm⟩ := hp
  rw [ht] at hl
  dsimp only at hl
  have w24 : w ≤ 2 ^ 24 := hw'.trans (by norm_num)
  have h24 : h ≤ 2 ^ 24 := hh'.trans (by norm_num)
  obtain ⟨bs, fs⟩ := C152_points hw hh w24 h24 hs hl (Or.inl rfl)
  obtain ⟨be, fe⟩ := C152_points hw hh w24 h24 hs hl (Or.inr rfl)
  obtain ⟨rs1, rs2⟩ := ends_rep w24 h24 hr hl (Or.inl rfl)
  obtain ⟨re1, re2⟩ := ends_rep w24 h24 hr hl (Or.inr rfl)
  obtain ⟨⟨s1, s2, s3, s4⟩, -⟩ := bs
  obtain ⟨⟨e1, e2, e3, e4⟩, -⟩ := be
  have wq : (w : ℚ) ≤ 2 ^ 19 := by exact_mod_cast hw'
  have hq : (h : ℚ) ≤ 2 ^ 19 := by exact_mod_cast hh'
  have near := C118_near s e rs1 rs2 re1 re2 (by rw [abs_of_nonneg s1]; linarith)
    (by rw [abs_of_nonneg s3]; linarith) (by rw [abs_of_nonneg e1]; linarith)
    (by rw [abs_of_nonneg e3]; linarith) p hm
  have once := C118_once s e
  have M0 : (0 : ℚ) < max (w : ℚ) h := lt_max_of_lt_left (by exact_mod_cast hw)
  obtain ⟨δ, hδ⟩ : ∃ δ, δ = max (w : ℚ) h / 2 ^ 22 := ⟨_, rfl⟩
  have hδ' : max (w : ℚ) h / 2 ^ 20 = 4 * δ := by rw [hδ]; ring
  have δ0 : 0 < δ := by rw [hδ]; positivity
  rw [hδ']
  rw [← hδ] at fs fe
  have m1 := le_max_left |sin| |cos|
  have m2 := le_max_right |sin| |cos|
  have p0 := abs_nonneg sin
  have hdn : |(e.1 - s.1) * cos + (e.2 - s.2) * sin| ≤ 2 * δ := by
    rw [show (e.1 - s.1) * cos + (e.2 - s.2) * sin =
      (e.1 * cos + e.2 * sin - l.r) - (s.1 * cos + s.2 * sin - l.r) by ring]
    refine (abs_sub _ _).trans ?_
    linarith
  -- it suffices to bound the change from the start
  suffices hsuf : |((p.1 : ℚ) - s.1) * cos + (p.2 - s.2) * sin| ≤ 2 * δ + 51 / 10 * max |sin| |cos| by
    rw [show (p.1 : ℚ) * cos + p.2 * sin - l.r =
      ((p.1 - s.1) * cos + (p.2 - s.2) * sin) + (s.1 * cos + s.2 * sin - l.r) by ring]
    refine (abs_add_le _ _).trans ?_
    linarith
  by_cases hse : s = e
  · subst hse
    rw [bresenham32_self, List.mem_singleton] at hm
    rw [hm]
    dsimp only
    have t1 := truncQ_near s.1
    have t2 := truncQ_near s.2
    rw [abs_sub_comm] at t1 t2
    refine (abs_add_le _ _).trans ?_
    rw [abs_mul, abs_mul]
    have n1 := abs_nonneg (((truncQ s.1 : Int) : ℚ) - s.1)
    have n2 := abs_nonneg (((truncQ s.2 : Int) : ℚ) - s.2)
    have c0 := abs_nonneg cos
    nlinarith
  rcases le_or_gt |rnd32 (e.2 - s.2)| |rnd32 (e.1 - s.1)| with hf | hf
  · have hfl := flat_exact re2 rs2 re1 rs1 hf
    have d0 : e.1 - s.1 ≠ 0 := by
      intro h0
      rw [h0, abs_zero, zero_mul] at hfl
      have := abs_nonpos_iff.1 hfl
      exact hse (Prod.ext (by linarith) (by linarith))
    have hb : min (truncQ s.1) (truncQ e.1) ≤ p.1 ∧ p.1 ≤ max (truncQ s.1) (truncQ e.1) := by
      by_contra hcon
      exact (once.1 hf p.1).2 hcon p.2 hm
    exact near_core d0 hfl near (trunc_between s1 e1 hb.1 hb.2) hdn
  · have hfl := flat_exact re1 rs1 re2 rs2 hf.le
    have d0 : e.2 - s.2 ≠ 0 := by
      intro h0
      rw [h0, abs_zero, zero_mul] at hfl
      have := abs_nonpos_iff.1 hfl
      exact hse (Prod.ext (by linarith) (by linarith))
    have hb : min (truncQ s.2) (truncQ e.2) ≤ p.2 ∧ p.2 ≤ max (truncQ s.2) (truncQ e.2) := by
      by_contra hcon
      exact (once.2 hf p.2).2 hcon p.1 hm
    have near' : |((p.1 : ℚ) - s.1) * (e.2 - s.2) - (p.2 - s.2) * (e.1 - s.1)| ≤
        3 * max |e.2 - s.2| |e.1 - s.1| := by
      rw [max_comm, abs_sub_comm]
      exact near
    have := near_core d0 hfl near' (trunc_between s3 e3 hb.1 hb.2) (by rw [add_comm]; exact hdn)
    rw [add_comm, max_comm]
    exact this

/-- A whole coordinate between the truncated end points, near a number that is nearly between the end points. -/
theorem near_between {s e s' e' z δ : ℚ} (hs : 0 ≤ s) (he : 0 ≤ e) (hδ : δ ≤ 1 / 8) (h1 : |s - s'| ≤ δ)
    (h2 : |e - e'| ≤ δ) (g1 : min s' e' ≤ z) (g2 : z ≤ max s' e') :
    ∃ a : Int, (min (truncQ s) (truncQ e) ≤ a ∧ a ≤ max (truncQ s) (truncQ e)) ∧ |(a : ℚ) - z| ≤ 9 / 8 := by
  have tr : ∀ x : ℚ, 0 ≤ x → truncQ x = ⌊x⌋ := fun x hx => by unfold truncQ; rw [if_pos hx]
  rw [tr s hs, tr e he]
  rw [abs_le] at h1 h2
  wlog hse : s ≤ e generalizing s e s' e'
  · obtain ⟨a, ⟨x1, x2⟩, x3⟩ := this he hs h2 h1 (by rwa [min_comm]) (by rwa [max_comm]) (le_of_not_ge hse)
    exact ⟨a, ⟨by rwa [min_comm], by rwa [max_comm]⟩, x3⟩
  have fm := Int.floor_mono hse
  rw [min_eq_left fm, max_eq_right fm]
  have lo : s - δ ≤ z := by
    rcases min_le_iff.1 g1 with g | g <;> linarith
  have hi : z ≤ e + δ := by
    rcases le_max_iff.1 g2 with g | g <;> linarith
  have fs := Int.floor_le s
  have fs' := Int.lt_floor_add_one s
  have fe := Int.floor_le e
  have fe' := Int.lt_floor_add_one e
  have fz := Int.floor_le z
  have fz' := Int.lt_floor_add_one z
  rcases lt_or_ge z s with c | c
  · refine ⟨⌊s⌋, ⟨le_refl _, fm⟩, ?_⟩
    rw [abs_le]
    constructor <;> linarith
  · rcases lt_or_ge e z with c' | c'
    · refine ⟨⌊e⌋, ⟨fm, le_refl _⟩, ?_⟩
      rw [abs_le]
      constructor <;> linarith
    · refine ⟨⌊z⌋, ⟨Int.floor_mono c, Int.floor_mono c'⟩, ?_⟩
      rw [abs_le]
      constructor <;> linarith

/-- **C194** (partial: lines that keep clear of the corners by `(w + h) / 2 ^ 21`; see `C194_negation`).  If a point of the
line lies in the image rectangle, the course of the line has a pixel in a column or a row within 9/8 of that point. -/
theorem C194_cover_partial (trig : Nat → ℚ × ℚ) {w h : Nat} (hw : 0 < w) (hh : 0 < h) (hw' : w ≤ 2 ^ 19)
    (hh' : h ≤ 2 ^ 19) (l : PolarLine) {sin cos : ℚ} (ht : trig l.angle = (sin, cos))
    (hs : l.angle = 0 ∧ sin = 0 ∧ cos = 1 ∨ l.angle = 90 ∧ sin = 1 ∧ cos = 0 ∨
      l.angle ≠ 0 ∧ l.angle ≠ 90 ∧ 1 / 2 ^ 20 ≤ |sin| ∧ |sin| ≤ 1 ∧ 1 / 2 ^ 20 ≤ |cos| ∧ |cos| ≤ 1)
    (c0 : ((w : ℚ) + h) / 2 ^ 21 < |l.r|) (c1 : ((w : ℚ) + h) / 2 ^ 21 < |w * cos - l.r|)
    (c2 : ((w : ℚ) + h) / 2 ^ 21 < |h * sin - l.r|) (c3 : ((w : ℚ) + h) / 2 ^ 21 < |w * cos + h * sin - l.r|)
    (z : ℚ × ℚ) (hz : OnLine sin cos l.r z) (hr : InRect (w : ℚ) h z) :
    ∃ p : Int × Int, Drawn32 trig w h l p ∧ (|(p.1 : ℚ) - z.1| ≤ 9 / 8 ∨ |(p.2 : ℚ) - z.2| ≤ 9 / 8) := by
  have w24 : w ≤ 2 ^ 24 := hw'.trans (by norm_num)
  have h24 : h ≤ 2 ^ 24 := hh'.trans (by norm_num)
  have hc : Consistent sin cos l.angle := by
    rcases hs with h | h | ⟨a, b, h1, -, h2, -⟩
    · exact Or.inl h
    · exact Or.inr (Or.inl h)
    · exact Or.inr (Or.inr ⟨a, b, abs_pos.1 (lt_of_lt_of_le (by norm_num) h1),
        abs_pos.1 (lt_of_lt_of_le (by norm_num) h2)⟩)
  obtain ⟨P, Q, hPQ⟩ := C57_complete hc hz hr
  obtain ⟨lP, -, -, -⟩ := C57_points hc (by positivity) (by positivity) hPQ
  have pos : (0 : ℚ) ≤ ((w : ℚ) + h) / 2 ^ 21 := by positivity
  have hne : P ≠ Q := by
    rintro rfl
    have := C92_degenerate_only_at_corner hc (by exact_mod_cast hw) (by exact_mod_cast hh) hPQ
    unfold OnLine at lP
    rcases this with ⟨h1 | h1, h2 | h2⟩ <;> rw [h1, h2] at lP
    · rw [← lP] at c0; norm_num at c0; linarith
    · rw [← lP] at c2; norm_num at c2; linarith
    · rw [← lP] at c1; norm_num at c1; linarith
    · rw [← lP] at c3; norm_num at c3; linarith
  have ch := C92_chord_partial hc (by positivity) (by positivity) hPQ (Or.inr (Or.inr hne)) hz hr
  obtain ⟨-, hcl⟩ := C152_clear_partial (m := l.angle) hw hh w24 h24 (fun a b => by
    rcases hs with h | h | h
    · exact absurd h.1 a
    · exact absurd h.1 b
    · exact h.2.2) c0 c1 c2 c3
  obtain ⟨s, e, he, ns, nq⟩ := hcl P Q hPQ
  obtain ⟨⟨⟨s1, -, s3, -⟩, -⟩, -⟩ := C152_points hw hh w24 h24 hs he (Or.inl rfl)
  obtain ⟨⟨⟨e1, -, e3, -⟩, -⟩, -⟩ := C152_points hw hh w24 h24 hs he (Or.inr rfl)
  have wq : (w : ℚ) ≤ 2 ^ 19 := by exact_mod_cast hw'
  have hq : (h : ℚ) ≤ 2 ^ 19 := by exact_mod_cast hh'
  have δ8 : max (w : ℚ) h / 2 ^ 22 ≤ 1 / 8 := by
    have := max_le wq hq
    rw [div_le_iff₀ (by norm_num)]
    norm_num at this ⊢
    exact this
  have he' : intersectionPoints32 (trig l.angle).1 (trig l.angle).2 l.r l.angle w h = some (s, e) := by rw [ht]; exact he
  have once := C118_once s e
  rcases le_or_gt |rnd32 (e.2 - s.2)| |rnd32 (e.1 - s.1)| with hf | hf
  · obtain ⟨a, ha, hd⟩ := near_between s1 e1 δ8 ns.1 nq.1 ch.1 ch.2.1
    obtain ⟨b, hb, -⟩ := (once.1 hf a).1 ha
    exact ⟨(a, b), ⟨s, e, he', hb⟩, Or.inl (by dsimp only; linarith)⟩
  · obtain ⟨b, hb, hd⟩ := near_between s3 e3 δ8 ns.2 nq.2 ch.2.2.1 ch.2.2.2
    obtain ⟨a, ha, -⟩ := (once.2 hf b).1 hb
    exact ⟨(a, b), ⟨s, e, he', ha⟩, Or.inr (by dsimp only; linarith)⟩

/-- Drawing lines in `f32` can miss lines that cross the image: in an image of 3776 by 604 pixels nothing is drawn of a
line of which the exact clipping gives a chord of more than 930 columns and 603 rows; the rounded intersection
points of both ends fall outside the image. -/
theorem C194_negation {α : Type _} (im : Image α) (color : α) (hw : im.w = 3776) (hh : im.h = 604) :
    drawPolarLines32 (fun _ => (14070557 / 16777216, -9137527 / 16777216)) im [⟨-1550, 123⟩] color = some im ∧
    ∃ p q, lineEnds (fun _ => (14070557 / 16777216, -9137527 / 16777216)) ⟨-1550, 123⟩ im.w im.h = some (p, q) ∧
      930 < |p.1 - q.1| ∧ 603 < |p.2 - q.2| := by
  obtain ⟨⟨h1, h2⟩, -⟩ := C152_negation
  refine ⟨?_, ?_⟩
  · unfold drawPolarLines32 drawPolarLine32
    simp only [forList, hw, hh]
    rw [h1]
    rfl
  · unfold lineEnds
    rw [hw, hh]
    exact_mod_cast h2

/-- A line at 45 degrees in an image of 6 by 4 pixels: the painted pixels. -/
example : (drawPolarLines32 (fun _ => (11863283 / 16777216, 11863283 / 16777216))
    ⟨6, 4, fun _ _ => 0⟩ [⟨3, 45⟩] 7).map (fun o => (List.range 4).map fun y => (List.range 6).map fun x => o.px x y) =
    some [[0, 0, 0, 0, 7, 0], [0, 0, 0, 7, 0, 0], [0, 0, 7, 0, 0, 0], [0, 7, 0, 0, 0, 0]] := by decide +kernel

end Verif.Float
