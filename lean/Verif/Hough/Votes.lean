import Verif.Hough.Model
import Verif.Suppress.Props
import Verif.Basic.Raster
import Mathlib.Algebra.Order.Field.Basic
import Mathlib.Tactic.Linarith
import Mathlib.Tactic.Ring
import Mathlib.Tactic.Positivity
import Mathlib.Algebra.BigOperators.Ring.Finset
import Mathlib.Data.Nat.Sqrt
import Mathlib.Data.Rat.Floor
/-
Property theorem C58: Hough voting and line reporting.
-/
namespace Verif.Hough
open Finset

section general
variable {K : Type _} [Add K] [Mul K] [NatCast K]

/-- Signed distance of the line through `(x, y)` with normal at `m` degrees, cast to an integer. -/
def dist (toI : K → Int) (lut : Nat → K × K) (m : Nat) (p : Nat × Nat) : Int :=
  toI ((p.1 : K) * (lut m).2 + (p.2 : K) * (lut m).1)

/-- Number of foreground pixels at (integer) distance `r` for the angle `m`. -/
def votes (toI : K → Int) (lut : Nat → K × K) (im : Image Nat) (m : Nat) (r : Int) : Nat :=
  ((allPx im.w im.h).filter fun p => 0 < im.px p.1 p.2 ∧ dist toI lut m p = r).card

theorem vote_spec (toI : K → Int) (lut : Nat → K × K) (rmax x y : Nat) (acc : Image Nat)
    (hw : acc.w = 2 * rmax + 1) (hh : acc.h = 180) :
    ∃ out, vote toI lut rmax x y acc = some out ∧ out.w = acc.w ∧ out.h = acc.h ∧
      ∀ d m, d < acc.w → m < acc.h → out.px d m = acc.px d m +
        if dist toI lut m (x, y) = (d : Int) - rmax then 1 else 0 := by
  unfold vote
  obtain ⟨out, e, h1, h2, h3⟩ := forRange_spec (s := acc)
    (f := fun m (acc : Image Nat) =>
      let r := (x : K) * (lut m).2 + (y : K) * (lut m).1
      let d := toI r + rmax
      if d ≤ 2 * rmax ∧ d ≥ 0 then
        (acc.get d.toNat m).bind fun v => acc.put d.toNat m (v + 1)
      else some acc)
    (fun i out => out.w = acc.w ∧ out.h = acc.h ∧
      ∀ d m, d < acc.w → m < acc.h → out.px d m = acc.px d m +
        if m < i ∧ dist toI lut m (x, y) = (d : Int) - rmax then 1 else 0)
    (Nat.zero_le 180)
    ⟨rfl, rfl, fun d m _ _ => by simp⟩
    (by
      intro i out _ hi ⟨a, b, c⟩
      dsimp only
      obtain ⟨D, hD⟩ : ∃ D, D = toI ((x : K) * (lut i).2 + (y : K) * (lut i).1) := ⟨_, rfl⟩
      have hD' : dist toI lut i (x, y) = D := hD.symm
      rw [← hD]
      by_cases hc : D + rmax ≤ 2 * rmax ∧ D + rmax ≥ 0
      · rw [if_pos hc, Image.get_of_inB (by omega) (by omega), Option.bind_some,
          Image.put_of_inB _ (by omega) (by omega)]
        refine ⟨_, rfl, a, b, fun d m hd hm => ?_⟩
        dsimp only
        by_cases hq : d = (D + (rmax : Int)).toNat ∧ m = i
        · rw [if_pos hq]
          obtain ⟨h1, rfl⟩ := hq
          rw [c _ _ (by omega) (by omega), ← h1, if_neg (by omega), if_pos ⟨by omega, by omega⟩]
        · rw [if_neg hq, c _ _ hd hm]
          congr 1
          refine if_congr ?_ rfl rfl
          constructor
          · rintro ⟨p, q⟩; exact ⟨by omega, q⟩
          · rintro ⟨p, q⟩
            refine ⟨?_, q⟩
            by_contra hn
            have : m = i := by omega
            subst this
            omega
      · rw [if_neg hc]
        refine ⟨out, rfl, a, b, fun d m hd hm => ?_⟩
        rw [c _ _ hd hm]
        congr 1
        refine if_congr ?_ rfl rfl
        constructor
        · rintro ⟨p, q⟩; exact ⟨by omega, q⟩
        · rintro ⟨p, q⟩
          refine ⟨?_, q⟩
          by_contra hn
          have : m = i := by omega
          subst this
          omega)
  refine ⟨out, e, h1, h2, fun d m hd hm => ?_⟩
  rw [h3 d m hd hm]
  congr 1
  refine if_congr ?_ rfl rfl
  constructor
  · exact fun h => h.2
  · exact fun h => ⟨by omega, h⟩

/-- C58: every bucket of the accumulator ends up with the number of foreground pixels whose signed
distance at that angle falls into it. -/
theorem C58_votes (toI : K → Int) (lut : Nat → K × K) (im : Image Nat)
    (hs : im.w * im.w + im.h * im.h < 2 ^ 32) :
    ∃ acc, accumulate toI lut im = some acc ∧
      acc.w = 2 * Nat.sqrt (im.w * im.w + im.h * im.h) + 1 ∧ acc.h = 180 ∧
      ∀ d m, d < acc.w → m < 180 → acc.px d m =
        votes toI lut im m ((d : Int) - Nat.sqrt (im.w * im.w + im.h * im.h)) := by
  unfold accumulate diagonal
  rw [if_pos hs, Option.bind_some]
  generalize Nat.sqrt (im.w * im.w + im.h * im.h) = R
  refine raster_post (fun S (acc : Image Nat) => acc.w = 2 * R + 1 ∧ acc.h = 180 ∧
      ∀ d m, d < acc.w → m < 180 → acc.px d m =
        (S.filter fun p => 0 < im.px p.1 p.2 ∧ dist toI lut m p = (d : Int) - R).card)
    ⟨rfl, rfl, fun d m _ _ => by simp [Image.new]⟩ ?_ ?_
  · intro x y S acc hx hy hn ⟨a, b, c⟩
    rw [Image.get_of_inB hx hy, Option.bind_some]
    by_cases hp : im.px x y > 0
    · rw [if_pos hp]
      obtain ⟨out, e, h1, h2, h3⟩ := vote_spec toI lut R x y acc a b
      refine ⟨out, e, by omega, by omega, fun d m hd hm => ?_⟩
      rw [h3 d m (by omega) (by omega), c d m (by omega) hm, filter_insert]
      by_cases hq : dist toI lut m (x, y) = (d : Int) - R
      · rw [if_pos hq, if_pos ⟨hp, hq⟩, card_insert_of_notMem (by simp [hn])]
      · rw [if_neg hq, if_neg (fun h => hq h.2)]
        rfl
    · rw [if_neg hp]
      refine ⟨acc, rfl, a, b, fun d m hd hm => ?_⟩
      rw [c d m hd hm, filter_insert, if_neg (fun h => hp h.1)]
  · intro acc h
    exact h

/-- The number of votes of a bucket never exceeds the number of pixels, hence fits in 32 bits. -/
theorem C58_votes_bounded (toI : K → Int) (lut : Nat → K × K) (im : Image Nat)
    (hs : im.w * im.w + im.h * im.h < 2 ^ 32) (m : Nat) (r : Int) :
    votes toI lut im m r < 2 ^ 32 := by
  have h1 : votes toI lut im m r ≤ im.w * im.h := by
    refine le_trans (card_filter_le _ _) ?_
    simp [allPx]
  have h2 : im.w * im.h ≤ im.w * im.w + im.h * im.h := by nlinarith [Nat.zero_le im.w]
  omega

/-- `(r, m)` beats `(r', m')`: more votes, or equally many and lexicographically smaller. -/
def BeatsLine (v : Nat → Int → Nat) (r : Int) (m : Nat) (r' : Int) (m' : Nat) : Prop :=
  v m' r' < v m r ∨ v m r = v m' r' ∧ (r < r' ∨ r = r' ∧ m < m')

/-- C58: with a positive vote threshold the reported lines are exactly the lines with at least that
many votes which no line within the suppression radius (in distance and in angle) beats; every line
is reported once, ordered by angle and then distance. -/
theorem C58_lines (toI : K → Int) (lut : Nat → K × K) (im : Image Nat) (t radius : Nat)
    (hs : im.w * im.w + im.h * im.h < 2 ^ 32) (ht : 0 < t) :
    ∃ lines, detectLines toI lut im t radius = some lines ∧
      (∀ r m, (r, m) ∈ lines ↔
        m < 180 ∧ r.natAbs ≤ Nat.sqrt (im.w * im.w + im.h * im.h) ∧ t ≤ votes toI lut im m r ∧
        ∀ (r' : Int) (m' : Nat), m' < 180 → r'.natAbs ≤ Nat.sqrt (im.w * im.w + im.h * im.h) →
          (r' - r).natAbs ≤ radius → ((m' : Int) - m).natAbs ≤ radius →
          ¬ BeatsLine (votes toI lut im) r' m' r m) ∧
      lines.Pairwise (fun a b => a.2 < b.2 ∨ a.2 = b.2 ∧ a.1 < b.1) := by
  obtain ⟨acc, e, h1, h2, h3⟩ := C58_votes toI lut im hs
  unfold detectLines
  rw [e]
  unfold diagonal
  rw [if_pos hs]
  simp only [Option.bind_some]
  revert h1 h3
  generalize Nat.sqrt (im.w * im.w + im.h * im.h) = R
  intro h1 h3
  obtain ⟨sup, e2, w2, hh2, p2⟩ := Suppress.C29_suppress_non_maximum acc 0 radius
  rw [e2, Option.bind_some]
  have key : ∀ d m, d < acc.w → m < 180 → (sup.px d m ≥ t ↔
      t ≤ votes toI lut im m ((d : Int) - R) ∧
        ∀ (r' : Int) (m' : Nat), m' < 180 → r'.natAbs ≤ R →
          (r' - ((d : Int) - R)).natAbs ≤ radius → ((m' : Int) - m).natAbs ≤ radius →
          ¬ BeatsLine (votes toI lut im) r' m' ((d : Int) - R) m) := by
    intro d m hd hm
    have hW : Suppress.WindowMax acc radius d m ↔ ∀ (r' : Int) (m' : Nat), m' < 180 → r'.natAbs ≤ R →
          (r' - ((d : Int) - R)).natAbs ≤ radius → ((m' : Int) - m).natAbs ≤ radius →
          ¬ BeatsLine (votes toI lut im) r' m' ((d : Int) - R) m := by
      unfold Suppress.WindowMax Suppress.Beats BeatsLine
      constructor
      · intro h r' m' g1 g2 g3 g4 g5
        refine h (r' + R).toNat m' (by omega) (by omega) (by omega) (by omega) (by omega)
          (by omega) ?_
        rw [h3 _ _ (by omega) g1, h3 _ _ hd hm,
          show (((r' + R).toNat : Nat) : Int) - R = r' by omega]
        rcases g5 with g | ⟨g, g'⟩
        · exact Or.inl g
        · exact Or.inr ⟨g, by omega⟩
      · intro h a b g1 g2 g3 g4 g5 g6 g7
        refine h ((a : Int) - R) b (by omega) (by omega) (by omega) (by omega) ?_
        rw [h3 _ _ g1 (by omega), h3 _ _ hd hm] at g7
        rcases g7 with g | ⟨g, g'⟩
        · exact Or.inl g
        · exact Or.inr ⟨g, by omega⟩
    rw [p2 d m hd (by omega), ← hW, h3 d m hd hm]
    by_cases hw : Suppress.WindowMax acc radius d m
    · rw [if_pos hw]
      exact ⟨fun h => ⟨h, hw⟩, fun h => h.1⟩
    · rw [if_neg hw]
      exact ⟨fun h => by omega, fun h => absurd h.2 hw⟩
  obtain ⟨l, el, i1, i2, -⟩ := forYX_spec (s := ([] : List (Int × Nat)))
    (f := fun r m (lines : List (Int × Nat)) =>
      (sup.get r m).bind fun votes =>
      if votes ≥ t then some (lines ++ [((r : Int) - R, m)]) else some lines)
    (fun x y l => (∀ r m, (r, m) ∈ l ↔ ∃ d, d < sup.w ∧ r = (d : Int) - R ∧
        (m < y ∨ m = y ∧ d < x) ∧ sup.px d m ≥ t) ∧
      l.Pairwise (fun a b => a.2 < b.2 ∨ a.2 = b.2 ∧ a.1 < b.1) ∧ y ≤ sup.h)
    (Nat.zero_le sup.h) (Nat.zero_le sup.w)
    ⟨fun r m => ⟨fun h => by simp at h, fun ⟨_, _, _, h, _⟩ => by omega⟩, List.Pairwise.nil,
      Nat.zero_le _⟩
    (by
      intro x y l _ hx _ hy ⟨hm, hp, hyh⟩
      rw [Image.get_of_inB hx hy, Option.bind_some]
      by_cases hq : sup.px x y ≥ t
      · rw [if_pos hq]
        refine ⟨_, rfl, fun r m => ?_, ?_, hyh⟩
        · rw [List.mem_append, hm, List.mem_singleton]
          simp only [Prod.mk.injEq]
          constructor
          · rintro (⟨d, g1, g2, g3, g4⟩ | ⟨g1, g2⟩)
            · exact ⟨d, g1, g2, by omega, g4⟩
            · exact ⟨x, hx, g1, by omega, by rw [g2]; exact hq⟩
          · rintro ⟨d, g1, g2, g3, g4⟩
            by_cases hc : m < y ∨ m = y ∧ d < x
            · exact Or.inl ⟨d, g1, g2, hc, g4⟩
            · have hd : m = y ∧ d = x := by omega
              obtain ⟨rfl, rfl⟩ := hd
              exact Or.inr ⟨g2, rfl⟩
        · rw [List.pairwise_append]
          refine ⟨hp, List.pairwise_singleton _ _, ?_⟩
          rintro ⟨r, m⟩ ha c hc
          rw [List.mem_singleton] at hc
          subst hc
          obtain ⟨d, g1, g2, g3, g4⟩ := (hm r m).mp ha
          dsimp only
          omega
      · rw [if_neg hq]
        refine ⟨l, rfl, fun r m => ?_, hp, hyh⟩
        rw [hm]
        constructor
        · rintro ⟨d, g1, g2, g3, g4⟩
          exact ⟨d, g1, g2, by omega, g4⟩
        · rintro ⟨d, g1, g2, g3, g4⟩
          refine ⟨d, g1, g2, ?_, g4⟩
          by_contra hc
          have hd : m = y ∧ d = x := by omega
          obtain ⟨rfl, rfl⟩ := hd
          exact hq g4)
    (by
      intro y l _ hy ⟨hm, hp, hyh⟩
      refine ⟨fun r m => ?_, hp, hy⟩
      rw [hm]
      constructor
      · rintro ⟨d, g1, g2, g3, g4⟩; exact ⟨d, g1, g2, by omega, g4⟩
      · rintro ⟨d, g1, g2, g3, g4⟩; exact ⟨d, g1, g2, by omega, g4⟩)
  refine ⟨l, el, fun r m => ?_, i2⟩
  rw [i1]
  constructor
  · rintro ⟨d, g1, rfl, g3, g4⟩
    have := (key d m (by omega) (by omega)).mp g4
    exact ⟨by omega, by omega, this.1, this.2⟩
  · rintro ⟨g1, g2, g3, g4⟩
    refine ⟨(r + R).toNat, by omega, by omega, by omega, ?_⟩
    have hd : (((r + R).toNat : Nat) : Int) - R = r := by omega
    exact (key _ m (by omega) g1).mpr ⟨by rw [hd]; exact g3, by rw [hd]; exact g4⟩

/-- An image whose squared diagonal does not fit in 32 bits makes the size computation overflow. -/
theorem C58_oversized (toI : K → Int) (lut : Nat → K × K) (im : Image Nat) (t radius : Nat)
    (hs : 2 ^ 32 ≤ im.w * im.w + im.h * im.h) : detectLines toI lut im t radius = none := by
  unfold detectLines diagonal
  rw [if_neg (by omega)]
  rfl

/-- If every pixel falls into one of the buckets, the votes add up to the number of foreground
pixels. -/
theorem sum_votes (toI : K → Int) (lut : Nat → K × K) (im : Image Nat) (m R : Nat)
    (hb : ∀ p ∈ allPx im.w im.h, (dist toI lut m p).natAbs ≤ R) :
    ∑ d ∈ range (2 * R + 1), votes toI lut im m ((d : Int) - R) =
      ((allPx im.w im.h).filter fun p => 0 < im.px p.1 p.2).card := by
  unfold votes
  have hcov : (allPx im.w im.h).filter (fun p => 0 < im.px p.1 p.2) =
      (range (2 * R + 1)).biUnion fun d => (allPx im.w im.h).filter fun p =>
        0 < im.px p.1 p.2 ∧ dist toI lut m p = (d : Int) - R := by
    ext p
    simp only [mem_filter, mem_biUnion, mem_range]
    constructor
    · rintro ⟨h1, h2⟩
      have := hb p h1
      exact ⟨(dist toI lut m p + R).toNat, by omega, h1, h2, by omega⟩
    · rintro ⟨d, _, h1, h2, _⟩
      exact ⟨h1, h2⟩
  rw [hcov, card_biUnion]
  intro a _ b _ hab
  rw [Function.onFun, disjoint_left]
  intro p h1 h2
  simp only [mem_filter] at h1 h2
  omega

end general

section ordered
variable {K : Type _} [Field K] [LinearOrder K] [IsStrictOrderedRing K]

/-- C58: no vote is lost.  If the table consists of points of the unit disc and the cast does not
increase absolute values, the votes cast at any angle add up to the number of foreground pixels. -/
theorem C58_all_votes (toI : K → Int) (hI : ∀ r, |((toI r : Int) : K)| ≤ |r|) (lut : Nat → K × K)
    (hl : ∀ m, (lut m).1 * (lut m).1 + (lut m).2 * (lut m).2 ≤ 1) (im : Image Nat) (m : Nat) :
    let R := Nat.sqrt (im.w * im.w + im.h * im.h)
    ∑ d ∈ range (2 * R + 1), votes toI lut im m ((d : Int) - R) =
      ((allPx im.w im.h).filter fun p => 0 < im.px p.1 p.2).card := by
  intro R
  have hb : ∀ p ∈ allPx im.w im.h, (dist toI lut m p).natAbs ≤ R := by
    intro p hp
    rw [mem_allPx] at hp
    have h1 := hI ((p.1 : K) * (lut m).2 + (p.2 : K) * (lut m).1)
    have h2 := hl m
    obtain ⟨D, hD⟩ : ∃ D, D = dist toI lut m p := ⟨_, rfl⟩
    have hD' : toI ((p.1 : K) * (lut m).2 + (p.2 : K) * (lut m).1) = D := hD.symm
    rw [← hD]
    rw [hD'] at h1
    have h3 : ((D : Int) : K) * D ≤ (p.1 : K) * p.1 + (p.2 : K) * p.2 := by
      have e1 : ((D : Int) : K) * D ≤ ((p.1 : K) * (lut m).2 + (p.2 : K) * (lut m).1) *
          ((p.1 : K) * (lut m).2 + (p.2 : K) * (lut m).1) := by
        rw [← abs_mul_abs_self ((D : Int) : K),
          ← abs_mul_abs_self ((p.1 : K) * (lut m).2 + (p.2 : K) * (lut m).1)]
        exact mul_self_le_mul_self (abs_nonneg _) h1
      have e2 : 0 ≤ ((p.1 : K) * (lut m).1 - (p.2 : K) * (lut m).2) *
          ((p.1 : K) * (lut m).1 - (p.2 : K) * (lut m).2) := mul_self_nonneg _
      have e3 : 0 ≤ (p.1 : K) * p.1 + (p.2 : K) * p.2 := by positivity
      nlinarith
    have h4 : D.natAbs * D.natAbs ≤ p.1 * p.1 + p.2 * p.2 := by
      have : ((D * D : Int) : K) ≤ ((p.1 * p.1 + p.2 * p.2 : Int) : K) := by
        push_cast
        exact h3
      have h5 : D * D ≤ (p.1 * p.1 + p.2 * p.2 : Int) := by exact_mod_cast this
      have h6 : (D.natAbs : Int) * D.natAbs = D * D := by
        rw [Int.natAbs_mul_self']
      zify
      zify at h6
      linarith
    rw [Nat.le_sqrt]
    nlinarith
  exact sum_votes toI lut im m R hb

end ordered

/-- Rust's `as i32` on exact values: truncation towards zero. -/
def trunc (q : ℚ) : Int := if 0 ≤ q then ⌊q⌋ else ⌈q⌉

/-- The hypothesis on casts of `C58_all_votes` holds of truncation. -/
theorem trunc_le (q : ℚ) : |((trunc q : Int) : ℚ)| ≤ |q| := by
  unfold trunc
  split
  · rename_i h
    rw [abs_of_nonneg h, abs_of_nonneg (by exact_mod_cast Int.floor_nonneg.mpr h)]
    exact Int.floor_le q
  · rename_i h
    have h' : q ≤ 0 := le_of_lt (not_le.mp h)
    rw [abs_of_nonpos h', abs_of_nonpos (by exact_mod_cast Int.ceil_le.mpr (by exact_mod_cast h'))]
    have := Int.le_ceil q
    linarith

/-- The buckets are not all one pixel wide as the code comment says: truncation makes bucket zero
collect the distances of the open interval from −1 to 1, and every other bucket `r` the unit
interval starting at `r` on the side away from zero. -/
theorem C58_bucket_width (q : ℚ) (r : Int) : trunc q = r ↔
    (0 < r ∧ (r : ℚ) ≤ q ∧ q < r + 1) ∨ (r = 0 ∧ -1 < q ∧ q < 1) ∨
    (r < 0 ∧ (r : ℚ) - 1 < q ∧ q ≤ r) := by
  unfold trunc
  split
  · rename_i h
    rw [Int.floor_eq_iff]
    constructor
    · rintro ⟨h1, h2⟩
      rcases lt_trichotomy r 0 with hr | hr | hr
      · have : (r : ℚ) + 1 ≤ 0 := by exact_mod_cast hr
        linarith
      · subst hr
        right; left
        refine ⟨rfl, by linarith, by simpa using h2⟩
      · exact Or.inl ⟨hr, h1, h2⟩
    · rintro (⟨_, h1, h2⟩ | ⟨rfl, h1, h2⟩ | ⟨hr, h1, h2⟩)
      · exact ⟨h1, h2⟩
      · exact ⟨by simpa using h, by simpa using h2⟩
      · have : (r : ℚ) < 0 := by exact_mod_cast hr
        linarith
  · rename_i h
    rw [Int.ceil_eq_iff]
    constructor
    · rintro ⟨h1, h2⟩
      rcases lt_trichotomy r 0 with hr | hr | hr
      · exact Or.inr (Or.inr ⟨hr, h1, h2⟩)
      · subst hr
        right; left
        refine ⟨rfl, by simpa using h1, by linarith⟩
      · have : (1 : ℚ) ≤ r := by exact_mod_cast hr
        linarith
    · rintro (⟨hr, h1, h2⟩ | ⟨rfl, h1, h2⟩ | ⟨hr, h1, h2⟩)
      · have : (0 : ℚ) < r := by exact_mod_cast hr
        linarith
      · exact ⟨by simpa using h1, by push_cast; linarith⟩
      · exact ⟨h1, h2⟩

/-- A table with a single vertical and a single horizontal direction, for the example. -/
def exLut (m : Nat) : ℚ × ℚ := if m < 90 then (0, 1) else (1, 0)

/-- Two pixels in one column vote for the same line. -/
example : votes trunc exLut (Image.ofRows 0 [[0, 1], [0, 1]]) 0 1 = 2 := by decide +kernel

end Verif.Hough
