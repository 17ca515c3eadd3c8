import Verif.Edges.Model
import Verif.Drawing.FillProps
import Mathlib.Logic.Relation
import Mathlib.Tactic.Push
import Mathlib.Tactic.IntervalCases
import Mathlib.Algebra.Order.Ring.Rat
/-
Property theorems C50 (hysteresis) and C89 (non-maximum suppression, Canny).
-/
namespace Verif.Edges
open Verif.Drawing (HasColour FillSeg colourCount put_of_has)
variable {α : Type _} [LinearOrder α]

/-! ### Specification -/

/-- A pixel of at least the given strength. -/
def AtLeast (inp : Image α) (v : α) (p : Nat × Nat) : Prop :=
  p.1 < inp.w ∧ p.2 < inp.h ∧ v ≤ inp.px p.1 p.2

/-- 8-neighbours. -/
def Nbr8 (p q : Nat × Nat) : Prop :=
  p ≠ q ∧ p.1 ≤ q.1 + 1 ∧ q.1 ≤ p.1 + 1 ∧ p.2 ≤ q.2 + 1 ∧ q.2 ≤ p.2 + 1

/-- `q` is a neighbour of `p`, but neither straight above nor above to the right. -/
def Nbr6 (p q : Nat × Nat) : Prop :=
  Nbr8 p q ∧ ¬ (q.2 + 1 = p.2 ∧ (q.1 = p.1 ∨ q.1 = p.1 + 1))

/-- `p` is reached from `s` by steps of `N` through pixels of strength at least `lo`. -/
def Joined (N : Nat × Nat → Nat × Nat → Prop) (inp : Image α) (lo : α) (s p : Nat × Nat) : Prop :=
  Relation.ReflTransGen (fun a b => N a b ∧ AtLeast inp lo b) s p

/-- Connected to a strong pixel. -/
def Kept (N : Nat × Nat → Nat × Nat → Prop) (inp : Image α) (lo hi : α) (p : Nat × Nat) : Prop :=
  ∃ s, AtLeast inp hi s ∧ Joined N inp lo s p

/-- Weak pixels stay off the image border. -/
def BorderClear (inp : Image α) (lo : α) : Prop :=
  ∀ p, AtLeast inp lo p → 1 ≤ p.1 ∧ p.1 + 1 < inp.w ∧ 1 ≤ p.2 ∧ p.2 + 1 < inp.h

/-! ### Lemmas -/

theorem forRange_ok {σ : Type _} {f : Nat → σ → Option σ} (I : σ → Prop)
    {lo hi : Nat} {s : σ} (h0 : I s)
    (hs : ∀ i s, lo ≤ i → i < hi → I s → ∃ s', f i s = some s' ∧ I s') :
    ∃ s', forRange lo hi s f = some s' ∧ I s' := by
  rcases Nat.le_total lo hi with h | h
  · exact forRange_spec (fun _ => I) h h0 hs
  · exact ⟨s, forRange_empty h, h0⟩

theorem neighbours_of_pos {x y : Nat} (hx : 1 ≤ x) (hy : 1 ≤ y) : ∃ l, neighbours x y = some l ∧
    ∀ q, q ∈ l ↔ Nbr6 (x, y) q := by
  unfold neighbours
  rw [csub_of_le hx, Option.bind_some, csub_of_le hy, Option.bind_some]
  refine ⟨_, rfl, ?_⟩
  rintro ⟨a, b⟩
  simp only [List.mem_cons, List.not_mem_nil, Prod.mk.injEq, or_false, Nbr6, Nbr8, ne_eq]
  omega

/-- Invariant of the tracking loop: `out` is the marked set, `st` the stack. -/
structure TrackInv (inp : Image α) (lo hi : α) (out : Image Nat) (st : List (Nat × Nat)) : Prop where
  w : out.w = inp.w
  h : out.h = inp.h
  bin : ∀ a b, out.px a b = 0 ∨ out.px a b = 255
  sound : ∀ a b, a < inp.w → b < inp.h → out.px a b = 255 → Kept Nbr6 inp lo hi (a, b) ∧
    AtLeast inp lo (a, b)
  stack : ∀ p ∈ st, AtLeast inp lo p ∧ out.px p.1 p.2 = 255

/-- Marked pixels off the stack (and not in `ex`) have marked weak neighbours. -/
def Closed (inp : Image α) (lo : α) (out : Image Nat) (st : List (Nat × Nat)) (ex : Nat × Nat → Prop) :
    Prop :=
  ∀ p q, p.1 < inp.w → p.2 < inp.h → out.px p.1 p.2 = 255 → p ∉ st → ¬ ex p → Nbr6 p q →
    AtLeast inp lo q → out.px q.1 q.2 = 255

theorem mark {inp : Image α} {lo hi : α} {out : Image Nat} {st : List (Nat × Nat)}
    (I : TrackInv inp lo hi out st) {q : Nat × Nat} (hq : AtLeast inp lo q)
    (hk : Kept Nbr6 inp lo hi q) (h0 : out.px q.1 q.2 = 0) :
    ∃ out', out.put q.1 q.2 255 = some out' ∧ TrackInv inp lo hi out' (q :: st) ∧
      colourCount out' 0 < colourCount out 0 ∧
      (∀ a b, out'.px a b = if a = q.1 ∧ b = q.2 then 255 else out.px a b) := by
  have hc : HasColour out 0 ((q.1 : Int), (q.2 : Int)) := by
    refine ⟨by dsimp only; omega, ?_, by dsimp only; omega, ?_, ?_⟩
    · rw [I.w]; dsimp only; have := hq.1; omega
    · rw [I.h]; dsimp only; have := hq.2.1; omega
    · simpa using h0
  obtain ⟨out', h1, h2⟩ := put_of_has (f := 255) hc
  rw [Int.toNat_natCast, Int.toNat_natCast] at h1
  have hpx : ∀ a b, out'.px a b = if a = q.1 ∧ b = q.2 then 255 else out.px a b := by
    intro a b
    rw [h2.px]
    exact if_congr (by omega) rfl rfl
  refine ⟨out', h1, ⟨h2.w.trans I.w, h2.h.trans I.h, fun a b => ?_, fun a b ha hb h => ?_, ?_⟩,
    h2.count_lt (by decide) (by omega), hpx⟩
  · rw [hpx]
    split
    · exact Or.inr rfl
    · exact I.bin a b
  · rw [hpx] at h
    split at h
    · rename_i e
      rw [e.1, e.2]; exact ⟨hk, hq⟩
    · exact I.sound a b ha hb h
  · intro p hp
    rcases List.mem_cons.1 hp with rfl | hp
    · exact ⟨hq, by rw [hpx, if_pos ⟨rfl, rfl⟩]⟩
    · refine ⟨(I.stack p hp).1, ?_⟩
      rw [hpx]
      split
      · rfl
      · exact (I.stack p hp).2

theorem visits {inp : Image α} {lo hi : α} (p : Nat × Nat) (hp : Kept Nbr6 inp lo hi p)
    (hin : p.1 + 1 < inp.w ∧ p.2 + 1 < inp.h) :
    ∀ (l : List (Nat × Nat)) (out : Image Nat) (st : List (Nat × Nat)), (∀ q ∈ l, Nbr6 p q) →
      TrackInv inp lo hi out st → Closed inp lo out st (· = p) →
      ∃ r, forList l (out, st) (visit inp lo) = some r ∧ TrackInv inp lo hi r.1 r.2 ∧
        Closed inp lo r.1 r.2 (· = p) ∧
        colourCount r.1 0 + r.2.length ≤ colourCount out 0 + st.length ∧
        (∀ a b, out.px a b = 255 → r.1.px a b = 255) ∧
        ∀ q ∈ l, AtLeast inp lo q → r.1.px q.1 q.2 = 255
  | [], out, st, _, I, C => ⟨_, rfl, I, C, le_refl _, fun _ _ h => h, fun q hq => by cases hq⟩
  | q :: l, out, st, hl, I, C => by
    have hn := hl q (List.mem_cons_self ..)
    have hqw : q.1 < inp.w := by have := hn.1.2.2.1; omega
    have hqh : q.2 < inp.h := by have := hn.1.2.2.2.2; omega
    rw [forList, visit, Image.get_of_inB hqw hqh, Option.bind_some,
      Image.get_of_inB (by rw [I.w]; exact hqw) (by rw [I.h]; exact hqh), Option.bind_some]
    have hl' : ∀ q ∈ l, Nbr6 p q := fun q h => hl q (List.mem_cons_of_mem _ h)
    by_cases hc : lo ≤ inp.px q.1 q.2 ∧ out.px q.1 q.2 = 0
    · rw [if_pos hc]
      have hq : AtLeast inp lo q := ⟨hqw, hqh, hc.1⟩
      have hk : Kept Nbr6 inp lo hi q := by
        obtain ⟨s, h1, h2⟩ := hp
        exact ⟨s, h1, h2.tail ⟨hn, hq⟩⟩
      obtain ⟨out', h1, h2, h3, hpx⟩ := mark I hq hk hc.2
      rw [h1, Option.bind_some, Option.bind_some]
      have C' : Closed inp lo out' (q :: st) (· = p) := by
        intro a b ha hb hm hs he hab hw
        rw [List.mem_cons, not_or] at hs
        have hne : ¬ (a.1 = q.1 ∧ a.2 = q.2) := fun h => hs.1 (Prod.ext h.1 h.2)
        rw [hpx, if_neg hne] at hm
        rw [hpx]
        split
        · rfl
        · exact C a b ha hb hm hs.2 he hab hw
      obtain ⟨r, g1, g2, g3, g4, g5, g6⟩ := visits p hp hin l out' (q :: st) hl' h2 C'
      refine ⟨r, g1, g2, g3, ?_, ?_, ?_⟩
      · rw [List.length_cons] at g4; omega
      · intro a b h
        apply g5
        rw [hpx]
        split
        · rfl
        · exact h
      · intro q' hq' hw
        rcases List.mem_cons.1 hq' with rfl | hq'
        · apply g5; rw [hpx, if_pos ⟨rfl, rfl⟩]
        · exact g6 q' hq' hw
    · rw [if_neg hc, Option.bind_some]
      obtain ⟨r, g1, g2, g3, g4, g5, g6⟩ := visits p hp hin l out st hl' I C
      refine ⟨r, g1, g2, g3, g4, g5, ?_⟩
      intro q' hq' hw
      rcases List.mem_cons.1 hq' with rfl | hq'
      · apply g5
        rcases I.bin q'.1 q'.2 with h | h
        · exact absurd ⟨hw.2.2, h⟩ hc
        · exact h
      · exact g6 q' hq' hw

theorem track_spec {inp : Image α} {lo hi : α} (hb : BorderClear inp lo) :
    ∀ (n : Nat) (out : Image Nat) (st : List (Nat × Nat)),
      colourCount out 0 + st.length ≤ n → TrackInv inp lo hi out st →
      Closed inp lo out st (fun _ => False) →
      ∃ r, track inp lo n out st = some r ∧ TrackInv inp lo hi r [] ∧
        Closed inp lo r [] (fun _ => False) ∧ (∀ a b, out.px a b = 255 → r.px a b = 255)
  | n, out, [], _, I, C => by
    rw [track]
    exact ⟨_, rfl, I, C, fun _ _ h => h⟩
  | 0, out, p :: st, hn, _, _ => by rw [List.length_cons] at hn; omega
  | n + 1, out, p :: st, hn, I, C => by
    rw [track]
    obtain ⟨hw, hm⟩ := I.stack p (List.mem_cons_self ..)
    obtain ⟨b1, b2, b3, b4⟩ := hb p hw
    obtain ⟨l, h1, h2⟩ := neighbours_of_pos b1 b3
    rw [h1, Option.bind_some]
    have I' : TrackInv inp lo hi out st :=
      ⟨I.w, I.h, I.bin, I.sound, fun q hq => I.stack q (List.mem_cons_of_mem _ hq)⟩
    have hk := (I.sound p.1 p.2 hw.1 hw.2.1 hm).1
    obtain ⟨r, g1, g2, g3, g4, g5, g6⟩ := visits p hk ⟨b2, b4⟩ l out st (fun q hq => (h2 q).1 hq) I'
      (fun a b ha hb' hm' hs he hab hw' => C a b ha hb' hm'
        (fun h => (List.mem_cons.1 h).elim he hs) (fun h => h) hab hw')
    rw [g1, Option.bind_some]
    obtain ⟨r', k1, k2, k3, k4⟩ := track_spec hb n r.1 r.2
      (by rw [List.length_cons] at hn; omega) g2 (by
        intro a b ha hb' hm' hs _ hab hw'
        by_cases he : a = p
        · rw [he] at hab
          exact g6 b ((h2 b).2 hab) hw'
        · exact g3 a b ha hb' hm' hs he hab hw')
    exact ⟨r', k1, k2, k3, fun a b h => k4 a b (g5 a b h)⟩

theorem colourCount_new (w h : Nat) : colourCount (Image.new w h 0) 0 ≤ w * h :=
  Drawing.colourCount_le _ _

/-! ### C50 -/

/-- The loop's exact result, when weak pixels stay off the border: a pixel is white exactly when it
is reached from a strong pixel by steps to the right, down, down-right, left, up-left and
down-left through weak pixels; every other pixel is black. -/
theorem C50_exact (inp : Image α) (lo hi : α) (hb : BorderClear inp lo) (hlh : lo ≤ hi)
    (hw : 0 < inp.w) (hh : 0 < inp.h) :
    ∃ out, hysteresis inp lo hi = some out ∧ out.w = inp.w ∧ out.h = inp.h ∧
      ∀ a b, a < inp.w → b < inp.h →
        (Kept Nbr6 inp lo hi (a, b) → out.px a b = 255) ∧
        (¬ Kept Nbr6 inp lo hi (a, b) → out.px a b = 0) := by
  unfold hysteresis
  rw [csub_of_le hh, Option.bind_some]
  let done : Nat → Nat → Image Nat → Prop := fun x y out =>
    ∀ a b, 1 ≤ a → a + 1 < inp.w → 1 ≤ b → (b < y ∨ b = y ∧ a < x) → hi ≤ inp.px a b →
      out.px a b = 255
  have key := fun (h2 : 2 ≤ inp.h) => forRange_spec (lo := 1) (hi := inp.h - 1)
    (s := Image.new inp.w inp.h 0)
    (f := fun y out => (csub inp.w 1).bind fun x1 => forRange 1 x1 out fun x out =>
      (inp.get x y).bind fun i => (out.get x y).bind fun o =>
      if hi ≤ i ∧ o = 0 then
        (out.put x y 255).bind fun out => track inp lo (inp.w * inp.h + 1) out [(x, y)]
      else some out)
    (fun y out => (TrackInv inp lo hi out [] ∧ Closed inp lo out [] (fun _ => False)) ∧
      colourCount out 0 ≤ inp.w * inp.h ∧ done 1 y out)
    (by omega)
  have hinit : (TrackInv inp lo hi (Image.new inp.w inp.h 0) [] ∧
      Closed inp lo (Image.new inp.w inp.h 0) [] (fun _ => False)) ∧
      colourCount (Image.new inp.w inp.h 0) 0 ≤ inp.w * inp.h ∧
      done 1 1 (Image.new inp.w inp.h 0) := by
    refine ⟨⟨⟨rfl, rfl, fun _ _ => Or.inl rfl, fun a b _ _ h => ?_, fun p hp => by cases hp⟩, ?_⟩,
      colourCount_new _ _, ?_⟩
    · exact absurd h (by simp [Image.new])
    · intro p q _ _ h
      exact absurd h (by simp [Image.new])
    · intro a b h1 h2 h3 h4
      omega
  have fin : ∀ out, (TrackInv inp lo hi out [] ∧ Closed inp lo out [] (fun _ => False)) →
      done 1 (inp.h - 1) out → out.w = inp.w ∧ out.h = inp.h ∧
      ∀ a b, a < inp.w → b < inp.h →
        (Kept Nbr6 inp lo hi (a, b) → out.px a b = 255) ∧
        (¬ Kept Nbr6 inp lo hi (a, b) → out.px a b = 0) := by
    rintro out ⟨I, C⟩ D
    refine ⟨I.w, I.h, fun a b ha hb' => ⟨?_, fun h => ?_⟩⟩
    · rintro ⟨s, hs, hj⟩
      have hsw : AtLeast inp lo s := ⟨hs.1, hs.2.1, le_trans hlh hs.2.2⟩
      have hsb := hb s hsw
      have h0 : out.px s.1 s.2 = 255 := D s.1 s.2 hsb.1 hsb.2.1 hsb.2.2.1 (by omega) hs.2.2
      suffices h : ∀ q, Joined Nbr6 inp lo s q → q.1 < inp.w ∧ q.2 < inp.h ∧
          out.px q.1 q.2 = 255 from (h (a, b) hj).2.2
      intro q hq
      induction hq with
      | refl => exact ⟨hs.1, hs.2.1, h0⟩
      | tail _ h ih =>
        exact ⟨h.2.1, h.2.2.1, C _ _ ih.1 ih.2.1 ih.2.2 (by simp) (fun h => h) h.1 h.2⟩
    · rcases I.bin a b with h1 | h1
      · exact h1
      · exact absurd (I.sound a b ha hb' h1).1 h
  rcases Nat.lt_or_ge inp.h 2 with h2 | h2
  · rw [forRange_empty (by omega)]
    refine ⟨_, rfl, fin _ hinit.1 ?_⟩
    intro a b h3 h4 h5 h6
    omega
  · obtain ⟨out, e, h3⟩ := key h2 hinit (by
      rintro y out hy1 hy2 ⟨IC, hcnt, D⟩
      rw [csub_of_le hw, Option.bind_some]
      rcases Nat.lt_or_ge inp.w 2 with hw2 | hw2
      · rw [forRange_empty (by omega)]
        refine ⟨_, rfl, IC, hcnt, ?_⟩
        intro a b h3 h4
        omega
      · obtain ⟨out', e, J⟩ := forRange_spec (lo := 1) (hi := inp.w - 1) (s := out)
          (f := fun x out => (inp.get x y).bind fun i => (out.get x y).bind fun o =>
            if hi ≤ i ∧ o = 0 then
              (out.put x y 255).bind fun out => track inp lo (inp.w * inp.h + 1) out [(x, y)]
            else some out)
          (fun x out => (TrackInv inp lo hi out [] ∧ Closed inp lo out [] (fun _ => False)) ∧
            colourCount out 0 ≤ inp.w * inp.h ∧ done x y out)
          (by omega) ⟨IC, hcnt, D⟩ (by
            rintro x out hx1 hx2 ⟨⟨I, C⟩, hcnt, D⟩
            rw [Image.get_of_inB (by omega) (by omega), Option.bind_some,
              Image.get_of_inB (by rw [I.w]; omega) (by rw [I.h]; omega), Option.bind_some]
            by_cases hc : hi ≤ inp.px x y ∧ out.px x y = 0
            · rw [if_pos hc]
              have hs : AtLeast inp hi (x, y) := ⟨by dsimp only; omega, by dsimp only; omega, hc.1⟩
              have hsl : AtLeast inp lo (x, y) := ⟨hs.1, hs.2.1, le_trans hlh hc.1⟩
              obtain ⟨o1, g1, g2, g3, hpx⟩ := mark I hsl
                ⟨(x, y), hs, Relation.ReflTransGen.refl⟩ hc.2
              rw [g1, Option.bind_some]
              obtain ⟨r, k1, k2, k3, k4⟩ := track_spec hb (inp.w * inp.h + 1) o1 [(x, y)]
                (by simp only [List.length_singleton]; omega) g2 (by
                  intro a b ha hb' hm hs' _ hab hw'
                  have hne : ¬ (a.1 = x ∧ a.2 = y) := fun h =>
                    hs' (List.mem_singleton.2 (Prod.ext h.1 h.2))
                  rw [hpx, if_neg hne] at hm
                  rw [hpx]
                  split
                  · rfl
                  · exact C a b ha hb' hm (by simp) (fun h => h) hab hw')
              refine ⟨r, k1, ⟨k2, k3⟩, ?_, ?_⟩
              · refine le_trans (Drawing.colourCount_le _ _) ?_
                rw [k2.w, k2.h]
              · intro a b h3 h4 h5 h6 h7
                apply k4
                rw [hpx]
                dsimp only
                split
                · rfl
                · exact D a b h3 h4 h5 (by omega) h7
            · rw [if_neg hc]
              refine ⟨out, rfl, ⟨I, C⟩, hcnt, ?_⟩
              intro a b h3 h4 h5 h6 h7
              by_cases he : a = x ∧ b = y
              · rcases I.bin a b with h | h
                · rw [he.1, he.2] at h h7; exact absurd ⟨h7, h⟩ hc
                · exact h
              · exact D a b h3 h4 h5 (by omega) h7)
        refine ⟨out', e, J.1, J.2.1, ?_⟩
        intro a b h3 h4 h5 h6 h7
        exact J.2.2 a b h3 h4 h5 (by omega) h7)
    exact ⟨out, e, fin out h3.1 h3.2.2⟩

theorem Joined.mono {N N' : Nat × Nat → Nat × Nat → Prop} (h : ∀ a b, N a b → N' a b)
    {inp : Image α} {lo : α} {s p : Nat × Nat} (hj : Joined N inp lo s p) : Joined N' inp lo s p :=
  Relation.ReflTransGen.mono (fun _ _ (hab : _ ∧ _) => (⟨h _ _ hab.1, hab.2⟩ : _ ∧ _)) _ _ hj

/-- C50 (full statement: a pixel is kept exactly when it is 8-connected through weak pixels to a
strong pixel).  Proved: strong pixels are kept, and every kept pixel is 8-connected through weak
pixels to a strong one.  Missing: a weak pixel joined to a strong one only by a step straight up
or up to the right is dropped (`C50_negation`); the exact set is `C50_exact`. -/
theorem C50_sound_partial (inp : Image α) (lo hi : α) (hb : BorderClear inp lo) (hlh : lo ≤ hi)
    (hw : 0 < inp.w) (hh : 0 < inp.h) :
    ∃ out, hysteresis inp lo hi = some out ∧ ∀ a b, a < inp.w → b < inp.h →
      (out.px a b = 0 ∨ out.px a b = 255) ∧
      (out.px a b = 255 → Kept Nbr8 inp lo hi (a, b)) ∧
      (hi ≤ inp.px a b → out.px a b = 255) := by
  obtain ⟨out, e, _, _, h⟩ := C50_exact inp lo hi hb hlh hw hh
  refine ⟨out, e, fun a b ha hb' => ?_⟩
  obtain ⟨h1, h2⟩ := h a b ha hb'
  by_cases hk : Kept Nbr6 inp lo hi (a, b)
  · refine ⟨Or.inr (h1 hk), fun _ => ?_, fun _ => h1 hk⟩
    obtain ⟨s, h3, h4⟩ := hk
    exact ⟨s, h3, h4.mono fun _ _ h => h.1⟩
  · refine ⟨Or.inl (h2 hk), fun h => ?_, fun h => ?_⟩
    · rw [h2 hk] at h; cases h
    · exact absurd ⟨(a, b), ⟨ha, hb', h⟩, Relation.ReflTransGen.refl⟩ hk

/-- Strong pixel with a weak pixel straight above it. -/
def hystExample : Image Nat := Image.ofRows 0 [[0, 0, 0], [0, 5, 0], [0, 9, 0], [0, 0, 0]]

/-- C50, counterexample: the weak pixel above a strong pixel is dropped. -/
theorem C50_negation : BorderClear hystExample 3 ∧ Kept Nbr8 hystExample 3 8 (1, 1) ∧
    (hysteresis hystExample 3 8).map Image.rows =
      some [[0, 0, 0], [0, 0, 0], [0, 255, 0], [0, 0, 0]] := by
  refine ⟨?_, ⟨(1, 2), ?_, Relation.ReflTransGen.single ⟨?_, ?_⟩⟩, by decide +kernel⟩
  · rintro ⟨a, b⟩ ⟨h1, h2, h3⟩
    have h1' : a < 3 := h1
    have h2' : b < 4 := h2
    show 1 ≤ a ∧ a + 1 < 3 ∧ 1 ≤ b ∧ b + 1 < 4
    dsimp only at h3
    revert h3
    interval_cases a <;> interval_cases b <;> decide
  · exact ⟨by decide, by decide, by decide +kernel⟩
  · unfold Nbr8; decide
  · exact ⟨by decide, by decide, by decide +kernel⟩

/-- The same pixels the other way round are kept. -/
example : (hysteresis (Image.ofRows 0 [[0, 0, 0], [0, 9, 0], [0, 5, 0], [0, 0, 0]]) 3 8).map
    Image.rows = some [[0, 0, 0], [0, 255, 0], [0, 255, 0], [0, 0, 0]] := by decide +kernel

/-- A low threshold of zero makes the border weak and the call panics. -/
example : (hysteresis (Image.ofRows 0 [[0, 0, 0], [0, 9, 0], [0, 0, 0]]) 0 8).map
    Image.rows = none := by decide +kernel

/-! ### C89: non-maximum suppression and the complete detector -/

/-- The two neighbours of a pixel along a gradient sector. -/
def along (x y : Nat) : Sector → (Nat × Nat) × (Nat × Nat)
  | .d0 => ((x - 1, y), (x + 1, y))
  | .d45 => ((x - 1, y - 1), (x + 1, y + 1))
  | .d90 => ((x, y - 1), (x, y + 1))
  | .d135 => ((x + 1, y - 1), (x - 1, y + 1))

/-- The gradient magnitude at an interior pixel is at least that of both neighbours along the
gradient. -/
def LocalMax {β : Type _} (sector : β → β → Sector) (g : Image α) (gx gy : Image β) (x y : Nat) :
    Prop :=
  1 ≤ x ∧ x + 1 < g.w ∧ 1 ≤ y ∧ y + 1 < g.h ∧
  let n := along x y (sector (gx.px x y) (gy.px x y))
  g.px n.1.1 n.1.2 ≤ g.px x y ∧ g.px n.2.1 n.2.2 ≤ g.px x y

theorem compared_spec {g : Image α} {x y : Nat} (hx : 1 ≤ x) (hxw : x + 1 < g.w) (hy : 1 ≤ y)
    (hyh : y + 1 < g.h) (d : Sector) : ∃ c, compared g x y d = some c ∧
      ∀ v, (v < c.1 ∨ v < c.2) ↔ ¬ (g.px (along x y d).1.1 (along x y d).1.2 ≤ v ∧
        g.px (along x y d).2.1 (along x y d).2.2 ≤ v) := by
  cases d <;> simp only [compared, along, csub_of_le hx, csub_of_le hy, Option.bind_some]
  · rw [Image.get_of_inB (by omega) (by omega), Option.bind_some,
      Image.get_of_inB (by omega) (by omega), Option.bind_some]
    refine ⟨_, rfl, fun v => ?_⟩
    rw [not_and_or, not_le, not_le]
  · rw [Image.get_of_inB (by omega) (by omega), Option.bind_some,
      Image.get_of_inB (by omega) (by omega), Option.bind_some]
    refine ⟨_, rfl, fun v => ?_⟩
    rw [not_and_or, not_le, not_le, or_comm]
  · rw [Image.get_of_inB (by omega) (by omega), Option.bind_some,
      Image.get_of_inB (by omega) (by omega), Option.bind_some]
    refine ⟨_, rfl, fun v => ?_⟩
    rw [not_and_or, not_le, not_le]
  · rw [Image.get_of_inB (by omega) (by omega), Option.bind_some,
      Image.get_of_inB (by omega) (by omega), Option.bind_some]
    refine ⟨_, rfl, fun v => ?_⟩
    rw [not_and_or, not_le, not_le, or_comm]

/-- C89: suppression never reads outside the image, keeps the magnitude of the pixels that are
maximal along their gradient and clears every other pixel, including the image border. -/
theorem C89_suppression [Zero α] {β : Type _} (sector : β → β → Sector) (g : Image α)
    (gx gy : Image β) (hw : 0 < g.w) (hh : 0 < g.h) (hxw : gx.w = g.w) (hxh : gx.h = g.h)
    (hyw : gy.w = g.w) (hyh : gy.h = g.h) :
    ∃ out, nonMaxSuppression sector g gx gy = some out ∧ out.w = g.w ∧ out.h = g.h ∧
      ∀ a b, a < g.w → b < g.h →
        (LocalMax sector g gx gy a b → out.px a b = g.px a b) ∧
        (¬ LocalMax sector g gx gy a b → out.px a b = 0) := by
  unfold nonMaxSuppression
  rw [csub_of_le hh, Option.bind_some]
  let spec : Nat → Nat → Image α → Prop := fun x y out => out.w = g.w ∧ out.h = g.h ∧
    ∀ a b, a < g.w → b < g.h →
      ((LocalMax sector g gx gy a b ∧ (b < y ∨ b = y ∧ a < x)) → out.px a b = g.px a b) ∧
      (¬ (LocalMax sector g gx gy a b ∧ (b < y ∨ b = y ∧ a < x)) → out.px a b = 0)
  have h0 : spec 1 1 (Image.new g.w g.h 0) := by
    refine ⟨rfl, rfl, fun a b _ _ => ⟨?_, fun _ => rfl⟩⟩
    rintro ⟨⟨h1, h2, h3, h4, -⟩, h6⟩
    omega
  have fin : ∀ out, spec 1 (g.h - 1) out → out.w = g.w ∧ out.h = g.h ∧
      ∀ a b, a < g.w → b < g.h →
        (LocalMax sector g gx gy a b → out.px a b = g.px a b) ∧
        (¬ LocalMax sector g gx gy a b → out.px a b = 0) := by
    rintro out ⟨h1, h2, h3⟩
    refine ⟨h1, h2, fun a b ha hb => ⟨fun h => (h3 a b ha hb).1 ⟨h, ?_⟩,
      fun h => (h3 a b ha hb).2 fun h' => h h'.1⟩⟩
    obtain ⟨k1, k2, k3, k4, -⟩ := h
    omega
  have next : ∀ x x' y y' out, (∀ a b, 1 ≤ a → a + 1 < g.w → 1 ≤ b →
      ((b < y ∨ b = y ∧ a < x) ↔ (b < y' ∨ b = y' ∧ a < x'))) → spec x y out → spec x' y' out := by
    rintro x x' y y' out hm ⟨h1, h2, h3⟩
    refine ⟨h1, h2, fun a b ha hb => ?_⟩
    have e : (LocalMax sector g gx gy a b ∧ (b < y ∨ b = y ∧ a < x)) ↔
        (LocalMax sector g gx gy a b ∧ (b < y' ∨ b = y' ∧ a < x')) := by
      refine and_congr_right fun hl => hm a b hl.1 hl.2.1 hl.2.2.1
    rw [← e]; exact h3 a b ha hb
  rcases Nat.lt_or_ge g.h 2 with h2 | h2
  · rw [forRange_empty (by omega)]
    exact ⟨_, rfl, fin _ (next 1 1 1 (g.h - 1) _ (fun a b h1 h2 h3 => by omega) h0)⟩
  · have key := forRange_spec (lo := 1) (hi := g.h - 1) (s := Image.new g.w g.h 0)
      (f := fun y out => (csub g.w 1).bind fun x1 => forRange 1 x1 out fun x out =>
        (gx.get x y).bind fun dx => (gy.get x y).bind fun dy =>
        (compared g x y (sector dx dy)).bind fun c => (g.get x y).bind fun p =>
        if p < c.1 ∨ p < c.2 then out.put x y 0 else out.put x y p)
      (fun y out => spec 1 y out) (by omega) h0
    have key := key ?_
    · obtain ⟨out, e, h3⟩ := key
      exact ⟨out, e, fin out h3⟩
    · intro y out hy1 hy2 hI
      rw [csub_of_le hw, Option.bind_some]
      rcases Nat.lt_or_ge g.w 2 with hw2 | hw2
      · rw [forRange_empty (by omega)]
        exact ⟨_, rfl, next 1 1 y (y + 1) _ (fun a b h1 h2 h3 => by omega) hI⟩
      · have key := forRange_spec (lo := 1) (hi := g.w - 1) (s := out)
          (f := fun x out => (gx.get x y).bind fun dx => (gy.get x y).bind fun dy =>
            (compared g x y (sector dx dy)).bind fun c => (g.get x y).bind fun p =>
            if p < c.1 ∨ p < c.2 then out.put x y 0 else out.put x y p)
          (fun x out => spec x y out) (by omega) hI
        have key := key ?_
        · obtain ⟨out', e, J⟩ := key
          exact ⟨out', e, next _ _ _ _ _ (fun a b h1 h2 h3 => by omega) J⟩
        · rintro x out hx1 hx2 ⟨k1, k2, k3⟩
          rw [Image.get_of_inB (by omega) (by omega), Option.bind_some,
            Image.get_of_inB (by omega) (by omega), Option.bind_some]
          obtain ⟨c, hc, hc'⟩ := compared_spec (g := g) hx1 (by omega) hy1 (by omega)
            (sector (gx.px x y) (gy.px x y))
          rw [hc, Option.bind_some, Image.get_of_inB (by omega) (by omega), Option.bind_some]
          have hl : LocalMax sector g gx gy x y ↔ ¬ (g.px x y < c.1 ∨ g.px x y < c.2) := by
            rw [hc', not_not]
            unfold LocalMax
            dsimp only
            constructor
            · exact fun h => h.2.2.2.2
            · exact fun h => ⟨by omega, by omega, by omega, by omega, h⟩
          have upd : ∀ v, (LocalMax sector g gx gy x y → v = g.px x y) →
              (¬ LocalMax sector g gx gy x y → v = 0) →
              ∃ s', out.put x y v = some s' ∧ spec (x + 1) y s' := by
            intro v hv1 hv2
            rw [Image.put_of_inB _ (by omega) (by omega)]
            refine ⟨_, rfl, k1, k2, fun a b ha hb => ?_⟩
            dsimp only
            by_cases hab : a = x ∧ b = y
            · rw [if_pos hab, hab.1, hab.2]
              refine ⟨fun h => hv1 h.1, fun h => hv2 fun h' => h ⟨h', by omega⟩⟩
            · rw [if_neg hab]
              refine ⟨fun h => (k3 a b ha hb).1 ⟨h.1, by omega⟩,
                fun h => (k3 a b ha hb).2 fun h' => h ⟨h'.1, by omega⟩⟩
          split
          · rename_i h
            exact upd 0 (fun h' => absurd h (hl.1 h')) (fun _ => rfl)
          · rename_i h
            exact upd _ (fun _ => rfl) (fun h' => absurd (hl.2 h) h')

/-- C89: with thresholds `0 < low ≤ high` the detector never panics on a non-empty image, its
output is binary, every edge pixel is an interior local maximum of strength at least `low`,
connected through such pixels to one of strength at least `high`, and every local maximum of
strength at least `high` is an edge. -/
theorem C89_canny [Zero α] {β : Type _} (sector : β → β → Sector) (mag : β → β → α)
    (gx gy : Image β) (lo hi : α) (h0 : 0 < lo) (hlh : lo ≤ hi) (hw : 0 < gx.w) (hh : 0 < gx.h)
    (hyw : gy.w = gx.w) (hyh : gy.h = gx.h) :
    let g : Image α := ⟨gx.w, gx.h, fun x y => mag (gx.px x y) (gy.px x y)⟩
    let weak : Nat × Nat → Prop := fun p => p.1 < gx.w ∧ p.2 < gx.h ∧
      LocalMax sector g gx gy p.1 p.2 ∧ lo ≤ mag (gx.px p.1 p.2) (gy.px p.1 p.2)
    ∃ out, canny sector mag gx gy lo hi = some out ∧ out.w = gx.w ∧ out.h = gx.h ∧
      ∀ a b, a < gx.w → b < gx.h → (out.px a b = 0 ∨ out.px a b = 255) ∧
        (out.px a b = 255 → weak (a, b) ∧ ∃ s, weak s ∧
          hi ≤ mag (gx.px s.1 s.2) (gy.px s.1 s.2) ∧
          Relation.ReflTransGen (fun p q => Nbr8 p q ∧ weak q) s (a, b)) ∧
        (LocalMax sector g gx gy a b → hi ≤ mag (gx.px a b) (gy.px a b) → out.px a b = 255) := by
  intro g weak
  unfold canny
  rw [if_pos hlh]
  obtain ⟨th, e, t1, t2, t3⟩ := C89_suppression sector g gx gy hw hh rfl rfl hyw hyh
  rw [show (⟨gx.w, gx.h, fun x y => mag (gx.px x y) (gy.px x y)⟩ : Image α) = g from rfl, e,
    Option.bind_some]
  have t1' : th.w = gx.w := t1
  have t2' : th.h = gx.h := t2
  have hweak : ∀ v, lo ≤ v → ∀ p, AtLeast th v p → weak p ∧ v ≤ mag (gx.px p.1 p.2) (gy.px p.1 p.2) := by
    rintro v hv p ⟨h1, h2, h3⟩
    rw [t1'] at h1
    rw [t2'] at h2
    by_cases hl : LocalMax sector g gx gy p.1 p.2
    · rw [(t3 p.1 p.2 h1 h2).1 hl] at h3
      exact ⟨⟨h1, h2, hl, le_trans hv h3⟩, h3⟩
    · rw [(t3 p.1 p.2 h1 h2).2 hl] at h3
      exact absurd (lt_of_lt_of_le h0 (le_trans hv h3)) (lt_irrefl _)
  have hb : BorderClear th lo := by
    intro p hp
    obtain ⟨⟨_, _, h, _⟩, _⟩ := hweak lo (le_refl _) p hp
    obtain ⟨h1, h2, h3, h4, -⟩ := h
    rw [t1', t2']
    exact ⟨h1, h2, h3, h4⟩
  obtain ⟨out, o1, ow, oh, o2⟩ := C50_exact th lo hi hb hlh (by omega) (by omega)
  refine ⟨out, o1, ow.trans t1', oh.trans t2', fun a b ha hb' => ?_⟩
  obtain ⟨p1, p2⟩ := o2 a b (by omega) (by omega)
  by_cases hk : Kept Nbr6 th lo hi (a, b)
  · refine ⟨Or.inr (p1 hk), fun _ => ?_, fun _ _ => p1 hk⟩
    obtain ⟨s, hs, hj⟩ := hk
    obtain ⟨s1, s2⟩ := hweak hi hlh s hs
    have : weak (a, b) ∧ Relation.ReflTransGen (fun p q => Nbr8 p q ∧ weak q) s (a, b) := by
      clear p1 p2
      generalize (a, b) = q at hj
      induction hj with
      | refl => exact ⟨s1, Relation.ReflTransGen.refl⟩
      | tail _ h ih =>
        have hwk := (hweak lo (le_refl _) _ h.2).1
        exact ⟨hwk, ih.2.tail ⟨h.1.1, hwk⟩⟩
    exact ⟨this.1, s, s1, s2, this.2⟩
  · refine ⟨Or.inl (p2 hk), fun h => ?_, fun hl h => ?_⟩
    · rw [p2 hk] at h; cases h
    · refine absurd ⟨(a, b), ⟨by dsimp only; omega, by dsimp only; omega, ?_⟩,
        Relation.ReflTransGen.refl⟩ hk
      dsimp only
      rw [(t3 a b ha hb').1 hl]
      exact h

/-- A vertical step edge: the middle column is the local maximum. -/
example : (canny (fun _ _ => Sector.d0) (fun a _ => a)
    (Image.ofRows 0 [[0, 2, 9, 2, 0], [0, 2, 9, 2, 0], [0, 2, 9, 2, 0], [0, 0, 0, 0, 0]])
    (Image.ofRows 0 [[0, 0, 0, 0, 0], [0, 0, 0, 0, 0], [0, 0, 0, 0, 0], [0, 0, 0, 0, 0]]) 1 8).map
      Image.rows = some [[0, 0, 0, 0, 0], [0, 0, 255, 0, 0], [0, 0, 255, 0, 0],
        [0, 0, 0, 0, 0]] := by decide +kernel

end Verif.Edges
