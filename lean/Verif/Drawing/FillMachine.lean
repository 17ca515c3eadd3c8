import Verif.Drawing.FillProps
/-
`flood_fill` (src/drawing/fill.rs) with `i32` coordinates, in debug builds (overflow panics) and release builds
(overflow wraps).  The loops run on the fuel of `FillModel.lean`; for runs that wrap, `none` can also mean that the
fuel is used up.  Property theorem C196.
-/
namespace Verif.Drawing
variable {α : Type _} [DecidableEq α]

/-! ### The model -/

/-- An `i32` result. -/
def i32 (dbg : Bool) (z : Int) : Option Int :=
  if -2 ^ 31 ≤ z ∧ z < 2 ^ 31 then some z else if dbg then none else some (Int.bmod z (2 ^ 32))

/-- fill.rs:31-34; see `fillLeft`. -/
def fillLeftM (dbg : Bool) (t f : α) : Nat → Image α → Int → Int → Option (Image α × Int)
  | 0, im, x, y => (i32 dbg (x - 1)).bind fun xm => if inside im xm y t then none else some (im, x)
  | n + 1, im, x, y => (i32 dbg (x - 1)).bind fun xm =>
    if inside im xm y t then
      (im.put xm.toNat y.toNat f).bind fun im => fillLeftM dbg t f n im xm y
    else some (im, x)

/-- fill.rs:40-43; see `fillRight`. -/
def fillRightM (dbg : Bool) (t f : α) : Nat → Image α → Int → Int → Option (Image α × Int)
  | 0, im, x, y => if inside im x y t then none else some (im, x)
  | n + 1, im, x, y =>
    if inside im x y t then
      (im.put x.toNat y.toNat f).bind fun im => (i32 dbg (x + 1)).bind fun x => fillRightM dbg t f n im x y
    else some (im, x)

/-- fill.rs:51-53; see `skipOut`. -/
def skipOutM (dbg : Bool) (t : α) (im : Image α) (x2 y : Int) : Nat → Int → Option Int
  | 0, x1 => if x1 < x2 ∧ inside im x1 y t = false then none else some x1
  | n + 1, x1 =>
    if x1 < x2 ∧ inside im x1 y t = false then (i32 dbg (x1 + 1)).bind fun x1 => skipOutM dbg t im x2 y n x1
    else some x1

/-- fill.rs:44-49; see `runPushes`. -/
def runPushesM (dbg : Bool) (x x1 x2 y dy : Int) : Option (List Span) :=
  (if x1 > x then (i32 dbg (x1 - 1)).bind fun e => (i32 dbg (y + dy)).map fun y' => [⟨x, e, y', dy⟩]
    else some []).bind fun a =>
  (i32 dbg (x1 - 1)).bind fun e =>
  (if e > x2 then (i32 dbg (x2 + 1)).bind fun b => (i32 dbg (y - dy)).map fun y' => [⟨b, e, y', -dy⟩]
    else some []).map fun c => c ++ a

/-- fill.rs:39-55; see `rowLoop`. -/
def rowLoopM (dbg : Bool) (t f : α) (x2 y dy : Int) :
    Nat → Image α → Int → Int → List Span → Option (Image α × List Span)
  | 0, im, _, x1, st => if x1 ≤ x2 then none else some (im, st)
  | n + 1, im, x, x1, st =>
    if x1 ≤ x2 then
      (fillRightM dbg t f (im.w + 1) im x1 y).bind fun r =>
      (runPushesM dbg x r.2 x2 y dy).bind fun new =>
      (i32 dbg (r.2 + 1)).bind fun x1 =>
      (skipOutM dbg t r.1 x2 y ((x2 - r.2).toNat + 1) x1).bind fun x1' =>
      rowLoopM dbg t f x2 y dy n r.1 x1' x1' (new ++ st)
    else some (im, st)

/-- fill.rs:30-38; see `leftPart`. -/
def leftPartM (dbg : Bool) (t f : α) (im : Image α) (s : Span) : Option (Image α × Int × List Span) :=
  if inside im s.x1 s.y t then
    (fillLeftM dbg t f (im.w + 1) im s.x1 s.y).bind fun r =>
    if r.2 < s.x1 then
      (i32 dbg (s.x1 - 1)).bind fun e => (i32 dbg (s.y - s.dy)).map fun y' => (r.1, r.2, [⟨r.2, e, y', -s.dy⟩])
    else some (r.1, r.2, [])
  else some (im, s.x1, [])

/-- fill.rs:28-55; see `processSpan`. -/
def processSpanM (dbg : Bool) (t f : α) (im : Image α) (s : Span) : Option (Image α × List Span) :=
  (leftPartM dbg t f im s).bind fun r =>
  rowLoopM dbg t f s.x2 s.y s.dy ((s.x2 + 1 - s.x1).toNat + 1) r.1 r.2.1 s.x1 r.2.2

/-- fill.rs:27-56; see `floodLoop`. -/
def floodLoopM (dbg : Bool) (t f : α) : Nat → Image α → List Span → Option (Image α)
  | 0, im, st => if st = [] then some im else none
  | n + 1, im, st =>
    match st with
    | [] => some im
    | s :: st => (processSpanM dbg t f im s).bind fun r => floodLoopM dbg t f n r.1 (r.2 ++ st)

/-- `flood_fill_mut`, fill.rs:16-57: the casts `as i32` wrap in both builds. -/
def floodFillM (dbg : Bool) (n : Nat) (im : Image α) (x y : Nat) (f : α) : Option (Image α) :=
  (im.get x y).bind fun t =>
  let x' := Int.bmod x (2 ^ 32)
  let y' := Int.bmod y (2 ^ 32)
  (i32 dbg (y' - 1)).bind fun y1 => floodLoopM dbg t f n im [⟨x', x', y1, -1⟩, ⟨x', x', y', 1⟩]

/-! ### Images whose sides fit -/

theorem i32_ok (dbg : Bool) {z : Int} (h1 : -2 ^ 31 ≤ z) (h2 : z < 2 ^ 31) : i32 dbg z = some z := if_pos ⟨h1, h2⟩

theorem inside_in {im : Image α} {x y : Int} {t : α} (h : inside im x y t = true) :
    0 ≤ x ∧ x < im.w ∧ 0 ≤ y ∧ y < im.h := by
  obtain ⟨h1, h2, h3, h4, -⟩ := (inside_iff im x y t).1 h
  exact ⟨h1, h2, h3, h4⟩

omit [DecidableEq α] in
theorem put_inside {im im' : Image α} {a b : Nat} {f : α} (h : im.put a b f = some im') :
    im'.w = im.w ∧ im'.h = im.h := by
  unfold Image.put at h
  split at h
  · cases h; exact ⟨rfl, rfl⟩
  · cases h

theorem fillLeftM_eq (dbg : Bool) (t f : α) (y : Int) : ∀ (n : Nat) (im : Image α) (x : Int), 0 ≤ x → x < 2 ^ 31 →
    fillLeftM dbg t f n im x y = fillLeft t f n im x y
  | 0, im, x, h1, h2 => by
    rw [fillLeftM, fillLeft, i32_ok dbg (by omega) (by omega), Option.bind_some]
  | n + 1, im, x, h1, h2 => by
    rw [fillLeftM, fillLeft, i32_ok dbg (by omega) (by omega), Option.bind_some]
    by_cases hc : inside im (x - 1) y t = true
    · rw [if_pos hc, if_pos hc]
      have := inside_in hc
      congr 1
      funext im'
      exact fillLeftM_eq dbg t f y n im' (x - 1) (by omega) (by omega)
    · rw [if_neg hc, if_neg hc]

theorem fillLeft_bounds (t f : α) (y : Int) : ∀ (n : Nat) (im : Image α) (x : Int) (r : Image α × Int),
    0 ≤ x → fillLeft t f n im x y = some r → r.1.w = im.w ∧ r.1.h = im.h ∧ 0 ≤ r.2 ∧ r.2 ≤ x
  | 0, im, x, r, h0, h => by
    rw [fillLeft] at h
    split at h
    · cases h
    · cases h; exact ⟨rfl, rfl, h0, le_refl _⟩
  | n + 1, im, x, r, h0, h => by
    rw [fillLeft] at h
    split at h
    · rename_i hc
      have hin := inside_in hc
      rw [Option.bind_eq_some_iff] at h
      obtain ⟨im', e, h⟩ := h
      obtain ⟨d1, d2⟩ := put_inside e
      obtain ⟨b1, b2, b3, b4⟩ := fillLeft_bounds t f y n im' (x - 1) r hin.1 h
      exact ⟨by omega, by omega, b3, by omega⟩
    · cases h; exact ⟨rfl, rfl, h0, le_refl _⟩

theorem fillRightM_eq (dbg : Bool) (t f : α) (y : Int) : ∀ (n : Nat) (im : Image α) (x : Int), im.w < 2 ^ 31 →
    fillRightM dbg t f n im x y = fillRight t f n im x y
  | 0, im, x, h => by rw [fillRightM, fillRight]
  | n + 1, im, x, h => by
    rw [fillRightM, fillRight]
    by_cases hc : inside im x y t = true
    · rw [if_pos hc, if_pos hc]
      have hin := inside_in hc
      have hw : (im.w : Int) < 2 ^ 31 := by exact_mod_cast h
      rcases hp : im.put x.toNat y.toNat f with _ | im'
      · rfl
      · rw [Option.bind_some, Option.bind_some, i32_ok dbg (by omega) (by omega), Option.bind_some]
        exact fillRightM_eq dbg t f y n im' (x + 1) (by rw [(put_inside hp).1]; exact h)
    · rw [if_neg hc, if_neg hc]

theorem fillRight_bounds (t f : α) (y : Int) : ∀ (n : Nat) (im : Image α) (x : Int) (r : Image α × Int),
    fillRight t f n im x y = some r → r.1.w = im.w ∧ r.1.h = im.h ∧ x ≤ r.2 ∧
      (x < r.2 → r.2 ≤ im.w ∧ 0 ≤ y ∧ y < im.h)
  | 0, im, x, r, h => by
    rw [fillRight] at h
    split at h
    · cases h
    · cases h; exact ⟨rfl, rfl, le_refl _, fun h => absurd h (lt_irrefl _)⟩
  | n + 1, im, x, r, h => by
    rw [fillRight] at h
    split at h
    · rename_i hc
      have hin := inside_in hc
      rw [Option.bind_eq_some_iff] at h
      obtain ⟨im', e, h⟩ := h
      obtain ⟨d1, d2⟩ := put_inside e
      obtain ⟨b1, b2, b3, b4⟩ := fillRight_bounds t f y n im' (x + 1) r h
      refine ⟨by omega, by omega, by omega, fun _ => ⟨?_, hin.2.2.1, hin.2.2.2⟩⟩
      rcases Int.lt_or_le (x + 1) r.2 with g | g
      · have := b4 g; omega
      · omega
    · cases h; exact ⟨rfl, rfl, le_refl _, fun h => absurd h (lt_irrefl _)⟩

theorem skipOutM_eq (dbg : Bool) (t : α) (im : Image α) (x2 y : Int) (h2 : x2 < 2 ^ 31) : ∀ (n : Nat) (x : Int),
    0 ≤ x → skipOutM dbg t im x2 y n x = skipOut t im x2 y n x
  | 0, x, h => by rw [skipOutM, skipOut]
  | n + 1, x, h => by
    rw [skipOutM, skipOut]
    by_cases hc : x < x2 ∧ inside im x y t = false
    · rw [if_pos hc, if_pos hc, i32_ok dbg (by omega) (by omega), Option.bind_some]
      exact skipOutM_eq dbg t im x2 y h2 n (x + 1) (by omega)
    · rw [if_neg hc, if_neg hc]

theorem skipOut_bounds (t : α) (im : Image α) (x2 y : Int) : ∀ (n : Nat) (x z : Int),
    skipOut t im x2 y n x = some z → x ≤ z ∧ (z = x ∨ z ≤ x2)
  | 0, x, z, h => by
    rw [skipOut] at h
    split at h
    · cases h
    · cases h; exact ⟨le_refl _, Or.inl rfl⟩
  | n + 1, x, z, h => by
    rw [skipOut] at h
    split at h
    · rename_i hc
      have := skipOut_bounds t im x2 y n (x + 1) z h
      omega
    · cases h; exact ⟨le_refl _, Or.inl rfl⟩

/-- A stack entry of an image with sides `w` and `h`. -/
def SpanOk (w h : Nat) (s : Span) : Prop :=
  0 ≤ s.x1 ∧ s.x1 ≤ s.x2 ∧ s.x2 < w ∧ -1 ≤ s.y ∧ s.y ≤ h ∧ (s.dy = 1 ∨ s.dy = -1)

theorem runPushesM_eq (dbg : Bool) {w h : Nat} (hw : w + 1 < 2 ^ 31) (hh : h < 2 ^ 31) {x x1 x2 y dy : Int}
    (h0 : 0 ≤ x) (h2 : 0 ≤ x2) (h2' : x2 < w) (hx : x ≤ x1) (hx1 : x1 ≤ w) (hdy : dy = 1 ∨ dy = -1)
    (hy : x < x1 → 0 ≤ y ∧ y < h) (hy' : x2 < x1 - 1 → 0 ≤ y ∧ y < h) :
    runPushesM dbg x x1 x2 y dy = some (runPushes x x1 x2 y dy) ∧ ∀ S ∈ runPushes x x1 x2 y dy, SpanOk w h S := by
  have hwI : (w : Int) + 1 < 2 ^ 31 := by exact_mod_cast hw
  have hhI : (h : Int) < 2 ^ 31 := by exact_mod_cast hh
  constructor
  · unfold runPushesM runPushes
    rw [i32_ok dbg (z := x1 - 1) (by omega) (by omega)]
    by_cases c1 : x1 > x
    · have := hy c1
      rw [i32_ok dbg (z := y + dy) (by omega) (by omega)]
      by_cases c2 : x1 - 1 > x2
      · rw [i32_ok dbg (z := x2 + 1) (by omega) (by omega), i32_ok dbg (z := y - dy) (by omega) (by omega)]
        simp [c1, c2]
      · simp [c1, c2]
    · by_cases c2 : x1 - 1 > x2
      · have := hy' c2
        rw [i32_ok dbg (z := x2 + 1) (by omega) (by omega), i32_ok dbg (z := y - dy) (by omega) (by omega)]
        simp [c1, c2]
      · simp [c1, c2]
  · intro S hS
    unfold SpanOk
    rcases runPushes_mem hS with ⟨c, rfl⟩ | ⟨c, rfl⟩ <;> dsimp only
    · have := hy' c
      omega
    · have := hy c
      omega

theorem rowLoopM_eq (dbg : Bool) (t f : α) {w h : Nat} (hw : w + 1 < 2 ^ 31) (hh : h < 2 ^ 31) {x2 y dy : Int}
    (h2 : 0 ≤ x2) (h2' : x2 < w) (hdy : dy = 1 ∨ dy = -1) :
    ∀ (n : Nat) (im : Image α) (x x1 : Int) (N : List Span), im.w = w → im.h = h → 0 ≤ x → x ≤ x1 →
      (x < x1 → 0 ≤ y ∧ y < h) → (∀ S ∈ N, SpanOk w h S) →
      rowLoopM dbg t f x2 y dy n im x x1 N = rowLoop t f x2 y dy n im x x1 N ∧
      ∀ r, rowLoop t f x2 y dy n im x x1 N = some r → r.1.w = w ∧ r.1.h = h ∧ ∀ S ∈ r.2, SpanOk w h S
  | 0, im, x, x1, N, e1, e2, h0, hx, hy, hN => by
    rw [rowLoopM, rowLoop]
    refine ⟨rfl, fun r hr => ?_⟩
    split at hr
    · cases hr
    · cases hr; exact ⟨e1, e2, hN⟩
  | n + 1, im, x, x1, N, e1, e2, h0, hx, hy, hN => by
    have hwI : (w : Int) + 1 < 2 ^ 31 := by exact_mod_cast hw
    rw [rowLoopM, rowLoop]
    by_cases hc : x1 ≤ x2
    · rw [if_pos hc, if_pos hc, fillRightM_eq dbg t f y _ im x1 (by omega)]
      rcases hf : fillRight t f (im.w + 1) im x1 y with _ | r
      · exact ⟨rfl, fun r hr => by cases hr⟩
      obtain ⟨b1, b2, b3, b4⟩ := fillRight_bounds t f y _ im x1 r hf
      rw [Option.bind_some, Option.bind_some]
      have r2 : r.2 ≤ w := by
        rcases Int.lt_or_le x1 r.2 with g | g
        · have := b4 g; omega
        · omega
      obtain ⟨p1, p2⟩ := runPushesM_eq dbg hw hh (x := x) (x1 := r.2) (x2 := x2) (y := y) (dy := dy) h0 h2 h2'
        (by omega) r2 hdy (fun g => by
          rcases Int.lt_or_le x x1 with g' | g'
          · exact hy g'
          · have := b4 (by omega); omega) (fun g => by have := b4 (by omega); omega)
      rw [p1, Option.bind_some, i32_ok dbg (by omega) (by omega), Option.bind_some,
        skipOutM_eq dbg t r.1 x2 y (by omega) _ (r.2 + 1) (by omega)]
      rcases hs : skipOut t r.1 x2 y ((x2 - r.2).toNat + 1) (r.2 + 1) with _ | z
      · exact ⟨rfl, fun r hr => by cases hr⟩
      have sb := skipOut_bounds t r.1 x2 y _ _ z hs
      rw [Option.bind_some, Option.bind_some]
      exact rowLoopM_eq dbg t f hw hh h2 h2' hdy n r.1 z z _ (by omega) (by omega) (by omega) (le_refl _)
        (fun g => absurd g (lt_irrefl _)) (by
          intro S hS
          rcases List.mem_append.1 hS with g | g
          · exact p2 S g
          · exact hN S g)
    · rw [if_neg hc, if_neg hc]
      exact ⟨rfl, fun r hr => by cases hr; exact ⟨e1, e2, hN⟩⟩

theorem processSpanM_eq (dbg : Bool) (t f : α) {w h : Nat} (hw : w + 1 < 2 ^ 31) (hh : h < 2 ^ 31) (im : Image α)
    (e1 : im.w = w) (e2 : im.h = h) (s : Span) (hs : SpanOk w h s) :
    processSpanM dbg t f im s = processSpan t f im s ∧
    ∀ r, processSpan t f im s = some r → r.1.w = w ∧ r.1.h = h ∧ ∀ S ∈ r.2, SpanOk w h S := by
  obtain ⟨s1, s2, s3, s4, s5, s6⟩ := hs
  have hwI : (w : Int) + 1 < 2 ^ 31 := by exact_mod_cast hw
  have hhI : (h : Int) < 2 ^ 31 := by exact_mod_cast hh
  have hl : leftPartM dbg t f im s = leftPart t f im s ∧ ∀ r, leftPart t f im s = some r →
      r.1.w = w ∧ r.1.h = h ∧ 0 ≤ r.2.1 ∧ r.2.1 ≤ s.x1 ∧ (r.2.1 < s.x1 → 0 ≤ s.y ∧ s.y < h) ∧
      ∀ S ∈ r.2.2, SpanOk w h S := by
    unfold leftPartM leftPart
    by_cases hc : inside im s.x1 s.y t = true
    · have hin := inside_in hc
      rw [if_pos hc, if_pos hc, fillLeftM_eq dbg t f s.y _ im s.x1 (by omega) (by omega)]
      rcases hf : fillLeft t f (im.w + 1) im s.x1 s.y with _ | r
      · exact ⟨rfl, fun r hr => by cases hr⟩
      obtain ⟨b1, b2, b3, b4⟩ := fillLeft_bounds t f s.y _ im s.x1 r (by omega) hf
      rw [Option.bind_some, Option.bind_some, i32_ok dbg (z := s.x1 - 1) (by omega) (by omega),
        i32_ok dbg (z := s.y - s.dy) (by omega) (by omega)]
      by_cases hlt : r.2 < s.x1
      · rw [if_pos hlt, if_pos hlt]
        refine ⟨rfl, fun r' hr => ?_⟩
        cases hr
        refine ⟨by dsimp only; omega, by dsimp only; omega, b3, b4, fun _ => by omega, ?_⟩
        intro S hS
        rw [List.mem_singleton] at hS
        subst hS
        unfold SpanOk
        dsimp only
        omega
      · rw [if_neg hlt, if_neg hlt]
        refine ⟨rfl, fun r' hr => ?_⟩
        cases hr
        exact ⟨by dsimp only; omega, by dsimp only; omega, b3, b4, fun _ => by omega, by simp⟩
    · rw [if_neg hc, if_neg hc]
      refine ⟨rfl, fun r' hr => ?_⟩
      cases hr
      exact ⟨e1, e2, s1, le_refl _, fun g => absurd g (lt_irrefl _), by simp⟩
  unfold processSpanM processSpan
  rw [hl.1]
  rcases hlp : leftPart t f im s with _ | r
  · exact ⟨rfl, fun r hr => by cases hr⟩
  obtain ⟨l1, l2, l3, l4, l5, l6⟩ := hl.2 r hlp
  rw [Option.bind_some, Option.bind_some]
  exact rowLoopM_eq dbg t f hw hh (by omega) s3 s6 _ r.1 r.2.1 s.x1 r.2.2 l1 l2 l3 l4 l5 l6

theorem floodLoopM_eq (dbg : Bool) (t f : α) {w h : Nat} (hw : w + 1 < 2 ^ 31) (hh : h < 2 ^ 31) :
    ∀ (n : Nat) (im : Image α) (st : List Span), im.w = w → im.h = h → (∀ S ∈ st, SpanOk w h S) →
      floodLoopM dbg t f n im st = floodLoop t f n im st
  | 0, im, st, _, _, _ => rfl
  | n + 1, im, [], _, _, _ => rfl
  | n + 1, im, s :: st, e1, e2, hs => by
    rw [floodLoopM, floodLoop]
    obtain ⟨p1, p2⟩ := processSpanM_eq dbg t f hw hh im e1 e2 s (hs s (by simp))
    rw [p1]
    rcases hp : processSpan t f im s with _ | r
    · rfl
    obtain ⟨q1, q2, q3⟩ := p2 r hp
    rw [Option.bind_some, Option.bind_some]
    refine floodLoopM_eq dbg t f hw hh n r.1 _ q1 q2 fun S hS => ?_
    rcases List.mem_append.1 hS with g | g
    · exact q3 S g
    · exact hs S (by simp [g])

theorem bmod_small {x : Nat} (h : x < 2 ^ 31) : Int.bmod (x : Int) (2 ^ 32) = x := by
  rw [Int.bmod_def]
  omega

/-- **C196.** In images with at most `2 ^ 31 - 2` columns and `2 ^ 31 - 1` rows no coordinate overflows: both builds do
what the unbounded model (C44) does, for every number of rounds. -/
theorem C196_fits (dbg : Bool) (n : Nat) (im : Image α) (x y : Nat) (f : α) (hw : im.w + 1 < 2 ^ 31)
    (hh : im.h < 2 ^ 31) : floodFillM dbg n im x y f = floodFill n im x y f := by
  unfold floodFillM floodFill
  by_cases hin : x < im.w ∧ y < im.h
  · rw [Image.get_of_inB hin.1 hin.2, Option.bind_some, Option.bind_some]
    dsimp only
    rw [bmod_small (by omega), bmod_small (by omega), i32_ok dbg (by omega) (by omega), Option.bind_some]
    refine floodLoopM_eq dbg _ f hw hh n im _ rfl rfl fun S hS => ?_
    simp only [List.mem_cons, List.not_mem_nil, or_false] at hS
    unfold SpanOk
    rcases hS with rfl | rfl <;> dsimp only <;> omega
  · unfold Image.get
    rw [if_neg (by unfold Image.InB; omega), Option.bind_none, Option.bind_none]

/-- **C196.** In such images both builds recolour exactly the 4-connected region of the seed, unless the fill colour is
the seed's colour (C44). -/
theorem C196_fill_partial (dbg : Bool) (im : Image α) (x y : Nat) (f : α) (hw : im.w + 1 < 2 ^ 31) (hh : im.h < 2 ^ 31)
    (hx : x < im.w) (hy : y < im.h) (hf : f ≠ im.px x y) (n : Nat) (hn : 3 * (im.w * im.h) + 2 ≤ n) :
    ∃ out, floodFillM dbg n im x y f = some out ∧ out.w = im.w ∧ out.h = im.h ∧
      ∀ a b : Nat, a < im.w → b < im.h →
        (InRegion im (im.px x y) (x, y) (a, b) → out.px a b = f) ∧
        (¬ InRegion im (im.px x y) (x, y) (a, b) → out.px a b = im.px a b) := by
  rw [C196_fits dbg n im x y f hw hh]
  exact C44_fill_partial im x y f hx hy hf n hn

/-! ### Wider images -/

theorem inside_neg (im : Image α) {x : Int} (y : Int) (t : α) (h : x < 0) : inside im x y t = false := by
  unfold inside
  rw [if_pos (Or.inl h)]

/-- A span of one pixel outside the image does nothing. -/
theorem processSpanM_out (dbg : Bool) (t f : α) (im : Image α) (x y dy : Int) (h1 : -2 ^ 31 < x) (h2 : x + 1 < 2 ^ 31)
    (hin : inside im x y t = false) : processSpanM dbg t f im ⟨x, x, y, dy⟩ = some (im, []) := by
  unfold processSpanM leftPartM
  dsimp only
  rw [hin, if_neg (by simp), Option.bind_some]
  dsimp only
  rw [show (x + 1 - x).toNat + 1 = 2 by omega, rowLoopM, if_pos (le_refl _), fillRightM, hin,
    if_neg (by simp), Option.bind_some]
  unfold runPushesM
  dsimp only
  rw [if_neg (lt_irrefl _), Option.bind_some, i32_ok dbg (z := x - 1) (by omega) (by omega), Option.bind_some,
    if_neg (by omega), Option.map_some, Option.bind_some, i32_ok dbg (z := x + 1) (by omega) (by omega),
    Option.bind_some, skipOutM, if_neg (by omega), Option.bind_some, rowLoopM, if_neg (by omega)]
  rfl

theorem bmod_large {x : Nat} (h1 : 2 ^ 31 ≤ x) (h2 : x < 2 ^ 32) : Int.bmod (x : Int) (2 ^ 32) = x - 2 ^ 32 := by
  rw [Int.bmod_def]
  omega

/-- **C196, negation.** A seed in a column beyond `2 ^ 31` is taken for one left of the image: nothing is filled, not even
the seed, in either build. -/
theorem C196_negation (dbg : Bool) (n : Nat) (im : Image α) (x y : Nat) (f : α) (hx : x < im.w) (hy : y < im.h)
    (hw : im.w < 2 ^ 32) (hx' : 2 ^ 31 < x) (hy' : y < 2 ^ 31) : floodFillM dbg (n + 2) im x y f = some im := by
  unfold floodFillM
  rw [Image.get_of_inB hx hy, Option.bind_some]
  dsimp only
  rw [bmod_large (x := x) (by omega) (by omega), bmod_small hy', i32_ok dbg (by omega) (by omega), Option.bind_some, floodLoopM,
    processSpanM_out dbg _ f im _ _ _ (by omega) (by omega) (inside_neg im _ _ (by omega)), Option.bind_some,
    List.nil_append, floodLoopM,
    processSpanM_out dbg _ f im _ _ _ (by omega) (by omega) (inside_neg im _ _ (by omega)), Option.bind_some,
    List.nil_append]
  cases n <;> simp [floodLoopM]

/-- **C196, negation.** Likewise for a seed in a row beyond `2 ^ 31`. -/
theorem C196_rows (dbg : Bool) (n : Nat) (im : Image α) (x y : Nat) (f : α) (hx : x < im.w) (hy : y < im.h)
    (hh : im.h < 2 ^ 32) (hx' : x + 1 < 2 ^ 31) (hy' : 2 ^ 31 < y) : floodFillM dbg (n + 2) im x y f = some im := by
  have hin : ∀ (x y : Int) (t : α), y < 0 → inside im x y t = false := fun x y t h => by
    unfold inside
    rw [if_pos (Or.inr h)]
  unfold floodFillM
  rw [Image.get_of_inB hx hy, Option.bind_some]
  dsimp only
  rw [bmod_small (x := x) (by omega), bmod_large (x := y) (by omega) (by omega), i32_ok dbg (by omega) (by omega), Option.bind_some,
    floodLoopM, processSpanM_out dbg _ f im _ _ _ (by omega) (by omega) (hin _ _ _ (by omega)), Option.bind_some,
    List.nil_append, floodLoopM,
    processSpanM_out dbg _ f im _ _ _ (by omega) (by omega) (hin _ _ _ (by omega)), Option.bind_some, List.nil_append]
  cases n <;> simp [floodLoopM]

theorem processSpanM_min (t f : α) (im : Image α) (x y dy : Int) (h : x = -2 ^ 31) :
    processSpanM true t f im ⟨x, x, y, dy⟩ = none := by
  have h2 : x < 0 := by omega
  unfold processSpanM leftPartM
  dsimp only
  rw [inside_neg im y t h2, if_neg (by simp), Option.bind_some]
  dsimp only
  rw [show (x + 1 - x).toNat + 1 = 2 by omega, rowLoopM, if_pos (le_refl _), fillRightM, inside_neg im y t h2,
    if_neg (by simp), Option.bind_some]
  unfold runPushesM
  dsimp only
  rw [if_neg (lt_irrefl _), Option.bind_some, show i32 true (x - 1) = none by rw [h]; decide, Option.bind_none,
    Option.bind_none]

/-- **C196, negation.** A seed in column `2 ^ 31` makes a debug build panic. -/
theorem C196_panics (n : Nat) (im : Image α) (y : Nat) (f : α) : floodFillM true (n + 2) im (2 ^ 31) y f = none := by
  unfold floodFillM
  rcases im.get (2 ^ 31) y with _ | t
  · rfl
  rw [Option.bind_some]
  dsimp only
  rcases i32 true (Int.bmod (y : Int) (2 ^ 32) - 1) with _ | y1
  · rfl
  rw [Option.bind_some, show Int.bmod ((2 ^ 31 : Nat) : Int) (2 ^ 32) = -2 ^ 31 by decide, floodLoopM]
  rw [processSpanM_min t f im _ y1 (-1) rfl]
  rfl

/-- The U-shaped region of `C44_fill_partial`'s example, in both builds. -/
example : (floodFillM true 47 fillExample 0 0 9).map (fun o => (List.range 3).map fun y => (List.range 5).map fun x =>
    o.px x y) = (floodFill 47 fillExample 0 0 9).map (fun o => (List.range 3).map fun y => (List.range 5).map fun x =>
    o.px x y) ∧ (floodFillM false 47 fillExample 0 0 9).isSome := by decide +kernel

end Verif.Drawing
