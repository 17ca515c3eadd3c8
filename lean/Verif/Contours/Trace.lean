import Verif.Contours.Walk
import Mathlib.Data.Nat.Find
/-
The tracing loop of the code performs the border walk: it returns the points visited until the walk
returns to its starting state, and marks the values accordingly.
-/
namespace Verif.Contours

/-- The foreground of an image, as a set of points of the integer plane. -/
def fg (im : Image Nat) (t : Nat) (p : Int × Int) : Bool :=
  decide (0 ≤ p.1 ∧ p.1 < im.w ∧ 0 ≤ p.2 ∧ p.2 < im.h) && decide (im.px p.1.toNat p.2.toNat > t)

/-- Back to natural coordinates. -/
def un (p : Int × Int) : Nat × Nat := (p.1.toNat, p.2.toNat)

/-- The values describe the foreground of the image. -/
def Rel (im : Image Nat) (t : Nat) (v : Image Int) : Prop :=
  v.w = im.w ∧ v.h = im.h ∧ ∀ x y, x < im.w → y < im.h → (v.px x y ≠ 0 ↔ im.px x y > t)

variable {im : Image Nat} {t : Nat}

theorem fg_iff {p : Int × Int} : fg im t p = true ↔
    (0 ≤ p.1 ∧ p.1 < im.w ∧ 0 ≤ p.2 ∧ p.2 < im.h) ∧ im.px p.1.toNat p.2.toNat > t := by
  simp [fg]

theorem un_inj {p q : Int × Int} (hp : fg im t p = true) (hq : fg im t q = true)
    (h : un p = un q) : p = q := by
  rw [fg_iff] at hp hq
  unfold un at h
  simp only [Prod.mk.injEq] at h
  exact Prod.ext (by omega) (by omega)

theorem nonZeroAt_eq {v : Image Int} (hv : Rel im t v) (p : Int × Int) :
    nonZeroAt v p = if fg im t p then some (un p) else none := by
  obtain ⟨h1, h2, h3⟩ := hv
  unfold nonZeroAt un
  rw [h1, h2]
  by_cases hb : p.1 > -1 ∧ p.1 < im.w ∧ p.2 > -1 ∧ p.2 < im.h
  · refine if_congr ?_ rfl rfl
    rw [fg_iff, h3 _ _ (by omega) (by omega)]
    constructor
    · rintro ⟨_, h⟩; exact ⟨by omega, h⟩
    · rintro ⟨_, h⟩; exact ⟨hb, h⟩
  · rw [if_neg (fun h => hb h.1), if_neg]
    rw [fg_iff]
    rintro ⟨h, _⟩
    exact hb (by omega)

/-- The direction list rotated to start with direction `j`. -/
def rotL (j : Nat) : List (Int × Int) := (List.range 8).map fun i => D (j + i)

theorem rotL_zero : rotL 0 = dirs := by decide

theorem rotateToValue_rotL {j k : Nat} (hj : j < 8) (hk : k < 8) :
    rotateToValue (rotL j) (D k) = some (rotL k) := by
  have : ∀ j, j < 8 → ∀ k, k < 8 → rotateToValue (rotL j) (D k) = some (rotL k) := by decide
  exact this j hj k hk

theorem rotL_reverse {k : Nat} (hk : k < 8) :
    (rotL k).reverse = (List.range 8).map fun i => D (k + 7 - i) := by
  have : ∀ k, k < 8 → (rotL k).reverse = (List.range 8).map fun i => D (k + 7 - i) := by decide
  exact this k hk

theorem rightEdge_eq {k n : Nat} (hk : k < 8) (hn : n < 8) :
    rightEdge (D (k + 7 - n)) (rotL k).reverse = decide (∃ i, i < n ∧ (k + 7 - i) % 8 = 4) := by
  have : ∀ k, k < 8 → ∀ n, n < 8 → rightEdge (D (k + 7 - n)) (rotL k).reverse =
    decide (∃ i, i < n ∧ (k + 7 - i) % 8 = 4) := by decide
  exact this k hk n hn

theorem findSome?_ite {α β : Type _} (P : α → Bool) (f : α → β) (l : List α) :
    l.findSome? (fun a => if P a then some (f a) else none) = (l.find? P).map f := by
  induction l with
  | nil => rfl
  | cons a l ih =>
    rw [List.findSome?_cons, List.find?_cons]
    cases h : P a
    · simpa using ih
    · simp

/-- The search for the next point. -/
theorem search_eq {v : Image Int} (hv : Rel im t v) {p : Int × Int} {k : Nat}
    (hs : Valid (fg im t) (p, k)) :
    ((rotL k).reverse.findSome? fun d => nonZeroAt v (shift (un p) d)) =
      some (un (step (fg im t) (p, k)).1) := by
  obtain ⟨h1, h2, h3⟩ := hs
  dsimp only at *
  have hp := (fg_iff.mp h1).1
  have hsh : ∀ d, shift (un p) d = p + d := by
    intro d
    unfold shift un
    refine Prod.ext ?_ ?_
    · rw [Prod.fst_add]; dsimp only; omega
    · rw [Prod.snd_add]; dsimp only; omega
  rw [rotL_reverse h2, List.findSome?_map]
  have : ((fun d => nonZeroAt v (shift (un p) d)) ∘ fun i => D (k + 7 - i)) =
      fun i => if fg im t (p + D (k + 7 - i)) then some (un (p + D (k + 7 - i))) else none := by
    funext i
    rw [Function.comp_apply, hsh, nonZeroAt_eq hv]
  rw [this, findSome?_ite (fun i => fg im t (p + D (k + 7 - i)))
    (fun i => un (p + D (k + 7 - i)))]
  obtain ⟨a, b, c⟩ := scan_spec h3
  have hf : (List.range 8).find? (fun i => fg im t (p + D (k + 7 - i))) =
      some (scan (fg im t) p k) := by
    rw [List.find?_range_eq_some]
    exact ⟨b, by simpa using a, fun j hj => by simpa using c j hj⟩
  rw [hf]
  rfl

theorem diff_un {p q : Int × Int} (hp : fg im t p = true) (hq : fg im t q = true) :
    diff (un p) (un q) = p - q := by
  rw [fg_iff] at hp hq
  unfold diff un
  refine Prod.ext ?_ ?_
  · rw [Prod.fst_sub]; dsimp only; omega
  · rw [Prod.snd_sub]; dsimp only; omega

/-- `is_right_edge` holds exactly if the east neighbour is background and passed over. -/
theorem rightEdge_iff {p : Int × Int} {k : Nat} (hs : Valid (fg im t) (p, k)) :
    rightEdge (diff (un (step (fg im t) (p, k)).1) (un p)) (rotL k).reverse = true ↔
      Sees (fg im t) (p, k) 4 := by
  have hst := valid_step hs
  obtain ⟨h1, h2, h3⟩ := hs
  dsimp only at *
  obtain ⟨a, b, c⟩ := scan_spec h3
  rw [diff_un hst.1 h1]
  unfold step
  dsimp only
  rw [add_sub_cancel_left, rightEdge_eq h2 a, decide_eq_true_eq]
  unfold Sees
  dsimp only
  constructor
  · rintro ⟨i, hi, e⟩
    exact ⟨i, by omega, e.symm, fun j hj => c j (by omega)⟩
  · rintro ⟨i, hi, e, hz⟩
    refine ⟨i, ?_, e.symm⟩
    by_contra hc
    have := hz _ (not_lt.mp hc)
    rw [b] at this
    simp at this

/-- Effect of a set of visited states on the values. -/
structure Marked (im : Image Nat) (t num : Nat) (T : (Int × Int) × Nat → Prop)
    (v v' : Image Int) : Prop where
  w : v'.w = v.w
  h : v'.h = v.h
  right : ∀ s, T s → ((s.1.1 : Int) + 1 = im.w ∨ Sees (fg im t) s 4) →
    v'.px (un s.1).1 (un s.1).2 = -(num : Int)
  other : ∀ s, T s → (∀ s', T s' → s'.1 = s.1 →
      ¬ ((s.1.1 : Int) + 1 = im.w ∨ Sees (fg im t) s' 4)) →
    v'.px (un s.1).1 (un s.1).2 =
      if v.px (un s.1).1 (un s.1).2 = 1 then (num : Int) else v.px (un s.1).1 (un s.1).2
  rest : ∀ x y, (∀ s, T s → un s.1 ≠ (x, y)) → v'.px x y = v.px x y

/-- Marking one more state. -/
theorem mark_step {num : Nat} (hnum : 2 ≤ num) {T : (Int × Int) × Nat → Prop} {v v1 : Image Int}
    (hv : Rel im t v) (hT : ∀ s, T s → fg im t s.1 = true) (hm : Marked im t num T v v1)
    {p : Int × Int} {k : Nat} (hs : Valid (fg im t) (p, k)) :
    ∃ v2, (if (un p).1 + 1 = v1.w ∨
          rightEdge (diff (un (step (fg im t) (p, k)).1) (un p)) (rotL k).reverse = true
        then v1.put (un p).1 (un p).2 (-(num : Int))
        else (v1.get (un p).1 (un p).2).bind fun old =>
          if old = 1 then v1.put (un p).1 (un p).2 num else some v1) = some v2 ∧
      Marked im t num (fun s => T s ∨ s = (p, k)) v v2 := by
  have hp := fg_iff.mp hs.1
  dsimp only at hp
  have hx : (un p).1 < v1.w := by rw [hm.w, hv.1]; unfold un; dsimp only; omega
  have hy : (un p).2 < v1.h := by rw [hm.h, hv.2.1]; unfold un; dsimp only; omega
  have hcond : ((un p).1 + 1 = v1.w ∨
      rightEdge (diff (un (step (fg im t) (p, k)).1) (un p)) (rotL k).reverse = true) ↔
      (p.1 + 1 = im.w ∨ Sees (fg im t) (p, k) 4) := by
    rw [rightEdge_iff hs, hm.w, hv.1]
    have : (un p).1 + 1 = im.w ↔ p.1 + 1 = (im.w : Int) := by unfold un; dsimp only; omega
    rw [this]
  have huniq : ∀ s, T s → un s.1 = un p → s.1 = p := fun s h e => un_inj (hT s h) hs.1 e
  by_cases hc : p.1 + 1 = im.w ∨ Sees (fg im t) (p, k) 4
  · rw [if_pos (hcond.mpr hc), Image.put_of_inB _ hx hy]
    refine ⟨_, rfl, ⟨hm.w, hm.h, ?_, ?_, ?_⟩⟩
    · intro s hTs hr
      dsimp only
      by_cases he : un s.1 = un p
      · rw [if_pos ⟨congrArg Prod.fst he, congrArg Prod.snd he⟩]
      · rw [if_neg (fun h => he (Prod.ext h.1 h.2))]
        rcases hTs with h | h
        · exact hm.right s h hr
        · rw [h] at he; exact absurd rfl he
    · intro s hTs hn
      dsimp only
      by_cases he : un s.1 = un p
      · exfalso
        have hsp : s.1 = p := by
          rcases hTs with h | h
          · exact huniq s h he
          · rw [h]
        exact hn (p, k) (Or.inr rfl) hsp.symm (by rw [hsp]; exact hc)
      · rw [if_neg (fun h => he (Prod.ext h.1 h.2))]
        rcases hTs with h | h
        · exact hm.other s h (fun s' hs' e => hn s' (Or.inl hs') e)
        · rw [h] at he; exact absurd rfl he
    · intro x y hn
      dsimp only
      have : ¬ (x = (un p).1 ∧ y = (un p).2) := fun h =>
        hn (p, k) (Or.inr rfl) (Prod.ext h.1.symm h.2.symm)
      rw [if_neg this]
      exact hm.rest x y (fun s h => hn s (Or.inl h))
  · rw [if_neg (fun h => hc (hcond.mp h)), Image.get_of_inB hx hy, Option.bind_some]
    -- the current value of the pixel
    have hold : (∃ s, T s ∧ s.1 = p ∧ (p.1 + 1 = im.w ∨ Sees (fg im t) s 4)) ∧
          v1.px (un p).1 (un p).2 = -(num : Int) ∨
        ¬ (∃ s, T s ∧ s.1 = p ∧ (p.1 + 1 = im.w ∨ Sees (fg im t) s 4)) ∧
          (v1.px (un p).1 (un p).2 = v.px (un p).1 (un p).2 ∧
             (v.px (un p).1 (un p).2 = 1 → ∀ s, T s → s.1 ≠ p) ∨
           v1.px (un p).1 (un p).2 = num ∧ v.px (un p).1 (un p).2 = 1) := by
      by_cases h1 : ∃ s, T s ∧ s.1 = p ∧ (p.1 + 1 = im.w ∨ Sees (fg im t) s 4)
      · left
        refine ⟨h1, ?_⟩
        obtain ⟨s, a, b, c⟩ := h1
        have := hm.right s a (by rw [b]; exact c)
        rwa [b] at this
      · right
        refine ⟨h1, ?_⟩
        by_cases h2 : ∃ s, T s ∧ s.1 = p
        · obtain ⟨s, a, b⟩ := h2
          have := hm.other s a (fun s' hs' e hr => h1 ⟨s', hs', by rw [e, b], by rw [← b]; exact hr⟩)
          rw [b] at this
          by_cases h3 : v.px (un p).1 (un p).2 = 1
          · rw [if_pos h3] at this
            exact Or.inr ⟨this, h3⟩
          · rw [if_neg h3] at this
            exact Or.inl ⟨this, fun h => absurd h h3⟩
        · refine Or.inl ⟨hm.rest _ _ (fun s hTs e => h2 ⟨s, hTs, huniq s hTs e⟩), ?_⟩
          exact fun _ s hTs e => h2 ⟨s, hTs, e⟩
    by_cases ho : v1.px (un p).1 (un p).2 = 1
    · rw [if_pos ho, Image.put_of_inB _ hx hy]
      have hv1 : v.px (un p).1 (un p).2 = 1 ∧ ∀ s, T s → s.1 ≠ p := by
        rcases hold with ⟨_, h⟩ | ⟨_, ⟨h, h'⟩ | ⟨h, _⟩⟩
        · omega
        · have : v.px (un p).1 (un p).2 = 1 := by omega
          exact ⟨this, h' this⟩
        · omega
      refine ⟨_, rfl, ⟨hm.w, hm.h, ?_, ?_, ?_⟩⟩
      · intro s hTs hr
        dsimp only
        rcases hTs with h | h
        · have he : un s.1 ≠ un p := fun e => hv1.2 s h (huniq s h e)
          rw [if_neg (fun h => he (Prod.ext h.1 h.2))]
          exact hm.right s h hr
        · subst h; exact absurd hr hc
      · intro s hTs hn
        dsimp only
        rcases hTs with h | h
        · have he : un s.1 ≠ un p := fun e => hv1.2 s h (huniq s h e)
          rw [if_neg (fun h => he (Prod.ext h.1 h.2))]
          exact hm.other s h (fun s' hs' e => hn s' (Or.inl hs') e)
        · subst h
          dsimp only
          rw [if_pos ⟨rfl, rfl⟩, if_pos hv1.1]
      · intro x y hn
        dsimp only
        have : ¬ (x = (un p).1 ∧ y = (un p).2) := fun h =>
          hn (p, k) (Or.inr rfl) (Prod.ext h.1.symm h.2.symm)
        rw [if_neg this]
        exact hm.rest x y (fun s h => hn s (Or.inl h))
    · rw [if_neg ho]
      refine ⟨v1, rfl, ⟨hm.w, hm.h, ?_, ?_, ?_⟩⟩
      · intro s hTs hr
        rcases hTs with h | h
        · exact hm.right s h hr
        · subst h; exact absurd hr hc
      · intro s hTs hn
        rcases hTs with h | h
        · exact hm.other s h (fun s' hs' e => hn s' (Or.inl hs') e)
        · subst h
          dsimp only at hn ⊢
          have hnr : ¬ ∃ s, T s ∧ s.1 = p ∧ (p.1 + 1 = im.w ∨ Sees (fg im t) s 4) := by
            rintro ⟨s, a, b, c⟩
            exact hn s (Or.inl a) b c
          rcases hold with ⟨h, _⟩ | ⟨_, ⟨h, h'⟩ | ⟨h, h'⟩⟩
          · exact absurd h hnr
          · rw [if_neg (by rw [← h]; exact ho)]
            exact h
          · rw [if_pos h']
            exact h
      · intro x y hn
        exact hm.rest x y (fun s h => hn s (Or.inl h))

/-- Marking does not change which values are zero. -/
theorem Marked.rel {num : Nat} (hnum : 2 ≤ num) {T : (Int × Int) × Nat → Prop} {v v1 : Image Int}
    (hv : Rel im t v) (hT : ∀ s, T s → fg im t s.1 = true) (hm : Marked im t num T v v1) :
    Rel im t v1 := by
  refine ⟨hm.w.trans hv.1, hm.h.trans hv.2.1, fun x y hx hy => ?_⟩
  by_cases h1 : ∃ s, T s ∧ un s.1 = (x, y)
  · obtain ⟨s, a, b⟩ := h1
    have hf := fg_iff.mp (hT s a)
    have hpos : im.px x y > t := by
      unfold un at b
      simp only [Prod.mk.injEq] at b
      rw [← b.1, ← b.2]
      exact hf.2
    have hnz : v.px x y ≠ 0 := (hv.2.2 x y hx hy).mpr hpos
    refine ⟨fun _ => hpos, fun _ => ?_⟩
    by_cases h2 : ∃ s', T s' ∧ s'.1 = s.1 ∧ ((s.1.1 : Int) + 1 = im.w ∨ Sees (fg im t) s' 4)
    · obtain ⟨s', a', b', c'⟩ := h2
      have := hm.right s' a' (by rw [b']; exact c')
      rw [b', b] at this
      dsimp only at this
      omega
    · have := hm.other s a (fun s' hs' e hr => h2 ⟨s', hs', e, hr⟩)
      rw [b] at this
      dsimp only at this
      rw [this]
      split <;> omega
  · rw [hm.rest x y (fun s a b => h1 ⟨s, a, b⟩)]
    exact hv.2.2 x y hx hy

/-- All states of the walk on an image. -/
def allStates (im : Image Nat) : Finset ((Int × Int) × Nat) :=
  (((Finset.range im.w ×ˢ Finset.range im.h) ×ˢ Finset.range 8).image
    fun q => (((q.1.1 : Int), (q.1.2 : Int)), q.2))

theorem mem_allStates {s : (Int × Int) × Nat} (h : fg im t s.1 = true) (hk : s.2 < 8) :
    s ∈ allStates im := by
  have := (fg_iff.mp h).1
  unfold allStates
  rw [Finset.mem_image]
  refine ⟨(un s.1, s.2), ?_, ?_⟩
  · unfold un
    simp only [Finset.mem_product, Finset.mem_range]
    omega
  · unfold un
    refine Prod.ext (Prod.ext ?_ ?_) rfl <;> dsimp only <;> omega

theorem card_allStates (im : Image Nat) : (allStates im).card ≤ im.w * im.h * 8 := by
  refine le_trans Finset.card_image_le ?_
  simp

/-- The walk from a valid state returns to it. -/
theorem walk_returns {s : (Int × Int) × Nat} (h : Valid (fg im t) s) :
    ∃ n, 1 ≤ n ∧ n ≤ im.w * im.h * 8 ∧ (step (fg im t))^[n] s = s ∧
      ∀ m, 1 ≤ m → m < n → (step (fg im t))^[m] s ≠ s := by
  classical
  obtain ⟨n, h1, h2, h3⟩ := returns (step (fg im t)) ((allStates im).filter (Valid (fg im t)))
    (fun s hs => by
      rw [Finset.mem_filter] at hs ⊢
      have := valid_step hs.2
      exact ⟨mem_allStates this.1 this.2.1, this⟩)
    (fun s hs t ht e => by
      rw [Finset.mem_filter] at hs ht
      exact step_inj hs.2 ht.2 e)
    (s := s) (by rw [Finset.mem_filter]; exact ⟨mem_allStates h.1 h.2.1, h⟩)
  have hle : n ≤ im.w * im.h * 8 :=
    le_trans h2 (le_trans (Finset.card_filter_le _ _) (card_allStates im))
  have hex : ∃ n, 1 ≤ n ∧ (step (fg im t))^[n] s = s := ⟨n, h1, h3⟩
  refine ⟨Nat.find hex, (Nat.find_spec hex).1, ?_, (Nat.find_spec hex).2, ?_⟩
  · exact le_trans (Nat.find_min' hex ⟨h1, h3⟩) hle
  · intro m hm1 hm2 he
    exact Nat.find_min hex hm2 ⟨hm1, he⟩

/-- Specification of the tracing loop. -/
theorem traceLoop_spec {num : Nat} (hnum : 2 ≤ num) {v : Image Int} (hv : Rel im t v)
    {s0 : (Int × Int) × Nat} (hs0 : Valid (fg im t) s0) {n : Nat}
    (hret : (step (fg im t))^[n] s0 = s0)
    (hmin : ∀ m, 1 ≤ m → m < n → (step (fg im t))^[m] s0 ≠ s0) :
    ∀ (fuel i : Nat) (v1 : Image Int) (j : Nat), i < n → n ≤ fuel + i → j < 8 →
      Marked im t num (fun s => ∃ m, m < i ∧ s = (step (fg im t))^[m] s0) v v1 →
      ∃ v2 k, k < 8 ∧
        traceLoop num (un s0.1) (un (s0.1 + D s0.2)) fuel v1 (rotL j)
          ((List.range i).map fun m => un ((step (fg im t))^[m] s0).1)
          (un (((step (fg im t))^[i] s0).1 + D ((step (fg im t))^[i] s0).2))
          (un ((step (fg im t))^[i] s0).1) =
          some (v2, rotL k, (List.range n).map fun m => un ((step (fg im t))^[m] s0).1) ∧
        Marked im t num (fun s => ∃ m, m < n ∧ s = (step (fg im t))^[m] s0) v v2 := by
  have hval : ∀ m, Valid (fg im t) ((step (fg im t))^[m] s0) := by
    intro m
    induction m with
    | zero => exact hs0
    | succ m ih => rw [Function.iterate_succ_apply']; exact valid_step ih
  have hT : ∀ i s, (∃ m, m < i ∧ s = (step (fg im t))^[m] s0) → fg im t s.1 = true := by
    rintro i s ⟨m, _, rfl⟩
    exact (hval m).1
  intro fuel
  induction fuel with
  | zero => intro i v1 j h1 h2; omega
  | succ fuel ih =>
    intro i v1 j hi hf hj hm
    have hrel := hm.rel hnum hv (hT i)
    obtain ⟨s, hs⟩ : ∃ s, s = (step (fg im t))^[i] s0 := ⟨_, rfl⟩
    obtain ⟨p, k⟩ := s
    have hvs : Valid (fg im t) (p, k) := by rw [hs]; exact hval i
    have hnext : (step (fg im t))^[i + 1] s0 = step (fg im t) (p, k) := by
      rw [Function.iterate_succ_apply', hs]
    have hvn : Valid (fg im t) (step (fg im t) (p, k)) := valid_step hvs
    unfold traceLoop
    rw [← hs]
    dsimp only
    have hdiff : diff (un (p + D k)) (un p) = D k := by
      rw [diff_un hvs.2.2 hvs.1]
      exact add_sub_cancel_left p (D k)
    rw [hdiff, rotateToValue_rotL hj hvs.2.1, Option.bind_some, search_eq hrel hvs,
      Option.bind_some]
    obtain ⟨v2, e2, hm2⟩ := mark_step hnum hv (hT i) hm hvs
    rw [e2, Option.bind_some]
    have hm2' : Marked im t num (fun s => ∃ m, m < i + 1 ∧ s = (step (fg im t))^[m] s0) v v2 := by
      have : (fun s => ∃ m, m < i + 1 ∧ s = (step (fg im t))^[m] s0) =
          fun s => (∃ m, m < i ∧ s = (step (fg im t))^[m] s0) ∨ s = (p, k) := by
        funext s
        apply propext
        constructor
        · rintro ⟨m, h1, h2⟩
          by_cases hmi : m = i
          · right; rw [h2, hmi, ← hs]
          · exact Or.inl ⟨m, by omega, h2⟩
        · rintro (⟨m, h1, h2⟩ | h)
          · exact ⟨m, by omega, h2⟩
          · exact ⟨i, by omega, by rw [h, hs]⟩
      rw [this]
      exact hm2
    have hpts : (List.range i).map (fun m => un ((step (fg im t))^[m] s0).1) ++ [un p] =
        (List.range (i + 1)).map fun m => un ((step (fg im t))^[m] s0).1 := by
      rw [List.range_succ, List.map_append, List.map_singleton, ← hs]
    rw [hpts]
    have hprev : un p = un ((step (fg im t) (p, k)).1 + D (step (fg im t) (p, k)).2) := by
      rw [step_prev]
    have hbreak : (un (step (fg im t) (p, k)).1 = un s0.1 ∧ un p = un (s0.1 + D s0.2)) ↔
        i + 1 = n := by
      constructor
      · rintro ⟨a, b⟩
        have a' := un_inj hvn.1 hs0.1 a
        have b' := un_inj hvs.1 hs0.2.2 b
        have hb : p = (step (fg im t) (p, k)).1 + D (step (fg im t) (p, k)).2 := by
          rw [step_prev]
        have hd : D (step (fg im t) (p, k)).2 = D s0.2 := by
          have hb' := b'.symm.trans hb
          rw [a'] at hb'
          exact (add_left_cancel hb').symm
        have hk := D_inj hd
        have : step (fg im t) (p, k) = s0 := by
          refine Prod.ext a' ?_
          have h1 := hvn.2.1
          have h2 := hs0.2.1
          omega
        by_contra hne
        exact hmin (i + 1) (by omega) (by omega) (by rw [hnext]; exact this)
      · intro h
        have : step (fg im t) (p, k) = s0 := by rw [← hnext, h]; exact hret
        refine ⟨by rw [this], ?_⟩
        rw [hprev, this]
    by_cases hend : i + 1 = n
    · rw [if_pos (hbreak.mpr hend)]
      refine ⟨v2, k, hvs.2.1, by rw [hend], ?_⟩
      rw [← hend]
      exact hm2'
    · rw [if_neg (fun h => hend (hbreak.mp h)), hprev, ← hnext]
      exact ih (i + 1) v2 k (by omega) (by omega) hvs.2.1 hm2'

end Verif.Contours
