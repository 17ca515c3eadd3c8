import Verif.Contours.Traced
/-
The invariant of the raster scan.
-/
namespace Verif.Contours
variable {im : Image Nat} {t : Nat}

/-- What holds of the state of the scan; `Ts i` are the states visited for contour `i`. -/
structure Core (im : Image Nat) (t : Nat) (s : St) (Ts : Nat → (Int × Int) × Nat → Prop) :
    Prop where
  rel : Rel im t s.v
  rot : ∃ j, j < 8 ∧ s.diffs = rotL j
  num : s.num = s.contours.length + 1
  par : 1 ≤ s.parent ∧ s.parent ≤ s.num
  traced : ∀ i c, s.contours[i]? = some c → Traced im t c (Ts i)
  dom : ∀ i σ, Ts i σ → i < s.contours.length
  parents : ∀ (i : Nat) (c : Contour) (q : Nat), s.contours[i]? = some c → c.parent = some q →
    q < i ∧ ∃ c' : Contour, s.contours[q]? = some c' ∧ c'.outer = !c.outer
  one : ∀ i σ, Ts i σ → s.v.px (un σ.1).1 (un σ.1).2 ≠ 1
  val : ∀ a b, a < im.w → b < im.h → im.px a b > t → s.v.px a b ≠ 1 →
    2 ≤ (s.v.px a b).natAbs ∧ (s.v.px a b).natAbs ≤ s.num ∧
    ∃ σ, Ts ((s.v.px a b).natAbs - 2) σ ∧ un σ.1 = (a, b)
  east : ∀ i σ, Ts i σ → Sees (fg im t) σ 4 → s.v.px (un σ.1).1 (un σ.1).2 < 0
  neg : ∀ a b, a + 1 < im.w → b < im.h → s.v.px a b < 0 →
    ∃ i σ, Ts i σ ∧ un σ.1 = (a, b) ∧ Sees (fg im t) σ 4
  disj : ∀ i j σ σ' d, Ts i σ → Ts j σ' → σ.1 = σ'.1 → d % 2 = 0 → Sees (fg im t) σ d →
    Sees (fg im t) σ' d → i = j

/-- The values of a pixel before and after marking. -/
theorem Marked.cases {num : Nat} {T : (Int × Int) × Nat → Prop} {v v' : Image Int}
    (hm : Marked im t num T v v') (a b : Nat) :
    (∃ s, T s ∧ un s.1 = (a, b) ∧ (s.1.1 + 1 = im.w ∨ Sees (fg im t) s 4)) ∧
        v'.px a b = -(num : Int) ∨
    (∃ s, T s ∧ un s.1 = (a, b)) ∧ v.px a b = 1 ∧ v'.px a b = num ∧
        (¬ ∃ s, T s ∧ un s.1 = (a, b) ∧ (s.1.1 + 1 = im.w ∨ Sees (fg im t) s 4)) ∨
    v'.px a b = v.px a b ∧ (v.px a b = 1 → ¬ ∃ s, T s ∧ un s.1 = (a, b)) ∧
        (¬ ∃ s, T s ∧ un s.1 = (a, b) ∧ (s.1.1 + 1 = im.w ∨ Sees (fg im t) s 4)) := by
  by_cases h1 : ∃ s, T s ∧ un s.1 = (a, b) ∧ (s.1.1 + 1 = im.w ∨ Sees (fg im t) s 4)
  · left
    refine ⟨h1, ?_⟩
    obtain ⟨s, p, q, r⟩ := h1
    have := hm.right s p r
    rw [q] at this
    exact this
  · right
    by_cases h2 : ∃ s, T s ∧ un s.1 = (a, b)
    · obtain ⟨s, p, q⟩ := h2
      have := hm.other s p (fun s' hs' e hr => h1 ⟨s', hs', by rw [e, q], by rw [e]; exact hr⟩)
      rw [q] at this
      dsimp only at this
      by_cases h3 : v.px a b = 1
      · rw [if_pos h3] at this
        exact Or.inl ⟨⟨s, p, q⟩, h3, this, h1⟩
      · rw [if_neg h3] at this
        exact Or.inr ⟨this, fun h => absurd h h3, h1⟩
    · right
      refine ⟨hm.rest a b (fun s p q => h2 ⟨s, p, q⟩), fun _ => h2, h1⟩

/-- Adding a freshly traced border preserves the invariant. -/
theorem Core.extend {s : St} {Ts : Nat → (Int × Int) × Nat → Prop} (h : Core im t s Ts)
    {c : Contour} {T : (Int × Int) × Nat → Prop} (hc : Traced im t c T) {v' : Image Int}
    (hm : Marked im t (s.num + 1) T s.v v') {k : Nat} (hk : k < 8)
    (hpar : ∀ q, c.parent = some q → q < s.contours.length ∧
      ∃ c' : Contour, s.contours[q]? = some c' ∧ c'.outer = !c.outer)
    (hfresh : ∀ i σ q, Ts i σ → c.points.head? = some q → un σ.1 = q →
      ¬ Sees (fg im t) σ (startDir c.outer)) :
    Core im t ⟨v', rotL k, s.contours ++ [c], s.num + 1, s.parent⟩
      (fun i => if i = s.contours.length then T else Ts i) := by
  have hn := h.num
  have hlen : (s.contours ++ [c]).length = s.contours.length + 1 := by simp
  have hget : ∀ (i : Nat) (c' : Contour), (s.contours ++ [c])[i]? = some c' →
      i < s.contours.length ∧ s.contours[i]? = some c' ∨ i = s.contours.length ∧ c' = c := by
    intro i c' e
    by_cases hi : i < s.contours.length
    · rw [List.getElem?_append_left hi] at e
      exact Or.inl ⟨hi, e⟩
    · rw [List.getElem?_append_right (by omega)] at e
      by_cases h0 : i - s.contours.length = 0
      · rw [h0] at e
        simp at e
        exact Or.inr ⟨by omega, e.symm⟩
      · rw [List.getElem?_eq_none (by simp; omega)] at e
        simp at e
  have hold : ∀ (q : Nat) (c' : Contour), s.contours[q]? = some c' → (s.contours ++ [c])[q]? = some c' := by
    intro q c' e
    have : q < s.contours.length := by
      by_contra hc
      rw [List.getElem?_eq_none (by omega)] at e
      simp at e
    rw [List.getElem?_append_left this]
    exact e
  have hTs : ∀ i σ, (if i = s.contours.length then T else Ts i) σ →
      (i = s.contours.length ∧ T σ) ∨ (i ≠ s.contours.length ∧ Ts i σ) := by
    intro i σ e
    by_cases hi : i = s.contours.length
    · rw [if_pos hi] at e; exact Or.inl ⟨hi, e⟩
    · rw [if_neg hi] at e; exact Or.inr ⟨hi, e⟩
  have hnewL : ∀ σ, T σ → (if s.contours.length = s.contours.length then T
      else Ts s.contours.length) σ := fun σ e => by rw [if_pos rfl]; exact e
  have holdL : ∀ i σ, Ts i σ → (if i = s.contours.length then T else Ts i) σ := fun i σ e => by
    rw [if_neg (by have := h.dom i σ e; omega)]; exact e
  have hmc := fun a b => hm.cases a b
  refine ⟨hm.rel (by omega) h.rel hc.isfg, ⟨k, hk, rfl⟩, ?_, ?_, ?_, ?_, ?_, ?_, ?_, ?_, ?_, ?_⟩
  · dsimp only; rw [hlen, hn]
  · dsimp only; have := h.par; omega
  · intro i c' e
    dsimp only at e ⊢
    rcases hget i c' e with ⟨a, b⟩ | ⟨a, b⟩
    · rw [if_neg (by omega)]; exact h.traced i c' b
    · rw [if_pos a, b]; exact hc
  · intro i σ e
    dsimp only
    rw [hlen]
    rcases hTs i σ e with ⟨a, b⟩ | ⟨a, b⟩
    · omega
    · have := h.dom i σ b; omega
  · intro i c' q e ep
    dsimp only at e ⊢
    rcases hget i c' e with ⟨a, b⟩ | ⟨a, b⟩
    · obtain ⟨h1, c2, h2, h3⟩ := h.parents i c' q b ep
      exact ⟨h1, c2, hold _ _ h2, h3⟩
    · subst b
      obtain ⟨h1, c2, h2, h3⟩ := hpar q ep
      exact ⟨by omega, c2, hold _ _ h2, h3⟩
  · intro i σ e
    dsimp only
    rcases hTs i σ e with ⟨_, b⟩ | ⟨_, b⟩
    · rcases hmc (un σ.1).1 (un σ.1).2 with ⟨_, e1⟩ | ⟨_, _, e1, _⟩ | ⟨e1, e2, _⟩
      · omega
      · omega
      · rw [e1]; exact fun h1 => e2 h1 ⟨σ, b, rfl⟩
    · have := h.one i σ b
      rcases hmc (un σ.1).1 (un σ.1).2 with ⟨_, e1⟩ | ⟨_, _, e1, _⟩ | ⟨e1, e2, _⟩ <;> omega
  · intro a b ha hb hfg hne
    dsimp only at hne ⊢
    rcases hmc a b with ⟨⟨σ, p, q, _⟩, e1⟩ | ⟨⟨σ, p, q⟩, _, e1, _⟩ | ⟨e1, e2, _⟩
    · have : (v'.px a b).natAbs = s.num + 1 := by rw [e1]; omega
      rw [this]
      refine ⟨by omega, Nat.le_refl _, σ, ?_, q⟩
      rw [if_pos (by omega)]; exact p
    · have : (v'.px a b).natAbs = s.num + 1 := by rw [e1]; omega
      rw [this]
      refine ⟨by omega, Nat.le_refl _, σ, ?_, q⟩
      rw [if_pos (by omega)]; exact p
    · rw [e1] at hne ⊢
      obtain ⟨h1, h2, σ, h3, h4⟩ := h.val a b ha hb hfg hne
      exact ⟨h1, by omega, σ, holdL _ _ h3, h4⟩
  · intro i σ e hs
    dsimp only
    rcases hTs i σ e with ⟨_, b⟩ | ⟨_, b⟩
    · have := hm.right σ b (Or.inr hs)
      omega
    · have := h.east i σ b hs
      rcases hmc (un σ.1).1 (un σ.1).2 with ⟨_, e1⟩ | ⟨_, _, e1, _⟩ | ⟨e1, e2, _⟩ <;> omega
  · intro a b ha hb hneg
    dsimp only at hneg ⊢
    rcases hmc a b with ⟨⟨σ, p, q, r⟩, e1⟩ | ⟨⟨σ, p, q⟩, _, e1, _⟩ | ⟨e1, e2, _⟩
    · refine ⟨s.contours.length, σ, hnewL σ p, q, ?_⟩
      rcases r with r | r
      · exfalso
        have hf := (fg_iff.mp (hc.isfg σ p)).1
        unfold un at q
        simp only [Prod.mk.injEq] at q
        omega
      · exact r
    · omega
    · rw [e1] at hneg
      obtain ⟨i, σ, h1, h2, h3⟩ := h.neg a b ha hb hneg
      exact ⟨i, σ, holdL _ _ h1, h2, h3⟩
  · -- two contours never see the same dart
    have key : ∀ j σ σ' d, T σ → Ts j σ' → σ.1 = σ'.1 → d % 2 = 0 → Sees (fg im t) σ d →
        Sees (fg im t) σ' d → False := by
      intro j σ σ' d h1 h2 e hd s1 s2
      obtain ⟨s0, hs0, hhd, hsee, _, hreach⟩ := hc.start
      obtain ⟨r, er⟩ := hreach σ d h1 hd s1
      have hj := h.dom j σ' h2
      have htr := h.traced j _ (List.getElem?_eq_getElem hj)
      obtain ⟨σ2, a2, b2, _, d2⟩ := htr.iter h2 hd s2 r
      rw [← e, er] at b2 d2
      dsimp only at b2 d2
      exact hfresh j σ2 _ a2 hhd (by rw [b2]) d2
    intro i j σ σ' d h1 h2 e hd s1 s2
    rcases hTs i σ h1 with ⟨a, b⟩ | ⟨a, b⟩ <;> rcases hTs j σ' h2 with ⟨a', b'⟩ | ⟨a', b'⟩
    · omega
    · exact (key j σ σ' d b b' e hd s1 s2).elim
    · exact (key i σ' σ d b' b e.symm hd s2 s1).elim
    · exact h.disj i j σ σ' d b b' e hd s1 s2

/-- Searching clockwise from a background neighbour. -/
theorem search_fwd {v : Image Int} (hv : Rel im t v) {p : Int × Int} (hp : fg im t p = true)
    {a : Nat} (ha : a < 8) (hbg : fg im t (p + D a) = false) :
    (∀ k, fg im t (p + D k) = false) ∧
      ((rotL a).findSome? fun d => nonZeroAt v (shift (un p) d)) = none ∨
    ∃ k, k < 8 ∧ fg im t (p + D k) = true ∧ Sees (fg im t) (p, k) a ∧
      ((rotL a).findSome? fun d => nonZeroAt v (shift (un p) d)) = some (un (p + D k)) := by
  have hb := (fg_iff.mp hp).1
  have hsh : ∀ d, shift (un p) d = p + d := by
    intro d
    unfold shift un
    refine Prod.ext ?_ ?_
    · rw [Prod.fst_add]; dsimp only; omega
    · rw [Prod.snd_add]; dsimp only; omega
  unfold rotL
  rw [List.findSome?_map]
  have : ((fun d => nonZeroAt v (shift (un p) d)) ∘ fun i => D (a + i)) =
      fun i => if fg im t (p + D (a + i)) then some (un (p + D (a + i))) else none := by
    funext i
    rw [Function.comp_apply, hsh, nonZeroAt_eq hv]
  rw [this, findSome?_ite (fun i => fg im t (p + D (a + i))) (fun i => un (p + D (a + i)))]
  cases e : (List.range 8).find? fun i => fg im t (p + D (a + i)) with
  | none =>
    left
    refine ⟨?_, rfl⟩
    intro k
    rw [List.find?_eq_none] at e
    have := e ((k + 8 - a) % 8) (by simp; exact Nat.mod_lt _ (by decide))
    rw [D_congr (show (a + (k + 8 - a) % 8) % 8 = k % 8 by omega)] at this
    simpa using this
  | some i =>
    right
    rw [List.find?_range_eq_some] at e
    obtain ⟨h1, h2, h3⟩ := e
    rw [List.mem_range] at h2
    have hi0 : i ≠ 0 := by
      rintro rfl
      rw [show a + 0 = a from rfl, hbg] at h1
      simp at h1
    refine ⟨(a + i) % 8, Nat.mod_lt _ (by decide), by rw [D_mod]; exact h1, ?_, by rw [D_mod]; rfl⟩
    refine ⟨i - 1, by omega, by dsimp only; omega, ?_⟩
    intro j hj
    dsimp only
    have := h3 (i - 1 - j) (by omega)
    rw [D_congr (show ((a + i) % 8 + 7 - j) % 8 = (a + (i - 1 - j)) % 8 by omega)]
    simpa using this

theorem parentOf_spec {s : St} {Ts : Nat → (Int × Int) × Nat → Prop} (h : Core im t s Ts)
    (outer : Bool) :
    ∃ par, parentOf s.contours s.parent outer = some par ∧
      ∀ q, par = some q → q < s.contours.length ∧
        ∃ c' : Contour, s.contours[q]? = some c' ∧ c'.outer = !outer := by
  have hn := h.num
  have hp := h.par
  unfold parentOf
  by_cases h1 : s.parent > 1
  · rw [if_pos h1]
    have hlt : s.parent - 2 < s.contours.length := by omega
    rw [List.getElem?_eq_getElem hlt]
    refine ⟨_, rfl, ?_⟩
    intro q hq
    dsimp only at hq
    by_cases hx : xor outer (s.contours[s.parent - 2]).outer = true
    · rw [if_pos hx] at hq
      simp only [Option.some.injEq] at hq
      subst hq
      refine ⟨hlt, _, List.getElem?_eq_getElem hlt, ?_⟩
      revert hx
      cases outer <;> cases (s.contours[s.parent - 2]).outer <;> simp
    · rw [if_neg hx] at hq
      obtain ⟨a, c', b, c⟩ := h.parents _ _ q (List.getElem?_eq_getElem hlt) hq
      refine ⟨by omega, c', b, ?_⟩
      rw [c]
      revert hx
      cases outer <;> cases (s.contours[s.parent - 2]).outer <;> simp
  · rw [if_neg h1]
    exact ⟨none, rfl, by simp⟩

/-- Following a border from a pixel `p` whose neighbour in the start direction is background. -/
theorem follow_spec {s : St} {Ts : Nat → (Int × Int) × Nat → Prop} (h : Core im t s Ts)
    {x y : Nat} (hx : x < im.w) (hy : y < im.h) (hfg : im.px x y > t) (outer : Bool)
    {adj : Nat × Nat}
    (hadj : if outer then 1 ≤ x ∧ adj = (x - 1, y) else x + 1 < im.w ∧ adj = (x + 1, y))
    (hbg : im.px adj.1 adj.2 ≤ t)
    (hfresh : ∀ i σ, Ts i σ → un σ.1 = (x, y) → ¬ Sees (fg im t) σ (startDir outer)) :
    ∃ v' k par pts T, k < 8 ∧
      parentOf s.contours s.parent outer = some par ∧ pts.head? = some (x, y) ∧
      follow (im.w * im.h * 8) s x y adj outer =
        some ⟨v', rotL k, s.contours ++ [⟨pts, outer, par⟩], s.num + 1, s.parent⟩ ∧
      Marked im t (s.num + 1) T s.v v' ∧
      (∃ σ, T σ ∧ un σ.1 = (x, y) ∧ Sees (fg im t) σ (startDir outer)) ∧
      Traced im t ⟨pts, outer, par⟩ T ∧
      Core im t ⟨v', rotL k, s.contours ++ [⟨pts, outer, par⟩], s.num + 1, s.parent⟩
        (fun i => if i = s.contours.length then T else Ts i) := by
  obtain ⟨p, hpd⟩ : ∃ p : Int × Int, p = ((x : Int), (y : Int)) := ⟨_, rfl⟩
  have hup : un p = (x, y) := by rw [hpd]; rfl
  have hpf : fg im t p = true := by
    rw [fg_iff, hpd]
    refine ⟨by dsimp only; omega, ?_⟩
    simpa using hfg
  obtain ⟨a, hadir⟩ : ∃ a, a = startDir outer := ⟨_, rfl⟩
  have ha := startDir_lt outer
  rw [← hadir] at ha
  have hdiff : diff adj (x, y) = D a := by
    rw [hadir]
    unfold startDir diff
    cases outer
    · simp at hadj
      rw [hadj.2]
      refine Prod.ext ?_ ?_ <;> simp [D, dirs]
    · simp at hadj
      rw [hadj.2]
      refine Prod.ext ?_ ?_
      · simp [D, dirs]; omega
      · simp [D, dirs]
  have hpbg : fg im t (p + D a) = false := by
    rw [Bool.eq_false_iff]
    intro hc
    have := (fg_iff.mp hc).2
    rw [← hdiff, hpd] at this
    unfold diff at this
    dsimp only at this
    rw [Prod.fst_add, Prod.snd_add] at this
    dsimp only at this
    rw [show ((x : Int) + ((adj.1 : Int) - (x : Int))).toNat = adj.1 by omega,
      show ((y : Int) + ((adj.2 : Int) - (y : Int))).toNat = adj.2 by omega] at this
    omega
  have hin : if outer then 1 ≤ p.1 else p.1 + 1 < im.w := by
    rw [hpd]
    cases outer
    · simp at hadj ⊢; omega
    · simp at hadj ⊢; omega
  have hnum := h.num
  obtain ⟨par, epar, hpar⟩ := parentOf_spec h outer
  obtain ⟨j, hj, hrot⟩ := h.rot
  unfold follow
  rw [epar, Option.bind_some, hdiff, hrot, rotateToValue_rotL hj ha.1, Option.bind_some, ← hup]
  rcases search_fwd h.rel hpf ha.1 hpbg with ⟨hiso, e⟩ | ⟨k, hk, hkf, hsee, e⟩
  · rw [e]
    dsimp only
    obtain ⟨v', e1, hm⟩ := marked_single hpf hiso (num := s.num + 1) h.rel
    rw [hup] at e1
    dsimp only at e1
    rw [e1]
    have htr : Traced im t ⟨[un p], outer, par⟩ (fun s => s = (p, 0)) := traced_single hpf hiso hin
    refine ⟨v', a, par, [un p], (fun s => s = (p, 0)), ha.1, rfl, rfl, rfl, hm,
      ⟨(p, 0), rfl, rfl, ?_⟩, htr, ?_⟩
    · rw [← hadir]
      exact ⟨7 - a, by omega, by dsimp only; omega, fun j hj => hiso _⟩
    · refine h.extend htr hm ha.1 hpar ?_
      intro i σ q h1 h2 h3
      simp only [List.head?_cons, Option.some.injEq] at h2
      exact hfresh i σ h1 (by rw [h3, ← h2, hup])
  · rw [e]
    dsimp only
    have hval : Valid (fg im t) (p, k) := ⟨hpf, hk, hkf⟩
    obtain ⟨n, hn1, hn2, hret, hmin⟩ := walk_returns hval
    have hM0 : Marked im t (s.num + 1)
        (fun s => ∃ m, m < 0 ∧ s = (step (fg im t))^[m] (p, k)) s.v s.v :=
      ⟨rfl, rfl, by rintro s ⟨m, hm, _⟩; omega, by rintro s ⟨m, hm, _⟩; omega,
        fun _ _ _ => rfl⟩
    obtain ⟨v', k', hk', e1, hm⟩ := traceLoop_spec (num := s.num + 1) (by omega) h.rel hval hret
      hmin (im.w * im.h * 8) 0 s.v a (by omega) (by omega) ha.1 hM0
    have e1' : traceLoop (s.num + 1) (un p) (un (p + D k)) (im.w * im.h * 8) s.v (rotL a) []
        (un (p + D k)) (un p) = some (v', rotL k',
          (List.range n).map fun m => un ((step (fg im t))^[m] (p, k)).1) := e1
    rw [e1']
    rw [hadir] at hsee
    have htr := traced_walk hval hn1 hret (outer := outer) (par := par) hsee hin
    refine ⟨v', k', par, _, _, hk', rfl, ?_, rfl, hm, ⟨(p, k), ⟨0, by omega, rfl⟩, rfl, hsee⟩, htr,
      ?_⟩
    · rw [List.head?_eq_getElem?, List.getElem?_map, List.getElem?_range (by omega)]
      rfl
    refine h.extend htr hm hk' hpar ?_
    intro i σ q h1 h2 h3
    dsimp only at h2
    rw [List.head?_eq_getElem?, List.getElem?_map, List.getElem?_range (by omega)] at h2
    simp only [Option.map_some, Function.iterate_zero, id, Option.some.injEq] at h2
    exact hfresh i σ h1 (by rw [h3, ← h2, hup])

/-- No foreground in the last column. -/
def ClearRight (im : Image Nat) (t : Nat) : Prop :=
  ∀ y, y < im.h → im.px (im.w - 1) y ≤ t

/-- Pixel `(a, b)` comes before `(x, y)` in raster order. -/
def Before (a b x y : Nat) : Prop := b < y ∨ b = y ∧ a < x

/-- The invariant of the scan when the pixels before `(x, y)` have been visited. -/
structure Inv (im : Image Nat) (t : Nat) (x y : Nat) (s : St)
    (Ts : Nat → (Int × Int) × Nat → Prop) : Prop where
  core : Core im t s Ts
  count : s.contours.length ≤ y * im.w + x
  sides : ∀ a b, a < im.w → b < im.h → Before a b x y → im.px a b > t →
    (1 ≤ a ∧ im.px (a - 1) b ≤ t ∨ a + 1 < im.w ∧ im.px (a + 1) b ≤ t) → s.v.px a b ≠ 1
  easts : ClearRight im t → ∀ a b, a < im.w → b < im.h → Before a b x y → im.px a b > t →
    a + 1 < im.w → im.px (a + 1) b ≤ t → s.v.px a b < 0

/-- Marking keeps visited pixels visited. -/
theorem Marked.mono {num : Nat} (hnum : 2 ≤ num) {T : (Int × Int) × Nat → Prop} {v v' : Image Int}
    (hm : Marked im t num T v v') (a b : Nat) :
    (v.px a b ≠ 1 → v'.px a b ≠ 1) ∧ (v.px a b < 0 → v'.px a b < 0) := by
  rcases hm.cases a b with ⟨_, e⟩ | ⟨_, _, e, _⟩ | ⟨e, _⟩ <;> constructor <;> intro h <;> omega

theorem Core.setParent {s : St} {Ts : Nat → (Int × Int) × Nat → Prop} (h : Core im t s Ts) {p : Nat}
    (hp : 1 ≤ p ∧ p ≤ s.num) : Core im t { s with parent := p } Ts :=
  ⟨h.rel, h.rot, h.num, hp, h.traced, h.dom, h.parents, h.one, h.val, h.east, h.neg, h.disj⟩

/-- A border was started at `(x, y)` and traced through the states `T`, where `pn` was the parent
number. -/
def Started (im : Image Nat) (t x y : Nat) (outer : Bool) (pn : Nat) (s s' : St)
    (Ts Ts' : Nat → (Int × Int) × Nat → Prop) : Prop :=
  ∃ v' k par pts T, parentOf s.contours pn outer = some par ∧ pts.head? = some (x, y) ∧
    Marked im t (s.num + 1) T s.v v' ∧
    (∃ σ, T σ ∧ un σ.1 = (x, y) ∧ Sees (fg im t) σ (startDir outer)) ∧
    Traced im t ⟨pts, outer, par⟩ T ∧
    s' = ⟨v', rotL k, s.contours ++ [⟨pts, outer, par⟩], s.num + 1, (v'.px x y).natAbs⟩ ∧
    Ts' = fun i => if i = s.contours.length then T else Ts i

/-- What visiting a pixel does. -/
def Step (im : Image Nat) (t x y : Nat) (s s' : St)
    (Ts Ts' : Nat → (Int × Int) × Nat → Prop) : Prop :=
  s.v.px x y = 0 ∧ s' = s ∧ Ts' = Ts ∨
  ((s.v.px x y = 1 ∧ x > 0) ∧ im.px (x - 1) y ≤ t) ∧ Started im t x y true s.parent s s' Ts Ts' ∨
  (¬ ((s.v.px x y = 1 ∧ x > 0) ∧ im.px (x - 1) y ≤ t) ∧
    ((s.v.px x y > 0 ∧ x + 1 < im.w) ∧ im.px (x + 1) y ≤ t) ∧
    Started im t x y false (if s.v.px x y > 1 then (s.v.px x y).toNat else s.parent) s s' Ts Ts') ∨
  (s.v.px x y ≠ 0 ∧ ¬ ((s.v.px x y = 1 ∧ x > 0) ∧ im.px (x - 1) y ≤ t) ∧
    ¬ ((s.v.px x y > 0 ∧ x + 1 < im.w) ∧ im.px (x + 1) y ≤ t) ∧
    s' = { s with parent := if s.v.px x y ≠ 1 then (s.v.px x y).natAbs else s.parent } ∧ Ts' = Ts)

theorem visit_step {x y : Nat} (hx : x < im.w) (hy : y < im.h) {s : St}
    {Ts : Nat → (Int × Int) × Nat → Prop} (h : Inv im t x y s Ts) :
    ∃ s' Ts', visit (im.w * im.h * 8) x y s = some s' ∧ Inv im t (x + 1) y s' Ts' ∧
      Step im t x y s s' Ts Ts' := by
  have hrel := h.core.rel
  have hnum := h.core.num
  have hget : ∀ (v : Image Int), Rel im t v → ∀ a b, a < im.w → b < im.h →
      v.get a b = some (v.px a b) := fun v hv a b ha hb =>
    Image.get_of_inB (by rw [hv.1]; exact ha) (by rw [hv.2.1]; exact hb)
  have hz : ∀ a b, a < im.w → b < im.h → (s.v.px a b = 0 ↔ im.px a b ≤ t) := by
    intro a b ha hb
    have := hrel.2.2 a b ha hb
    constructor
    · intro e
      by_contra hc
      exact this.mpr (by omega) e
    · intro e
      by_contra hc
      have := this.mp hc
      omega
  have hbef : ∀ a b, Before a b (x + 1) y → ¬ Before a b x y → a = x ∧ b = y := by
    unfold Before; intro a b; omega
  unfold visit
  rw [hget _ hrel x y hx hy, Option.bind_some]
  by_cases h0 : s.v.px x y = 0
  · rw [if_pos h0]
    have hle := (hz x y hx hy).mp h0
    refine ⟨s, Ts, rfl, ⟨h.core, by have := h.count; omega, ?_, ?_⟩, Or.inl ⟨h0, rfl, rfl⟩⟩
    · intro a b ha hb hbf hfg
      by_cases hb' : Before a b x y
      · exact h.sides a b ha hb hb' hfg
      · obtain ⟨rfl, rfl⟩ := hbef a b hbf hb'
        omega
    · intro hcl a b ha hb hbf hfg
      by_cases hb' : Before a b x y
      · exact h.easts hcl a b ha hb hb' hfg
      · obtain ⟨rfl, rfl⟩ := hbef a b hbf hb'
        omega
  · rw [if_neg h0]
    have hfg : im.px x y > t := by
      by_contra hc
      exact h0 ((hz x y hx hy).mpr (by omega))
    -- reading the left neighbour
    have hleft : (if s.v.px x y = 1 ∧ x > 0 then (s.v.get (x - 1) y).map fun l => decide (l = 0)
        else some false) =
        some (decide ((s.v.px x y = 1 ∧ x > 0) ∧ im.px (x - 1) y ≤ t)) := by
      by_cases hc : s.v.px x y = 1 ∧ x > 0
      · rw [if_pos hc, hget _ hrel (x - 1) y (by omega) hy, Option.map_some]
        congr 1
        exact decide_eq_decide.mpr (by rw [hz _ _ (by omega) hy]; exact ⟨fun e => ⟨hc, e⟩, fun e => e.2⟩)
      · rw [if_neg hc]
        congr 1
        symm
        rw [decide_eq_false_iff_not]
        exact fun e => hc e.1
    have hright : (if s.v.px x y > 0 ∧ x + 1 < s.v.w then
          (s.v.get (x + 1) y).map fun r => decide (r = 0) else some false) =
        some (decide ((s.v.px x y > 0 ∧ x + 1 < im.w) ∧ im.px (x + 1) y ≤ t)) := by
      rw [hrel.1]
      by_cases hc : s.v.px x y > 0 ∧ x + 1 < im.w
      · rw [if_pos hc, hget _ hrel (x + 1) y (by omega) hy, Option.map_some]
        congr 1
        exact decide_eq_decide.mpr (by rw [hz _ _ (by omega) hy]; exact ⟨fun e => ⟨hc, e⟩, fun e => e.2⟩)
      · rw [if_neg hc]
        congr 1
        symm
        rw [decide_eq_false_iff_not]
        exact fun e => hc e.1
    rw [hleft, Option.bind_some, hright]
    -- the final update of the parent
    have hfin : ∀ s1 Ts1, Inv im t (x + 1) y s1 Ts1 →
        ((s1.v.get x y).map fun c =>
            if c ≠ 1 then { s1 with parent := c.natAbs } else s1) =
          some { s1 with parent := if s1.v.px x y ≠ 1 then (s1.v.px x y).natAbs else s1.parent } ∧
          Inv im t (x + 1) y { s1 with parent := if s1.v.px x y ≠ 1 then (s1.v.px x y).natAbs
            else s1.parent } Ts1 := by
      intro s1 Ts1 h1
      rw [hget _ h1.core.rel x y hx hy, Option.map_some]
      by_cases hc : s1.v.px x y ≠ 1
      · rw [if_pos hc]
        obtain ⟨a, b, _⟩ := h1.core.val x y hx hy hfg hc
        rw [if_pos hc]
        exact ⟨rfl, h1.core.setParent ⟨by omega, b⟩, h1.count, h1.sides, h1.easts⟩
      · rw [if_neg hc, if_neg hc]
        exact ⟨rfl, h1⟩
    -- a pixel that carries value 1 is on no contour yet
    have hon : ∀ i σ, Ts i σ → un σ.1 = (x, y) → s.v.px x y ≠ 1 := by
      intro i σ h1 h2
      have := h.core.one i σ h1
      rw [h2] at this
      exact this
    by_cases hout : (s.v.px x y = 1 ∧ x > 0) ∧ im.px (x - 1) y ≤ t
    · rw [decide_eq_true hout, if_pos rfl]
      obtain ⟨v', k, par, pts, T, hk, epar, ehd, e, hm, ⟨σ0, hσ0, hσ1, hσ2⟩, htr, hcore⟩ :=
        follow_spec h.core hx hy hfg true (adj := (x - 1, y)) (by simp; omega) hout.2
          (fun i σ h1 h2 _ => hon i σ h1 h2 hout.1.1)
      rw [e, Option.bind_some]
      have hmono := fun a b => hm.mono (by omega) a b
      have hne : v'.px x y ≠ 1 := by
        have := hcore.one s.contours.length σ0 (by rw [if_pos rfl]; exact hσ0)
        rw [hσ1] at this
        exact this
      suffices hinv : Inv im t (x + 1) y _ (fun i => if i = s.contours.length then T else Ts i) by
        obtain ⟨f1, f2⟩ := hfin _ _ hinv
        refine ⟨_, _, f1, f2, Or.inr (Or.inl ⟨hout, v', k, par, pts, T, epar, ehd, hm,
          ⟨σ0, hσ0, hσ1, hσ2⟩, htr, ?_, rfl⟩)⟩
        dsimp only
        rw [if_pos hne]
      refine ⟨hcore, by have := h.count; simp; omega, ?_, ?_⟩
      · intro a b ha hb hbf hfg' hs
        by_cases hb' : Before a b x y
        · exact (hmono a b).1 (h.sides a b ha hb hb' hfg' hs)
        · obtain ⟨rfl, rfl⟩ := hbef a b hbf hb'
          exact hne
      · intro hcl a b ha hb hbf hfg' hw hr
        by_cases hb' : Before a b x y
        · exact (hmono a b).2 (h.easts hcl a b ha hb hb' hfg' hw hr)
        · obtain ⟨rfl, rfl⟩ := hbef a b hbf hb'
          dsimp only
          -- the east side belongs to the border just traced
          obtain ⟨p, hpd⟩ : ∃ p : Int × Int, p = ((a : Int), (b : Int)) := ⟨_, rfl⟩
          have hup : un p = (a, b) := by rw [hpd]; rfl
          have hpf : fg im t p = true := by
            rw [fg_iff, hpd]
            refine ⟨by dsimp only; omega, ?_⟩
            simpa using hfg
          have hσp : σ0.1 = p := un_inj (htr.isfg _ hσ0) hpf (by rw [hσ1, hup])
          have hW : fg im t (p + D 0) = false := by
            have := sees_bg hσ2
            rw [hσp] at this
            exact this
          have hE : fg im t (p + D 4) = false := by
            rw [Bool.eq_false_iff]
            intro hc
            have := (fg_iff.mp hc).2
            rw [hpd] at this
            have e1 : (((a : Int), (b : Int)) + D 4).1 = (a : Int) + 1 := rfl
            have e2 : (((a : Int), (b : Int)) + D 4).2 = (b : Int) + 0 := rfl
            rw [e1, e2, show ((a : Int) + 1).toNat = a + 1 by omega,
              show ((b : Int) + 0).toNat = b by omega] at this
            omega
          have hdart : Dart (fg im t) (p, 0) := ⟨hpf, by dsimp only; decide, rfl, hW⟩
          have hS : ∀ s, Dart (fg im t) s → s ∈ allStates im :=
            fun s hs => mem_allStates hs.1 hs.2.1
          have hL : ∀ p, fg im t p = true → 0 ≤ p.1 := fun p hp => (fg_iff.mp hp).1.1
          rcases east_before (allStates im) hS hL hdart hE with ⟨n, en⟩ | ⟨n, r, en, hr'⟩
          · obtain ⟨σ', a', b', _, d'⟩ := htr.iter hσ0 (by rfl) hσ2 n
            rw [hσp] at b' d'
            have hsd : startDir true = 0 := rfl
            rw [hsd, en] at b' d'
            have := hm.right σ' a' (Or.inr d')
            rw [b', hup] at this
            dsimp only at this
            omega
          · exfalso
            have hrd : Dart (fg im t) (r, 4) := by
              rw [← en]; exact dart_iter (allStates im) hS hdart n
            have hrb := (fg_iff.mp hrd.1).1
            have hrf := (fg_iff.mp hrd.1).2
            dsimp only at hrb hrf
            rw [hpd] at hr'
            dsimp only at hr'
            have hrw : r.1.toNat + 1 < im.w := by
              by_contra hc
              have := hcl r.2.toNat (by omega)
              rw [show im.w - 1 = r.1.toNat by omega] at this
              omega
            have hre : im.px (r.1.toNat + 1) r.2.toNat ≤ t := by
              by_contra hc
              have h2 := hrd.2.2.2
              dsimp only at h2
              have e1 : (r + D 4).1 = r.1 + 1 := rfl
              have e2 : (r + D 4).2 = r.2 + 0 := rfl
              have : fg im t (r + D 4) = true := by
                rw [fg_iff, e1, e2, show (r.1 + 1).toNat = r.1.toNat + 1 by omega,
                  show (r.2 + 0).toNat = r.2.toNat by omega]
                exact ⟨by omega, by omega⟩
              rw [this] at h2
              simp at h2
            have hneg := h.easts hcl r.1.toNat r.2.toNat (by omega) (by omega)
              (by unfold Before; omega) hrf hrw hre
            obtain ⟨i, σ, q1, q2, q3⟩ := h.core.neg _ _ hrw (by omega) hneg
            have hi := h.core.dom i σ q1
            have htr' := h.core.traced i _ (List.getElem?_eq_getElem hi)
            have hσr : σ.1 = r := un_inj (htr'.isfg _ q1) hrd.1 q2
            obtain ⟨m, em⟩ := crack_back (allStates im) hS hdart n
            rw [en] at em
            obtain ⟨σ', a', b', _, _⟩ := htr'.iter q1 (by rfl) q3 m
            rw [hσr, em] at b'
            exact hon i σ' a' (by rw [b', hup]) hout.1.1
    · rw [decide_eq_false hout, if_neg (by decide), Option.bind_some]
      by_cases hhole : (s.v.px x y > 0 ∧ x + 1 < im.w) ∧ im.px (x + 1) y ≤ t
      · rw [decide_eq_true hhole, if_pos rfl]
        -- the parent may have changed
        obtain ⟨s1, hs1⟩ : ∃ s1, s1 = (if s.v.px x y > 1 then { s with parent := (s.v.px x y).toNat }
          else s) := ⟨_, rfl⟩
        have hc1 : Core im t s1 Ts ∧ s1.v = s.v ∧ s1.contours = s.contours ∧ s1.num = s.num := by
          rw [hs1]
          by_cases hc : s.v.px x y > 1
          · rw [if_pos hc]
            obtain ⟨a, b, _⟩ := h.core.val x y hx hy hfg (by omega)
            exact ⟨h.core.setParent ⟨by omega, by omega⟩, rfl, rfl, rfl⟩
          · rw [if_neg hc]
            exact ⟨h.core, rfl, rfl, rfl⟩
        rw [← hs1]
        obtain ⟨hcore1, ev, ec, en⟩ := hc1
        obtain ⟨v', k, par, pts, T, hk, epar, ehd, e, hm, ⟨σ0, hσ0, hσ1, hσ2⟩, htr, hcore⟩ :=
          follow_spec hcore1 hx hy hfg false (adj := (x + 1, y)) (by simp; omega) hhole.2
            (fun i σ h1 h2 h3 => by
              have := h.core.east i σ h1 h3
              rw [h2] at this
              dsimp only at this
              omega)
        rw [e, Option.bind_some]
        rw [ev] at hm
        have hmono := fun a b => hm.mono (by omega) a b
        have hlt : v'.px x y < 0 := by
          have := hm.right σ0 hσ0 (Or.inr hσ2)
          rw [hσ1] at this
          dsimp only at this
          omega
        suffices hinv : Inv im t (x + 1) y _ (fun i => if i = s1.contours.length then T else Ts i) by
          obtain ⟨f1, f2⟩ := hfin _ _ hinv
          have epn : s1.parent = if s.v.px x y > 1 then (s.v.px x y).toNat else s.parent := by
            rw [hs1]; split <;> rfl
          rw [en] at hm
          rw [ec, epn] at epar
          refine ⟨_, _, f1, f2, Or.inr (Or.inr (Or.inl ⟨hout, hhole, v', k, par, pts, T, epar, ehd, hm,
            ⟨σ0, hσ0, hσ1, hσ2⟩, htr, ?_, by rw [ec]⟩))⟩
          dsimp only
          rw [if_pos (by omega), ec, en]
        refine ⟨hcore, by have := h.count; simp [ec]; omega, ?_, ?_⟩
        · intro a b ha hb hbf hfg' hs
          by_cases hb' : Before a b x y
          · exact (hmono a b).1 (h.sides a b ha hb hb' hfg' hs)
          · obtain ⟨rfl, rfl⟩ := hbef a b hbf hb'
            dsimp only
            omega
        · intro hcl a b ha hb hbf hfg' hw hr
          by_cases hb' : Before a b x y
          · exact (hmono a b).2 (h.easts hcl a b ha hb hb' hfg' hw hr)
          · obtain ⟨rfl, rfl⟩ := hbef a b hbf hb'
            exact hlt
      · rw [decide_eq_false hhole, if_neg (by decide), Option.bind_some]
        suffices hinv : Inv im t (x + 1) y s Ts by
          obtain ⟨f1, f2⟩ := hfin _ _ hinv
          exact ⟨_, _, f1, f2, Or.inr (Or.inr (Or.inr ⟨h0, hout, hhole, rfl, rfl⟩))⟩
        refine ⟨h.core, by have := h.count; omega, ?_, ?_⟩
        · intro a b ha hb hbf hfg' hs
          by_cases hb' : Before a b x y
          · exact h.sides a b ha hb hb' hfg' hs
          · obtain ⟨rfl, rfl⟩ := hbef a b hbf hb'
            intro h1
            rcases hs with hs | hs
            · exact hout ⟨⟨h1, by omega⟩, hs.2⟩
            · exact hhole ⟨⟨by omega, hs.1⟩, hs.2⟩
        · intro hcl a b ha hb hbf hfg' hw hr
          by_cases hb' : Before a b x y
          · exact h.easts hcl a b ha hb hb' hfg' hw hr
          · obtain ⟨rfl, rfl⟩ := hbef a b hbf hb'
            by_contra hc
            exact hhole ⟨⟨by omega, hw⟩, hr⟩

theorem visit_spec {x y : Nat} (hx : x < im.w) (hy : y < im.h) {s : St}
    {Ts : Nat → (Int × Int) × Nat → Prop} (h : Inv im t x y s Ts) :
    ∃ s' Ts', visit (im.w * im.h * 8) x y s = some s' ∧ Inv im t (x + 1) y s' Ts' := by
  obtain ⟨s', Ts', h1, h2, _⟩ := visit_step hx hy h
  exact ⟨s', Ts', h1, h2⟩

end Verif.Contours
