import Verif.Distance.Model
import Mathlib.Tactic.Linarith
import Mathlib.Tactic.Ring
import Mathlib.Tactic.FieldSimp
/- C32: exactness of the squared Euclidean distance transform. -/
namespace Verif.Distance

/-! ### Specification -/

/-- `v` is the least value at `q` of the parabolas `p ↦ (q - p)² + f p`, `p < n`, infinite (`none`)
if all `f p` are infinite. -/
def IsMin1 (f : Nat → Option ℚ) (n q : Nat) : Option ℚ → Prop
  | none => ∀ p, p < n → f p = none
  | some m => (∃ p a, p < n ∧ f p = some a ∧ m = ((q : ℚ) - p) ^ 2 + a) ∧
      ∀ p a, p < n → f p = some a → m ≤ ((q : ℚ) - p) ^ 2 + a

/-- `v` is the least squared Euclidean distance from `(x, y)` to a foreground pixel, infinite if
there is none. -/
def IsSqDist (im : Image Nat) (x y : Nat) : Option ℚ → Prop
  | none => ∀ a b, a < im.w → b < im.h → im.px a b = 0
  | some m =>
    (∃ a b, a < im.w ∧ b < im.h ∧ im.px a b ≠ 0 ∧ m = ((x : ℚ) - a) ^ 2 + ((y : ℚ) - b) ^ 2) ∧
      ∀ a b, a < im.w → b < im.h → im.px a b ≠ 0 → m ≤ ((x : ℚ) - a) ^ 2 + ((y : ℚ) - b) ^ 2

/-! ### The lower envelope -/

/-- Parabola of a finite source value. -/
def par (f : Nat → Option ℚ) (p : Nat) (x : ℚ) : ℚ := (x - p) ^ 2 + (f p).getD 0

/-- Intersection abscissa. -/
def isect (f : Nat → Option ℚ) (p q : Nat) : ℚ :=
  ((((f q).getD 0) + q * q) - (((f p).getD 0) + p * p)) / (2 * q - 2 * p)

/-- Intersection abscissa computed with rounding. -/
def isectR (ro : ℚ → ℚ) (f : Nat → Option ℚ) (p q : Nat) : ℚ :=
  ro (ro (ro ((f q).getD 0 + ro (ro q * ro q)) - ro ((f p).getD 0 + ro (ro p * ro p))) /
    ro (ro (2 * ro q) - ro (2 * ro p)))

theorem intersection_eq {ro : ℚ → ℚ} {f : Nat → Option ℚ} {p q : Nat} (hp : (f p).isSome)
    (hq : (f q).isSome) : intersection ro f p q = .fin (isectR ro f p q) := by
  unfold intersection isectR
  obtain ⟨a, ha⟩ := Option.isSome_iff_exists.1 hp
  obtain ⟨b, hb⟩ := Option.isSome_iff_exists.1 hq
  rw [ha, hb]; rfl

theorem par_le_iff {f : Nat → Option ℚ} {p q : Nat} (h : p < q) (x : ℚ) :
    par f p x ≤ par f q x ↔ x ≤ isect f p q := by
  have hpq : (p : ℚ) < q := by exact_mod_cast h
  unfold par isect
  rw [le_div_iff₀ (by linarith)]
  constructor <;> intro h <;> nlinarith

theorem par_ge_of {f : Nat → Option ℚ} {p q : Nat} (h : p < q) {x : ℚ} (hx : isect f p q ≤ x) :
    par f q x ≤ par f p x := by
  have hpq : (p : ℚ) < q := by exact_mod_cast h
  unfold isect at hx
  unfold par
  rw [div_le_iff₀ (by linarith)] at hx
  nlinarith

/-- What the construction needs of the arithmetic: at the integer positions, the computed
intersection tells which parabola is lower, and the value of a parabola is computed exactly. -/
structure Good (ro : ℚ → ℚ) (f : Nat → Option ℚ) (n : Nat) : Prop where
  pos : ∀ q : Nat, q < n → ro q = q
  le : ∀ p q, p < q → q < n → (f p).isSome → (f q).isSome → ∀ x : Nat, x < n →
    (x : ℚ) ≤ isectR ro f p q → par f p x ≤ par f q x
  ge : ∀ p q, p < q → q < n → (f p).isSome → (f q).isSome → ∀ x : Nat, x < n →
    isectR ro f p q ≤ x → par f q x ≤ par f p x
  val : ∀ p q v, p < n → q < n → f p = some v →
    ro (ro (ro (ro (q : ℚ) - ro (p : ℚ)) * ro (ro (q : ℚ) - ro (p : ℚ))) + v) =
      ((q : ℚ) - p) * (q - p) + v

theorem good_id (f : Nat → Option ℚ) (n : Nat) : Good id f n where
  pos _ _ := rfl
  le _ _ h _ _ _ x _ hx := (par_le_iff h x).2 hx
  ge _ _ h _ _ _ _ _ hx := par_ge_of h hx
  val _ _ _ _ _ _ := rfl

/-- The envelope of the finite parabolas below `q`, with breakpoints `z`. -/
structure EnvInv (n : Nat) (f : Nat → Option ℚ) (q k : Nat) (e : Env) (z : Nat → ℚ) : Prop where
  kq : k < q
  loc : ∀ i, i ≤ k → e.loc i < q ∧ (f (e.loc i)).isSome
  b0 : e.bnd 0 = .negInf
  bk : e.bnd (k + 1) = .posInf
  bi : ∀ i, 1 ≤ i → i ≤ k → e.bnd i = .fin (z i)
  mono : ∀ i, 1 ≤ i → i < k → z i ≤ z (i + 1)
  best : ∀ (x i : Nat), x < n → i ≤ k → (i = 0 ∨ z i ≤ x) → (i = k ∨ (x : ℚ) ≤ z (i + 1)) →
    ∀ p, p < q → (f p).isSome → par f (e.loc i) x ≤ par f p x

theorem EnvInv.mono' {n : Nat} {f : Nat → Option ℚ} {q k : Nat} {e : Env} {z : Nat → ℚ}
    (h : EnvInv n f q k e z) {i j : Nat} (h1 : 1 ≤ i) (hij : i ≤ j) (hj : j ≤ k) : z i ≤ z j := by
  induction j with
  | zero => omega
  | succ j ih =>
    rcases Nat.lt_or_eq_of_le hij with h' | h'
    · exact le_trans (ih (by omega) (by omega)) (h.mono j (by omega) (by omega))
    · rw [h']

/-- `q` is best from `z (k + 1)` on. -/
def Tail (n : Nat) (f : Nat → Option ℚ) (q K k : Nat) (z : Nat → ℚ) : Prop :=
  k = K ∨ ∀ x : Nat, x < n → z (k + 1) ≤ x → ∀ p, p < q → (f p).isSome → par f q x ≤ par f p x

theorem popLoop_spec {ro : ℚ → ℚ} {n : Nat} {f : Nat → Option ℚ} {e : Env} {q K : Nat} {z : Nat → ℚ}
    (hG : Good ro f n) (h : EnvInv n f q K e z) (hqn : q < n) (hfq : (f q).isSome) :
    ∀ (fuel k : Nat), k < fuel → k ≤ K → Tail n f q K k z →
      ∃ k', popLoop ro n f e q fuel k (.fin (isectR ro f (e.loc k) q)) =
          some (k', .fin (isectR ro f (e.loc k') q)) ∧
        k' ≤ k ∧ (k' = 0 ∨ z k' < isectR ro f (e.loc k') q) ∧ Tail n f q K k' z
  | 0, k, hk, _, _ => absurd hk (Nat.not_lt_zero _)
  | fuel + 1, k, hk, hkK, hT => by
    have hkq := h.kq
    unfold popLoop
    rw [show rd (n + 1) e.bnd k = some (e.bnd k) from if_pos (by omega), Option.bind_some]
    by_cases hk0 : k = 0
    · subst hk0
      rw [h.b0]
      exact ⟨0, rfl, le_refl _, Or.inl rfl, hT⟩
    · rw [h.bi k (by omega) hkK]
      by_cases hs : isectR ro f (e.loc k) q ≤ z k
      · have hT' : Tail n f q K (k - 1) z := by
          right
          rw [show k - 1 + 1 = k by omega]
          intro x hxn hx p hp hfp
          rcases hT with hT | hT
          · have := h.best x k hxn hkK (Or.inr hx) (Or.inl hT) p hp hfp
            exact le_trans (hG.ge _ _ (h.loc k hkK).1 hqn (h.loc k hkK).2 hfq x hxn (le_trans hs hx)) this
          · rcases le_total (x : ℚ) (z (k + 1)) with hx' | hx'
            · have := h.best x k hxn hkK (Or.inr hx) (Or.inr hx') p hp hfp
              exact le_trans (hG.ge _ _ (h.loc k hkK).1 hqn (h.loc k hkK).2 hfq x hxn (le_trans hs hx)) this
            · exact hT x hxn hx' p hp hfp
        obtain ⟨k', e1, e2, e3, e4⟩ :=
          popLoop_spec hG h hqn hfq fuel (k - 1) (by omega) (by omega) hT'
        refine ⟨k', ?_, by omega, e3, e4⟩
        rw [if_pos (by simpa [F.le] using hs), csub_of_le (by omega), Option.bind_some,
          show rd n e.loc (k - 1) = some (e.loc (k - 1)) from if_pos (by omega), Option.bind_some,
          intersection_eq (h.loc (k - 1) (by omega)).2 hfq]
        exact e1
      · refine ⟨k, ?_, le_refl _, Or.inr (not_le.1 hs), hT⟩
        rw [if_neg (by simpa [F.le] using hs)]

theorem setPar_eq {n : Nat} {e : Env} {k q : Nat} {s : F} (hk : k < n) :
    setPar n e k q s = some ⟨fun j => if j = k then q else e.loc j,
      fun j => if j = k + 1 then .posInf else if j = k then s else e.bnd j⟩ := by
  unfold setPar wr
  rw [if_pos hk, Option.bind_some, if_pos (by omega), Option.bind_some, if_pos (by omega)]
  rfl

/-- State of the construction after the positions below `q`. -/
def BuildInv (n : Nat) (f : Nat → Option ℚ) (q k : Nat) (e : Env) : Prop :=
  ((∀ p, p < q → f p = none) ∧ k = 0 ∧ e.loc 0 = 0 ∧ e.bnd 1 = .posInf) ∨ ∃ z, EnvInv n f q k e z

theorem addPar_spec {ro : ℚ → ℚ} {n : Nat} {f : Nat → Option ℚ} {q k : Nat} {e : Env} (hq0 : 0 < q) (hq : q < n)
    (hG : Good ro f n) (h : BuildInv n f q k e) :
    ∃ st, addPar ro n f q (k, e) = some st ∧ BuildInv n f (q + 1) st.1 st.2 := by
  unfold addPar
  by_cases hfq : (f q).isNone
  · rw [if_pos hfq]
    refine ⟨_, rfl, ?_⟩
    have hn : f q = none := by simpa using hfq
    rcases h with ⟨h1, h2, h3, h4⟩ | ⟨z, h⟩
    · left
      refine ⟨fun p hp => ?_, h2, h3, h4⟩
      rcases Nat.lt_or_eq_of_le (Nat.lt_succ_iff.1 hp) with h | h
      · exact h1 p h
      · rw [h, hn]
    · right
      refine ⟨z, ⟨by have := h.kq; dsimp only; omega, fun i hi => ⟨by have := (h.loc i hi).1; dsimp only; omega,
        (h.loc i hi).2⟩, h.b0, h.bk, h.bi, h.mono, ?_⟩⟩
      intro x i hxn hi h1 h2 p hp hfp
      rcases Nat.lt_or_eq_of_le (Nat.lt_succ_iff.1 hp) with h' | h'
      · exact h.best x i hxn hi h1 h2 p h' hfp
      · rw [h', hn] at hfp; cases hfp
  · rw [if_neg hfq]
    have hfq' : (f q).isSome := by
      cases hh : f q with
      | none => rw [hh] at hfq; exact absurd rfl hfq
      | some _ => rfl
    dsimp only
    rcases h with ⟨h1, h2, h3, h4⟩ | ⟨z, h⟩
    · subst h2
      rw [show rd n e.loc 0 = some (e.loc 0) from if_pos (by omega), Option.bind_some, h3,
        if_pos ⟨rfl, by rw [h1 0 hq0]; rfl⟩, setPar_eq (by omega)]
      refine ⟨_, rfl, Or.inr ⟨fun _ => 0, ?_⟩⟩
      refine ⟨by dsimp only; omega, ?_, by simp, by simp, ?_, ?_, ?_⟩
      · intro i hi
        dsimp only at hi
        obtain rfl : i = 0 := by omega
        exact ⟨by simp, by simpa using hfq'⟩
      · intro i hi hi'; dsimp only at hi'; omega
      · intro i hi hi'; dsimp only at hi'; omega
      · intro x i _ hi _ _ p hp hfp
        dsimp only at hi
        obtain rfl : i = 0 := by omega
        rcases Nat.lt_or_eq_of_le (Nat.lt_succ_iff.1 hp) with h' | h'
        · rw [h1 p h'] at hfp; cases hfp
        · rw [h']; simp
    · have hkq := h.kq
      obtain ⟨hl1, hl2⟩ := h.loc k (le_refl _)
      rw [show rd n e.loc k = some (e.loc k) from if_pos (by omega), Option.bind_some]
      rw [if_neg (by
        rintro ⟨-, hh⟩
        cases hf : f (e.loc k) with
        | none => rw [hf] at hl2; cases hl2
        | some v => rw [hf] at hh; cases hh)]
      rw [intersection_eq hl2 hfq']
      obtain ⟨k', e1, e2, e3, e4⟩ := popLoop_spec hG h hq hfq' (k + 1) k (by omega) (le_refl _)
        (Or.inl rfl)
      rw [e1, Option.bind_some]
      dsimp only
      rw [setPar_eq (by omega)]
      refine ⟨_, rfl, Or.inr ⟨fun i => if i = k' + 1 then isectR ro f (e.loc k') q else z i, ?_⟩⟩
      dsimp only
      generalize hs : isectR ro f (e.loc k') q = s at *
      refine ⟨by omega, ?_, ?_, ?_, ?_, ?_, ?_⟩
      · intro i hi
        dsimp only at hi ⊢
        by_cases h' : i = k' + 1
        · rw [if_pos h']; exact ⟨by omega, hfq'⟩
        · rw [if_neg h']
          have := h.loc i (by omega)
          exact ⟨by omega, this.2⟩
      · dsimp only; rw [if_neg (by omega), if_neg (by omega)]; exact h.b0
      · simp
      · intro i hi hi'
        dsimp only at hi' ⊢
        rw [if_neg (by omega)]
        by_cases h' : i = k' + 1
        · rw [if_pos h', if_pos h']
        · rw [if_neg h', if_neg h']; exact h.bi i hi (by omega)
      · intro i hi hi'
        rw [if_neg (by omega)]
        by_cases h' : i = k'
        · rw [if_pos (by omega)]
          rcases e3 with e3 | e3
          · omega
          · rw [h']; exact le_of_lt e3
        · rw [if_neg (by omega)]; exact h.mono i hi (by omega)
      · intro x i hxn hi hlo hhi p hp hfp
        dsimp only at hi hlo hhi ⊢
        have hlk := h.loc k' (by omega)
        by_cases hik : i = k' + 1
        · -- the new parabola
          rw [if_pos hik]
          have hx : s ≤ (x : ℚ) := by
            rcases hlo with h' | h'
            · omega
            · rwa [if_pos hik] at h'
          rcases Nat.lt_or_eq_of_le (Nat.lt_succ_iff.1 hp) with h' | h'
          · have hx' : k' = 0 ∨ z k' ≤ (x : ℚ) := e3.imp id (fun h => le_trans (le_of_lt h) hx)
            have hq' : par f q x ≤ par f (e.loc k') x := hG.ge _ _ hlk.1 hq hlk.2 hfq' x hxn (by rw [hs]; exact hx)
            rcases e4 with e4 | e4
            · exact le_trans hq' (h.best x k' hxn (by omega) hx' (Or.inl e4) p h' hfp)
            · rcases le_total (x : ℚ) (z (k' + 1)) with h'' | h''
              · exact le_trans hq' (h.best x k' hxn (by omega) hx' (Or.inr h'') p h' hfp)
              · exact e4 x hxn h'' p h' hfp
          · rw [h']
        · rw [if_neg hik]
          rw [if_neg hik] at hlo
          by_cases hik' : i = k'
          · -- the parabola before the new one
            subst hik'
            have hx : (x : ℚ) ≤ s := by
              rcases hhi with h' | h'
              · omega
              · rwa [if_pos rfl] at h'
            have hq' : par f (e.loc i) x ≤ par f q x := hG.le _ _ hlk.1 hq hlk.2 hfq' x hxn (by rw [hs]; exact hx)
            rcases Nat.lt_or_eq_of_le (Nat.lt_succ_iff.1 hp) with h' | h'
            · rcases e4 with e4 | e4
              · exact h.best x i hxn (by omega) hlo (Or.inl e4) p h' hfp
              · rcases le_total (x : ℚ) (z (i + 1)) with h'' | h''
                · exact h.best x i hxn (by omega) hlo (Or.inr h'') p h' hfp
                · exact le_trans hq' (e4 x hxn h'' p h' hfp)
            · rw [h']; exact hq'
          · -- an older parabola
            have hx : (x : ℚ) ≤ z (i + 1) := by
              rcases hhi with h' | h'
              · omega
              · rwa [if_neg (by omega)] at h'
            rcases Nat.lt_or_eq_of_le (Nat.lt_succ_iff.1 hp) with h' | h'
            · exact h.best x i hxn (by omega) hlo (Or.inr hx) p h' hfp
            · rw [h']
              have h3 : z (i + 1) ≤ z k' := h.mono' (by omega) (by omega) (by omega)
              have h4 : (x : ℚ) ≤ s := by
                rcases e3 with e3 | e3
                · omega
                · linarith
              have h5 := h.best x i hxn (by omega) hlo (Or.inr hx) (e.loc k') hlk.1 hlk.2
              exact le_trans h5 (hG.le _ _ hlk.1 hq hlk.2 hfq' x hxn (by rw [hs]; exact h4))

theorem advance_spec {ro : ℚ → ℚ} {n : Nat} {f : Nat → Option ℚ} {e : Env} {K : Nat} {z : Nat → ℚ}
    (hG : Good ro f n) (h : EnvInv n f n K e z) (q : Nat) (hq : q < n) :
    ∀ fuel k, K < fuel + k → k ≤ K → (k = 0 ∨ z k ≤ q) →
      ∃ k', advance ro n e q fuel k = some k' ∧ k' ≤ K ∧ (k' = 0 ∨ z k' ≤ (q : ℚ)) ∧
        (k' = K ∨ (q : ℚ) ≤ z (k' + 1))
  | 0, k, h1, h2, _ => by omega
  | fuel + 1, k, h1, h2, h3 => by
    have hk := h.kq
    unfold advance
    rw [show rd (n + 1) e.bnd (k + 1) = some (e.bnd (k + 1)) from if_pos (by omega),
      Option.bind_some, hG.pos q hq]
    by_cases hkK : k = K
    · rw [hkK, h.bk]
      exact ⟨K, rfl, le_refl _, hkK ▸ h3, Or.inl rfl⟩
    · rw [h.bi (k + 1) (by omega) (by omega)]
      by_cases hlt : z (k + 1) < q
      · rw [if_pos (by simpa [F.lt] using hlt)]
        exact advance_spec hG h q hq fuel (k + 1) (by omega) (by omega) (Or.inr (le_of_lt hlt))
      · rw [if_neg (by simpa [F.lt] using hlt)]
        exact ⟨k, rfl, h2, h3, Or.inr (not_lt.1 hlt)⟩

/-- The 1-d transform hands the exact minimum for each position to the sink. -/
theorem transform1d_spec {σ : Type} {ro : ℚ → ℚ} {n : Nat} {f : Nat → Option ℚ}
    {put : Nat → Option ℚ → σ → Option σ} (hG : Good ro f n) (J : Nat → σ → Prop) {sink : σ} {e : Env} (h0 : J 0 sink)
    (hput : ∀ q v s, q < n → J q s → IsMin1 f n q v → ∃ s', put q v s = some s' ∧ J (q + 1) s') :
    ∃ r, transform1d ro n f put sink e = some r ∧ J n r.1 := by
  unfold transform1d
  by_cases hn : n = 0
  · rw [if_pos hn]
    exact ⟨_, rfl, by rw [hn]; exact h0⟩
  rw [if_neg hn, setPar_eq (by omega), Option.bind_some]
  obtain ⟨st, e1, e2⟩ := forRange_spec (f := addPar ro n f) (fun q st => BuildInv n f q st.1 st.2)
    (lo := 1) (hi := n) (s := (0, ⟨fun j => if j = 0 then 0 else e.loc j,
      fun j => if j = 0 + 1 then .posInf else if j = 0 then .negInf else e.bnd j⟩)) (by omega) (by
      unfold BuildInv
      dsimp only
      by_cases hf : f 0 = none
      · left
        refine ⟨fun p hp => ?_, rfl, by simp, by simp⟩
        rw [show p = 0 by omega]; exact hf
      · right
        refine ⟨fun _ => 0, ⟨by omega, ?_, by simp, by simp, ?_, ?_, ?_⟩⟩
        · intro i hi
          rw [show i = 0 by omega]
          refine ⟨by simp, ?_⟩
          cases hh : f 0 with
          | none => exact absurd hh hf
          | some v => simp [hh]
        · intro i _ _; omega
        · intro i _ _; omega
        · intro x i _ hi _ _ p hp _
          rw [show i = 0 by omega, show p = 0 by omega]; simp)
    (by
      rintro q ⟨k, e⟩ hq1 hq2 h
      exact addPar_spec (by omega) hq2 hG h)
  rw [e1, Option.bind_some]
  suffices hs : ∃ r, (forRange 0 n (sink, 0) fun q r =>
      (advance ro n st.2 q (n + 1) r.2).bind fun k =>
      (rd n st.2.loc k).bind fun p =>
      (put q ((f p).map fun v => ro (ro (ro (ro (q : ℚ) - ro (p : ℚ)) *
        ro (ro (q : ℚ) - ro (p : ℚ))) + v)) r.1).map fun sk => (sk, k)) = some r ∧
      J n r.1 by
    obtain ⟨r, hr1, hr2⟩ := hs
    rw [hr1]; exact ⟨_, rfl, hr2⟩
  rcases e2 with ⟨h1, h2, h3, h4⟩ | ⟨z, h⟩
  · obtain ⟨r, hr1, hr2⟩ := forRange_spec
      (f := fun q (r : σ × Nat) =>
        (advance ro n st.2 q (n + 1) r.2).bind fun k =>
        (rd n st.2.loc k).bind fun p =>
        (put q ((f p).map fun v => ro (ro (ro (ro (q : ℚ) - ro (p : ℚ)) *
        ro (ro (q : ℚ) - ro (p : ℚ))) + v)) r.1).map fun sk => (sk, k))
      (fun q r => J q r.1 ∧ r.2 = 0) (lo := 0) (hi := n) (s := (sink, 0)) (Nat.zero_le _)
      ⟨h0, rfl⟩
      (by
        rintro q ⟨s, k⟩ _ hq ⟨hJ, rfl : k = 0⟩
        have ha : advance ro n st.2 q (n + 1) 0 = some 0 := by
          unfold advance
          rw [show rd (n + 1) st.2.bnd (0 + 1) = some (st.2.bnd 1) from if_pos (by omega),
            Option.bind_some, h4]
          rfl
        dsimp only
        rw [ha, Option.bind_some, show rd n st.2.loc 0 = some (st.2.loc 0) from if_pos (by omega),
          Option.bind_some, h3, h1 0 (by omega)]
        obtain ⟨s', p1, p2⟩ := hput q none s hq hJ h1
        refine ⟨(s', 0), ?_, p2, rfl⟩
        rw [Option.map_none, p1]; rfl)
    exact ⟨r, hr1, hr2.1⟩
  · have hkn := h.kq
    obtain ⟨r, hr1, hr2⟩ := forRange_spec
      (f := fun q (r : σ × Nat) =>
        (advance ro n st.2 q (n + 1) r.2).bind fun k =>
        (rd n st.2.loc k).bind fun p =>
        (put q ((f p).map fun v => ro (ro (ro (ro (q : ℚ) - ro (p : ℚ)) *
        ro (ro (q : ℚ) - ro (p : ℚ))) + v)) r.1).map fun sk => (sk, k))
      (fun q r => J q r.1 ∧ r.2 ≤ st.1 ∧ (r.2 = 0 ∨ z r.2 ≤ q)) (lo := 0) (hi := n) (s := (sink, 0))
      (Nat.zero_le _) ⟨h0, Nat.zero_le _, Or.inl rfl⟩
      (by
        rintro q ⟨s, k⟩ _ hq ⟨hJ, hk1, hk2⟩
        obtain ⟨k', a1, a2, a3, a4⟩ := advance_spec hG h q hq (n + 1) k (by omega) hk1 hk2
        obtain ⟨hl1, hl2⟩ := h.loc k' a2
        obtain ⟨v, hv⟩ := Option.isSome_iff_exists.1 hl2
        dsimp only
        rw [a1, Option.bind_some, show rd n st.2.loc k' = some (st.2.loc k') from
          if_pos (by omega), Option.bind_some, hv, Option.map_some, hG.val _ _ v hl1 hq hv]
        obtain ⟨s', p1, p2⟩ := hput q
          (some (((q : ℚ) - (st.2.loc k')) * (q - (st.2.loc k')) + v)) s hq hJ (by
            refine ⟨⟨st.2.loc k', v, hl1, hv, by ring⟩, ?_⟩
            intro p a hp ha
            have := h.best q k' hq a2 a3 a4 p hp (by rw [ha]; rfl)
            unfold par at this
            rw [hv, ha] at this
            simp only [Option.getD_some] at this
            linarith)
        refine ⟨(s', k'), ?_, p2, a2, a3.imp id (fun h => ?_)⟩
        · rw [p1]; rfl
        · push_cast; exact le_trans h (by linarith))
    exact ⟨r, hr1, hr2.1⟩

/-! ### Columns, then rows -/

theorem columnGet_eq (im : Image Nat) (a b : Nat) :
    columnGet im a b = if im.px a b ≠ 0 then some 0 else none := by
  unfold columnGet
  by_cases h : im.px a b = 0 <;> simp [h, Nat.pos_iff_ne_zero]

theorem euclidean_of_good {ro : ℚ → ℚ} (im : Image Nat)
    (hcolG : ∀ x, x < im.w → Good ro (columnGet im x) im.h)
    (hrowG : ∀ f : Nat → Option ℚ, (∀ p v, p < im.w → f p = some v →
      ∃ d : Nat, d < im.h ∧ v = (d : ℚ) ^ 2) → Good ro f im.w) :
    ∃ r, euclideanSquaredR ro im = some r ∧ r.w = im.w ∧ r.h = im.h ∧
      ∀ x y, x < im.w → y < im.h → IsSqDist im x y (r.px x y) := by
  unfold euclideanSquaredR
  -- columns
  obtain ⟨r1, c1, c2, c3, c4⟩ := forRange_spec
    (f := fun x (r : Image (Option ℚ) × Env) =>
      transform1d ro im.h (columnGet im x) (fun i v (o : Image (Option ℚ)) => o.put x i v) r.1 r.2)
    (fun x r => r.1.w = im.w ∧ r.1.h = im.h ∧
      ∀ a b, a < x → b < im.h → IsMin1 (columnGet im a) im.h b (r.1.px a b))
    (lo := 0) (hi := im.w) (s := (Image.new im.w im.h (some (0 : ℚ)), Env.new)) (Nat.zero_le _)
    ⟨rfl, rfl, by intros; omega⟩
    (by
      rintro x ⟨o, e⟩ _ hx ⟨h1, h2, h3⟩
      obtain ⟨r, e1, e2, e3, e4, e5⟩ := transform1d_spec (ro := ro) (n := im.h) (f := columnGet im x)
        (put := fun i v (o : Image (Option ℚ)) => o.put x i v) (hcolG x hx)
        (fun i s => s.w = im.w ∧ s.h = im.h ∧
          (∀ a b, a < x → b < im.h → IsMin1 (columnGet im a) im.h b (s.px a b)) ∧
          ∀ b, b < i → IsMin1 (columnGet im x) im.h b (s.px x b))
        (sink := o) (e := e) ⟨h1, h2, h3, by intros; omega⟩
        (by
          rintro q v s hq ⟨h1, h2, h3, h4⟩ hv
          rw [Image.put_of_inB _ (by omega) (by omega)]
          refine ⟨_, rfl, h1, h2, ?_, ?_⟩
          · intro a b ha hb
            dsimp only
            rw [if_neg (by omega)]; exact h3 a b ha hb
          · intro b hb
            dsimp only
            by_cases hbq : b = q
            · rw [if_pos ⟨rfl, hbq⟩, hbq]; exact hv
            · rw [if_neg (by omega)]; exact h4 b (by omega))
      refine ⟨r, e1, e2, e3, ?_⟩
      intro a b ha hb
      by_cases hax : a = x
      · rw [hax]; exact e5 b hb
      · exact e4 a b (by omega) hb)
  rw [c1, Option.bind_some]
  have hdist : ∀ y, y < im.h → ∀ p v, p < im.w → r1.1.px p y = some v →
      ∃ d : Nat, d < im.h ∧ v = (d : ℚ) ^ 2 := by
    intro y hy p v hp hv
    have h := c4 p y hp hy
    rw [hv] at h
    obtain ⟨⟨b, u, hb, hu, hm⟩, -⟩ := h
    rw [columnGet_eq] at hu
    by_cases hne : im.px p b ≠ 0
    · rw [if_pos hne] at hu
      injection hu with hu
      refine ⟨max y b - min y b, by omega, ?_⟩
      rw [hm, ← hu, add_zero, Nat.cast_sub (by omega)]
      rcases le_total y b with h | h
      · rw [max_eq_right h, min_eq_left h]; ring
      · rw [max_eq_left h, min_eq_right h]
    · rw [if_neg hne] at hu; cases hu
  -- rows
  obtain ⟨r2, d1, d2, d3, d4, -⟩ := forRange_spec
    (f := fun y (r : Image (Option ℚ) × Env) =>
      transform1d ro im.w (fun x => r.1.px x y) (fun i v (o : Image (Option ℚ)) => o.put i y v) r.1
        r.2)
    (fun y r => r.1.w = im.w ∧ r.1.h = im.h ∧
      (∀ a b, a < im.w → b < y → IsMin1 (fun x => r1.1.px x b) im.w a (r.1.px a b)) ∧
      ∀ a b, y ≤ b → r.1.px a b = r1.1.px a b)
    (lo := 0) (hi := im.h) (s := (r1.1, Env.new)) (Nat.zero_le _)
    ⟨c2, c3, by intros; omega, by intros; rfl⟩
    (by
      rintro y ⟨o, e⟩ _ hy ⟨h1, h2, h3, h4⟩
      have hf : (fun x => o.px x y) = fun x => r1.1.px x y := by
        funext a; exact h4 a y (le_refl _)
      dsimp only
      rw [hf]
      obtain ⟨r, e1, e2, e3, e4, e5, e6⟩ := transform1d_spec (ro := ro) (n := im.w)
        (f := fun x => r1.1.px x y)
        (put := fun i v (o : Image (Option ℚ)) => o.put i y v) (hrowG _ (hdist y hy))
        (fun i s => s.w = im.w ∧ s.h = im.h ∧
          (∀ a b, a < im.w → b < y → IsMin1 (fun x => r1.1.px x b) im.w a (s.px a b)) ∧
          (∀ a b, y < b → s.px a b = r1.1.px a b) ∧
          ∀ a, a < i → IsMin1 (fun x => r1.1.px x y) im.w a (s.px a y))
        (sink := o) (e := e) ⟨h1, h2, h3, fun a b hb => h4 a b (by omega), by intros; omega⟩
        (by
          rintro q v s hq ⟨h1, h2, h3, h4, h5⟩ hv
          rw [Image.put_of_inB _ (by omega) (by omega)]
          refine ⟨_, rfl, h1, h2, ?_, ?_, ?_⟩
          · intro a b ha hb
            dsimp only
            rw [if_neg (by omega)]; exact h3 a b ha hb
          · intro a b hb
            dsimp only
            rw [if_neg (by omega)]; exact h4 a b hb
          · intro a ha
            dsimp only
            by_cases haq : a = q
            · rw [if_pos ⟨haq, rfl⟩, haq]; exact hv
            · rw [if_neg (by omega)]; exact h5 a (by omega))
      refine ⟨r, e1, e2, e3, ?_, fun a b hb => e5 a b (by omega)⟩
      intro a b ha hb
      by_cases hby : b = y
      · rw [hby]; exact e6 a ha
      · exact e4 a b ha (by omega))
  rw [d1]
  refine ⟨r2.1, rfl, d2, d3, ?_⟩
  intro x y hx hy
  have hrow := d4 x y hx hy
  have hcol := fun a (ha : a < im.w) => c4 a y ha hy
  have colGet := columnGet_eq im
  cases hv : r2.1.px x y with
  | none =>
    rw [hv] at hrow
    intro a b ha hb
    have h1 := hrow a ha
    have h2 := hcol a ha
    dsimp only at h1
    rw [h1] at h2
    have h3 := h2 b hb
    rw [colGet] at h3
    by_contra hne
    rw [if_pos hne] at h3; cases h3
  | some m =>
    rw [hv] at hrow
    obtain ⟨⟨p, c, hp, hc, hm⟩, hmin⟩ := hrow
    dsimp only at hc hmin
    refine ⟨?_, ?_⟩
    · have h2 := hcol p hp
      rw [hc] at h2
      obtain ⟨⟨b, u, hb, hu, hcu⟩, -⟩ := h2
      rw [colGet] at hu
      by_cases hne : im.px p b ≠ 0
      · rw [if_pos hne] at hu
        injection hu with hu
        refine ⟨p, b, hp, hb, hne, ?_⟩
        rw [hm, hcu, ← hu]; ring
      · rw [if_neg hne] at hu; cases hu
    · intro a b ha hb hne
      have h2 := hcol a ha
      cases hc' : r1.1.px a y with
      | none =>
        rw [hc'] at h2
        have := h2 b hb
        rw [colGet, if_pos hne] at this; cases this
      | some u =>
        rw [hc'] at h2
        have h3 := h2.2 b 0 hb (by rw [colGet, if_pos hne])
        have h4 := hmin a u ha hc'
        linarith

/-- C32: every output value is the least squared Euclidean distance to a foreground pixel. -/
theorem C32_exact (im : Image Nat) :
    ∃ r, euclideanSquared im = some r ∧ r.w = im.w ∧ r.h = im.h ∧
      ∀ x y, x < im.w → y < im.h → IsSqDist im x y (r.px x y) :=
  euclidean_of_good im (fun _ _ => good_id _ _) fun _ _ => good_id _ _

/-- Two foreground pixels; the pixel between them is nearer to the left one. -/
example : ((euclideanSquared (Image.ofRows 0 [[1, 0, 0, 0], [0, 0, 0, 1]])).map Image.rows) =
    some [[some 0, some 1, some 2, some 1], [some 1, some 2, some 1, some 0]] := by decide +kernel

example : ((euclideanSquared (Image.ofRows 0 [[0, 0], [0, 0]])).map Image.rows) =
    some [[none, none], [none, none]] := by decide +kernel

end Verif.Distance
