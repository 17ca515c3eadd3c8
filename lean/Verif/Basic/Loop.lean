/-
Shared control-flow combinators for the model.  They stand for Rust control flow only
(`for i in lo..hi`, checked unsigned subtraction); no imageproc logic lives here.
-/
namespace Verif

/-- `n` iterations of a loop body starting at index `i`; `none` is a panic. -/
def forCount {σ : Type _} (f : Nat → σ → Option σ) : Nat → Nat → σ → Option σ
  | 0, _, s => some s
  | n + 1, i, s => (f i s).bind (forCount f n (i + 1))

/-- Rust `for i in lo..hi { body }` (empty if `hi ≤ lo`); `none` is a panic. -/
def forRange {σ : Type _} (lo hi : Nat) (s : σ) (f : Nat → σ → Option σ) : Option σ :=
  forCount f (hi - lo) lo s

/-- Rust `for x in list { body }`; `none` is a panic. -/
def forList {σ α : Type _} (l : List α) (s : σ) (f : α → σ → Option σ) : Option σ :=
  match l with
  | [] => some s
  | a :: l => (f a s).bind fun s' => forList l s' f

/-- Checked unsigned subtraction (panics on underflow as in a debug build). -/
def csub (a b : Nat) : Option Nat := if b ≤ a then some (a - b) else none

@[simp] theorem csub_eq_some {a b c : Nat} : csub a b = some c ↔ b ≤ a ∧ a - b = c := by
  unfold csub; split <;> simp <;> omega

theorem csub_of_le {a b : Nat} (h : b ≤ a) : csub a b = some (a - b) := by simp [csub, h]

theorem forCount_spec {σ : Type _} {f : Nat → σ → Option σ} (I : Nat → σ → Prop) :
    ∀ (n lo : Nat) (s : σ), I lo s →
      (∀ i s, lo ≤ i → i < lo + n → I i s → ∃ s', f i s = some s' ∧ I (i + 1) s') →
      ∃ s', forCount f n lo s = some s' ∧ I (lo + n) s'
  | 0, lo, s, h, _ => ⟨s, rfl, h⟩
  | n + 1, lo, s, h, hs => by
    obtain ⟨s1, h1, h2⟩ := hs lo s (Nat.le_refl _) (by omega) h
    obtain ⟨s2, h3, h4⟩ := forCount_spec I n (lo + 1) s1 h2
      (fun i s hi hi' => hs i s (by omega) (by omega))
    refine ⟨s2, ?_, ?_⟩
    · simp [forCount, h1, h3]
    · rw [show lo + (n + 1) = lo + 1 + n by omega]; exact h4

/-- Total-correctness rule for `forRange`. -/
theorem forRange_spec {σ : Type _} {f : Nat → σ → Option σ} (I : Nat → σ → Prop)
    {lo hi : Nat} {s : σ} (hle : lo ≤ hi) (h0 : I lo s)
    (hs : ∀ i s, lo ≤ i → i < hi → I i s → ∃ s', f i s = some s' ∧ I (i + 1) s') :
    ∃ s', forRange lo hi s f = some s' ∧ I hi s' := by
  have := forCount_spec (f := f) I (hi - lo) lo s h0 (fun i s hi hi' => hs i s hi (by omega))
  rw [show lo + (hi - lo) = hi by omega] at this
  exact this

/-- Partial-correctness rule for `forCount`. -/
theorem forCount_inv {σ : Type _} {f : Nat → σ → Option σ} (I : Nat → σ → Prop) :
    ∀ (n lo : Nat) (s r : σ), I lo s →
      (∀ i s s', lo ≤ i → i < lo + n → I i s → f i s = some s' → I (i + 1) s') →
      forCount f n lo s = some r → I (lo + n) r
  | 0, lo, s, r, h, _, hr => by simp [forCount] at hr; subst hr; exact h
  | n + 1, lo, s, r, h, hs, hr => by
    simp only [forCount, Option.bind_eq_some_iff] at hr
    obtain ⟨s1, h1, h2⟩ := hr
    have := forCount_inv I n (lo + 1) s1 r (hs lo s s1 (Nat.le_refl _) (by omega) h h1)
      (fun i s s' hi hi' => hs i s s' (by omega) (by omega)) h2
    rw [show lo + (n + 1) = lo + 1 + n by omega]; exact this

/-- Partial-correctness rule for `forRange`. -/
theorem forRange_inv {σ : Type _} {f : Nat → σ → Option σ} (I : Nat → σ → Prop)
    {lo hi : Nat} {s r : σ} (hle : lo ≤ hi) (h0 : I lo s)
    (hs : ∀ i s s', lo ≤ i → i < hi → I i s → f i s = some s' → I (i + 1) s')
    (hr : forRange lo hi s f = some r) : I hi r := by
  have := forCount_inv (f := f) I (hi - lo) lo s r h0
    (fun i s s' hi hi' => hs i s s' hi (by omega)) hr
  rwa [show lo + (hi - lo) = hi by omega] at this

theorem forRange_empty {σ : Type _} {f : Nat → σ → Option σ} {lo hi : Nat} {s : σ}
    (h : hi ≤ lo) : forRange lo hi s f = some s := by
  simp [forRange, show hi - lo = 0 by omega, forCount]

theorem forCount_succ_last {σ : Type _} (f : Nat → σ → Option σ) :
    ∀ (n lo : Nat) (s : σ), forCount f (n + 1) lo s = (forCount f n lo s).bind (f (lo + n))
  | 0, lo, s => by simp [forCount, Option.bind]; cases f lo s <;> rfl
  | n + 1, lo, s => by
    rw [forCount]
    conv => rhs; rw [forCount]
    cases h : f lo s with
    | none => simp
    | some t =>
      simp only [Option.bind_some]
      rw [forCount_succ_last f n (lo + 1) t, show lo + 1 + n = lo + (n + 1) by omega]

theorem forRange_succ_last {σ : Type _} {f : Nat → σ → Option σ} {lo hi : Nat} {s : σ}
    (h : lo ≤ hi) : forRange lo (hi + 1) s f = (forRange lo hi s f).bind (f hi) := by
  unfold forRange
  rw [show hi + 1 - lo = (hi - lo) + 1 by omega, forCount_succ_last,
    show lo + (hi - lo) = hi by omega]

/-- Total-correctness rule for `forList`, invariant indexed by the processed prefix. -/
theorem forList_spec {σ α : Type _} {f : α → σ → Option σ} (I : List α → σ → Prop) :
    ∀ (l pre : List α) (s : σ), I pre s →
      (∀ p a q s, pre ++ l = p ++ a :: q → I p s → ∃ s', f a s = some s' ∧ I (p ++ [a]) s') →
      ∃ s', forList l s f = some s' ∧ I (pre ++ l) s'
  | [], pre, s, h, _ => ⟨s, rfl, by simpa using h⟩
  | a :: l, pre, s, h, hs => by
    obtain ⟨s1, h1, h2⟩ := hs pre a l s rfl h
    obtain ⟨s2, h3, h4⟩ := forList_spec I l (pre ++ [a]) s1 h2
      (fun p b q s e hI => hs p b q s (by simpa using e) hI)
    exact ⟨s2, by simp [forList, h1, h3], by simpa using h4⟩

end Verif
