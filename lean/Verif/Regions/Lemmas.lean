import Verif.Regions.Spec
import Verif.UnionFind.Lemmas
import Mathlib.Tactic.SplitIfs
import Mathlib.Tactic.Ring
/- Invariants of the two passes. -/
set_option linter.unusedSectionVars false
namespace Verif.Regions
open Verif.UnionFind
variable {α : Type _} [DecidableEq α]

theorem N4.symm {p q} (h : N4 p q) : N4 q p := by unfold N4 at *; omega
theorem N8.symm {p q} (h : N8 p q) : N8 q p := by
  unfold N8 at *; exact ⟨fun e => h.1 e.symm, by omega, by omega⟩
theorem Neighbours.symm {c p q} (h : Neighbours c p q) : Neighbours c q p := by
  cases c
  · exact N4.symm h
  · exact N8.symm h
theorem Step.symm {im : Image α} {c p q} (h : Step im c p q) : Step im c q p :=
  ⟨h.2.1, h.1, h.2.2.1.symm, h.2.2.2.symm⟩
theorem Connected.symm {im : Image α} {c p q} (h : Connected im c p q) : Connected im c q p :=
  by
  induction h with
  | refl => exact .refl
  | tail _ h ih => exact .trans (.single h.symm) ih

theorem adjLabel_spec {im : Image α} {out : Image Nat} {cur : α} {x y : Nat}
    (hx : x < im.w) (hy : y < im.h) (ow : out.w = im.w) (oh : out.h = im.h) :
    ∃ l, adjLabel im out cur x y = some l ∧
      ∀ k, k ∈ l ↔ im.px x y = cur ∧ out.px x y = k := by
  unfold adjLabel
  rw [Image.get_of_inB hx hy, Image.get_of_inB (im := out) (by omega) (by omega)]
  by_cases h : im.px x y = cur
  · exact ⟨_, by simp [h]; rfl, by simp [h, eq_comm]⟩
  · exact ⟨_, by simp [h]; rfl, by simp [h]⟩

/-- The collected labels are exactly those of the equal-coloured neighbours visited before. -/
theorem adjLabels_spec {im : Image α} {out : Image Nat} {conn : Conn} {cur : α} {x y : Nat}
    (hx : x < im.w) (hy : y < im.h) (ow : out.w = im.w) (oh : out.h = im.h) :
    ∃ l, adjLabels im out conn cur x y = some l ∧
      ∀ k, k ∈ l ↔ ∃ a b, a < im.w ∧ Before (a, b) (x, y) ∧ Neighbours conn (a, b) (x, y) ∧
        im.px a b = cur ∧ out.px a b = k := by
  have g : ∀ (c : Prop) [Decidable c] (a b : Nat), (c → a < im.w ∧ b < im.h) →
      ∃ l, (if c then adjLabel im out cur a b else some []) = some l ∧
        ∀ k, k ∈ l ↔ c ∧ im.px a b = cur ∧ out.px a b = k := by
    intro c _ a b h
    by_cases hc : c
    · obtain ⟨l, h1, h2⟩ := adjLabel_spec (cur := cur) (h hc).1 (h hc).2 ow oh
      exact ⟨l, by simp [hc, h1], by simp [hc, h2]⟩
    · exact ⟨[], by simp [hc], by simp [hc]⟩
  obtain ⟨l1, e1, m1⟩ := g (0 < x) (x - 1) y (by omega)
  obtain ⟨l2, e2, m2⟩ := g (0 < y) x (y - 1) (by omega)
  obtain ⟨l3, e3, m3⟩ := g (0 < y ∧ conn = .eight ∧ 0 < x) (x - 1) (y - 1) (by omega)
  obtain ⟨l4, e4, m4⟩ := g (0 < y ∧ conn = .eight ∧ x < im.w - 1) (x + 1) (y - 1) (by omega)
  refine ⟨l1 ++ l2 ++ l3 ++ l4, by simp only [adjLabels, e1, e2, e3, e4, Option.bind_some], ?_⟩
  intro k
  simp only [List.mem_append, m1, m2, m3, m4]
  constructor
  · rintro (((h | h) | h) | h)
    · refine ⟨x - 1, y, by omega, .inr ⟨rfl, by simp; omega⟩, ?_, h.2⟩
      cases conn <;> simp only [Neighbours, N4, N8, ne_eq, Prod.mk.injEq] <;> omega
    · refine ⟨x, y - 1, by omega, .inl (by simp; omega), ?_, h.2⟩
      cases conn <;> simp only [Neighbours, N4, N8, ne_eq, Prod.mk.injEq] <;> omega
    · refine ⟨x - 1, y - 1, by omega, .inl (by simp; omega), ?_, h.2⟩
      obtain ⟨⟨h1, rfl, h2⟩, -⟩ := h
      simp only [Neighbours, N8, ne_eq, Prod.mk.injEq]; omega
    · refine ⟨x + 1, y - 1, by omega, .inl (by simp; omega), ?_, h.2⟩
      obtain ⟨⟨h1, rfl, h2⟩, -⟩ := h
      simp only [Neighbours, N8, ne_eq, Prod.mk.injEq]; omega
  · rintro ⟨a, b, ha, hb, hn, h⟩
    simp only [Before] at hb
    have key : (a = x - 1 ∧ b = y ∧ 0 < x) ∨ (a = x ∧ b = y - 1 ∧ 0 < y) ∨
        (a = x - 1 ∧ b = y - 1 ∧ 0 < y ∧ conn = .eight ∧ 0 < x) ∨
        (a = x + 1 ∧ b = y - 1 ∧ 0 < y ∧ conn = .eight ∧ x < im.w - 1) := by
      cases conn
      · simp only [Neighbours, N4] at hn; simp; omega
      · simp only [Neighbours, N8] at hn; simp; omega
    rcases key with ⟨rfl, rfl, k⟩ | ⟨rfl, rfl, k⟩ | ⟨rfl, rfl, k⟩ | ⟨rfl, rfl, k⟩
    · exact .inl (.inl (.inl ⟨k, h⟩))
    · exact .inl (.inl (.inr ⟨k, h⟩))
    · exact .inl (.inr ⟨k, h⟩)
    · exact .inr ⟨k, h⟩

theorem foldl_min_spec : ∀ (l : List Nat) (m : Nat), (∀ k ∈ l, k ≤ m) → l ≠ [] →
    l.foldl min m ∈ l ∧ ∀ k ∈ l, l.foldl min m ≤ k := by
  have h1 : ∀ (l : List Nat) (m : Nat), (l.foldl min m = m ∨ l.foldl min m ∈ l) ∧
      l.foldl min m ≤ m ∧ ∀ k ∈ l, l.foldl min m ≤ k := by
    intro l
    induction l with
    | nil => intro m; simp
    | cons a l ih =>
      intro m
      obtain ⟨i1, i2, i3⟩ := ih (min m a)
      simp only [List.foldl_cons, List.mem_cons]
      refine ⟨?_, by omega, ?_⟩
      · rcases i1 with i1 | i1
        · rw [i1]
          rcases Nat.le_total m a with h | h
          · left; omega
          · right; left; omega
        · exact .inr (.inr i1)
      · rintro k (rfl | hk)
        · omega
        · exact i3 k hk
  intro l m hm hne
  obtain ⟨i1, i2, i3⟩ := h1 l m
  refine ⟨?_, i3⟩
  rcases i1 with i1 | i1
  · obtain ⟨a, ha⟩ := List.exists_mem_of_ne_nil l hne
    have := i3 a ha
    have := hm a ha
    have : l.foldl min m = a := by omega
    rw [this]; exact ha
  · exact i1

/-- Invariant of the first pass just before visiting `(x, y)`. -/
structure I1 (im : Image α) (conn : Conn) (bg : α) (x y : Nat) (s : S1)
    (R rank : Nat → Nat) : Prop where
  ow : s.out.w = im.w
  oh : s.out.h = im.h
  inv : Inv s.forest R rank
  cnt : s.forest.count = im.w * im.h
  next_pos : 1 ≤ s.next
  next_le : s.next ≤ y * im.w + x + 1
  lab : ∀ a b, a < im.w → Before (a, b) (x, y) → im.px a b ≠ bg →
    1 ≤ s.out.px a b ∧ s.out.px a b < s.next
  zero : ∀ a b, im.px a b = bg ∨ ¬ Before (a, b) (x, y) → s.out.px a b = 0
  fresh : ∀ l m, s.next ≤ l → l < im.w * im.h → m < im.w * im.h → R m = R l → m = l
  surj : ∀ l, 1 ≤ l → l < s.next → ∃ a b, a < im.w ∧ Before (a, b) (x, y) ∧
    im.px a b ≠ bg ∧ s.out.px a b = l
  sound : ∀ a b a' b', a < im.w → a' < im.w → Before (a, b) (x, y) → Before (a', b') (x, y) →
    im.px a b ≠ bg → im.px a' b' ≠ bg →
    s.out.px a b < im.w * im.h → s.out.px a' b' < im.w * im.h →
    R (s.out.px a b) = R (s.out.px a' b') → Connected im conn (a, b) (a', b')
  complete : ∀ a b a' b', a < im.w → a' < im.w → Before (a, b) (x, y) → Before (a', b') (x, y) →
    im.px a b ≠ bg → im.px a b = im.px a' b' → Neighbours conn (a, b) (a', b') →
    R (s.out.px a b) = R (s.out.px a' b')
  full : s.next = y * im.w + x + 1 → ∀ a b, a < im.w → Before (a, b) (x, y) → im.px a b ≠ bg ∧
    ∀ a' b', a' < im.w → Before (a', b') (x, y) → Neighbours conn (a, b) (a', b') →
      im.px a b ≠ im.px a' b'
  full' : (∀ a b, a < im.w → b < im.h → im.px a b ≠ bg ∧
    ∀ a' b', a' < im.w → b' < im.h → Neighbours conn (a, b) (a', b') →
      im.px a b ≠ im.px a' b') → s.next = y * im.w + x + 1

/-- Uniting the minimum label with all adjacent labels. -/
theorem unionAll_spec {m n : Nat} (hm : m < n) : ∀ (l : List Nat) (f : Forest) (R rank : Nat → Nat),
    Inv f R rank → f.count = n → (∀ k ∈ l, k < n) →
    ∃ f' R' rank', forList l f (fun k f => f.union m k) = some f' ∧ Inv f' R' rank' ∧
      f'.count = n ∧
      (∀ a b, a < n → b < n → R a = R b → R' a = R' b) ∧
      (∀ k ∈ l, R' m = R' k) ∧
      (∀ a b, a < n → b < n → R' a = R' b → R a = R b ∨
        ((R a = R m ∨ ∃ k ∈ l, R a = R k) ∧ (R b = R m ∨ ∃ k ∈ l, R b = R k)))
  | [], f, R, rank, h, hc, _ => ⟨f, R, rank, rfl, h, hc, fun _ _ _ _ h => h, by simp,
      fun _ _ _ _ h => .inl h⟩
  | k :: l, f, R, rank, h, hc, hl => by
    obtain ⟨f1, R1, rank1, e1, h1, c1, r1⟩ := union_spec h (i := m) (j := k) (by omega)
      (by rw [hc]; exact hl k (by simp))
    rw [hc] at r1 c1
    obtain ⟨f2, R2, rank2, e2, h2, c2, p2, q2, s2⟩ := unionAll_spec hm l f1 R1 rank1 h1 c1
      (fun k hk => hl k (by simp [hk]))
    have hk := hl k (by simp)
    refine ⟨f2, R2, rank2, by simp [forList, e1, e2], h2, c2, ?_, ?_, ?_⟩
    · intro a b ha hb hab
      exact p2 a b ha hb ((r1 a b ha hb).2 (.inl hab))
    · intro j hj
      rcases List.mem_cons.1 hj with rfl | hj
      · exact p2 m j hm hk ((r1 m j hm hk).2 (.inr (.inl ⟨rfl, rfl⟩)))
      · exact q2 j hj
    · intro a b ha hb hab
      have base : ∀ c, c < n → (R1 c = R1 m ∨ ∃ j ∈ l, R1 c = R1 j) →
          (R c = R m ∨ ∃ j ∈ k :: l, R c = R j) := by
        rintro c hc (h | ⟨j, hj, h⟩)
        · rcases (r1 c m hc hm).1 h with h | h | h
          · exact .inl h
          · exact .inl h.1
          · exact .inr ⟨k, by simp, h.1⟩
        · rcases (r1 c j hc (hl j (by simp [hj]))).1 h with h | h | h
          · exact .inr ⟨j, by simp [hj], h⟩
          · exact .inl h.1
          · exact .inr ⟨k, by simp, h.1⟩
      rcases s2 a b ha hb hab with h | ⟨h, h'⟩
      · rcases (r1 a b ha hb).1 h with h | h | h
        · exact .inl h
        · exact .inr ⟨.inl h.1, .inr ⟨k, by simp, h.2⟩⟩
        · exact .inr ⟨.inr ⟨k, by simp, h.1⟩, .inl h.2⟩
      · exact .inr ⟨base a ha h, base b hb h'⟩

theorem before_succ {a b x y : Nat} : Before (a, b) (x + 1, y) ↔
    Before (a, b) (x, y) ∨ (a = x ∧ b = y) := by
  simp only [Before]; omega

theorem idx_lt {w h x y : Nat} (hx : x < w) (hy : y < h) : y * w + x + 1 ≤ w * h := by
  have : (y + 1) * w ≤ h * w := Nat.mul_le_mul_right w hy
  rw [Nat.mul_comm w h]
  have : (y + 1) * w = y * w + w := by ring
  omega

theorem before_inB {im : Image α} {a b x y : Nat} (hy : y < im.h)
    (hb : Before (a, b) (x, y)) : b < im.h := by
  simp only [Before] at hb; omega

theorem pass1_step {im : Image α} {conn : Conn} {bg : α} {x y : Nat} {s : S1} {R rank}
    (hsz : im.w * im.h < 2 ^ 32) (hx : x < im.w) (hy : y < im.h)
    (h : I1 im conn bg x y s R rank) :
    ∃ s', pass1 im conn bg x y s = some s' ∧ ∃ R' rank', I1 im conn bg (x + 1) y s' R' rank' := by
  have hidx := idx_lt hx hy
  unfold pass1
  rw [Image.get_of_inB hx hy, Option.bind_some]
  by_cases hbg : im.px x y = bg
  · rw [if_pos hbg]
    refine ⟨s, rfl, R, rank, ?_⟩
    have nb : ∀ a b, Before (a, b) (x + 1, y) → im.px a b ≠ bg → Before (a, b) (x, y) := by
      intro a b h1 h2
      rcases before_succ.1 h1 with h1 | ⟨rfl, rfl⟩
      · exact h1
      · exact absurd hbg h2
    refine ⟨h.ow, h.oh, h.inv, h.cnt, h.next_pos, by have := h.next_le; omega,
      fun a b ha hb hne => h.lab a b ha (nb a b hb hne) hne, ?_, h.fresh, ?_, ?_, ?_, ?_, ?_⟩
    · rintro a b (h1 | h1)
      · exact h.zero a b (.inl h1)
      · exact h.zero a b (.inr fun h2 => h1 (before_succ.2 (.inl h2)))
    · intro l h1 h2
      obtain ⟨a, b, h3, h4, h5⟩ := h.surj l h1 h2
      exact ⟨a, b, h3, before_succ.2 (.inl h4), h5⟩
    · intro a b a' b' h1 h2 h3 h4 h5 h6
      exact h.sound a b a' b' h1 h2 (nb _ _ h3 h5) (nb _ _ h4 h6) h5 h6
    · intro a b a' b' h1 h2 h3 h4 h5 h6
      exact h.complete a b a' b' h1 h2 (nb _ _ h3 h5) (nb _ _ h4 (h6 ▸ h5)) h5 h6
    · intro e; have := h.next_le; omega
    · intro hf
      exact absurd hbg (hf x y hx hy).1
  · rw [if_neg hbg]
    obtain ⟨adj, ea, ma⟩ := adjLabels_spec (conn := conn) (cur := im.px x y) (out := s.out)
      hx hy h.ow h.oh
    rw [ea, Option.bind_some]
    have hxo : x < s.out.w := by rw [h.ow]; exact hx
    have hyo : y < s.out.h := by rw [h.oh]; exact hy
    have nself : ∀ a b, Before (a, b) (x, y) → ¬ (a = x ∧ b = y) := by
      intro a b hb; simp only [Before] at hb; omega
    by_cases hadj : adj = []
    · rw [if_pos hadj, Image.put_of_inB _ hxo hyo]
      refine ⟨_, rfl, R, rank, ?_⟩
      have noadj : ∀ a b, a < im.w → Before (a, b) (x, y) → Neighbours conn (a, b) (x, y) →
          im.px a b ≠ im.px x y := by
        intro a b ha hb hn he
        have : s.out.px a b ∈ adj := (ma _).2 ⟨a, b, ha, hb, hn, he, rfl⟩
        rw [hadj] at this; cases this
      have lt_next : ∀ a b, a < im.w → Before (a, b) (x, y) → im.px a b ≠ bg →
        s.out.px a b < s.next := fun a b ha hb hne => (h.lab a b ha hb hne).2
      refine ⟨h.ow, h.oh, h.inv, h.cnt, by dsimp; omega, by have := h.next_le; dsimp; omega,
        ?_, ?_, ?_, ?_, ?_, ?_, ?_, ?_⟩ <;> dsimp only
      · intro a b ha hb hne
        split
        · have := h.next_pos; omega
        · next hn =>
          rcases before_succ.1 hb with hb | hb
          · have := h.lab a b ha hb hne; omega
          · exact absurd hb hn
      · rintro a b (h1 | h1)
        · split
          · next e => rw [e.1, e.2] at h1; exact absurd h1 hbg
          · exact h.zero a b (.inl h1)
        · rw [if_neg fun e => h1 (before_succ.2 (.inr e))]
          exact h.zero a b (.inr fun h2 => h1 (before_succ.2 (.inl h2)))
      · intro l m h1 h2 h3 h4
        exact h.fresh l m (by omega) h2 h3 h4
      · intro l h1 h2
        by_cases hl : l = s.next
        · exact ⟨x, y, hx, before_succ.2 (.inr ⟨rfl, rfl⟩), hbg, by simp [hl]⟩
        · obtain ⟨a, b, h3, h4, h5, h6⟩ := h.surj l h1 (by omega)
          exact ⟨a, b, h3, before_succ.2 (.inl h4), h5, by rw [if_neg (nself a b h4), h6]⟩
      · intro a b a' b' ha ha' hb hb' hn hn' hl hl' hR
        rcases before_succ.1 hb with hb | ⟨rfl, rfl⟩ <;>
          rcases before_succ.1 hb' with hb' | ⟨rfl, rfl⟩
        · rw [if_neg (nself a b hb)] at hl hR
          rw [if_neg (nself a' b' hb')] at hl' hR
          exact h.sound a b a' b' ha ha' hb hb' hn hn' hl hl' hR
        · rw [if_neg (nself a b hb)] at hl hR
          rw [if_pos ⟨rfl, rfl⟩] at hl' hR
          have := h.fresh s.next _ (by omega) hl' hl hR
          have := lt_next a b ha hb hn
          omega
        · rw [if_neg (nself a' b' hb')] at hl' hR
          rw [if_pos ⟨rfl, rfl⟩] at hl hR
          have := h.fresh s.next _ (by omega) hl hl' hR.symm
          have := lt_next a' b' ha' hb' hn'
          omega
        · exact .refl
      · intro a b a' b' ha ha' hb hb' hn he hnb
        rcases before_succ.1 hb with hb | ⟨rfl, rfl⟩ <;>
          rcases before_succ.1 hb' with hb' | ⟨rfl, rfl⟩
        · rw [if_neg (nself a b hb), if_neg (nself a' b' hb')]
          exact h.complete a b a' b' ha ha' hb hb' hn he hnb
        · exact absurd he (noadj a b ha hb hnb)
        · exact absurd he.symm (noadj a' b' ha' hb' hnb.symm)
        · rfl
      · intro e a b ha hb
        have hfull := h.full (by omega)
        rcases before_succ.1 hb with hb | ⟨rfl, rfl⟩
        · refine ⟨(hfull a b ha hb).1, ?_⟩
          intro a' b' ha' hb' hn
          rcases before_succ.1 hb' with hb' | ⟨rfl, rfl⟩
          · exact (hfull a b ha hb).2 a' b' ha' hb' hn
          · exact noadj a b ha hb hn
        · refine ⟨hbg, ?_⟩
          intro a' b' ha' hb' hn
          rcases before_succ.1 hb' with hb' | ⟨rfl, rfl⟩
          · exact fun h => noadj a' b' ha' hb' hn.symm h.symm
          · exfalso
            cases conn <;> simp only [Neighbours, N4, N8] at hn
            · omega
            · exact hn.1 rfl
      · intro hf
        have := h.full' hf
        omega
    · rw [if_neg hadj]
      dsimp only
      rw [Image.put_of_inB _ hxo hyo]
      have adj_lt : ∀ k ∈ adj, 1 ≤ k ∧ k < s.next := by
        intro k hk
        obtain ⟨a, b, ha, hb, hn, he, rfl⟩ := (ma k).1 hk
        exact h.lab a b ha hb (he ▸ hbg)
      have hnl := h.next_le
      obtain ⟨mmem, mle⟩ := foldl_min_spec adj (2 ^ 32 - 1)
        (fun k hk => by have := adj_lt k hk; omega) hadj
      generalize hm : adj.foldl min (2 ^ 32 - 1) = m at *
      have m_lt := adj_lt m mmem
      obtain ⟨f', R', rank', e', h', c', p', q', s'⟩ := unionAll_spec (m := m)
        (n := im.w * im.h) (by omega) adj s.forest R rank h.inv h.cnt
        (fun k hk => by have := adj_lt k hk; omega)
      simp only [Option.bind_some, e']
      refine ⟨_, rfl, R', rank', ?_⟩
      -- a witness neighbour for each adjacent label
      have wit : ∀ k ∈ adj, ∃ a b, a < im.w ∧ Before (a, b) (x, y) ∧ im.px a b ≠ bg ∧
          s.out.px a b = k ∧ Step im conn (a, b) (x, y) := by
        intro k hk
        obtain ⟨a, b, ha, hb, hn, he, hk⟩ := (ma k).1 hk
        exact ⟨a, b, ha, hb, he ▸ hbg, hk, ⟨ha, before_inB hy hb⟩, ⟨hx, hy⟩, hn, he⟩
      have mem_conn : ∀ a b, a < im.w → Before (a, b) (x, y) → im.px a b ≠ bg →
          s.out.px a b < im.w * im.h → (R (s.out.px a b) = R m ∨
            ∃ k ∈ adj, R (s.out.px a b) = R k) → Connected im conn (a, b) (x, y) := by
        intro a b ha hb hn hl hk
        obtain ⟨k, hk, hR⟩ : ∃ k ∈ adj, R (s.out.px a b) = R k := by
          rcases hk with hk | hk
          · exact ⟨m, mmem, hk⟩
          · exact hk
        obtain ⟨a', b', ha', hb', hn', rfl, hst⟩ := wit k hk
        have := adj_lt _ hk
        exact .tail (h.sound a b a' b' ha ha' hb hb' hn hn' hl (by omega) hR) hst
      refine ⟨h.ow, h.oh, h', c', h.next_pos, by dsimp; omega,
        ?_, ?_, ?_, ?_, ?_, ?_, ?_, ?_⟩ <;> dsimp only
      · intro a b ha hb hne
        split
        · exact m_lt
        · next hn =>
          rcases before_succ.1 hb with hb | hb
          · exact h.lab a b ha hb hne
          · exact absurd hb hn
      · rintro a b (h1 | h1)
        · split
          · next e => rw [e.1, e.2] at h1; exact absurd h1 hbg
          · exact h.zero a b (.inl h1)
        · rw [if_neg fun e => h1 (before_succ.2 (.inr e))]
          exact h.zero a b (.inr fun h2 => h1 (before_succ.2 (.inl h2)))
      · intro l k hl hl' hk hR
        have nl : ¬ (R l = R m ∨ ∃ j ∈ adj, R l = R j) := by
          rintro (h1 | ⟨j, hj, h1⟩)
          · have := h.fresh l m hl hl' (by omega) h1.symm; omega
          · have h2 := adj_lt j hj
            have := h.fresh l j hl hl' (by omega) h1.symm; omega
        rcases s' k l hk hl' hR with h1 | ⟨_, h1⟩
        · exact h.fresh l k hl hl' hk h1
        · exact absurd h1 nl
      · intro l h1 h2
        obtain ⟨a, b, h3, h4, h5, h6⟩ := h.surj l h1 h2
        exact ⟨a, b, h3, before_succ.2 (.inl h4), h5, by rw [if_neg (nself a b h4), h6]⟩
      · intro a b a' b' ha ha' hb hb' hn hn' hl hl' hR
        rcases before_succ.1 hb with hb | ⟨rfl, rfl⟩ <;>
          rcases before_succ.1 hb' with hb' | ⟨rfl, rfl⟩
        · rw [if_neg (nself a b hb)] at hl hR
          rw [if_neg (nself a' b' hb')] at hl' hR
          rcases s' _ _ hl hl' hR with h1 | ⟨h1, h2⟩
          · exact h.sound a b a' b' ha ha' hb hb' hn hn' hl hl' h1
          · exact .trans (mem_conn a b ha hb hn hl h1) (mem_conn a' b' ha' hb' hn' hl' h2).symm
        · rw [if_neg (nself a b hb)] at hl hR
          rw [if_pos ⟨rfl, rfl⟩] at hl' hR
          rcases s' _ _ hl hl' hR with h1 | ⟨h1, h2⟩
          · exact mem_conn a b ha hb hn hl (.inl h1)
          · exact mem_conn a b ha hb hn hl h1
        · rw [if_neg (nself a' b' hb')] at hl' hR
          rw [if_pos ⟨rfl, rfl⟩] at hl hR
          rcases s' _ _ hl hl' hR with h1 | ⟨h1, h2⟩
          · exact (mem_conn a' b' ha' hb' hn' hl' (.inl h1.symm)).symm
          · exact (mem_conn a' b' ha' hb' hn' hl' h2).symm
        · exact .refl
      · have lab_lt : ∀ a b, a < im.w → Before (a, b) (x, y) → im.px a b ≠ bg →
            s.out.px a b < im.w * im.h := by
          intro a b ha hb hn
          have := h.lab a b ha hb hn
          omega
        intro a b a' b' ha ha' hb hb' hn he hnb
        rcases before_succ.1 hb with hb | ⟨rfl, rfl⟩ <;>
          rcases before_succ.1 hb' with hb' | ⟨rfl, rfl⟩
        · rw [if_neg (nself a b hb), if_neg (nself a' b' hb')]
          exact p' _ _ (lab_lt a b ha hb hn) (lab_lt a' b' ha' hb' (he ▸ hn))
            (h.complete a b a' b' ha ha' hb hb' hn he hnb)
        · rw [if_neg (nself a b hb), if_pos ⟨rfl, rfl⟩]
          exact (q' _ ((ma _).2 ⟨a, b, ha, hb, hnb, he, rfl⟩)).symm
        · rw [if_neg (nself a' b' hb'), if_pos ⟨rfl, rfl⟩]
          exact q' _ ((ma _).2 ⟨a', b', ha', hb', hnb.symm, he.symm, rfl⟩)
        · rfl
      · intro e; omega
      · intro hf
        obtain ⟨a, b, ha, hb, hn, -, hst⟩ := wit m mmem
        exact absurd hst.2.2.2 ((hf a b ha (before_inB hy hb)).2 x y hx hy hst.2.2.1)

theorem pass1_init (im : Image α) (conn : Conn) (bg : α) :
    I1 im conn bg 0 0 ⟨Image.new im.w im.h 0, Forest.new (im.w * im.h), 1⟩ (fun i => i)
      (fun _ => 0) := by
  have nb : ∀ a b, ¬ Before (a, b) (0, 0) := by intro a b; simp [Before]
  refine ⟨rfl, rfl, new_inv _, rfl, by simp, by simp, ?_, ?_, ?_, ?_, ?_, ?_, ?_, ?_⟩
  · intro a b _ h; exact absurd h (nb a b)
  · intro a b _; rfl
  · intro l m _ _ _ h; exact h
  · intro l h1 h2; dsimp at h2; omega
  · intro a b _ _ _ _ h; exact absurd h (nb a b)
  · intro a b _ _ _ _ h; exact absurd h (nb a b)
  · intro _ a b _ h; exact absurd h (nb a b)
  · intro _; simp

theorem I1.nextRow {im : Image α} {conn : Conn} {bg : α} {y : Nat} {s : S1} {R rank}
    (h : I1 im conn bg im.w y s R rank) : I1 im conn bg 0 (y + 1) s R rank := by
  have hb : ∀ a b, a < im.w → (Before (a, b) (0, y + 1) ↔ Before (a, b) (im.w, y)) := by
    intro a b ha; simp only [Before]; omega
  have hi : (y + 1) * im.w + 0 + 1 = y * im.w + im.w + 1 := by ring
  refine ⟨h.ow, h.oh, h.inv, h.cnt, h.next_pos, by rw [hi]; exact h.next_le, ?_, ?_, h.fresh, ?_,
    ?_, ?_, ?_, ?_⟩
  · intro a b ha hb'; exact h.lab a b ha ((hb a b ha).1 hb')
  · rintro a b (h1 | h1)
    · exact h.zero a b (.inl h1)
    · refine h.zero a b (.inr fun h2 => h1 ?_)
      simp only [Before] at h2 ⊢; omega
  · intro l h1 h2
    obtain ⟨a, b, h3, h4, h5⟩ := h.surj l h1 h2
    exact ⟨a, b, h3, (hb a b h3).2 h4, h5⟩
  · intro a b a' b' h1 h2 h3 h4
    exact h.sound a b a' b' h1 h2 ((hb a b h1).1 h3) ((hb a' b' h2).1 h4)
  · intro a b a' b' h1 h2 h3 h4
    exact h.complete a b a' b' h1 h2 ((hb a b h1).1 h3) ((hb a' b' h2).1 h4)
  · intro e a b ha h3
    obtain ⟨h5, h6⟩ := h.full (by omega) a b ha ((hb a b ha).1 h3)
    exact ⟨h5, fun a' b' ha' h4 => h6 a' b' ha' ((hb a' b' ha').1 h4)⟩
  · intro hf; rw [hi]; exact h.full' hf

theorem pass1_spec (im : Image α) (conn : Conn) (bg : α) (hsz : im.w * im.h < 2 ^ 32) :
    ∃ s R rank, forYX 0 im.h 0 im.w
      (⟨Image.new im.w im.h 0, Forest.new (im.w * im.h), 1⟩ : S1) (pass1 im conn bg) = some s ∧
      I1 im conn bg 0 im.h s R rank := by
  obtain ⟨s, e, R, rank, h⟩ := forYX_spec (f := pass1 im conn bg)
    (fun x y s => ∃ R rank, I1 im conn bg x y s R rank) (y0 := 0) (y1 := im.h) (x0 := 0)
    (x1 := im.w) (by omega) (by omega) ⟨_, _, pass1_init im conn bg⟩
    (by
      intro x y s _ hx _ hy ⟨R, rank, h⟩
      exact pass1_step hsz hx hy h)
    (by
      intro y s _ _ ⟨R, rank, h⟩
      exact ⟨R, rank, h.nextRow⟩)
  exact ⟨s, R, rank, e, h⟩

/-- Invariant of the second pass; `L` are the provisional labels. -/
structure I2 (im : Image α) (bg : α) (L : Nat → Nat → Nat) (R rank : Nat → Nat) (x y : Nat)
    (s : S2) : Prop where
  ow : s.out.w = im.w
  oh : s.out.h = im.h
  inv : Inv s.forest R rank
  cnt : s.forest.count = im.w * im.h
  unv : ∀ a b, ¬ Before (a, b) (x, y) → s.out.px a b = L a b
  bg0 : ∀ a b, im.px a b = bg → s.out.px a b = 0
  lab : ∀ a b, a < im.w → Before (a, b) (x, y) → im.px a b ≠ bg →
    1 ≤ s.out.px a b ∧ s.out.px a b = s.labels (R (L a b)) ∧ L a b < im.w * im.h
  nz : ∀ r, s.labels r ≠ 0 → s.labels r < s.count
  inj : ∀ r r', s.labels r ≠ 0 → s.labels r = s.labels r' → r = r'
  cpos : 1 ≤ s.count
  surj : ∀ k, 1 ≤ k → k < s.count → ∃ a b, a < im.w ∧ Before (a, b) (x, y) ∧
    im.px a b ≠ bg ∧ s.out.px a b = k
  order : ∀ a b, a < im.w → Before (a, b) (x, y) → im.px a b ≠ bg → ∀ j, 1 ≤ j →
    j < s.out.px a b → ∃ a' b', a' < im.w ∧ Before (a', b') (a, b) ∧ im.px a' b' ≠ bg ∧
      s.out.px a' b' = j

theorem pass2_step {im : Image α} {bg : α} {L R rank} {x y : Nat} {s : S2}
    (hx : x < im.w) (hy : y < im.h) (h : I2 im bg L R rank x y s)
    (hL : im.px x y ≠ bg → L x y < im.w * im.h) :
    ∃ s', pass2 im bg x y s = some s' ∧ I2 im bg L R rank (x + 1) y s' := by
  unfold pass2
  rw [Image.get_of_inB hx hy, Option.bind_some]
  by_cases hbg : im.px x y = bg
  · rw [if_pos hbg]
    have nb : ∀ a b, Before (a, b) (x + 1, y) → im.px a b ≠ bg → Before (a, b) (x, y) := by
      intro a b h1 h2
      rcases before_succ.1 h1 with h1 | ⟨rfl, rfl⟩
      · exact h1
      · exact absurd hbg h2
    refine ⟨s, rfl, h.ow, h.oh, h.inv, h.cnt, ?_, h.bg0, ?_, h.nz, h.inj, h.cpos, ?_, ?_⟩
    · intro a b h1; exact h.unv a b fun h2 => h1 (before_succ.2 (.inl h2))
    · intro a b ha hb hn; exact h.lab a b ha (nb a b hb hn) hn
    · intro k h1 h2
      obtain ⟨a, b, h3, h4, h5⟩ := h.surj k h1 h2
      exact ⟨a, b, h3, before_succ.2 (.inl h4), h5⟩
    · intro a b ha hb hn; exact h.order a b ha (nb a b hb hn) hn
  · rw [if_neg hbg, Image.get_of_inB (by rw [h.ow]; exact hx) (by rw [h.oh]; exact hy),
      Option.bind_some]
    have irr : ¬ Before (x, y) (x, y) := by simp [Before]
    have nself : ∀ a b, Before (a, b) (x, y) → ¬ (a = x ∧ b = y) := by
      intro a b hb; simp only [Before] at hb; omega
    rw [h.unv x y irr]
    obtain ⟨f', e', h', c', -⟩ := root_spec h.inv (i := L x y) (by rw [h.cnt]; exact hL hbg)
    have hr : R (L x y) < im.w * im.h := by
      rw [← h.cnt]; exact h.inv.R_lt _ (by rw [h.cnt]; exact hL hbg)
    simp only [e', Option.bind_some, if_pos hr]
    rw [Image.put_of_inB _ (by rw [h.ow]; exact hx) (by rw [h.oh]; exact hy), Option.bind_some]
    refine ⟨_, rfl, ?_⟩
    generalize hrd : R (L x y) = r at *
    by_cases hold : s.labels r < 1
    · simp only [if_pos hold]
      have hz : s.labels r = 0 := by omega
      have hne : ∀ a b, a < im.w → Before (a, b) (x, y) → im.px a b ≠ bg → R (L a b) ≠ r := by
        intro a b ha hb hn e
        have h1 := h.lab a b ha hb hn
        rw [h1.2.1, e] at h1; omega
      have hcp := h.cpos
      refine ⟨h.ow, h.oh, h', by rw [c', h.cnt], ?_, ?_, ?_, ?_, ?_, by dsimp; omega, ?_, ?_⟩ <;>
        dsimp only
      · intro a b hb
        rw [if_neg fun e => hb (before_succ.2 (.inr e))]
        exact h.unv a b fun h2 => hb (before_succ.2 (.inl h2))
      · intro a b hb
        rw [if_neg (by rintro ⟨rfl, rfl⟩; exact hbg hb)]
        exact h.bg0 a b hb
      · intro a b ha hb hn
        rcases before_succ.1 hb with hb | ⟨rfl, rfl⟩
        · rw [if_neg (nself a b hb)]
          have h1 := h.lab a b ha hb hn
          refine ⟨h1.1, ?_, h1.2.2⟩
          rw [h1.2.1, upd, if_neg (hne a b ha hb hn)]
        · simp [upd, hrd, hL hbg, hcp]
      · intro k; unfold upd; split
        · omega
        · intro hk; have := h.nz k hk; omega
      · intro k k'; unfold upd
        by_cases h1 : k = r <;> by_cases h2 : k' = r <;> simp only [h1, h2, if_true, if_false]
        · simp
        · intro _ e
          have := h.nz k' (by omega); omega
        · intro h3 e
          have := h.nz k h3; omega
        · exact h.inj k k'
      · intro k h1 h2
        by_cases hk : k = s.count
        · exact ⟨x, y, hx, before_succ.2 (.inr ⟨rfl, rfl⟩), hbg, by simp [hk]⟩
        · obtain ⟨a, b, h3, h4, h5, h6⟩ := h.surj k h1 (by omega)
          exact ⟨a, b, h3, before_succ.2 (.inl h4), h5, by rw [if_neg (nself a b h4), h6]⟩
      · intro a b ha hb hn j h1 h2
        rcases before_succ.1 hb with hb | ⟨rfl, rfl⟩
        · rw [if_neg (nself a b hb)] at h2
          obtain ⟨a', b', h3, h4, h5, h6⟩ := h.order a b ha hb hn j h1 h2
          refine ⟨a', b', h3, h4, h5, ?_⟩
          rw [if_neg (nself a' b' (by simp only [Before] at *; omega)), h6]
        · rw [if_pos ⟨rfl, rfl⟩] at h2
          obtain ⟨a', b', h3, h4, h5, h6⟩ := h.surj j h1 h2
          exact ⟨a', b', h3, h4, h5, by rw [if_neg (nself a' b' h4), h6]⟩
    · simp only [if_neg hold]
      refine ⟨h.ow, h.oh, h', by rw [c', h.cnt], ?_, ?_, ?_, ?_, ?_, h.cpos, ?_, ?_⟩ <;>
        dsimp only
      · intro a b hb
        rw [if_neg fun e => hb (before_succ.2 (.inr e))]
        exact h.unv a b fun h2 => hb (before_succ.2 (.inl h2))
      · intro a b hb
        rw [if_neg (by rintro ⟨rfl, rfl⟩; exact hbg hb)]
        exact h.bg0 a b hb
      · intro a b ha hb hn
        have hu : upd s.labels r (s.labels r) = s.labels := by
          funext k; unfold upd; split
          · subst_vars; rfl
          · rfl
        rw [hu]
        rcases before_succ.1 hb with hb | ⟨rfl, rfl⟩
        · rw [if_neg (nself a b hb)]
          exact h.lab a b ha hb hn
        · rw [if_pos ⟨rfl, rfl⟩, hrd]
          exact ⟨by omega, rfl, hL hbg⟩
      · intro k; unfold upd; split
        · subst_vars; exact h.nz _
        · exact h.nz k
      · intro k k'; unfold upd
        by_cases h1 : k = r <;> by_cases h2 : k' = r <;> simp only [h1, h2, if_true, if_false]
        · simp
        · intro h3 e; exact h.inj _ _ h3 e
        · intro h3 e; exact h1 (h.inj _ _ h3 e)
        · exact h.inj k k'
      · intro k h1 h2
        obtain ⟨a, b, h3, h4, h5, h6⟩ := h.surj k h1 (by omega)
        exact ⟨a, b, h3, before_succ.2 (.inl h4), h5, by rw [if_neg (nself a b h4), h6]⟩
      · intro a b ha hb hn j h1 h2
        rcases before_succ.1 hb with hb | ⟨rfl, rfl⟩
        · rw [if_neg (nself a b hb)] at h2
          obtain ⟨a', b', h3, h4, h5, h6⟩ := h.order a b ha hb hn j h1 h2
          refine ⟨a', b', h3, h4, h5, ?_⟩
          rw [if_neg (nself a' b' (by simp only [Before] at *; omega)), h6]
        · rw [if_pos ⟨rfl, rfl⟩] at h2
          have := h.nz r (by omega)
          obtain ⟨a', b', h3, h4, h5, h6⟩ := h.surj j h1 (by omega)
          exact ⟨a', b', h3, h4, h5, by rw [if_neg (nself a' b' h4), h6]⟩

theorem I2.nextRow {im : Image α} {bg : α} {L R rank} {y : Nat} {s : S2}
    (h : I2 im bg L R rank im.w y s) : I2 im bg L R rank 0 (y + 1) s := by
  have hb : ∀ a b, a < im.w → (Before (a, b) (0, y + 1) ↔ Before (a, b) (im.w, y)) := by
    intro a b ha; simp only [Before]; omega
  refine ⟨h.ow, h.oh, h.inv, h.cnt, ?_, h.bg0, ?_, h.nz, h.inj, h.cpos, ?_, ?_⟩
  · intro a b h1
    refine h.unv a b fun h2 => h1 ?_
    simp only [Before] at h2 ⊢; omega
  · intro a b ha h1; exact h.lab a b ha ((hb a b ha).1 h1)
  · intro k h1 h2
    obtain ⟨a, b, h3, h4, h5⟩ := h.surj k h1 h2
    exact ⟨a, b, h3, (hb a b h3).2 h4, h5⟩
  · intro a b ha h1; exact h.order a b ha ((hb a b ha).1 h1)

theorem pass2_init {im : Image α} {conn : Conn} {bg : α} {s : S1} {R rank}
    (h : I1 im conn bg 0 im.h s R rank) :
    I2 im bg s.out.px R rank 0 0 ⟨s.out, s.forest, fun _ => 0, 1⟩ := by
  have nb : ∀ a b, ¬ Before (a, b) (0, 0) := by intro a b; simp [Before]
  refine ⟨h.ow, h.oh, h.inv, h.cnt, ?_, ?_, ?_, ?_, ?_, by simp, ?_, ?_⟩ <;> dsimp only
  · intros; rfl
  · intro a b hb; exact h.zero a b (.inl hb)
  · intro a b _ h; exact absurd h (nb a b)
  · intro r h; exact absurd rfl h
  · intro r r' h; exact absurd rfl h
  · intro k h1 h2; omega
  · intro a b _ h; exact absurd h (nb a b)

theorem pass2_total {im : Image α} {conn : Conn} {bg : α} {s : S1} {R rank}
    (h : I1 im conn bg 0 im.h s R rank)
    (hL : ∀ a b, a < im.w → b < im.h → im.px a b ≠ bg → s.out.px a b < im.w * im.h) :
    ∃ s2, forYX 0 im.h 0 im.w (⟨s.out, s.forest, fun _ => 0, 1⟩ : S2) (pass2 im bg) = some s2 ∧
      I2 im bg s.out.px R rank 0 im.h s2 :=
  forYX_spec (f := pass2 im bg) (fun x y s2 => I2 im bg s.out.px R rank x y s2)
    (by omega) (by omega) (pass2_init h)
    (fun x y _ _ hx _ hy h2 => pass2_step hx hy h2 (hL x y hx hy))
    (fun _ _ _ _ h2 => h2.nextRow)

/-- If the second pass succeeds then all labels were below the forest size. -/
theorem pass2_some {im : Image α} {conn : Conn} {bg : α} {s : S1} {R rank} {s2 : S2}
    (h : I1 im conn bg 0 im.h s R rank)
    (e : forYX 0 im.h 0 im.w (⟨s.out, s.forest, fun _ => 0, 1⟩ : S2) (pass2 im bg) = some s2) :
    I2 im bg s.out.px R rank 0 im.h s2 := by
  refine forYX_inv (f := pass2 im bg) (fun x y s2 => I2 im bg s.out.px R rank x y s2)
    (by omega) (by omega) (pass2_init h) ?_ (fun _ _ _ _ h2 => h2.nextRow) e
  intro x y t t' _ hx _ hy h2 e2
  have hL : im.px x y ≠ bg → s.out.px x y < im.w * im.h := by
    intro hn
    by_contra hc
    have irr : ¬ Before (x, y) (x, y) := by simp [Before]
    rw [pass2, Image.get_of_inB hx hy, Option.bind_some, if_neg hn,
      Image.get_of_inB (by rw [h2.ow]; exact hx) (by rw [h2.oh]; exact hy), Option.bind_some,
      h2.unv x y irr, Forest.root, if_neg (by rw [h2.cnt]; exact hc)] at e2
    simp at e2
  obtain ⟨t'', e3, h3⟩ := pass2_step hx hy h2 hL
  rw [e2] at e3
  cases e3; exact h3

theorem before_end {im : Image α} {a b : Nat} (hb : b < im.h) : Before (a, b) (0, im.h) :=
  .inl hb

theorem step_root {im : Image α} {conn : Conn} {bg : α} {s : S1} {R rank}
    (h : I1 im conn bg 0 im.h s R rank) {p q : Nat × Nat} (hp : im.px p.1 p.2 ≠ bg)
    (hs : Connected im conn p q) :
    im.px p.1 p.2 = im.px q.1 q.2 ∧ R (s.out.px p.1 p.2) = R (s.out.px q.1 q.2) := by
  induction hs with
  | refl => exact ⟨rfl, rfl⟩
  | tail _ hst ih =>
    obtain ⟨h1, h2, h3, h4⟩ := hst
    refine ⟨ih.1.trans h4, ih.2.trans ?_⟩
    exact h.complete _ _ _ _ h1.1 h2.1 (before_end h1.2) (before_end h2.2) (ih.1 ▸ hp) h4 h3

/-- Everything known about a successful run on a non-empty image. -/
theorem cc_some {im : Image α} {conn : Conn} {bg : α} {out : Image Nat}
    (e : connectedComponents im conn bg = some out) (hw : im.w ≠ 0) (hh : im.h ≠ 0) :
    ∃ s R rank s2, I1 im conn bg 0 im.h s R rank ∧ I2 im bg s.out.px R rank 0 im.h s2 ∧
      s2.out = out := by
  unfold connectedComponents at e
  split at e
  · cases e
  · next hsz =>
    rw [if_neg (by tauto)] at e
    obtain ⟨s, R, rank, e1, h1⟩ := pass1_spec im conn bg (by omega)
    rw [e1, Option.bind_some] at e
    cases e2 : forYX 0 im.h 0 im.w (⟨s.out, s.forest, fun _ => 0, 1⟩ : S2) (pass2 im bg) with
    | none => rw [e2] at e; cases e
    | some s2 =>
      rw [e2] at e
      simp only [Option.bind_some, Option.some.injEq] at e
      exact ⟨s, R, rank, s2, h1, pass2_some h1 e2, e⟩

end Verif.Regions
