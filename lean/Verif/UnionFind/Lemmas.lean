import Verif.UnionFind.Spec
import Mathlib.Tactic.SplitIfs
/- Invariants and lemmas for the union-find model. -/
namespace Verif.UnionFind

/-- Forest invariant with explicit root function `R` and rank function. -/
structure Inv (f : Forest) (R rank : Nat → Nat) : Prop where
  par_lt : ∀ i, i < f.count → f.parent i < f.count
  R_lt : ∀ i, i < f.count → R i < f.count
  R_par : ∀ i, i < f.count → R (f.parent i) = R i
  R_of_root : ∀ i, i < f.count → f.parent i = i → R i = i
  par_R : ∀ i, i < f.count → f.parent (R i) = R i
  rank_lt : ∀ i, i < f.count → f.parent i ≠ i → rank i < rank (f.parent i)
  rank_size : ∀ i, i < f.count → rank i < f.size (R i)
  size_eq : ∀ i, i < f.count → f.parent i = i →
    f.size i = ((Finset.range f.count).filter fun k => R k = i).card

theorem Inv.rank_lt_count {f R rank} (h : Inv f R rank) {i} (hi : i < f.count) :
    rank i < f.count := by
  have h1 := h.rank_size i hi
  rw [h.size_eq (R i) (h.R_lt i hi) (h.par_R i hi)] at h1
  calc rank i < _ := h1
    _ ≤ (Finset.range f.count).card := Finset.card_le_card (Finset.filter_subset _ _)
    _ = f.count := by simp

theorem Inv.compress {f R rank} (h : Inv f R rank) {j} (hj : j < f.count) :
    Inv { f with parent := upd f.parent j (f.parent (f.parent j)) } R rank := by
  have hp := h.par_lt j hj
  have hpp := h.par_lt _ hp
  have hself : f.parent (f.parent j) = j → f.parent j = j := by
    intro e
    by_contra hne
    have h1 := h.rank_lt j hj hne
    by_cases h2 : f.parent (f.parent j) = f.parent j
    · exact hne (h2 ▸ e)
    · have h3 := h.rank_lt _ hp h2
      rw [e] at h3; omega
  refine ⟨?_, h.R_lt, ?_, ?_, ?_, ?_, h.rank_size, ?_⟩ <;> dsimp only <;> intro i hi
  · unfold upd; split
    · exact hpp
    · exact h.par_lt i hi
  · unfold upd; split
    · subst_vars; rw [h.R_par _ hp, h.R_par _ hj]
    · exact h.R_par i hi
  · unfold upd; split
    · subst_vars; intro e; exact h.R_of_root _ hi (hself e)
    · exact h.R_of_root i hi
  · unfold upd; split
    · next e => 
      have := h.par_R i hi
      rw [e] at this ⊢
      rw [this, this]
    · exact h.par_R i hi
  · unfold upd; split
    · subst_vars; intro hne
      by_cases h1 : f.parent i = i
      · exact absurd (by rw [h1, h1]) hne
      · have h2 := h.rank_lt i hi h1
        by_cases h3 : f.parent (f.parent i) = f.parent i
        · rw [h3]; exact h2
        · exact Nat.lt_trans h2 (h.rank_lt _ hp h3)
    · exact h.rank_lt i hi
  · unfold upd; split
    · subst_vars; intro e; exact h.size_eq _ hi (hself e)
    · exact h.size_eq i hi

theorem rootLoop_spec {R rank} : ∀ (n : Nat) (f : Forest) (j : Nat), Inv f R rank → j < f.count →
    f.count < rank j + n → ∃ f', rootLoop n f j = some (f', R j) ∧ Inv f' R rank ∧
      f'.count = f.count ∧ f'.size = f.size
  | 0, f, j, h, hj, hn => by have := h.rank_lt_count hj; omega
  | n + 1, f, j, h, hj, hn => by
    have hc := h.compress hj
    simp only [rootLoop, hj, h.par_lt j hj, and_self, if_true]
    by_cases e : j = f.parent j
    · rw [if_pos e]
      refine ⟨_, ?_, hc, rfl, rfl⟩
      rw [h.R_of_root j hj e.symm]
    · rw [if_neg e]
      have hlt := h.rank_lt j hj (fun k => e k.symm)
      obtain ⟨f', h1, h2, h3, h4⟩ := rootLoop_spec n _ (f.parent j) hc (h.par_lt j hj)
        (by show f.count < _; omega)
      exact ⟨f', by rw [h1, h.R_par j hj], h2, h3, h4⟩

/-- More fuel never changes the result of `rootLoop`. -/
theorem rootLoop_mono : ∀ (n : Nat) (f : Forest) (j : Nat) r, rootLoop n f j = some r →
    ∀ m, n ≤ m → rootLoop m f j = some r
  | 0, _, _, _, h, _, _ => by simp [rootLoop] at h
  | n + 1, f, j, r, h, m, hm => by
    obtain ⟨m, rfl⟩ : ∃ k, m = k + 1 := ⟨m - 1, by omega⟩
    simp only [rootLoop] at h ⊢
    split_ifs at h ⊢ with h1 h2
    · exact h
    · exact rootLoop_mono n _ _ _ h m (by omega)

theorem root_spec {f R rank i} (h : Inv f R rank) (hi : i < f.count) :
    ∃ f', f.root i = some (f', R i) ∧ Inv f' R rank ∧ f'.count = f.count ∧ f'.size = f.size := by
  obtain ⟨f', h1, h2⟩ := rootLoop_spec (f.count + 1) f i h hi (by omega)
  exact ⟨f', by simp [Forest.root, hi, h1], h2⟩

theorem find_spec {f R rank i j} (h : Inv f R rank) (hi : i < f.count) (hj : j < f.count) :
    ∃ f', f.find i j = some (f', R i == R j) ∧ Inv f' R rank ∧ f'.count = f.count := by
  obtain ⟨f1, e1, h1, c1, -⟩ := root_spec h hi
  obtain ⟨f2, e2, h2, c2, -⟩ := root_spec h1 (i := j) (by omega)
  exact ⟨f2, by simp [Forest.find, hi, hj, e1, e2], h2, by omega⟩

/-- Linking root `p` below root `q`. -/
theorem Inv.link {f R rank p q} (h : Inv f R rank) (hp : p < f.count) (hq : q < f.count)
    (rp : f.parent p = p) (rq : f.parent q = q) (hne : p ≠ q) :
    Inv { f with parent := upd f.parent p q, size := upd f.size q (f.size p + f.size q) }
      (fun x => if R x = p then q else R x)
      (fun x => if x = q then max (rank p + 1) (rank q) else rank x) := by
  have Rp := h.R_of_root p hp rp
  have Rq := h.R_of_root q hq rq
  have sp := h.rank_size p hp
  have sq := h.rank_size q hq
  rw [Rp] at sp
  rw [Rq] at sq
  refine ⟨?_, ?_, ?_, ?_, ?_, ?_, ?_, ?_⟩ <;> dsimp only <;> intro i hi
  · unfold upd; split
    · exact hq
    · exact h.par_lt i hi
  · split
    · exact hq
    · exact h.R_lt i hi
  · unfold upd
    by_cases e : i = p
    · subst e; simp [Rp, Rq, hne.symm]
    · simp [e, h.R_par i hi]
  · unfold upd
    by_cases e : i = p
    · subst e; simp; intro h; exact absurd h.symm hne
    · simp only [e, if_false]
      intro e2
      have := h.R_of_root i hi e2
      simp [this, e]
  · unfold upd
    by_cases e : R i = p
    · simp [e, hne.symm, rq]
    · simp [e, h.par_R i hi]
  · unfold upd
    by_cases e : i = p
    · subst e; simp [hne, hne.symm]
    · simp only [e, if_false]
      intro e2
      have e3 := h.rank_lt i hi e2
      have e4 : i ≠ q := by rintro rfl; exact e2 rq
      simp only [e4, if_false]
      split
      · next e5 => rw [e5] at e3; omega
      · exact e3
  · unfold upd
    have e3 := h.rank_size i hi
    by_cases e : i = q
    · subst e; simp [Rq, hne.symm]; omega
    · simp only [e, if_false]
      by_cases e1 : R i = p
      · rw [e1] at e3; simp [e1]; omega
      · by_cases e2 : R i = q
        · rw [e2] at e3; simp [e2, hne.symm]; omega
        · simp [e1, e2, e3]
  · unfold upd
    by_cases e : i = p
    · subst e; simp; intro h; exact absurd h.symm hne
    · simp only [e, if_false]
      intro e2
      by_cases e3 : i = q
      · subst e3
        simp only [if_true]
        rw [h.size_eq p hp rp, h.size_eq i hi rq, ← Finset.card_union_of_disjoint]
        · congr 1
          ext k; simp only [Finset.mem_union, Finset.mem_filter]
          constructor
          · rintro (⟨a, b⟩ | ⟨a, b⟩)
            · exact ⟨a, by simp [b]⟩
            · exact ⟨a, by simp [b]⟩
          · rintro ⟨a, b⟩
            split at b
            · left; exact ⟨a, by assumption⟩
            · right; exact ⟨a, b⟩
        · rw [Finset.disjoint_left]
          intro k; simp only [Finset.mem_filter]
          rintro ⟨_, a⟩ ⟨_, b⟩
          exact hne (a.symm.trans b)
      · simp only [e3, if_false]
        rw [h.size_eq i hi e2]
        congr 1
        ext k; simp only [Finset.mem_filter]
        constructor
        · rintro ⟨a, b⟩
          exact ⟨a, by simp [b, e]⟩
        · rintro ⟨a, b⟩
          split at b
          · exact absurd b.symm e3
          · exact ⟨a, b⟩

theorem new_inv (n : Nat) : Inv (Forest.new n) (fun i => i) (fun _ => 0) := by
  refine ⟨?_, ?_, ?_, ?_, ?_, ?_, ?_, ?_⟩ <;> simp [Forest.new]
  intro i hi
  symm
  rw [Finset.card_eq_one]
  exact ⟨i, by ext k; simp [hi]⟩

/-- `union` merges the classes of the two roots and nothing else. -/
theorem union_spec {f R rank i j} (h : Inv f R rank) (hi : i < f.count) (hj : j < f.count) :
    ∃ f' R' rank', f.union i j = some f' ∧ Inv f' R' rank' ∧ f'.count = f.count ∧
      (∀ a b, a < f.count → b < f.count → (R' a = R' b ↔
        R a = R b ∨ (R a = R i ∧ R b = R j) ∨ (R a = R j ∧ R b = R i))) := by
  obtain ⟨f1, e1, h1, c1, -⟩ := root_spec h hi
  obtain ⟨f2, e2, h2, c2, -⟩ := root_spec h1 (i := j) (by omega)
  have c : f2.count = f.count := by omega
  simp only [Forest.union, hi, hj, e1, e2, and_self, if_true, Option.bind_some]
  by_cases e : R i = R j
  · rw [if_pos e]
    refine ⟨f2, R, rank, rfl, h2, c, ?_⟩
    intro a b _ _
    constructor
    · exact Or.inl
    · rintro (h | ⟨h, h'⟩ | ⟨h, h'⟩)
      · exact h
      · simp [h, h', e]
      · simp [h, h', e]
  · rw [if_neg e]
    have a1 : R i < f2.count := h2.R_lt i (by omega)
    have a2 : R j < f2.count := h2.R_lt j (by omega)
    have b1 := h2.par_R i (by omega)
    have b2 := h2.par_R j (by omega)
    split
    · refine ⟨_, _, _, rfl, h2.link a1 a2 b1 b2 e, c, ?_⟩
      intro a b _ _
      split_ifs <;> omega
    · have := h2.link a2 a1 b2 b1 (fun h => e h.symm)
      rw [Nat.add_comm] at this
      refine ⟨_, _, _, rfl, this, c, ?_⟩
      intro a b _ _
      split_ifs <;> omega

theorem Equivalent.refl {ops} (a) : Equivalent ops a a := Relation.EqvGen.refl a
theorem Equivalent.symm {ops a b} (h : Equivalent ops a b) : Equivalent ops b a :=
  Relation.EqvGen.symm _ _ h
theorem Equivalent.trans {ops a b c} (h : Equivalent ops a b) (k : Equivalent ops b c) :
    Equivalent ops a c := Relation.EqvGen.trans _ _ _ h k

theorem Equivalent.mono {ops ops' a b} (h : Equivalent ops a b) (hs : ∀ o ∈ ops, o ∈ ops') :
    Equivalent ops' a b := by
  induction h with
  | rel a b h => exact .rel _ _ (hs _ h)
  | refl a => exact .refl a
  | symm a b _ ih => exact ih.symm
  | trans a b c _ _ ih1 ih2 => exact ih1.trans ih2

theorem equivalent_snoc {ops i j a b} : Equivalent (ops ++ [.union i j]) a b ↔
    Equivalent ops a b ∨ (Equivalent ops a i ∧ Equivalent ops b j) ∨
      (Equivalent ops a j ∧ Equivalent ops b i) := by
  constructor
  · intro h
    induction h with
    | rel a b h =>
      rcases List.mem_append.1 h with h | h
      · exact .inl (.rel _ _ h)
      · simp only [List.mem_singleton, Op.union.injEq] at h
        rw [h.1, h.2]
        exact .inr (.inl ⟨.refl _, .refl _⟩)
    | refl a => exact .inl (.refl a)
    | symm a b _ ih =>
      rcases ih with h | ⟨h, k⟩ | ⟨h, k⟩
      · exact .inl h.symm
      · exact .inr (.inr ⟨k, h⟩)
      · exact .inr (.inl ⟨k, h⟩)
    | trans a b c _ _ ih1 ih2 =>
      rcases ih1 with h | ⟨h, k⟩ | ⟨h, k⟩ <;> rcases ih2 with h' | ⟨h', k'⟩ | ⟨h', k'⟩
      · exact .inl (h.trans h')
      · exact .inr (.inl ⟨h.trans h', k'⟩)
      · exact .inr (.inr ⟨h.trans h', k'⟩)
      · exact .inr (.inl ⟨h, h'.symm.trans k⟩)
      · exact .inl (h.trans (h'.symm.trans (k.trans k'.symm)))
      · exact .inl (h.trans k'.symm)
      · exact .inr (.inr ⟨h, h'.symm.trans k⟩)
      · exact .inl (h.trans k'.symm)
      · exact .inl (h.trans (h'.symm.trans (k.trans k'.symm)))
  · have m : ∀ o ∈ ops, o ∈ ops ++ [.union i j] := fun o ho => List.mem_append_left _ ho
    have e : Equivalent (ops ++ [.union i j]) i j := .rel _ _ (by simp)
    rintro (h | ⟨h, k⟩ | ⟨h, k⟩)
    · exact h.mono m
    · exact (h.mono m).trans (e.trans (k.mono m).symm)
    · exact (h.mono m).trans (e.symm.trans (k.mono m).symm)

theorem equivalent_snoc_other {ops o a b} (ho : ∀ i j, o ≠ .union i j) :
    Equivalent (ops ++ [o]) a b ↔ Equivalent ops a b := by
  constructor
  · intro h
    induction h with
    | rel a b h =>
      rcases List.mem_append.1 h with h | h
      · exact .rel _ _ h
      · exact absurd (List.mem_singleton.1 h).symm (ho _ _)
    | refl a => exact .refl a
    | symm a b _ ih => exact ih.symm
    | trans a b c _ _ ih1 ih2 => exact ih1.trans ih2
  · intro h; exact h.mono fun o ho => List.mem_append_left _ ho

/-- Invariant of the loop in `trees`. -/
structure TInv (R rank : Nat → Nat) (n i : Nat) (s : TreesState) : Prop where
  inv : Inv s.forest R rank
  cnt : s.forest.count = n
  flat : List.Perm s.sets.flatten (List.range i)
  ne : [] ∉ s.sets
  map_some : ∀ r k, s.rootSets r = some k → ∃ l, s.sets[k]? = some l ∧ ∀ x ∈ l, R x = r
  map_none : ∀ r, s.rootSets r = none → ∀ x, x < i → R x ≠ r
  back : ∀ k l, s.sets[k]? = some l → ∃ r, s.rootSets r = some k

theorem trees_spec {f R rank} (h : Inv f R rank) :
    ∃ f' sets, f.trees = some (f', sets) ∧ Inv f' R rank ∧ f'.count = f.count ∧
      sets.flatten.Perm (List.range f.count) ∧ [] ∉ sets ∧
      (∀ (k : Nat) l (k' : Nat) l', sets[k]? = some l → sets[k']? = some l' → ∀ x ∈ l, ∀ y ∈ l',
        (k = k' ↔ R x = R y)) := by
  obtain ⟨s, e, hs⟩ := forRange_spec (f := treesStep) (TInv R rank f.count)
    (lo := 0) (hi := f.count) (s := ⟨f, fun _ => none, []⟩) (by omega)
    ⟨h, rfl, by simp, by simp, by simp, by simp, by simp⟩ (by
      intro i s _ hi hI
      obtain ⟨f', e1, h1, c1, -⟩ := root_spec hI.inv (i := i) (by rw [hI.cnt]; exact hi)
      simp only [treesStep, e1, Option.bind_some]
      cases hr : s.rootSets (R i) with
      | some k =>
        obtain ⟨l, hl, hlR⟩ := hI.map_some _ _ hr
        have hk : k < s.sets.length := (List.getElem?_eq_some_iff.1 hl).1
        simp only [hk, if_true]
        refine ⟨_, rfl, h1, by rw [c1, hI.cnt], ?_, ?_, ?_, ?_, ?_⟩
        · dsimp only
          have : s.sets.modify k (· ++ [i]) = s.sets.take k ++ (l ++ [i]) :: s.sets.drop (k+1) := by
            rw [List.modify_eq_take_cons_drop hk]
            rw [(List.getElem?_eq_some_iff.1 hl).2]
          have e2 : s.sets = s.sets.take k ++ l :: s.sets.drop (k+1) := by
            conv => lhs; rw [← List.take_append_drop k s.sets]
            rw [List.drop_eq_getElem_cons hk, (List.getElem?_eq_some_iff.1 hl).2]
          rw [this, List.range_succ]
          have p := hI.flat
          rw [e2] at p
          simp only [List.flatten_append, List.flatten_cons] at p ⊢
          refine List.Perm.trans ?_ (p.append_right [i])
          simp only [List.append_assoc]
          refine List.Perm.append_left _ (List.Perm.append_left _ ?_)
          exact List.perm_append_comm
        · dsimp only
          intro hm
          obtain ⟨m, hm1, hm2⟩ := List.mem_iff_getElem.1 hm
          rw [List.getElem_modify] at hm2
          split at hm2
          · simp at hm2
          · exact hI.ne (hm2 ▸ List.getElem_mem _)
        · intro r k' hr'
          obtain ⟨l', hl', hlR'⟩ := hI.map_some _ _ hr'
          simp only [List.getElem?_modify]
          by_cases ek : k = k'
          · subst ek
            simp only [if_true, hl']
            refine ⟨l' ++ [i], rfl, ?_⟩
            intro x hx
            rcases List.mem_append.1 hx with hx | hx
            · exact hlR' x hx
            · simp only [List.mem_singleton] at hx
              subst hx
              rw [hl] at hl'
              cases hl'
              have hne : l ≠ [] := by
                rintro rfl; exact hI.ne (List.mem_of_getElem? hl)
              obtain ⟨y, hy⟩ := List.exists_mem_of_ne_nil l hne
              exact (hlR y hy).symm.trans (hlR' y hy)
          · exact ⟨l', by simp [ek, hl'], hlR'⟩
        · intro r hr' x hx
          rcases Nat.lt_succ_iff_lt_or_eq.1 hx with hx | rfl
          · exact hI.map_none r hr' x hx
          · rintro rfl; rw [hr] at hr'; cases hr'
        · intro k' l' hl'
          simp only [List.getElem?_modify] at hl'
          cases hk' : s.sets[k']? with
          | none => rw [hk'] at hl'; simp at hl'
          | some l'' => exact hI.back k' l'' hk'
      | none =>
        refine ⟨_, rfl, h1, by rw [c1, hI.cnt], ?_, ?_, ?_, ?_, ?_⟩
        · dsimp only
          rw [List.range_succ, List.flatten_append]
          simpa using hI.flat.append_right [i]
        · dsimp only
          simpa using hI.ne
        · intro r k' hr'
          dsimp only at hr' ⊢
          split at hr'
          · next er =>
            cases hr'
            refine ⟨[i], by simp, ?_⟩
            intro x hx; simp only [List.mem_singleton] at hx; rw [hx, er]
          · obtain ⟨l', hl', hlR'⟩ := hI.map_some _ _ hr'
            refine ⟨l', ?_, hlR'⟩
            rw [List.getElem?_append_left (List.getElem?_eq_some_iff.1 hl').1, hl']
        · intro r hr' x hx
          dsimp only at hr'
          split at hr'
          · cases hr'
          · next er =>
            rcases Nat.lt_succ_iff_lt_or_eq.1 hx with hx | rfl
            · exact hI.map_none r hr' x hx
            · exact fun h => er h.symm
        · intro k' l' hl'
          dsimp only at hl' ⊢
          by_cases hk' : k' < s.sets.length
          · rw [List.getElem?_append_left hk'] at hl'
            obtain ⟨r, h⟩ := hI.back k' l' hl'
            refine ⟨r, ?_⟩
            rw [if_neg, h]
            rintro rfl; rw [hr] at h; cases h
          · have : k' = s.sets.length := by
              have := (List.getElem?_eq_some_iff.1 hl').1
              simp at this; omega
            exact ⟨R i, by simp [this]⟩)
  refine ⟨s.forest, s.sets, by simp [Forest.trees, e], hs.inv, hs.cnt, hs.flat, hs.ne, ?_⟩
  intro k l k' l' hl hl' x hx y hy
  obtain ⟨r, hr⟩ := hs.back k l hl
  obtain ⟨r', hr'⟩ := hs.back k' l' hl'
  obtain ⟨l1, e1, e1'⟩ := hs.map_some r k hr
  obtain ⟨l2, e2, e2'⟩ := hs.map_some r' k' hr'
  rw [hl] at e1; cases e1
  rw [hl'] at e2; cases e2
  rw [e1' x hx, e2' y hy]
  constructor
  · rintro rfl
    rw [hl] at hl'; cases hl'
    exact (e1' x hx).symm.trans (e2' x hx)
  · rintro rfl
    rw [hr] at hr'; cases hr'; rfl

/-- Every history leads to a state whose roots represent exactly the equivalence closure. -/
theorem run_inv (n : Nat) (ops : List Op) (hv : ∀ o ∈ ops, o.Valid n) :
    ∃ f R rank, run (Forest.new n) ops = some f ∧ Inv f R rank ∧ f.count = n ∧
      ∀ a b, a < n → b < n → (R a = R b ↔ Equivalent ops a b) := by
  obtain ⟨f, e, R, rank, h1, h2, h3⟩ := forList_spec (f := fun o f => step f o)
    (fun pre f => ∃ R rank, Inv f R rank ∧ f.count = n ∧
      ∀ a b, a < n → b < n → (R a = R b ↔ Equivalent pre a b)) ops [] (Forest.new n)
    ⟨_, _, new_inv n, rfl, by
      intro a b _ _
      constructor
      · rintro rfl; exact .refl _
      · intro h
        induction h with
        | rel a b h => cases h
        | refl a => rfl
        | symm a b _ ih => exact (ih ‹_› ‹_›).symm
        | trans a b c hab hbc ih1 ih2 =>
          clear ih1 ih2
          have : ∀ a b, Equivalent [] a b → a = b := by
            intro a b h
            induction h with
            | rel a b h => cases h
            | refl a => rfl
            | symm a b _ ih => exact ih.symm
            | trans a b c _ _ ih1 ih2 => exact ih1.trans ih2
          exact (this _ _ hab).trans (this _ _ hbc)⟩
    (by
      intro p o q f e ⟨R, rank, h, hc, hR⟩
      have ho : o.Valid n := hv o (by
        rw [List.nil_append] at e; rw [e]; simp)
      cases o with
      | root i =>
        obtain ⟨f', e1, h1, c1, -⟩ := root_spec h (i := i) (by rw [hc]; exact ho)
        refine ⟨f', by simp [step, e1], R, rank, h1, by omega, ?_⟩
        intro a b ha hb
        rw [equivalent_snoc_other (by simp), hR a b ha hb]
      | find i j =>
        obtain ⟨f', e1, h1, c1⟩ := find_spec h (i := i) (j := j) (by rw [hc]; exact ho.1)
          (by rw [hc]; exact ho.2)
        refine ⟨f', by simp [step, e1], R, rank, h1, by omega, ?_⟩
        intro a b ha hb
        rw [equivalent_snoc_other (by simp), hR a b ha hb]
      | union i j =>
        obtain ⟨f', R', rank', e1, h1, c1, hR'⟩ := union_spec h (i := i) (j := j)
          (by rw [hc]; exact ho.1) (by rw [hc]; exact ho.2)
        refine ⟨f', by simp [step, e1], R', rank', h1, by omega, ?_⟩
        intro a b ha hb
        rw [equivalent_snoc, hR' a b (by omega) (by omega), hR a b ha hb, hR a i ha ho.1,
          hR a j ha ho.2, hR b i hb ho.1, hR b j hb ho.2]
      | trees =>
        obtain ⟨f', sets, e1, h1, c1, -⟩ := trees_spec h
        refine ⟨f', by simp [step, e1], R, rank, h1, by omega, ?_⟩
        intro a b ha hb
        rw [equivalent_snoc_other (by simp), hR a b ha hb])
  exact ⟨f, R, rank, e, h1, h2, h3⟩

theorem numTrees_eq (f : Forest) :
    f.numTrees = ((Finset.range f.count).filter fun i => f.parent i = i).card := by
  unfold Forest.numTrees
  generalize f.count = n
  induction n with
  | zero => simp
  | succ n ih =>
    rw [List.range_succ, List.foldl_append, ih, Finset.range_add_one, Finset.filter_insert]
    simp only [List.foldl_cons, List.foldl_nil]
    by_cases h : f.parent n = n
    · rw [if_pos h.symm, if_pos h, Finset.card_insert_of_notMem (by simp)]
    · rw [if_neg (fun k => h k.symm), if_neg h]; rfl

end Verif.UnionFind
