import Verif.UnionFind.Lemmas
/- Property theorems C01-C03 (union-find). -/
namespace Verif.UnionFind

/-- C01: after any history of calls with valid indices (none of which panics, reads out of
bounds or loops), `find` succeeds and answers the equivalence closure of the unions made. -/
theorem C01_find_iff_equivalent (n : Nat) (ops : List Op) (hv : ∀ o ∈ ops, o.Valid n)
    (i j : Nat) (hi : i < n) (hj : j < n) :
    ∃ f f' b, run (Forest.new n) ops = some f ∧ f.find i j = some (f', b) ∧
      (b = true ↔ Equivalent ops i j) := by
  obtain ⟨f, R, rank, e, h, hc, hR⟩ := run_inv n ops hv
  obtain ⟨f', e1, -, -⟩ := find_spec h (i := i) (j := j) (by omega) (by omega)
  exact ⟨f, f', _, e, e1, by rw [beq_iff_eq, hR i j hi hj]⟩

/-- C01: `root` always returns a representative: an index of the same class, the same one
for all members of the class. -/
theorem C01_root_representative (n : Nat) (ops : List Op) (hv : ∀ o ∈ ops, o.Valid n) :
    ∃ f, run (Forest.new n) ops = some f ∧ ∃ rep : Nat → Nat,
      (∀ i, i < n → ∃ f', f.root i = some (f', rep i)) ∧
      (∀ i, i < n → rep i < n ∧ Equivalent ops i (rep i)) ∧
      (∀ i j, i < n → j < n → (rep i = rep j ↔ Equivalent ops i j)) := by
  obtain ⟨f, R, rank, e, h, hc, hR⟩ := run_inv n ops hv
  subst hc
  refine ⟨f, e, R, ?_, ?_, hR⟩
  · intro i hi
    obtain ⟨f', e1, -⟩ := root_spec h hi
    exact ⟨f', e1⟩
  · intro i hi
    have h1 := h.R_lt i hi
    refine ⟨h1, (hR i (R i) hi h1).1 ?_⟩
    rw [h.R_of_root _ h1 (h.par_R i hi)]

/-- C01: an index `≥ n` is rejected by every call. -/
theorem C01_rejects_invalid (n : Nat) (ops : List Op) (hv : ∀ o ∈ ops, o.Valid n) (o : Op)
    (ho : ¬ o.Valid n) : run (Forest.new n) (ops ++ [o]) = none := by
  obtain ⟨f, R, rank, e, h, hc, hR⟩ := run_inv n ops hv
  have app : ∀ (l : List Op) f0, run f0 (l ++ [o]) = (run f0 l).bind fun f => step f o := by
    intro l
    induction l with
    | nil => intro f0; simp [run, forList]
    | cons a l ih =>
      intro f0
      simp only [run, List.cons_append, forList] at ih ⊢
      cases step f0 a with
      | none => rfl
      | some f1 => exact ih f1
  rw [app, e]
  subst hc
  cases o with
  | root i => simp only [Op.Valid] at ho; simp [step, Forest.root, ho]
  | find i j => simp only [Op.Valid] at ho; simp only [Option.bind_some, step, Forest.find, if_neg ho]; rfl
  | union i j => simp only [Op.Valid] at ho; simp only [Option.bind_some, step, Forest.union, if_neg ho]
  | trees => simp [Op.Valid] at ho

-- C01 non-vacuity: a history with a genuine merge of two two-element trees.
example : ∀ o ∈ [Op.union 0 1, .union 2 3, .find 0 3, .union 1 3, .root 2], o.Valid 5 := by
  simp [Op.Valid]
example : ((run (Forest.new 5) [Op.union 0 1, .union 2 3, .union 1 3]).bind
    fun f => (f.find 0 2).map Prod.snd) = some true := by decide
example : ((run (Forest.new 5) [Op.union 0 1, .union 2 3, .union 1 3]).bind
    fun f => (f.find 0 4).map Prod.snd) = some false := by decide

/-- C02: the number of trees is the number of equivalence classes, for every history. -/
theorem C02_numTrees_eq_classes (n : Nat) (ops : List Op) (hv : ∀ o ∈ ops, o.Valid n) :
    ∃ f, run (Forest.new n) ops = some f ∧ f.numTrees = (classes n ops).card := by
  obtain ⟨f, R, rank, e, h, hc, hR⟩ := run_inv n ops hv
  subst hc
  refine ⟨f, e, ?_⟩
  rw [numTrees_eq]
  classical
  unfold classes
  refine Finset.card_bij
    (fun i _ => (Finset.range f.count).filter fun j => Equivalent ops i j) ?_ ?_ ?_
  · intro i hi
    exact Finset.mem_image_of_mem _ (Finset.mem_filter.1 hi).1
  · intro i hi j hj hij
    rw [Finset.mem_filter, Finset.mem_range] at hi hj
    have : i ∈ (Finset.range f.count).filter fun k => Equivalent ops j k := by
      rw [← hij]; simp [hi.1, Equivalent.refl]
    rw [Finset.mem_filter] at this
    have := (hR j i hj.1 hi.1).2 this.2
    rw [h.R_of_root _ hi.1 hi.2, h.R_of_root _ hj.1 hj.2] at this
    exact this.symm
  · intro c hc
    obtain ⟨i, hi, rfl⟩ := Finset.mem_image.1 hc
    rw [Finset.mem_range] at hi
    have h1 := h.R_lt i hi
    refine ⟨R i, Finset.mem_filter.2 ⟨Finset.mem_range.2 h1, h.par_R i hi⟩, ?_⟩
    have e1 : Equivalent ops i (R i) := (hR i (R i) hi h1).1 (by
      rw [h.R_of_root _ h1 (h.par_R i hi)])
    ext k
    simp only [Finset.mem_filter]
    exact ⟨fun h => ⟨h.1, e1.trans h.2⟩, fun h => ⟨h.1, e1.symm.trans h.2⟩⟩

/-- C02: the initial count is `n`. -/
theorem C02_numTrees_new (n : Nat) : (Forest.new n).numTrees = n := by
  rw [numTrees_eq]; simp [Forest.new]

/-- C02: a union of two inequivalent elements lowers the count by one; any other call keeps it. -/
theorem C02_numTrees_step (n : Nat) (ops : List Op) (hv : ∀ o ∈ ops, o.Valid n) (o : Op)
    (ho : o.Valid n) : ∃ f f', run (Forest.new n) ops = some f ∧ step f o = some f' ∧
      ((∃ i j, o = .union i j ∧ ¬ Equivalent ops i j) → f'.numTrees + 1 = f.numTrees) ∧
      ((∀ i j, o = .union i j → Equivalent ops i j) → f'.numTrees = f.numTrees) := by
  classical
  obtain ⟨f, e, hf⟩ := C02_numTrees_eq_classes n ops hv
  have hv' : ∀ o' ∈ ops ++ [o], o'.Valid n := by
    intro o' h
    rcases List.mem_append.1 h with h | h
    · exact hv o' h
    · rw [List.mem_singleton.1 h]; exact ho
  obtain ⟨f', e', hf'⟩ := C02_numTrees_eq_classes n (ops ++ [o]) hv'
  have app : ∀ (l : List Op) f0, run f0 (l ++ [o]) = (run f0 l).bind fun f => step f o := by
    intro l
    induction l with
    | nil => intro f0; simp [run, forList]
    | cons a l ih =>
      intro f0
      simp only [run, List.cons_append, forList] at ih ⊢
      cases step f0 a with
      | none => rfl
      | some f1 => exact ih f1
  rw [app, e] at e'
  refine ⟨f, f', e, e', ?_, ?_⟩
  · rintro ⟨i, j, rfl, hne⟩
    rw [hf, hf']
    -- the two old classes are replaced by their union
    let c : List Op → Nat → Finset Nat := fun ops i =>
      (Finset.range n).filter fun j => Equivalent ops i j
    have mem : ∀ ops a b, b ∈ c ops a ↔ b < n ∧ Equivalent ops a b := by
      intro ops a b; simp [c]
    have cl : ∀ ops, classes n ops = (Finset.range n).image (c ops) := by
      intro ops; unfold classes; rfl
    set ops' := ops ++ [Op.union i j] with hops'
    have hi : i < n := ho.1
    have hj : j < n := ho.2
    -- map: old classes other than that of j, inject onto new classes
    have key : (classes n ops').card = ((classes n ops).erase (c ops j)).card := by
      symm
      refine Finset.card_bij (fun s _ => if s = c ops i then c ops' i else s) ?_ ?_ ?_
      · intro s hs
        rw [Finset.mem_erase, cl] at hs
        obtain ⟨hs1, hs2⟩ := hs
        obtain ⟨a, ha, rfl⟩ := Finset.mem_image.1 hs2
        rw [cl]
        split
        · exact Finset.mem_image_of_mem _ (Finset.mem_range.2 hi)
        · next hs3 =>
          have hai : ¬ Equivalent ops a i := by
            intro h; apply hs3; ext b; rw [mem, mem]
            exact ⟨fun k => ⟨k.1, h.symm.trans k.2⟩, fun k => ⟨k.1, h.trans k.2⟩⟩
          have haj : ¬ Equivalent ops a j := by
            intro h; apply hs1; ext b; rw [mem, mem]
            exact ⟨fun k => ⟨k.1, h.symm.trans k.2⟩, fun k => ⟨k.1, h.trans k.2⟩⟩
          have : c ops a = c ops' a := by
            ext b; rw [mem, mem, hops', equivalent_snoc]
            constructor
            · exact fun k => ⟨k.1, .inl k.2⟩
            · rintro ⟨k, h | ⟨h, _⟩ | ⟨h, _⟩⟩
              · exact ⟨k, h⟩
              · exact absurd h hai
              · exact absurd h haj
          rw [this]; exact Finset.mem_image_of_mem _ ha
      · intro s hs t ht hst
        rw [Finset.mem_erase, cl] at hs ht
        obtain ⟨hs1, hs2⟩ := hs
        obtain ⟨ht1, ht2⟩ := ht
        obtain ⟨a, ha, rfl⟩ := Finset.mem_image.1 hs2
        obtain ⟨b, hb, rfl⟩ := Finset.mem_image.1 ht2
        have ii : i ∈ c ops' i := (mem _ _ _).2 ⟨hi, .refl _⟩
        have eqc : ∀ a, i ∈ c ops a → c ops a = c ops i := by
          intro a h
          have h := ((mem _ _ _).1 h).2
          ext b; rw [mem, mem]
          exact ⟨fun k => ⟨k.1, h.symm.trans k.2⟩, fun k => ⟨k.1, h.trans k.2⟩⟩
        split at hst <;> split at hst
        · simp_all
        · exact absurd (eqc b (hst ▸ ii)) ‹_›
        · exact absurd (eqc a (hst ▸ ii)) ‹_›
        · exact hst
      · intro s hs
        rw [cl] at hs
        obtain ⟨a, ha, rfl⟩ := Finset.mem_image.1 hs
        rw [Finset.mem_range] at ha
        by_cases h : Equivalent ops' a i
        · refine ⟨c ops i, ?_, ?_⟩
          · rw [Finset.mem_erase, cl]
            refine ⟨?_, Finset.mem_image_of_mem _ (Finset.mem_range.2 hi)⟩
            intro h
            have : i ∈ c ops j := h ▸ (mem _ _ _).2 ⟨hi, .refl _⟩
            exact hne ((mem _ _ _).1 this).2.symm
          · rw [if_pos rfl]
            ext b; rw [mem, mem]
            exact ⟨fun k => ⟨k.1, h.trans k.2⟩, fun k => ⟨k.1, h.symm.trans k.2⟩⟩
        · have ij : Equivalent ops' i j := .rel _ _ (by simp [hops'])
          have mono : ∀ {x y}, Equivalent ops x y → Equivalent ops' x y := fun k =>
            k.mono fun o ho => List.mem_append_left _ ho
          have hai : ¬ Equivalent ops a i := fun k => h (mono k)
          have haj : ¬ Equivalent ops a j := fun k => h ((mono k).trans ij.symm)
          have e1 : c ops a = c ops' a := by
            ext b; rw [mem, mem, hops', equivalent_snoc]
            constructor
            · exact fun k => ⟨k.1, .inl k.2⟩
            · rintro ⟨k, h | ⟨h, _⟩ | ⟨h, _⟩⟩
              · exact ⟨k, h⟩
              · exact absurd h hai
              · exact absurd h haj
          have aa : a ∈ c ops a := (mem _ _ _).2 ⟨ha, .refl _⟩
          refine ⟨c ops a, ?_, ?_⟩
          · rw [Finset.mem_erase, cl]
            refine ⟨?_, Finset.mem_image_of_mem _ (Finset.mem_range.2 ha)⟩
            intro h; rw [h] at aa
            exact haj ((mem _ _ _).1 aa).2.symm
          · rw [if_neg]
            · exact e1
            · intro h; rw [h] at aa
              exact hai ((mem _ _ _).1 aa).2.symm
    have hjm : c ops j ∈ classes n ops := by
      rw [cl]; exact Finset.mem_image_of_mem _ (Finset.mem_range.2 hj)
    rw [key, Finset.card_erase_of_mem hjm]
    have := Finset.card_pos.2 ⟨_, hjm⟩
    omega
  · intro h
    rw [hf, hf']
    have : ∀ a b, Equivalent (ops ++ [o]) a b ↔ Equivalent ops a b := by
      intro a b
      by_cases hu : ∃ i j, o = .union i j
      · obtain ⟨i, j, rfl⟩ := hu
        have hij := h i j rfl
        rw [equivalent_snoc]
        constructor
        · rintro (h | ⟨h, k⟩ | ⟨h, k⟩)
          · exact h
          · exact h.trans (hij.trans k.symm)
          · exact h.trans (hij.symm.trans k.symm)
        · exact .inl
      · exact equivalent_snoc_other fun i j h => hu ⟨i, j, h⟩
    simp only [classes, this]

example : ¬ Equivalent [Op.union 0 1] 0 2 := by
  intro h
  have : ∀ a b, Equivalent [Op.union 0 1] a b → (a ≤ 1 ↔ b ≤ 1) := by
    intro a b h
    induction h with
    | rel a b h => simp at h; omega
    | refl => rfl
    | symm _ _ _ ih => exact ih.symm
    | trans _ _ _ _ _ i1 i2 => exact i1.trans i2
  have := this 0 2 h
  omega
example : ((run (Forest.new 5) [Op.union 0 1, .union 2 3, .union 1 3]).map Forest.numTrees)
    = some 2 := by decide

/-- C03: the listing of trees is the partition into classes: every index exactly once in
total, no empty tree, and two indices are in the same tree iff they are equivalent. -/
theorem C03_trees_partition (n : Nat) (ops : List Op) (hv : ∀ o ∈ ops, o.Valid n) :
    ∃ f f' sets, run (Forest.new n) ops = some f ∧ f.trees = some (f', sets) ∧
      sets.flatten.Perm (List.range n) ∧ [] ∉ sets ∧
      (∀ i j, i < n → j < n → ((∃ t ∈ sets, i ∈ t ∧ j ∈ t) ↔ Equivalent ops i j)) := by
  obtain ⟨f, R, rank, e, h, hc, hR⟩ := run_inv n ops hv
  obtain ⟨f', sets, e1, -, -, hp, hne, hk⟩ := trees_spec h
  rw [hc] at hp
  refine ⟨f, f', sets, e, e1, hp, hne, ?_⟩
  intro i j hi hj
  have loc : ∀ i, i < n → ∃ (k : Nat) (l : List Nat), sets[k]? = some l ∧ i ∈ l := by
    intro i hi
    have : i ∈ sets.flatten := hp.mem_iff.2 (List.mem_range.2 hi)
    obtain ⟨l, h1, h2⟩ := List.mem_flatten.1 this
    obtain ⟨k, hk⟩ := List.mem_iff_getElem?.1 h1
    exact ⟨k, l, hk, h2⟩
  rw [← hR i j hi hj]
  constructor
  · rintro ⟨t, ht, h1, h2⟩
    obtain ⟨k, hk'⟩ := List.mem_iff_getElem?.1 ht
    exact (hk k t k t hk' hk' i h1 j h2).1 rfl
  · intro hr
    obtain ⟨k, l, hl, h1⟩ := loc i hi
    obtain ⟨k', l', hl', h2⟩ := loc j hj
    have := (hk k l k' l' hl hl' i h1 j h2).2 hr
    subst this
    rw [hl] at hl'; cases hl'
    exact ⟨l, List.mem_of_getElem? hl, h1, h2⟩

example : ((run (Forest.new 5) [Op.union 0 1, .union 2 3, .union 1 3]).bind
    fun f => f.trees.map Prod.snd) = some [[0, 1, 2, 3], [4]] := by decide

end Verif.UnionFind
