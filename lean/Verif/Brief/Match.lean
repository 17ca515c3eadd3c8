import Verif.Brief.Model
import Mathlib.Tactic.Push
/-
Property theorem C72: matching of binary descriptors by locality sensitive hashing.
-/
namespace Verif.Brief
variable {T : Type _}

/-! ### Specification -/

/-- `e` falls into the same bucket as `q` in one of the tables. -/
def Collides (g : T → List Nat → Nat) (choices : List (List Nat)) (q e : T) : Prop :=
  ∃ bits ∈ choices, g e bits = g q bits

/-- `best` is a correct choice of match for the query `q` in the database. -/
def BestMatch (g : T → List Nat → Nat) (D : T → T → Nat) (choices : List (List Nat))
    (threshold : Nat) (database : List T) (q : T) : Option T → Prop
  | some c => c ∈ database ∧ D q c < threshold ∧
      ∀ e ∈ database, Collides g choices q e → D q c ≤ D q e
  | none => ∀ e ∈ database, Collides g choices q e → threshold ≤ D q e

/-! ### Hash tables -/

theorem lookup_insertPush (h k : Nat) (d : T) (t : List (Nat × List T)) :
    lookup h (insertPush k d t) =
      if h = k then some ((lookup k t).getD [] ++ [d]) else lookup h t := by
  induction t with
  | nil =>
    unfold insertPush lookup lookup
    by_cases hk : h = k
    · subst hk; simp
    · rw [if_neg (fun e => hk e.symm), if_neg hk]
  | cons a t ih =>
    obtain ⟨a, v⟩ := a
    unfold insertPush
    by_cases ha : a = k
    · subst ha
      rw [if_pos rfl]
      unfold lookup
      by_cases hk : h = a
      · subst hk; simp
      · rw [if_neg (fun e => hk e.symm), if_neg hk, if_neg (fun e => hk e.symm)]
    · rw [if_neg ha]
      unfold lookup
      rw [ih]
      by_cases hk : a = h
      · subst hk; rw [if_pos rfl, if_neg ha, if_pos rfl]
      · rw [if_neg hk, if_neg hk, if_neg ha]

theorem buildTable_spec {subset : T → List Nat → Option Nat} (g : T → List Nat → Nat)
    (database : List T) (bits : List Nat) (hs : ∀ d ∈ database, subset d bits = some (g d bits)) :
    ∃ t, buildTable subset database bits = some t ∧
      ∀ h e, e ∈ (lookup h t).getD [] ↔ e ∈ database ∧ g e bits = h := by
  unfold buildTable
  obtain ⟨t, h1, h2⟩ := forList_spec (f := fun d (t : List (Nat × List T)) =>
      (subset d bits).bind fun h => some (insertPush h d t))
    (fun pre t => ∀ h e, e ∈ (lookup h t).getD [] ↔ e ∈ pre ∧ g e bits = h) database [] []
    (by intro h e; simp [lookup])
    (by
      intro p a q t e ih
      rw [hs a (by rw [List.nil_append] at e; rw [e]; simp), Option.bind_some]
      refine ⟨_, rfl, fun h x => ?_⟩
      rw [lookup_insertPush]
      by_cases hk : h = g a bits
      · subst hk
        rw [if_pos rfl, Option.getD_some, List.mem_append, List.mem_append, ih, List.mem_singleton]
        constructor
        · rintro (⟨h1, h2⟩ | rfl)
          · exact ⟨Or.inl h1, h2⟩
          · exact ⟨Or.inr rfl, rfl⟩
        · rintro ⟨h1 | h1, h2⟩
          · exact Or.inl ⟨h1, h2⟩
          · exact Or.inr h1
      · rw [if_neg hk, ih, List.mem_append, List.mem_singleton]
        constructor
        · rintro ⟨h1, h2⟩; exact ⟨Or.inl h1, h2⟩
        · rintro ⟨h1 | rfl, h2⟩
          · exact ⟨h1, h2⟩
          · exact absurd h2.symm hk)
  exact ⟨t, h1, by simpa using h2⟩

theorem tables_spec {subset : T → List Nat → Option Nat} (g : T → List Nat → Nat)
    (database : List T) (choices : List (List Nat))
    (hs : ∀ bits ∈ choices, ∀ d ∈ database, subset d bits = some (g d bits)) :
    ∃ ts, (choices.mapM fun bits => (buildTable subset database bits).map fun t => (bits, t)) =
        some ts ∧ ts.map Prod.fst = choices ∧
      ∀ t ∈ ts, ∀ h e, e ∈ (lookup h t.2).getD [] ↔ e ∈ database ∧ g e t.1 = h := by
  induction choices with
  | nil => exact ⟨[], rfl, rfl, fun t ht => by simp at ht⟩
  | cons b bs ih =>
    obtain ⟨ts, h1, h2, h3⟩ := ih fun bits hb => hs bits (List.mem_cons_of_mem _ hb)
    obtain ⟨t, k1, k2⟩ := buildTable_spec g database b (hs b (by simp))
    refine ⟨(b, t) :: ts, ?_, by simp [h2], ?_⟩
    · rw [List.mapM_cons, k1, h1]; rfl
    · intro x hx
      rcases List.mem_cons.1 hx with rfl | hx
      · exact k2
      · exact h3 x hx

theorem candidatesOf_spec {subset : T → List Nat → Option Nat} (g : T → List Nat → Nat)
    (database : List T) (ts : List (List Nat × List (Nat × List T))) (q : T)
    (hq : ∀ t ∈ ts, subset q t.1 = some (g q t.1))
    (ht : ∀ t ∈ ts, ∀ h e, e ∈ (lookup h t.2).getD [] ↔ e ∈ database ∧ g e t.1 = h) :
    ∃ cs, candidatesOf subset ts q = some cs ∧
      ∀ e, e ∈ cs ↔ e ∈ database ∧ Collides g (ts.map Prod.fst) q e := by
  unfold candidatesOf
  obtain ⟨cs, h1, h2⟩ := forList_spec (f := fun (t : List Nat × List (Nat × List T)) (cs : List T) =>
      (subset q t.1).bind fun h => match lookup h t.2 with
        | some m => some (cs ++ m)
        | none => some cs)
    (fun pre cs => ∀ e, e ∈ cs ↔ e ∈ database ∧ Collides g (pre.map Prod.fst) q e) ts [] []
    (by intro e; simp [Collides])
    (by
      intro p a r cs e ih
      have ha : a ∈ ts := by rw [List.nil_append] at e; rw [e]; simp
      rw [hq a ha, Option.bind_some]
      have hm := ht a ha (g q a.1)
      have fin : ∀ (m : List T), (∀ e, e ∈ m ↔ e ∈ database ∧ g e a.1 = g q a.1) →
          ∀ e, e ∈ cs ++ m ↔ e ∈ database ∧ Collides g ((p ++ [a]).map Prod.fst) q e := by
        intro m hm e
        rw [List.mem_append, ih e, hm e]
        unfold Collides
        simp only [List.map_append, List.map_cons, List.map_nil, List.mem_append, List.mem_singleton]
        constructor
        · rintro (⟨h1, b, hb, h2⟩ | ⟨h1, h2⟩)
          · exact ⟨h1, b, Or.inl hb, h2⟩
          · exact ⟨h1, a.1, Or.inr rfl, h2⟩
        · rintro ⟨h1, b, hb | rfl, h2⟩
          · exact Or.inl ⟨h1, b, hb, h2⟩
          · exact Or.inr ⟨h1, h2⟩
      cases hl : lookup (g q a.1) a.2 with
      | some m =>
        rw [hl] at hm
        exact ⟨_, rfl, fin m hm⟩
      | none =>
        rw [hl] at hm
        exact ⟨_, rfl, by simpa using fin [] hm⟩)
  exact ⟨cs, h1, by simpa using h2⟩

theorem bestOf_spec {dist : T → T → Option Nat} (D : T → T → Nat) (maxScore : Nat) (q : T)
    (cs : List T) (hd : ∀ c ∈ cs, dist q c = some (D q c)) :
    ∃ s o, bestOf dist maxScore q cs = some (s, o) ∧
      (∀ c ∈ cs, s ≤ D q c) ∧ s ≤ maxScore ∧ (o = none → s = maxScore) ∧
      (∀ c, o = some c → c ∈ cs ∧ s = D q c) := by
  unfold bestOf
  obtain ⟨⟨s, o⟩, h1, h2⟩ := forList_spec (f := fun c (s : Nat × Option T) => (dist q c).bind fun d =>
      if d < s.1 then some (d, some c) else some s)
    (fun pre s => (∀ c ∈ pre, s.1 ≤ D q c) ∧ s.1 ≤ maxScore ∧ (s.2 = none → s.1 = maxScore) ∧
      (∀ c, s.2 = some c → c ∈ pre ∧ s.1 = D q c)) cs [] (maxScore, none)
    ⟨fun c h => by simp at h, Nat.le_refl _, fun _ => rfl, fun c h => by simp at h⟩
    (by
      rintro p a r ⟨s, o⟩ e ⟨i1, i2, i3, i4⟩
      dsimp only at *
      rw [hd a (by rw [List.nil_append] at e; rw [e]; simp), Option.bind_some]
      by_cases h : D q a < s
      · rw [if_pos h]
        refine ⟨_, rfl, ?_, (by dsimp only; omega), (fun hc => by simp at hc), ?_⟩
        · intro c hc
          rcases List.mem_append.1 hc with hc | hc
          · have := i1 c hc; dsimp only; omega
          · rw [List.mem_singleton.1 hc]; exact Nat.le_refl _
        · rintro c hc
          cases hc
          exact ⟨by simp, rfl⟩
      · rw [if_neg h]
        refine ⟨_, rfl, ?_, i2, i3, ?_⟩
        · intro c hc
          rcases List.mem_append.1 hc with hc | hc
          · exact i1 c hc
          · rw [List.mem_singleton.1 hc]; dsimp only; omega
        · intro c hc
          exact ⟨List.mem_append_left _ (i4 c hc).1, (i4 c hc).2⟩)
  exact ⟨s, o, h1, by simpa using h2⟩

/-! ### C72 -/

/-- The whole function: a best match is chosen for each query, and the matched queries are
reported in order. -/
theorem match_core {subset : T → List Nat → Option Nat} {dist : T → T → Option Nat}
    (g : T → List Nat → Nat) (D : T → T → Nat) (maxScore : Nat) (choices : List (List Nat))
    (d1 d2 : List T) (threshold : Nat) (ht : threshold ≤ maxScore)
    (hs : ∀ bits ∈ choices, ∀ d, d ∈ d1 ∨ d ∈ d2 → subset d bits = some (g d bits))
    (hd : ∀ a b, a ∈ d1 ∨ a ∈ d2 → b ∈ d1 ∨ b ∈ d2 → dist a b = some (D a b)) :
    ∃ best : T → Option T,
      (d1.length ≤ d2.length → (∀ q ∈ d1, BestMatch g D choices threshold d2 q (best q)) ∧
        matchDescriptors subset dist maxScore choices d1 d2 threshold =
          some (d1.filterMap fun q => (best q).map fun c => (q, c))) ∧
      (d2.length < d1.length → (∀ q ∈ d2, BestMatch g D choices threshold d1 q (best q)) ∧
        matchDescriptors subset dist maxScore choices d1 d2 threshold =
          some (d2.filterMap fun q => (best q).map fun c => (c, q))) := by
  classical
  -- a generic statement about one query list and database
  have core : ∀ (queries database : List T) (mk : T → T → T × T),
      (∀ x, x ∈ queries → x ∈ d1 ∨ x ∈ d2) → (∀ x, x ∈ database → x ∈ d1 ∨ x ∈ d2) →
      ∃ best : T → Option T, (∀ q ∈ queries, BestMatch g D choices threshold database q (best q)) ∧
        ((choices.mapM fun bits => (buildTable subset database bits).map fun t => (bits, t)).bind
          fun tables => forList queries [] fun q out =>
            (candidatesOf subset tables q).bind fun cs => (bestOf dist maxScore q cs).bind fun b =>
            if b.1 < threshold then b.2.bind fun c => some (out ++ [mk q c]) else some out) =
        some (queries.filterMap fun q => (best q).map fun c => mk q c) := by
    intro queries database mk hq hdb
    obtain ⟨ts, t1, t2, t3⟩ := tables_spec g database choices
      fun bits hb d hd => hs bits hb d (hdb d hd)
    rw [t1, Option.bind_some]
    have one : ∀ q ∈ queries, ∃ o : Option T, BestMatch g D choices threshold database q o ∧
        ∀ out : List (T × T), ((candidatesOf subset ts q).bind fun cs =>
          (bestOf dist maxScore q cs).bind fun b =>
            if b.1 < threshold then b.2.bind fun c => some (out ++ [mk q c]) else some out) =
        some (out ++ (o.map fun c => mk q c).toList) := by
      intro q hqm
      obtain ⟨cs, c1, c2⟩ := candidatesOf_spec g database ts q
        (fun t htm => hs _ (by rw [← t2]; exact List.mem_map_of_mem htm) q (hq q hqm)) t3
      rw [t2] at c2
      obtain ⟨s, o, b1, b2, b3, b4, b5⟩ := bestOf_spec D maxScore q cs
        fun c hc => hd q c (hq q hqm) (hdb c ((c2 c).1 hc).1)
      by_cases hlt : s < threshold
      · cases ho : o with
        | none => have := b4 ho; omega
        | some c =>
          obtain ⟨k1, k2⟩ := b5 c ho
          refine ⟨some c, ⟨((c2 c).1 k1).1, by omega, fun e he hce => ?_⟩, fun out => ?_⟩
          · have := b2 e ((c2 e).2 ⟨he, hce⟩); omega
          · rw [c1, Option.bind_some, b1, Option.bind_some, if_pos hlt, ho]
            rfl
      · refine ⟨none, fun e he hce => ?_, fun out => ?_⟩
        · have := b2 e ((c2 e).2 ⟨he, hce⟩); omega
        · rw [c1, Option.bind_some, b1, Option.bind_some, if_neg hlt]
          simp
    refine ⟨fun q => if h : q ∈ queries then (one q h).choose else none, ?_, ?_⟩
    · intro q hqm
      dsimp only
      rw [dif_pos hqm]
      exact (one q hqm).choose_spec.1
    · obtain ⟨out, k1, k2⟩ := forList_spec (f := fun q (out : List (T × T)) =>
          (candidatesOf subset ts q).bind fun cs => (bestOf dist maxScore q cs).bind fun b =>
            if b.1 < threshold then b.2.bind fun c => some (out ++ [mk q c]) else some out)
        (fun pre out => out = pre.filterMap fun q =>
          (if h : q ∈ queries then (one q h).choose else none).map fun c => mk q c) queries [] [] rfl
        (by
          rintro p a r out e rfl
          have ha : a ∈ queries := by rw [List.nil_append] at e; rw [e]; simp
          refine ⟨_, (one a ha).choose_spec.2 _, ?_⟩
          rw [List.filterMap_append]
          congr 1
          rw [List.filterMap_cons, dif_pos ha]
          cases (one a ha).choose <;> rfl)
      rw [k1, k2]
      rfl
  unfold matchDescriptors
  by_cases he : d1.isEmpty ∨ d2.isEmpty
  · refine ⟨fun _ => none, ?_⟩
    rw [if_pos he]
    simp only [List.isEmpty_iff] at he
    constructor
    · intro hl
      have h1 : d1 = [] := by
        rcases he with h | h
        · exact h
        · rw [h] at hl; exact List.length_eq_zero_iff.1 (by simpa using hl)
      subst h1
      exact ⟨fun q hq => by simp at hq, by simp⟩
    · intro hl
      have h1 : d2 = [] := by
        rcases he with h | h
        · rw [h] at hl; simp at hl
        · exact h
      subst h1
      exact ⟨fun q hq => by simp at hq, by simp⟩
  · rw [if_neg he]
    by_cases hl : d2.length < d1.length
    · obtain ⟨best, h1, h2⟩ := core d2 d1 (fun q c => (c, q)) (fun x h => Or.inr h) (fun x h => Or.inl h)
      refine ⟨best, fun h => by omega, fun _ => ⟨h1, ?_⟩⟩
      simp only [hl, decide_true, if_true]
      exact h2
    · obtain ⟨best, h1, h2⟩ := core d1 d2 (fun q c => (q, c)) (fun x h => Or.inl h) (fun x h => Or.inr h)
      refine ⟨best, fun _ => ⟨h1, ?_⟩, fun h => by omega⟩
      simp only [hl, decide_false]
      exact h2

section
variable {subset : T → List Nat → Option Nat} {dist : T → T → Option Nat}
    (g : T → List Nat → Nat) (D : T → T → Nat) (maxScore : Nat) (choices : List (List Nat))
    (d1 d2 : List T) (threshold : Nat) (ht : threshold ≤ maxScore)
    (hs : ∀ bits ∈ choices, ∀ d, d ∈ d1 ∨ d ∈ d2 → subset d bits = some (g d bits))
    (hd : ∀ a b, a ∈ d1 ∨ a ∈ d2 → b ∈ d1 ∨ b ∈ d2 → dist a b = some (D a b))
include g D ht hs hd

/-- **C72** (first part, in full): whatever the random choices, the matching succeeds and every
returned pair consists of an element of the first list and an element of the second list at
distance below the threshold. -/
theorem C72_pairs (hsym : ∀ a b, D a b = D b a) :
    ∃ out, matchDescriptors subset dist maxScore choices d1 d2 threshold = some out ∧
      ∀ p ∈ out, p.1 ∈ d1 ∧ p.2 ∈ d2 ∧ D p.1 p.2 < threshold := by
  obtain ⟨best, h1, h2⟩ := match_core g D maxScore choices d1 d2 threshold ht hs hd
  by_cases hl : d1.length ≤ d2.length
  · obtain ⟨k1, k2⟩ := h1 hl
    refine ⟨_, k2, fun p hp => ?_⟩
    obtain ⟨q, hq, e⟩ := List.mem_filterMap.1 hp
    obtain ⟨c, hc, rfl⟩ := Option.map_eq_some_iff.1 e
    have := k1 q hq
    rw [hc] at this
    exact ⟨hq, this.1, this.2.1⟩
  · obtain ⟨k1, k2⟩ := h2 (by omega)
    refine ⟨_, k2, fun p hp => ?_⟩
    obtain ⟨q, hq, e⟩ := List.mem_filterMap.1 hp
    obtain ⟨c, hc, rfl⟩ := Option.map_eq_some_iff.1 e
    have := k1 q hq
    rw [hc] at this
    exact ⟨this.1, hq, by rw [hsym]; exact this.2.1⟩

/-- **C72** (second part, when the first list is not longer than the second): each position of
the first list is used at most once, in order.  Missing for the full statement: longer first
lists, where it is false (`C72_negation`); there the second list plays this role. -/
theorem C72_once_partial :
    ∃ out, matchDescriptors subset dist maxScore choices d1 d2 threshold = some out ∧
      (d1.length ≤ d2.length → (out.map Prod.fst).Sublist d1) ∧
      (d2.length < d1.length → (out.map Prod.snd).Sublist d2) := by
  have sub : ∀ (l : List T) (best : T → Option T),
      ((l.filterMap fun q => (best q).map fun c => (q, c)).map Prod.fst).Sublist l ∧
      ((l.filterMap fun q => (best q).map fun c => (c, q)).map Prod.snd).Sublist l := by
    intro l best
    induction l with
    | nil => simp
    | cons a l ih =>
      rw [List.filterMap_cons, List.filterMap_cons]
      cases best a with
      | none => exact ⟨ih.1.cons _, ih.2.cons _⟩
      | some c => exact ⟨ih.1.cons_cons _, ih.2.cons_cons _⟩
  obtain ⟨best, h1, h2⟩ := match_core g D maxScore choices d1 d2 threshold ht hs hd
  by_cases hl : d1.length ≤ d2.length
  · obtain ⟨-, k2⟩ := h1 hl
    exact ⟨_, k2, fun _ => (sub d1 best).1, fun h => by omega⟩
  · obtain ⟨-, k2⟩ := h2 (by omega)
    exact ⟨_, k2, fun h => by omega, fun _ => (sub d2 best).2⟩

/-- **C72.** The reported match of a query is at least as close as every database element in the
same bucket of some table, and a query is left out only if no such element is below the
threshold (first list not longer than the second). -/
theorem C72_best (hl : d1.length ≤ d2.length) :
    ∃ best : T → Option T,
      matchDescriptors subset dist maxScore choices d1 d2 threshold =
        some (d1.filterMap fun q => (best q).map fun c => (q, c)) ∧
      ∀ q ∈ d1, BestMatch g D choices threshold d2 q (best q) := by
  obtain ⟨best, h1, -⟩ := match_core g D maxScore choices d1 d2 threshold ht hs hd
  exact ⟨best, (h1 hl).2, (h1 hl).1⟩

/-- **C72.** Exact duplicates are always found: if the second list contains a descriptor at
distance zero with the same bits as a query of the first list, the query is matched at distance
zero, whatever the random choices. -/
theorem C72_exact (hl : d1.length ≤ d2.length) (hc : choices ≠ []) (hpos : 0 < threshold)
    (q e : T) (hq : q ∈ d1) (he : e ∈ d2) (hbits : ∀ bits ∈ choices, g e bits = g q bits)
    (h0 : D q e = 0) :
    ∃ out c, matchDescriptors subset dist maxScore choices d1 d2 threshold = some out ∧
      (q, c) ∈ out ∧ D q c = 0 := by
  obtain ⟨best, h1, h2⟩ := C72_best g D maxScore choices d1 d2 threshold ht hs hd hl
  obtain ⟨b, hb⟩ := List.exists_mem_of_ne_nil choices hc
  have hcol : Collides g choices q e := ⟨b, hb, hbits b hb⟩
  have := h2 q hq
  cases hbq : best q with
  | none =>
    rw [hbq] at this
    have := this e he hcol
    omega
  | some c =>
    rw [hbq] at this
    have := this.2.2 e he hcol
    exact ⟨_, c, h1, List.mem_filterMap.2 ⟨q, hq, by rw [hbq]; rfl⟩, by omega⟩

/-- **C72.** With a single element in the second list (hash length zero) the match is the true
nearest neighbour. -/
theorem C72_nearest (hl : d1.length ≤ d2.length) (hc : [] ∈ choices)
    (hg : ∀ a b, g a [] = g b []) :
    ∃ best : T → Option T,
      matchDescriptors subset dist maxScore choices d1 d2 threshold =
        some (d1.filterMap fun q => (best q).map fun c => (q, c)) ∧
      ∀ q ∈ d1, (∀ c, best q = some c → ∀ e ∈ d2, D q c ≤ D q e) ∧
        (best q = none → ∀ e ∈ d2, threshold ≤ D q e) := by
  obtain ⟨best, h1, h2⟩ := C72_best g D maxScore choices d1 d2 threshold ht hs hd hl
  refine ⟨best, h1, fun q hq => ?_⟩
  have := h2 q hq
  constructor
  · intro c hb e he
    rw [hb] at this
    exact this.2.2 e he ⟨[], hc, hg _ _⟩
  · intro hb e he
    rw [hb] at this
    exact this e he ⟨[], hc, hg _ _⟩

end

/-- **C72**, negation of the second part: with three descriptors against two equal ones, the same
(distinct) descriptor of the first list is reported twice, whatever bits are chosen. -/
theorem C72_negation :
    ∃ (d1 d2 : List Desc), d1.Nodup ∧ ∀ bits : List Nat, bits.length = 1 → (∀ b ∈ bits, b < 128) →
      ∃ out, matchDescriptors getBitSubset hammingDistance (2 ^ 32 - 1) [bits, bits, bits] d1 d2 10 =
        some out ∧ ¬ (out.map Prod.fst).Nodup := by
  refine ⟨[⟨[0], (0, 0)⟩, ⟨[2 ^ 64 - 1], (1, 0)⟩, ⟨[2 ^ 128 - 2 ^ 64], (2, 0)⟩],
    [⟨[0], (5, 5)⟩, ⟨[0], (6, 6)⟩], by decide, ?_⟩
  intro bits hl hb
  obtain ⟨b, rfl⟩ := List.length_eq_one_iff.1 hl
  have hb := hb b (by simp)
  have key : ∀ b : Fin 128,
      matchDescriptors getBitSubset hammingDistance (2 ^ 32 - 1) [[b.val], [b.val], [b.val]]
        [⟨[0], (0, 0)⟩, ⟨[2 ^ 64 - 1], (1, 0)⟩, ⟨[2 ^ 128 - 2 ^ 64], (2, 0)⟩]
        [⟨[0], (5, 5)⟩, ⟨[0], (6, 6)⟩] 10 =
      some [(⟨[0], (0, 0)⟩, ⟨[0], (5, 5)⟩), (⟨[0], (0, 0)⟩, ⟨[0], (6, 6)⟩)] := by decide +kernel
  exact ⟨_, key ⟨b, hb⟩, by decide⟩

end Verif.Brief
