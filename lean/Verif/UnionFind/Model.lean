import Verif.Basic.Loop
/-
Model of `/repo/src/union_find.rs`.

Simplifications: `usize` is `Nat`; the two `Vec`s are functions together with `count`
(both vectors have length `count`).  `get_unchecked` with an index `≥ count` is undefined
behaviour in Rust and is `none` here, so a result `some _` includes memory safety.
-/
namespace Verif.UnionFind

/-- `DisjointSetForest`, union_find.rs:4-13. -/
structure Forest where
  count : Nat
  parent : Nat → Nat
  size : Nat → Nat

/-- `DisjointSetForest::new`, union_find.rs:17-25. -/
def Forest.new (n : Nat) : Forest := ⟨n, fun i => i, fun _ => 1⟩

/-- `vec[i] = v` on a vector modelled as a function. -/
def upd (f : Nat → Nat) (i v : Nat) : Nat → Nat := fun k => if k = i then v else f k

/-- `num_trees`, union_find.rs:28-33: counts the indices that are their own parent. -/
def Forest.numTrees (f : Forest) : Nat :=
  (List.range f.count).foldl (fun acc i => acc + if i = f.parent i then 1 else 0) 0

/-- The `loop` in `root`, union_find.rs:40-49, with fuel; out of fuel is `none`.
Each iteration reads `parent[j]`, then writes the grandparent into `parent[j]`. -/
def rootLoop : Nat → Forest → Nat → Option (Forest × Nat)
  | 0, _, _ => none
  | n + 1, f, j =>
    if j < f.count ∧ f.parent j < f.count then
      let p := f.parent j
      let f' := { f with parent := upd f.parent j (f.parent p) }
      if j = p then some (f', j) else rootLoop n f' p
    else none

/-- `root`, union_find.rs:37-51.  The fuel `count + 1` is justified by
`rootLoop_mono` (more fuel never changes a result) and by the totality theorem. -/
def Forest.root (f : Forest) (i : Nat) : Option (Forest × Nat) :=
  if i < f.count then rootLoop (f.count + 1) f i else none

/-- `find`, union_find.rs:55-58. -/
def Forest.find (f : Forest) (i j : Nat) : Option (Forest × Bool) :=
  if i < f.count ∧ j < f.count then
    (f.root i).bind fun (f1, p) => (f1.root j).bind fun (f2, q) => some (f2, p == q)
  else none

/-- `union`, union_find.rs:61-79. -/
def Forest.union (f : Forest) (i j : Nat) : Option Forest :=
  if i < f.count ∧ j < f.count then
    (f.root i).bind fun (f1, p) => (f1.root j).bind fun (f2, q) =>
      if p = q then some f2
      else
        let pSize := f2.size p
        let qSize := f2.size q
        if pSize < qSize then
          some { f2 with parent := upd f2.parent p q, size := upd f2.size q (pSize + qSize) }
        else
          some { f2 with parent := upd f2.parent q p, size := upd f2.size p (pSize + qSize) }
  else none

/-- State of the loop in `trees`: forest, `root_sets` (a `HashMap` as a partial function)
and `sets`. -/
structure TreesState where
  forest : Forest
  rootSets : Nat → Option Nat
  sets : List (List Nat)

/-- Body of the loop in `trees`, union_find.rs:91-102. -/
def treesStep (i : Nat) (s : TreesState) : Option TreesState :=
  (s.forest.root i).bind fun (f, root) =>
    match s.rootSets root with
    | some idx =>
      if idx < s.sets.length then
        some ⟨f, s.rootSets, s.sets.modify idx (· ++ [i])⟩
      else none
    | none =>
      some ⟨f, fun k => if k = root then some s.sets.length else s.rootSets k, s.sets ++ [[i]]⟩

/-- `trees`, union_find.rs:82-105. -/
def Forest.trees (f : Forest) : Option (Forest × List (List Nat)) :=
  (forRange 0 f.count (⟨f, fun _ => none, []⟩ : TreesState) treesStep).bind
    fun s => some (s.forest, s.sets)

/-- One call on the public interface. -/
inductive Op where
  | root (i : Nat)
  | find (i j : Nat)
  | union (i j : Nat)
  | trees
  deriving Repr, DecidableEq

/-- Effect of one call on the state. -/
def step (f : Forest) : Op → Option Forest
  | .root i => (f.root i).map Prod.fst
  | .find i j => (f.find i j).map Prod.fst
  | .union i j => f.union i j
  | .trees => f.trees.map Prod.fst

/-- Effect of a history of calls. -/
def run (f : Forest) (ops : List Op) : Option Forest := forList ops f fun o f => step f o

end Verif.UnionFind
