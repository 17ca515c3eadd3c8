import Verif.UnionFind.Model
import Mathlib.Logic.Relation
import Mathlib.Data.Finset.Card
import Mathlib.Data.Finset.Image
/-
Specification of union-find: the equivalence closure of the unions in the history.
Uses only `Op` (the calls) from the model.
-/
namespace Verif.UnionFind

/-- All indices of a call are below `n`. -/
def Op.Valid (n : Nat) : Op → Prop
  | .root i => i < n
  | .find i j => i < n ∧ j < n
  | .union i j => i < n ∧ j < n
  | .trees => True

/-- Smallest equivalence relation containing every pair passed to `union`. -/
def Equivalent (ops : List Op) : Nat → Nat → Prop :=
  Relation.EqvGen fun a b => Op.union a b ∈ ops

open Classical in
/-- The classes of `{0..n-1}` under `Equivalent ops`, as sets. -/
noncomputable def classes (n : Nat) (ops : List Op) : Finset (Finset Nat) :=
  (Finset.range n).image fun i => (Finset.range n).filter fun j => Equivalent ops i j

end Verif.UnionFind
