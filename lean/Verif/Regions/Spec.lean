import Verif.Regions.Model
import Mathlib.Logic.Relation
/- Specification of connected components: neighbourhood, paths, raster order. -/
namespace Verif.Regions
variable {α : Type _}

/-- Two pixel positions are 4-neighbours: they differ by one step along one axis. -/
def N4 (p q : Nat × Nat) : Prop :=
  ((p.1 : Int) - q.1).natAbs + ((p.2 : Int) - q.2).natAbs = 1

/-- Two pixel positions are 8-neighbours. -/
def N8 (p q : Nat × Nat) : Prop :=
  p ≠ q ∧ ((p.1 : Int) - q.1).natAbs ≤ 1 ∧ ((p.2 : Int) - q.2).natAbs ≤ 1

/-- Neighbourhood selected by the connectivity option. -/
def Neighbours : Conn → Nat × Nat → Nat × Nat → Prop
  | .four => N4
  | .eight => N8

/-- One step between neighbouring in-bounds pixels of equal colour. -/
def Step (im : Image α) (c : Conn) (p q : Nat × Nat) : Prop :=
  im.InB p.1 p.2 ∧ im.InB q.1 q.2 ∧ Neighbours c p q ∧ im.px p.1 p.2 = im.px q.1 q.2

/-- There is a path of equal-coloured neighbouring pixels from `p` to `q`. -/
def Connected (im : Image α) (c : Conn) : Nat × Nat → Nat × Nat → Prop :=
  Relation.ReflTransGen (Step im c)

/-- Raster order. -/
def Before (p q : Nat × Nat) : Prop := p.2 < q.2 ∨ (p.2 = q.2 ∧ p.1 < q.1)

end Verif.Regions
