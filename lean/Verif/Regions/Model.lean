import Verif.Basic.Image
import Verif.UnionFind.Model
/-
Model of `/repo/src/region_labelling.rs` (`connected_components`).

Simplifications: labels are `Nat` (they stay below 2^32 because the image has fewer than
2^32 pixels).  `unsafe_get_pixel`/`unsafe_put_pixel`/`get_unchecked` out of range are
undefined behaviour in Rust and `none` here, like a panic.
-/
namespace Verif.Regions
open Verif.UnionFind

/-- `Connectivity`, region_labelling.rs:11-20. -/
inductive Conn where
  | four
  | eight
  deriving DecidableEq, Repr

variable {α : Type _} [DecidableEq α]

/-- The repeated block "if pixel at the neighbour equals current, push its label",
region_labelling.rs:159-164, 169-174, 179-184, 188-193. -/
def adjLabel (im : Image α) (out : Image Nat) (cur : α) (x y : Nat) : Option (List Nat) :=
  (im.get x y).bind fun p => if p = cur then (out.get x y).map fun l => [l] else some []

/-- Collecting `adj_labels[0..num_adj]`, region_labelling.rs:155-196. -/
def adjLabels (im : Image α) (out : Image Nat) (conn : Conn) (cur : α) (x y : Nat) :
    Option (List Nat) :=
  (if 0 < x then adjLabel im out cur (x - 1) y else some []).bind fun west =>
  (if 0 < y then adjLabel im out cur x (y - 1) else some []).bind fun north =>
  (if 0 < y ∧ conn = .eight ∧ 0 < x then adjLabel im out cur (x - 1) (y - 1)
    else some []).bind fun nw =>
  (if 0 < y ∧ conn = .eight ∧ x < im.w - 1 then adjLabel im out cur (x + 1) (y - 1)
    else some []).bind fun ne =>
  some (west ++ north ++ nw ++ ne)

/-- State of the first pass. -/
structure S1 where
  out : Image Nat
  forest : Forest
  next : Nat

/-- Body of the first pass, region_labelling.rs:150-214. -/
def pass1 (im : Image α) (conn : Conn) (bg : α) (x y : Nat) (s : S1) : Option S1 :=
  (im.get x y).bind fun cur =>
  if cur = bg then some s
  else
    (adjLabels im s.out conn cur x y).bind fun adj =>
    if adj = [] then
      (s.out.put x y s.next).bind fun out => some ⟨out, s.forest, s.next + 1⟩
    else
      let minLabel := adj.foldl min (2 ^ 32 - 1)
      (s.out.put x y minLabel).bind fun out =>
      (forList adj s.forest fun l f => f.union minLabel l).bind fun forest =>
      some ⟨out, forest, s.next⟩

/-- State of the second pass. -/
structure S2 where
  out : Image Nat
  forest : Forest
  labels : Nat → Nat
  count : Nat

/-- Body of the second pass, region_labelling.rs:225-238 (`output_labels` has
`image_size` entries). -/
def pass2 (im : Image α) (bg : α) (x y : Nat) (s : S2) : Option S2 :=
  (im.get x y).bind fun cur =>
  if cur = bg then some s
  else
    (s.out.get x y).bind fun label =>
    (s.forest.root label).bind fun (forest, root) =>
    if root < im.w * im.h then
      let old := s.labels root
      let o := if old < 1 then s.count else old
      let count := if old < 1 then s.count + 1 else s.count
      (s.out.put x y o).bind fun out => some ⟨out, forest, upd s.labels root o, count⟩
    else none

/-- `connected_components`, region_labelling.rs:122-244. -/
def connectedComponents (im : Image α) (conn : Conn) (bg : α) : Option (Image Nat) :=
  if 2 ^ 32 ≤ im.w * im.h then none
  else if im.w = 0 ∨ im.h = 0 then some (Image.new im.w im.h 0)
  else
    (forYX 0 im.h 0 im.w (⟨Image.new im.w im.h 0, Forest.new (im.w * im.h), 1⟩ : S1)
      (pass1 im conn bg)).bind fun s =>
    (forYX 0 im.h 0 im.w (⟨s.out, s.forest, fun _ => 0, 1⟩ : S2) (pass2 im bg)).bind fun s2 =>
    some s2.out

end Verif.Regions
