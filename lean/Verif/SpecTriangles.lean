import Mathlib.Data.Finset.Prod
import Mathlib.Data.Finset.Card
import Mathlib.Data.Nat.Choose.Basic
import Mathlib.Data.Rat.Defs

/-!
# Specification of triangles and wedges in a graph

The nodes are `0 .. n - 1`, `R a b` says that there is an edge from `a` to `b`; the direction of edges is ignored.
-/

namespace Candy.Triangles

/-- There is an edge between `a` and `b`, in any direction. -/
def Near (R : Nat → Nat → Prop) (a b : Nat) : Prop := R a b ∨ R b a

open Classical in
/-- Number of neighbours of `u`, without `u` itself. -/
noncomputable def degree (n : Nat) (R : Nat → Nat → Prop) (u : Nat) : Nat := ((Finset.range n).filter fun a => a ≠ u ∧ Near R u a).card

open Classical in
/-- Number of triangles with the node `u`. -/
noncomputable def trianglesAt (n : Nat) (R : Nat → Nat → Prop) (u : Nat) : Nat :=
  ((Finset.range n ×ˢ Finset.range n).filter fun p => p.1 < p.2 ∧ p.1 ≠ u ∧ p.2 ≠ u ∧ Near R u p.1 ∧ Near R u p.2 ∧ Near R p.1 p.2).card

open Classical in
/-- Number of triangles with nodes in `C`. -/
noncomputable def triangleCount (n : Nat) (R : Nat → Nat → Prop) (C : Nat → Bool) : Nat :=
  ((Finset.range n ×ˢ Finset.range n ×ˢ Finset.range n).filter fun p => p.1 < p.2.1 ∧ p.2.1 < p.2.2 ∧
    C p.1 = true ∧ C p.2.1 = true ∧ C p.2.2 = true ∧ Near R p.1 p.2.1 ∧ Near R p.1 p.2.2 ∧ Near R p.2.1 p.2.2).card

/-- Number of wedges (pairs of neighbours of a node) around the nodes of `C`. -/
noncomputable def wedgeCount (n : Nat) (R : Nat → Nat → Prop) (C : Nat → Bool) : Nat :=
  (((List.range n).filter fun u => C u).map fun u => (degree n R u).choose 2).sum

/-- Clustering coefficient of a node: the part of the pairs of its neighbours that are neighbours. -/
noncomputable def localCoefficient (n : Nat) (R : Nat → Nat → Prop) (u : Nat) : Rat :=
  if degree n R u < 2 then 0 else (trianglesAt n R u : Rat) / ((degree n R u).choose 2 : Rat)

/-- No edge leaves `C`, as for components. -/
def Closed (R : Nat → Nat → Prop) (C : Nat → Bool) : Prop := ∀ a b, Near R a b → C a = true → C b = true

end Candy.Triangles
