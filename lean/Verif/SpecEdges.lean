import Mathlib.Data.Finset.Prod
import Mathlib.Data.Finset.Card

/-!
# Specification of numbers of edges in a directed graph

The nodes are `0 .. n - 1`, `R a b` says that there is an edge from `a` to `b`.
-/

namespace Candy.EdgeList

open Classical in
/-- Number of the edges that start in `C`; parallel edges are one edge. -/
noncomputable def edgesFrom (n : Nat) (R : Nat → Nat → Prop) (C : Nat → Bool) : Nat :=
  ((Finset.range n ×ˢ Finset.range n).filter fun p => C p.1 = true ∧ R p.1 p.2).card

open Classical in
/-- Number of those for which there is also an edge in the other direction. -/
noncomputable def mutualFrom (n : Nat) (R : Nat → Nat → Prop) (C : Nat → Bool) : Nat :=
  ((Finset.range n ×ˢ Finset.range n).filter fun p => C p.1 = true ∧ R p.1 p.2 ∧ R p.2 p.1).card

/-- Calls of a user of a graph: an edge between two names is added (`rtl` is the order of evaluation of arguments), the graph is
made undirected, edges are sorted, it is asked whether there is an edge. -/
inductive Op
  | add (rtl : Bool) (a b : Nat)
  | undirect
  | sort
  | query (a b : Nat)

/-- The edges between names after a call. -/
def edgesAfter (R : Nat → Nat → Prop) : Op → Nat → Nat → Prop
  | .add _ a b => fun x y => R x y ∨ (x = a ∧ y = b)
  | .undirect => fun x y => R x y ∨ R y x
  | .sort => R
  | .query _ _ => R

end Candy.EdgeList
