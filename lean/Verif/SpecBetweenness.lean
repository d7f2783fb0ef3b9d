import Mathlib.Algebra.BigOperators.Group.Finset.Basic
import Mathlib.Algebra.Order.Field.Rat
import Mathlib.Data.Set.Card

/-!
# Specification of betweenness centrality

For a graph given by a relation `adj` on natural numbers and a finite set of nodes.
-/

namespace Candy.Betweenness

open Finset

/-- Neighbouring elements of the list are adjacent. -/
def Chain (adj : Nat → Nat → Prop) : List Nat → Prop
  | [] => True
  | [_] => True
  | a :: b :: p => adj a b ∧ Chain adj (b :: p)

/-- The list is a path from `s` to `t`. -/
def Path (adj : Nat → Nat → Prop) (s t : Nat) (p : List Nat) : Prop :=
  Chain adj p ∧ p.head? = some s ∧ p.getLast? = some t

/-- The list is a shortest path from `s` to `t`. -/
def Shortest (adj : Nat → Nat → Prop) (s t : Nat) (p : List Nat) : Prop :=
  Path adj s t p ∧ ∀ q, Path adj s t q → p.length ≤ q.length

/-- The number of shortest paths from `s` to `t`. -/
noncomputable def paths (adj : Nat → Nat → Prop) (s t : Nat) : Rat := ({p | Shortest adj s t p}.ncard : Rat)

/-- The number of shortest paths from `s` to `t` that contain `v`. -/
noncomputable def pathsThrough (adj : Nat → Nat → Prop) (s t v : Nat) : Rat := ({p | Shortest adj s t p ∧ v ∈ p}.ncard : Rat)

/-- The betweenness centrality of `v`: the sum over all pairs of different nodes `s` and `t`, both different from `v`, of
the fraction of the shortest paths from `s` to `t` that contain `v`. Pairs without path count zero (`0 / 0 = 0`). -/
noncomputable def centrality (adj : Nat → Nat → Prop) (nodes : Finset Nat) (v : Nat) : Rat :=
  ∑ s ∈ nodes.erase v, ∑ t ∈ (nodes.erase v).erase s, pathsThrough adj s t v / paths adj s t

end Candy.Betweenness
