import Mathlib.Logic.Relation

/-!
# Specification of strongly connected components

For a directed graph with nodes `0 .. n - 1`, given by the lists `out` of the heads of outgoing edges and `inn` of the tails
of incoming edges.
-/

namespace Candy.Scc

/-- There is a path from `u` to `v`, possibly without edges. -/
def Reach (out : Nat → List Nat) (u v : Nat) : Prop := Relation.ReflTransGen (fun a b => b ∈ out a) u v

/-- There are paths in both directions. -/
def Strong (out : Nat → List Nat) (u v : Nat) : Prop := Reach out u v ∧ Reach out v u

/-- The lists describe the same edges, between nodes, and every node has an edge. -/
structure Digraph (n : Nat) (out inn : Nat → List Nat) : Prop where
  edges : ∀ a b, (out a).count b = (inn b).count a
  nodes : ∀ a b, b ∈ out a → a < n ∧ b < n
  used : ∀ v < n, out v ≠ [] ∨ inn v ≠ []
  nonempty : 0 < n

/-- The number of nodes with property `C`. -/
def size (n : Nat) (C : Nat → Bool) : Nat := (List.range n).countP C

/-- The number of edges between nodes with property `C`, counted at their heads. -/
def inner (n : Nat) (inn : Nat → List Nat) (C : Nat → Bool) : Nat :=
  ((List.range n).map fun b => if C b then (inn b).countP C else 0).sum

end Candy.Scc
