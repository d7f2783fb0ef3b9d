import Verif.SpecBetweenness

/-!
# Specification of distances and extreme distances in a graph

For a graph given by a relation `adj` on natural numbers, and a set `C` of nodes.
-/

namespace Candy.Distance

open Betweenness

/-- The distance from `s` to `t` is `k`: a shortest path has `k + 1` nodes. -/
def IsDist (adj : Nat → Nat → Prop) (s t k : Nat) : Prop := ∃ p, Shortest adj s t p ∧ p.length = k + 1

/-- The eccentricity of `s` is `k`: the largest of the distances to the nodes that can be reached. -/
def IsEcc (adj : Nat → Nat → Prop) (s k : Nat) : Prop := (∃ t, IsDist adj s t k) ∧ ∀ t j, IsDist adj s t j → j ≤ k

/-- The diameter of `C` is `k`: the largest of the eccentricities of its nodes. -/
def IsDiameter (adj : Nat → Nat → Prop) (C : Nat → Prop) (k : Nat) : Prop :=
  (∃ s, C s ∧ IsEcc adj s k) ∧ ∀ s j, C s → IsEcc adj s j → j ≤ k

/-- The radius of `C` is `k`: the least of the eccentricities of its nodes. -/
def IsRadius (adj : Nat → Nat → Prop) (C : Nat → Prop) (k : Nat) : Prop :=
  (∃ s, C s ∧ IsEcc adj s k) ∧ ∀ s j, C s → IsEcc adj s j → k ≤ j

/-- The nodes of `C` the eccentricity of which is the diameter. -/
def periphery (adj : Nat → Nat → Prop) (C : Nat → Prop) : Set Nat := {s | C s ∧ ∃ k, IsDiameter adj C k ∧ IsEcc adj s k}

/-- The nodes of `C` the eccentricity of which is the radius. -/
def center (adj : Nat → Nat → Prop) (C : Nat → Prop) : Set Nat := {s | C s ∧ ∃ k, IsRadius adj C k ∧ IsEcc adj s k}

/-- Lists of neighbours of an undirected graph with nodes `0 .. n - 1`, without loops, in which every node has a neighbour. -/
structure Network (n : Nat) (nbr : Nat → List Nat) : Prop where
  nonempty : 0 < n
  nodes : ∀ v < n, (nbr v).Nodup ∧ (∀ w ∈ nbr v, w < n) ∧ nbr v ≠ []
  symm : ∀ a b, a ∈ nbr b → b ∈ nbr a
  noLoop : ∀ v, v ∉ nbr v

/-- `C` is a star with at least two leaves: one of at least three nodes is the only neighbour of all others. -/
def IsStar (adj : Nat → Nat → Prop) (C : Nat → Prop) : Prop :=
  (∃ c, C c ∧ ∀ v, C v → v ≠ c → ∀ w, adj v w ↔ w = c) ∧ ∃ a b c, C a ∧ C b ∧ C c ∧ a ≠ b ∧ b ≠ c ∧ a ≠ c

end Candy.Distance
