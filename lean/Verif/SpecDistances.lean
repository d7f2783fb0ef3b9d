import Verif.SpecDistance
import Mathlib.Algebra.BigOperators.Group.Finset.Basic
import Mathlib.Data.Finset.Prod

/-!
# Specification of numbers and sums of distances in a directed graph

For a graph with nodes `0 .. n - 1`, given by the lists `out` of the nodes its edges lead to.
-/

namespace Candy.Dst

open Distance

/-- There is an edge from `v` to `w`. -/
def Edge (out : Nat → List Nat) (v w : Nat) : Prop := w ∈ out v

/-- The edges lead to nodes. -/
def Listed (n : Nat) (out : Nat → List Nat) : Prop := ∀ v < n, ∀ w ∈ out v, w < n

/-- `x` is the distance from `u` to `w`, or -1 if there is no path. -/
def IsDistance (out : Nat → List Nat) (u w : Nat) (x : Int) : Prop :=
  (∃ k : Nat, x = k ∧ IsDist (Edge out) u w k) ∨ (x = -1 ∧ ∀ k, ¬ IsDist (Edge out) u w k)

open Classical in
/-- Number of the nodes in distance `k` from `u`. -/
noncomputable def level (n : Nat) (out : Nat → List Nat) (u k : Nat) : Nat :=
  ((Finset.range n).filter fun w => IsDist (Edge out) u w k).card

open Classical in
/-- Number of the pairs of nodes in distance `k`, the first one from `C`. -/
noncomputable def pairs (n : Nat) (out : Nat → List Nat) (C : Nat → Bool) (k : Nat) : Nat :=
  ((Finset.range n ×ˢ Finset.range n).filter fun p => C p.1 = true ∧ IsDist (Edge out) p.1 p.2 k).card

open Classical in
/-- The distance from `u` to `w`, or 0 if there is no path. -/
noncomputable def dist (out : Nat → List Nat) (u w : Nat) : Nat :=
  if h : ∃ k, IsDist (Edge out) u w k then h.choose else 0

/-- The sum of the distances from the nodes of `C`. -/
noncomputable def total (n : Nat) (out : Nat → List Nat) (C : Nat → Bool) : Nat :=
  ∑ u ∈ (Finset.range n).filter (fun u => C u = true), ∑ w ∈ Finset.range n, dist out u w

/-- Number of the nodes of `C`. -/
def count (n : Nat) (C : Nat → Bool) : Nat := ((Finset.range n).filter fun u => C u = true).card

end Candy.Dst
