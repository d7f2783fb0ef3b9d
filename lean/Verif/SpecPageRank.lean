import Mathlib.Algebra.BigOperators.Group.Finset.Basic
import Mathlib.Data.Rat.Defs
import Mathlib.Algebra.Order.Ring.Rat

/-!
# Specification of PageRank

The nodes are `0 .. n - 1`, `out v` are the ends of the edges that start in `v`, parallel edges are repeated; `d` is the damping factor.
-/

namespace Candy.PageRank

open Finset

/-- The part of its value that node `u` passes to `v`. -/
def share (out : Nat → List Nat) (u v : Nat) : Rat := ((out u).count v : Rat) / ((out u).length : Rat)

/-- The right side of the equations of PageRank. -/
def step (n : Nat) (out : Nat → List Nat) (d : Rat) (x : Nat → Rat) (v : Nat) : Rat :=
  (1 - d) / n + d * ∑ u ∈ range n, x u * share out u v

/-- The values after `k` rounds, starting with the same value for every node. -/
def rank (n : Nat) (out : Nat → List Nat) (d : Rat) : Nat → Nat → Rat
  | 0 => fun _ => 1 / n
  | k + 1 => step n out d (rank n out d k)

/-- A solution of the equations. -/
def Solution (n : Nat) (out : Nat → List Nat) (d : Rat) (x : Nat → Rat) : Prop := ∀ v < n, x v = step n out d x v

end Candy.PageRank
