import Verif.Model.Trail
import Mathlib.Algebra.Order.Ring.Rat

/-!
# Model of PageRank (src/candy/teexgraph/CenGraph.cpp:263-302)

`double` are rational numbers, and the quotient of a number and zero, which is not used, is zero. The error and the range of values are only
printed and are left out. `none` is an access outside of a vector with `n` elements.
-/

namespace Candy.PageRank

/-- The loop over the neighbours of a node, CenGraph.cpp:281-282. -/
def give (n : Nat) (value : Rat) (out : List Nat) (t : Nat → Rat) : Option (Nat → Rat) :=
  out.foldlM (fun t w => if w < n then some (upd t w (t w + value)) else none) t

/-- The loop over the nodes, CenGraph.cpp:278-283. -/
def giveAll (n : Nat) (out : Nat → List Nat) (c : Nat → Rat) : Option (Nat → Rat) :=
  (List.range n).foldlM (fun t i => give n (c i / ((out i).length : Rat)) (out i) t) fun _ => 0

/-- The second loop over the nodes, CenGraph.cpp:289-294. -/
def damp (n : Nat) (d : Rat) (t c : Nat → Rat) : Nat → Rat :=
  (List.range n).foldl (fun c i => upd c i ((1 - d) / (n : Rat) + d * t i)) c

/-- The iterations, CenGraph.cpp:271-297. -/
def rounds (n : Nat) (out : Nat → List Nat) (d : Rat) : Nat → Option (Nat → Rat)
  | 0 => some fun _ => 1 / (n : Rat)
  | k + 1 => (rounds n out d k).bind fun c => (giveAll n out c).map fun t => damp n d t c

/-- `pageRankCentrality`, CenGraph.cpp:264-301. -/
def pageRank (n : Nat) (out : Nat → List Nat) : Option (List Rat) := (rounds n out (17 / 20) 100).map fun c => (List.range n).map c

end Candy.PageRank
