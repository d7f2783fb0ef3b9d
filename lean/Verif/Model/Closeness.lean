import Verif.Model.Distance
import Verif.Model.Betweenness

/-!
# Model of closeness centrality (src/candy/teexgraph/CenGraph.cpp:9-124)

For undirected graphs and a sample size of one. `wcc` are the components, if they were computed (`doneWCC`), in vectors with `n`
elements at least for the indices that are read. `double` are rational numbers, `none` as element of the result is the
infinite quotient of 1 and 0.
-/

namespace Candy.Dst

/-- `closenesses`, CenGraph.cpp:41-62: the changed vector `dtotals`. -/
def closenesses (n : Nat) (out : Nat → List Nat) (u : Nat) (t : Nat → Int) : Option (Nat → Int) :=
  (search n out (fun t w k => some (upd t w (t w + k))) u t).map Search.acc

/-- `inScope(i, LWCC)`, Graph.cpp:146-151. -/
def inLargest (wcc : Option Wcc) (i : Nat) : Bool :=
  match wcc with
  | none => false
  | some w => w.id i == w.largest

/-- `nodes(scope)` for the scopes `FULL` and `LWCC`, Graph.cpp:155-164. -/
def nodesIn (n : Nat) (full : Bool) (wcc : Option Wcc) : Int :=
  if full then n else match wcc with
    | none => -1
    | some w => w.size w.largest

/-- `closeness`, CenGraph.cpp:10-12, with `nodesInWcc` and `wccOf`, Graph.cpp:167-178. -/
def closeness (n : Nat) (out : Nat → List Nat) (wcc : Option Wcc) (u : Nat) : Option Rat :=
  (closenessSum n out u).map fun (s : Int) =>
    match wcc with
    | none => (s : Rat) / ((-1 : Int) : Rat)
    | some w => (s : Rat) / (w.size (w.id u) : Rat)

/-- The loop over the nodes, CenGraph.cpp:88-107. -/
def closenessLoop (n : Nat) (out : Nat → List Nat) (full : Bool) (wcc : Option Wcc) (maxi : Nat) : Option (Nat → Int) :=
  (List.range maxi).foldlM (fun t i => if full || inLargest wcc i then closenesses n out i t else some t) fun _ => 0

/-- One element of the result, CenGraph.cpp:118-120. -/
def closenessResult (n : Nat) (out : Nat → List Nat) (full : Bool) (wcc : Option Wcc) (maxi : Nat) (t : Nat → Int) (i : Nat) : Option (Option Rat) :=
  if full && !inLargest wcc i then (closeness n out wcc i).map some
  else some (if t i = 0 then none else some (1 / ((t i : Rat) / (maxi : Rat))))

/-- `closenessCentrality`, CenGraph.cpp:66-124. -/
def closenessCentrality (n : Nat) (out : Nat → List Nat) (full : Bool) (wcc : Option Wcc) : Option (List (Option Rat)) :=
  if nodesIn n full wcc < 2 then some (List.replicate n (some (-1)))
  else
    match closenessLoop n out full wcc (nodesIn n full wcc).toNat with
    | none => none
    | some t => (List.range n).mapM (closenessResult n out full wcc (nodesIn n full wcc).toNat t)

end Candy.Dst
