import Verif.Model.EdgeList
import Mathlib.Algebra.Order.Ring.Rat

/-!
# Model of the density and of degrees (src/candy/teexgraph/Graph.cpp:434-442, 628-645; CenGraph.cpp:127-146)

For all nodes. `selfm` is increased by `addEdge` exactly when an edge from a node to itself is added (Graph.cpp:67-68), and edges are never
removed, so `selfEdges(FULL) > 0` is modelled by looking for such an edge. `double` are rational numbers.
-/

namespace Candy.EdgeList

/-- `selfEdges(FULL) > 0`, Graph.cpp:194-196, 437. -/
def hasLoops (g : G) : Bool := (List.range g.base.maxn).any fun u => (g.base.out u).contains u

/-- `density(FULL)`, Graph.cpp:435-441. -/
def density (g : G) : Rat :=
  if 0 < g.base.m ∧ 1 < g.base.n then
    (g.base.m : Rat) / (g.base.n : Rat) / (((g.base.n : Int) - (if hasLoops g then 0 else 1) : Int) : Rat)
  else 0

/-- `outdegreeDistribution`, Graph.cpp:628-636, and `outdegreeCentrality`, CenGraph.cpp:132-138. -/
def outdegrees (g : G) : List Nat := (List.range g.base.n).map fun i => (g.base.out i).length

end Candy.EdgeList
