import Verif.Model.EdgeList

/-!
# Model of triangles and clustering coefficients (src/candy/teexgraph/Graph.cpp:483-611)

For graphs as in `Model/EdgeList.lean`. `hasSelfLoop[u]` is set by `addEdge` exactly when an edge from `u` to itself is added
(Graph.cpp:67-70), and edges are never removed, so it is modelled by looking for the edge. `scope` are the nodes for which `inScope`
is true. Numbers are unbounded, `double` are rational numbers. Messages about progress are left out.
-/

namespace Candy.Triangles

open EdgeList

/-- The list `templist`, Graph.cpp:563-570: a copy. -/
def around (g : G) (u : Nat) : List Nat := if g.undir then g.base.out u else sortUnique (g.base.out u ++ g.base.inn u)

/-- `edge(a, b) || edge(b, a)`, Graph.cpp:577. -/
def adjacent (g : G) (a b : Nat) : Option (G × Bool) := (edge g a b).bind fun r => if r.2 then some r else edge r.1 b a

/-- The body of the inner loop, Graph.cpp:577-582. -/
def pairStep (u a : Nat) (s : G × Nat) (b : Nat) : Option (G × Nat) :=
  (adjacent s.1 a b).map fun r => (r.1, if r.2 && a != u && b != u && a != b then s.2 + 1 else s.2)

/-- The loops over `templist`, Graph.cpp:575-583: each element is paired with the later ones. -/
def pairs (u : Nat) : List Nat → G × Nat → Option (G × Nat)
  | [], s => some s
  | a :: l, s => (l.foldlM (pairStep u a) s).bind (pairs u l)

/-- Graph.cpp:586-589. -/
def wedgesOf (len : Nat) (loop : Bool) : Int :=
  let p : Int := if loop then len - 1 else len
  (p * (p - 1)) / 2

/-- `trianglesWedgesAround`, Graph.cpp:561-591, with the graph, the edges of which may be sorted by the call. -/
def trianglesWedges (g : G) (u : Nat) : Option (G × Nat × Int) :=
  if u < g.base.maxn then
    (pairs u (around g u) (g, 0)).map fun s => (s.1, s.2, wedgesOf (around g u).length ((g.base.out u).contains u))
  else none

/-- The loops of `triangles`, `wedges` and `graphClusteringCoefficient`, Graph.cpp:532-538, 548-554, 599-607, with both sums. -/
def totals (scope : Nat → Bool) (g : G) : Option (G × Nat × Int) :=
  (List.range g.base.n).foldlM (fun s i => if scope i then (trianglesWedges s.1 i).map fun r => (r.1, s.2.1 + r.2.1, s.2.2 + r.2.2) else some s) (g, 0, 0)

/-- `triangles`, Graph.cpp:529-541. -/
def triangles (scope : Nat → Bool) (g : G) : Option Nat := (totals scope g).map fun s => s.2.1 / 3

/-- `wedges`, Graph.cpp:545-557. -/
def wedges (scope : Nat → Bool) (g : G) : Option Int := (totals scope g).map fun s => s.2.2

/-- `graphClusteringCoefficient`, Graph.cpp:595-611; `none` as result is the quotient of two zeros or of a number and zero. -/
def graphClustering (scope : Nat → Bool) (g : G) : Option (Option Rat) :=
  (totals scope g).map fun s => if s.2.2 = 0 then none else some ((s.2.1 : Rat) / (s.2.2 : Rat))

/-- `nodeClusteringCoefficient`, Graph.cpp:484-491. -/
def nodeClustering (g : G) (u : Nat) : Option (G × Rat) :=
  if u < g.base.maxn then
    if 1 < (g.base.out u).length then (trianglesWedges g u).map fun r => (r.1, if 0 < r.2.2 then (r.2.1 : Rat) / (r.2.2 : Rat) else 0)
    else some (g, 0)
  else none

/-- `averageClusteringCoefficient` of all nodes, with the loop of `localClustering`, Graph.cpp:495-525. -/
def averageClustering (g : G) : Option Rat :=
  ((List.range g.base.n).foldlM (fun (s : G × Rat) i => (nodeClustering s.1 i).map fun r => (r.1, s.2 + r.2)) (g, 0)).map fun s =>
    if 0 < g.base.n then s.2 / (g.base.n : Rat) else 0

end Candy.Triangles
