import Verif.Model.Search

/-!
# Model of the variable graph and of the table of centralities of the heuristic `VSIDSC`

src/candy/teexgraph/Graph.cpp, src/candy/teexgraph/CenGraph.cpp, src/candy/systems/branching/VSIDSC.h:210-218, 287-295, 402-504.
Variables that share a clause are neighbours. The graph numbers its nodes in the order of their first mention; the
centralities are a vector over these numbers. The values of the centralities and the scope
`LWCC` are modelled in `Verif/Model/Betweenness.lean`; here they only influence the order of the heap, which is arbitrary
in the model of the heuristics.
-/

namespace Candy

/-- The graph, Graph.h:130-143: capacity `maxn`, the variable with number `i` is `nodes[i]` (`nodeMapping`, `revMapping`,
`nexti`), lists of neighbours, number of nodes and of edges. -/
structure VarGraph where
  maxn : Nat
  nodes : List Nat
  out : Nat → List Nat
  inn : Nat → List Nat
  n : Nat
  m : Nat

namespace VarGraph

/-- Constructor, Graph.cpp:16-38. -/
def empty (maxn : Nat) : VarGraph := ⟨maxn, [], fun _ => [], fun _ => [], 0, 0⟩

/-- `mapNode`, Graph.cpp:42-49: the number of a variable; a variable without number gets the next one. -/
def mapNode (g : VarGraph) (v : Nat) : VarGraph × Nat :=
  match g.nodes.idxOf? v with
  | some i => (g, i)
  | none => ({ g with nodes := g.nodes ++ [v] }, g.nodes.length)

/-- Graph.cpp:76, 79: the node has no edge yet. -/
def isolated (g : VarGraph) (u : Nat) : Bool := (g.inn u).isEmpty && (g.out u).isEmpty

/-- `addEdge`, Graph.cpp:59-91. (Loops are only counted, for statistics.) -/
def addEdge (g : VarGraph) (u v : Nat) : VarGraph :=
  if g.maxn ≤ u ∨ g.maxn ≤ v then g
  else { g with
    n := g.n + (if g.isolated v then 1 else 0) + (if v ≠ u ∧ g.isolated u = true then 1 else 0)
    m := g.m + 1
    out := upd g.out u (g.out u ++ [v])
    inn := upd g.inn v (g.inn v ++ [u]) }

/-- `graph.addEdge(graph.mapNode(a), graph.mapNode(b))`, VSIDSC.h:465. The order in which the two arguments are evaluated
is up to the compiler: `rtl` if from right to left. -/
def link (rtl : Bool) (g : VarGraph) (a b : Nat) : VarGraph :=
  if rtl then
    let g1 := g.mapNode b
    let g2 := g1.1.mapNode a
    g2.1.addEdge g2.2 g1.2
  else
    let g1 := g.mapNode a
    let g2 := g1.1.mapNode b
    g2.1.addEdge g1.2 g2.2

/-- The loops over the pairs of variables of a clause, VSIDSC.h:461-467. -/
def linkAll (rtl : Bool) : VarGraph → List Nat → VarGraph
  | g, [] => g
  | g, v :: vs => linkAll rtl (vs.foldl (fun g w => g.link rtl v w) g) vs

/-- The loop over the clauses, VSIDSC.h:451-468. `literals.size() - 1` is the largest unsigned number for the empty
clause; then the outer loop does not end (`none`). -/
def addClauses (rtl : Bool) : VarGraph → List Clause → Option VarGraph
  | g, [] => some g
  | g, c :: cs => if c = [] then none else addClauses rtl (g.linkAll rtl (c.map Lit.var)) cs

/-- Neighbours of node `i` after `makeUndirected`, Graph.cpp:229-234: edges in both directions. (As a list without the
order and repetitions, which `sortEdgeList` removes next.) -/
def neighbours (g : VarGraph) (i : Nat) : List Nat :=
  (List.range g.maxn).filter fun j => decide (j ∈ g.out i) || (decide (j < g.n) && decide (i ∈ g.out j))

/-- `makeUndirected` with `sortEdgeList`, Graph.cpp:215-244, 122-142: edges are counted anew, over the nodes `0 .. n - 1`. -/
def makeUndirected (g : VarGraph) : VarGraph :=
  { g with
    out := fun i => if i < g.n then g.neighbours i else g.out i
    inn := fun i => if i < g.n then [] else g.inn i
    m := ((List.range g.n).map fun i => (g.neighbours i).length).sum }

/-- `init_graph`, VSIDSC.h:448-475, for the clauses that are not deleted. -/
def ofClauses (rtl : Bool) (nVars : Nat) (cs : List Clause) : Option VarGraph :=
  ((empty (max 1 nVars)).addClauses rtl cs).map makeUndirected

end VarGraph

/-- The part of the state of `VSIDSC` about centralities, VSIDSC.h:92, 100, 104: whether they were computed
(`graph_init`), the graph, and the number of elements of the vector `centrality`. -/
structure Cent where
  started : Bool
  graph : VarGraph
  size : Nat

namespace Cent

/-- Constructor, VSIDSC.h:92-104; Graph.h:28, Graph.cpp:10-13. -/
def new : Cent := ⟨false, VarGraph.empty 10000000, 0⟩

/-- VSIDSC.h:481, 492: there is something to compute. -/
def worth (g : VarGraph) : Bool := decide (0 < g.n) && decide (0 < g.m)

/-- `do_centrality` after `init_graph` made the graph `g`, VSIDSC.h:402-445: `calcCentrality` (lines 478-487) and the loop of
`updateActivities` (lines 490-504), which asks for the number of every variable. The vector returned by
`betweennessCentrality` has one element per node of the graph (CenGraph.cpp:170, 254). The old vector is kept when there
is nothing to compute. -/
def update (nVars : Nat) (g : VarGraph) (c : Cent) : Cent :=
  if worth g then ⟨true, (List.range nVars).foldl (fun g v => (g.mapNode v).1) g, g.n⟩
  else ⟨true, g, c.size⟩

/-- `centrality[graph.mapNode(v.id)]`, VSIDSC.h:215; `none` is an access out of bounds. -/
def lookup (c : Cent) (v : Nat) : Option Cent :=
  let g := c.graph.mapNode v
  if g.2 < c.size then some { c with graph := g.1 } else none

/-- The look-ups when the activities of several variables are increased. -/
def lookups : List Nat → Cent → Option Cent
  | [], c => some c
  | v :: vs, c => (c.lookup v).bind (lookups vs)

end Cent

end Candy
