import Verif.Model.Centrality

/-!
# Model of `Graph::computeSCC` (src/candy/teexgraph/Graph.cpp:314-413)

The algorithm of Kosaraju without recursion, for a graph with `n` nodes and the edge lists `out` (`E`) and `inn` (`rE`).
Vectors are functions; elements of type `int` and `long` are natural numbers, and the value `-1` of `parentOf` and `current`
is `none`. `none` as result is an access outside of a vector, or that the number given as bound of the number of rounds is
exceeded. Nodes in edge lists are assumed to be less than `n`, so bounds are checked only for the vectors with one element
per component. The size of these vectors is the parameter `cap`, which is `n` in the code (Graph.cpp:381-382).
-/

namespace Candy.Scc

/-- The variables of the first search, Graph.cpp:385-388: `sccVisited`, `sccStack` (top first), `parentOf`, `atIt`. -/
structure Visit where
  visited : Nat → Bool
  stack : List Nat
  parentOf : Nat → Option Nat
  atIt : Nat → Nat

/-- The body of the loop of `goVisitSCC` for the current node, Graph.cpp:320-337; the first component is the next node. -/
def Visit.step (out : Nat → List Nat) (cur : Nat) (s : Visit) : Option (Option Nat × Visit) :=
  if s.atIt cur = (out cur).length then
    some (s.parentOf cur,
      { s with stack := cur :: s.stack, atIt := upd s.atIt cur 0, parentOf := upd s.parentOf cur none })
  else
    match (out cur)[s.atIt cur]? with
    | none => none
    | some w =>
      if s.visited w = false then
        some (some w, { s with visited := upd s.visited w true, parentOf := upd s.parentOf w (some cur), atIt := upd s.atIt cur (s.atIt cur + 1) })
      else some (some cur, { s with atIt := upd s.atIt cur (s.atIt cur + 1) })

/-- `goVisitSCC`, Graph.cpp:314-340, with a bound of the number of rounds. -/
def goVisit (out : Nat → List Nat) : Nat → Option Nat → Visit → Option Visit
  | _, none, s => some s
  | 0, some _, _ => none
  | k + 1, some cur, s =>
    match s.step out cur with
    | none => none
    | some (next, s') => goVisit out k next s'

/-- The body of the loop over the nodes, Graph.cpp:392-395. -/
def visitFrom (out : Nat → List Nat) (fuel : Nat) (s : Visit) (i : Nat) : Option Visit :=
  if s.visited i = false ∧ 0 < (out i).length then goVisit out fuel (some i) { s with visited := upd s.visited i true } else some s

/-- The first search, Graph.cpp:385-395. -/
def visitAll (n : Nat) (out : Nat → List Nat) (fuel : Nat) : Option Visit :=
  (List.range n).foldlM (visitFrom out fuel) ⟨fun _ => false, [], fun _ => none, fun _ => 0⟩

/-- The members about components, Graph.h:157-165: `sccId`, `sccNodes`, `sccEdges`, `largestSCC`, `sccs`. -/
structure Comps where
  id : Nat → Nat
  nodes : Nat → Nat
  edges : Nat → Nat
  largest : Nat
  sccs : Nat

/-- `t[c]++` for a vector with `cap` elements. -/
def bump (cap : Nat) (t : Nat → Nat) (c : Nat) : Option (Nat → Nat) := if c < cap then some (upd t c (t c + 1)) else none

/-- The body of the loop over the incoming edges, Graph.cpp:359-363; the state is `markStack` (top first) and `sccEdges`. -/
def markEdge (cap : Nat) (id : Nat → Nat) (c : Nat) (s : List Nat × (Nat → Nat)) (a : Nat) : Option (List Nat × (Nat → Nat)) :=
  if id a = 0 then some (a :: s.1, s.2)
  else if id a = c then
    match bump cap s.2 c with
    | none => none
    | some e => some (s.1, e)
  else some s

/-- The part of the body of the loop of `goMarkSCC` for a node without component, Graph.cpp:355-364. -/
def markNode (cap : Nat) (inn : Nat → List Nat) (c cur : Nat) (st : List Nat) (m : Comps) : Option (List Nat × Comps) :=
  match bump cap m.nodes c with
  | none => none
  | some nodes =>
    match (inn cur).foldlM (markEdge cap (upd m.id cur c) c) (st, m.edges) with
    | none => none
    | some (st', e) => some (st', { m with id := upd m.id cur c, nodes := nodes, edges := e })

/-- Graph.cpp:352-353. -/
def countPop (cap x c cur : Nat) (m : Comps) : Option Comps :=
  if cur ≠ x then
    match bump cap m.edges c with
    | none => none
    | some e => some { m with edges := e }
  else some m

/-- `goMarkSCC`, Graph.cpp:344-366, with a bound of the number of rounds. -/
def goMark (cap : Nat) (inn : Nat → List Nat) (x c : Nat) : Nat → List Nat → Comps → Option Comps
  | _, [], m => some m
  | 0, _ :: _, _ => none
  | k + 1, cur :: st, m =>
    match countPop cap x c cur m with
    | none => none
    | some m =>
      if m.id cur = 0 then
        match markNode cap inn c cur st m with
        | none => none
        | some (st', m') => goMark cap inn x c k st' m'
      else goMark cap inn x c k st m

/-- The body of the loop over `sccStack`, Graph.cpp:398-403; the second component is `c`. -/
def markFrom (cap : Nat) (inn : Nat → List Nat) (fuel : Nat) (s : Comps × Nat) (x : Nat) : Option (Comps × Nat) :=
  if s.1.id x = 0 then
    match goMark cap inn x s.2 fuel [x] s.1 with
    | none => none
    | some m => some (if m.nodes m.largest < m.nodes s.2 then { m with largest := s.2 } else m, s.2 + 1)
  else some s

/-- The second search, Graph.cpp:380-383, 389, 397-407. -/
def markAll (cap : Nat) (inn : Nat → List Nat) (fuel : Nat) (stack : List Nat) : Option Comps :=
  match stack.foldlM (markFrom cap inn fuel) (⟨fun _ => 0, fun _ => 0, fun _ => 0, 0, 0⟩, 1) with
  | none => none
  | some (m, c) => some { m with sccs := c - 1 }

/-- Number of edges, and bound of the number of rounds of each search. -/
def total (n : Nat) (es : Nat → List Nat) : Nat := ((List.range n).map fun v => (es v).length).sum

/-- `computeSCC`, Graph.cpp:370-412, for vectors of components of size `cap`. `m` is the number of edges, `undirected` tells
that `makeUndirected` was called; in both cases of an early return the members keep their values. -/
def computeSCC (cap n : Nat) (out inn : Nat → List Nat) (m : Nat) (undirected : Bool) (old : Comps) : Option Comps :=
  if m < 1 then some old
  else if undirected then some old
  else
    match visitAll n out (total n out + n) with
    | none => none
    | some s => markAll cap inn (total n inn + 1) s.stack

/-- A graph that is made by calling `addEdge(mapNode(a), mapNode(b))`, Graph.cpp:42-91, for pairs of names, as VSIDSC.h:465
does. The graph has room for `maxn` nodes; `rtl` is the order of evaluation of arguments. -/
def build (rtl : Bool) (maxn : Nat) (es : List (Nat × Nat)) : VarGraph :=
  es.foldl (fun g p => g.link rtl p.1 p.2) (VarGraph.empty maxn)

/-- `computeSCC` of such a graph; vectors of components have one element per node (Graph.cpp:381-382). -/
def sccOf (g : VarGraph) (undirected : Bool) (old : Comps) : Option Comps := computeSCC g.n g.n g.out g.inn g.m undirected old

end Candy.Scc
