import Verif.Model.Centrality
import Verif.SpecEdges
import Mathlib.Data.List.Sort

/-!
# Model of sorted lists of edges (src/candy/teexgraph/Graph.cpp:58-142, 214-244, 415-430, 461-467)

The graph as in `Model/Centrality.lean`, with the flags `sortedandunique` and `undirected`. The loop of `makeUndirected` appends
to the lists it reads, as the code does. `std::sort` is modelled by a sorting function (for numbers the result of sorting is
unique). Elements of type `int` are unbounded numbers. `none` is an access outside of a vector; the vectors `E` and `rE` have
`maxn` elements.
-/

namespace Candy.EdgeList

/-- The graph with its flags, Graph.h:130-143. -/
structure G where
  base : VarGraph
  sorted : Bool
  undir : Bool

/-- `std::unique` with `erase`, Graph.cpp:130, 132: of equal neighbours one is kept. -/
def unique : List Nat → List Nat
  | [] => []
  | [a] => [a]
  | a :: b :: l => if a = b then unique (b :: l) else a :: unique (b :: l)

/-- Graph.cpp:128-130, 131-132. -/
def sortUnique (l : List Nat) : List Nat := unique (l.insertionSort (· ≤ ·))

/-- The loop of `sortEdgeList`, Graph.cpp:127-135. -/
def sortLoop (g : VarGraph) : VarGraph :=
  (List.range g.n).foldl (fun h i =>
    { h with out := upd h.out i (sortUnique (h.out i)), inn := upd h.inn i (sortUnique (h.inn i)), m := h.m + (sortUnique (h.out i)).length })
    { g with m := 0 }

/-- `sortEdgeList`, Graph.cpp:122-142. -/
def sortEdgeList (g : G) : G := if g.sorted then g else { g with base := sortLoop g.base, sorted := true }

/-- `addEdge`, Graph.cpp:59-91. -/
def addEdge (g : G) (u v : Nat) : G :=
  if g.base.maxn ≤ u ∨ g.base.maxn ≤ v then g else ⟨g.base.addEdge u v, false, false⟩

/-- `addEdge(mapNode(a), mapNode(b))`, Graph.cpp:42-49, 59-91, as in VSIDSC.h:465; `rtl` if arguments are evaluated from right to
left. -/
def link (rtl : Bool) (g : G) (a b : Nat) : G :=
  if rtl then
    let g1 := g.base.mapNode b
    let g2 := g1.1.mapNode a
    addEdge { g with base := g2.1 } g2.2 g1.2
  else
    let g1 := g.base.mapNode a
    let g2 := g1.1.mapNode b
    addEdge { g with base := g2.1 } g1.2 g2.2

/-- `E[E[i][j]].push_back(i)`, Graph.cpp:232. -/
def pushRev (maxn i : Nat) (E : Nat → List Nat) (j : Nat) : Option (Nat → List Nat) :=
  match (E i)[j]? with
  | none => none
  | some w => if w < maxn then some (upd E w (E w ++ [i])) else none

/-- One round of the loop over the nodes, Graph.cpp:229-234; the number of rounds of the inner loop is read before it. -/
def undirStep (maxn : Nat) (s : (Nat → List Nat) × (Nat → List Nat)) (i : Nat) : Option ((Nat → List Nat) × (Nat → List Nat)) :=
  ((List.range (s.1 i).length).foldlM (pushRev maxn i) s.1).map fun E => (E, upd s.2 i [])

/-- `makeUndirected`, Graph.cpp:215-244. -/
def makeUndirected (g : G) : Option G :=
  if g.undir then some g
  else ((List.range g.base.n).foldlM (undirStep g.base.maxn) (g.base.out, g.base.inn)).map fun s =>
    { sortEdgeList { g with base := { g.base with out := s.1, inn := s.2 }, sorted := false } with undir := true }

/-- The loop of `edge`, Graph.cpp:98-107. -/
def bsearch (l : List Nat) (b : Nat) : Nat → Int → Int → Option Bool
  | k, first, last =>
    if first ≤ last then
      match k with
      | 0 => none
      | k + 1 =>
        let mid := (first + last) / 2
        if mid < 0 then none
        else match l[mid.toNat]? with
          | none => none
          | some x => if x < b then bsearch l b k (mid + 1) last else if b < x then bsearch l b k first (mid - 1) else some true
    else some false

/-- `edge`, Graph.cpp:94-108: the answer, and the graph, which may be sorted by the call. -/
def edge (g : G) (a b : Nat) : Option (G × Bool) :=
  if a < g.base.maxn then
    let h := sortEdgeList g
    (bsearch (h.base.out a) b (h.base.out a).length 0 ((h.base.out a).length - 1 : Int)).map fun r => (h, r)
  else none

/-- `edgeSlow`, Graph.cpp:112-118. -/
def edgeSlow (g : G) (a b : Nat) : Option Bool := if a < g.base.maxn then some ((g.base.out a).any (· == b)) else none

/-- The loop over the edges of a node in `reciprocity`, Graph.cpp:422-425; the state is the graph and `reci`. -/
def reciEdge (i : Nat) (s : G × Nat) (j : Nat) : Option (G × Nat) :=
  match (s.1.base.out i)[j]? with
  | none => none
  | some w => (edge s.1 w i).map fun r => (r.1, if r.2 then s.2 + 1 else s.2)

/-- The loop over the nodes, Graph.cpp:418-426; the state is the graph, `total` and `reci`. -/
def reciNode (scope : Nat → Bool) (s : G × Nat × Nat) (i : Nat) : Option (G × Nat × Nat) :=
  if scope i then
    ((List.range (s.1.base.out i).length).foldlM (reciEdge i) (s.1, s.2.2)).map fun r => (r.1, s.2.1 + (s.1.base.out i).length, r.2)
  else some s

/-- `reciprocity`, Graph.cpp:416-430. -/
def reciprocity (scope : Nat → Bool) (g : G) : Option Rat :=
  ((List.range g.base.n).foldlM (reciNode scope) (g, 0, 0)).map fun s => if 0 < s.2.1 then (s.2.2 : Rat) / (s.2.1 : Rat) else 0

/-- `averageDegree` of all nodes, Graph.cpp:462-467; `none` is the quotient of 0 and 0. -/
def averageDegree (g : G) : Option Rat :=
  if g.base.n = 0 then none
  else some (if g.undir then (g.base.m : Rat) / (g.base.n : Rat) else (g.base.m : Rat) / (g.base.n : Rat) * 2)

/-- The calls `addEdge(mapNode(a), mapNode(b))`, `makeUndirected()`, `sortEdgeList()` and `edge(a, b)`, Graph.cpp:94-142, 215-244. -/
def apply (g : G) : Op → Option G
  | .add rtl a b => some (link rtl g a b)
  | .undirect => makeUndirected g
  | .sort => some (sortEdgeList g)
  | .query a b => (edge g a b).map Prod.fst

end Candy.EdgeList
