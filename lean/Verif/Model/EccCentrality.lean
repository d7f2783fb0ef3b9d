import Verif.Model.Bounding

/-!
# Model of eccentricity centrality (src/candy/teexgraph/CenGraph.cpp:149-163)

For undirected graphs. `before` says whether components were computed before the call (`doneWCC`). If they were, `eccentricitiesBD` leaves
the vector `pruned` of its run. Otherwise it returns at once (BDGraph.cpp:148-152), and `pruned` is the empty vector of a new graph; it is
assumed that no other function that sets it was called. `none` is an access outside of a vector, as in `Model/Bounding.lean`.
-/

namespace Candy

/-- `nodes(scope)` for the scopes `FULL` and `LWCC` before the computation, CenGraph.cpp:151, Graph.cpp:155-164. -/
def nodesBefore (n : Nat) (w : Wcc) (full before : Bool) : Int := if full then n else if before then w.size w.largest else -1

/-- One element of the result, CenGraph.cpp:157-161. -/
def eccElement (n : Nat) (nbr : Nat → List Nat) (w : Wcc) (full : Bool) (eccs : List Int) (i : Nat) : Option Int :=
  if w.inLargest i then eccs[i]?
  else if full then (eccentricity n nbr (Pruning.compute n nbr w.inLargest).pruned i).map Prod.snd
  else some (-1)

/-- `eccentricity` with an empty vector `pruned`, BDGraph.cpp:20-40: the first neighbour that has no distance yet leads to an access outside
of the vector. -/
def eccentricityUnset (n : Nat) (nbr : Nat → List Nat) (u : Nat) : Option Int :=
  if u < n then if (nbr u).all (· == u) then some 0 else none else none

/-- `eccentricityCentrality`, CenGraph.cpp:150-163. -/
def eccentricityCentrality (n : Nat) (nbr : Nat → List Nat) (w : Wcc) (full before : Bool) : Option (List Int) :=
  if nodesBefore n w full before < 2 then some (List.replicate n (-1))
  else if before then
    (extremaBounding n nbr w.inLargest (w.size w.largest) .eccentricities).bind fun r => (List.range n).mapM (eccElement n nbr w full r.2)
  else (List.range n).mapM (eccentricityUnset n nbr)

end Candy
