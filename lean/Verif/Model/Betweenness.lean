import Verif.Model.Centrality

/-!
# Model of `Graph::betweennessCentrality` (src/candy/teexgraph/CenGraph.cpp:162-260)

The algorithm of Brandes: a breadth-first search from every node counts shortest paths, then dependencies are summed up
in reverse order. Numbers of type `double` and `long double` are rational numbers in the model: rounding is not modelled,
nor overflow of the numbers of paths. `none` is an access outside of a vector (all vectors have `n` elements), or that the
number given as bound of the number of rounds is exceeded.
-/

namespace Candy

/-- The variables of the search from one node, CenGraph.cpp:179-186: `sp`, `d`, `P`, the queue `Q` (front first) and the
stack `S` (top first). -/
structure Bfs where
  sp : Nat → Rat
  d : Nat → Nat
  P : Nat → List Nat
  Q : List Nat
  S : List Nat

namespace Bfs

/-- CenGraph.cpp:198-206; the number `n + 1` means that a node has not been reached. -/
def start (n s : Nat) : Bfs :=
  ⟨upd (fun _ => 0) s 1, upd (fun _ => n + 1) s 0, fun _ => [], [s], []⟩

/-- CenGraph.cpp:216-219. -/
def reach (n v : Nat) (b : Bfs) (w : Nat) : Bfs :=
  if b.d w = n + 1 then { b with d := upd b.d w (b.d v + 1), Q := b.Q ++ [w] } else b

/-- CenGraph.cpp:220-223. -/
def count (v : Nat) (b : Bfs) (w : Nat) : Bfs :=
  if b.d w = b.d v + 1 then { b with sp := upd b.sp w (b.sp w + b.sp v), P := upd b.P w (b.P w ++ [v]) } else b

/-- The body of the loop over the neighbours `w` of `v`, CenGraph.cpp:215-223. -/
def edge (n v : Nat) (b : Bfs) (w : Nat) : Bfs := count v (reach n v b w) w

/-- The loop over the queue, CenGraph.cpp:208-225. -/
def loop (n : Nat) (nbr : Nat → List Nat) : Nat → Bfs → Option Bfs
  | k, b =>
    match b.Q with
    | [] => some b
    | v :: q =>
      match k with
      | 0 => none
      | k + 1 =>
        if v < n ∧ ∀ w ∈ nbr v, w < n then
          loop n nbr k ((nbr v).foldl (edge n v) { b with Q := q, S := v :: b.S })
        else none

end Bfs

/-- The loop over the predecessors of `w`, CenGraph.cpp:230-233. -/
def addDependencies (sp : Nat → Rat) (w : Nat) (delta : Nat → Rat) (ps : List Nat) : Nat → Rat :=
  ps.foldl (fun delta v => upd delta v (delta v + sp v / sp w * (1 + delta w))) delta

/-- The loop over the stack, CenGraph.cpp:227-236; `total` is `doublelongarray`. -/
def accumulate (b : Bfs) (s : Nat) : List Nat → (Nat → Rat) → (Nat → Rat) → (Nat → Rat)
  | [], _, total => total
  | w :: ws, delta, total =>
    let delta := addDependencies b.sp w delta (b.P w)
    accumulate b s ws delta (if w ≠ s then upd total w (total w + delta w) else total)

/-- One round of the loop over the nodes, CenGraph.cpp:178-242. -/
def fromSource (n : Nat) (nbr : Nat → List Nat) (total : Nat → Rat) (s : Nat) : Option (Nat → Rat) :=
  if s < n then
    (Bfs.loop n nbr n (Bfs.start n s)).map fun b => accumulate b s b.S (fun _ => 0) total
  else none

/-- `a / b` of floating point numbers that are not negative, with `a ≤ b`: `none` is NaN. -/
def floatRatio (a b : Rat) : Option Rat := if b = 0 then none else some (a / b)

/-- The numbers of a sample, CenGraph.cpp:174-175, 191-195, 238-240: `drawn` are the nodes that `rand() % n` gave and that
passed the test for the scope. Their number is the sample size times the number of nodes, rounded. -/
def sources (til : Nat) (drawn : Option (List Nat)) : List Nat := drawn.getD (List.range til)

/-- `betweennessCentrality` for an undirected graph with `n` nodes, CenGraph.cpp:162-260; `til` is the number of nodes in
the scope. If there are less than two then the result is `-1` for all nodes. `drawn = none` means a sample size of one. -/
def betweennessCentrality (n til : Nat) (nbr : Nat → List Nat) (drawn : Option (List Nat)) : Option (List (Option Rat)) :=
  if til < 2 then some (List.replicate n (some (-1)))
  else
    ((sources til drawn).foldlM (fromSource n nbr) fun _ => 0).map fun total =>
      let maxval := (List.range n).foldl (fun m i => max m (total i)) 0
      (List.range n).map fun i => floatRatio (total i) maxval

/-! ### Weakly connected components (src/candy/teexgraph/Graph.cpp:248-312) -/

/-- The variables of `computeWCC`: `wccId`, `wccNodes`, `largestWCC`, `c`, and the queue. -/
structure Wcc where
  id : Nat → Nat
  size : Nat → Nat
  largest : Nat
  c : Nat
  q : List Nat

namespace Wcc

/-- Graph.cpp:253-260. -/
def start : Wcc := ⟨fun _ => 0, fun _ => 0, 0, 1, []⟩

/-- Graph.cpp:267-270 and 276-281: a node joins the component with number `c`. (The number of edges is not modelled.) -/
def join (w : Wcc) (i : Nat) : Wcc :=
  { w with id := upd w.id i w.c, size := upd w.size w.c (w.size w.c + 1), q := w.q ++ [i] }

/-- Graph.cpp:275-282, for the neighbour `i`. -/
def visit (w : Wcc) (i : Nat) : Wcc := if w.id i = 0 then w.join i else w

/-- The loop over the queue, Graph.cpp:271-294, for an undirected graph. `none` is an access outside of the vectors, which
have `n` elements, or more rounds than the given number. -/
def loop (n : Nat) (nbr : Nat → List Nat) : Nat → Wcc → Option Wcc
  | k, w =>
    match w.q with
    | [] => some w
    | v :: q =>
      match k with
      | 0 => none
      | k + 1 =>
        if v < n ∧ ∀ u ∈ nbr v, u < n then loop n nbr k ((nbr v).foldl visit { w with q := q }) else none

/-- Graph.cpp:296-298. -/
def close (w : Wcc) : Wcc :=
  { w with largest := if w.size w.largest < w.size w.c then w.c else w.largest, c := w.c + 1 }

/-- The body of the loop over the nodes, Graph.cpp:262-299; `wccNodes[c]` must be inside of the vector. -/
def node (n : Nat) (nbr : Nat → List Nat) (w : Wcc) (i : Nat) : Option Wcc :=
  if w.id i ≠ 0 then some w
  else if w.c < n then (loop n nbr n ({ w with q := [] }.join i)).map close
  else none

/-- `computeWCC` for an undirected graph with at least one edge, Graph.cpp:248-312. -/
def compute (n : Nat) (nbr : Nat → List Nat) : Option Wcc := (List.range n).foldlM (node n nbr) start

end Wcc

/-- The centralities in the scope `LWCC`, VSIDSC.h:471-474, 483; Graph.cpp:158-159. -/
def centralityLargest (n : Nat) (nbr : Nat → List Nat) (drawn : Option (List Nat)) : Option (List (Option Rat)) :=
  (Wcc.compute n nbr).bind fun w => betweennessCentrality n (w.size w.largest) nbr drawn

end Candy
