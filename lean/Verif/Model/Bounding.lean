import Verif.Model.Betweenness

/-!
# Model of the extreme distances of a graph (src/candy/teexgraph/BDGraph.cpp)

`n` is the number of nodes (`nodes(FULL)`), `nbr` are the lists of neighbours of an undirected graph, `scope` tells which
nodes are in the largest component (`inScope(_, LWCC)`) and `nl` is their number (`nodes(LWCC)`). Elements of type `int` are
unbounded integers. `none` is an access outside of a vector, a division by zero, or that the number given as bound of the
number of rounds is exceeded. Output of the state of the computation is not modelled.
-/

namespace Candy

/-- The variables of `eccentricity`, BDGraph.cpp:21-23: the vector `d`, the queue (front first) and `ecc`. -/
structure EccBfs where
  d : Nat → Int
  q : List Nat
  ecc : Int

namespace EccBfs

/-- BDGraph.cpp:21-26. -/
def start (u : Nat) : EccBfs := ⟨upd (fun _ => -1) u 0, [u], 0⟩

/-- The body of the loop over the neighbours, BDGraph.cpp:32-36. -/
def edge (pruned : Nat → Int) (v : Nat) (b : EccBfs) (w : Nat) : EccBfs :=
  if b.d w = -1 ∧ pruned w < 0 then ⟨upd b.d w (b.d v + 1), b.q ++ [w], max b.ecc (b.d v + 1)⟩ else b

/-- The loop over the queue, BDGraph.cpp:27-38. -/
def loop (n : Nat) (nbr : Nat → List Nat) (pruned : Nat → Int) : Nat → EccBfs → Option EccBfs
  | k, b =>
    match b.q with
    | [] => some b
    | v :: q =>
      match k with
      | 0 => none
      | k + 1 =>
        if v < n ∧ ∀ w ∈ nbr v, w < n then loop n nbr pruned k ((nbr v).foldl (edge pruned v) { b with q := q }) else none

end EccBfs

/-- `eccentricity`, BDGraph.cpp:20-40: the vector `d` and the eccentricity. -/
def eccentricity (n : Nat) (nbr : Nat → List Nat) (pruned : Nat → Int) (u : Int) : Option ((Nat → Int) × Int) :=
  if 0 ≤ u ∧ u < n then (EccBfs.loop n nbr pruned n (EccBfs.start u.toNat)).map fun b => (b.d, b.ecc) else none

/-- The loop of `diameterAPSP`, BDGraph.cpp:48-53. -/
def diameterStep (n : Nat) (nbr : Nat → List Nat) (scope : Nat → Bool) (diameter : Int) (i : Nat) : Option Int :=
  if n / 100 = 0 then none
  else if scope i then (eccentricity n nbr (fun _ => -1) i).map fun r => max diameter r.2 else some diameter

/-- `diameterAPSP`, BDGraph.cpp:43-56. -/
def diameterAPSP (n : Nat) (nbr : Nat → List Nat) (scope : Nat → Bool) : Option Int :=
  (List.range n).foldlM (diameterStep n nbr scope) 0

/-- The loop of `radiusAPSP`, BDGraph.cpp:64-69. -/
def radiusStep (n : Nat) (nbr : Nat → List Nat) (scope : Nat → Bool) (rad : Int) (i : Nat) : Option Int :=
  if n / 100 = 0 then none
  else if scope i then (eccentricity n nbr (fun _ => -1) i).map fun r => min rad r.2 else some rad

/-- `radiusAPSP`, BDGraph.cpp:59-72. -/
def radiusAPSP (n : Nat) (nbr : Nat → List Nat) (scope : Nat → Bool) : Option Int :=
  (List.range n).foldlM (radiusStep n nbr scope) n

/-- `eccentricitiesAPSP`, BDGraph.cpp:124-131. -/
def eccentricitiesAPSP (n : Nat) (nbr : Nat → List Nat) : Option (List Int) :=
  (List.range n).mapM fun i : Nat => (eccentricity n nbr (fun _ => -1) (i : Int)).map Prod.snd

/-! ### Pruning -/

/-- The variables of `pruning`, BDGraph.cpp:76-77. -/
structure Pruning where
  pruned : Nat → Int
  count : Int
  prunee : Int

namespace Pruning

/-- BDGraph.cpp:88-96, for the neighbour `x`. -/
def leaf (nbr : Nat → List Nat) (p : Pruning) (x : Nat) : Pruning :=
  if (nbr x).length = 1 ∧ p.pruned x = -1 then
    if p.prunee = -1 then { p with prunee := x }
    else ⟨upd (upd p.pruned x p.prunee) p.prunee.toNat (-2), p.count + 1, p.prunee⟩
  else p

/-- BDGraph.cpp:80-98, for the node `i`. -/
def node (nbr : Nat → List Nat) (scope : Nat → Bool) (p : Pruning) (i : Nat) : Pruning :=
  if scope i then (nbr i).foldl (leaf nbr) { p with prunee := -1 } else p

/-- `pruning`, BDGraph.cpp:75-102. -/
def compute (n : Nat) (nbr : Nat → List Nat) (scope : Nat → Bool) : Pruning :=
  (List.range n).foldl (node nbr scope) ⟨fun _ => -1, 0, -1⟩

end Pruning

/-! ### Bounding -/

/-- The parameter `TYPE` of `extremaBounding`: 1, 2, 3, 4 and 5. -/
inductive Measure where
  | diameter
  | radius
  | eccentricities
  | periphery
  | center
deriving DecidableEq

/-- The variables of `extremaBounding`, BDGraph.cpp:155-166. -/
structure Bounding where
  lower : Nat → Int
  upper : Nat → Int
  candidate : Nat → Bool
  candidates : Int
  d : Nat → Int
  current : Int
  high : Bool
  minlower : Int
  maxlower : Int
  minupper : Int
  maxupper : Int
  minlowernode : Int
  maxuppernode : Int

namespace Bounding

section

variable (n : Nat) (nbr : Nat → List Nat) (scope : Nat → Bool) (nl : Nat) (pruned : Nat → Int) (type : Measure)

/-- BDGraph.cpp:155-171; `count` is the number of pruned nodes. -/
def start (count : Int) : Bounding where
  lower := fun _ => 0
  upper := fun _ => nl
  candidate := fun _ => true
  candidates := nl - count
  d := fun _ => 0
  current := -1
  high := true
  minlower := -4
  maxlower := -3
  minupper := -2
  maxupper := -1
  minlowernode := -1
  maxuppernode := -1

/-- The nodes that the loops do not pass over, BDGraph.cpp:190, 225 and 241. -/
def eligible (d : Nat → Int) (i : Nat) : Bool := !(decide (d i = -1) || !scope i || decide (0 ≤ pruned i))

/-- BDGraph.cpp:188-195: the node with most neighbours. -/
def mostNeighbours (d : Nat → Int) : Nat :=
  ((List.range n).drop 1).foldl (fun c i => if eligible scope pruned d i then if (nbr i).length > (nbr c).length then i else c else c) 0

/-- The selection of a node, BDGraph.cpp:186-200. -/
def select (b : Bounding) : Bounding :=
  { b with
    high := !b.high
    current := if b.current = -1 then (mostNeighbours n nbr scope pruned b.d : Int) else if !b.high then b.maxuppernode else b.minlowernode }

/-- BDGraph.cpp:215-221. -/
def clear (b : Bounding) : Bounding :=
  { b with maxuppernode := -1, minlowernode := -1, minlower := nl, maxlower := 0, minupper := nl, maxupper := 0 }

/-- The body of the loop that updates bounds, BDGraph.cpp:224-237. -/
def improve (ecc : Int) (b : Bounding) (i : Nat) : Bounding :=
  if eligible scope pruned b.d i then
    let lo := max (b.lower i) (max (b.d i) (ecc - b.d i))
    let up := min (b.upper i) (ecc + b.d i)
    { b with
      lower := upd b.lower i lo, upper := upd b.upper i up
      minlower := min lo b.minlower, minupper := min up b.minupper
      maxlower := max lo b.maxlower, maxupper := max up b.maxupper }
  else b

/-- The condition for the removal of a candidate, BDGraph.cpp:246-251. -/
def settled (b : Bounding) (i : Nat) : Bool :=
  decide (b.lower i = b.upper i) ||
    match type with
    | .diameter => decide (b.upper i ≤ b.maxlower) && decide (b.lower i * 2 ≥ b.maxupper)
    | .radius => decide (b.lower i ≥ b.minupper) && decide ((b.upper i + 1) / 2 ≤ b.minlower)
    | .periphery => decide (b.upper i < b.maxlower) && (decide (b.maxlower = b.maxupper) || decide (b.lower i * 2 > b.maxupper))
    | .center => decide (b.lower i > b.minupper) && (decide (b.minlower = b.minupper) || decide ((b.upper i + 1) / 2 < b.minlower))
    | .eccentricities => decide (b.lower i = b.upper i)

/-- BDGraph.cpp:259-264. -/
def nextLow (b : Bounding) (i : Nat) : Int :=
  if b.minlowernode = -1 then i
  else if b.lower i = b.lower b.minlowernode.toNat ∧ (nbr i).length > (nbr b.minlowernode.toNat).length then i
  else if b.lower i < b.lower b.minlowernode.toNat then i
  else b.minlowernode

/-- BDGraph.cpp:265-270. -/
def nextHigh (b : Bounding) (i : Nat) : Int :=
  if b.maxuppernode = -1 then i
  else if b.upper i = b.upper b.maxuppernode.toNat ∧ (nbr i).length > (nbr b.maxuppernode.toNat).length then i
  else if b.upper i > b.upper b.maxuppernode.toNat then i
  else b.maxuppernode

/-- The body of the loop that updates the candidates, BDGraph.cpp:240-272. -/
def filter (b : Bounding) (i : Nat) : Bounding :=
  if b.candidate i && eligible scope pruned b.d i then
    if settled type b i then { b with candidate := upd b.candidate i false, candidates := b.candidates - 1 }
    else { b with minlowernode := nextLow nbr b i, maxuppernode := nextHigh nbr b i }
  else b

/-- The body of the main loop, BDGraph.cpp:175-281. -/
def round (b : Bounding) : Option Bounding :=
  let b := select n nbr scope pruned b
  (eccentricity n nbr pruned b.current).map fun r =>
    let b := clear nl { b with d := r.1 }
    let b := (List.range n).foldl (improve scope pruned r.2) b
    (List.range n).foldl (filter nbr scope pruned type) b

/-- The main loop, BDGraph.cpp:174-282. -/
def loop : Nat → Bounding → Option Bounding
  | k, b =>
    if b.candidates > 0 then
      match k with
      | 0 => none
      | k + 1 => (round n nbr scope nl pruned type b).bind (loop k)
    else some b

/-- The processing of the pruned nodes, BDGraph.cpp:304-308. -/
def fill (lower : Nat → Int) : Nat → Int :=
  (List.range n).foldl (fun lo i => if 0 ≤ pruned i then upd lo i (lo (pruned i).toNat) else lo) lower

/-- The end of `extremaBounding`, BDGraph.cpp:291-334: the result, and the vector `ecc_lower`. -/
def finish (b : Bounding) : Int × List Int :=
  match type with
  | .diameter => (b.maxlower, (List.range n).map b.lower)
  | .radius => (b.minupper, (List.range n).map b.lower)
  | .periphery =>
    let lower := fill n pruned b.lower
    ((List.range n).countP fun i => lower i == b.maxlower, (List.range n).map lower)
  | .center => ((List.range n).countP fun i => b.upper i == b.minupper, (List.range n).map (fill n pruned b.lower))
  | .eccentricities => (0, (List.range n).map (fill n pruned b.lower))

end

end Bounding

/-- `extremaBounding` with pruning for an undirected graph, BDGraph.cpp:146-335: the result, and the vector `ecc_lower`. -/
def extremaBounding (n : Nat) (nbr : Nat → List Nat) (scope : Nat → Bool) (nl : Nat) (type : Measure) : Option (Int × List Int) :=
  if nl < 2 then some (0, List.replicate n (-1))
  else
    let p := Pruning.compute n nbr scope
    (Bounding.loop n nbr scope nl p.pruned type n (Bounding.start nl p.count)).map (Bounding.finish n p.pruned type)

/-- `inScope(i, LWCC)`, Graph.cpp:146-151. -/
def Wcc.inLargest (w : Wcc) (i : Nat) : Bool := w.id i == w.largest

/-- `computeWCC` and one of the functions `diameterBD`, `radiusBD`, `eccentricitiesBD`, `peripherySizeBD` and `centerSizeBD`,
BDGraph.cpp:104-143. -/
def extremes (n : Nat) (nbr : Nat → List Nat) (type : Measure) : Option (Int × List Int) :=
  (Wcc.compute n nbr).bind fun w => extremaBounding n nbr w.inLargest (w.size w.largest) type

end Candy
