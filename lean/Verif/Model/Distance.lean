import Verif.Model.Centrality

/-!
# Model of distances in a graph (src/candy/teexgraph/Graph.cpp:648-787, CenGraph.cpp:15-63)

`n` is the number of nodes and `out` are the lists `E` of a directed or undirected graph. The functions `alldistances`,
`distances`, `closenessSum` and `closenesses` contain the same breadth-first search with different additional statements, so
the search is modelled once, with the additional statement as parameter. Elements of type `int` and `long` are unbounded
integers, `double` are rational numbers. `none` is an access outside of a vector (all vectors have `n` elements), or that the
number given as bound of the number of rounds is exceeded.
-/

namespace Candy.Dst

/-- The variables of a search: the vector `d`, the queue (front first), and what the additional statement changes. -/
structure Search (α : Type) where
  d : Nat → Int
  q : List Nat
  acc : α

variable {α : Type}

/-- The body of the loop over the neighbours, Graph.cpp:685-688, 709-713, CenGraph.cpp:29-33, 54-58; `f` is the additional
statement for the node that was reached and its distance. -/
def Search.edge (f : α → Nat → Int → Option α) (v : Nat) (s : Search α) (w : Nat) : Option (Search α) :=
  if s.d w = -1 then
    match f s.acc w (s.d v + 1) with
    | none => none
    | some a => some ⟨upd s.d w (s.d v + 1), s.q ++ [w], a⟩
  else some s

/-- The loop over the queue, Graph.cpp:680-691, 704-715, CenGraph.cpp:24-35, 49-60. -/
def Search.loop (n : Nat) (out : Nat → List Nat) (f : α → Nat → Int → Option α) : Nat → Search α → Option (Search α)
  | k, s =>
    match s.q with
    | [] => some s
    | v :: q =>
      match k with
      | 0 => none
      | k + 1 =>
        if v < n ∧ ∀ w ∈ out v, w < n then
          match (out v).foldlM (Search.edge f v) { s with q := q } with
          | none => none
          | some s => Search.loop n out f k s
        else none

/-- The search from `u`, Graph.cpp:674-690. -/
def search (n : Nat) (out : Nat → List Nat) (f : α → Nat → Int → Option α) (u : Nat) (a : α) : Option (Search α) :=
  if u < n then Search.loop n out f n ⟨upd (fun _ => -1) u 0, [u], a⟩ else none

/-- `alldistances`, Graph.cpp:673-692: the elements of the vector `d`. -/
def alldistances (n : Nat) (out : Nat → List Nat) (u : Nat) : Option (List Int) :=
  (search n out (fun a _ _ => some a) u ()).map fun s => (List.range n).map s.d

/-- `dtotals[k]++`. -/
def tally (n : Nat) (t : Nat → Nat) (k : Int) : Option (Nat → Nat) :=
  if 0 ≤ k ∧ k < n then some (upd t k.toNat (t k.toNat + 1)) else none

/-- `distances`, Graph.cpp:696-717: the changed vector `dtotals`. -/
def distances (n : Nat) (out : Nat → List Nat) (u : Nat) (t : Nat → Nat) : Option (Nat → Nat) :=
  match tally n t 0 with
  | none => none
  | some t => (search n out (fun t _ k => tally n t k) u t).map Search.acc

/-- `closenessSum`, CenGraph.cpp:15-37. -/
def closenessSum (n : Nat) (out : Nat → List Nat) (u : Nat) : Option Int :=
  (search n out (fun a _ k => some (a + k)) u 0).map Search.acc

/-- The loop over the neighbours in `distance`, Graph.cpp:660-667: the state, or the returned value. -/
def distEdges (target v : Nat) : List Nat → (Nat → Int) × List Nat → Sum Int ((Nat → Int) × List Nat)
  | [], s => .inr s
  | w :: ws, (d, q) =>
    if d w = -1 then
      if w = target then .inl (upd d w (d v + 1) target) else distEdges target v ws (upd d w (d v + 1), q ++ [w])
    else distEdges target v ws (d, q)

/-- The loop over the queue in `distance`, Graph.cpp:656-669. -/
def distLoop (n : Nat) (out : Nat → List Nat) (target : Nat) : Nat → (Nat → Int) × List Nat → Option Int
  | k, (d, q) =>
    match q with
    | [] => some (d target)
    | v :: q =>
      match k with
      | 0 => none
      | k + 1 =>
        if v < n ∧ ∀ w ∈ out v, w < n then
          match distEdges target v (out v) (d, q) with
          | .inl r => some r
          | .inr s => distLoop n out target k s
        else none

/-- `distance`, Graph.cpp:649-670. -/
def distance (n : Nat) (out : Nat → List Nat) (u v : Nat) : Option Int :=
  if u < n ∧ v < n then distLoop n out v n (upd (fun _ => -1) u 0, [u]) else none

/-- The loop of `distanceDistribution` for a sample size of one, Graph.cpp:749-773; the state is `donecount` and `longarray`. -/
def distStep (n : Nat) (out : Nat → List Nat) (scope : Nat → Bool) (maxi : Nat) (s : Nat × (Nat → Nat)) (i : Nat) :
    Option (Nat × (Nat → Nat)) :=
  if maxi ≤ s.1 then some s
  else if scope i = false then some s
  else (distances n out i s.2).map fun t => (s.1 + 1, t)

/-- `distanceDistribution` for a sample size of one, Graph.cpp:731-787; `nl` is `nodes(scope)`. -/
def distanceDistribution (n : Nat) (out : Nat → List Nat) (scope : Nat → Bool) (nl : Int) : Option (List Nat) :=
  if nl < 2 then some [0]
  else ((List.range n).foldlM (distStep n out scope nl.toNat) (0, fun _ => 0)).map fun s => (List.range n).map s.2

/-- `averageDistance` for a sample size of one, Graph.cpp:719-728. The inner `none` is the quotient 0/0. -/
def averageDistance (n : Nat) (out : Nat → List Nat) (scope : Nat → Bool) (nl : Int) : Option (Option Rat) :=
  match distanceDistribution n out scope nl with
  | none => none
  | some result =>
    match (List.range n).mapM fun i => result[i]? with
    | none => none
    | some r =>
      let res : Nat := ((List.range n).map fun i => i * r.getD i 0).sum
      some (if nl * (nl - 1) = 0 then none else some ((res : Rat) / ((nl * (nl - 1) : Int) : Rat)))

/-- The choice of a node for a sample, Graph.cpp:757-760: `a` starts with `n`, which is inside of `done` (of size `n + 1`). The
loop evaluates `inScope(a, scope)`, which reads `wccId[n]` unless the scope is `FULL` (Graph.cpp:146-151). -/
def sampleNode (n : Nat) (full : Bool) : Option Nat := if full then some n else none

/-- The first round of `distanceDistribution` for a sample size below one, Graph.cpp:749-763, `done` being false everywhere. -/
def sampleRound (n : Nat) (out : Nat → List Nat) (full : Bool) (t : Nat → Nat) : Option (Nat → Nat) :=
  match sampleNode n full with
  | none => none
  | some a => distances n out a t

end Candy.Dst
