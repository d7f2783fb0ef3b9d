import Verif.Model.Gates

/-!
# Model of the traversal of gates (src/candy/gates/GateDFSTraversal.h)

A pointer to a gate is the index of the gate in the vector of gates, a variable. The traversal is generic in
the collector; the model records the calls made to the collector.
-/

namespace Candy

/-- `isDefined`, GateProblem.h:40. -/
def Gate.isDefined (g : Gate) : Bool := g.out.isSome

/-- The calls `collect`, `backtrack` and `collectInput` of a collector. -/
inductive GateCall where
  | collect (v : Nat)
  | backtrack (v : Nat)
  | collectInput (v : Nat)
  deriving DecidableEq

/-- Local variables of `traverseDFS`, GateDFSTraversal.h:85-104: the top of the stack `work` is the head of
the list. `calls` are the calls of the collector, the first one first. -/
structure DFS where
  work : List (Nat × Bool)
  visited : List Nat
  seenInputs : List Nat
  calls : List GateCall
  deriving DecidableEq

namespace GateProblem

/-- Lines 93-100 of `traverseDFS`. `prune v` is `pruneAt` of the gate `v`. -/
def dfsInit (G : GateProblem) (cls : Nat → Clause) (prune : Nat → Bool) : DFS where
  work := (((G.roots.flatMap cls).filter fun l => (G.gates l.var).isDefined && !prune l.var).map
    fun l => (l.var, false)).reverse
  visited := []
  seenInputs := []
  calls := []

/-- The loop over the inputs of a gate, GateDFSTraversal.h:121-131. -/
def dfsInputs (G : GateProblem) (prune : Nat → Bool) : List Lit → DFS → DFS
  | [], s => s
  | l :: ls, s => dfsInputs G prune ls
      (if (G.gates l.var).isDefined && !s.visited.contains l.var && !prune l.var then
        { s with work := (l.var, false) :: s.work }
      else if !(G.gates l.var).isDefined && !s.seenInputs.contains l.var then
        { s with seenInputs := l.var :: s.seenInputs, calls := s.calls ++ [.collectInput l.var] }
      else s)

/-- The body of the loop of `traverseDFS`, GateDFSTraversal.h:106-132, for the work item popped. -/
def dfsStep (G : GateProblem) (prune : Nat → Bool) (item : Nat × Bool) (s : DFS) : DFS :=
  if item.2 then { s with calls := s.calls ++ [.backtrack item.1] }
  else if s.visited.contains item.1 then s
  else G.dfsInputs prune (G.gates item.1).inp
    { s with calls := s.calls ++ [.collect item.1], visited := item.1 :: s.visited
             work := (item.1, true) :: s.work }

/-- The loop of `traverseDFS`, GateDFSTraversal.h:105-133. The number bounds the iterations. -/
def dfsLoop (G : GateProblem) (prune : Nat → Bool) : Nat → DFS → Option DFS
  | n, s =>
    match s.work with
    | [] => some s
    | item :: work =>
      match n with
      | 0 => none
      | n + 1 => dfsLoop G prune n (G.dfsStep prune item { s with work := work })

/-- `traverseDFS`, GateDFSTraversal.h:83-137: the calls of the collector. -/
def traverseDFS (G : GateProblem) (cls : Nat → Clause) (prune : Nat → Bool) (fuel : Nat) : Option (List GateCall) :=
  (G.dfsLoop prune fuel (G.dfsInit cls prune)).map (·.calls)

end GateProblem

/-- The gates backtracked, in order: `m_backtrackOutputOrder` of `TopologicallyOrderedGates`,
GateDFSTraversal.h:149-151, and `backtrackSequence` of `DFSGateCollector`, ClauseOrder.cc:311-314. -/
def backtracked (calls : List GateCall) : List Nat :=
  calls.filterMap fun | .backtrack v => some v | _ => none

/-- The inputs collected, in order: `inputs` of `DFSGateCollector`, ClauseOrder.cc:320-323. -/
def collectedInputs (calls : List GateCall) : List Nat :=
  calls.filterMap fun | .collectInput v => some v | _ => none

end Candy
