import Verif.Model.Simulation

/-!
# Model of the recursive clause order (src/candy/randomsimulation/ClauseOrder.cc:195-274)

`backtrack` has no influence on the recursion: the model of the recursion records the gates for which it is called,
and executes the calls afterwards, in the same order. `none` means that the number given as a bound of the depth of
recursion is exceeded.
-/

namespace Candy

/-- What `readGatesRecursive` reads and writes: `seenInputs`, `seenOutputs`, the calls of `backtrack`,
`m_inputVariables` and `m_maxVar + 1`. -/
structure RecOrder where
  seenIn : List Nat
  seenOut : List Nat
  back : List Nat
  inputs : List Nat
  numVars : Nat
  deriving DecidableEq

namespace ClauseOrder

/-- `m_maxVar = std::max(m_maxVar, v)`, ClauseOrder.cc:238 and 254. -/
def sawVar (v : Nat) (s : RecOrder) : RecOrder := { s with numVars := max s.numVars (v + 1) }

/-- The body of the loop over the inputs, ClauseOrder.cc:252-265; `rec` is the recursive call. -/
def recInput (G : GateProblem) (rec : Nat → RecOrder → Option RecOrder) (s : RecOrder) (l : Lit) : Option RecOrder :=
  if (G.gates l.var).isDefined && !s.seenOut.contains l.var then rec l.var (sawVar l.var s)
  else if !s.seenOut.contains l.var && !s.seenIn.contains l.var then
    some { sawVar l.var s with seenIn := l.var :: s.seenIn, inputs := s.inputs ++ [l.var] }
  else some (sawVar l.var s)

/-- `readGatesRecursive`, ClauseOrder.cc:246-270. -/
def recGate (G : GateProblem) : Nat → Nat → RecOrder → Option RecOrder
  | 0, _, _ => none
  | n + 1, v, s =>
    ((G.gates v).inp.foldlM (recInput G (recGate G n)) { s with seenOut := v :: s.seenOut }).map
      fun s => { s with back := s.back ++ [v] }

/-- The body of the loop over the literals of the roots, ClauseOrder.cc:237-242. -/
def recRoot (G : GateProblem) (n : Nat) (s : RecOrder) (l : Lit) : Option RecOrder :=
  if (G.gates l.var).isDefined then recGate G n l.var (sawVar l.var s) else some (sawVar l.var s)

/-- `readGates` of `RecursiveClauseOrder`, ClauseOrder.cc:227-244, with the one of the base class, lines 184-194.
`filter` are the enabled outputs of the gate filter, if there is one; `gateCount` is `getGateCount()`. -/
def readGatesRec (G : GateProblem) (cls : Nat → Clause) (filter : Option (List Nat)) (gateCount n : Nat) : Option ClauseOrder :=
  if gateCount = 0 then some new
  else
    ((G.roots.flatMap cls).foldlM (recRoot G n) ⟨[], [], [], [], 0⟩).map fun s =>
      s.back.foldl (fun o v => backtrack G filter v o) ⟨s.inputs, [], fun _ => none, s.numVars⟩

end ClauseOrder

end Candy
