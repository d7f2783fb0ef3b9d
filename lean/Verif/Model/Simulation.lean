import Verif.Model.Traversal

/-!
# Model of bit-parallel simulation
(src/candy/randomsimulation/{SimulationVector.h,ClauseOrder.cc,Propagation.cc})

In a simulation vector a set bit stands for the literal with `sign() == true`, that is, for the value false of
the variable.
-/

namespace Candy

/-! ## Simulation vectors -/

/-- `SimulationVector`, SimulationVector.h:68-74: 32 fields of 64 bits. -/
abbrev SimVec := Fin 32 → BitVec 64

namespace SimVec

/-- `createVarSimVector`, Propagation.cc:66-72. -/
def fill (ones : Bool) : SimVec := fun _ => if ones then BitVec.allOnes 64 else 0

/-- `operator~`, SimulationVector.h:76-82. -/
def compl (x : SimVec) : SimVec := fun i => ~~~ x i

/-- `operator|=`, SimulationVector.h:100-105. -/
def or (x y : SimVec) : SimVec := fun i => x i ||| y i

/-- `operator&=`, SimulationVector.h:107-112. -/
def and (x y : SimVec) : SimVec := fun i => x i &&& y i

end SimVec

/-- `SimulationVectors`, SimulationVector.h:161-204. -/
structure SimVectors where
  size : Nat
  vec : Nat → SimVec

/-- `get`, SimulationVector.h:180-184. Outside the array the behaviour is undefined: the assertion that
guards it is not compiled in release builds. -/
def SimVectors.get (A : SimVectors) (v : Nat) : Option SimVec := if v < A.size then some (A.vec v) else none

/-- Assignment through the reference returned by `get`. -/
def SimVectors.set (A : SimVectors) (v : Nat) (x : SimVec) : Option SimVectors :=
  if v < A.size then some { A with vec := upd A.vec v x } else none

/-! ## Clause order -/

/-- `ClauseOrderImplBase`, ClauseOrder.cc:86-98. `clauses v` is the vector at index `v` of `m_clausesByOutput`,
`none` is a null pointer or an index out of range; `numVars` is `getAmountOfVars()`, `m_maxVar + 1`. -/
structure ClauseOrder where
  inputs : List Nat
  outputs : List Lit
  clauses : Nat → Option (List Nat)
  numVars : Nat

namespace ClauseOrder

/-- The constructor, ClauseOrder.cc:100-105. -/
def new : ClauseOrder := ⟨[], [], fun _ => none, 0⟩

/-- The test of the gate filter in `backtrack`, ClauseOrder.cc:146-163. `filter` is `m_enabledOutputs` if
filtering is enabled. -/
def passes (G : GateProblem) (filter : Option (List Nat)) (g : Gate) (o : Lit) : Bool :=
  match filter with
  | none => true
  | some enabled => enabled.contains o.var &&
      g.inp.all fun l => !(G.gates l.var).isDefined || enabled.contains l.var

/-- `backtrack`, ClauseOrder.cc:145-182. A gate handed to it is defined. -/
def backtrack (G : GateProblem) (filter : Option (List Nat)) (v : Nat) (s : ClauseOrder) : ClauseOrder :=
  match (G.gates v).out with
  | none => s
  | some o =>
    let g := G.gates v
    if !passes G filter g o then s
    else if g.notMono || decide (g.fwd.length ≤ g.bwd.length) then
      { s with outputs := s.outputs ++ [o.neg], clauses := upd s.clauses o.var (some g.fwd) }
    else
      { s with outputs := s.outputs ++ [o], clauses := upd s.clauses o.var (some g.bwd) }

/-- The variable a call of the collector is about. -/
def callVar : GateCall → Nat
  | .collect v => v
  | .backtrack v => v
  | .collectInput v => v

/-- `readGates` of `NonrecursiveClauseOrder` on a new object, ClauseOrder.cc:338-345, with
`DFSGateCollector`, ClauseOrder.cc:302-336, whose `maxVar` is the largest variable it is called with. The
method does not call the one of the base class: with filtering enabled, `m_enabledOutputs` stays empty. -/
def readGates (G : GateProblem) (cls : Nat → Clause) (filtering : Bool) (fuel : Nat) : Option ClauseOrder :=
  (G.traverseDFS cls (fun _ => false) fuel).map fun calls =>
    (backtracked calls).foldl (fun s v => backtrack G (if filtering then some [] else none) v s)
      { new with inputs := collectedInputs calls
                 numVars := calls.foldl (fun n c => max n (callVar c + 1)) 0 }

end ClauseOrder

/-! ## Propagation -/

namespace SimVectors

/-- The loop over the literals of a clause, Propagation.cc:85-108. -/
def clauseVec (A : SimVectors) (out : Nat) : Clause → SimVec → Option SimVec
  | [], x => some x
  | l :: ls, x =>
    if l.var = out then clauseVec A out ls x
    else
      match A.get l.var with
      | none => none
      | some y => clauseVec A out ls (x.or (if l.sign then y else y.compl))

/-- The loop over the clauses of a gate, Propagation.cc:84-110. -/
def gateVec (A : SimVectors) (out : Nat) : CNF → SimVec → Option SimVec
  | [], x => some x
  | c :: cs, x =>
    match clauseVec A out c (.fill false) with
    | none => none
    | some y => gateVec A out cs (x.and y)

/-- The body of the loop over the outputs, Propagation.cc:80-128. -/
def propagateGate (cls : Nat → Clause) (O : ClauseOrder) (A : SimVectors) (o : Lit) : Option SimVectors :=
  match O.clauses o.var with
  | none => none
  | some is =>
    match gateVec A o.var (is.map cls) (.fill true) with
    | none => none
    | some x => A.set o.var (if o.sign then x.compl else x)

/-- The loop over the outputs. -/
def propagateGates (cls : Nat → Clause) (O : ClauseOrder) : List Lit → SimVectors → Option SimVectors
  | [], A => some A
  | o :: os, A =>
    match propagateGate cls O A o with
    | none => none
    | some A => propagateGates cls O os A

/-- `propagate`, Propagation.cc:74-130. -/
def propagate (cls : Nat → Clause) (O : ClauseOrder) (A : SimVectors) : Option SimVectors :=
  propagateGates cls O O.outputs A

end SimVectors

end Candy
