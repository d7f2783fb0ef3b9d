import Verif.Model.Randomization
import Verif.Model.Partition

/-!
# Model of the random simulator (src/candy/randomsimulation/RandomSimulator.cc)

The reduction rate (a floating point number) and the clock are not modelled: `stop` and `late` say, for every
step, whether simulation is not worthwhile any more and whether the time limit is exceeded.
-/

namespace Candy

/-- `BitparallelRandomSimulator` after `ensureInitialized`, RandomSimulator.h:124-133. -/
structure RandSim where
  order : ClauseOrder
  vectors : SimVectors
  partition : Partition
  rand : Randomizer

/-- How the loop of `runImpl` is left. -/
inductive SimEnd where
  /-- all steps have been made -/
  | steps
  /-- `break`, RandomSimulator.cc:120 -/
  | worthless
  /-- `OutOfTimeException`, RandomSimulator.cc:126 -/
  | outOfTime
  deriving DecidableEq

namespace RandSim

/-- `ensureInitialized`, RandomSimulator.cc:61-78, for the result `O` of `readGates`. The memory of the vectors is only
initialised for the first one, SimulationVector.cc:84-88; `memory` is what it contains. -/
def new (O : ClauseOrder) (memory : Nat → SimVec) (rand : Randomizer) : RandSim :=
  ⟨O, ⟨O.numVars, upd memory 0 (.fill false)⟩, .new (O.outputs.map Lit.var), rand⟩

/-- One step, RandomSimulator.cc:112-114. -/
def step (cls : Nat → Clause) (sched : Nat → Bool) (S : RandSim) : Option RandSim :=
  match S.rand.randomize S.order.inputs S.vectors with
  | none => none
  | some (rand, A) =>
    match A.propagate cls S.order with
    | none => none
    | some A =>
      match S.partition.update sched A with
      | none => none
      | some P => some { S with vectors := A, partition := P, rand := rand }

/-- The loop of `runImpl`, RandomSimulator.cc:111-129, with `n` steps left. For an unbounded run `n` is the number of
steps after which it is interrupted. -/
def loop (cls : Nat → Clause) (sched stop late : Nat → Bool) : Nat → Nat → RandSim → Option (SimEnd × RandSim)
  | 0, _, S => some (.steps, S)
  | n + 1, i, S =>
    match S.step cls sched with
    | none => none
    | some S =>
      if decide (10 < i) && stop i then some (.worthless, S)
      else if late i then some (.outOfTime, S)
      else loop cls sched stop late n (i + 1) S

/-- `realSteps`, RandomSimulator.cc:104-105. -/
def realSteps (nSteps : Nat) : Nat := nSteps / 2048 + if nSteps % 2048 = 0 then 0 else 1

/-- A call of `run(nSteps)` or `run(nSteps, timeLimit)`, RandomSimulator.cc:90-99. -/
def run (cls : Nat → Clause) (sched : Nat → Bool) (nSteps : Nat) (stop late : Nat → Bool) (S : RandSim) :
    Option (SimEnd × RandSim) :=
  S.loop cls sched stop late (realSteps nSteps) 0

/-- A call of `run`: the number of steps, and when simulation is not worthwhile or out of time. -/
structure RunCall where
  nSteps : Nat
  stop : Nat → Bool
  late : Nat → Bool

/-- Several calls of `run` on the same simulator; an exception leaves it in the state reached. -/
def runs (cls : Nat → Clause) (sched : Nat → Bool) : List RunCall → RandSim → Option RandSim
  | [], S => some S
  | c :: cs, S =>
    match S.run cls sched c.nSteps c.stop c.late with
    | none => none
    | some (_, S) => runs cls sched cs S

end RandSim

/-! ## Conjectures -/

/-- `Conjectures`, Conjectures.h: the backbones and the equivalences. -/
structure Conjectures where
  backbones : List Lit
  equivalences : List (List Lit)
  deriving DecidableEq

namespace Conjectures

/-- `getMaxVar`, Conjectures.cc:86-97. -/
def maxVar (c : Conjectures) : Nat :=
  c.equivalences.foldl (fun r e => e.foldl (fun r l => max r l.var) r) (c.backbones.foldl (fun r l => max r l.var) 0)

/-- `countLiteralEquivalences`, Conjectures.cc:99-106. -/
def count (c : Conjectures) : BitVec 64 :=
  c.equivalences.foldl (fun r e => r + (BitVec.ofNat 64 e.length * BitVec.ofNat 64 e.length - BitVec.ofNat 64 e.length) / 2) 0

/-- `SizeConjectureFilter::apply`, Conjectures.cc:138-151. -/
def filterSize (maxSize : Nat) (c : Conjectures) : Conjectures :=
  ⟨c.backbones, c.equivalences.filter fun e => decide (e.length ≤ maxSize)⟩

/-- `BackboneRemovalConjectureFilter::apply`, Conjectures.cc:171-179. -/
def removeBackbones (c : Conjectures) : Conjectures := ⟨[], c.equivalences⟩

end Conjectures

/-- `getConjectures`, RandomSimulator.cc:131 and Partition.cc:460-497. -/
def RandSim.conjectures (S : RandSim) : Conjectures := ⟨S.partition.backbones, S.partition.equivalences⟩

end Candy
