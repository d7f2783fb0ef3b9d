import Verif.Model.FastRand
import Verif.Model.Simulation

/-!
# Model of the randomisation strategies (src/candy/randomsimulation/Randomization.cc)

`none` is undefined behaviour: a division by zero, or an access outside the array of vectors. `unsigned int` has 32
bits. The fields of all vectors are visited in the order of the indices; the functions below get the list of all
pairs of an index and a field.
-/

namespace Candy

/-- Assignment to `get(v).vars[i]`, SimulationVector.h:68-74 and 180-184. -/
def SimVectors.setField (A : SimVectors) (v : Nat) (i : Fin 32) (x : BitVec 64) : Option SimVectors :=
  if v < A.size then some { A with vec := upd A.vec v (fun k => if k = i then x else A.vec v k) } else none

namespace Randomization

/-- The iteration of `for (auto index : indices) for (int i = 0; i < VARSIMVECSIZE; ++i)`, Randomization.cc:76-77,
151-152, 174-175 and 188-189. -/
def slots (indices : List Nat) : List (Nat × Fin 32) :=
  indices.flatMap fun v => (List.finRange 32).map fun i => (v, i)

/-- The first loop, Randomization.cc:76-80 and 151-155; the state of the generator comes first. -/
def fill : List (Nat × Fin 32) → BitVec 64 → SimVectors → Option (BitVec 64 × SimVectors)
  | [], s, A => some (s, A)
  | (v, i) :: ps, s, A =>
    match A.setField v i (fastNextRand s) with
    | none => none
    | some A => fill ps (fastNextRand s) A

/-- The loop over `j`, Randomization.cc:176-178 and 190-192, with `n` iterations on the field with the value `x`. -/
def mixWord (toTrue : Bool) : Nat → BitVec 64 → BitVec 64 → BitVec 64 × BitVec 64
  | 0, s, x => (s, x)
  | n + 1, s, x => mixWord toTrue n (fastNextRand s) (if toTrue then x ||| fastNextRand s else x &&& fastNextRand s)

/-- The loops of `randomizeWithTrueBias` and `randomizeWithFalseBias`, Randomization.cc:174-180 and 188-194. -/
def mix (toTrue : Bool) (n : Nat) : List (Nat × Fin 32) → BitVec 64 → SimVectors → Option (BitVec 64 × SimVectors)
  | [], s, A => some (s, A)
  | (v, i) :: ps, s, A =>
    match A.get v with
    | none => none
    | some x =>
      match A.setField v i (mixWord toTrue n s (x i)).2 with
      | none => none
      | some A => mix toTrue n ps (mixWord toTrue n s (x i)).1 A

end Randomization

/-- `RandomizationCyclicallyBiased`, Randomization.cc:124-129. -/
structure CyclicRand where
  state : BitVec 64
  minBias : BitVec 32
  maxBias : BitVec 32
  step : BitVec 32
  toTrue : Bool
  invocations : BitVec 32
  deriving DecidableEq

namespace CyclicRand

/-- The constructor, Randomization.cc:132-144. -/
def new (minBias maxBias step : BitVec 32) (toTrue : Bool) : CyclicRand :=
  ⟨0xFFFF, minBias, maxBias, step, toTrue, 0⟩

/-- `getCurrentBias`, Randomization.cc:166-168. -/
def bias (R : CyclicRand) : Option (BitVec 32) :=
  if R.maxBias + 1 = 0 then none else some ((R.minBias + R.invocations * R.step) % (R.maxBias + 1))

/-- `randomizeWithTrueBias` and `randomizeWithFalseBias`, Randomization.cc:170-196, behind the first loop. -/
def mixAll (R : CyclicRand) (indices : List Nat) (s : BitVec 64) (A : SimVectors) : Option (BitVec 64 × SimVectors) :=
  match R.bias with
  | none => none
  | some k => if 1 < k.toNat then Randomization.mix R.toTrue (k.toNat - 1) (Randomization.slots indices) s A else some (s, A)

/-- `randomize`, Randomization.cc:149-164. -/
def randomize (R : CyclicRand) (indices : List Nat) (A : SimVectors) : Option (CyclicRand × SimVectors) :=
  match Randomization.fill (Randomization.slots indices) R.state A with
  | none => none
  | some (s, A) =>
    match R.mixAll indices s A with
    | none => none
    | some (s, A) => some ({ R with state := s, invocations := R.invocations + 1 }, A)

end CyclicRand

/-- The classes derived from `Randomization`: `SimpleRandomization`, Randomization.cc:43-59,
`RandomizationCyclicallyBiased`, and `AlternatingRandomization`, Randomization.cc:219-238. -/
inductive Randomizer where
  | simple (state : BitVec 64)
  | cyclic (R : CyclicRand)
  | alternating (a b : Randomizer) (period invocations : BitVec 32)
  deriving DecidableEq

namespace Randomizer

/-- `createSimpleRandomization`, Randomization.cc:61-63 and 83-85. -/
def newSimple : Randomizer := .simple 0xFFFF

/-- `createRandomizationCyclicallyBiasedToTrue` and `...ToFalse`, Randomization.cc:204-214. -/
def newCyclic (minBias maxBias step : BitVec 32) (toTrue : Bool) : Randomizer :=
  .cyclic (.new minBias maxBias step toTrue)

/-- `createRandomizationBiasedToTrue` and `...ToFalse`, Randomization.cc:89-95. -/
def newBiased (bias : BitVec 32) (toTrue : Bool) : Randomizer := newCyclic bias bias 0 toTrue

/-- `alternateRandomizations`, Randomization.cc:240-248 and 264-270. -/
def alternate (a b : Randomizer) (period : BitVec 32) : Randomizer := .alternating a b period 0

/-- `randomize`: Randomization.cc:74-81, 149-164 and 253-261. -/
def randomize : Randomizer → List Nat → SimVectors → Option (Randomizer × SimVectors)
  | .simple s, indices, A => (Randomization.fill (Randomization.slots indices) s A).map fun r => (.simple r.1, r.2)
  | .cyclic R, indices, A => (R.randomize indices A).map fun r => (.cyclic r.1, r.2)
  | .alternating a b period n, indices, A =>
    if period = 0 then none
    else if n / period % 2 = 0 then (a.randomize indices A).map fun r => (.alternating r.1 b period n, r.2)
    else (b.randomize indices A).map fun r => (.alternating a r.1 period n, r.2)

/-- The strategy used if none is configured, RandomSimulator.cc:193-200. -/
def default : Randomizer := alternate (newCyclic 1 5 1 true) (newCyclic 1 5 1 false) 5

/-- A sequence of calls, each on the vectors as they are then. The result has the vectors after every call. -/
def calls : Randomizer → List (List Nat × SimVectors) → Option (Randomizer × List SimVectors)
  | r, [] => some (r, [])
  | r, (indices, A) :: cs =>
    match r.randomize indices A with
    | none => none
    | some (r, A) => (calls r cs).map fun x => (x.1, A :: x.2)

end Randomizer

end Candy
