/-!
# Model of `bqueue<uint32_t>` (src/candy/mtl/BoundedQueue.h) and `Restart`
(src/candy/systems/Restart.h)

`elems` is a list of fixed length; accesses outside of it and division by zero are undefined
behaviour, here `none`. The exponential average (`getAvgExp`, `exp`, `value`, `expComputed`) and
`getavgDouble` are not modelled. Indices are unbounded; they never exceed the capacity, which is
an `unsigned int`.
-/

namespace Candy

/-- `bqueue`, BoundedQueue.h:43-50. -/
structure BQueue where
  first : Nat
  last : Nat
  queuesize : Nat
  sum : BitVec 32
  elems : List (BitVec 32)
deriving DecidableEq, Repr

namespace BQueue

/-- `bqueue::bqueue(size)`, BoundedQueue.h:52-56. -/
def new (size : Nat) : BQueue := ⟨0, 0, 0, 0, List.replicate size 0⟩

/-- `++i` with wrap at the capacity, BoundedQueue.h:63 and 80. -/
def next (q : BQueue) (i : Nat) : Nat := if i + 1 = q.elems.length then 0 else i + 1

/-- Second half of `push`, BoundedQueue.h:67-69. -/
def store (q : BQueue) (x : BitVec 32) : Option BQueue :=
  if q.first < q.elems.length then
    let q' := { q with sum := q.sum + x, elems := q.elems.set q.first x }
    some (if q.first + 1 = q.elems.length then { q' with first := 0, last := 0 }
      else { q' with first := q.first + 1 })
  else none

/-- `bqueue::push`, BoundedQueue.h:58-70. -/
def push (q : BQueue) (x : BitVec 32) : Option BQueue :=
  if q.queuesize = q.elems.length then
    match q.elems[q.last]? with
    | none => none
    | some y => store { q with sum := q.sum - y, last := q.next q.last } x
  else store { q with queuesize := q.queuesize + 1 } x

/-- `bqueue::peek`, BoundedQueue.h:72-75. -/
def peek (q : BQueue) : Option (BitVec 32) := q.elems[q.last]?

/-- `bqueue::pop`, BoundedQueue.h:77-81 (on an empty queue the size underflows: `none`). -/
def pop (q : BQueue) : Option BQueue :=
  match q.elems[q.last]? with
  | none => none
  | some y =>
    if q.queuesize = 0 then none
    else some { q with sum := q.sum - y, queuesize := q.queuesize - 1, last := q.next q.last }

/-- `bqueue::getavg`, BoundedQueue.h:87-89; `none` is division by zero. -/
def getavg (q : BQueue) : Option Nat :=
  if q.queuesize = 0 then none else some (q.sum.toNat / q.queuesize)

/-- `bqueue::isvalid`, BoundedQueue.h:103-105. -/
def isvalid (q : BQueue) : Bool := q.queuesize == q.elems.length

/-- `bqueue::fastclear`, BoundedQueue.h:125-130. -/
def fastclear (q : BQueue) : BQueue := { q with first := 0, last := 0, queuesize := 0, sum := 0 }

end BQueue

/-- The floating point side of `Restart`, Restart.h:36-38: the values of `sumLBD`, its
accumulation, and the two comparisons. All are arbitrary. -/
structure RestartParams where
  Sum : Type
  zero : Sum
  add : Sum → BitVec 32 → Sum
  /-- `trail.size() > R * trailQueue.getavg()` -/
  block : Nat → Nat → Bool
  /-- `lbdQueue.getavg() * K > sumLBD / nConflicts` -/
  high : Nat → Sum → Nat → Bool

/-- `Restart`, Restart.h:30-39. -/
structure RestartState (P : RestartParams) where
  restarts : Nat
  sumLBD : P.Sum
  lbdQueue : BQueue
  trailQueue : BQueue

namespace RestartState

variable {P : RestartParams}

/-- `Restart::Restart`, Restart.h:42-48. -/
def new (P : RestartParams) (szLbd szTrail : Nat) : RestartState P :=
  ⟨0, P.zero, .new szLbd, .new szTrail⟩

/-- The blocking test, Restart.h:58. `&&` short-circuits, so the average is only formed when the
other conditions hold. -/
def blocks (s : RestartState P) (trailQueue : BQueue) (nConflicts trailSize : Nat) : Option Bool :=
  if nConflicts > 10000 ∧ s.lbdQueue.isvalid = true then
    trailQueue.getavg.map (P.block trailSize)
  else some false

/-- `Restart::process_conflict`, Restart.h:56-63. -/
def processConflict (s : RestartState P) (nConflicts trailSize : Nat) (lbd : BitVec 32) :
    Option (RestartState P) :=
  match s.trailQueue.push (BitVec.ofNat 32 trailSize) with
  | none => none
  | some tq =>
    match s.blocks tq nConflicts trailSize with
    | none => none
    | some b =>
      match (if b then s.lbdQueue.fastclear else s.lbdQueue).push lbd with
      | none => none
      | some lq => some { s with trailQueue := tq, lbdQueue := lq, sumLBD := P.add s.sumLBD lbd }

/-- `Restart::trigger_restart`, Restart.h:65-72. -/
def triggerRestart (s : RestartState P) (nConflicts : Nat) : Option (RestartState P × Bool) :=
  if nConflicts > 0 ∧ s.lbdQueue.isvalid = true then
    match s.lbdQueue.getavg with
    | none => none
    | some avg =>
      if P.high avg s.sumLBD nConflicts then
        some ({ s with lbdQueue := s.lbdQueue.fastclear, restarts := s.restarts + 1 }, true)
      else some (s, false)
  else some (s, false)

end RestartState

end Candy
