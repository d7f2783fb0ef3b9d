import Verif.Model.FastRand
import Verif.Model.Simulation

/-!
# Model of the partition of variables by simulation (src/candy/randomsimulation/Partition.cc)

The reduction rate is not modelled: it only decides when simulation is stopped, so the number of rounds is
arbitrary. The round counter does not wrap.
-/

namespace Candy

/-- `PartitionEntry`, Partition.cc:172-179. -/
structure PartitionEntry where
  groupId : BitVec 64
  varId : Nat
  backbone : Bool
  backboneVal : Bool
  polarity : Bool
  deriving DecidableEq

/-- `DefaultPartition`, Partition.cc:205-213. -/
structure Partition where
  round : Nat
  pos : List PartitionEntry
  neg : List PartitionEntry
  variables : List Nat

namespace Partition

/-- The constructor followed by `setVariables`, Partition.cc:216-233. -/
def new (variables : List Nat) : Partition := ⟨0, [], [], variables⟩

/-- The hashing loops, Partition.cc:260-264 and 284-288. -/
def hash (g : BitVec 64) (fields : List (BitVec 64)) : BitVec 64 :=
  fields.foldl (fun g x => fastNextRand (g ^^^ x)) g

/-- The fields of the vector of a variable; the variables are within the array (`C40_gates`). -/
def fields (A : SimVectors) (v : Nat) : List (BitVec 64) := List.ofFn (A.vec v)

/-- `initializePartitionEntry`, Partition.cc:235-251, the entry of `m_partitioningPos`. `varId` has 28 bits. -/
def initPos (A : SimVectors) (v : Nat) : PartitionEntry :=
  ⟨fastNextRand (A.vec v 0), v % 2 ^ 28, true, (A.vec v 0).getLsbD 0, true⟩

/-- The entry of `m_partitioningNeg`. -/
def initNeg (A : SimVectors) (v : Nat) : PartitionEntry :=
  ⟨fastNextRand (~~~ A.vec v 0), v % 2 ^ 28, false, (A.vec v 0).getLsbD 0, false⟩

/-- `updatePartitioningPos`, Partition.cc:253-276, for one entry. -/
def updatePos (A : SimVectors) (initial : Bool) (e : PartitionEntry) : PartitionEntry :=
  { e with
    groupId := hash e.groupId ((fields A e.varId).drop (if initial then 1 else 0))
    backbone := e.backbone && (fields A e.varId).all fun x => if e.backboneVal then ~~~ x == 0 else x == 0 }

/-- `updatePartitioningNeg`, Partition.cc:278-290, for one entry. -/
def updateNeg (A : SimVectors) (initial : Bool) (e : PartitionEntry) : PartitionEntry :=
  { e with groupId := hash e.groupId (((fields A e.varId).map (~~~ ·)).drop (if initial then 1 else 0)) }

/-- The order `groupIDs_detOrder` computed by `getPartitionsByID`, Partition.cc:367-388: a group is recorded if it
is empty before the entries of the iteration are added. -/
def groupOrder : List (PartitionEntry × PartitionEntry) → List (BitVec 64) → List (BitVec 64)
  | [], _ => []
  | (p, n) :: es, seen =>
    (if seen.contains p.groupId then [] else [p.groupId]) ++ (if seen.contains n.groupId then [] else [n.groupId]) ++
      groupOrder es (p.groupId :: n.groupId :: seen)

/-- The entries in the order in which `getPartitionsByID` adds them to their groups. -/
def entries (es : List (PartitionEntry × PartitionEntry)) : List PartitionEntry := es.flatMap fun e => [e.1, e.2]

/-- `partitionsByID[id]`. -/
def group (es : List (PartitionEntry × PartitionEntry)) (id : BitVec 64) : List PartitionEntry :=
  (entries es).filter fun e => e.groupId == id

/-- `varIdToNegGroupId`, Partition.cc:384-386: later entries overwrite. -/
def negGroups (es : List (PartitionEntry × PartitionEntry)) : Nat → BitVec 64 :=
  es.foldl (fun f e => upd f e.1.varId e.2.groupId) fun _ => 0

/-- The condition for keeping a group, Partition.cc:406. -/
def keeps (part : List PartitionEntry) : Bool :=
  decide (1 < part.length) || (part.take 1).all fun e => e.polarity && e.backbone

/-- `compressPartitioning`, Partition.cc:391-415, with `writeBackPartitionEntry`, Partition.cc:324-350. Entries
are written to the front of the vectors; writing behind the end is undefined behaviour. -/
def compress (P : Partition) : Option Partition :=
  let es := P.pos.zip P.neg
  let kept := (groupOrder es []).flatMap fun id =>
    if keeps (group es id) then (group es id).filter (·.polarity) else []
  if kept.length ≤ P.pos.length then
    some { P with pos := kept, neg := kept.map fun e => ⟨negGroups es e.varId, e.varId, false, false, false⟩ }
  else none

/-- `ensureInitialized`, Partition.cc:292-304. -/
def ensureInitialized (P : Partition) (A : SimVectors) : Partition :=
  if P.round ≠ 0 then P
  else { P with pos := (P.pos ++ P.variables.map (initPos A)).map (updatePos A true)
                neg := (P.neg ++ P.variables.map (initNeg A)).map (updateNeg A true) }

/-- `update`, Partition.cc:306-322. -/
def update (sched : Nat → Bool) (P : Partition) (A : SimVectors) : Option Partition :=
  let P := P.ensureInitialized A
  let P := { P with pos := P.pos.map (updatePos A false), neg := P.neg.map (updateNeg A false) }
  (if sched P.round then P.compress else some P).map fun P => { P with round := P.round + 1 }

/-- All rounds of a simulation, RandomSimulator.cc:104-108. -/
def run (sched : Nat → Bool) : List SimVectors → Partition → Option Partition
  | [], P => some P
  | A :: As, P =>
    match P.update sched A with
    | none => none
    | some P => run sched As P

/-- The flags of `isIgnoringPartition`, Partition.cc:426-434, and `seenVariables`. -/
structure Ignoring where
  seenVar : Bool
  hasPos : Bool
  hasBackbone : Bool
  seen : Nat → Bool

/-- The loop of `isIgnoringPartition`, Partition.cc:429-434. -/
def ignoringLoop : List PartitionEntry → Ignoring → Ignoring
  | [], s => s
  | e :: es, s => ignoringLoop es
      { seenVar := s.seenVar || (!e.polarity && s.seen e.varId)
        hasPos := s.hasPos || e.polarity
        hasBackbone := s.hasBackbone || e.backbone
        seen := upd s.seen e.varId (s.seen e.varId || e.polarity) }

/-- `addToConjectures`, Partition.cc:441-458. -/
def toConjecture (part : List PartitionEntry) : List (List Lit) :=
  let lits := (part.filter fun e => !e.backbone).map fun e => (⟨e.varId, e.polarity⟩ : Lit)
  if 1 < part.length ∧ 2 ≤ lits.length then [lits] else []

/-- The loop over the groups in `getConjectures`, Partition.cc:489-494. -/
def conjLoop (es : List (PartitionEntry × PartitionEntry)) : List (BitVec 64) → (Nat → Bool) → List (List Lit)
  | [], _ => []
  | id :: ids, seen =>
    let r := ignoringLoop (group es id) ⟨false, false, false, seen⟩
    (if r.seenVar || !r.hasPos || r.hasBackbone then [] else toConjecture (group es id)) ++ conjLoop es ids r.seen

/-- The equivalences of `getConjectures`, Partition.cc:470-497. -/
def equivalences (P : Partition) : List (List Lit) :=
  conjLoop (P.pos.zip P.neg) (groupOrder (P.pos.zip P.neg) []) fun _ => false

/-- The backbones of `getConjectures`, Partition.cc:460-467. -/
def backbones (P : Partition) : List Lit :=
  (P.pos.filter (·.backbone)).map fun e => ⟨e.varId, e.backboneVal⟩

end Partition

end Candy
