import Verif.Model.Trail

/-!
# Model of the clause database (src/candy/core/clauses/ClauseDatabase.h, Clause.h)

Clauses live in a store indexed by identifiers (addresses). `clauses` is the vector
`ClauseDatabase::clauses` of pointers. A deleted clause stays in that vector until
`reorganize`. The certificate is a log of proof lines.
-/

namespace Candy

/-- `Clause`, src/candy/core/clauses/Clause.h:36-71. The 16-bit limits of `length` and `weight`
are treated separately in `Model/Allocator.lean`; here lengths are unbounded. -/
structure Cls where
  lits : List Lit
  weight : Nat
deriving Repr, DecidableEq

namespace Cls
/-- Marker used by `Clause::setDeleted`, Clause.h:52-54. -/
def deletedWeight : Nat := 65535
/-- `Clause::isDeleted`, Clause.h. -/
def isDeleted (c : Cls) : Bool := c.weight == deletedWeight
/-- `Clause::isLearnt`. -/
def isLearnt (c : Cls) : Bool := 0 < c.weight
/-- `Clause::isPersistent`. -/
def isPersistent (c : Cls) : Bool := c.weight == 0
end Cls

/-- `Watcher` (Propagate.h:40-60) and `BinaryWatcher` (ClauseDatabase.h): a clause and another
literal of it. -/
structure Watcher where
  cref : Nat
  blocker : Lit
deriving Repr, DecidableEq

/-- Lines of the DRAT certificate, src/candy/core/clauses/Certificate.h:66-85. -/
inductive ProofLine where
  | add (c : Clause)
  | del (c : Clause)
  | empty
deriving Repr, DecidableEq

/-- `ClauseDatabase`, ClauseDatabase.h:60-82. -/
structure DB where
  nVars : Nat
  store : Nat → Cls
  next : Nat
  clauses : List Nat
  hasEmpty : Bool
  bin : Lit → List Watcher
  log : List ProofLine

namespace DB

/-- A fresh database, ClauseDatabase.h:85-92. -/
def new : DB where
  nVars := 0
  store := fun _ => ⟨[], 0⟩
  next := 0
  clauses := []
  hasEmpty := false
  bin := fun _ => []
  log := []

/-- Literals of the clause stored at an identifier. -/
abbrev lits (db : DB) (c : Nat) : List Lit := (db.store c).lits

/-- `ClauseDatabase::emptyClause`, ClauseDatabase.h:177-180. -/
def emptyClause (db : DB) : DB :=
  { db with hasEmpty := true, log := db.log ++ [.empty] }

/-- The two `emplace_back` calls of `createClause`/`reinitBinaryWatchers`
(ClauseDatabase.h:119-128, 193-198) and of `Propagate::attachClause`: append `(c, y)` to the list
of `~x` and `(c, x)` to the list of `~y`. -/
def addBin (bin : Lit → List Watcher) (c : Nat) (x y : Lit) : Lit → List Watcher :=
  fun p => bin p ++ ((if p = x.neg then [⟨c, y⟩] else []) ++ (if p = y.neg then [⟨c, x⟩] else []))

/-- `ClauseDatabase::createClause`, ClauseDatabase.h:183-201. Returns the new identifier.
The weight is stored in
a `uint16_t`. Simplification: identifiers are never reused. -/
def createClause (db : DB) (ls : List Lit) (lbd : Nat := 0) (lemma_ : Bool := false) : DB × Nat :=
  let weight := if ls.length < 3 then 0 else lbd % 65536
  let db := { db with
    store := upd db.store db.next ⟨ls, weight⟩
    next := db.next + 1
    clauses := db.clauses ++ [db.next]
    log := if lemma_ then db.log else db.log ++ [.add ls] }
  let id := db.next - 1
  match ls with
  | [] => ({ db with hasEmpty := true }, id)
  | [x, y] => ({ db with bin := addBin db.bin id x y }, id)
  | _ => (db, id)

/-- `ClauseDatabase::removeClause`, ClauseDatabase.h:203-214. -/
def removeClause (db : DB) (c : Nat) : DB :=
  let ls := db.lits c
  let db := { db with
    store := upd db.store c ⟨ls, Cls.deletedWeight⟩
    log := db.log ++ [.del ls] }
  match ls with
  | [x, y] =>
    { db with bin := fun p => if p = x.neg ∨ p = y.neg then
        (db.bin p).filter (fun w => w.cref != c) else db.bin p }
  | _ => db

/-- `ClauseDatabase::strengthenClause`, ClauseDatabase.h:216-223. -/
def strengthenClause (db : DB) (c : Nat) (l : Lit) : DB × Nat :=
  let ls := (db.lits c).filter (fun x => x != l)
  let (db1, id) := db.createClause ls (min (db.store c).weight ls.length)
  (db1.removeClause c, id)

/-- `ClauseDatabase::reinitBinaryWatchers`, ClauseDatabase.h:119-128. -/
def reinitBin (db : DB) : DB :=
  { db with bin := db.clauses.foldl (fun b c =>
      match db.lits c with
      | [x, y] => addBin b c x y
      | _ => b) (fun _ => []) }

/-- Surviving clause pointers of `ClauseAllocator::collect`, ClauseAllocator.h:99-113 (no global
allocator): the clauses in `memory`, then the unit clauses (`facts`), in allocation order, skipping
deleted ones. The page structure is modelled in `Model/Allocator.lean`. -/
def collect (db : DB) : List Nat :=
  (db.clauses.filter fun c => !(db.store c).isDeleted && (db.lits c).length != 1) ++
  (db.clauses.filter fun c => !(db.store c).isDeleted && (db.lits c).length == 1)

/-- `ClauseAllocator::collect_unit_clauses`, ClauseAllocator.h:115-123 (no global allocator). -/
def unitClauses (db : DB) : List Nat :=
  db.clauses.filter fun c => !(db.store c).isDeleted && (db.lits c).length == 1

/-- `ClauseDatabase::reorganize`, ClauseDatabase.h:236-241: the surviving clauses move to new
addresses and all references are collected again. In the model the survivors are renumbered
`0, 1, …`; the deleted clauses are gone. -/
def reorganize (db : DB) : DB :=
  let keep := db.collect
  { db with
    store := fun i => match keep[i]? with
      | some c => db.store c
      | none => ⟨[], 0⟩
    next := keep.length
    clauses := List.range keep.length }.reinitBin

/-- `ClauseDatabase::init`, ClauseDatabase.h:108-117. -/
def init (db : DB) (nv : Nat) (problem : CNF) (lemma_ : Bool := true) : DB :=
  let db := if db.nVars < nv then { db with nVars := nv } else db
  problem.foldl (fun d c => (d.createClause c (if lemma_ then 0 else c.length) lemma_).1) db

/-- `ClauseDatabase::reestimateClauseWeights`, ClauseDatabase.h:130-139. The result of
`computeLBD` is stored in a `uint16_t`. -/
def reestimate (db : DB) (recalculateLBD : Bool) (T : Trail) (involved : List Nat) : DB :=
  if recalculateLBD then
    { db with store := involved.foldl (fun s c =>
        if (s c).isLearnt then
          upd s c { s c with weight := T.computeLBD (s c).lits % 65536 }
        else s) db.store }
  else db

end DB
end Candy
