import Verif.Model.Simplify

/-!
# Model of `Solver::solve` and `Solver::init` (src/candy/core/Solver.h)

Everything that only steers the search is an input: how many simplification rounds and search
rounds run before the termination callback or the thresholds stop them, when clause reduction is
triggered, the order `std::sort` leaves clauses and variables in, the branching literals and the
restart decisions. The theorems quantify over all these inputs.
-/

namespace Candy

/-- The options used by `solve` (src/candy/frontend/CLIOptions.h). -/
structure Config where
  preprocessing : Bool := true
  useElim : Bool := true
  clauseLim : Nat := 20
  useAsymm : Bool := false
  persistentLBD : Nat := 3
  keepMedian : Bool := false

/-- Solver state with the state of variable elimination. -/
structure Sys where
  sol : Solver
  ve : VE

/-! ### Unit clauses -/

/-- Loop body of Solver.h:202-206. -/
def factStep (x : Trail × DB) (l : Lit) : Trail × DB :=
  match x.1.fact l with
  | (T, true) => (T, x.2)
  | (T, false) => (T, x.2.emptyClause)

/-- The literals of the unit clauses. -/
def DB.unitLits (db : DB) : List Lit :=
  db.unitClauses.filterMap fun c => (db.lits c).head?

/-- Loop body of Solver.h:214-219. -/
def unitStep (x : Trail × DB) (l : Lit) : Trail × DB :=
  ((x.1.fact l).1, (x.2.createClause [l]).1)

/-- `propagateAndMaterializeUnitClauses`, Solver.h:200-222. -/
def materialize (s : Solver) : Option Solver :=
  let x := s.db.unitLits.foldl factStep (s.trail, s.db)
  if x.2.hasEmpty then some { s with trail := x.1, db := x.2 }
  else
    match propagateLoop x.2.bin (x.2.nVars + 1) ⟨x.2.store, s.watch, x.1⟩ with
    | none => none
    | some (ps, some _) =>
      some { s with trail := ps.T, watch := ps.watch,
                    db := { x.2 with store := ps.store }.emptyClause }
    | some (ps, none) =>
      let y := (ps.T.stack.drop x.1.stack.length).foldl unitStep
        (ps.T, { x.2 with store := ps.store })
      some { s with trail := y.1, watch := ps.watch, db := y.2 }

/-! ### Pre- and inprocessing -/

/-- Inputs of one round of simplification: fuel for subsumption, the address order of clauses, the
result of sorting the candidate variables, and whether the occurrence lists are cleaned up after
each of the three steps (`nTouched() > 0`). -/
structure PreRound where
  fuel : Nat
  before : Nat → Nat → Bool
  order : (Nat → Nat) → List Nat → List Nat
  cleanup1 : Bool
  cleanup2 : Bool
  cleanup3 : Bool

/-- State during `processClauseDatabase`. -/
structure Proc where
  sys : Sys
  obj : List (Option Nat)
  occ : Nat → List Nat

namespace Proc

/-- View as a `SubsumptionClauseDatabase`. -/
def sdb (p : Proc) : SDB := ⟨p.sys.sol.db, p.obj, p.occ⟩

/-- Write back a `SubsumptionClauseDatabase`. -/
def setSdb (p : Proc) (s : SDB) : Proc :=
  ⟨{ p.sys with sol := { p.sys.sol with db := s.db } }, s.obj, s.occ⟩

/-- `if (!ok) clause_db.emptyClause(); if (nTouched() > 0) augmented_database.cleanup();` -/
def after (p : Proc) (ok clean : Bool) : Proc :=
  let p := if ok then p
    else { p with sys := { p.sys with sol := { p.sys.sol with db := p.sys.sol.db.emptyClause } } }
  if clean then p.setSdb p.sdb.cleanup else p

/-- `propagateAndMaterializeUnitClauses()` inside the loop. -/
def materialize (p : Proc) : Option Proc :=
  (Candy.materialize p.sys.sol).map fun s => { p with sys := { p.sys with sol := s } }

/-- `subsumption.subsume()`, Solver.h:239-245. -/
def subsume (p : Proc) (r : PreRound) : Option Proc :=
  (subsumeAll r.before r.fuel p.sdb).map fun x => (p.setSdb x.1).after x.2 r.cleanup1

/-- `reduction.reduce()`, Solver.h:250-255. -/
def reduce (cfg : Config) (p : Proc) (r : PreRound) : Option Proc :=
  (asymAll cfg.useAsymm ⟨p.sdb, p.sys.sol.watch, p.sys.sol.trail⟩).map fun x =>
    (Proc.mk { p.sys with sol := { p.sys.sol with db := x.1.s.db, watch := x.1.watch,
                                                  trail := x.1.T } } x.1.s.obj x.1.s.occ).after
      x.2 r.cleanup2

/-- `elimination.eliminate()`, Solver.h:260-265. -/
def eliminate (cfg : Config) (p : Proc) (r : PreRound) : Option Proc :=
  (eliminateAll cfg.useElim cfg.clauseLim r.order ⟨p.sdb, p.sys.ve, p.sys.sol.trail⟩).map fun x =>
    (Proc.mk { sol := { p.sys.sol with db := x.1.s.db, trail := x.1.T }, ve := x.1.ve }
      x.1.s.obj x.1.s.occ).after x.2 r.cleanup3

/-- One iteration of the loop in `processClauseDatabase`, Solver.h:234-269; the flag is `false`
for `break`. -/
def round (cfg : Config) (p : Proc) (r : PreRound) : Option (Proc × Bool) :=
  match p.materialize with
  | none => none
  | some p =>
    if p.sys.sol.db.hasEmpty then some (p, false)
    else
      match (p.subsume r).bind materialize with
      | none => none
      | some p =>
        if p.sys.sol.db.hasEmpty then some (p, false)
        else
          match (p.reduce cfg r).bind materialize with
          | none => none
          | some p =>
            if p.sys.sol.db.hasEmpty then some (p, false)
            else (p.eliminate cfg r).map fun p => (p, true)

/-- The loop of `processClauseDatabase`. -/
def rounds (cfg : Config) : List PreRound → Proc → Option Proc
  | [], p => some p
  | r :: rs, p =>
    match p.round cfg r with
    | none => none
    | some (p, false) => some p
    | some (p, true) => rounds cfg rs p

end Proc

/-- `processClauseDatabase`, Solver.h:225-270. -/
def process (cfg : Config) (rs : List PreRound) (sys : Sys) : Option Sys :=
  let s := SDB.init sys.sol.db
  (Proc.rounds cfg rs ⟨sys, s.obj, s.occ⟩).map Proc.sys

/-! ### Clause database reduction -/

/-- Candidates, ReduceDB.h:65-67. -/
def reduceCandidates (persistentLBD : Nat) (db : DB) : List Nat :=
  db.clauses.filter fun c =>
    decide (persistentLBD < (db.store c).weight) && !(db.store c).isDeleted

/-- The part of the sorted candidates that is removed, ReduceDB.h:73-81. -/
def reduceVictims (keepMedian : Bool) (db : DB) (sorted : List Nat) : List Nat :=
  if 1 < sorted.length then
    let tail := sorted.drop (sorted.length / 2)
    if keepMedian then
      match tail with
      | [] => []
      | m :: _ => tail.dropWhile fun c => (db.store c).weight == (db.store m).weight
    else tail
  else []

/-- `ReduceDB::reduce`, ReduceDB.h:62-92; `sort` is what `std::sort` by LBD does to the
candidates. -/
def reduceDB (cfg : Config) (sort : List Nat → List Nat) (db : DB) : DB :=
  (reduceVictims cfg.keepMedian db (sort (reduceCandidates cfg.persistentLBD db))).foldl
    DB.removeClause db

/-! ### solve -/

/-- Inputs of one iteration of the loop in `solve`: is reduction triggered, if so with
inprocessing, the sorting of the clauses, number of search iterations and heuristic choices. -/
structure Round where
  trigger : Bool
  inprocess : Option (List PreRound)
  sort : List Nat → List Nat
  steps : Nat
  choice : Nat → Choice

/-- What the C++ library and the branching heuristic guarantee about these inputs: branching literals
are unassigned decision variables and sorting returns the clauses it was given. -/
structure Round.Valid (r : Round) : Prop where
  choice : ∀ i, (r.choice i).Valid
  sort : ∀ xs, ∀ x ∈ r.sort xs, x ∈ xs

/-- Solver.h:454-466. -/
def reduceStep (cfg : Config) (r : Round) (sys : Sys) : Option Sys :=
  if r.trigger then
    let sys' := match r.inprocess with
      | some rs => process cfg rs sys
      | none => some { sys with sol := { sys.sol with db := reduceDB cfg r.sort sys.sol.db } }
    sys'.map fun sys =>
      let db := sys.sol.db.reorganize
      { sys with sol := { sys.sol with db := db, watch := resetWatch db } }
  else some sys

/-- One iteration of the loop in `solve`, Solver.h:450-477. -/
def solveRound (cfg : Config) (r : Round) (sys : Sys) : Option (Sys × Option Bool) :=
  let sys := { sys with sol := { sys.sol with trail := sys.sol.trail.reset } }
  match reduceStep cfg r sys with
  | none => none
  | some sys =>
    match materialize sys.sol with
    | none => none
    | some sol =>
      if sol.db.hasEmpty then some ({ sys with sol := sol }, some false)
      else (search r.steps r.choice sol).map fun x => ({ sys with sol := x.1 }, x.2)

/-- The loop in `solve`, Solver.h:450-477. It ends with `none` (`l_Undef`) when the termination
callback stops it after the given rounds. -/
def solveLoop (cfg : Config) : List Round → Sys → Option (Sys × Option Bool)
  | [], sys => some (sys, none)
  | r :: rs, sys =>
    match solveRound cfg r sys with
    | none => none
    | some (sys, none) => solveLoop cfg rs sys
    | some (sys, some b) => some (sys, some b)

/-- Loop body of Solver.h:436-440. -/
def addCorrection (s : Solver) (c : Clause) : Solver :=
  let r := s.db.createClause c
  { s with
    db := r.1
    watch := match c with
      | x :: y :: _ :: _ => DB.addBin s.watch r.2 x y
      | _ => s.watch }

/-- Start of `solve`, Solver.h:430-440. -/
def solveStart (sys : Sys) : Sys :=
  let T := sys.sol.trail.reset
  let sol := { sys.sol with conflict := [], trail := T, watch := resetWatch sys.sol.db }
  let r := sys.ve.reset T
  { sol := r.1.foldl addCorrection { sol with trail := r.2.2 }, ve := r.2.1 }

/-- `CandySolverResult::setModel`, CandySolverResult.h:59-70: the value recorded for each
variable. -/
def modelOf (T : Trail) : Nat → Option Bool :=
  T.stack.foldl (fun m l => upd m l.var (some (!l.sign))) (fun _ => none)

/-- The result object after `solve`. -/
structure Result where
  status : Option Bool
  model : Nat → Option Bool
  conflict : List Lit

/-- End of `solve`, Solver.h:479-502. -/
def solveEnd (sys : Sys) (status : Option Bool) : Option (Sys × Result) :=
  match status with
  | none =>
    some ({ sys with sol := { sys.sol with trail := sys.sol.trail.backtrack 0 } },
      ⟨none, fun _ => none, sys.sol.conflict⟩)
  | some false =>
    let db := if sys.sol.conflict.isEmpty then sys.sol.db.emptyClause else sys.sol.db
    some ({ sys with sol := { sys.sol with db := db, trail := sys.sol.trail.backtrack 0 } },
      ⟨some false, fun _ => none, sys.sol.conflict⟩)
  | some true =>
    match extendModel sys.ve.cls sys.ve.vars.reverse sys.sol.trail with
    | none => none
    | some T =>
      some ({ sys with sol := { sys.sol with trail := T.backtrack 0 } },
        ⟨some true, modelOf T, sys.sol.conflict⟩)

/-- `Solver::solve`, Solver.h:425-503. -/
def solve (cfg : Config) (pre : List PreRound) (rounds : List Round) (sys : Sys) :
    Option (Sys × Result) :=
  let sys := solveStart sys
  let sys' := if cfg.preprocessing then
      (process cfg pre sys).map fun sys =>
        { sys with sol := { sys.sol with watch := resetWatch sys.sol.db } }
    else some sys
  match sys' with
  | none => none
  | some sys =>
    match (if sys.sol.db.hasEmpty then some (sys, some false) else solveLoop cfg rounds sys) with
    | none => none
    | some (sys, status) => solveEnd sys status

/-! ### init -/

/-- Inner loop of Solver.h:336-341. -/
def restoreLits : List Lit → Sys → Sys
  | [], sys => sys
  | l :: ls, sys =>
    if sys.ve.isEliminated l.var then
      let r := sys.ve.undo sys.sol.trail l.var
      restoreLits ls
        { sol := { sys.sol with
            db := r.1.foldl (fun d c => (d.createClause c).1) sys.sol.db
            trail := r.2.2 }
          ve := r.2.1 }
    else restoreLits ls sys

/-- Outer loop of Solver.h:334-342. -/
def restoreAll : CNF → Sys → Sys
  | [], sys => sys
  | c :: cs, sys => if sys.ve.vars.isEmpty then sys else restoreAll cs (restoreLits c sys)

/-- `Solver::init`, Solver.h:328-348, without global allocator. `nv` is `problem.nVars()`. The
bounds of the accesses `is_eliminated(lit.var())` are part of `Sys.initChk` in `Model/Ipasir.lean`. -/
def Sys.init (sys : Sys) (nv : Nat) (problem : CNF) (lemma_ : Bool := true) : Sys :=
  let sys := { sys with sol := { sys.sol with db := sys.sol.db.init nv problem lemma_ } }
  let sys := restoreAll problem sys
  { sys with sol := { sys.sol with
      trail := sys.sol.trail.init sys.sol.db.nVars
      watch := attachAll sys.sol.db.store sys.sol.watch sys.sol.db.clauses } }

/-- A new solver (constructor, Solver.h:96-118). -/
def Sys.new (recalc : Bool := true) : Sys where
  sol := { db := DB.new, watch := fun _ => [], trail := Trail.empty 0, conflict := [],
           recalc := recalc, sent := [] }
  ve := VE.empty

end Candy
