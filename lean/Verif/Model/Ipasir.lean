import Verif.Model.History
import Verif.Model.Problem

/-!
# Model of the incremental C interface (src/candy/ipasir/ipasircandy.cc)

`none` stands for undefined behaviour. The callbacks are not stored: the termination callback is part
of the input of `solve` (it ends the list of rounds), the learnt callback is `Solver.sent`.
-/

namespace Candy

/-- `import`, ipasircandy.cc:41-43. 0 (variable -1) and numbers for which no literal exists (C01: variables
are below `2^30`) are outside the model. -/
def importLit (i : Int) : Option Lit :=
  if i = 0 ∨ 2 ^ 30 < i.natAbs then none else some ⟨i.natAbs - 1, decide (i < 0)⟩

/-- `Solver.h:336-341` with the bounds of `eliminated_clauses`, which has `n` entries. -/
def restoreLitsChk (n : Nat) : List Lit → Sys → Option Sys
  | [], sys => some sys
  | l :: ls, sys =>
    if n ≤ l.var then none
    else if sys.ve.isEliminated l.var then
      let r := sys.ve.undo sys.sol.trail l.var
      restoreLitsChk n ls
        { sol := { sys.sol with
            db := r.1.foldl (fun d c => (d.createClause c).1) sys.sol.db
            trail := r.2.2 }
          ve := r.2.1 }
    else restoreLitsChk n ls sys

/-- Solver.h:334-342 with these bounds. -/
def restoreAllChk (n : Nat) : CNF → Sys → Option Sys
  | [], sys => some sys
  | c :: cs, sys => if sys.ve.vars.isEmpty then some sys else (restoreLitsChk n c sys).bind (restoreAllChk n cs)

/-- `Solver::init`, Solver.h:328-348, with bounds: `eliminated_clauses` has been sized by the last call of
`solve` (`VariableElimination::reset`, VariableElimination.h:100-103), i.e. to the number of variables before
this call. -/
def Sys.initChk (sys : Sys) (nv : Nat) (problem : CNF) : Option Sys :=
  (restoreAllChk sys.sol.trail.nVars problem
    { sys with sol := { sys.sol with db := sys.sol.db.init nv problem true } }).map fun sys =>
  { sys with sol := { sys.sol with
      trail := sys.sol.trail.init sys.sol.db.nVars
      watch := attachAll sys.sol.db.store sys.sol.watch sys.sol.db.clauses } }

/-- `IPASIRCandy`, ipasircandy.cc:29-39, with the result object of the solver. -/
structure Ipasir where
  problem : Problem
  sys : Sys
  result : Result
  assumptions : List Lit
  clause : Clause
  /-- the array `fmap`, if allocated -/
  fmap : Option (List Bool)
  nomodel : Bool

namespace Ipasir

/-- The constructor, ipasircandy.cc:60-62. -/
def new : Ipasir where
  problem := Problem.empty
  sys := Sys.new
  result := ⟨none, fun _ => none, []⟩
  assumptions := []
  clause := []
  fmap := none
  nomodel := false

/-- `add`, ipasircandy.cc:69-78. -/
def add (st : Ipasir) (i : Int) : Option Ipasir :=
  let st := { st with fmap := none, nomodel := true }
  if i ≠ 0 then (importLit i).map fun l => { st with clause := st.clause ++ [l] }
  else some { st with problem := st.problem.readClause st.clause, clause := [] }

/-- `assume`, ipasircandy.cc:80-84. -/
def assume (st : Ipasir) (i : Int) : Option Ipasir :=
  (importLit i).map fun l => { st with fmap := none, nomodel := true, assumptions := st.assumptions ++ [l] }

/-- `solve`, ipasircandy.cc:86-95. `VariableElimination::reset` accesses `frozen` at the variable of each
assumption (VariableElimination.h:104-105); the array has one entry per variable. -/
def solve (cfg : Config) (pre : List PreRound) (rounds : List Round) (st : Ipasir) : Option (Ipasir × Int) :=
  match st.sys.initChk st.problem.nVars st.problem.problem with
  | none => none
  | some sys =>
    let sys := sys.assume st.assumptions
    if st.assumptions.any (fun l => decide (sys.sol.trail.nVars ≤ l.var)) then none
    else
      match Candy.solve cfg pre rounds sys with
      | none => none
      | some (sys, res) =>
        some ({ st with sys := sys, result := res, fmap := none, assumptions := [], problem := st.problem.clear,
                        nomodel := !decide (res.status = some true) },
          match res.status with
          | none => 0
          | some true => 10
          | some false => 20)

/-- `CandySolverResult::satisfies`, CandySolverResult.h:76-78: `false` for variables without value and for
variables beyond the model. -/
def satisfies (res : Result) (l : Lit) : Bool := decide (res.model l.var = some (!l.sign))

/-- `val`, ipasircandy.cc:97-101. -/
def val (st : Ipasir) (i : Int) : Option Int :=
  if st.nomodel then some 0
  else (importLit i).map fun l => if satisfies st.result l then i else -i

/-- `analyze`, ipasircandy.cc:45-52. -/
def analyze (st : Ipasir) : Option Ipasir :=
  if st.result.conflict.any (fun l => decide (st.sys.sol.db.nVars ≤ l.var)) then none
  else some { st with fmap := some ((List.range st.sys.sol.db.nVars).map fun v =>
    st.result.conflict.any fun l => l.var == v) }

/-- `failed`, ipasircandy.cc:103-107. -/
def failed (st : Ipasir) (i : Int) : Option (Ipasir × Int) :=
  match (if st.fmap.isNone then st.analyze else some st) with
  | none => none
  | some st =>
    match st.fmap, importLit i with
    | some fmap, some l =>
      match fmap[l.var]? with
      | none => none
      | some b => some (st, if b then 1 else 0)
    | _, _ => none

end Ipasir

/-- A call of the interface, ipasircandy.cc:133-159. -/
inductive ICall where
  | add (i : Int)
  | assume (i : Int)
  | solve (cfg : Config) (pre : List PreRound) (rounds : List Round)
  | val (i : Int)
  | failed (i : Int)

/-- One call: new state and returned number (0 for procedures). -/
def Ipasir.call (st : Ipasir) : ICall → Option (Ipasir × Int)
  | .add i => (st.add i).map (·, 0)
  | .assume i => (st.assume i).map (·, 0)
  | .solve cfg pre rounds => Ipasir.solve cfg pre rounds st
  | .val i => (st.val i).map (st, ·)
  | .failed i => st.failed i

/-- A sequence of calls. -/
def Ipasir.run (st : Ipasir) : List ICall → Option Ipasir
  | [] => some st
  | c :: cs => (st.call c).bind fun x => x.1.run cs

end Candy
