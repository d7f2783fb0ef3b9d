import Verif.Model.Ipasir
import Verif.Model.Drat

/-!
# Model of the command line solver (src/candy/Main.cc)

`main` for one thread (`opt_threads = 1`), without abstraction refinement (`opt_rsar_enable = false`) and
without model minimisation (`do_minimize = false`). The output is the list of lines written to standard
output; lines of statistics and progress are left out. Assertions are compiled out (`NDEBUG`, release
build). The limits of time and memory act through the list of rounds of `solve`.
-/

namespace Candy

/-- The options `main` looks at itself. -/
structure MainOptions where
  /-- `TestingOptions::test_limit` -/
  testLimit : Int := 0
  /-- `SolverOptions::gate_stats` -/
  gateStats : Bool := false
  /-- `SolverOptions::mod`: print the model -/
  printModel : Bool := false
  /-- `TestingOptions::test_model`, `TestingOptions::test_proof` -/
  testModel : Bool := false
  testProof : Bool := false
  solver : Config := {}

/-- The length of the model vector after `setModel`: one more than the largest variable with a value,
CandySolverResult.h:65-68. `n` is a bound of the variables. -/
def vectorLength (m : PAssign) : Nat → Nat
  | 0 => 0
  | n + 1 => if (m n).isSome then n + 1 else vectorLength m n

/-- The result object as a vector, see `Represents` in Props/Problem.lean. -/
def Result.vector (res : Result) (n : Nat) : SolverResult where
  status := match res.status with | none => LBool.U | some true => LBool.T | some false => LBool.F
  model := (List.range (vectorLength res.model n)).map fun v =>
    match res.model v with | none => LBool.U | some true => LBool.T | some false => LBool.F
  minimizedModel := []
  conflict := res.conflict

/-- `operator<<` for the result of `value`, SolverTypes.h:200-209; `lit_Undef` has variable -1 and no
sign. -/
def valueText : Option Lit → List Char
  | none => ['0']
  | some l => litText l

/-- The loop over the variables, Main.cc:337-339. -/
def valueTexts (r : SolverResult) : List Nat → Option (List Char)
  | [] => some []
  | v :: vs =>
    match r.value v with
    | none => none
    | some l => (valueTexts r vs).map fun t => ' ' :: (valueText l ++ t)

/-- The line with the model, Main.cc:336-340. -/
def modelLine (p : Problem) (r : SolverResult) : Option (List Char) :=
  (valueTexts r (List.range p.nVars)).map fun t => 'v' :: (t ++ [' ', '0'])

/-- The status line, Main.cc:316. -/
def statusLine : Option Bool → List Char
  | some true => "s SATISFIABLE".toList
  | some false => "s UNSATISFIABLE".toList
  | none => "s INDETERMINATE".toList

/-- The last lines of `main`, Main.cc:388-391. -/
def exitCode : Option Bool → Nat
  | some true => 10
  | some false => 20
  | none => 0

/-- The checks at the end, Main.cc:356-385, after the lines `out`. `mem` is the buffer of the proof
reader. -/
def mainCheck (opt : MainOptions) (mem : List Char) (fuel : Nat) (p : Problem) (sys : Sys) (res : Result)
    (out : List (List Char)) : Out (List (List Char) × Nat) :=
  if opt.testModel ∧ res.status = some true then
    match p.checkResult (res.vector p.nVars) with
    | none => .ub
    | some true => .ok (out ++ ["c Result verified by model checker".toList], 0)
    | some false => .ok (out ++ ["c Result could not be verified by model checker".toList], 1)
  else if opt.testProof ∧ res.status = some false then
    (checkProof mem fuel p.nVars p.problem (certificateText sys.sol.db.log)).bind fun b =>
      if b then .ok (out ++ ["c Result verified by proof checker".toList], 0)
      else .ok (out ++ ["c Result could not be verified by proof checker".toList], 1)
  else .ok (out, exitCode res.status)

/-- `main`, Main.cc:183-392. The lists `pre` and `rounds` are the inputs of `solve`, `mem` is the content of
the read buffer. -/
def mainSolve (opt : MainOptions) (mem : List Char) (fuel : Nat) (pre : List PreRound) (rounds : List Round)
    (file : List Char) : Out (List (List Char) × Nat) :=
  match readDimacs mem fuel file with
  | .throws => .ok (["c Caught Parser Exception: ".toList], 1)
  | .ub => .ub
  | .loops => .loops
  | .fragile => .fragile
  | .ok p =>
    if 0 < opt.testLimit ∧ opt.testLimit < p.nVars then
      .ok (["c Number of variables surpasses testing limit".toList], 0)
    else if opt.gateStats then .ok ([], 0)
    else
      match solve opt.solver pre rounds ((Sys.new true).init p.nVars p.problem) with
      | none => .ub
      | some (sys, res) =>
        if opt.printModel ∧ res.status = some true then
          match modelLine p (res.vector p.nVars) with
          | none => .ub
          | some l => mainCheck opt mem fuel p sys res [statusLine res.status, l]
        else mainCheck opt mem fuel p sys res [statusLine res.status]

end Candy
