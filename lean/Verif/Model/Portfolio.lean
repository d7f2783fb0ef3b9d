import Verif.Model.Main
import Verif.Model.Static

/-!
# Model of the portfolio of solver threads (src/candy/Main.cc)

`main` with `opt_threads > 1`, without abstraction refinement, minimisation and checks of the result
(`do_minimize`, `test_model`, `test_proof` off); `opt_static_database` ends the program (Main.cc:244-247), so the
threads share no clauses. Every read and every write of a variable shared by the threads (`result`, `solver`,
`solvers.size()`, `interrupted`) is one step, and steps of the threads are interleaved arbitrarily. The variables
are not atomic in the code; a data race is undefined behaviour by the C++ standard. The model is what a machine
with sequentially consistent memory does.
-/

namespace Candy

/-- The result of one solver thread, Main.cc:164-176: a solver made by `createSolver` reads the problem and is
called once. All options, heuristics and interruptions are arbitrary. -/
inductive ThreadRun (p : Problem) : Result → Prop
  /-- `opt_static_propagate = false` -/
  | dynamic (recalc : Bool) (cfg : Config) (pre : List PreRound) (rounds : List Round) (sys : Sys) (res : Result)
      (hr : ∀ r ∈ rounds, r.Valid)
      (he : solve cfg pre rounds ((Sys.new recalc).init p.nVars p.problem) = some (sys, res)) : ThreadRun p res
  /-- `opt_static_propagate = true`; without simplification, as everywhere in `Model/Static.lean` -/
  | static (recalc : Bool) (cfg : Config) (rounds : List Round) (s : St) (res : Result)
      (hr : ∀ r ∈ rounds, r.StOk)
      (he : sSolve cfg rounds ((St.new recalc).init p.nVars p.problem) = some (s, res)) : ThreadRun p res

/-- Where a thread is in `runSolverThread`, Main.cc:159-181. -/
inductive ThreadPc where
  /-- not created -/
  | none
  /-- before `solvers.push_back` -/
  | starting
  | solving
  /-- `result_` is known -/
  | answered (res : Result)
  /-- `result == l_Undef` was true -/
  | passed (res : Result)
  /-- `result` is written -/
  | wrote (res : Result)
  | ended (res : Result)

/-- The result object of the solver of a thread once `solve` has returned. -/
def ThreadPc.res? : ThreadPc → Option Result
  | .answered res => some res
  | .passed res => some res
  | .wrote res => some res
  | .ended res => some res
  | _ => Option.none

/-- Where `main` is, Main.cc:248-392. -/
inductive MainPc where
  /-- head of the loop over `count` -/
  | spawn (count : Nat)
  /-- `while (solvers.size() <= count)` -/
  | waitInit (count : Nat)
  /-- `while (result == l_Undef && !interrupted)` -/
  | wait
  /-- `result == l_True ?`, Main.cc:316 -/
  | status1
  /-- `result == l_False ?`, Main.cc:316 -/
  | status2
  /-- `if (solver != nullptr)` -/
  | testSolver
  /-- `solver->getCandySolverResult()` -/
  | getResult
  /-- `if (result == l_True && SolverOptions::mod)` with the result object of thread `k` -/
  | testMod (k : Nat)
  | printModel (k : Nat)
  /-- `result == l_True ?`, Main.cc:389 -/
  | exit1
  /-- `result == l_False ?`, Main.cc:389 -/
  | exit2
  | exited (code : Nat)
  /-- undefined behaviour -/
  | crashed
deriving DecidableEq

/-- The shared variables, the threads and the lines printed. -/
structure PfState where
  threads : Nat → ThreadPc
  /-- `solvers.size()` -/
  ready : Nat
  result : Option Bool
  solver : Option Nat
  interrupted : Bool
  main : MainPc
  out : List (List Char)

/-- Before the loop, Main.cc:248. -/
def PfState.start : PfState := ⟨fun _ => .none, 0, none, none, false, .spawn 0, []⟩

/-- One step of `main` with `n` threads; `pm` is `SolverOptions::mod`. -/
def pfMain (n : Nat) (pm : Bool) (p : Problem) (s : PfState) : Option PfState :=
  match s.main with
  | .spawn c =>
    if c < n ∧ s.result = none then some { s with threads := upd s.threads c .starting, main := .waitInit c }
    else some { s with main := .wait }
  | .waitInit c => if s.ready ≤ c then some s else some { s with main := .spawn (c + 1) }
  | .wait => if s.result = none ∧ s.interrupted = false then some s else some { s with main := .status1 }
  | .status1 =>
    if s.result = some true then some { s with out := s.out ++ [statusLine (some true)], main := .testSolver }
    else some { s with main := .status2 }
  | .status2 =>
    if s.result = some false then some { s with out := s.out ++ [statusLine (some false)], main := .testSolver }
    else some { s with out := s.out ++ [statusLine none], main := .testSolver }
  | .testSolver => if s.solver = none then some { s with main := .exit1 } else some { s with main := .getResult }
  | .getResult =>
    match s.solver with
    | none => some { s with main := .crashed }
    | some k => some { s with main := .testMod k }
  | .testMod k =>
    if s.result = some true ∧ pm = true then some { s with main := .printModel k } else some { s with main := .exit1 }
  | .printModel k =>
    match (s.threads k).res? with
    | none => some { s with main := .crashed }
    | some res =>
      match modelLine p (res.vector p.nVars) with
      | none => some { s with main := .crashed }
      | some l => some { s with out := s.out ++ [l], main := .exit1 }
  | .exit1 => if s.result = some true then some { s with main := .exited 10 } else some { s with main := .exit2 }
  | .exit2 => if s.result = some false then some { s with main := .exited 20 } else some { s with main := .exited 0 }
  | .exited _ => none
  | .crashed => none

/-- One step of the program. `runs` are the results a thread may get. -/
inductive PfStep (n : Nat) (pm : Bool) (p : Problem) (runs : Nat → Result → Prop) : PfState → PfState → Prop
  /-- `set_interrupted` or `interrupted_callback`, Main.cc:76-95 -/
  | interrupt (s : PfState) : PfStep n pm p runs s { s with interrupted := true }
  /-- Main.cc:164-172 -/
  | register (s : PfState) (i : Nat) (h : s.threads i = .starting) :
      PfStep n pm p runs s { s with threads := upd s.threads i .solving, ready := s.ready + 1 }
  /-- Main.cc:175: without an answer `solve` returns only if the callback has read `interrupted` as true
  (Solver.h:450) -/
  | answer (s : PfState) (i : Nat) (res : Result) (h : s.threads i = .solving) (hr : runs i res)
      (hi : res.status = none → s.interrupted = true) :
      PfStep n pm p runs s { s with threads := upd s.threads i (.answered res) }
  /-- Main.cc:177 -/
  | check (s : PfState) (i : Nat) (res : Result) (h : s.threads i = .answered res) :
      PfStep n pm p runs s
        { s with threads := upd s.threads i (if s.result = none then .passed res else .ended res) }
  /-- Main.cc:178 -/
  | writeResult (s : PfState) (i : Nat) (res : Result) (h : s.threads i = .passed res) :
      PfStep n pm p runs s { s with threads := upd s.threads i (.wrote res), result := res.status }
  /-- Main.cc:179 -/
  | writeSolver (s : PfState) (i : Nat) (res : Result) (h : s.threads i = .wrote res) :
      PfStep n pm p runs s { s with threads := upd s.threads i (.ended res), solver := some i }
  | main (s s' : PfState) (h : pfMain n pm p s = some s') : PfStep n pm p runs s s'

/-- The states that some schedule reaches. -/
inductive PfReach (n : Nat) (pm : Bool) (p : Problem) (runs : Nat → Result → Prop) : PfState → Prop
  | start : PfReach n pm p runs PfState.start
  | step {s s' : PfState} (h : PfReach n pm p runs s) (hs : PfStep n pm p runs s s') : PfReach n pm p runs s'

end Candy
