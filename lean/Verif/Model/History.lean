import Verif.Model.Solve

/-!
# Histories of API calls

The theorems about answers quantify over every history of calls on a solver object: adding
clauses (`Solver::init`), setting assumptions (`Trail::setAssumptions`) and `Solver::solve`, in
any order and any number. The inputs a caller or a heuristic controls are arbitrary, restricted
only by the `Usage` in force.
-/

namespace Candy

/-- Setting assumptions: callers use `solver->getAssignment().setAssumptions(...)`, i.e.
`Trail::setAssumptions`, src/candy/core/Trail.h:131-139 (e.g. src/candy/ipasir/ipasircandy.cc). -/
def Sys.assume (sys : Sys) (as : List Lit) : Sys :=
  { sys with sol := { sys.sol with trail := sys.sol.trail.setAssumptions as } }

/-- The part of `solve` before its main loop, Solver.h:425-450 (the same definition as in
`solve`, see `solve_eq`). -/
def solveEntry (cfg : Config) (pre : List PreRound) (sys : Sys) : Option Sys :=
  let sys := solveStart sys
  if cfg.preprocessing then
    (process cfg pre sys).map fun sys =>
      { sys with sol := { sys.sol with watch := resetWatch sys.sol.db } }
  else some sys

theorem solve_eq (cfg : Config) (pre : List PreRound) (rounds : List Round) (sys : Sys) :
    solve cfg pre rounds sys = (solveEntry cfg pre sys).bind fun sys =>
      (if sys.sol.db.hasEmpty then some (sys, some false) else solveLoop cfg rounds sys).bind
        fun x => solveEnd x.1 x.2 := by
  unfold solve solveEntry
  dsimp only
  split
  · rename_i h; rw [h]; rfl
  · rename_i h; rw [h]
    simp only [Option.bind_some]
    split
    · rename_i h; rw [h]; rfl
    · rename_i h; rw [h]; rfl

/-- A clause list a caller may add: variables below the given bound, no variable twice in a
clause. `CNFProblem` delivers such clauses (property C03); `Solver::init` relies on it. -/
def WfCNF (nv : Nat) (G : CNF) : Prop :=
  ∀ c ∈ G, (∀ l ∈ c, l.var < nv) ∧ (c.map Lit.var).Nodup

/-- Which configurations and inputs a history uses. -/
structure Usage where
  /-- options passed to a call of `solve` and the inputs of its preprocessing -/
  solve : Config → List PreRound → Prop
  /-- inputs of a round of the main loop -/
  round : Round → Prop
  /-- the `lemma` flag of `Solver::init` -/
  flag : Bool → Prop

/-- Everything is allowed that the heuristics and the library may do. -/
def Usage.any : Usage where
  solve _ _ := True
  round r := r.Valid
  flag _ := True

/-- The default flag of `init`, no preprocessing, no inprocessing. -/
def Usage.plain : Usage where
  solve cfg _ := cfg.preprocessing = false
  round r := r.Valid ∧ r.inprocess = none
  flag b := b = true

/-- No inprocessing (the default, `opt_inprocessing = 0`), otherwise arbitrary. -/
def Usage.noInprocessing : Usage where
  solve _ _ := True
  round r := r.Valid ∧ r.inprocess = none
  flag _ := True

/-- `History u F as sys`: some sequence of calls leads from a new solver to `sys`; `F` are all
clauses added so far, `as` the assumptions set last. Assumptions must be literals of variables the
solver knows (see finding on `Trail::setAssumptions`). -/
inductive History (u : Usage) : CNF → List Lit → Sys → Prop
  | new (recalc : Bool) : History u [] [] (Sys.new recalc)
  | add {F : CNF} {as : List Lit} {sys : Sys} (h : History u F as sys) (nv : Nat) (G : CNF)
      (flag : Bool) (hf : u.flag flag) (hG : WfCNF (max sys.sol.db.nVars nv) G) :
      History u (F ++ G) as (sys.init nv G flag)
  | assume {F : CNF} {as : List Lit} {sys : Sys} (h : History u F as sys) (as' : List Lit)
      (hb : ∀ l ∈ as', l.var < sys.sol.db.nVars) : History u F as' (sys.assume as')
  | solve {F : CNF} {as : List Lit} {sys sys' : Sys} {res : Result} (h : History u F as sys)
      (cfg : Config) (pre : List PreRound) (rounds : List Round) (hc : u.solve cfg pre)
      (hr : ∀ r ∈ rounds, u.round r) (he : solve cfg pre rounds sys = some (sys', res)) :
      History u F as sys'

/-- States at the head of the main loop of `solve`. -/
inductive InSolve (u : Usage) : CNF → List Lit → Sys → Prop
  | enter {F : CNF} {as : List Lit} {sys sys' : Sys} (h : History u F as sys) (cfg : Config)
      (pre : List PreRound) (hc : u.solve cfg pre) (he : solveEntry cfg pre sys = some sys') :
      InSolve u F as sys'
  | round {F : CNF} {as : List Lit} {sys sys' : Sys} (h : InSolve u F as sys) (cfg : Config)
      (r : Round) (hr : u.round r) (he : solveRound cfg r sys = some (sys', none)) :
      InSolve u F as sys'

/-- `Searching u F as s`: `s` is a solver state at the head of the search loop
(Solver.h:356), in some call of `solve` of some history, after any number of conflicts, restarts
and clause database reductions. -/
inductive Searching (u : Usage) : CNF → List Lit → Solver → Prop
  | start {F : CNF} {as : List Lit} {sys sys' : Sys} {s : Solver} (h : InSolve u F as sys)
      (cfg : Config) (r : Round) (hr : u.round r)
      (h1 : reduceStep cfg r { sys with sol := { sys.sol with trail := sys.sol.trail.reset } }
        = some sys')
      (h2 : materialize sys'.sol = some s) (h3 : s.db.hasEmpty = false) : Searching u F as s
  | iter {F : CNF} {as : List Lit} {s s' : Solver} (h : Searching u F as s) (ch : Choice)
      (hch : ch.Valid) (he : searchIter s ch = some (.cont s')) : Searching u F as s'

end Candy
