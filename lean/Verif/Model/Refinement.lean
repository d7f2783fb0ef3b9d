import Verif.Model.Approximation
import Verif.Model.History
import Verif.Model.Problem

/-!
# Model of the refinement strategy and the abstraction refinement solver

src/candy/rsar/Refinement.cc, src/candy/rsar/ARSolver.cc. The refinement heuristics are inputs (`Marks`), with
the exception of the garbage collector heuristic of the solver, which is modelled. The map
`m_approxLitsByAssumption` is used by the conflict heuristic only, it is not modelled.
-/

namespace Candy

/-- The variables that a heuristic marks for removal in the backbones and in the equivalence conjectures. -/
structure Marks where
  bbs : List Nat
  eqs : List (List Nat)

/-- `SimpleRefinementStrategy`, Refinement.cc:104-168. `unordered_map::operator[]` returns 0 for a missing key. `nextVar`
is the counter of `createVariable`, ARSolver.h:62-64. -/
structure Strategy where
  approx : ApproxState
  assumptions : List Lit
  implIdx : Implication → Nat
  bbIdx : Lit → Nat
  nextVar : Nat

/-- `activatedAssumptionLit`, Refinement.cc:264-266. -/
def activatedAssumptionLit (v : Nat) : Lit := ⟨v, false⟩

/-- `deactivatedAssumptionLit`, Refinement.cc:268-270. -/
def deactivatedAssumptionLit (v : Nat) : Lit := ⟨v, true⟩

/-- `encodeImplication`, Refinement.cc:272-274. -/
def encodeImplication (i : Implication) (v : Nat) : Clause := [i.1.neg, i.2, deactivatedAssumptionLit v]

/-- `encodeBackbone`, Refinement.cc:276-278. -/
def encodeBackbone (l : Lit) (v : Nat) : Clause := [l, deactivatedAssumptionLit v]

/-- `isActive`, Refinement.cc:292-294. -/
def isActiveLit (l : Lit) : Bool := l.sign == false

/-- Marks in the equivalence conjectures. -/
def markEqs : List (List Nat) → List EquivImpls → List EquivImpls
  | m :: ms, s :: ss => m.foldl EquivImpls.addRemoval s :: markEqs ms ss
  | _, ss => ss

/-- A heuristic in `updateApproximationState`, Refinement.cc:178-194. -/
def ApproxState.mark (s : ApproxState) (m : Marks) : ApproxState :=
  ⟨markEqs m.eqs s.eqs, if s.bbs.lits.isEmpty then s.bbs else m.bbs.foldl Backbones.addRemoval s.bbs⟩

namespace Strategy

/-- The constructor, Refinement.cc:156-167. -/
def new (eqs : List (List Lit)) (bbs : List Lit) (nextVar : Nat) : Strategy :=
  ⟨.ofConjectures eqs bbs, [], fun _ => 0, fun _ => 0, nextVar⟩

/-- The loop body of `encode`, Refinement.cc:231-236, with `addAssumptionVariable`, 170-174. -/
def addImpl (x : Strategy × CNF) (i : Implication) : Strategy × CNF :=
  ({ x.1 with
      assumptions := x.1.assumptions ++ [activatedAssumptionLit x.1.nextVar]
      implIdx := fun j => if j = i then x.1.assumptions.length else x.1.implIdx j
      nextVar := x.1.nextVar + 1 },
    x.2 ++ [encodeImplication i x.1.nextVar])

/-- The loop body of `encodeInitial`, Refinement.cc:219-223. -/
def addBackbone (x : Strategy × CNF) (l : Lit) : Strategy × CNF :=
  ({ x.1 with
      assumptions := x.1.assumptions ++ [activatedAssumptionLit x.1.nextVar]
      bbIdx := fun j => if j = l then x.1.assumptions.length else x.1.bbIdx j
      nextVar := x.1.nextVar + 1 },
    x.2 ++ [encodeBackbone l x.1.nextVar])

/-- `encode`, Refinement.cc:228-239. -/
def encode (st : Strategy) (added : List Implication) : Strategy × CNF := added.foldl addImpl (st, [])

/-- `encodeInitial`, Refinement.cc:214-226. -/
def encodeInitial (st : Strategy) (added : List Implication) : Strategy × CNF :=
  let x := st.encode added
  x.1.approx.bbs.lits.foldl addBackbone x

/-- `assumptionLit = deactivatedAssumptionLit(assumptionLit.var())`, Refinement.cc:199-201; `none`: the index is not in the
vector. -/
def deactivate (as : List Lit) (k : Nat) : Option (List Lit) :=
  match as[k]? with
  | none => none
  | some l => some (as.set k (deactivatedAssumptionLit l.var))

/-- Deactivation of several assumption literals. -/
def deactivateAll (as : List Lit) : List Nat → Option (List Lit)
  | [] => some as
  | k :: ks => (deactivate as k).bind fun as => deactivateAll as ks

/-- `updateAssumptionLiterals`, Refinement.cc:196-210. -/
def updateAssumptionLiterals (st : Strategy) (d : ApproxDelta) : Option Strategy :=
  (deactivateAll st.assumptions (d.removedBackbones.map st.bbIdx ++ d.removed.map st.implIdx)).map fun as =>
    { st with assumptions := as }

/-- `init`, Refinement.cc:244-248. The second component are the new clauses. -/
def init (fuel : Nat) (st : Strategy) (ms : List Marks) : Option (Strategy × CNF) :=
  ((ms.foldl ApproxState.mark st.approx).createInitializationDelta fuel).map fun x =>
    encodeInitial { st with approx := x.1 } x.2.added

/-- `refine`, Refinement.cc:250-255. -/
def refine (fuel : Nat) (st : Strategy) (ms : List Marks) : Option (Strategy × CNF) :=
  ((ms.foldl ApproxState.mark st.approx).createDelta fuel).bind fun x =>
    (({ st with approx := x.1 } : Strategy).updateAssumptionLiterals x.2).map fun st => st.encode x.2.added

/-- `countEnabledClauses`, Refinement.cc:83-86. -/
def countEnabled (st : Strategy) : Nat := st.assumptions.countP isActiveLit

/-- `deactivatedAssumptions`, ARSolver.cc:196-202. -/
def deactivated (st : Strategy) : List Lit := st.assumptions.map fun l => deactivatedAssumptionLit l.var

end Strategy

/-- `ARSolverGarbageCollectorHeuristic::markRemovals`, ARSolver.cc:143-159, in the given round. -/
def gcMarks (stopAfterSecondRound : Bool) (round : Nat) (s : ApproxState) : Marks :=
  if !stopAfterSecondRound || decide (round < 3) then
    ⟨s.bbs.lits.map Lit.var, s.eqs.map fun e => e.implications.map fun i => i.1.var⟩
  else ⟨[], []⟩

/-- Inputs of an iteration of the loop in `ARSolver::solve`: the marks of the heuristics of the user and of the conflict
heuristic, and the inputs of the call of the underlying solver. -/
structure ArStep where
  user : List Marks
  conflict : Marks
  cfg : Config
  pre : List PreRound
  rounds : List Round

/-- All marks of a round, in the order of the heuristics, ARSolver.cc:238-258. -/
def ArStep.marks (a : ArStep) (round : Nat) (s : ApproxState) : List Marks := a.user ++ [gcMarks true round s, a.conflict]

/-- `addApproximationClauses`, ARSolver.cc:184-193. -/
def addApproximationClauses (sys : Sys) (cls : CNF) : Sys :=
  let p := (Problem.mk [] 0).readClauses cls
  sys.init p.variables p.problem

/-- The loop of `ARSolver::solve`, ARSolver.cc:275-301. -/
def arLoop (fuel : Nat) (maxSteps : Int) : List ArStep → Nat → Sys → Strategy → Option (Sys × Result)
  | [], _, _, _ => none
  | a :: as, i, sys, st =>
    (if 0 < i ∧ (i : Int) ≠ maxSteps then
      (st.refine fuel (a.marks (i + 1) st.approx)).map fun x => (addApproximationClauses sys x.2, x.1)
    else some (sys, st)).bind fun x =>
    if maxSteps < 0 ∨ (i : Int) < maxSteps then
      (solve a.cfg a.pre a.rounds (x.1.assume x.2.assumptions)).bind fun y =>
      let abort := y.2.status != some true || x.2.countEnabled == 0
      if !abort && y.2.status == some false then arLoop fuel maxSteps as (i + 1) y.1 x.2 else some y
    else solve a.cfg a.pre a.rounds (x.1.assume x.2.deactivated)

/-- `ARSolver::solve`, ARSolver.cc:261-304, for the conjectures `eqs` and `bbs`; `maxVars` is the counter of variables. -/
def arSolve (fuel : Nat) (maxSteps : Int) (eqs : List (List Lit)) (bbs : List Lit) (maxVars : Nat) (as : List ArStep) (sys : Sys) :
    Option (Sys × Result) :=
  match as with
  | [] => none
  | a :: as =>
    if maxSteps = 0 then solve a.cfg a.pre a.rounds sys
    else
      let st := Strategy.new eqs bbs maxVars
      (st.init fuel (a.marks 1 st.approx)).bind fun x =>
      arLoop fuel maxSteps (a :: as) 0 (addApproximationClauses sys x.2) x.1

end Candy
