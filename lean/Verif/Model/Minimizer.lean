import Verif.Model.Gates
import Verif.Model.History

/-!
# Model of the minimisation of models
(src/candy/minimizer/Minimizer.{h,cc}, src/candy/gates/GateProblem.h: getPrunedProblem)

The constructor of `Minimizer` switches preprocessing, inprocessing and the sorting of variables off and
creates a solver of its own (Minimizer.cc:37-42). Each call of its `solve` gets its options and the inputs of
its heuristics from a `SolveInput`; the list of these inputs also bounds the number of calls considered.
-/

namespace Candy

/-- Options and inputs of one call of `solve`. -/
structure SolveInput where
  cfg : Config
  pre : List PreRound
  rounds : List Round

/-- What the options set by the constructor of `Minimizer` (Minimizer.cc:37-39) mean for a call. -/
def SolveInput.Plain (i : SolveInput) : Prop :=
  i.cfg.preprocessing = false ∧ ∀ r ∈ i.rounds, r.Valid ∧ r.inprocess = none

/-- One clause of `purify`, Minimizer.cc:53-58: `none` is an access outside the model. -/
def purifyClause (m : SolverResult) : Clause → Option Clause
  | [] => some []
  | l :: ls =>
    match m.value l.var, purifyClause m ls with
    | some x, some c => some (if x = some l then pos l.var :: c else c)
    | _, _ => none

/-- `purify`, Minimizer.cc:48-62. -/
def purify (m : SolverResult) : CNF → Option CNF
  | [] => some []
  | c :: cs =>
    match purifyClause m c, purify m cs with
    | some c', some cs' => some (c' :: cs')
    | _, _ => none

/-- The result of `getRootLiterals`, GateProblem.h:178-189. -/
def GateProblem.rootLiterals (G : GateProblem) (cls : Nat → Clause) : List Lit := litSet (G.roots.flatMap cls)

/-- The loop of `getPrunedProblem`, GateProblem.h:202-222: the stack is a list with its top first, `acc` are
the clauses collected, `visited` the stamped variables. `none`: the bound is used up. -/
def GateProblem.pruneLoop (G : GateProblem) (m : SolverResult) : Nat → List Lit → (Nat → Bool) → List Nat → Option (List Nat)
  | _, [], _, acc => some acc
  | 0, _ :: _, _, _ => none
  | n + 1, o :: ls, visited, acc =>
    let g := G.gates o.var
    if g.out = none then pruneLoop G m n ls visited acc
    else if !visited o.var && (g.notMono || m.satisfies o) then
      pruneLoop G m n (g.inp.reverse ++ ls) (upd visited o.var true) (acc ++ g.fwd ++ if g.notMono then g.bwd else [])
    else pruneLoop G m n ls visited acc

/-- `getPrunedProblem`, GateProblem.h:196-227. -/
def GateProblem.prunedProblem (G : GateProblem) (cls : Nat → Clause) (m : SolverResult) (fuel : Nat) : Option (List Nat) :=
  (G.pruneLoop m fuel (G.rootLiterals cls).reverse (fun _ => false) G.roots).map (· ++ G.remainder)

/-- The variables of `iterativeMinimization`: the solver, `cardinality`, `assumptions` and `satisfiable`, Minimizer.cc:107-116. -/
structure MinState where
  sys : Sys
  cardinality : List Lit
  assumptions : List Lit
  satisfiable : Option Bool

/-- Lines 130-137 (and 163-168) of `iterativeMinimization`: the variables below `n` that are true in the result of the solver
(`result.satisfies`), as negative literals, or those that are not. -/
def negTrue (n : Nat) (r : Result) (b : Bool) : List Lit :=
  ((List.range n).filter fun v => (r.model v == some true) == b).map neg

/-- The state at the head of the first loop, Minimizer.cc:107-115, for a solver `sys`. -/
def minStart (n : Nat) (H : CNF) (sys : Sys) : MinState :=
  let p := Problem.empty.readClauses H
  ⟨sys.init p.nVars p.problem, (List.range n).map neg, [], some true⟩

/-- One iteration of the first loop, Minimizer.cc:118-136, and whether it goes on. -/
def minIter (n : Nat) (i : SolveInput) (st : MinState) : Option (MinState × Bool) :=
  let q := Problem.empty.readClauses [st.cardinality]
  (solve i.cfg i.pre i.rounds ((st.sys.init q.nVars q.problem).assume st.assumptions)).map fun x =>
    if x.2.status = some true then (⟨x.1, negTrue n x.2 true, negTrue n x.2 false, x.2.status⟩, true)
    else ({ st with sys := x.1, satisfiable := x.2.status }, false)

/-- The first loop, Minimizer.cc:117-137: `none` if it has not ended within the given calls. -/
def minLoop (n : Nat) : List SolveInput → MinState → Option MinState
  | [], _ => none
  | i :: is, st => (minIter n i st).bind fun x => if x.2 then minLoop n is x.1 else some x.1

/-- `genHalfAdder`, Minimizer.h:55-59. -/
def halfAdder (p : Problem) (a b sum carry : Lit) : Problem :=
  p.readClauses [[a, b.neg, sum], [a.neg, b, sum], [a.neg, b.neg, carry]]

/-- `genFullAdder`, Minimizer.h:61-69. -/
def fullAdder (p : Problem) (a b c sum carry : Lit) : Problem :=
  p.readClauses [[a, b, c.neg, sum], [a, b.neg, c, sum], [a.neg, b, c, sum], [a.neg, b.neg, c.neg, sum],
    [a.neg, b.neg, carry], [a.neg, c.neg, carry], [b.neg, c.neg, carry]]

/-- The two loops of `genParCounter`, Minimizer.h:93-108: the outputs and the last carry. The first argument are the outputs for the
first half, the second those for the second half, which has at least as many elements. -/
def adders : List Lit → List Lit → Lit → Problem → Problem × List Lit × Lit
  | [], _, carry, p => (p, [], carry)
  | a :: as, [], carry, p =>
    let (p, s) := p.newVar
    let (p, c) := p.newVar
    let r := adders as [] (pos c) (halfAdder p a carry (pos s) (pos c))
    (r.1, pos s :: r.2.1, r.2.2)
  | a :: as, b :: bs, carry, p =>
    let (p, s) := p.newVar
    let (p, c) := p.newVar
    let r := adders as bs (pos c) (fullAdder p a b carry (pos s) (pos c))
    (r.1, pos s :: r.2.1, r.2.2)

/-- `genParCounter`, Minimizer.h:75-113; the number bounds the depth of the recursion, which halves the list. The initial carry is the
last input. -/
def parCounter : Nat → Problem → List Lit → Problem × List Lit
  | 0, p, _ => (p, [])
  | _ + 1, p, [] => (p, [])
  | _ + 1, p, [x] => (p, [x])
  | n + 1, p, x :: y :: zs =>
    let inputs := x :: y :: zs
    let h := inputs.length / 2
    let (p, a) := parCounter n p (inputs.take h)
    let (p, b) := parCounter n p (inputs.drop h)
    let r := adders a b (inputs.getLast (by simp [inputs])) p
    (r.1, r.2.1 ++ [r.2.2])

/-- The clauses collected by `genLessThanConstraint`, Minimizer.h:118-136. -/
def lessThanClauses : List Lit → Nat → CNF → CNF
  | [], _, acc => acc
  | o :: os, k, acc =>
    lessThanClauses os (k / 2) (if k % 2 = 1 then acc.map (· ++ [o.neg]) else acc ++ [[o.neg]])

/-- One iteration of the second loop, Minimizer.cc:149-164. `lessthan.clear()` keeps the number of variables of the problem, `nv`. -/
def cntIter (n : Nat) (outputs : List Lit) (i : SolveInput) (nv : Nat) (st : MinState) : Option ((MinState × Nat) × Bool) :=
  let q := (Problem.mk [] nv).readClauses (lessThanClauses outputs st.cardinality.length [])
  (solve i.cfg i.pre i.rounds (st.sys.init q.nVars q.problem)).map fun x =>
    if x.2.status = some true then ((⟨x.1, negTrue n x.2 true, st.assumptions, x.2.status⟩, q.nVars), true)
    else (({ st with sys := x.1, satisfiable := x.2.status }, q.nVars), false)

/-- The second loop, Minimizer.cc:148-165. -/
def cntLoop (n : Nat) (outputs : List Lit) : List SolveInput → Nat → MinState → Option MinState
  | [], _, _ => none
  | i :: is, nv, st => (cntIter n outputs i nv st).bind fun x => if x.2 then cntLoop n outputs is x.1.2 x.1.1 else some x.1.1

/-- The second part of `iterativeMinimization`, Minimizer.cc:139-166. -/
def minCount (n : Nat) (is : List SolveInput) (st : MinState) : Option MinState :=
  let r := parCounter n Problem.empty ((List.range n).map pos)
  cntLoop n r.2 is 0 { st with sys := st.sys.init r.1.nVars r.1.problem }

/-- `iterativeMinimization`, Minimizer.cc:106-174, for a problem with `n` variables and the solver `sys`. `is2` are the inputs of the calls
in the second loop. -/
def iterativeMinimization (n : Nat) (H : CNF) (minimal : Bool) (is1 is2 : List SolveInput) (sys : Sys) : Option (List Lit) :=
  (minLoop n is1 (minStart n H sys)).bind fun st =>
    (if minimal then minCount n is2 st else some st).map fun st => st.cardinality.map Lit.neg

/-- Lines 96-103 of `mimimizeModel`: translation to the polarity in the model. -/
def translate (m : SolverResult) (ls : List Lit) : SolverResult :=
  ls.foldl (fun r l => r.setMinimizedModelValue (if m.satisfies l then l else l.neg)) m

/-- What gate analysis contributes to `mimimizeModel`, Minimizer.cc:68-89. -/
structure MinGates where
  gp : GateProblem
  fuel : Nat

/-- `mimimizeModel`, Minimizer.cc:64-104. `G` is the result of the analysis, which is only made if it is needed. `setMinimizedModelValue`
does not change what `satisfies` reads. -/
def minimizeModel (p : Problem) (G : MinGates) (pruning minimal project : Bool) (is1 is2 : List SolveInput) (sys : Sys) (m : SolverResult) :
    Option SolverResult :=
  (if pruning then (G.gp.prunedProblem (fun i => p.problem.getD i []) m G.fuel).map fun is => is.map fun i => p.problem.getD i []
    else some p.problem).bind fun F =>
  (purify m F).bind fun H =>
  (iterativeMinimization p.nVars H minimal is1 is2 sys).map fun ls =>
    translate m (if project then ls.filter fun l => (G.gp.gates l.var).out.isNone else ls)

end Candy
