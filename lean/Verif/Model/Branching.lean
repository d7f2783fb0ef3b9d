import Verif.Model.Heap
import Verif.Model.Rsil
import Verif.Model.Centrality
import Verif.Model.Solve

/-!
# Model of the branching heuristics `VSIDS`, `VSIDSC`, `LRB`, `RSIL` and of search with them

src/candy/systems/branching/{VSIDS,VSIDSC,LRB}.h, src/candy/systems/branching/rsil. The first three share the handling of the heap of
variables. Activities and weights are floating point numbers that change between heap operations;
here the order they induce at the time of an operation is an arbitrary input (`ord i` at the
`i`-th heap operation of a call), which covers every arithmetic behaviour, including rescaling,
rounding and values that are not a number. `none` is an access out of bounds.
-/

namespace Candy

/-- Sequence of orders during one call. -/
abbrev Orders := Nat → Nat → Nat → Bool

/-- The state of the heuristic that matters for which literal is picked: VSIDS.h:73-75. `rsil` is present in the
variants of `RSILBranchingHeuristic`, which embed `VSIDS`; `cent` in `VSIDSC`. -/
structure Branch where
  heap : VHeap
  polarity : Nat → Bool
  rsil : Option Rsil
  cent : Option Cent

namespace Branch

/-- Which heuristic, the option `opt_vsids_extra_bump`, the options for implicit learning, and for `VSIDSC` the option
`opt_vsidsc_bump`. -/
structure Kind where
  vsids : Bool
  extraBump : Bool
  rsil : Option RsilOpt
  cent : Option Bool

/-- Constructor, VSIDS.h:84-93; `initial_polarity` is `true`. -/
def new (kind : Kind) : Branch := ⟨VHeap.empty, fun _ => true, kind.rsil.map Rsil.new, kind.cent.map fun _ => Cent.new⟩

/-- The decision variables in ascending order, VSIDS.h:125-132, LRB.h:114-119. -/
def candidates (T : Trail) : List Nat := (List.range T.nVars).filter fun v => T.decision v

/-- `reset`, VSIDS.h:123-134, LRB.h:113-121. -/
def reset (lt : Nat → Nat → Bool) (b : Branch) (T : Trail) : Option Branch :=
  (b.heap.build lt (candidates T)).map fun h => { b with heap := h }

/-- `init`, VSIDS.h:102-121, LRB.h:93-111: grows the heap's index table, optionally sets
polarities by occurrence (`pol`), and resets. (The table is grown when the number of variables
exceeds the number of activities, which grows at the same place.) With implicit learning,
BranchingHeuristics.h:98-108; `conj` are the conjectures found, `nv` the number of variables of the formula. -/
def init (lt : Nat → Nat → Bool) (pol : Nat → Bool) (conj : Option Conj) (nv : Nat) (b : Branch) (T : Trail) :
    Option Branch :=
  (reset lt { b with heap := b.heap.grow T.nVars, polarity := pol } T).bind fun b =>
    match b.rsil with
    | none => some b
    | some r => (r.init conj nv).map fun r => { b with rsil := some r }

/-- `clear`, VSIDS.h:95-100, LRB.h:85-91, Heap.h:153-158; with implicit learning only the embedded heuristic is
cleared, BranchingHeuristics.h:94-96. VSIDSC.h:145-150 keeps the graph and the centralities. Polarities are set again when `init` grows the vector. -/
def clear (b : Branch) : Branch :=
  { b with heap := { b.heap with size := 0, idx := fun _ => none }, polarity := fun _ => true }

/-- `varBumpActivity`, VSIDS.h:194-204: the heap part. -/
def bump (lt : Nat → Nat → Bool) (h : VHeap) (v : Nat) : Option VHeap :=
  if h.inHeap v then h.decrease lt v else some h

/-- The variables of the involved clauses, each at its first occurrence, VSIDS.h:223-234. The
stamp array is the list `seen`. -/
def bumpVars : List Nat → List Lit → List Nat
  | _, [] => []
  | seen, l :: ls => if l.var ∈ seen then bumpVars seen ls else l.var :: bumpVars (l.var :: seen) ls

/-- The look-ups of centralities while bumping, VSIDSC.h:213-216; nothing in the other heuristics and without the option
`opt_vsidsc_bump`. -/
def lookups (kind : Kind) (vs : List Nat) (b : Branch) : Option Branch :=
  match b.cent with
  | none => some b
  | some c => if kind.cent = some true then (c.lookups vs).map fun c => { b with cent := some c } else some b

/-- The bump loop; `k` counts heap operations. -/
def bumpAll (ord : Orders) : Nat → List Nat → VHeap → Option VHeap
  | _, [], h => some h
  | k, v :: vs, h => (bump (ord k) h v).bind (bumpAll ord (k + 1) vs)

/-- The loop over the literals that backtracking will unassign, VSIDS.h:252-258,
LRB.h:145-155. -/
def reinsert (ord : Orders) (decision : Nat → Bool) : Nat → List Lit → Branch → Option Branch
  | _, [], b => some b
  | k, l :: ls, b =>
    let b := { b with polarity := upd b.polarity l.var l.sign }
    if b.heap.inHeap l.var = false ∧ decision l.var = true then
      (b.heap.insert (ord k) l.var).bind fun h =>
        reinsert ord decision (k + 1) ls { b with heap := h }
    else reinsert ord decision (k + 1) ls b

/-- `process_conflict`, VSIDS.h:215-259, VSIDSC.h:241-285, LRB.h:124-156, called with the trail
before backtracking; `involved` are the literals of the involved clauses. With
`glucose_style_extra_bump` line 238 evaluates `trail.begin(trail.decisionLevel())`, that is
`trail_lim[trail_lim.size()]`, which is out of bounds. LRB does not bump, and its read of the trail
from `trail.begin(0)` (line 138) is in bounds because there is a decision level. -/
def processConflict (kind : Kind) (ord : Orders) (b : Branch) (T : Trail) (involved : List Lit)
    (btlevel : Nat) : Option Branch :=
  if kind.vsids = true ∧ kind.extraBump = true then none
  else
    let vs := if kind.vsids then bumpVars [] involved else []
    (b.lookups kind vs).bind fun b =>
    (bumpAll ord 0 vs b.heap).bind fun h =>
      match T.lim[btlevel]? with
      | none => none
      | some k => reinsert ord T.decision vs.length (T.stack.drop k) { b with heap := h }

/-- `process_reduce`, VSIDSC.h:287-295 (nothing in the other heuristics); `recalc` is the test whether the database has
grown enough. Activities are set, and the heap is built anew, if there are edges in the graph (lines 492, 503). -/
def processReduce (recalc rtl : Bool) (lt : Nat → Nat → Bool) (b : Branch) (nVars : Nat) (cs : List Clause) (T : Trail) :
    Option Branch :=
  match b.cent with
  | none => some b
  | some c =>
    if c.started = false ∨ recalc = true then
      (VarGraph.ofClauses rtl nVars cs).bind fun g =>
        if Cent.worth g then reset lt { b with cent := some (c.update nVars g) } T
        else some { b with cent := some (c.update nVars g) }
    else some b

/-- The loop of `pickBranchLit`, VSIDS.h:271-282, LRB.h:165-172. Every pass removes an element, so
the size of the heap is enough fuel. `none` as first component is an access out of bounds. -/
def pickLoop (ord : Orders) (T : Trail) : Nat → Nat → VHeap → Option (VHeap × Option Nat)
  | 0, _, h => some (h, none)
  | n + 1, k, h =>
    if h.size = 0 then some (h, none)
    else
      match h.removeMin (ord k) with
      | none => none
      | some (h, v) =>
        if T.nVars ≤ v then none
        else if T.assigns v = none ∧ T.decision v = true then some (h, some v)
        else pickLoop ord T n (k + 1) h

/-- `pickBranchLit`, VSIDS.h:266-284, LRB.h:161-175. -/
def pickHeap (ord : Orders) (b : Branch) (T : Trail) : Option (Branch × Option Lit) :=
  (pickLoop ord T b.heap.size 0 b.heap).map fun r =>
    ({ b with heap := r.1 }, r.2.map fun v => ⟨v, b.polarity v⟩)

/-- `pickBranchLit` with implicit learning, BranchingHeuristics.cc:34-166. -/
def pickRsil (ord : Orders) (b : Branch) (T : Trail) (r : Rsil) : Option (Branch × Option Lit) :=
  match r.pickFirst T with
  | none => none
  | some (r, some p) => some ({ b with rsil := some r }, some p)
  | some (r, none) =>
    match b.pickHeap ord T with
    | none => none
    | some (b, none) => some ({ b with rsil := some r }, none)
    | some (b, some p) => some ({ b with rsil := some (r.pickSign p).1 }, some (r.pickSign p).2)

/-- `pickBranchLit` of all heuristics. -/
def pick (ord : Orders) (b : Branch) (T : Trail) : Option (Branch × Option Lit) :=
  match b.rsil with
  | none => b.pickHeap ord T
  | some r => if r.done then b.pickRsil ord T r else b.pickHeap ord T

end Branch

/-- Inputs of one iteration of the search loop with a concrete branching heuristic: the answer of
the restart test and the orders during this iteration. -/
structure BChoice where
  restart : Bool
  ord : Orders

/-- The literals of the clauses involved in the analysis of a conflict
(`clause_db.result.involved_clauses`). -/
def involvedLits (store : Nat → Cls) (cs : List Nat) : List Lit := cs.flatMap fun c => (store c).lits

/-- One iteration of `for (;;)` in `search`, Solver.h:356-419, with the branching heuristic. -/
def searchIterB (kind : Branch.Kind) (s : Solver) (b : Branch) (c : BChoice) :
    Option (IterOut × Branch) :=
  match propagateLoop s.db.bin (s.db.nVars + 1) ⟨s.db.store, s.watch, s.trail⟩ with
  | none => none
  | some (ps, confl) =>
    let s := { s with db := { s.db with store := ps.store }, watch := ps.watch, trail := ps.T }
    match confl with
    | some confl =>
      if s.trail.decisionLevel = 0 then some (.done s (some false), b)
      else
        match handleConflict s.db.store s.db.bin s.trail confl with
        | none => none
        | some r =>
          match b.processConflict kind c.ord s.trail (involvedLits s.db.store r.involved) r.btlevel with
          | none => none
          | some b => (learnStep s confl).map fun s => (.cont s, b)
    | none =>
      if c.restart then some (.done s none, b)
      else
        match assumeLoop s.trail (s.trail.assumptions.drop s.trail.decisionLevel) with
        | (T, .failed p) =>
          some (.done { s with trail := T, conflict := s.conflict ++ analyzeFinal s.db.store T p.neg }
            (some false), b)
        | (T, .next p) =>
          some (.cont { s with trail := T.newDecisionLevel.decide p }, b)
        | (T, .allSet) =>
          match b.pick c.ord T with
          | none => none
          | some (b, none) => some (.done { s with trail := T } (some true), b)
          | some (b, some p) => some (.cont { s with trail := T.newDecisionLevel.decide p }, b)

/-- `Solver::search`, Solver.h:352-422. -/
def searchB (kind : Branch.Kind) : Nat → (Nat → BChoice) → Solver → Branch →
    Option (Solver × Option Bool × Branch)
  | 0, _, _, _ => none
  | fuel + 1, o, s, b =>
    match searchIterB kind s b (o 0) with
    | none => none
    | some (.done s r, b) => some (s, r, b)
    | some (.cont s, b) => searchB kind fuel (fun i => o (i + 1)) s b

/-- Inputs of one iteration of the loop in `solve`, as `Round`, with the inputs of the heuristic in
place of its choices: the order at `branch.reset()` and during search, and for `process_reduce`. -/
structure RoundB where
  trigger : Bool
  inprocess : Option (List PreRound)
  sort : List Nat → List Nat
  steps : Nat
  resetOrd : Nat → Nat → Bool
  choice : Nat → BChoice
  recalc : Bool
  rtl : Bool
  centOrd : Nat → Nat → Bool

/-- The same round with given choices. -/
def RoundB.with (r : RoundB) (o : Nat → Choice) : Round :=
  ⟨r.trigger, r.inprocess, r.sort, r.steps, o⟩

/-- `branch.process_reduce()`, Solver.h:464, after the database was reduced and reorganised. -/
def reduceB (r : RoundB) (sys : Sys) (b : Branch) : Option Branch :=
  if r.trigger then
    b.processReduce r.recalc r.rtl r.centOrd sys.sol.db.nVars
      ((sys.sol.db.clauses.filter fun c => !(sys.sol.db.store c).isDeleted).map fun c => (sys.sol.db.store c).lits)
      sys.sol.trail
  else some b

/-- One iteration of the loop in `solve`, Solver.h:450-477, with the branching heuristic. -/
def solveRoundB (kind : Branch.Kind) (cfg : Config) (r : RoundB) (sys : Sys) (b : Branch) :
    Option (Sys × Option Bool × Branch) :=
  let sys := { sys with sol := { sys.sol with trail := sys.sol.trail.reset } }
  match b.reset r.resetOrd sys.sol.trail with
  | none => none
  | some b =>
    match reduceStep cfg (r.with fun _ => ⟨false, fun _ => none⟩) sys with
    | none => none
    | some sys =>
     match reduceB r sys b with
     | none => none
     | some b =>
      match materialize sys.sol with
      | none => none
      | some sol =>
        if sol.db.hasEmpty then some ({ sys with sol := sol }, some false, b)
        else (searchB kind r.steps r.choice sol b).map fun x => ({ sys with sol := x.1 }, x.2)

/-- The loop in `solve`, Solver.h:450-477. -/
def solveLoopB (kind : Branch.Kind) (cfg : Config) : List RoundB → Sys → Branch →
    Option (Sys × Option Bool × Branch)
  | [], sys, b => some (sys, none, b)
  | r :: rs, sys, b =>
    match solveRoundB kind cfg r sys b with
    | none => none
    | some (sys, none, b) => solveLoopB kind cfg rs sys b
    | some (sys, some x, b) => some (sys, some x, b)

/-- `Solver::solve`, Solver.h:425-503, with the branching heuristic. -/
def solveB (kind : Branch.Kind) (cfg : Config) (pre : List PreRound) (rounds : List RoundB)
    (sys : Sys) (b : Branch) : Option (Sys × Result × Branch) :=
  let sys := solveStart sys
  let sys' := if cfg.preprocessing then
      (process cfg pre sys).map fun sys =>
        { sys with sol := { sys.sol with watch := resetWatch sys.sol.db } }
    else some sys
  match sys' with
  | none => none
  | some sys =>
    match (if sys.sol.db.hasEmpty then some (sys, some false, b)
        else solveLoopB kind cfg rounds sys b) with
    | none => none
    | some (sys, status, b) => (solveEnd sys status).map fun x => (x.1, x.2, b)

end Candy
