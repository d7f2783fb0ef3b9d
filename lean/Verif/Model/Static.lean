import Verif.Model.History

/-!
# Model of the thread-safe propagator (src/candy/systems/propagate/StaticPropagate.h)

With the option `static-propagate` (src/candy/frontend/CandyBuilder.cc:58-140) the solver is
instantiated with `StaticPropagate`, which never reorders the literals of a clause: the two watched
literals are stored in a `Watcher` object that both watch lists point to. The rest of `Solver`
(src/candy/core/Solver.h) is the same template, so `St` reuses the components of `Solver`; its field
`watch` is unused and stays empty.

Simplification: histories without pre- and inprocessing only (`opt_preprocessing = 0`,
`opt_inprocessing = 0`), hence without eliminated variables. `detachClause` is not modelled: only the
certificate checker uses it, with the other propagator.
-/

namespace Candy

/-- `StaticPropagate::Watcher`, StaticPropagate.h:35-42. -/
structure SWatcher where
  cref : Nat
  w0 : Lit
  w1 : Lit
deriving Repr, DecidableEq

/-- `StaticPropagate::watchers` and `memory`, StaticPropagate.h:48-50: the lists hold pointers to
watcher objects; a pointer is an index into `tab`, of which the first `cnt` entries are allocated. -/
structure SW where
  tab : Nat → SWatcher
  cnt : Nat
  lists : Lit → List Nat

namespace SW

/-- `StaticPropagate::clear`, StaticPropagate.h:60-63. -/
def empty : SW := ⟨fun _ => ⟨0, ⟨0, false⟩, ⟨0, false⟩⟩, 0, fun _ => []⟩

/-- Body of `StaticPropagate::attachClause`, StaticPropagate.h:79-84, for a clause that starts with
`x, y`. -/
def add (W : SW) (c : Nat) (x y : Lit) : SW where
  tab := upd W.tab W.cnt ⟨c, x, y⟩
  cnt := W.cnt + 1
  lists := fun p => W.lists p ++
    ((if p = x.neg then [W.cnt] else []) ++ (if p = y.neg then [W.cnt] else []))

/-- `StaticPropagate::attachClause`, StaticPropagate.h:79-84; undefined for clauses with less than
two literals. -/
def attach (W : SW) (store : Nat → Cls) (c : Nat) : Option SW :=
  match (store c).lits with
  | x :: y :: _ => some (W.add c x y)
  | _ => none

/-- Loop body of `StaticPropagate::init`, StaticPropagate.h:67-71. -/
def attachLong (store : Nat → Cls) (W : SW) (c : Nat) : SW :=
  match (store c).lits with
  | x :: y :: _ :: _ => W.add c x y
  | _ => W

/-- `StaticPropagate::init`, StaticPropagate.h:65-72. -/
def init (db : DB) (W : SW) : SW := db.clauses.foldl (attachLong db.store) W

/-- `StaticPropagate::reset`, StaticPropagate.h:74-77. -/
def reset (db : DB) : SW := SW.empty.init db

/-- Write one watch list. -/
def setList (W : SW) (p : Lit) (l : List Nat) : SW := { W with lists := upd W.lists p l }

end SW

/-- The inner loop, StaticPropagate.h:137-144: the first literal of the clause that is neither of the
watched literals and not false. -/
def sFindWatch (T : Trail) (p other : Lit) (ls : List Lit) : Option Lit :=
  ls.find? fun l => l != p.neg && l != other && T.value l != some false

/-- `StaticPropagate::propagate_watched_clauses`, StaticPropagate.h:126-164. `kept` is the part of
the list in front of the `keep` iterator; the list of `p` is rewritten when the loop ends. -/
def sPropWatched (store : Nat → Cls) (p : Lit) :
    List Nat → List Nat → SW → Trail → (SW × Trail) × Option Nat
  | [], kept, W, T => ((W.setList p kept, T), none)
  | i :: ws, kept, W, T =>
    let w := W.tab i
    let other := if w.w0 ≠ p.neg then w.w0 else w.w1
    if T.value other = some true then sPropWatched store p ws (kept ++ [i]) W T
    else
      match sFindWatch T p other (store w.cref).lits with
      | some l =>
        sPropWatched store p ws kept
          { W with tab := upd W.tab i ⟨w.cref, l, other⟩
                   lists := upd W.lists l.neg (W.lists l.neg ++ [i]) } T
      | none =>
        if T.value other = some false then ((W.setList p (kept ++ i :: ws), T), some w.cref)
        else sPropWatched store p ws (kept ++ [i]) W (T.propagate other w.cref)

/-- `StaticPropagate::propagate`, StaticPropagate.h:164-180, with fuel for the `while` loop;
`propagate_binary_clauses` (103-114) is the same function as in `Propagate`. -/
def sPropagateLoop (bin : Lit → List Watcher) (store : Nat → Cls) :
    Nat → SW → Trail → Option ((SW × Trail) × Option Nat)
  | 0, _, _ => none
  | fuel + 1, W, T =>
    match T.stack[T.qhead]? with
    | none => some ((W, T), none)
    | some p =>
      match propBinary { T with qhead := T.qhead + 1 } (bin p) with
      | (T, some c) => some ((W, T), some c)
      | (T, none) =>
        match sPropWatched store p (W.lists p) [] W T with
        | (s, some c) => some (s, some c)
        | (s, none) => sPropagateLoop bin store fuel s.1 s.2

/-- A solver with the static propagator. -/
structure St where
  sol : Solver
  W : SW

/-- The conflict branch of `search`, Solver.h:360-381, with `StaticPropagate::attachClause`. -/
def sLearnStep (s : St) (confl : Nat) : Option St :=
  match handleConflict s.sol.db.store s.sol.db.bin s.sol.trail confl with
  | none => none
  | some r =>
    let db := s.sol.db.reestimate s.sol.recalc s.sol.trail r.involved
    let (db, id) := db.createClause r.learnt r.lbd
    match (if r.learnt.length > 2 then s.W.attach db.store id else some s.W), r.learnt with
    | some W, first :: _ =>
      some { sol := { s.sol with
               db := db
               trail := (s.sol.trail.backtrack r.btlevel).propagate first id
               sent := s.sol.sent ++ [r.learnt] }
             W := W }
    | _, _ => none

/-- The branch of `search` without conflict, Solver.h:383-419. It does not touch the propagator. -/
def decideStep (s : Solver) (ch : Choice) : IterOut :=
  if ch.restart then .done s none
  else
    match assumeLoop s.trail (s.trail.assumptions.drop s.trail.decisionLevel) with
    | (T, .failed p) =>
      .done { s with trail := T, conflict := s.conflict ++ analyzeFinal s.db.store T p.neg }
        (some false)
    | (T, .next p) => .cont { s with trail := T.newDecisionLevel.decide p }
    | (T, .allSet) =>
      match ch.pick T with
      | none => .done { s with trail := T } (some true)
      | some p => .cont { s with trail := T.newDecisionLevel.decide p }

/-- Result of one iteration of the search loop. -/
inductive StOut where
  | cont (s : St)
  | done (s : St) (res : Option Bool)

/-- The state of the propagator is not changed by the branch without conflict. -/
def StOut.of (W : SW) : IterOut → StOut
  | .cont s => .cont ⟨s, W⟩
  | .done s r => .done ⟨s, W⟩ r

/-- One iteration of `for (;;)` in `search`, Solver.h:356-419. -/
def sSearchIter (s : St) (ch : Choice) : Option StOut :=
  match sPropagateLoop s.sol.db.bin s.sol.db.store (s.sol.db.nVars + 1) s.W s.sol.trail with
  | none => none
  | some ((W, T), confl) =>
    let sol := { s.sol with trail := T }
    match confl with
    | some confl =>
      if T.decisionLevel = 0 then some (.done ⟨sol, W⟩ (some false))
      else (sLearnStep ⟨sol, W⟩ confl).map .cont
    | none => some (.of W (decideStep sol ch))

/-- `Solver::search`, Solver.h:352-422. -/
def sSearch : Nat → (Nat → Choice) → St → Option (St × Option Bool)
  | 0, _, _ => none
  | fuel + 1, o, s =>
    match sSearchIter s (o 0) with
    | none => none
    | some (.done s r) => some (s, r)
    | some (.cont s) => sSearch fuel (fun i => o (i + 1)) s

/-- `propagateAndMaterializeUnitClauses`, Solver.h:200-222. -/
def sMaterialize (s : St) : Option St :=
  let x := s.sol.db.unitLits.foldl factStep (s.sol.trail, s.sol.db)
  if x.2.hasEmpty then some { s with sol := { s.sol with trail := x.1, db := x.2 } }
  else
    match sPropagateLoop x.2.bin x.2.store (x.2.nVars + 1) s.W x.1 with
    | none => none
    | some ((W, T), some _) => some ⟨{ s.sol with trail := T, db := x.2.emptyClause }, W⟩
    | some ((W, T), none) =>
      let y := (T.stack.drop x.1.stack.length).foldl unitStep (T, x.2)
      some ⟨{ s.sol with trail := y.1, db := y.2 }, W⟩

/-- Solver.h:454-466 without inprocessing. -/
def sReduceStep (cfg : Config) (r : Round) (s : St) : St :=
  if r.trigger then
    let db := (reduceDB cfg r.sort s.sol.db).reorganize
    ⟨{ s.sol with db := db }, SW.reset db⟩
  else s

/-- One iteration of the loop in `solve`, Solver.h:450-477. -/
def sSolveRound (cfg : Config) (r : Round) (s : St) : Option (St × Option Bool) :=
  match sMaterialize (sReduceStep cfg r { s with sol := { s.sol with trail := s.sol.trail.reset } }) with
  | none => none
  | some s => if s.sol.db.hasEmpty then some (s, some false) else sSearch r.steps r.choice s

/-- The loop in `solve`, Solver.h:450-477. -/
def sSolveLoop (cfg : Config) : List Round → St → Option (St × Option Bool)
  | [], s => some (s, none)
  | r :: rs, s =>
    match sSolveRound cfg r s with
    | none => none
    | some (s, none) => sSolveLoop cfg rs s
    | some (s, some b) => some (s, some b)

/-- Start of `solve`, Solver.h:430-440, without eliminated variables. -/
def sSolveStart (s : St) : St where
  sol := { s.sol with conflict := [], trail := s.sol.trail.reset }
  W := SW.reset s.sol.db

/-- End of `solve`, Solver.h:479-502, without eliminated variables. -/
def sSolveEnd (s : St) (status : Option Bool) : St × Result :=
  let db := if status = some false ∧ s.sol.conflict.isEmpty then s.sol.db.emptyClause else s.sol.db
  (⟨{ s.sol with db := db, trail := s.sol.trail.backtrack 0 }, s.W⟩,
    ⟨status, if status = some true then modelOf s.sol.trail else fun _ => none, s.sol.conflict⟩)

/-- `Solver::solve`, Solver.h:425-503, with `opt_preprocessing = 0`. -/
def sSolve (cfg : Config) (rounds : List Round) (s : St) : Option (St × Result) :=
  let s := sSolveStart s
  match (if s.sol.db.hasEmpty then some (s, some false) else sSolveLoop cfg rounds s) with
  | none => none
  | some (s, status) => some (sSolveEnd s status)

namespace St

/-- `Solver::init`, Solver.h:328-348, with the default flag, without eliminated variables. The
propagator is initialised without being cleared, so clauses that are already attached get a second
watcher; `solve` starts by resetting it. -/
def init (s : St) (nv : Nat) (problem : CNF) : St :=
  let db := s.sol.db.init nv problem true
  ⟨{ s.sol with db := db, trail := s.sol.trail.init db.nVars }, s.W.init db⟩

/-- `Trail::setAssumptions`, Trail.h:131-139. -/
def assume (s : St) (as : List Lit) : St :=
  { s with sol := { s.sol with trail := s.sol.trail.setAssumptions as } }

/-- A new solver (constructor, Solver.h:96-118). -/
def new (recalc : Bool := true) : St where
  sol := { db := DB.new, watch := fun _ => [], trail := Trail.empty 0, conflict := [],
           recalc := recalc, sent := [] }
  W := SW.empty

end St

/-- A round as in `Usage.plain`. -/
def Round.StOk (r : Round) : Prop := r.Valid ∧ r.inprocess = none

/-- Histories of API calls on a solver with the static propagator, as `History`: `F` are all clauses
added so far, `as` the assumptions set last. -/
inductive SHistory : CNF → List Lit → St → Prop
  | new (recalc : Bool) : SHistory [] [] (St.new recalc)
  | add {F : CNF} {as : List Lit} {s : St} (h : SHistory F as s) (nv : Nat) (G : CNF)
      (hG : WfCNF (max s.sol.db.nVars nv) G) : SHistory (F ++ G) as (s.init nv G)
  | assume {F : CNF} {as : List Lit} {s : St} (h : SHistory F as s) (as' : List Lit)
      (hb : ∀ l ∈ as', l.var < s.sol.db.nVars) : SHistory F as' (s.assume as')
  | solve {F : CNF} {as : List Lit} {s s' : St} {res : Result} (h : SHistory F as s)
      (cfg : Config) (rounds : List Round) (hr : ∀ r ∈ rounds, r.StOk)
      (he : sSolve cfg rounds s = some (s', res)) : SHistory F as s'

/-- States at the head of the main loop of `solve`. -/
inductive SInSolve : CNF → List Lit → St → Prop
  | enter {F : CNF} {as : List Lit} {s : St} (h : SHistory F as s)
      (he : (sSolveStart s).sol.db.hasEmpty = false) : SInSolve F as (sSolveStart s)
  | round {F : CNF} {as : List Lit} {s s' : St} (h : SInSolve F as s) (cfg : Config)
      (r : Round) (hr : r.StOk) (he : sSolveRound cfg r s = some (s', none)) : SInSolve F as s'

/-- States at the head of the search loop (Solver.h:356), after any number of calls, conflicts,
restarts and clause database reductions. -/
inductive SSearching : CNF → List Lit → St → Prop
  | start {F : CNF} {as : List Lit} {s s' : St} (h : SInSolve F as s) (cfg : Config) (r : Round)
      (hr : r.StOk)
      (h1 : sMaterialize (sReduceStep cfg r
        { s with sol := { s.sol with trail := s.sol.trail.reset } }) = some s')
      (h2 : s'.sol.db.hasEmpty = false) : SSearching F as s'
  | iter {F : CNF} {as : List Lit} {s s' : St} (h : SSearching F as s) (ch : Choice)
      (hch : ch.Valid) (he : sSearchIter s ch = some (.cont s')) : SSearching F as s'

end Candy
