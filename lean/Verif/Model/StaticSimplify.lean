import Verif.Model.Static
import Verif.Model.Tidy

/-!
# The thread-safe propagator together with pre- and inprocessing

The same instantiation of `Solver` (src/candy/core/Solver.h) as in `Model/Static.lean`, now with
subsumption, asymmetric variable reduction and variable elimination. The simplification steps are
templates over the propagator type as well (src/candy/simplification/AsymmetricVariableReduction.h);
only asymmetric reduction and `propagateAndMaterializeUnitClauses` call the propagator. `SSys` pairs
the components of `Sys` with the watchers of `StaticPropagate`; the field `watch` of the solver is
unused and stays empty.
-/

namespace Candy

/-- Solver state with the state of variable elimination and of the static propagator. -/
structure SSys where
  sys : Sys
  W : SW

/-! ### Asymmetric variable reduction -/

/-- State passed through asymmetric variable reduction, as `AVS`. -/
structure SAVS where
  s : SDB
  W : SW
  T : Trail

/-- The loop of `reduce(Var)`, AsymmetricVariableReduction.h:64-91, as `asymScan`. -/
def sAsymScan (v : Nat) : List Nat → SAVS → Option (SAVS × Bool)
  | [], st => some (st, true)
  | o :: os, st =>
    match st.s.obj[o]? with
    | none => none
    | some none => sAsymScan v os st
    | some (some c) =>
      let ls := st.s.db.lits c
      if ls.any (fun l => st.T.satisfies l) then sAsymScan v os st
      else
        let r := asymDecide v ls st.T.newDecisionLevel none
        match sPropagateLoop st.s.db.bin st.s.db.store (st.s.db.nVars + 1) st.W r.1 with
        | none => none
        | some ((W, T), confl) =>
          let st : SAVS := ⟨st.s, W, T.backtrack 0⟩
          match confl with
          | none => sAsymScan v os st
          | some _ =>
            if 1 < ls.length then
              match r.2 with
              | none => none
              | some l =>
                match st.s.strengthen o l with
                | none => none
                | some s => sAsymScan v os { st with s := s }
            else some (st, false)

/-- `reduce()`, AsymmetricVariableReduction.h:110-127, over the variables `vs`. -/
def sAsymList : List Nat → SAVS → Option (SAVS × Bool)
  | [], st => some (st, true)
  | v :: vs, st =>
    if st.T.assigns v = none then
      match sAsymScan v (st.s.occ v) st with
      | none => none
      | some (st, false) => some (st, false)
      | some (st, true) => sAsymList vs st
    else sAsymList vs st

/-- `reduce()`, AsymmetricVariableReduction.h:110-127. -/
def sAsymAll (active : Bool) (st : SAVS) : Option (SAVS × Bool) :=
  if active then sAsymList (List.range st.T.nVars) st else some (st, true)

/-! ### Pre- and inprocessing -/

/-- State during `processClauseDatabase`. -/
structure SProc where
  p : Proc
  W : SW

namespace SProc

/-- `propagateAndMaterializeUnitClauses()` inside the loop. -/
def materialize (q : SProc) : Option SProc :=
  (sMaterialize ⟨q.p.sys.sol, q.W⟩).map fun t => ⟨{ q.p with sys := { q.p.sys with sol := t.sol } }, t.W⟩

/-- `subsumption.subsume()`, Solver.h:239-245; it does not use the propagator. -/
def subsume (q : SProc) (r : PreRound) : Option SProc :=
  (q.p.subsume r).map fun p => ⟨p, q.W⟩

/-- `reduction.reduce()`, Solver.h:250-255. -/
def reduce (cfg : Config) (q : SProc) (r : PreRound) : Option SProc :=
  (sAsymAll cfg.useAsymm ⟨q.p.sdb, q.W, q.p.sys.sol.trail⟩).map fun x =>
    ⟨(Proc.mk { q.p.sys with sol := { q.p.sys.sol with db := x.1.s.db, trail := x.1.T } }
      x.1.s.obj x.1.s.occ).after x.2 r.cleanup2, x.1.W⟩

/-- `elimination.eliminate()`, Solver.h:260-265; it does not use the propagator. -/
def eliminate (cfg : Config) (q : SProc) (r : PreRound) : Option SProc :=
  (q.p.eliminate cfg r).map fun p => ⟨p, q.W⟩

/-- One iteration of the loop in `processClauseDatabase`, Solver.h:234-269; the flag is `false`
for `break`. -/
def round (cfg : Config) (q : SProc) (r : PreRound) : Option (SProc × Bool) :=
  match q.materialize with
  | none => none
  | some q =>
    if q.p.sys.sol.db.hasEmpty then some (q, false)
    else
      match (q.subsume r).bind materialize with
      | none => none
      | some q =>
        if q.p.sys.sol.db.hasEmpty then some (q, false)
        else
          match (q.reduce cfg r).bind materialize with
          | none => none
          | some q =>
            if q.p.sys.sol.db.hasEmpty then some (q, false)
            else (q.eliminate cfg r).map fun q => (q, true)

/-- The loop of `processClauseDatabase`. -/
def rounds (cfg : Config) : List PreRound → SProc → Option SProc
  | [], q => some q
  | r :: rs, q =>
    match q.round cfg r with
    | none => none
    | some (q, false) => some q
    | some (q, true) => rounds cfg rs q

end SProc

namespace SSys

/-- `processClauseDatabase`, Solver.h:225-270. -/
def process (cfg : Config) (rs : List PreRound) (s : SSys) : Option SSys :=
  let d := SDB.init s.sys.sol.db
  (SProc.rounds cfg rs ⟨⟨s.sys, d.obj, d.occ⟩, s.W⟩).map fun q => ⟨q.p.sys, q.W⟩

/-! ### solve -/

/-- Solver.h:454-466. -/
def reduceStep (cfg : Config) (r : Round) (s : SSys) : Option SSys :=
  if r.trigger then
    let s' := match r.inprocess with
      | some rs => s.process cfg rs
      | none => some ⟨{ s.sys with sol := { s.sys.sol with db := reduceDB cfg r.sort s.sys.sol.db } }, s.W⟩
    s'.map fun s =>
      let db := s.sys.sol.db.reorganize
      ⟨{ s.sys with sol := { s.sys.sol with db := db } }, SW.reset db⟩
  else some s

/-- Start of an iteration of the loop in `solve`, Solver.h:450-453. -/
def resetTrail (s : SSys) : SSys :=
  { s with sys := { s.sys with sol := { s.sys.sol with trail := s.sys.sol.trail.reset } } }

/-- One iteration of the loop in `solve`, Solver.h:450-477. -/
def solveRound (cfg : Config) (r : Round) (s : SSys) : Option (SSys × Option Bool) :=
  match s.resetTrail.reduceStep cfg r with
  | none => none
  | some s =>
    match sMaterialize ⟨s.sys.sol, s.W⟩ with
    | none => none
    | some t =>
      if t.sol.db.hasEmpty then some (⟨{ s.sys with sol := t.sol }, t.W⟩, some false)
      else (sSearch r.steps r.choice t).map fun x => (⟨{ s.sys with sol := x.1.sol }, x.1.W⟩, x.2)

/-- The loop in `solve`, Solver.h:450-477. -/
def solveLoop (cfg : Config) : List Round → SSys → Option (SSys × Option Bool)
  | [], s => some (s, none)
  | r :: rs, s =>
    match s.solveRound cfg r with
    | none => none
    | some (s, none) => solveLoop cfg rs s
    | some (s, some b) => some (s, some b)

/-- Loop body of Solver.h:436-440: a clause of an eliminated variable is put back and, if it has more
than two literals, attached. -/
def addCorrection (t : St) (c : Clause) : St :=
  let r := t.sol.db.createClause c
  ⟨{ t.sol with db := r.1 },
    match c with
    | x :: y :: _ :: _ => t.W.add r.2 x y
    | _ => t.W⟩

/-- Start of `solve`, Solver.h:430-440. -/
def solveStart (s : SSys) : SSys :=
  let T := s.sys.sol.trail.reset
  let r := s.sys.ve.reset T
  let t := r.1.foldl addCorrection
    ⟨{ s.sys.sol with conflict := [], trail := r.2.2 }, SW.reset s.sys.sol.db⟩
  ⟨{ sol := t.sol, ve := r.2.1 }, t.W⟩

/-- The part of `solve` before its main loop, Solver.h:425-450. -/
def solveEntry (cfg : Config) (pre : List PreRound) (s : SSys) : Option SSys :=
  let s := s.solveStart
  if cfg.preprocessing then (s.process cfg pre).map fun s => ⟨s.sys, SW.reset s.sys.sol.db⟩
  else some s

/-- `Solver::solve`, Solver.h:425-503. Its end (479-502) does not use the propagator. -/
def solve (cfg : Config) (pre : List PreRound) (rounds : List Round) (s : SSys) :
    Option (SSys × Result) :=
  match s.solveEntry cfg pre with
  | none => none
  | some s =>
    match (if s.sys.sol.db.hasEmpty then some (s, some false) else solveLoop cfg rounds s) with
    | none => none
    | some (s, status) => (solveEnd s.sys status).map fun x => (⟨x.1, s.W⟩, x.2)

/-- `Solver::init`, Solver.h:328-348, as `Sys.init`. -/
def init (s : SSys) (nv : Nat) (problem : CNF) (lemma_ : Bool := true) : SSys :=
  let sys := { s.sys with sol := { s.sys.sol with db := s.sys.sol.db.init nv problem lemma_ } }
  let sys := restoreAll problem sys
  ⟨{ sys with sol := { sys.sol with trail := sys.sol.trail.init sys.sol.db.nVars } },
    s.W.init sys.sol.db⟩

/-- `Trail::setAssumptions`, Trail.h:131-139. -/
def assume (s : SSys) (as : List Lit) : SSys := { s with sys := s.sys.assume as }

/-- A new solver (constructor, Solver.h:96-118). -/
def new (recalc : Bool := true) : SSys := ⟨Sys.new recalc, SW.empty⟩

end SSys

/-- Histories of API calls on a solver with the static propagator, as `History`: `F` are all clauses
added so far, `as` the assumptions set last, `u` restricts options and inputs. -/
inductive SSHistory (u : Usage) : CNF → List Lit → SSys → Prop
  | new (recalc : Bool) : SSHistory u [] [] (SSys.new recalc)
  | add {F : CNF} {as : List Lit} {s : SSys} (h : SSHistory u F as s) (nv : Nat) (G : CNF)
      (flag : Bool) (hf : u.flag flag) (hG : WfCNF (max s.sys.sol.db.nVars nv) G) :
      SSHistory u (F ++ G) as (s.init nv G flag)
  | assume {F : CNF} {as : List Lit} {s : SSys} (h : SSHistory u F as s) (as' : List Lit)
      (hb : ∀ l ∈ as', l.var < s.sys.sol.db.nVars) : SSHistory u F as' (s.assume as')
  | solve {F : CNF} {as : List Lit} {s s' : SSys} {res : Result} (h : SSHistory u F as s)
      (cfg : Config) (pre : List PreRound) (rounds : List Round) (hc : u.solve cfg pre)
      (hr : ∀ r ∈ rounds, u.round r) (he : s.solve cfg pre rounds = some (s', res)) :
      SSHistory u F as s'

/-- States at the head of the main loop of `solve`. -/
inductive SSInSolve (u : Usage) : CNF → List Lit → SSys → Prop
  | enter {F : CNF} {as : List Lit} {s s' : SSys} (h : SSHistory u F as s) (cfg : Config)
      (pre : List PreRound) (hc : u.solve cfg pre) (he : s.solveEntry cfg pre = some s') :
      SSInSolve u F as s'
  | round {F : CNF} {as : List Lit} {s s' : SSys} (h : SSInSolve u F as s) (cfg : Config)
      (r : Round) (hr : u.round r) (he : s.solveRound cfg r = some (s', none)) :
      SSInSolve u F as s'

/-- States at the head of the search loop (Solver.h:356), in some call of `solve` of some history,
after any number of conflicts, restarts, reductions and simplifications. -/
inductive SSSearching (u : Usage) : CNF → List Lit → St → Prop
  | start {F : CNF} {as : List Lit} {s s' : SSys} {t : St} (h : SSInSolve u F as s)
      (cfg : Config) (r : Round) (hr : u.round r)
      (h1 : s.resetTrail.reduceStep cfg r = some s')
      (h2 : sMaterialize ⟨s'.sys.sol, s'.W⟩ = some t) (h3 : t.sol.db.hasEmpty = false) :
      SSSearching u F as t
  | iter {F : CNF} {as : List Lit} {t t' : St} (h : SSSearching u F as t) (ch : Choice)
      (hch : ch.Valid) (he : sSearchIter t ch = some (.cont t')) : SSSearching u F as t'

/-- Histories of tidy calls on a solver with the static propagator, as `TidyHistory`. -/
inductive SSTidyHistory : CNF → List Lit → SSys → Prop
  | new (recalc : Bool) : SSTidyHistory [] [] (SSys.new recalc)
  | add {F : CNF} {as : List Lit} {s : SSys} (h : SSTidyHistory F as s) (nv : Nat) (G : CNF)
      (hG : WfCNF (max s.sys.sol.db.nVars nv) G) : SSTidyHistory (F ++ G) as (s.init nv G)
  | assume {F : CNF} {as : List Lit} {s : SSys} (h : SSTidyHistory F as s) (as' : List Lit)
      (hb : ∀ l ∈ as', l.var < s.sys.sol.db.nVars) : SSTidyHistory F as' (s.assume as')
  | solve {F : CNF} {as : List Lit} {s s' : SSys} {res : Result} (h : SSTidyHistory F as s)
      (cfg : Config) (pre : List PreRound) (rounds : List Round) (hc : TidyCall cfg rounds)
      (he : s.solve cfg pre rounds = some (s', res)) : SSTidyHistory F as s'

end Candy
