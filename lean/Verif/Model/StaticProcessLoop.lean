import Verif.Model.StaticSimplify
import Verif.Model.ProcessLoop

/-!
# The loop of `processClauseDatabase` for the static propagator

As `Model/ProcessLoop.lean`, for the instantiation of `Solver` with `StaticPropagate` (`Model/StaticSimplify.lean`). Only
asymmetric variable reduction and the propagation of unit clauses call the propagator. Counters are unbounded.
-/

namespace Candy

/-- The loop of `reduce(Var)`, AsymmetricVariableReduction.h:64-91, with `nStrengthened`. -/
def sAsymScanN (v : Nat) : List Nat → SAVS → Nat → Option (SAVS × Bool × Nat)
  | [], st, n => some (st, true, n)
  | o :: os, st, n =>
    match st.s.obj[o]? with
    | none => none
    | some none => sAsymScanN v os st n
    | some (some c) =>
      let ls := st.s.db.lits c
      if ls.any (fun l => st.T.satisfies l) then sAsymScanN v os st n
      else
        let r := asymDecide v ls st.T.newDecisionLevel none
        match sPropagateLoop st.s.db.bin st.s.db.store (st.s.db.nVars + 1) st.W r.1 with
        | none => none
        | some ((W, T), confl) =>
          let st : SAVS := ⟨st.s, W, T.backtrack 0⟩
          match confl with
          | none => sAsymScanN v os st n
          | some _ =>
            if 1 < ls.length then
              match r.2 with
              | none => none
              | some l =>
                match st.s.strengthen o l with
                | none => none
                | some s => sAsymScanN v os { st with s := s } (n + 1)
            else some (st, false, n + 1)

/-- `reduce()`, AsymmetricVariableReduction.h:110-127, over the variables `vs`. -/
def sAsymListN : List Nat → SAVS → Nat → Option (SAVS × Bool × Nat)
  | [], st, n => some (st, true, n)
  | v :: vs, st, n =>
    if st.T.assigns v = none then
      match sAsymScanN v (st.s.occ v) st n with
      | none => none
      | some (st, false, n) => some (st, false, n)
      | some (st, true, n) => sAsymListN vs st n
    else sAsymListN vs st n

/-- `reduce()` and `nTouched()`, AsymmetricVariableReduction.h:106-127. -/
def sAsymAllN (active : Bool) (st : SAVS) : Option (SAVS × Bool × Nat) :=
  if active then sAsymListN (List.range st.T.nVars) st 0 else some (st, true, 0)

namespace SProc

/-- `subsumption.subsume()`, Solver.h:237-243, with `nTouched()`. -/
def subsumeN (q : SProc) (r : SimpRound) : Option (SProc × Nat) := (q.p.subsumeN r).map fun x => (⟨x.1, q.W⟩, x.2)

/-- `reduction.reduce()`, Solver.h:248-253. -/
def reduceN (cfg : Config) (q : SProc) : Option (SProc × Nat) :=
  (sAsymAllN cfg.useAsymm ⟨q.p.sdb, q.W, q.p.sys.sol.trail⟩).map fun x =>
    (⟨(Proc.mk { q.p.sys with sol := { q.p.sys.sol with db := x.1.s.db, trail := x.1.T } }
      x.1.s.obj x.1.s.occ).after x.2.1 (decide (0 < x.2.2)), x.1.W⟩, x.2.2)

/-- `elimination.eliminate()`, Solver.h:258-263. -/
def eliminateN (cfg : Config) (q : SProc) (r : SimpRound) : Option (SProc × Nat) :=
  (q.p.eliminateN cfg r).map fun x => (⟨x.1, q.W⟩, x.2)

/-- The body of the loop in `processClauseDatabase`, Solver.h:234-266: the new state with `num`, or with `none` after
`break`. -/
def roundN (cfg : Config) (q : SProc) (r : SimpRound) : Option (SProc × Option Nat) :=
  match q.materialize with
  | none => none
  | some q =>
    if q.p.sys.sol.db.hasEmpty then some (q, none)
    else
      match q.subsumeN r with
      | none => none
      | some (q, n1) =>
        match q.materialize with
        | none => none
        | some q =>
          if q.p.sys.sol.db.hasEmpty then some (q, none)
          else
            match q.reduceN cfg with
            | none => none
            | some (q, n2) =>
              match q.materialize with
              | none => none
              | some q =>
                if q.p.sys.sol.db.hasEmpty then some (q, none)
                else (q.eliminateN cfg r).map fun x => (x.1, some (n1 + x.2 + n2))

/-- The loop of `processClauseDatabase`, Solver.h:230-268, as `Proc.loopN`. -/
def loopN (cfg : Config) (term : Nat → Bool) (rs : Nat → SimpRound) :
    (steps k num max : Nat) → SProc → Option SProc
  | 0, _, _, _, _ => none
  | steps + 1, k, num, max, q =>
    if max < 10 * num ∧ term k = false then
      match q.roundN cfg (rs k) with
      | none => none
      | some (q, none) => some q
      | some (q, some n) => loopN cfg term rs steps (k + 1) n (Nat.max n max) q
    else some q

end SProc

namespace SSys

/-- `processClauseDatabase`, Solver.h:225-270. -/
def processLoop (cfg : Config) (term : Nat → Bool) (rs : Nat → SimpRound) (steps : Nat) (s : SSys) : Option SSys :=
  let d := SDB.init s.sys.sol.db
  (SProc.loopN cfg term rs steps 0 1 0 ⟨⟨s.sys, d.obj, d.occ⟩, s.W⟩).map fun q => ⟨q.p.sys, q.W⟩

/-- Solver.h:454-466, with the loop of `processClauseDatabase`. `fuel` bounds the iterations of every loop. -/
def reduceStepL (cfg : Config) (fuel : Nat) (r : RoundL) (s : SSys) : Option SSys :=
  if r.trigger then
    let s' := match r.inprocess with
      | some i => s.processLoop cfg i.term i.rounds fuel
      | none => some ⟨{ s.sys with sol := { s.sys.sol with db := reduceDB cfg r.sort s.sys.sol.db } }, s.W⟩
    s'.map fun s =>
      let db := s.sys.sol.db.reorganize
      ⟨{ s.sys with sol := { s.sys.sol with db := db } }, SW.reset db⟩
  else some s

/-- One iteration of the loop in `solve`, Solver.h:450-477. -/
def solveRoundL (cfg : Config) (fuel : Nat) (r : RoundL) (s : SSys) : Option (SSys × Option Bool) :=
  match s.resetTrail.reduceStepL cfg fuel r with
  | none => none
  | some s =>
    match sMaterialize ⟨s.sys.sol, s.W⟩ with
    | none => none
    | some t =>
      if t.sol.db.hasEmpty then some (⟨{ s.sys with sol := t.sol }, t.W⟩, some false)
      else (sSearch fuel r.choice t).map fun x => (⟨{ s.sys with sol := x.1.sol }, x.1.W⟩, x.2)

/-- The loop in `solve`, Solver.h:450-477. -/
def solveLoopL (cfg : Config) (fuel : Nat) : List RoundL → SSys → Option (SSys × Option Bool)
  | [], s => some (s, none)
  | r :: rs, s =>
    match s.solveRoundL cfg fuel r with
    | none => none
    | some (s, none) => solveLoopL cfg fuel rs s
    | some (s, some b) => some (s, some b)

/-- Solver.h:425-449. -/
def solveEntryL (cfg : Config) (fuel : Nat) (pre : SimpInput) (s : SSys) : Option SSys :=
  let s := s.solveStart
  if cfg.preprocessing then
    (s.processLoop cfg pre.term pre.rounds fuel).map fun s => ⟨s.sys, SW.reset s.sys.sol.db⟩
  else some s

/-- `Solver::solve`, Solver.h:425-503, with the loops of pre- and inprocessing. -/
def solveL (cfg : Config) (fuel : Nat) (pre : SimpInput) (rounds : List RoundL) (s : SSys) : Option (SSys × Result) :=
  match s.solveEntryL cfg fuel pre with
  | none => none
  | some s =>
    match (if s.sys.sol.db.hasEmpty then some (s, some false) else solveLoopL cfg fuel rounds s) with
    | none => none
    | some (s, status) => (solveEnd s.sys status).map fun x => (⟨x.1, s.W⟩, x.2)

end SSys

end Candy
