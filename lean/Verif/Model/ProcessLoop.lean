import Verif.Model.Solve

/-!
# The loop of `processClauseDatabase` with its counters

`Model/Solve.lean` takes the number of simplification rounds and the decisions to clean up the occurrence lists as inputs.
Here both are computed as in the code, from the counters `nSubsumed`, `nStrengthened` (Subsumption.h,
AsymmetricVariableReduction.h) and `nEliminated` (VariableElimination.h). Each function is the function of
`Model/Simplify.lean` with the counter as an additional component; that the other components agree is proved in
`Proofs/ProcessLoop.lean`. Simplification: counters are unbounded.
-/

namespace Candy

/-! ### Subsumption -/

/-- The candidate loop of `Subsumption::subsume(SubsumptionClause*)`, Subsumption.h:133-166, with `nSubsumed + nStrengthened`.
Duplicates are counted in `nDuplicates` only (line 139), which is not part of `nTouched` (line 95-97). -/
def subsumeScanN (before : Nat → Nat → Bool) (start : Nat) :
    List Nat → SDB → Nat → Nat → Option (SDB × ScanOut × Nat)
  | [], s, _, n => some (s, .done, n)
  | o :: os, s, cur, n =>
    match s.obj[o]? with
    | none => none
    | some none => subsumeScanN before start os s cur n
    | some (some oc) =>
      if o = cur then subsumeScanN before start os s cur n
      else
        match s.obj[cur]? with
        | some (some cc) =>
          match subsumes (s.db.lits cc) (s.db.lits oc) with
          | none => subsumeScanN before start os s cur n
          | some none =>
            let wc := (s.db.store cc).weight
            let wo := (s.db.store oc).weight
            if (s.db.lits cc).length = (s.db.lits oc).length ∧
                (wc < wo ∨ (wc = wo ∧ before cc oc = true)) then
              match s.remove o with
              | none => none
              | some s => subsumeScanN before start os s cur n
            else if (s.db.store oc).isPersistent && (s.db.store cc).isLearnt then
              let j := s.obj.length
              match (s.create (s.db.lits cc)).remove start with
              | none => none
              | some s =>
                match s.remove o with
                | none => none
                | some s => subsumeScanN before start os s j (n + 1)
            else
              match s.remove o with
              | none => none
              | some s => subsumeScanN before start os s cur (n + 1)
          | some (some l) =>
            if 1 < (s.db.lits oc).length then
              match s.strengthen o l.neg with
              | none => none
              | some s => some (s, .again o, n + 1)
            else some (s, .unsat, n + 1)
        | _ => none

/-- `Subsumption::subsume(SubsumptionClause*)`, Subsumption.h:122-169. -/
def subsumeClauseN (before : Nat → Nat → Bool) : Nat → SDB → Nat → Nat → Option (SDB × Bool × Nat)
  | 0, _, _, _ => none
  | fuel + 1, s, i, n =>
    match s.obj[i]? with
    | some (some c) =>
      match minOcc s.occ (s.db.lits c) with
      | none => none
      | some best =>
        match subsumeScanN before i (s.occ best.var) s i n with
        | none => none
        | some (s, .done, n) => some (s, true, n)
        | some (s, .unsat, n) => some (s, false, n)
        | some (s, .again j, n) => subsumeClauseN before fuel s j n
    | _ => none

/-- The loop body of `Subsumption::subsume()`, Subsumption.h:76-90; `unit_resolution` (lines 101-120) counts nothing. -/
def subsumeStepN (before : Nat → Nat → Bool) (fuel : Nat) (s : SDB) (i n : Nat) : Option (SDB × Bool × Nat) :=
  match s.obj[i]? with
  | none => none
  | some none => some (s, true, n)
  | some (some c) =>
    match s.db.lits c with
    | [u] => (unitScan i u (s.occ u.var) s).map fun x => (x.1, x.2, n)
    | _ => subsumeClauseN before fuel s i n

/-- `Subsumption::subsume()`, Subsumption.h:73-93, over the objects `is`. -/
def subsumeListN (before : Nat → Nat → Bool) (fuel : Nat) : List Nat → SDB → Nat → Option (SDB × Bool × Nat)
  | [], s, n => some (s, true, n)
  | i :: is, s, n =>
    match subsumeStepN before fuel s i n with
    | none => none
    | some (s, false, n) => some (s, false, n)
    | some (s, true, n) => subsumeListN before fuel is s n

/-- `Subsumption::subsume()` and `nTouched()`, Subsumption.h:73-97. -/
def subsumeAllN (before : Nat → Nat → Bool) (fuel : Nat) (s : SDB) : Option (SDB × Bool × Nat) :=
  subsumeListN before fuel (List.range s.obj.length) s 0

/-! ### Asymmetric variable reduction -/

/-- The loop of `reduce(Var)`, AsymmetricVariableReduction.h:64-91, with `nStrengthened`. -/
def asymScanN (v : Nat) : List Nat → AVS → Nat → Option (AVS × Bool × Nat)
  | [], st, n => some (st, true, n)
  | o :: os, st, n =>
    match st.s.obj[o]? with
    | none => none
    | some none => asymScanN v os st n
    | some (some c) =>
      let ls := st.s.db.lits c
      if ls.any (fun l => st.T.satisfies l) then asymScanN v os st n
      else
        let r := asymDecide v ls st.T.newDecisionLevel none
        match propagateLoop st.s.db.bin (st.s.db.nVars + 1) ⟨st.s.db.store, st.watch, r.1⟩ with
        | none => none
        | some (ps, confl) =>
          let st : AVS := ⟨{ st.s with db := { st.s.db with store := ps.store } }, ps.watch,
            ps.T.backtrack 0⟩
          match confl with
          | none => asymScanN v os st n
          | some _ =>
            if 1 < ls.length then
              match r.2 with
              | none => none
              | some l =>
                match st.s.strengthen o l with
                | none => none
                | some s => asymScanN v os { st with s := s } (n + 1)
            else some (st, false, n + 1)

/-- `reduce()`, AsymmetricVariableReduction.h:110-127, over the variables `vs`. -/
def asymListN : List Nat → AVS → Nat → Option (AVS × Bool × Nat)
  | [], st, n => some (st, true, n)
  | v :: vs, st, n =>
    if st.T.assigns v = none then
      match asymScanN v (st.s.occ v) st n with
      | none => none
      | some (st, false, n) => some (st, false, n)
      | some (st, true, n) => asymListN vs st n
    else asymListN vs st n

/-- `reduce()` and `nTouched()`, AsymmetricVariableReduction.h:106-127. -/
def asymAllN (active : Bool) (st : AVS) : Option (AVS × Bool × Nat) :=
  if active then asymListN (List.range st.T.nVars) st 0 else some (st, true, 0)

/-! ### Variable elimination -/

/-- `eliminate(Var, pos, neg)`, VariableElimination.h:211-261, with `nEliminated`. -/
def eliminateVarN (clauseLim : Nat) (st : VES) (v : Nat) (pos neg : List (Nat × Nat)) (n : Nat) :
    Option (VES × Bool × Nat) :=
  if pos.length = 0 ∧ neg.length = 0 then some (st, true, n)
  else
    let lits := fun (x : Nat × Nat) => st.s.db.lits x.2
    match countResolvents v (pos.length + neg.length) clauseLim
        (pairs (pos.map lits) (neg.map lits)) 0 with
    | .unsat => some (st, false, n)
    | .skip => some (st, true, n)
    | .go =>
      let ve := { st.ve with
        vars := st.ve.vars ++ [v]
        cls := upd st.ve.cls v (st.ve.cls v ++ neg.map lits ++ pos.map lits) }
      let s := createResolvents v (pairs (pos.map Prod.snd) (neg.map Prod.snd)) st.s
      match removeAll (pos.map Prod.fst ++ neg.map Prod.fst) s with
      | none => none
      | some s => some (⟨s, ve, st.T.setDecisionVar v false⟩, true, n + 1)

/-- The body of the loop in `eliminate()`, VariableElimination.h:187-205. -/
def eliminateStepN (clauseLim : Nat) (st : VES) (v n : Nat) : Option (VES × Bool × Nat) :=
  if st.T.assigns v = none then
    match liveOcc st.s (st.s.occ v) with
    | none => none
    | some os =>
      let pos := os.filter fun x => decide ((⟨v, false⟩ : Lit) ∈ st.s.db.lits x.2)
      let neg := os.filter fun x => !decide ((⟨v, false⟩ : Lit) ∈ st.s.db.lits x.2)
      eliminateVarN clauseLim st v pos neg n
  else some (st, true, n)

/-- The loop in `eliminate()`, VariableElimination.h:187-206. -/
def eliminateListN (clauseLim : Nat) : List Nat → VES → Nat → Option (VES × Bool × Nat)
  | [], st, n => some (st, true, n)
  | v :: vs, st, n =>
    match eliminateStepN clauseLim st v n with
    | none => none
    | some (st, false, n) => some (st, false, n)
    | some (st, true, n) => eliminateListN clauseLim vs st n

/-- `eliminate()` and `nTouched()`, VariableElimination.h:167-208; `init` (line 70) resets the counter. -/
def eliminateAllN (active : Bool) (clauseLim : Nat) (order : (Nat → Nat) → List Nat → List Nat)
    (st : VES) : Option (VES × Bool × Nat) :=
  let st := { st with ve := st.ve.freeze st.T }
  if active then
    eliminateListN clauseLim (order (fun v => (st.s.occ v).length) (st.ve.candidates st.T)) st 0
  else some (st, true, 0)

/-! ### The loop -/

/-- What the code leaves open in one round: the address order of clauses and the result of sorting the candidates. -/
structure SimpRound where
  before : Nat → Nat → Bool
  order : (Nat → Nat) → List Nat → List Nat

/-- The number of literals of the clause an object refers to. -/
def objLen (db : DB) : Option Nat → Nat
  | some c => (db.lits c).length
  | none => 0

/-- Number of literals of all clauses that objects refer to. Not part of the code: it bounds the depth of the recursion in
`Subsumption::subsume`. -/
def SDB.total (s : SDB) : Nat := (s.obj.map (objLen s.db)).sum

namespace Proc

/-- `subsumption.subsume()`, Solver.h:237-243. The second component is `subsumption.nTouched()`. The recursion of the code has
no bound; the model uses one more than the number of literals, which is never reached (`subsumeAll_total`). -/
def subsumeN (p : Proc) (r : SimpRound) : Option (Proc × Nat) :=
  (subsumeAllN r.before (p.sdb.total + 1) p.sdb).map fun x => ((p.setSdb x.1).after x.2.1 (decide (0 < x.2.2)), x.2.2)

/-- `reduction.reduce()`, Solver.h:248-253. -/
def reduceN (cfg : Config) (p : Proc) : Option (Proc × Nat) :=
  (asymAllN cfg.useAsymm ⟨p.sdb, p.sys.sol.watch, p.sys.sol.trail⟩).map fun x =>
    ((Proc.mk { p.sys with sol := { p.sys.sol with db := x.1.s.db, watch := x.1.watch,
                                                   trail := x.1.T } } x.1.s.obj x.1.s.occ).after
      x.2.1 (decide (0 < x.2.2)), x.2.2)

/-- `elimination.eliminate()`, Solver.h:258-263. -/
def eliminateN (cfg : Config) (p : Proc) (r : SimpRound) : Option (Proc × Nat) :=
  (eliminateAllN cfg.useElim cfg.clauseLim r.order ⟨p.sdb, p.sys.ve, p.sys.sol.trail⟩).map fun x =>
    ((Proc.mk { sol := { p.sys.sol with db := x.1.s.db, trail := x.1.T }, ve := x.1.ve }
      x.1.s.obj x.1.s.occ).after x.2.1 (decide (0 < x.2.2)), x.2.2)

/-- The body of the loop in `processClauseDatabase`, Solver.h:234-266: the new state with `num`, or with `none` after
`break`. -/
def roundN (cfg : Config) (p : Proc) (r : SimpRound) : Option (Proc × Option Nat) :=
  match p.materialize with
  | none => none
  | some p =>
    if p.sys.sol.db.hasEmpty then some (p, none)
    else
      match p.subsumeN r with
      | none => none
      | some (p, n1) =>
        match p.materialize with
        | none => none
        | some p =>
          if p.sys.sol.db.hasEmpty then some (p, none)
          else
            match p.reduceN cfg with
            | none => none
            | some (p, n2) =>
              match p.materialize with
              | none => none
              | some p =>
                if p.sys.sol.db.hasEmpty then some (p, none)
                else (p.eliminateN cfg r).map fun x => (x.1, some (n1 + x.2 + n2))

/-- The loop of `processClauseDatabase`, Solver.h:230-268: `steps` bounds the number of iterations (`none` when it is
reached), `term` is what the termination callback returns. The condition
`num > max * 0.1` is evaluated with doubles; for 32-bit counters it says `10 * num > max`, as the product is rounded to `num` if
`max = 10 * num`. -/
def loopN (cfg : Config) (term : Nat → Bool) (rs : Nat → SimpRound) :
    (steps k num max : Nat) → Proc → Option Proc
  | 0, _, _, _, _ => none
  | steps + 1, k, num, max, p =>
    if max < 10 * num ∧ term k = false then
      match p.roundN cfg (rs k) with
      | none => none
      | some (p, none) => some p
      | some (p, some n) => loopN cfg term rs steps (k + 1) n (Nat.max n max) p
    else some p

end Proc

/-- `processClauseDatabase`, Solver.h:225-270. -/
def processLoop (cfg : Config) (term : Nat → Bool) (rs : Nat → SimpRound) (steps : Nat) (sys : Sys) : Option Sys :=
  let s := SDB.init sys.sol.db
  (Proc.loopN cfg term rs steps 0 1 0 ⟨sys, s.obj, s.occ⟩).map Proc.sys

/-- Inputs of a call of `processClauseDatabase`: what the termination callback returns, and the inputs of every round that may
be made. -/
structure SimpInput where
  term : Nat → Bool
  rounds : Nat → SimpRound

/-- `std::sort` of the candidate variables (VariableElimination.h:183-185) returns only variables it was given. -/
def SimpInput.Valid (i : SimpInput) : Prop := ∀ k f xs, ∀ x ∈ (i.rounds k).order f xs, x ∈ xs

/-- Inputs of one iteration of the loop in `solve`, as `Round`, but inprocessing has no list of rounds: it makes as many as its
loop condition says. -/
structure RoundL where
  trigger : Bool
  inprocess : Option SimpInput
  sort : List Nat → List Nat
  choice : Nat → Choice

/-- As `Round.Valid`. -/
structure RoundL.Valid (r : RoundL) : Prop where
  choice : ∀ i, (r.choice i).Valid
  sort : ∀ xs, ∀ x ∈ r.sort xs, x ∈ xs
  inprocess : ∀ i, r.inprocess = some i → i.Valid

/-- Solver.h:454-466, with the loop of `processClauseDatabase`. `fuel` bounds the iterations of every loop. -/
def reduceStepL (cfg : Config) (fuel : Nat) (r : RoundL) (sys : Sys) : Option Sys :=
  if r.trigger then
    let sys' := match r.inprocess with
      | some i => processLoop cfg i.term i.rounds fuel sys
      | none => some { sys with sol := { sys.sol with db := reduceDB cfg r.sort sys.sol.db } }
    sys'.map fun sys =>
      let db := sys.sol.db.reorganize
      { sys with sol := { sys.sol with db := db, watch := resetWatch db } }
  else some sys

/-- One iteration of the loop in `solve`, Solver.h:450-477. -/
def solveRoundL (cfg : Config) (fuel : Nat) (r : RoundL) (sys : Sys) : Option (Sys × Option Bool) :=
  let sys := { sys with sol := { sys.sol with trail := sys.sol.trail.reset } }
  match reduceStepL cfg fuel r sys with
  | none => none
  | some sys =>
    match materialize sys.sol with
    | none => none
    | some sol =>
      if sol.db.hasEmpty then some ({ sys with sol := sol }, some false)
      else (search fuel r.choice sol).map fun x => ({ sys with sol := x.1 }, x.2)

/-- The loop in `solve`, Solver.h:450-477. -/
def solveLoopL (cfg : Config) (fuel : Nat) : List RoundL → Sys → Option (Sys × Option Bool)
  | [], sys => some (sys, none)
  | r :: rs, sys =>
    match solveRoundL cfg fuel r sys with
    | none => none
    | some (sys, none) => solveLoopL cfg fuel rs sys
    | some (sys, some b) => some (sys, some b)

/-- Solver.h:425-449. -/
def solveEntryL (cfg : Config) (fuel : Nat) (pre : SimpInput) (sys : Sys) : Option Sys :=
  let sys := solveStart sys
  if cfg.preprocessing then
    (processLoop cfg pre.term pre.rounds fuel sys).map fun sys =>
      { sys with sol := { sys.sol with watch := resetWatch sys.sol.db } }
  else some sys

/-- `Solver::solve`, Solver.h:425-503, with the loops of pre- and inprocessing. -/
def solveL (cfg : Config) (fuel : Nat) (pre : SimpInput) (rounds : List RoundL) (sys : Sys) : Option (Sys × Result) :=
  (solveEntryL cfg fuel pre sys).bind fun sys =>
    (if sys.sol.db.hasEmpty then some (sys, some false) else solveLoopL cfg fuel rounds sys).bind
      fun x => solveEnd x.1 x.2

end Candy
