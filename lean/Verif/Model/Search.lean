import Verif.Model.Analyze

/-!
# Model of `Solver::search` (src/candy/core/Solver.h:352-422)

Branching (`branch.pickBranchLit()`) and the restart trigger (`restart.trigger_restart()`) are
inputs of every iteration (`Choice`). Sonification and verbosity output are dropped.
-/

namespace Candy

/-- The parts of `Solver` used by search. -/
structure Solver where
  db : DB
  watch : Lit → List Watcher
  trail : Trail
  /-- `result.conflict` -/
  conflict : List Lit
  /-- `opt_recalculate_lbd` -/
  recalc : Bool
  /-- clauses passed to the learnt callback so far (`ipasir_callback`, Solver.h:272-282) -/
  sent : List Clause

/-- What the heuristics contribute to one iteration: whether a restart is triggered, and the
branching literal (`none` is `lit_Undef`), which may depend on the trail. -/
structure Choice where
  restart : Bool
  pick : Trail → Option Lit

/-- Contract of `pickBranchLit` (VSIDS.h:266-284): it returns an unassigned decision variable, or
`lit_Undef` if there is none. `Props/Branching.lean` treats the heuristic itself. -/
def Choice.Valid (ch : Choice) : Prop :=
  ∀ T : Trail,
    match ch.pick T with
    | none => ∀ v < T.nVars, T.decision v = true → T.assigns v ≠ none
    | some p => p.var < T.nVars ∧ T.assigns p.var = none ∧ T.decision p.var = true

/-- The assumption loop, Solver.h:389-405. -/
inductive AssumeOut where
  | allSet
  | failed (p : Lit)
  | next (p : Lit)

/-- Solver.h:389-405; the list argument is the part of `assumptions` from the current decision
level on. -/
def assumeLoop (T : Trail) : List Lit → Trail × AssumeOut
  | [] => (T, .allSet)
  | p :: ps =>
    match T.value p with
    | some true => assumeLoop T.newDecisionLevel ps
    | some false => (T, .failed p)
    | none => (T, .next p)

/-- Result of one iteration of the search loop. `done s (some b)` is `return l_True/l_False`,
`done s none` is `return l_Undef`. -/
inductive IterOut where
  | cont (s : Solver)
  | done (s : Solver) (res : Option Bool)

/-- The conflict branch, Solver.h:360-381. -/
def learnStep (s : Solver) (confl : Nat) : Option Solver :=
  match handleConflict s.db.store s.db.bin s.trail confl with
  | none => none
  | some r =>
    let db := s.db.reestimate s.recalc s.trail r.involved
    let (db, id) := db.createClause r.learnt r.lbd
    match (if r.learnt.length > 2 then attachClause db.store s.watch id else some s.watch),
          r.learnt with
    | some watch, first :: _ =>
      some { s with
        db := db
        watch := watch
        trail := (s.trail.backtrack r.btlevel).propagate first id
        sent := s.sent ++ [r.learnt] }
    | _, _ => none

/-- One iteration of `for (;;)` in `search`, Solver.h:356-419. -/
def searchIter (s : Solver) (ch : Choice) : Option IterOut :=
  match propagateLoop s.db.bin (s.db.nVars + 1) ⟨s.db.store, s.watch, s.trail⟩ with
  | none => none
  | some (ps, confl) =>
    let s := { s with db := { s.db with store := ps.store }, watch := ps.watch, trail := ps.T }
    match confl with
    | some confl =>
      if s.trail.decisionLevel = 0 then some (.done s (some false))
      else (learnStep s confl).map .cont
    | none =>
      if ch.restart then some (.done s none)
      else
        match assumeLoop s.trail (s.trail.assumptions.drop s.trail.decisionLevel) with
        | (T, .failed p) =>
          some (.done { s with trail := T, conflict := s.conflict ++ analyzeFinal s.db.store T p.neg }
            (some false))
        | (T, .next p) =>
          some (.cont { s with trail := T.newDecisionLevel.decide p })
        | (T, .allSet) =>
          match ch.pick T with
          | none => some (.done { s with trail := T } (some true))
          | some p => some (.cont { s with trail := T.newDecisionLevel.decide p })

/-- `Solver::search`, Solver.h:352-422. `o i` supplies the heuristic choices of the `i`-th
iteration; the fuel bounds the number of iterations. -/
def search : Nat → (Nat → Choice) → Solver → Option (Solver × Option Bool)
  | 0, _, _ => none
  | fuel + 1, o, s =>
    match searchIter s (o 0) with
    | none => none
    | some (.done s r) => some (s, r)
    | some (.cont s) => search fuel (fun i => o (i + 1)) s

end Candy
