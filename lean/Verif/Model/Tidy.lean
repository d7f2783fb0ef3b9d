import Verif.Model.History

/-!
# Histories without variable elimination that collect removed clauses

`ReduceDB::trigger_reduce` (src/candy/systems/ReduceDB.h:94-102) asks for a reduction in the first
round of the first call of `solve`; in later calls the first round may pass without one, and then the
clauses removed by preprocessing stay in the database (`reorganize` is only called together with a
reduction, src/candy/core/Solver.h:454-467).
-/

namespace Candy

/-- Preprocessing without variable elimination, no inprocessing, the default flag of `init`. -/
def Usage.simplifying : Usage where
  solve cfg _ := cfg.useElim = false
  round r := r.Valid ∧ r.inprocess = none
  flag b := b = true

/-- A call of `solve` that eliminates nothing (no inprocessing; if it preprocesses, elimination is
off) and, if it preprocesses, collects the removed clauses before searching: its first round triggers a
reduction of the clause database. -/
structure TidyCall (cfg : Config) (rounds : List Round) : Prop where
  elim : cfg.preprocessing = true → cfg.useElim = false
  first : cfg.preprocessing = true → ∃ r, rounds.head? = some r ∧ r.trigger = true
  rounds : ∀ r ∈ rounds, r.Valid ∧ r.inprocess = none

/-- Histories of tidy calls. -/
inductive TidyHistory : CNF → List Lit → Sys → Prop
  | new (recalc : Bool) : TidyHistory [] [] (Sys.new recalc)
  | add {F : CNF} {as : List Lit} {sys : Sys} (h : TidyHistory F as sys) (nv : Nat) (G : CNF)
      (hG : WfCNF (max sys.sol.db.nVars nv) G) : TidyHistory (F ++ G) as (sys.init nv G)
  | assume {F : CNF} {as : List Lit} {sys : Sys} (h : TidyHistory F as sys) (as' : List Lit)
      (hb : ∀ l ∈ as', l.var < sys.sol.db.nVars) : TidyHistory F as' (sys.assume as')
  | solve {F : CNF} {as : List Lit} {sys sys' : Sys} {res : Result} (h : TidyHistory F as sys)
      (cfg : Config) (pre : List PreRound) (rounds : List Round) (hc : TidyCall cfg rounds)
      (he : solve cfg pre rounds sys = some (sys', res)) : TidyHistory F as sys'

end Candy
