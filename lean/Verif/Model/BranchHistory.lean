import Verif.Model.Branching
import Verif.Model.History

/-!
# Histories of API calls with the actual branching heuristics

As `History`, `InSolve` and `Searching`, but the branching literal is the one found by the heap of
the heuristic, or by implicit learning, instead of an arbitrary admissible one. What remains arbitrary are the
orders induced by the floating point scores, and the conjectures found by random simulation.
-/

namespace Candy

/-- The round is allowed for whatever admissible branching literals. -/
def Usage.roundB (u : Usage) (r : RoundB) : Prop :=
  ∀ o : Nat → Choice, (∀ i, (o i).Valid) → u.round (r.with o)

/-- As `History`; `Solver::init` calls `branch.init` last (Solver.h:347). -/
inductive HistoryB (kind : Branch.Kind) (u : Usage) : CNF → List Lit → Sys → Branch → Prop
  | new (recalc : Bool) : HistoryB kind u [] [] (Sys.new recalc) (Branch.new kind)
  | add {F as sys b b'} (h : HistoryB kind u F as sys b) (nv : Nat) (G : CNF) (flag : Bool)
      (hf : u.flag flag) (hG : WfCNF (max sys.sol.db.nVars nv) G) (lt : Nat → Nat → Bool)
      (pol : Nat → Bool) (conj : Option Conj)
      (hb : b.init lt pol conj nv (sys.init nv G flag).sol.trail = some b') :
      HistoryB kind u (F ++ G) as (sys.init nv G flag) b'
  | assume {F as sys b} (h : HistoryB kind u F as sys b) (as' : List Lit)
      (hb : ∀ l ∈ as', l.var < sys.sol.db.nVars) : HistoryB kind u F as' (sys.assume as') b
  | solve {F as sys sys' res b b'} (h : HistoryB kind u F as sys b) (cfg : Config)
      (pre : List PreRound) (rounds : List RoundB) (hc : u.solve cfg pre)
      (hr : ∀ r ∈ rounds, u.roundB r)
      (he : solveB kind cfg pre rounds sys b = some (sys', res, b')) : HistoryB kind u F as sys' b'

/-- States at the head of the main loop of `solve`. -/
inductive InSolveB (kind : Branch.Kind) (u : Usage) : CNF → List Lit → Sys → Branch → Prop
  | enter {F as sys sys' b} (h : HistoryB kind u F as sys b) (cfg : Config)
      (pre : List PreRound) (hc : u.solve cfg pre) (he : solveEntry cfg pre sys = some sys') :
      InSolveB kind u F as sys' b
  | round {F as sys sys' b b'} (h : InSolveB kind u F as sys b) (cfg : Config)
      (r : RoundB) (hr : u.roundB r)
      (he : solveRoundB kind cfg r sys b = some (sys', none, b')) : InSolveB kind u F as sys' b'

/-- States at the head of the search loop. -/
inductive SearchingB (kind : Branch.Kind) (u : Usage) : CNF → List Lit → Solver → Branch → Prop
  | start {F as sys sys' s b b' b''} (h : InSolveB kind u F as sys b) (cfg : Config) (r : RoundB)
      (hr : u.roundB r) (h0 : b.reset r.resetOrd sys.sol.trail.reset = some b')
      (h1 : reduceStep cfg (r.with fun _ => ⟨false, fun _ => none⟩)
        { sys with sol := { sys.sol with trail := sys.sol.trail.reset } } = some sys')
      (h4 : reduceB r sys' b' = some b'') (h2 : materialize sys'.sol = some s) (h3 : s.db.hasEmpty = false) :
      SearchingB kind u F as s b''
  | iter {F as s s' b b'} (h : SearchingB kind u F as s b) (c : BChoice)
      (he : searchIterB kind s b c = some (.cont s', b')) : SearchingB kind u F as s' b'

/-- `VSIDSC` makes its graph in this round of the main loop of `solve` (VSIDSC.h:290). -/
def Fresh (r : RoundB) (b : Branch) : Prop :=
  r.trigger = true ∧ ∃ c, b.cent = some c ∧ (c.started = false ∨ r.recalc = true)

/-- States at the head of the main loop of a call of `solve` that has made the graph. -/
inductive CentLoop (kind : Branch.Kind) (u : Usage) : CNF → List Lit → Sys → Branch → Prop
  | first {F as sys sys' b b'} (h : InSolveB kind u F as sys b) (cfg : Config)
      (r : RoundB) (hr : u.roundB r) (hf : Fresh r b)
      (he : solveRoundB kind cfg r sys b = some (sys', none, b')) : CentLoop kind u F as sys' b'
  | next {F as sys sys' b b'} (h : CentLoop kind u F as sys b) (cfg : Config)
      (r : RoundB) (hr : u.roundB r)
      (he : solveRoundB kind cfg r sys b = some (sys', none, b')) : CentLoop kind u F as sys' b'

/-- States at the head of the search loop in a call of `solve` that has made the graph, in this round or before. -/
inductive CentSearching (kind : Branch.Kind) (u : Usage) : CNF → List Lit → Solver → Branch → Prop
  | start {F as sys sys' s b b' b''} (h : InSolveB kind u F as sys b) (cfg : Config) (r : RoundB)
      (hr : u.roundB r) (hf : Fresh r b ∨ CentLoop kind u F as sys b)
      (h0 : b.reset r.resetOrd sys.sol.trail.reset = some b')
      (h1 : reduceStep cfg (r.with fun _ => ⟨false, fun _ => none⟩)
        { sys with sol := { sys.sol with trail := sys.sol.trail.reset } } = some sys')
      (h4 : reduceB r sys' b' = some b'') (h2 : materialize sys'.sol = some s) (h3 : s.db.hasEmpty = false) :
      CentSearching kind u F as s b''
  | iter {F as s s' b b'} (h : CentSearching kind u F as s b) (c : BChoice)
      (he : searchIterB kind s b c = some (.cont s', b')) : CentSearching kind u F as s' b'

end Candy
