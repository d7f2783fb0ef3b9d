import Verif.Props.Findings
import Verif.Props.Search

/-!
# Inprocessing makes the solver answer SAT for an unsatisfiable formula (C12, C20, C23)

`processClauseDatabase` (Solver.h:225-269) propagates with the watch lists of the clauses that were
attached before it started. Clauses it creates are attached by `propagator.reset()` (Solver.h:467)
after the trail has already been propagated, and inside the main loop the trail is not reset in
between. A clause whose literals all became false during inprocessing is then never looked at.
-/

namespace Candy

/-- Twenty clauses over thirteen variables. Variable 3 must be true (clauses 6 to 9), then 4, 5 and
6 are false (clauses 3 to 5), which contradicts clauses 10 and 11. -/
def inpF : CNF := cnf
  [[1, 2], [1, -2],
   [-3, -4], [-3, -5], [-3, -6],
   [3, 7], [-7, 8], [3, 9], [-9, -8],
   [4, 6, 10], [-10, 5],
   [4, 11], [5, 11], [6, 11], [-4, 12], [-5, 12], [-6, 12], [-4, 13], [-5, 13], [-6, 13]]

theorem inpF_unsat : ¬ Satisfiable inpF := by
  rintro ⟨a, h⟩
  have h3 : a 2 = true := by
    have c1 := h [lit 3, lit 7] (by decide)
    have c2 := h [lit (-7), lit 8] (by decide)
    have c3 := h [lit 3, lit 9] (by decide)
    have c4 := h [lit (-9), lit (-8)] (by decide)
    simp [SatClause, Lit.holds, lit] at c1 c2 c3 c4
    cases e2 : a 2 <;> cases e6 : a 6 <;> cases e7 : a 7 <;> cases e8 : a 8 <;> simp_all
  have c1 := h [lit (-3), lit (-4)] (by decide)
  have c2 := h [lit (-3), lit (-5)] (by decide)
  have c3 := h [lit (-3), lit (-6)] (by decide)
  have c4 := h [lit 4, lit 6, lit 10] (by decide)
  have c5 := h [lit (-10), lit 5] (by decide)
  simp [SatClause, Lit.holds, lit] at c1 c2 c3 c4 c5
  simp_all

/-- The two rounds that inprocessing runs: the first strengthens and removes clauses and eliminates
seven variables; the second only resolves with units, which `nTouched()` does not count, so the loop
condition of Solver.h:234 ends inprocessing after it. The occurrence lists are cleaned up exactly
where `nTouched() > 0`. -/
def inpFirst : PreRound := ⟨100, fun a b => decide (a < b), exOrder, true, false, true⟩
def inpSecond : PreRound := ⟨100, fun a b => decide (a < b), exOrder, false, false, false⟩

/-- First round of the main loop: reduction (the first call never inprocesses), one conflict,
restart. -/
def inpRound0 : Round := exRestart
/-- Second round of the main loop: with inprocessing. -/
def inpRound1 : Round := ⟨true, some [inpFirst, inpSecond], id, 50, fun _ => exChoice⟩

theorem inpRound1_valid : inpRound1.Valid := ⟨fun _ => exChoice_valid, fun _ _ h => h⟩

def inpCfg : Config := { preprocessing := false }

def inpStart : Sys := (Sys.new true).init 13 inpF true

theorem inpStart_history : History .any inpF [] inpStart := by
  have h := (History.new (u := .any) true).add 13 inpF true trivial (wfCNF_of (by decide))
  simpa [inpStart] using h

/-- C20 fails with inprocessing, without any preprocessing: the formula has no model,
yet the solver answers SAT. -/
theorem C20_inprocessing_fails : ∃ (F : CNF) (sys sys' : Sys) (cfg : Config) (rounds : List Round)
    (res : Result), History .any F [] sys ∧ cfg.preprocessing = false ∧ (∀ r ∈ rounds, r.Valid) ∧
    solve cfg [] rounds sys = some (sys', res) ∧ res.status = some true ∧ ¬ Satisfiable F := by
  have hrun : ((solve inpCfg [] [inpRound0, inpRound1] inpStart).map fun x => x.2.status) =
      some (some true) := by
    decide +kernel
  obtain ⟨⟨sys', res⟩, h1, h2⟩ := Option.map_eq_some_iff.1 hrun
  refine ⟨inpF, _, sys', inpCfg, _, res, inpStart_history, rfl, ?_, h1, h2, inpF_unsat⟩
  intro r hr
  simp only [List.mem_cons, List.not_mem_nil, or_false] at hr
  rcases hr with rfl | rfl
  · exact exRestart_valid
  · exact inpRound1_valid

/-- C23 fails with inprocessing: two calls on the same solver state, one of them with a round of
inprocessing, give contradictory answers. -/
theorem C23_inprocessing_fails : ∃ (F : CNF) (sys sys1 sys2 : Sys) (cfg : Config)
    (rounds1 rounds2 : List Round) (res1 res2 : Result), History .any F [] sys ∧
    (∀ r ∈ rounds1, r.Valid) ∧ (∀ r ∈ rounds2, r.Valid) ∧
    solve cfg [] rounds1 sys = some (sys1, res1) ∧ solve cfg [] rounds2 sys = some (sys2, res2) ∧
    res1.status = some true ∧ res2.status = some false := by
  have hrun1 : ((solve inpCfg [] [inpRound0, inpRound1] inpStart).map fun x => x.2.status) =
      some (some true) := by
    decide +kernel
  have hrun2 : ((solve inpCfg [] [inpRound0, exRound] inpStart).map fun x => x.2.status) =
      some (some false) := by
    decide +kernel
  obtain ⟨⟨sys1, res1⟩, h1, h2⟩ := Option.map_eq_some_iff.1 hrun1
  obtain ⟨⟨sys2, res2⟩, h3, h4⟩ := Option.map_eq_some_iff.1 hrun2
  refine ⟨inpF, _, sys1, sys2, inpCfg, _, _, res1, res2, inpStart_history, ?_, ?_, h1, h3, h2, h4⟩
  · intro r hr
    simp only [List.mem_cons, List.not_mem_nil, or_false] at hr
    rcases hr with rfl | rfl
    · exact exRestart_valid
    · exact inpRound1_valid
  · intro r hr
    simp only [List.mem_cons, List.not_mem_nil, or_false] at hr
    rcases hr with rfl | rfl
    · exact exRestart_valid
    · exact exRound_valid

/-- The state in which the search after inprocessing starts. -/
def inpSearch : Option Solver :=
  match solveEntry inpCfg [] inpStart with
  | none => none
  | some sys =>
    match solveRound inpCfg inpRound0 sys with
    | some (sys, none) =>
      match reduceStep inpCfg inpRound1
          { sys with sol := { sys.sol with trail := sys.sol.trail.reset } } with
      | none => none
      | some sys => materialize sys.sol
    | _ => none

/-- `PS` after propagation in that state: is there no conflict, and does a clause of the database
with three or more literals have only false ones? -/
def inpMissed (s : Solver) : Bool :=
  !s.db.hasEmpty &&
  match runPropagate s with
  | some (ps, none) => s.db.clauses.any fun c =>
      decide (3 ≤ (s.db.store c).lits.length) &&
        (ps.store c).lits.all fun l => decide (ps.T.value l = some false)
  | _ => false

/-- C12 fails with inprocessing: in a reachable state of the search, propagation ends without
reporting a conflict although a clause of the database is falsified. -/
theorem C12_inprocessing_fails : ∃ (F : CNF) (s : Solver) (ps : PS) (c : Nat),
    Searching .any F [] s ∧ runPropagate s = some (ps, none) ∧ c ∈ s.db.clauses ∧
    3 ≤ (s.db.store c).lits.length ∧ ∀ l ∈ (ps.store c).lits, ps.T.value l = some false := by
  have hrun : inpSearch.map inpMissed = some true := by decide +kernel
  obtain ⟨s, h1, h2⟩ := Option.map_eq_some_iff.1 hrun
  unfold inpSearch at h1
  split at h1
  · cases h1
  · rename_i sys1 e1
    split at h1
    · rename_i sys2 e2
      split at h1
      · cases h1
      · rename_i sys3 e3
        have hs := InSolve.round (InSolve.enter inpStart_history inpCfg [] trivial e1) inpCfg
          inpRound0 exRestart_valid e2
        unfold inpMissed at h2
        rw [Bool.and_eq_true] at h2
        obtain ⟨h3, h4⟩ := h2
        split at h4
        · rename_i ps e4
          obtain ⟨c, hc, h5⟩ := List.any_eq_true.1 h4
          rw [Bool.and_eq_true, List.all_eq_true] at h5
          exact ⟨inpF, s, ps, c, Searching.start hs inpCfg inpRound1 inpRound1_valid e3 h1
            (by simpa using h3), e4, hc, of_decide_eq_true h5.1,
            fun l hl => of_decide_eq_true (h5.2 l hl)⟩
        · cases h4
    · cases h1

end Candy
