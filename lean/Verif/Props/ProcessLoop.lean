import Verif.Proofs.ProcessLoop
import Verif.Props.Inprocessing
import Verif.Props.FirstSolve

/-!
# C72: pre- and inprocessing end by themselves

The loop in `processClauseDatabase` (Solver.h:234) goes on as long as a round changed more than a tenth of the most a round
changed so far. Each of the three techniques counts changes differently, and elimination can add literals, so that it is not
plain that the counts cannot stay positive for ever. `processLoop` is that loop, `none` when `fuel` iterations do not suffice.
-/

namespace Candy

variable {u : Usage} {F : CNF} {as : List Lit} {sys : Sys}

/-- C72. Preprocessing at the start of a call of `solve`, in every history: from some number of iterations on the result does
not depend on the bound, whatever the termination callback returns and whatever the orders of clauses and variables are. The
result is that of `process` with the rounds made, to which the theorems on simplification apply. -/
theorem C72_preprocessing_ends (hu : u.Valid) (h : History u F as sys) (cfg : Config) (i : SimpInput) (hi : i.Valid) :
    ∃ N sys' Rs, (∀ f, N ≤ f → processLoop cfg i.term i.rounds f (solveStart sys) = some sys') ∧
      process cfg Rs (solveStart sys) = some sys' ∧ Rs.length ≤ N ∧
      ∀ R ∈ Rs, ∃ k, R.before = (i.rounds k).before ∧ R.order = (i.rounds k).order :=
  (solveStart_spec (h.ok hu).ok).1.processLoop_ends cfg i.term i.rounds hi

/-- C72 for inprocessing: at the head of the main loop of `solve`, after any number of conflicts, restarts, reductions and
earlier inprocessing. -/
theorem C72_inprocessing_ends (hu : u.Valid) (h : InSolve u F as sys) (cfg : Config) (i : SimpInput) (hi : i.Valid) :
    ∃ N sys' Rs, (∀ f, N ≤ f → processLoop cfg i.term i.rounds f
        { sys with sol := { sys.sol with trail := sys.sol.trail.reset } } = some sys') ∧
      process cfg Rs { sys with sol := { sys.sol with trail := sys.sol.trail.reset } } = some sys' ∧ Rs.length ≤ N ∧
      ∀ R ∈ Rs, ∃ k, R.before = (i.rounds k).before ∧ R.order = (i.rounds k).order :=
  (h.ok hu).inv.reset.processLoop_ends cfg i.term i.rounds hi

/-- C72 for a whole call of `solve`, all its loops included: it ends, and if some round of search is not interrupted by a
restart it answers SAT or UNSAT. It does what `solve` does with some lists of simplification rounds, so that every theorem on
`solve` (soundness of UNSAT, models, cores, later calls) is one on the real loop. -/
theorem C72_solve_ends (hu : u.Valid) (h : History u F as sys) (cfg : Config) (pre : SimpInput) (hp : pre.Valid)
    (rounds : List RoundL) (hr : ∀ r ∈ rounds, r.Valid) :
    ∃ N x Rs rs', (∀ f, N ≤ f → solveL cfg f pre rounds sys = some x) ∧
      solve cfg Rs rs' sys = some x ∧ (∀ r ∈ rs', r.Valid) ∧
      ((∃ r ∈ rounds, ∀ i, (r.choice i).restart = false) → x.2.status ≠ none) := by
  have ok := h.ok hu
  obtain ⟨N, x, Rs, rs', h1, h2, -, h4, h5⟩ := solveL_ends ok.ok (h.ve hu) cfg pre hp rounds hr
    (by rw [ok.assumptions]; exact ok.bound)
  refine ⟨N, x, Rs, rs', h1, h2, fun r' hm => ?_, h5⟩
  obtain ⟨r, k1, k2⟩ := h4 r' hm
  exact k2.valid (hr r k1)

/-- Every call of `solve` with its loops, as soon as it ends, is a call of the history model: the state it leaves is one that
`History` reaches, with the same usage if that usage does not depend on the number of rounds. -/
theorem C72_history (h : History .any F as sys) {cfg : Config} {f : Nat} {pre : SimpInput} (hp : pre.Valid)
    {rounds : List RoundL} (hr : ∀ r ∈ rounds, r.Valid) {sys' : Sys} {res : Result}
    (hs : solveL cfg f pre rounds sys = some (sys', res)) :
    History .any F as sys' ∧ ∃ Rs rs', (∀ r ∈ rs', r.Valid) ∧ solve cfg Rs rs' sys = some (sys', res) := by
  have ok := h.ok Usage.any_valid
  obtain ⟨Rs, rs', h1, -, h3⟩ := solveL_solve ok.ok (h.ve Usage.any_valid) hp hr
    (by rw [ok.assumptions]; exact ok.bound) hs
  have hv : ∀ r ∈ rs', r.Valid := fun r' hm => by
    obtain ⟨r, k1, k2⟩ := h3 r' hm
    exact k2.valid (hr r k1)
  exact ⟨h.solve cfg Rs rs' trivial hv h1, Rs, rs', hv, h1⟩

/-- C19/C21 for the real loops: an UNSAT answer of a call with pre- and inprocessing is right, whatever was called before. -/
theorem C72_unsat_sound (h : History .any F as sys) {cfg : Config} {f : Nat} {pre : SimpInput} (hp : pre.Valid)
    {rounds : List RoundL} (hr : ∀ r ∈ rounds, r.Valid) {sys' : Sys} {res : Result}
    (hs : solveL cfg f pre rounds sys = some (sys', res)) (hres : res.status = some false) :
    ¬ Satisfiable (F ++ unitsOf as) := by
  obtain ⟨-, Rs, rs', hv, e⟩ := C72_history h hp hr hs
  exact C21_unsat_under_assumptions h hv e hres

/-! ### Examples -/

/-- Sorted by occurrences in every round, never interrupted. -/
def exSimp : SimpInput := ⟨fun _ => false, fun _ => ⟨fun a b => decide (a < b), exOrder⟩⟩

theorem exSimp_valid : exSimp.Valid := fun _ _ _ _ h => exOrder_mem h

def loopRound : RoundL := ⟨false, none, fun x => x, fun _ => exChoice⟩

theorem loopRound_valid : loopRound.Valid := ⟨fun _ => exChoice_valid, fun _ _ h => h, by intro i h; cases h⟩

/-- Two rounds of preprocessing are made before the loop condition fails (the third test): with less fuel the loop is not over,
with more fuel the call gives its answer. -/
example :
    let sys := (Sys.new true).init 4 (cnf [[1, 2], [1, 2, 3], [-1, 2], [3, 4], [-3, -4], [2, 4]]) true
    (processLoop {} exSimp.term exSimp.rounds 2 (solveStart sys)).isNone ∧
    (processLoop {} exSimp.term exSimp.rounds 3 (solveStart sys)).isSome ∧
    (solveL {} 2 exSimp [loopRound] sys).isNone ∧
    (solveL {} 10 exSimp [loopRound] sys).map (·.2.status) = some (some true) := by
  decide +kernel

/-- The loop is not made if the termination callback asks to stop. -/
example :
    let sys := (Sys.new true).init 4 (cnf [[1, 2], [1, 2, 3], [-1, 2], [3, 4], [-3, -4], [2, 4]]) true
    (processLoop {} (fun _ => true) exSimp.rounds 1 (solveStart sys)).map (fun s => s.ve.vars) = some [] ∧
    (processLoop {} exSimp.term exSimp.rounds 3 (solveStart sys)).map (fun s => s.ve.vars.length) = some 1 := by
  decide +kernel

/-- As `inpRound0` and `inpRound1`. -/
def inpLoop0 : RoundL := ⟨true, none, id, fun i => ⟨decide (i = 2), firstFree⟩⟩
def inpLoop1 : RoundL := ⟨true, some exSimp, id, fun _ => exChoice⟩

theorem inpLoop_valid : ∀ r ∈ [inpLoop0, inpLoop1], r.Valid := by
  intro r hr
  simp only [List.mem_cons, List.not_mem_nil, or_false] at hr
  rcases hr with rfl | rfl
  · exact ⟨fun _ => firstFree_valid _, fun _ _ h => h, by intro i h; cases h⟩
  · exact ⟨fun _ => exChoice_valid, fun _ _ h => h, by
      intro i h
      simp only [inpLoop1, Option.some.injEq] at h
      subst h
      exact exSimp_valid⟩

/-- C20 with inprocessing as the loop performs it: the formula has no model, and the call with the loop condition of
Solver.h:234 answers SAT. `C20_inprocessing_fails` shows it for given lists of rounds. -/
theorem C20_inprocessing_loop_fails : ∃ (F : CNF) (sys sys' : Sys) (cfg : Config) (f : Nat) (pre : SimpInput)
    (rounds : List RoundL) (res : Result), History .any F [] sys ∧ cfg.preprocessing = false ∧ pre.Valid ∧
    (∀ r ∈ rounds, r.Valid) ∧ solveL cfg f pre rounds sys = some (sys', res) ∧ res.status = some true ∧ ¬ Satisfiable F := by
  have hrun : ((solveL inpCfg 40 exSimp [inpLoop0, inpLoop1] inpStart).map fun x => x.2.status) =
      some (some true) := by
    decide +kernel
  obtain ⟨⟨sys', res⟩, h1, h2⟩ := Option.map_eq_some_iff.1 hrun
  exact ⟨inpF, _, sys', inpCfg, 40, exSimp, _, res, inpStart_history, rfl, exSimp_valid, inpLoop_valid, h1, h2, inpF_unsat⟩

end Candy
