import Verif.Proofs.StaticProcessLoop
import Verif.Props.ProcessLoop
import Verif.Props.StaticSimplify

/-!
# C72 for a solver with the static propagator (option `static-propagate`)

`SSys.processLoop` and `SSys.solveL` are the loops of the code; `none` when `fuel` iterations do not suffice.
-/

namespace Candy

variable {u : Usage} {F : CNF} {as : List Lit} {s : SSys}

/-- C72. Preprocessing with the static propagator at the start of a call of `solve`, in every history: from some number of
iterations on the result does not depend on the bound, whatever the termination callback returns and whatever the orders of
clauses and variables are. The result is that of `process` with the rounds made. -/
theorem C72_static_preprocessing_ends (hu : u.Valid) (h : SSHistory u F as s) (cfg : Config) (i : SimpInput) (hi : i.Valid) :
    ∃ N s' Rs, (∀ f, N ≤ f → s.solveStart.processLoop cfg i.term i.rounds f = some s') ∧
      s.solveStart.process cfg Rs = some s' ∧ Rs.length ≤ N ∧
      ∀ R ∈ Rs, ∃ k, R.before = (i.rounds k).before ∧ R.order = (i.rounds k).order := by
  have ok := h.ok hu
  obtain ⟨p1, p2, -⟩ := sSolveStart_sound ok.ok ok.nw
  exact p1.sProcessLoop_ends cfg i.term i.rounds hi p2.w

/-- C72 for inprocessing with the static propagator: at the head of the main loop of `solve`, after any number of conflicts,
restarts, reductions and earlier inprocessing. -/
theorem C72_static_inprocessing_ends (hu : u.Valid) (h : SSInSolve u F as s) (cfg : Config) (i : SimpInput) (hi : i.Valid) :
    ∃ N s' Rs, (∀ f, N ≤ f → s.resetTrail.processLoop cfg i.term i.rounds f = some s') ∧
      s.resetTrail.process cfg Rs = some s' ∧ Rs.length ≤ N ∧
      ∀ R ∈ Rs, ∃ k, R.before = (i.rounds k).before ∧ R.order = (i.rounds k).order :=
  (h.ok hu).inv.reset.1.sProcessLoop_ends cfg i.term i.rounds hi (h.ok hu).inv.reset.2

/-- C72 for a whole call of `solve` with the static propagator, all its loops included: it ends, and if some round of search is
not interrupted by a restart it answers SAT or UNSAT. It does what `SSys.solve` does with some lists of simplification rounds. -/
theorem C72_static_solve_ends (hu : u.Valid) (h : SSHistory u F as s) (cfg : Config) (pre : SimpInput) (hp : pre.Valid)
    (rounds : List RoundL) (hr : ∀ r ∈ rounds, r.Valid) :
    ∃ N x Rs rs', (∀ f, N ≤ f → s.solveL cfg f pre rounds = some x) ∧
      s.solve cfg Rs rs' = some x ∧ (∀ r ∈ rs', r.Valid) ∧
      ((∃ r ∈ rounds, ∀ i, (r.choice i).restart = false) → x.2.status ≠ none) := by
  have ok := h.ok hu
  obtain ⟨N, x, Rs, rs', h1, h2, -, h4, h5⟩ := sSolveL_ends ok.ok ok.nw (h.ve hu) cfg pre hp rounds hr
    (by rw [ok.assumptions]; exact ok.bound)
  refine ⟨N, x, Rs, rs', h1, h2, fun r' hm => ?_, h5⟩
  obtain ⟨r, k1, k2⟩ := h4 r' hm
  exact k2.valid (hr r k1)

/-- Every call with its loops, as soon as it ends, is a call of the history model. -/
theorem C72_static_history (h : SSHistory .any F as s) {cfg : Config} {f : Nat} {pre : SimpInput} (hp : pre.Valid)
    {rounds : List RoundL} (hr : ∀ r ∈ rounds, r.Valid) {s' : SSys} {res : Result}
    (hs : s.solveL cfg f pre rounds = some (s', res)) :
    SSHistory .any F as s' ∧ ∃ Rs rs', (∀ r ∈ rs', r.Valid) ∧ s.solve cfg Rs rs' = some (s', res) := by
  have ok := h.ok Usage.any_valid
  obtain ⟨Rs, rs', h1, -, h3⟩ := sSolveL_solve ok.ok ok.nw (h.ve Usage.any_valid) hp hr
    (by rw [ok.assumptions]; exact ok.bound) hs
  have hv : ∀ r ∈ rs', r.Valid := fun r' hm => by
    obtain ⟨r, k1, k2⟩ := h3 r' hm
    exact k2.valid (hr r k1)
  exact ⟨h.solve cfg Rs rs' trivial hv h1, Rs, rs', hv, h1⟩

/-- An UNSAT answer of a call with the static propagator and pre- and inprocessing is right, whatever was called before, and
so are the failed assumptions. -/
theorem C72_static_unsat_sound (h : SSHistory .any F as s) {cfg : Config} {f : Nat} {pre : SimpInput} (hp : pre.Valid)
    {rounds : List RoundL} (hr : ∀ r ∈ rounds, r.Valid) {s' : SSys} {res : Result}
    (hs : s.solveL cfg f pre rounds = some (s', res)) (hres : res.status = some false) :
    (∀ l ∈ res.conflict, l.neg ∈ as) ∧ Entails F res.conflict ∧ ¬ Satisfiable (F ++ unitsOf as) := by
  obtain ⟨-, Rs, rs', hv, e⟩ := C72_static_history h hp hr hs
  exact C56_simplifying_unsat h hv e hres

/-! ### Examples -/

/-- As in `Props/ProcessLoop.lean`: two rounds are made before the loop condition fails. -/
example :
    let s := (SSys.new).init 4 (cnf [[1, 2], [1, 2, 3], [-1, 2], [3, 4], [-3, -4], [2, 4]])
    (s.solveStart.processLoop {} exSimp.term exSimp.rounds 2).isNone ∧
    (s.solveStart.processLoop {} exSimp.term exSimp.rounds 3).isSome ∧
    (s.solveL {} 2 exSimp [loopRound]).isNone ∧
    (s.solveL {} 10 exSimp [loopRound]).map (·.2.status) = some (some true) := by
  decide +kernel

/-- An UNSAT answer after preprocessing and inprocessing in the first round, without elimination. -/
def ssLoopRound : RoundL := ⟨true, some exSimp, id, fun _ => exChoice⟩

example : (∀ r ∈ [ssLoopRound], r.Valid) ∧
    ((SSys.new).init 3 (cnf [[1, 2, 3], [1, 2, -3], [1, -2, 3], [1, -2, -3], [-1, 2, 3], [-1, 2, -3], [-1, -2, 3], [-1, -2, -3]])
      |>.solveL { useElim := false, useAsymm := false } 40 ⟨fun _ => true, exSimp.rounds⟩ [ssLoopRound]).map (·.2.status) =
      some (some false) := by
  refine ⟨?_, by decide +kernel⟩
  intro r hr
  simp only [List.mem_singleton] at hr
  subst hr
  exact ⟨fun _ => exChoice_valid, fun _ _ h => h, by
    intro i h
    simp only [ssLoopRound, Option.some.injEq] at h
    subst h
    exact exSimp_valid⟩

/-- C56 is false with inprocessing as the loop performs it: the formula has no model, and the call with the loop condition of
Solver.h:234 answers SAT. `C56_inprocessing_fails` shows it for given lists of rounds. -/
theorem C56_inprocessing_loop_fails : ∃ (F : CNF) (s s' : SSys) (cfg : Config) (f : Nat) (pre : SimpInput)
    (rounds : List RoundL) (res : Result), SSHistory .any F [] s ∧ cfg.preprocessing = false ∧ pre.Valid ∧
    (∀ r ∈ rounds, r.Valid) ∧ s.solveL cfg f pre rounds = some (s', res) ∧ res.status = some true ∧ ¬ Satisfiable F := by
  have hrun : ((ssInpStart.solveL inpCfg 40 exSimp [inpLoop0, inpLoop1]).map fun x => x.2.status) =
      some (some true) := by
    decide +kernel
  obtain ⟨⟨s', res⟩, h1, h2⟩ := Option.map_eq_some_iff.1 hrun
  exact ⟨inpF, _, s', inpCfg, 40, exSimp, _, res, ssInpStart_history, rfl, exSimp_valid, inpLoop_valid, h1, h2, inpF_unsat⟩

end Candy
