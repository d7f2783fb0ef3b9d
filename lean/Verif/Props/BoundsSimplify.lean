import Verif.Proofs.ArrayInpRound
import Verif.Props.Bounds
import Verif.Props.ProcessLoop

/-!
# C49: accesses to vectors inside pre- and inprocessing

`Model/ArraySimplify.lean` has the vectors of subsumption, of asymmetric variable reduction, of variable elimination and of
the clause database with occurrence lists as lists of the length the code allocates. Every access is checked, `none` stands
for one outside of a vector. `RepX x sys` says that the vectors `x` hold the state `sys` of the model of `solve`, those of
variable elimination with one entry per variable; `RepX0` is the same between two calls, when variables may have been added that
variable elimination does not know yet.
-/

namespace Candy

variable {u : Usage} {F : CNF} {as : List Lit} {sys : Sys}

/-- C49 for the start of a call of `solve` with preprocessing (Solver.h:430-446), in every history, whatever the termination
callback returns and whatever the orders of clauses and variables are: the new watch lists, the clauses restored for the new
assumptions, and every round of preprocessing until its loop ends by itself. No vector is accessed outside its bounds, and the
result is represented again. -/
theorem C49_entry_in_bounds (hu : u.Valid) (h : History u F as sys) {x : ASys} (hx : RepX0 x sys) (cfg : Config)
    (i : SimpInput) (hi : i.Valid) :
    ∃ N sys' Rs x', (∀ f, N ≤ f → solveEntryL cfg f i sys = some sys') ∧
      aSolveEntry cfg sys.sol.db.nVars Rs x = some x' ∧ RepX x' sys' ∧ Rs.length ≤ N ∧
      ∀ R ∈ Rs, ∃ k, R.before = (i.rounds k).before ∧ R.order = (i.rounds k).order := by
  have ok := h.ok hu
  have hb : ∀ l ∈ sys.sol.trail.assumptions, l.var < sys.sol.db.nVars := by rw [ok.assumptions]; exact ok.bound
  obtain ⟨N, sys1, Rs, h1, h2, h3, h4⟩ := C72_preprocessing_ends hu h cfg i hi
  have ho : ∀ r ∈ Rs, ∀ f xs, ∀ x ∈ r.order f xs, x ∈ xs := by
    intro r hr f xs y hy
    obtain ⟨k, -, hk⟩ := h4 r hr
    rw [hk] at hy
    exact hi k f xs y hy
  cases hc : cfg.preprocessing with
  | true =>
    have he : solveEntry cfg Rs sys = some { sys1 with sol := { sys1.sol with watch := resetWatch sys1.sol.db } } := by
      unfold solveEntry
      dsimp only
      rw [if_pos hc, h2]; rfl
    obtain ⟨x', e1, e2⟩ := hx.entry ho ok.ok hb he
    refine ⟨N, _, Rs, x', fun f hf => ?_, e1, e2, h3, h4⟩
    unfold solveEntryL
    dsimp only
    rw [if_pos hc, h1 f hf]; rfl
  | false =>
    have he : solveEntry cfg Rs sys = some (solveStart sys) := by
      unfold solveEntry
      dsimp only
      rw [if_neg (by rw [hc]; simp)]
    obtain ⟨x', e1, e2⟩ := hx.entry ho ok.ok hb he
    refine ⟨N, _, Rs, x', fun f hf => ?_, e1, e2, h3, h4⟩
    unfold solveEntryL
    dsimp only
    rw [if_neg (by rw [hc]; simp)]

/-- C49 for inprocessing (Solver.h:451-466) at the head of the main loop of `solve`, after any number of conflicts, restarts,
reductions and earlier inprocessing, for every history: the rounds of the simplification loop until it ends by itself, the
reorganisation of the clause database and the rebuild of the watch lists. -/
theorem C49_inprocessing_in_bounds (hu : u.Valid) (h : InSolve u F as sys) {x : ASys} (hx : RepX x sys) (cfg : Config)
    (r : RoundL) (ht : r.trigger = true) (i : SimpInput) (hr : r.inprocess = some i) (hi : i.Valid) :
    ∃ N sys' Rs x', (∀ f, N ≤ f → reduceStepL cfg f r
        { sys with sol := { sys.sol with trail := sys.sol.trail.reset } } = some sys') ∧
      aInprocess cfg sys.sol.db.nVars Rs x = some x' ∧ RepX x' sys' ∧ Rs.length ≤ N ∧
      ∀ R ∈ Rs, ∃ k, R.before = (i.rounds k).before ∧ R.order = (i.rounds k).order := by
  have ok := h.ok hu
  have hb : ∀ l ∈ sys.sol.trail.assumptions, l.var < sys.sol.db.nVars := by rw [ok.assumptions]; exact ok.bound
  obtain ⟨N, sys1, Rs, h1, h2, h3, h4⟩ := C72_inprocessing_ends hu h cfg i hi
  have ho : ∀ r ∈ Rs, ∀ f xs, ∀ x ∈ r.order f xs, x ∈ xs := by
    intro r hr f xs y hy
    obtain ⟨k, -, hk⟩ := h4 r hr
    rw [hk] at hy
    exact hi k f xs y hy
  have he : reduceStep cfg ⟨true, some Rs, id, 0, r.choice⟩
      { sys with sol := { sys.sol with trail := sys.sol.trail.reset } } = some { sys1 with sol :=
        { sys1.sol with db := sys1.sol.db.reorganize, watch := resetWatch sys1.sol.db.reorganize } } := by
    unfold reduceStep
    rw [if_pos rfl]
    dsimp only
    rw [h2]; rfl
  obtain ⟨x', e1, e2, -⟩ := hx.inprocess ho rfl rfl ok.inv hb he
  refine ⟨N, _, Rs, x', fun f hf => ?_, e1, e2, h3, h4⟩
  unfold reduceStepL
  rw [if_pos ht, hr]
  dsimp only
  rw [h1 f hf]; rfl

/-- C49 for any number of rounds of simplification at the head of the main loop: if the model of simplification, in which
variables index functions, returns a result, so does the one on vectors, the same one. -/
theorem C49_rounds_in_bounds (hu : u.Valid) (h : InSolve u F as sys) {x : ASys} (hx : RepX x sys) (cfg : Config)
    {rs : List PreRound} (ho : ∀ r ∈ rs, ∀ f xs, ∀ x ∈ r.order f xs, x ∈ xs) {sys' : Sys}
    (he : process cfg rs { sys with sol := { sys.sol with trail := sys.sol.trail.reset } } = some sys') :
    ∃ x', aProcess cfg sys.sol.db.nVars rs { x with m := { x.m with T := x.m.T.reset } } = some x' ∧ RepX x' sys' := by
  have ok := h.ok hu
  obtain ⟨x', e1, e2, -⟩ := RepX.process (F := F) ho (x := { x with m := { x.m with T := x.m.T.reset } }) (sys := { sys with sol := { sys.sol with trail := sys.sol.trail.reset } })
    ⟨⟨hx.m.trail.reset, hx.m.store, hx.m.bin, hx.m.watch, hx.m.stamp, hx.m.lbd⟩, hx.clauses, hx.e, hx.ve⟩
    ok.inv.reset (Trail.reset_inv _) rfl (by
      show ∀ l ∈ sys.sol.trail.assumptions, l.var < sys.sol.db.nVars
      rw [ok.assumptions]; exact ok.bound) he
  exact ⟨x', e1, e2⟩

/-- C49 for one iteration of the main loop of `solve` with inprocessing (Solver.h:450-477), for a call without assumptions:
simplification, reorganisation, the rebuild of the watch lists, propagation of unit clauses, and search with conflict analysis,
LBD computation and learning. `C72_inprocessing_ends` gives the rounds of simplification for which `h1` holds.

Missing for the full property: assumptions, for which it is false (`C49_inprocessing_fails`); and what is missing in
`C49_round_in_bounds_partial`. -/
theorem C49_inprocessing_round_in_bounds_partial (hu : u.Valid) (h : InSolve u F [] sys) {x : ASys} (hx : RepX x sys)
    (cfg : Config) {r : Round} (hr : u.round r) {rs : List PreRound} (hri : r.inprocess = some rs)
    (htr : r.trigger = true) (hord : ∀ r ∈ rs, ∀ f xs, ∀ x ∈ r.order f xs, x ∈ xs) {sysr : Sys}
    (h1 : reduceStep cfg r { sys with sol := { sys.sol with trail := sys.sol.trail.reset } } = some sysr)
    {o : Nat → AChoice} (ho : ∀ i, (o i).Valid) :
    aInprocessRound cfg rs r.steps o sys.sol.recalc sys.sol.db.nVars x ≠ .ub ∧
    ∀ m' res c, aInprocessRound cfg rs r.steps o sys.sol.recalc sys.sol.db.nVars x = .done m' res c →
      ∃ (ch : Nat → Choice) (sys' : Sys), (∀ i, (ch i).Valid ∧ (ch i).restart = (o i).restart) ∧
        solveRound cfg { r with choice := ch } sys = some (sys', res) ∧ RepM m' sys'.sol ∧
        sys'.sol.conflict = c := by
  have hs := aInprocessRound_sim hu rfl h hx cfg hr hri htr hord h1 ho
  refine ⟨fun e => by rw [e] at hs; exact hs, fun m' res c e => ?_⟩
  rw [e] at hs
  obtain ⟨o', sys', h1, h2, h3, h4, h5⟩ := hs
  exact ⟨o', sys', fun i => ⟨h1 i, h2 i⟩, h3, h4, h5⟩

/-- Vectors that hold the state `sys`. -/
def sysOf (sys : Sys) : ASys :=
  ⟨machOf sys.sol, sys.sol.db.clauses, sys.sol.db.hasEmpty, sys.ve.vars, (List.range sys.sol.db.nVars).map sys.ve.cls,
    (List.range sys.sol.db.nVars).map sys.ve.frozen⟩

theorem sysOf_rep (h : sys.sol.trail.stack.length ≤ sys.sol.trail.nVars) : RepX (sysOf sys) sys :=
  ⟨machOf_rep h, rfl, rfl, rfl, by simp [sysOf], by simp [sysOf], fun v hv => by simp [sysOf, hv],
    fun v hv => by simp [sysOf, hv]⟩

/-- Every state at the head of the loop of `solve` has a representation, so that the theorems above apply. -/
theorem C49_sys_representable (hu : u.Valid) (h : InSolve u F as sys) (hne : sys.sol.db.hasEmpty = false) :
    ∃ x, RepX x sys :=
  ⟨sysOf sys, sysOf_rep (h.trailInv hu hne).length_le⟩

/-! ### Examples -/

theorem sysOf_rep0 (h : sys.sol.trail.stack.length ≤ sys.sol.trail.nVars)
    (hv : ∀ v ≥ sys.sol.db.nVars, sys.ve.cls v = []) : RepX0 (sysOf sys) sys :=
  ⟨machOf_rep h, rfl, rfl, rfl, by simp [sysOf], by simp [sysOf], fun v hv => by
    have hv : v < sys.sol.db.nVars := by simpa [sysOf] using hv
    simp [sysOf, hv], by intro v h; exact hv v (by simpa [sysOf] using h)⟩

/-- Clauses for the examples: one is subsumed, one literal goes by self-subsumption, one variable is eliminated. -/
def bsF : CNF := cnf [[1, 2], [1, 2, 3], [-1, 2], [3, 4], [-3, -4], [2, 4]]

def bsStart : Sys := (Sys.new true).init 4 bsF true

theorem bsStart_history : History .any bsF [] bsStart := by
  have h := (History.new true : History .any [] [] _).add 4 bsF true trivial (wfCNF_of (by decide))
  simpa [bsStart] using h

/-- A first call: variable elimination knows no variable yet, its vectors are empty. One round of preprocessing on the vectors
eliminates a variable. -/
example :
    RepX0 { sysOf bsStart with ve := ⟨[], [], []⟩ } bsStart ∧ exSimp.Valid ∧
    (aSolveEntry {} 4 [exPreSorted] { sysOf bsStart with ve := ⟨[], [], []⟩ }).map
      (fun x => (x.ve.vars.length, x.ve.frozen.length, x.e)) = some (1, 4, false) := by
  refine ⟨?_, exSimp_valid, by decide +kernel⟩
  have hs : bsStart.sol.trail.stack.length ≤ bsStart.sol.trail.nVars := by decide +kernel
  refine ⟨machOf_rep hs, rfl, rfl, ?_, rfl, Nat.zero_le _, ?_, ?_⟩
  · show [] = bsStart.ve.vars
    decide +kernel
  · intro v hv; simp at hv
  · intro v _
    have : bsStart.ve.cls = fun _ => [] := rfl
    rw [this]

/-- Inprocessing on vectors: after the first iteration of the call of `C20_inprocessing_fails`; clauses are removed. -/
example : (((solveEntry inpCfg [] inpStart).bind fun s => (solveRound inpCfg inpRound0 s).bind fun y =>
    if y.2 = none then (aInprocess inpCfg 13 [exPreSorted] (sysOf y.1)).map fun x =>
      (decide (x.clauses.length < y.1.sol.db.clauses.length), x.ve.frozen.length) else none)) = some (true, 13) := by
  decide +kernel

/-- A whole iteration with inprocessing on vectors, in the same call: it ends with the answer SAT (a wrong one,
`C20_inprocessing_fails`). -/
example : (((solveEntry inpCfg [] inpStart).bind fun s => (solveRound inpCfg inpRound0 s).bind fun y =>
    if y.2 = none then
      match aInprocessRound inpCfg [inpFirst, inpSecond] 50 (fun _ => ⟨false, aFirstFree⟩) y.1.sol.recalc 13 (sysOf y.1) with
      | .done m r _ => some (r, decide (m.T.trailSize ≤ 13))
      | _ => none
    else none)) = some (some true, true) := by
  decide +kernel

/-- The checks are there: with an occurrence list for three of the four variables, or a vector of eliminated clauses that is
too short, simplification is undefined. -/
example :
    (ASDB.init 3 (sysOf bsStart).m.store (sysOf bsStart).m.bin (sysOf bsStart).clauses false).isNone ∧
    ((ASDB.init 4 (sysOf bsStart).m.store (sysOf bsStart).m.bin (sysOf bsStart).clauses false).bind fun a =>
      aEliminateAll true 20 exOrder ⟨a, ⟨[], [[], [], []], [false, false, false, false]⟩,
        (sysOf (solveStart bsStart)).m.T⟩).isNone ∧
    ((ASDB.init 4 (sysOf bsStart).m.store (sysOf bsStart).m.bin (sysOf bsStart).clauses false).bind fun a =>
      aEliminateAll true 20 exOrder ⟨a, ⟨[], [[], [], [], []], [false, false, false, false]⟩,
        (sysOf (solveStart bsStart)).m.T⟩).isSome := by
  decide +kernel

end Candy
