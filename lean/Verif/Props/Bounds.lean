import Verif.Proofs.ArrayRound
import Verif.Proofs.ArrayExamples
import Verif.Props.Lbd
import Verif.Props.FirstSolve
import Verif.Props.Termination

/-!
# C49: accesses to the vectors of the solver stay in bounds

The array model (`Model/TrailArrays.lean`, `Model/ArraySearch.lean`, `Model/ArraySolve.lean`) has the vectors
of the code as lists of the length the code allocates and checks every access; `.ub` and `none` stand for
an access outside of a vector. `RepM m s` says that the vectors `m` hold the state `s` of the model of the
search: one entry per variable in `assigns`, `vardata`, `trail`, `decision`, at least one list per literal
among the watch lists and at least one entry per variable in the two stamp arrays.
-/

namespace Candy

variable {u : Usage} {F : CNF} {as : List Lit}

/-! ### Every state of the main loop has a representation -/

theorem InSolve.trailInv {sys : Sys} (hu : u.Valid) (h : InSolve u F as sys)
    (hne : sys.sol.db.hasEmpty = false) : sys.sol.trail.Inv := by
  cases h with
  | enter h cfg pre hc he =>
    obtain ⟨p1, p2, p3, p4, p5⟩ := solveStart_spec (h.ok hu).ok
    unfold solveEntry at he
    dsimp only at he
    split at he
    · obtain ⟨sys2, h2, rfl⟩ := Option.map_eq_some_iff.1 he
      obtain ⟨q1, q2⟩ := p1.process h2
      exact (q1.l0 hne).core.tinv
    · simp at he; subst he
      exact (p1.l0 hne).core.tinv
  | round h cfg r hr he =>
    rename_i sys0
    have hok := h.ok hu
    unfold solveRound at he
    dsimp only at he
    split at he
    · simp at he
    · rename_i sysr h1
      obtain ⟨a1, a2⟩ := hok.inv.reset.reduceStep (hu r hr).sort h1
      obtain ⟨s, m1, m2, m3, _, _⟩ := a1.materialize
      rw [m1] at he
      dsimp only at he
      split at he
      · simp at he
      · rename_i hE
        have hE : s.db.hasEmpty = false := by simpa using hE
        obtain ⟨x, hx, hx2⟩ := Option.map_eq_some_iff.1 he
        simp only [Prod.mk.injEq] at hx2
        obtain ⟨rfl, hx2⟩ := hx2
        have hs : Searching u F as s := .start h cfg r hr h1 m1 hE
        obtain ⟨_, _, _, k4, _⟩ := search_spec _ _ _ s (hs.ok hu).inv (hu r hr).choice x.1 x.2 hx
        obtain ⟨_, A', _, k5, _⟩ := k4 (by rw [hx2]; simp)
        exact k5.core.tinv

/-- Every state at the head of the loop of `solve` fits into vectors of the sizes the code allocates, so
that the theorems below apply to it. -/
theorem C49_representable {sys : Sys} (hu : u.Valid) (h : InSolve u F as sys)
    (hne : sys.sol.db.hasEmpty = false) : ∃ m, RepM m sys.sol :=
  RepM.exists_rep (h.trailInv hu hne).length_le

/-! ### Search and the main loop -/

/-- C49 for one iteration of the loop of `solve` (Solver.h:452-480) that does no inprocessing itself: reset of the trail,
reduction of the clause database with both rebuilds of watch lists, propagation of unit clauses, and
search with propagation, conflict analysis, minimisation, LBD computation, learning and backtracking.
Whatever was added and solved before, whatever is triggered and decided: no vector is accessed outside its
bounds, and the result is represented again, so that this applies to every later iteration as well.

Inprocessing may have been done before, in this call or in earlier ones, if this call has no assumptions. Pre- and
inprocessing are in Props/BoundsSimplify.lean.

Missing for the full property: assumptions together with inprocessing, for which it is false
(`C49_inprocessing_fails`); assumptions with repeated variables and values of
eliminated variables, for which it is false (`C49_repeated_assumptions_fail`, `C49_trail_overflow`);
assumptions and queries of unknown variables, for which it is false (`C30_unknown_assumption_undefined`,
`C30_failed_unknown_undefined`). -/
theorem C49_round_in_bounds_partial (hu : u.Valid) (hn : u.NoInpr ∨ as = []) (hd : (as.map Lit.var).Nodup)
    {sys : Sys} (h : InSolve u F as sys) (hne : sys.sol.db.hasEmpty = false) {m : AMach} (hm : RepM m sys.sol)
    (cfg : Config) {r : Round} (hr : u.round r) (hri : r.inprocess = none) {o : Nat → AChoice}
    (ho : ∀ i, (o i).Valid) :
    aSolveRound cfg r o sys.sol.recalc sys.sol.db.nVars sys.sol.db.clauses sys.sol.db.hasEmpty m ≠ .ub ∧
    ∀ m' res c, aSolveRound cfg r o sys.sol.recalc sys.sol.db.nVars sys.sol.db.clauses sys.sol.db.hasEmpty m =
        .done m' res c →
      ∃ (ch : Nat → Choice) (sys' : Sys), (∀ i, (ch i).Valid ∧ (ch i).restart = (o i).restart) ∧
        solveRound cfg { r with choice := ch } sys = some (sys', res) ∧ RepM m' sys'.sol ∧
        sys'.sol.conflict = c := by
  have hs := aSolveRound_sim hu hn hd h hne hm cfg hr hri ho
  refine ⟨fun e => by rw [e] at hs; exact hs, fun m' res c e => ?_⟩
  rw [e] at hs
  obtain ⟨o', sys', h1, h2, h3, h4, h5⟩ := hs
  exact ⟨o', sys', fun i => ⟨h1 i, h2 i⟩, h3, h4, h5⟩

/-- C49 for search alone, from any of its states; together with C47: it returns without having accessed a
vector outside its bounds, after a number of iterations bounded in the number of variables. -/
theorem C49_search_in_bounds_partial (hu : u.Valid) (hn : u.NoInpr ∨ as = []) (hd : (as.map Lit.var).Nodup)
    {s : Solver} (h : Searching u F as s) {m : AMach} (hm : RepM m s) {o : Nat → AChoice} (ho : ∀ i, (o i).Valid) {k : Nat}
    (hk : s.db.nVars * (s.db.nVars + 1) ^ (s.db.nVars + 1) < k) :
    ∃ m' res c, aSearch s.recalc k o m = .done m' res c ∧
      ∃ (ch : Nat → Choice) (s' : Solver), (∀ i, (ch i).Valid ∧ (ch i).restart = (o i).restart) ∧
        search k ch s = some (s', res) ∧ RepM m' s' ∧ s'.conflict = c := by
  have hs := aSearch_sim hu hn hd k h hm ho
  generalize aSearch s.recalc k o m = x at hs
  cases x with
  | ub => exact hs.elim
  | more =>
    obtain ⟨o', h1, h2, h3⟩ := hs
    obtain ⟨s', r, e, -⟩ := C47_search_ends hu h o' h1 hk
    rw [h3] at e; simp at e
  | done m' r c =>
    obtain ⟨o', s', h1, h2, h3, h4, h5⟩ := hs
    rw [(h.ok hu).conflict] at h5
    exact ⟨m', r, c, rfl, o', s', fun i => ⟨h1 i, h2 i⟩, h3, h4, h5⟩

/-! ### Stamp array for the LBD -/

/-- C17 (bounds). Without inprocessing and with assumptions of different variables, or without assumptions, the levels of the
literals of a learnt clause are below the number of variables, the size of the stamp array: `computeLBD` is
defined, whatever the stamp array was used for before, and returns the number of distinct levels. -/
theorem C17_learnt_in_bounds_partial (hu : u.Valid) (hn : u.NoInpr ∨ as = []) (hd : (as.map Lit.var).Nodup)
    {s : Solver} {ps : PS} {c : Nat} (h : AtConflict u F as s ps c) {r : AnalysisResult}
    (hr : handleConflict ps.store s.db.bin ps.T c = some r) {max : Nat} (h1 : 1 ≤ max) {st : Stamp}
    (hst : st.Reached max) (hsz : s.db.nVars ≤ st.stamped.length) :
    ∃ (levels : List Nat) (st' : Stamp), levels.Nodup ∧
      (∀ k, k ∈ levels ↔ ∃ l ∈ r.learnt, ps.T.level l.var = k) ∧
      lbdStamped max ps.T r.learnt st = some (levels.length, st') ∧ st'.Reached max := by
  have hl := h.level_lt' hu hn hd
  obtain ⟨-, first, rest, e1, e2, e3, -⟩ := C14_asserting hu h hr
  have hb : ∀ l ∈ r.learnt, ps.T.level l.var < st.stamped.length := by
    intro l hm
    rw [e1] at hm
    rcases List.mem_cons.1 hm with rfl | hm
    · rw [e2]; omega
    · have := e3 l hm; omega
  obtain ⟨levels, st', k1, k2, k3, k4, -⟩ := (C17_stamp_array h1 hst ps.T r.learnt).1 hb
  exact ⟨levels, st', k1, k2, k3, k4⟩

/-- C49 fails for repeated assumptions: three variables, the assumptions 1, 1, 1 and a conflict at level 4;
the stamp array for the LBD has 3 entries. -/
theorem C49_repeated_assumptions_fail : ∃ s m, Searching .noInprocessing (cnf [[2, 3], [2, -3]])
    [pos 0, pos 0, pos 0] s ∧ RepM m s ∧
    ∀ ch : AChoice, aSearchIter s.recalc m ch = none := by
  have h : ((exState 3 (cnf [[2, 3], [2, -3]]) [pos 0, pos 0, pos 0] 2).map fun s =>
      (aSearchIter s.recalc (machOf s) ⟨false, fun _ => none⟩).isNone &&
      (match aPropagateLoop (machOf s).bin ((machOf s).T.variables + 1)
          ⟨(machOf s).T, (machOf s).store, (machOf s).watch⟩ with
        | some (_, some _) => true
        | _ => false) && decide (s.trail.stack.length ≤ s.trail.nVars)) = some true := by decide +kernel
  obtain ⟨s, hs, e⟩ := Option.map_eq_some_iff.1 h
  simp only [Bool.and_eq_true, Option.isNone_iff_eq_none, decide_eq_true_eq] at e
  refine ⟨s, machOf s, exState_searching (u := .noInprocessing) ⟨exRound_valid, rfl⟩ trivial trivial
    (by decide) (by decide) 2 s hs, machOf_rep e.2, fun ch => ?_⟩
  rw [← e.1.1]
  unfold aSearchIter
  have e2 := e.1.2
  split at e2
  · rename_i hp; rw [hp]
  · simp at e2

/-! ### Values of eliminated variables -/

/-- C49 for `propagate_eliminated_variables` (VariableElimination.h:139-165) at the end of a first call of
`solve` with preprocessing: if preprocessing leaves no eliminated variable assigned, the values found for
the eliminated variables fit on the trail, and the stored clauses are read inside their bounds. -/
theorem C49_extension_in_bounds_partial {sys sys1 sys2 : Sys} {cfg : Config} {pre : List PreRound}
    {rounds : List Round} (h : History .fresh F as sys) (hc : FirstCall pre rounds)
    (h1 : process cfg pre (solveStart sys) = some sys1) (hne : sys1.sol.db.hasEmpty = false)
    (hno : ∀ l ∈ sys1.sol.trail.stack, l.var ∉ sys1.ve.vars)
    (h2 : solveLoop cfg rounds { sys1 with sol := { sys1.sol with watch := resetWatch sys1.sol.db } } =
      some (sys2, some true)) {A : ATrail} (hA : RepT A sys2.sol.trail) :
    ∃ A' T', A.extendModel sys2.ve.cls sys2.ve.vars.reverse = some A' ∧
      extendModel sys2.ve.cls sys2.ve.vars.reverse sys2.sol.trail = some T' ∧ RepT A' T' := by
  have ho := h.ok Usage.fresh_valid
  have hb : ∀ l ∈ sys.sol.trail.assumptions, l.var < sys.sol.db.nVars := by
    rw [ho.assumptions]; exact ho.bound
  have hE := first_end (freshOk h) hc.preValid
    (fun r hm => ⟨(hc.roundsValid r hm).1.choice, (hc.roundsValid r hm).2, (hc.roundsValid r hm).1.sort⟩)
    hc.first hb h1 hne (fun v hv => by rintro ⟨l, hl, rfl⟩; exact hno l hl hv) h2
  rw [hE.ve]
  have hrec := hE.pre.recon
  refine aExtendModel_sim _ hA hE.inv.bound ?_ ?_ ?_
  · intro v hv
    rw [hE.nVars]; exact (hrec.stored v (List.mem_reverse.1 hv)).1
  · rw [List.nodup_append]
    refine ⟨stack_vars_nodup hE.inv, (List.reverse_perm _).nodup_iff.2 hrec.distinct, ?_⟩
    rintro v hv w hw rfl
    obtain ⟨l, hl, rfl⟩ := List.mem_map.1 hv
    exact (assigned_iff hE.inv).1 ⟨l, hl, rfl⟩ (hE.unassigned _ (List.mem_reverse.1 hw))
  · intro v hv
    refine ⟨(hrec.stored v (List.mem_reverse.1 hv)).2, fun c hcm l hl => ?_⟩
    rw [hE.nVars]; exact hE.veOk.wf v c hcm l hl

/-- C49 fails with the default options and a single call of `solve`: preprocessing assigns a variable that
was eliminated already, and the value found for it again at the end of the call is written behind the end
of the trail (six variables, seven values). -/
theorem C49_trail_overflow : ∃ (F : CNF) (sys sys1 sys2 : Sys) (pre : List PreRound) (rounds : List Round),
    History .fresh F [] sys ∧ FirstCall pre rounds ∧ process {} pre (solveStart sys) = some sys1 ∧
    solveLoop {} rounds { sys1 with sol := { sys1.sol with watch := resetWatch sys1.sol.db } } =
      some (sys2, some true) ∧
    ∃ A, RepT A sys2.sol.trail ∧ A.extendModel sys2.ve.cls sys2.ve.vars.reverse = none := by
  have hrun : ((process {} [exPreSorted, exPreSorted] (solveStart ((Sys.new true).init 6 fdF true))).map
      fun sys1 => (solveLoop {} [fdRound]
        { sys1 with sol := { sys1.sol with watch := resetWatch sys1.sol.db } }).map fun x =>
      (x.2, decide (x.1.sol.trail.stack.length ≤ x.1.sol.trail.nVars),
        ((trailOf x.1.sol.trail).extendModel x.1.ve.cls x.1.ve.vars.reverse).isNone)) =
      some (some (some true, true, true)) := by decide +kernel
  obtain ⟨sys1, e1, e2⟩ := Option.map_eq_some_iff.1 hrun
  obtain ⟨⟨sys2, res⟩, e3, e4⟩ := Option.map_eq_some_iff.1 e2
  simp only [Prod.mk.injEq, decide_eq_true_eq, Option.isNone_iff_eq_none] at e4
  obtain ⟨rfl, e5, e6⟩ := e4
  refine ⟨fdF, (Sys.new true).init 6 fdF true, sys1, sys2, [exPreSorted, exPreSorted], [fdRound], ?_,
    ⟨?_, ?_, ?_⟩, e1, e3, _, trailOf_rep e5, e6⟩
  · have h := (History.new (u := .fresh) true).add 6 fdF true rfl (wfCNF_of (by decide))
    simpa using h
  · intro r hr
    simp at hr; subst hr
    intro f xs x hx
    exact exOrder_mem hx
  · intro r hr
    simp at hr; subst hr
    exact ⟨fdRound_valid, rfl⟩
  · intro r hr
    simp at hr; subst hr; rfl

/-! ### Concrete cases -/

/-- The first free decision variable, read from the vectors. -/
def aFirstFree (A : ATrail) : Option Lit :=
  ((List.range A.assigns.length).find? fun v => A.decision[v]? == some true && A.assigns[v]? == some none).map neg

theorem aFirstFree_valid (b : Bool) : (AChoice.mk b aFirstFree).Valid := by
  intro A
  simp only [aFirstFree]
  cases h : (List.range A.assigns.length).find? fun v => A.decision[v]? == some true && A.assigns[v]? == some none with
  | none =>
    intro v hd ha
    have hl : v < A.assigns.length := (List.getElem?_eq_some_iff.1 ha).1
    have := List.find?_eq_none.1 h v (by simpa using hl)
    simp [hd, ha] at this
  | some v =>
    have h1 := List.find?_some h
    simp at h1 ⊢
    exact ⟨h1.2, h1.1⟩

/-- Search from a state after two decisions, with distinct assumptions: a conflict, a learnt clause, and an
answer; the vectors are those of `machOf`. -/
example : ∃ s, Searching .noInprocessing (cnf [[2, 3], [2, -3], [-1, -2, 4]]) [pos 0] s ∧
    RepM (machOf s) s ∧ s.trail.lim.length = 2 ∧
    ((match aSearch s.recalc 50 (fun _ => ⟨false, aFirstFree⟩) (machOf s) with
      | .done m r _ => some (r, m.T.trailSize, m.store.length)
      | _ => none) = some (some true, 4, s.db.next + 1)) := by
  have h : ((exState 4 (cnf [[2, 3], [2, -3], [-1, -2, 4]]) [pos 0] 2).map fun s =>
      (decide (s.trail.stack.length ≤ s.trail.nVars ∧ s.trail.lim.length = 2 ∧
      ((match aSearch s.recalc 50 (fun _ => ⟨false, aFirstFree⟩) (machOf s) with
      | .done m r _ => some (r, m.T.trailSize, m.store.length)
      | _ => none) = some (some true, 4, s.db.next + 1))))) = some true := by decide +kernel
  obtain ⟨s, hs, e⟩ := Option.map_eq_some_iff.1 h
  simp only [decide_eq_true_eq] at e
  exact ⟨s, exState_searching (u := .noInprocessing) ⟨exRound_valid, rfl⟩ trivial trivial
    (by decide) (by decide) 2 s hs, machOf_rep e.1, e.2⟩

/-- A whole iteration of the main loop with clause reduction and a restart. -/
example : ∃ sys, InSolve .noInprocessing (cnf [[2, 3], [2, -3], [-1, -2, 4]]) [pos 0] sys ∧
    sys.sol.db.hasEmpty = false ∧ RepM (machOf sys.sol) sys.sol ∧
    ((match aSolveRound {} exRestart (fun _ => ⟨true, aFirstFree⟩) sys.sol.recalc sys.sol.db.nVars
        sys.sol.db.clauses sys.sol.db.hasEmpty (machOf sys.sol) with
      | .done m r _ => some (r, m.T.trailSize, decide (sys.sol.db.next ≤ m.store.length))
      | _ => none) = some (none, 0, true)) := by
  have h : ((solveEntry { preprocessing := false } []
      (((Sys.new true).init 4 (cnf [[2, 3], [2, -3], [-1, -2, 4]]) true).assume [pos 0])).map fun sys =>
      (decide (sys.sol.db.hasEmpty = false ∧ sys.sol.trail.stack.length ≤ sys.sol.trail.nVars ∧
      ((match aSolveRound {} exRestart (fun _ => ⟨true, aFirstFree⟩) sys.sol.recalc sys.sol.db.nVars
        sys.sol.db.clauses sys.sol.db.hasEmpty (machOf sys.sol) with
      | .done m r _ => some (r, m.T.trailSize, decide (sys.sol.db.next ≤ m.store.length))
      | _ => none) = some (none, 0, true))))) = some true := by decide +kernel
  obtain ⟨sys, hs, e⟩ := Option.map_eq_some_iff.1 h
  simp only [decide_eq_true_eq] at e
  have hh := (History.new (u := .noInprocessing) true).add 4 (cnf [[2, 3], [2, -3], [-1, -2, 4]]) true trivial
    (wfCNF_of (by decide))
  rw [List.nil_append] at hh
  exact ⟨sys, .enter (hh.assume [pos 0] (by decide)) _ _ trivial hs, e.1, machOf_rep e.2.1, e.2.2⟩

/-- The choices above are admissible. -/
example : ∀ i : Nat, ((fun _ => ⟨true, aFirstFree⟩ : Nat → AChoice) i).Valid := fun _ => aFirstFree_valid _

/-- A first call that eliminates variables, assigns none of them during preprocessing, and finds their
values at the end: the trail is full, five of five entries. -/
example : ∃ sys1 sys2, process {} [exPreSorted]
      (solveStart (((Sys.new true).init 5 exElimF true).assume [lit 3])) = some sys1 ∧
    sys1.sol.db.hasEmpty = false ∧ (∀ l ∈ sys1.sol.trail.stack, l.var ∉ sys1.ve.vars) ∧
    solveLoop {} [fdRound] { sys1 with sol := { sys1.sol with watch := resetWatch sys1.sol.db } } =
      some (sys2, some true) ∧ RepT (trailOf sys2.sol.trail) sys2.sol.trail ∧ sys2.ve.vars ≠ [] ∧
    ((trailOf sys2.sol.trail).extendModel sys2.ve.cls sys2.ve.vars.reverse).map (·.trailSize) = some 5 := by
  have h : ((process {} [exPreSorted] (solveStart (((Sys.new true).init 5 exElimF true).assume [lit 3]))).map
      fun sys1 => (decide (sys1.sol.db.hasEmpty = false ∧ (∀ l ∈ sys1.sol.trail.stack, l.var ∉ sys1.ve.vars)),
        (solveLoop {} [fdRound]
        { sys1 with sol := { sys1.sol with watch := resetWatch sys1.sol.db } }).map fun x =>
      (x.2, decide (x.1.sol.trail.stack.length ≤ x.1.sol.trail.nVars ∧ x.1.ve.vars ≠ []),
        ((trailOf x.1.sol.trail).extendModel x.1.ve.cls x.1.ve.vars.reverse).map (·.trailSize)))) =
      some (true, some (some true, true, some 5)) := by decide +kernel
  obtain ⟨sys1, e1, e2⟩ := Option.map_eq_some_iff.1 h
  simp only [Prod.mk.injEq, decide_eq_true_eq] at e2
  obtain ⟨e2, e3⟩ := e2
  obtain ⟨⟨sys2, res⟩, e4, e5⟩ := Option.map_eq_some_iff.1 e3
  simp only [Prod.mk.injEq, decide_eq_true_eq] at e5
  obtain ⟨rfl, e5, e6⟩ := e5
  exact ⟨sys1, sys2, e1, e2.1, e2.2, e4, trailOf_rep e5.1, e5.2, e6⟩

/-- The conflict at level 2 of the example of C14: learnt clause of two levels, stamp array of three entries. -/
example : ((exState 3 exG [] 2).bind fun s => (runPropagate s).bind fun x => x.2.bind fun c =>
    (handleConflict x.1.store s.db.bin x.1.T c).bind fun r =>
      (lbdStamped 4294967295 x.1.T r.learnt ((Stamp.new 4294967295).grow 3)).map fun y =>
        (y.1, x.1.T.decisionLevel)) = some (2, 2) := by decide

/-- C49. When variables are added, all vectors of the trail grow along: the entries that exist stay as they
are, the new ones are unassigned decision variables. (In the model the functions have these values beyond
the number of variables, see `Trail.init`.) -/
theorem C49_growth {A : ATrail} {T : Trail} (h : RepT A T) (n : Nat)
    (hd : ∀ v ≥ T.nVars, T.assigns v = none ∧ T.reason v = none ∧ T.level v = 0 ∧ T.decision v = true) :
    RepT (A.init n) (T.init n) ∧ T.nVars ≤ (T.init n).nVars ∧ n ≤ (T.init n).nVars := by
  have hg : ∀ {α : Type} (xs : List α) (d : α), xs.length = T.nVars → T.nVars < n →
      (ATrail.grow xs n d).length = n ∧
      ∀ v < n, (ATrail.grow xs n d)[v]? = if v < T.nVars then xs[v]? else some d := by
    intro α xs d hl hn
    unfold ATrail.grow
    refine ⟨by simp; omega, fun v hv => ?_⟩
    rw [List.getElem?_append]
    by_cases e : v < T.nVars
    · rw [if_pos (by omega), if_pos e]
    · rw [if_neg (by omega), if_neg e, List.getElem?_replicate, if_pos (by omega)]
  unfold ATrail.init Trail.init
  by_cases hn : n > T.nVars
  · rw [if_pos (by rw [h.vars]; exact hn), if_pos hn]
    have g1 := hg A.assigns none h.la hn
    have g2 := hg A.vardata (none, 0) h.lv hn
    have g3 := hg A.trail ⟨0, false⟩ h.lt hn
    have g4 := hg A.decision true h.ld hn
    refine ⟨⟨rfl, g1.1, g2.1, g3.1, g4.1, ?_, ?_, ?_, h.size, ?_, h.lim, h.qhead, h.asm⟩, by dsimp only; omega,
      Nat.le_refl _⟩
    · intro v hv
      rw [g1.2 v hv]
      split
      · exact h.assigns v (by assumption)
      · rw [(hd v (by omega)).1]
    · intro v hv
      rw [g2.2 v hv]
      split
      · exact h.data v (by assumption)
      · rw [(hd v (by omega)).2.1, (hd v (by omega)).2.2.1]
    · intro v hv
      rw [g4.2 v hv]
      split
      · exact h.decision v (by assumption)
      · rw [(hd v (by omega)).2.2.2]
    · show (ATrail.grow A.trail n ⟨0, false⟩).take A.trailSize = T.stack
      have := h.fits
      unfold ATrail.grow
      rw [List.take_append_of_le_length (by rw [h.lt, h.size]; exact this)]
      exact h.stack
  · rw [if_neg (by rw [h.vars]; exact hn), if_neg hn]
    exact ⟨h, Nat.le_refl _, by omega⟩

/-- A trail of two variables, one of them assigned, grows to five. -/
example : ∃ A, RepT A (((Trail.empty 0).init 2).setValue ⟨1, true⟩) ∧
    RepT (A.init 5) ((((Trail.empty 0).init 2).setValue ⟨1, true⟩).init 5) := by
  obtain ⟨A, hA⟩ := RepT.exists_rep (T := ((Trail.empty 0).init 2).setValue ⟨1, true⟩) (by decide)
  refine ⟨A, hA, (C49_growth hA 5 ?_).1⟩
  intro v hv
  have : v ≠ 1 := by
    have : 2 ≤ v := hv
    omega
  simp [Trail.setValue, Trail.init, Trail.empty, upd, this]

end Candy
