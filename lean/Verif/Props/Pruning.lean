import Verif.Proofs.Pruning
import Verif.Props.Minimizer

/-!
# C53: models minimised with pruning or projection can be completed

With gate recognition, the minimiser works on the clauses that `getPrunedProblem` keeps, and it may drop the
literals of gate outputs. The result need not satisfy every clause any more. What it promises instead is that
the values of gate outputs can be computed afterwards.
-/

namespace Candy

/-- Whatever values the variables get that are not outputs of gates, as long as they agree with the literals
`ls`: values for the outputs exist that satisfy every clause. -/
def Completable (G : GateProblem) (ls : List Lit) (F : CNF) : Prop :=
  ∀ a : Assign, (∀ l ∈ ls, (G.gates l.var).out = none → l.holds a) →
    ∃ a' : Assign, (∀ v, (G.gates v).out = none → a' v = a v) ∧ Sat a' F

section
variable {m r : SolverResult} {b minimal project : Bool} {is1 is2 : List SolveInput}

/-- The clauses that the minimiser works on, with the variables it keeps. -/
theorem minimize_cover {p : Problem} {G : MinGates} {pruning : Bool} (hin : MinimizerInput p m)
    (hG : ∀ is, G.gp.prunedProblem (fun i => p.problem.getD i []) m G.fuel = some is → ∀ i ∈ is, i < p.problem.length)
    (hi1 : ∀ i ∈ is1, i.Plain) (hi2 : ∀ i ∈ is2, i.Plain)
    (he : minimizeModel p G pruning minimal project is1 is2 (Sys.new b) m = some r) :
    ∃ (F : CNF) (S : Nat → Bool),
      (pruning = true → ∃ is, G.gp.prunedProblem (fun i => p.problem.getD i []) m G.fuel = some is ∧ F = clausesAt p is) ∧
      (pruning = false → F = p.problem) ∧
      (∀ l, l ∈ r.getMinimizedModelLiterals ↔ l.var < p.nVars ∧ S l.var = true ∧
        (project = true → (G.gp.gates l.var).out = none) ∧ l.trueIn m.assignment) ∧
      ∀ c ∈ F, ∃ l ∈ c, l.var < p.nVars ∧ S l.var = true ∧ l.trueIn m.assignment := by
  unfold minimizeModel at he
  obtain ⟨F, h0, he⟩ := Option.bind_eq_some_iff.1 he
  obtain ⟨H, h1, h2⟩ := Option.bind_eq_some_iff.1 he
  obtain ⟨ls, h3, rfl⟩ := Option.map_eq_some_iff.1 h2
  have hF : (pruning = true → ∃ is, G.gp.prunedProblem (fun i => p.problem.getD i []) m G.fuel = some is ∧ F = clausesAt p is) ∧
      (pruning = false → F = p.problem) ∧ ∀ c ∈ F, c ∈ p.problem := by
    cases pruning with
    | false =>
      simp only [Bool.false_eq_true, if_false, Option.some.injEq] at h0
      exact ⟨by simp, fun _ => h0.symm, fun c hc => h0 ▸ hc⟩
    | true =>
      simp only [if_true] at h0
      obtain ⟨is, k1, rfl⟩ := Option.map_eq_some_iff.1 h0
      refine ⟨fun _ => ⟨is, k1, rfl⟩, by simp, fun c hc => ?_⟩
      obtain ⟨i, hi, rfl⟩ := List.mem_map.1 hc
      rw [BlockList.getD_lt (hG is k1 i hi)]
      exact List.getElem_mem _
  obtain ⟨hH, hne⟩ := hitting_of_purify (fun c hc => hin.vars c (hF.2.2 c hc)) hin.proper (fun c hc => hin.sat c (hF.2.2 c hc)) h1
  obtain ⟨S, rfl, k1, -⟩ := iterative_spec hH hne hi1 hi2 h3
  refine ⟨F, S, hF.1, hF.2.1, fun l => ?_, fun c hc => ?_⟩
  · have e : (if project = true then (((List.range p.nVars).filter S).map pos).filter (fun l => (G.gp.gates l.var).out.isNone)
        else ((List.range p.nVars).filter S).map pos) =
        ((List.range p.nVars).filter fun v => S v && (!project || (G.gp.gates v).out.isNone)).map pos := by
      cases project with
      | false => simp
      | true => simp [List.filter_map, List.filter_filter, Function.comp_def, Bool.and_comm]
    rw [e, mem_translate hin.proper hin.fresh]
    · simp only [List.mem_filter, List.mem_range, Bool.and_eq_true, Bool.or_eq_true, Bool.not_eq_true', Option.isNone_iff_eq_none]
      cases project <;> simp [and_assoc]
    · intro v hv
      exact hin.total v (List.mem_range.1 (List.mem_filter.1 hv).1)
  · obtain ⟨d, hd, hcd⟩ := (purify_spec hin.proper h1).1 c hc
    obtain ⟨v, hv, hS, hvd⟩ := k1 d hd
    obtain ⟨k, hk, ht, e⟩ := (hcd _).1 hvd
    have e : v = k.var := congrArg Lit.var e
    subst e
    exact ⟨k, hk, hv, hS, ht⟩

/-- The assignment of a model, with some value where it has none. -/
def SolverResult.assign (m : SolverResult) : Assign := fun v => (m.assignment v).getD false

theorem MinimizerInput.holds {p : Problem} (hin : MinimizerInput p m) {l : Lit} (hl : l.var < p.nVars) :
    l.trueIn m.assignment ↔ l.holds m.assign := by
  have := hin.total l.var hl
  unfold Lit.trueIn Lit.holds SolverResult.assign
  cases hx : m.assignment l.var with
  | none => exact (this hx).elim
  | some y => cases y <;> cases l.sign <;> simp

theorem prunedProblem_start (G : GateProblem) (cls : Nat → Clause) (m : SolverResult) :
    PruneInv G cls m (G.rootLiterals cls).reverse (fun _ => false) G.roots where
  closed l h1 _ := by
    rcases h1 with ⟨i, hi, hl⟩ | ⟨w, h1, _⟩
    · exact .inr (List.mem_reverse.2 (mem_litSet.2 (List.mem_flatMap.2 ⟨i, hi, hl⟩)))
    · simp at h1
  stack l hl := by
    obtain ⟨i, hi, hl⟩ := List.mem_flatMap.1 (mem_litSet.1 (List.mem_reverse.1 hl))
    exact .inl ⟨i, hi, hl⟩
  entered v hv := by simp at hv
  kept i := by simp [GateProblem.Kept]

/-- **C53.** The minimised model is part of the model, and it can be completed: with or without pruning, with
or without projection to the inputs, for every choice of the heuristics and every interruption of the solver.
Missing: analyses with holistic checks, for which it is wrong (`C53_holistic_fails`). -/
theorem C53_completable_partial (f : CNF) (gm : GateMethod) (hm : gm.Sound) (hol : gm.holistic = false) (fuel fuel' count : Nat)
    (R : Analyzer) (pruning : Bool) :
    let p := Problem.empty.readClauses f
    p.nVars < fuel → Analyzer.analyze gm fuel count p = some R → MinimizerInput p m →
    (∀ i ∈ is1, i.Plain) → (∀ i ∈ is2, i.Plain) →
    minimizeModel p ⟨R.gp, fuel'⟩ pruning minimal project is1 is2 (Sys.new b) m = some r →
    (∀ l ∈ r.getMinimizedModelLiterals, l.trueIn m.assignment) ∧ Completable R.gp r.getMinimizedModelLiterals f := by
  intro p hf hR hin hi1 hi2 he
  obtain ⟨A, cur, order, rfl, h⟩ := analyze_result hm hf hR
  change MinimizerInput p m at hin
  have hne : [] ∉ p.problem := fun hx => by
    obtain ⟨l, hl, _⟩ := hin.sat [] hx
    simp at hl
  have hdef : ∀ v, (A.finish.gp.gates v).out = none ↔ v ∉ order := fun v => by
    rw [← h.defined_iff v]; exact Classical.not_not.symm
  have hlt : ∀ i, A.gp.Kept (fun _ => true) i ∨ i ∈ A.finish.gp.remainder → i < p.problem.length := by
    intro i hi
    refine List.mem_range.1 (h.part.mem_iff.1 ?_)
    have hat : ∀ v, i ∈ A.gp.at v → i ∈ order.flatMap A.gp.at := by
      intro v hv
      refine List.mem_flatMap.2 ⟨v, Classical.not_not.1 fun hn => ?_, hv⟩
      unfold GateProblem.at at hv
      rw [h.undef v hn] at hv
      simp at hv
    rcases hi with (hi | ⟨v, _, hi | hi⟩) | hi
    · simp [hi]
    · exact List.mem_append_left _ (List.mem_append_right _ (hat v (List.mem_append_left _ hi)))
    · exact List.mem_append_left _ (List.mem_append_right _ (hat v (List.mem_append_right _ hi.2)))
    · exact List.mem_append_right _ ((h.mem_remainder i).1 hi).1
  have hpr : ∀ is, A.finish.gp.prunedProblem (fun i => p.problem.getD i []) m fuel' = some is →
      ∃ vis acc, PruneInv A.gp (fun i => p.problem.getD i []) m [] vis acc ∧ is = acc ++ A.finish.gp.remainder := by
    intro is his
    obtain ⟨acc, h1, rfl⟩ := Option.map_eq_some_iff.1 his
    obtain ⟨vis, hv⟩ := pruneLoop_inv (prunedProblem_start A.finish.gp _ m) h1
    exact ⟨vis, acc, ⟨hv.closed, hv.stack, hv.entered, hv.kept⟩, rfl⟩
  obtain ⟨F, S, hF1, hF2, hS, hcov⟩ := minimize_cover hin (G := ⟨A.finish.gp, fuel'⟩) (fun is his i hi => by
    obtain ⟨vis, acc, hv, rfl⟩ := hpr is his
    refine hlt i ?_
    rcases List.mem_append.1 hi with hi | hi
    · refine .inl ?_
      rcases (hv.kept i).1 hi with h1 | ⟨v, _, h1⟩
      · exact .inl h1
      · exact .inr ⟨v, rfl, h1⟩
    · exact .inr hi) hi1 hi2 he
  refine ⟨fun l hl => ((hS l).1 hl).2.2.2, fun a ha => ?_⟩
  have ha' : ∀ l : Lit, l.var < p.nVars → S l.var = true → l.var ∉ order → l.holds m.assign → a l.var = m.assign l.var := by
    intro l hl hs ho hh
    have : l.holds a := ha l ((hS l).2 ⟨hl, hs, fun _ => (hdef _).2 ho, (hin.holds hl).2 hh⟩) ((hdef _).2 ho)
    unfold Lit.holds at this hh
    rw [this, hh]
  cases pruning with
  | true =>
    obtain ⟨is, his, rfl⟩ := hF1 rfl
    obtain ⟨vis, acc, hv, rfl⟩ := hpr is his
    obtain ⟨a', h1, h2⟩ := prune_complete h hol hv (M := m.assign) (keep := fun v => v < p.nVars ∧ S v = true)
      (fun l hl => (SolverResult.satisfies_iff hin.proper l).trans (hin.holds hl))
      (fun i hi => by
        obtain ⟨l, hl, k1, k2, k3⟩ := hcov _ (List.mem_map.2 ⟨i, List.mem_append.2 hi, rfl⟩)
        exact ⟨l, hl, ⟨k1, k2⟩, (hin.holds k1).1 k3⟩) hne (a := a) (fun v hv ho => by
        cases hx : m.assign v with
        | true => exact (ha' (pos v) hv.1 hv.2 ho (by simp [Lit.holds, hx])).trans hx
        | false => exact (ha' (neg v) hv.1 hv.2 ho (by simp [Lit.holds, hx])).trans hx)
    exact ⟨a', fun v hv => h1 v ((hdef v).1 hv), (C03_meaning f a').1 h2⟩
  | false =>
    have hF2 := hF2 rfl
    subst hF2
    refine ⟨fun v => if v ∈ order then m.assign v else a v, fun v hv => if_neg ((hdef v).1 hv), (C03_meaning f _).1 fun c hc => ?_⟩
    obtain ⟨l, hl, k1, k2, k3⟩ := hcov c hc
    refine ⟨l, hl, (holds_eq ?_).2 ((hin.holds k1).1 k3)⟩
    by_cases ho : l.var ∈ order
    · exact if_pos ho
    · rw [if_neg ho]
      exact ha' l k1 k2 ho ((hin.holds k1).1 k3)

/-- **C53 (termination).** The traversal of the gates ends: every gate is entered at most once, so it takes at
most as many steps as there are root literals and inputs of gates. -/
theorem C53_terminates (f : CNF) (gm : GateMethod) (hm : gm.Sound) (fuel count : Nat) (R : Analyzer) (m : SolverResult) :
    let p := Problem.empty.readClauses f
    let cls := fun i => p.problem.getD i []
    p.nVars < fuel → Analyzer.analyze gm fuel count p = some R →
    ∃ is, R.gp.prunedProblem cls m ((R.gp.rootLiterals cls).length + ((List.range p.nVars).map fun v => (R.gp.gates v).inp.length).sum)
      = some is := by
  intro p cls hf hR
  obtain ⟨A, cur, order, rfl, h⟩ := analyze_result hm hf hR
  obtain ⟨r, hr⟩ := pruneLoop_total (G := A.finish.gp) (m := m) (n := p.nVars)
    (fun v hv => h.orderLt v ((h.defined_iff v).1 hv))
    (fuel := (A.finish.gp.rootLiterals cls).length + ((List.range p.nVars).map fun v => (A.finish.gp.gates v).inp.length).sum)
    (ls := (A.finish.gp.rootLiterals cls).reverse) (vis := fun _ => false) (acc := A.finish.gp.roots) (by
      rw [List.length_reverse]
      unfold pruneWork
      simp)
  exact ⟨r ++ A.finish.gp.remainder, by unfold GateProblem.prunedProblem; rw [hr]; rfl⟩

end

/-! ### Examples -/

/-- A model given by a list of values. -/
def exResult (bs : List Bool) : SolverResult :=
  { SolverResult.new with status := LBool.T, model := bs.map fun b => if b then LBool.T else LBool.F }

/-- The conditions on the caller of the minimiser, as a check. -/
def minimizerInput (p : Problem) (m : SolverResult) : Bool :=
  (p.problem.all fun c => c.all fun l => decide (l.var < p.nVars)) && (m.model.all fun x => decide (LBool.Proper x)) &&
  ((List.range p.nVars).all fun v => (m.assignment v).isSome) &&
  (p.problem.all fun c => c.any fun l => decide (m.assignment l.var = some (!l.sign))) && m.minimizedModel.isEmpty

theorem minimizerInput_sound {p : Problem} {m : SolverResult} (h : minimizerInput p m = true) : MinimizerInput p m := by
  simp only [minimizerInput, Bool.and_eq_true, List.all_eq_true, List.any_eq_true, decide_eq_true_eq, List.isEmpty_iff] at h
  obtain ⟨⟨⟨⟨h1, h2⟩, h3⟩, h4⟩, h5⟩ := h
  exact ⟨h1, h2, fun v hv hn => by have := h3 v (List.mem_range.2 hv); rw [hn] at this; simp at this, h4, h5⟩

/-- A tree of implications: variable 1 needs 2 or 3, which need 4 and 5. -/
def exPrune : CNF := cnf [[1], [-1, 2, 3], [-2, 4], [-3, 5]]
def exPrunePatterns : GateMethod := ⟨true, false, false, fun _ _ => false⟩
def exPruneModel : SolverResult := exResult [true, true, false, true, false]

/-- With pruning and projection only variable 4 is left; the branch below variable 3 is not looked at. The
claim holds: whatever variable 5 is, if 4 is true then the other variables have values. -/
example : ∃ R r, Analyzer.analyze exPrunePatterns 10 2 (Problem.empty.readClauses exPrune) = some R ∧
    R.gp.prunedProblem (fun i => (Problem.empty.readClauses exPrune).problem.getD i []) exPruneModel 20 = some [0, 1, 2] ∧
    minimizeModel (Problem.empty.readClauses exPrune) ⟨R.gp, 20⟩ true false true [exSolveInput, exSolveInput] [] (Sys.new true) exPruneModel = some r ∧
    r.getMinimizedModelLiterals = [pos 3] ∧ Completable R.gp [pos 3] exPrune := by
  have h : ((Analyzer.analyze exPrunePatterns 10 2 (Problem.empty.readClauses exPrune)).bind fun R =>
      (minimizeModel (Problem.empty.readClauses exPrune) ⟨R.gp, 20⟩ true false true [exSolveInput, exSolveInput] [] (Sys.new true) exPruneModel).map
        fun r => (r.getMinimizedModelLiterals,
          R.gp.prunedProblem (fun i => (Problem.empty.readClauses exPrune).problem.getD i []) exPruneModel 20)) =
      some ([pos 3], some [0, 1, 2]) := by decide +kernel
  obtain ⟨R, h1, h2⟩ := Option.bind_eq_some_iff.1 h
  obtain ⟨r, h3, h4⟩ := Option.map_eq_some_iff.1 h2
  rw [Prod.mk.injEq] at h4
  refine ⟨R, r, h1, h4.2, h3, h4.1, ?_⟩
  have := C53_completable_partial exPrune exPrunePatterns (by simp [GateMethod.Sound, exPrunePatterns]) rfl 10 20 2 R true (by decide +kernel) h1
    (minimizerInput_sound (by decide +kernel)) (by simp [exSolveInput_plain]) (by simp) h3
  rw [h4.1] at this
  exact this.2

/-- The same literal does not cover the clauses: completion is really needed. -/
example : ¬ Covers [pos 3] exPrune := by
  intro h
  obtain ⟨l, hl, h1⟩ := h [pos 0] (by decide)
  rw [List.mem_singleton] at hl h1
  rw [hl] at h1
  exact absurd h1 (by decide)

/-! ### Finding: holistic checks -/

/-- Variable 1 needs "2 or 3 or 4" and "not 2, or 5". Variable 2 implies 6, and 6 without 7 implies 2;
variable 3 implies 7, and 7 excludes 6. -/
def exHolistic : CNF := cnf [[1], [-1, 2, 3, 4], [-1, -2, 5], [-2, 6], [2, -6, 7], [-3, 7], [-6, -7]]

/-- What the solver is asked about variable 2, with the clauses around its inputs. It is unsatisfiable. -/
def exHolisticQuery : CNF := cnf [[1], [-1, 2], [-3, 1], [3, -1, 2], [-4, 2], [-1, -2]]

theorem exHolisticQuery_unsat : ¬ Satisfiable exHolisticQuery := by
  rintro ⟨a, ha⟩
  have h1 := ha [pos 0] (by decide)
  have h2 := ha [neg 0, pos 1] (by decide)
  have h3 := ha [neg 0, neg 1] (by decide)
  simp only [SatClause, List.mem_cons, List.not_mem_nil, or_false, exists_eq_or_imp, exists_eq_left, Lit.holds] at h1 h2 h3
  simp_all

/-- All methods on; the solver answers UNSAT for that query. -/
def exHolisticMethod : GateMethod := ⟨true, true, true, fun _ F => decide (F = exHolisticQuery)⟩
def exHolisticModel : SolverResult := exResult [true, false, false, true, true, false, true]

/-- **C53, finding.** With holistic checks the result of the minimisation with pruning cannot always be
completed. The check accepts variable 2 as a gate because of clauses outside of the gate, and those clauses are
pruned. Here the literals 1, -2, 4 and 7 are left; with 4 and 6 true and 5 false no values of the outputs
satisfy the clauses. -/
theorem C53_holistic_fails : ∃ (f : CNF) (gm : GateMethod) (R : Analyzer) (m r : SolverResult) (is : List SolveInput),
    let p := Problem.empty.readClauses f
    gm.Sound ∧ Analyzer.analyze gm (p.nVars + 1) 1 p = some R ∧ MinimizerInput p m ∧ (∀ i ∈ is, i.Plain) ∧
    minimizeModel p ⟨R.gp, 20⟩ true false false is [] (Sys.new true) m = some r ∧
    ¬ Completable R.gp r.getMinimizedModelLiterals f := by
  have h : ((Analyzer.analyze exHolisticMethod ((Problem.empty.readClauses exHolistic).nVars + 1) 1 (Problem.empty.readClauses exHolistic)).bind fun R =>
      (minimizeModel (Problem.empty.readClauses exHolistic) ⟨R.gp, 20⟩ true false false [exSolveInput, exSolveInput, exSolveInput] [] (Sys.new true)
        exHolisticModel).map fun r => (r.getMinimizedModelLiterals, (List.range 7).map fun v => (R.gp.gates v).out.isNone)) =
      some ([pos 0, neg 1, pos 3, pos 6], [false, false, false, true, true, true, false]) := by decide +kernel
  obtain ⟨R, h1, h2⟩ := Option.bind_eq_some_iff.1 h
  obtain ⟨r, h3, h4⟩ := Option.map_eq_some_iff.1 h2
  rw [Prod.mk.injEq] at h4
  refine ⟨exHolistic, exHolisticMethod, R, exHolisticModel, r, [exSolveInput, exSolveInput, exSolveInput], ?_, h1,
    minimizerInput_sound (by decide +kernel), by simp [exSolveInput_plain], h3, ?_⟩
  · intro k F hF
    have : F = exHolisticQuery := by simpa [exHolisticMethod] using hF
    rw [this]
    exact exHolisticQuery_unsat
  · have hout := h4.2
    simp only [List.range, List.range.loop, List.map_cons, List.map_nil, List.cons.injEq, Option.isNone_iff_eq_none, and_true] at hout
    obtain ⟨g0, g1, g2, g3, g4, g5, g6⟩ := hout
    rw [h4.1]
    intro hc
    obtain ⟨a', e, hs⟩ := hc (fun v => v == 3 || v == 5) (by
      intro l hl ho
      simp only [List.mem_cons, List.not_mem_nil, or_false] at hl
      rcases hl with rfl | rfl | rfl | rfl
      · rw [ho] at g0; simp at g0
      · rw [ho] at g1; simp at g1
      · rfl
      · rw [ho] at g6; simp at g6)
    have e4 := e 4 g4
    have e5 := e 5 g5
    have c0 := hs [pos 0] (by decide)
    have c2 := hs [neg 0, neg 1, pos 4] (by decide)
    have c4 := hs [pos 1, neg 5, pos 6] (by decide)
    have c6 := hs [neg 5, neg 6] (by decide)
    simp only [SatClause, List.mem_cons, List.not_mem_nil, or_false, exists_eq_or_imp, exists_eq_left, Lit.holds] at c0 c2 c4 c6
    simp at e4 e5
    simp_all

end Candy
