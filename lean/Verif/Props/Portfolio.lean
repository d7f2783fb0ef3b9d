import Verif.Proofs.Portfolio
import Verif.Props.Static
import Verif.Props.Inprocessing

/-!
# C58: the answers of a portfolio of threads

With `-threads=n` the program starts `n` solvers with different options on the same formula, takes the answer of
the first that ends, and prints its model. The statements below hold for every schedule: `PfReach` are the states
reached by some interleaving of the single reads and writes of the shared variables.
-/

namespace Candy

/-- A result as in `ThreadRun`, of a solver without inprocessing, and with one round of preprocessing or without
variable elimination (the restriction of C20 and C23). -/
inductive SafeRun (p : Problem) : Result → Prop
  | dynamic (recalc : Bool) (cfg : Config) (pre : List PreRound) (rounds : List Round) (sys : Sys) (res : Result)
      (hc : FirstCall pre rounds) (h1 : pre.length ≤ 1 ∨ cfg.useElim = false ∨ cfg.preprocessing = false)
      (he : solve cfg pre rounds ((Sys.new recalc).init p.nVars p.problem) = some (sys, res)) : SafeRun p res
  | static (recalc : Bool) (cfg : Config) (rounds : List Round) (s : St) (res : Result)
      (hr : ∀ r ∈ rounds, r.StOk)
      (he : sSolve cfg rounds ((St.new recalc).init p.nVars p.problem) = some (s, res)) : SafeRun p res

theorem SafeRun.thread {p : Problem} {res : Result} (h : SafeRun p res) : ThreadRun p res := by
  cases h with
  | dynamic recalc cfg pre rounds sys _ hc h1 he => exact .dynamic recalc cfg pre rounds sys _ (fun r hr => (hc.roundsValid r hr).1) he
  | static recalc cfg rounds s _ hr he => exact .static recalc cfg rounds s _ hr he

theorem thread_history (u : Usage) (hf : u.flag true) (recalc : Bool) (f : CNF) :
    let p := Problem.empty.readClauses f
    History u p.problem [] ((Sys.new recalc).init p.nVars p.problem) ∧
      ((Sys.new recalc).init p.nVars p.problem).sol.db.nVars = p.nVars := by
  intro p
  have hw : WfCNF (max (Sys.new recalc).sol.db.nVars p.nVars) p.problem := fun c hc =>
    ⟨fun l hl => by have := (readClauses_wf f c hc).1 l hl; exact Nat.lt_of_lt_of_le this (Nat.le_max_right _ _),
      (readClauses_wf f c hc).2⟩
  refine ⟨(History.new (u := u) recalc).add p.nVars p.problem true hf hw, ?_⟩
  have h := (History.new (u := .any) recalc).ok Usage.any_valid
  rw [(init_sound h.ok (nv := p.nVars) (G := p.problem) (lem := true) hw).2.1]
  simp [Sys.new, DB.new]

theorem thread_shistory (recalc : Bool) (f : CNF) :
    let p := Problem.empty.readClauses f
    SHistory p.problem [] ((St.new recalc).init p.nVars p.problem) :=
  (SHistory.new recalc).add _ _ fun c hc =>
    ⟨fun l hl => by have := (readClauses_wf f c hc).1 l hl; exact Nat.lt_of_lt_of_le this (Nat.le_max_right _ _),
      (readClauses_wf f c hc).2⟩

theorem thread_snVars (recalc : Bool) (f : CNF) :
    let p := Problem.empty.readClauses f
    ((St.new recalc).init p.nVars p.problem).sol.db.nVars = p.nVars := by
  intro p
  have hw : WfCNF (max (St.new recalc).sol.db.nVars p.nVars) p.problem := fun c hc =>
    ⟨fun l hl => by have := (readClauses_wf f c hc).1 l hl; exact Nat.lt_of_lt_of_le this (Nat.le_max_right _ _),
      (readClauses_wf f c hc).2⟩
  rw [((SHistory.new recalc).ok.base.init hw).2]
  simp [St.new, DB.new]

theorem not_satisfiable_read {f : CNF} (h : ¬ Satisfiable (Problem.empty.readClauses f).problem) : ¬ Satisfiable f :=
  fun ⟨a, ha⟩ => h ⟨a, (C03_meaning f a).2 ha⟩

theorem ThreadRun.unsat {f : CNF} {res : Result} (h : ThreadRun (Problem.empty.readClauses f) res) (hs : res.status = some false) :
    ¬ Satisfiable f := by
  cases h with
  | dynamic recalc cfg pre rounds sys _ hr he =>
    exact not_satisfiable_read (C19_unsat_sound (thread_history .any trivial recalc f).1 hr he hs)
  | static recalc cfg rounds s _ hr he =>
    have := (C56_static_unsat_partial (thread_shistory recalc f) hr he hs).2.2
    refine not_satisfiable_read ?_
    simpa [unitsOf] using this

theorem SafeRun.sat {f : CNF} {res : Result} (h : SafeRun (Problem.empty.readClauses f) res) (hs : res.status = some true) :
    PSat res.model (Problem.empty.readClauses f).problem ∧ ∀ v < (Problem.empty.readClauses f).nVars, res.model v ≠ none := by
  cases h with
  | dynamic recalc cfg pre rounds sys _ hc h1 he =>
    obtain ⟨h2, h3⟩ := thread_history .fresh rfl recalc f
    obtain ⟨m1, _, m3⟩ := C20_first_solve_rounds_partial h2 hc h1 he hs
    exact ⟨m1, fun v hv => m3 v (by rw [h3]; exact hv)⟩
  | static recalc cfg rounds s _ hr he =>
    obtain ⟨m1, _, m3⟩ := C56_static_sat_partial (thread_shistory recalc f) hr he hs
    refine ⟨m1, fun v hv => m3 v ?_⟩
    rw [thread_snVars]
    exact hv

theorem SafeRun.satisfiable {f : CNF} {res : Result} (h : SafeRun (Problem.empty.readClauses f) res) (hs : res.status = some true) :
    Satisfiable f := by
  obtain ⟨a, ha⟩ := (h.sat hs).1.satisfiable
  exact ⟨a, (C03_meaning f a).1 ha⟩

section
variable {f : CNF} {n : Nat} {pm : Bool} {runs : Nat → Result → Prop} {s : PfState}

/-- **C58 (UNSATISFIABLE).** For every number of threads, all options of all threads and every schedule, also with
interruption at any time: if the program prints `s UNSATISFIABLE` or its exit status is 20, the formula is
unsatisfiable. -/
theorem C58_unsat (hruns : ∀ i res, runs i res → ThreadRun (Problem.empty.readClauses f) res)
    (h : PfReach n pm (Problem.empty.readClauses f) runs s)
    (hs : "s UNSATISFIABLE".toList ∈ s.out ∨ s.main = .exited 20) : ¬ Satisfiable f := by
  have ha : s.Answered runs (some false) := hs.elim (h.inv.line false) (h.inv.code false)
  obtain ⟨i, res, h1, _, h3⟩ := ha
  exact (hruns i res h1).unsat h3

/-- **C58 (SATISFIABLE), partial.** The same for `s SATISFIABLE` and exit status 10. Missing: threads with
inprocessing, which all threads but the first use (`C58_inprocessing_fails`), and repeated preprocessing with
variable elimination. -/
theorem C58_sat_partial (hruns : ∀ i res, runs i res → SafeRun (Problem.empty.readClauses f) res)
    (h : PfReach n pm (Problem.empty.readClauses f) runs s)
    (hs : "s SATISFIABLE".toList ∈ s.out ∨ s.main = .exited 10) : Satisfiable f := by
  have ha : s.Answered runs (some true) := hs.elim (h.inv.line true) (h.inv.code true)
  obtain ⟨i, res, h1, _, h3⟩ := ha
  exact (hruns i res h1).satisfiable h3

theorem safe_modelLine {res : Result} (h : SafeRun (Problem.empty.readClauses f) res) (hs : res.status = some true) :
    ∃ l, modelLine (Problem.empty.readClauses f) (res.vector (Problem.empty.readClauses f).nVars) = some l := by
  obtain ⟨t, h1, _⟩ := valueTexts_eq (h.sat hs).2 (List.range (Problem.empty.readClauses f).nVars) (by simp)
  exact ⟨_, by rw [modelLine, h1]; rfl⟩

theorem safe_sure (hruns : ∀ i res, runs i res → SafeRun (Problem.empty.readClauses f) res)
    (h : PfReach n pm (Problem.empty.readClauses f) runs s) (hi : s.interrupted = false) :
    ∃ b, (b = true ↔ Satisfiable f) ∧ PfSure b s := by
  classical
  refine ⟨decide (Satisfiable f), by simp, h.sure (fun i res hr => ?_) (fun i res hr ht => safe_modelLine (hruns i res hr) ht) hi⟩
  cases hst : res.status with
  | none => exact .inl rfl
  | some b =>
    right
    cases b with
    | false => rw [decide_eq_false ((hruns i res hr).thread.unsat hst)]
    | true => rw [decide_eq_true ((hruns i res hr).satisfiable hst)]

/-- **C58 (verdict), partial.** As long as the program is not interrupted: it never accesses a missing result, and
when it ends, it has printed one status line, and this line and the exit status tell whether the formula is
satisfiable. Missing: as for `C58_sat_partial`; and with an interruption the claim is false (`C58_exit_fails`,
`C58_crash_fails`, `C58_lost_fails`). -/
theorem C58_verdict_partial (hruns : ∀ i res, runs i res → SafeRun (Problem.empty.readClauses f) res)
    (h : PfReach n pm (Problem.empty.readClauses f) runs s) (hi : s.interrupted = false) :
    s.main ≠ .crashed ∧ ∀ code, s.main = .exited code →
      (code = 10 ∧ Satisfiable f ∧ s.out.filter (fun l => l.head? == some 's') = ["s SATISFIABLE".toList]) ∨
      (code = 20 ∧ ¬ Satisfiable f ∧ s.out.filter (fun l => l.head? == some 's') = ["s UNSATISFIABLE".toList]) := by
  obtain ⟨b, hb, hS⟩ := safe_sure hruns h hi
  refine ⟨hS.ok, fun code hc => ?_⟩
  have hl := hS.late (by rw [hc]; rfl)
  have hcode := hS.code code hc
  cases b with
  | true => exact .inl ⟨hcode, hb.1 rfl, hl⟩
  | false => exact .inr ⟨hcode, (fun k => Bool.false_ne_true (hb.2 k)), hl⟩

/-- **C58 (models), partial.** As long as the program is not interrupted, a line with a model contains the literals
of a model of the formula. Missing: as for `C58_sat_partial`; the line may also be missing (`C58_no_model_fails`). -/
theorem C58_model_partial (hruns : ∀ i res, runs i res → SafeRun (Problem.empty.readClauses f) res)
    (h : PfReach n pm (Problem.empty.readClauses f) runs s) (hi : s.interrupted = false) (hsat : Satisfiable f)
    (hsmall : ∀ c ∈ f, ∀ l ∈ c, l.var < 2 ^ 30) {l : List Char} (hl : l ∈ s.out) (hv : l.head? = some 'v') :
    ∃ (a : Assign) (m : Nat) (txt : List Char), Sat a f ∧ (∀ c ∈ f, ∀ x ∈ c, x.var < m) ∧
      ClauseText false txt ((List.range m).map fun v => ⟨v, !a v⟩) ∧ l = 'v' :: ' ' :: txt := by
  obtain ⟨i, res, h1, h2, h3⟩ := h.inv.model l hl hv
  have hst : res.status = some true := by
    cases hst : res.status with
    | none =>
      have := h.inv.unknown i res h3 hst
      rw [hi] at this; cases this
    | some b =>
      cases b with
      | true => rfl
      | false => exact ((hruns i res h1).thread.unsat hst hsat).elim
  obtain ⟨m1, m3⟩ := (hruns i res h1).sat hst
  obtain ⟨t, t1, t2⟩ := valueTexts_eq m3 (List.range (Problem.empty.readClauses f).nVars) (by simp)
  have hsm := readClauses_small hsmall
  obtain ⟨txt, t3, t4⟩ := clauseLine_text (c := (List.range (Problem.empty.readClauses f).nVars).map
    fun v => ⟨v, !((res.model v).getD false)⟩) (by
      intro l hl
      obtain ⟨v, hv, rfl⟩ := List.mem_map.1 hl
      have := List.mem_range.1 hv
      show v < _
      omega)
  rw [t3] at t2
  have t5 : t ++ [' ', '0'] = ' ' :: txt := by
    have : (t ++ [' ', '0']) ++ ['\n'] = (' ' :: txt) ++ ['\n'] := by simpa using t2
    exact List.append_cancel_right this
  have hline : l = 'v' :: ' ' :: txt := by
    rw [modelLine, t1, Option.map_some, t5] at h2
    simpa using h2.symm
  refine ⟨fun v => (res.model v).getD false, (Problem.empty.readClauses f).nVars, txt, ?_, (C03_nVars f).1, t4, hline⟩
  rw [← C03_meaning]
  intro c hcm
  obtain ⟨x, hx, h3⟩ := m1 c hcm
  refine ⟨x, hx, ?_⟩
  unfold Lit.trueIn at h3
  show (res.model x.var).getD false = _
  rw [h3]; rfl

/-- **C58 (progress).** Once a thread has ended, or the program is interrupted, the loop in which `main` waits is
left with the next step. -/
theorem C58_progress (h : PfReach n pm (Problem.empty.readClauses f) runs s) (hw : s.main = .wait)
    (he : s.interrupted = true ∨ ∃ i res, s.threads i = .ended res) :
    pfMain n pm (Problem.empty.readClauses f) s = some { s with main := .status1 } := by
  unfold pfMain
  simp only [hw]
  rw [if_neg]
  rintro ⟨h1, h2⟩
  rcases he with he | ⟨i, res, he⟩
  · rw [h2] at he; cases he
  · exact h.inv.wrote h2 i res (.inr he) h1

end

/-! ## A run without interruption, and findings

The formula is `[[x0]]`; both threads run the solver without preprocessing, `pfNone` is what it returns when it is
interrupted before the search. -/

/-- The result of a solver thread for `[[x0]]`. -/
def pfYes : Result :=
  ((solve { preprocessing := false } [] [exRestart] ((Sys.new false).init 1 [[⟨0, false⟩]])).map (·.2)).getD ⟨none, fun _ => none, []⟩

/-- The result of an interrupted solver thread for `[[x0]]`. -/
def pfNone : Result :=
  ((solve { preprocessing := false } [] [] ((Sys.new false).init 1 [[⟨0, false⟩]])).map (·.2)).getD ⟨none, fun _ => none, []⟩

theorem map_getD_eq {α β : Type} {o : Option (α × β)} {d : β} (h : (o.map (·.2)).isSome = true) :
    ∃ x, o = some (x, (o.map (·.2)).getD d) := by
  cases o with
  | none => cases h
  | some y => exact ⟨y.1, rfl⟩

theorem pfF_read : Problem.empty.readClauses [[⟨0, false⟩]] = ⟨[[⟨0, false⟩]], 1⟩ := by decide +kernel

theorem pfYes_safe : SafeRun (Problem.empty.readClauses [[⟨0, false⟩]]) pfYes := by
  obtain ⟨sys, h⟩ := map_getD_eq (o := solve { preprocessing := false } [] [exRestart] ((Sys.new false).init 1 [[⟨0, false⟩]]))
    (d := ⟨none, fun _ => none, []⟩) (by decide +kernel)
  refine .dynamic false { preprocessing := false } [] [exRestart] sys _ ?_ (.inr (.inr rfl)) (by rw [pfF_read]; exact h)
  refine ⟨by simp, ?_, ?_⟩
  · intro r hr
    cases List.mem_singleton.1 hr
    exact ⟨exRestart_valid, rfl⟩
  · intro r hr
    cases hr
    rfl

theorem pfNone_safe : SafeRun (Problem.empty.readClauses [[⟨0, false⟩]]) pfNone := by
  obtain ⟨sys, h⟩ := map_getD_eq (o := solve { preprocessing := false } [] [] ((Sys.new false).init 1 [[⟨0, false⟩]]))
    (d := ⟨none, fun _ => none, []⟩) (by decide +kernel)
  refine .dynamic false { preprocessing := false } [] [] sys _ ?_ (.inr (.inr rfl)) (by rw [pfF_read]; exact h)
  exact ⟨by simp, by simp, by simp⟩

/-- What thread 0 and thread 1 return. -/
def pfRuns (i : Nat) (res : Result) : Prop := (i = 0 ∧ res = pfYes) ∨ (i = 1 ∧ res = pfNone)

theorem pfRuns_safe (i : Nat) (res : Result) (h : pfRuns i res) : SafeRun (Problem.empty.readClauses [[⟨0, false⟩]]) res := by
  rcases h with ⟨_, rfl⟩ | ⟨_, rfl⟩
  · exact pfYes_safe
  · exact pfNone_safe

/-- Both threads are created and solve. -/
def pfBegin : List PfAct := [.main, .register 0, .main, .main, .register 1, .main, .main]

/-- What an observer sees. -/
structure PfView where
  out : List (List Char)
  main : MainPc
  interrupted : Bool
deriving DecidableEq

def PfState.view (s : PfState) : PfView := ⟨s.out, s.main, s.interrupted⟩

theorem pf_witness {as : List PfAct} {v : PfView} (ha : ∀ i res, PfAct.answer i res ∈ as → pfRuns i res)
    (h : (pfExec 2 true ⟨[[⟨0, false⟩]], 1⟩ as .start).map PfState.view = some v) :
    ∃ s, PfReach 2 true (Problem.empty.readClauses [[⟨0, false⟩]]) pfRuns s ∧ s.view = v := by
  obtain ⟨s, h1, h2⟩ := Option.map_eq_some_iff.1 h
  refine ⟨s, ?_, h2⟩
  rw [pfF_read]
  exact pfExec_reach .start ha h1

/-- Thread 0 answers, its model is printed. -/
example : ∃ s, PfReach 2 true (Problem.empty.readClauses [[⟨0, false⟩]]) pfRuns s ∧
    s.view = ⟨["s SATISFIABLE".toList, "v 1 0".toList], .exited 10, false⟩ :=
  pf_witness (as := pfBegin ++ [.answer 0 pfYes, .check 0, .writeResult 0, .writeSolver 0,
      .main, .main, .main, .main, .main, .main, .main])
    (by simp [pfBegin, pfRuns]) (by decide +kernel)

/-- **C58 finding.** Without any interruption, with the option to print models set, the program prints
`s SATISFIABLE` and exits with 10, but prints no model: `solver` is written after `result`, and `main` goes on as
soon as `result` is written. -/
theorem C58_no_model_fails : ∃ s, PfReach 2 true (Problem.empty.readClauses [[⟨0, false⟩]]) pfRuns s ∧
    s.view = ⟨["s SATISFIABLE".toList], .exited 10, false⟩ :=
  pf_witness (as := pfBegin ++ [.answer 0 pfYes, .check 0, .writeResult 0, .main, .main, .main, .main])
    (by simp [pfBegin, pfRuns]) (by decide +kernel)

/-- **C58 finding.** After an interruption the program prints `s SATISFIABLE` but its exit status is 0: the
interrupted thread replaces the answer by `l_Undef`. -/
theorem C58_exit_fails : ∃ s, PfReach 2 true (Problem.empty.readClauses [[⟨0, false⟩]]) pfRuns s ∧
    s.view = ⟨["s SATISFIABLE".toList], .exited 0, true⟩ :=
  pf_witness (as := pfBegin ++ [.interrupt, .answer 0 pfYes, .answer 1 pfNone, .check 0, .check 1, .writeResult 0,
      .main, .main, .writeResult 1, .main, .main, .main])
    (by simp [pfBegin, pfRuns]) (by decide +kernel)

/-- **C58 finding.** After an interruption the program prints `s SATISFIABLE` and then reads the model of a solver
that has none (beyond the end of an empty vector). -/
theorem C58_crash_fails : ∃ s, PfReach 2 true (Problem.empty.readClauses [[⟨0, false⟩]]) pfRuns s ∧
    s.view = ⟨["s SATISFIABLE".toList], .crashed, true⟩ :=
  pf_witness (as := pfBegin ++ [.interrupt, .answer 0 pfYes, .answer 1 pfNone, .check 0, .check 1, .writeResult 1,
      .writeResult 0, .writeSolver 0, .writeSolver 1, .main, .main, .main, .main, .main, .main])
    (by simp [pfBegin, pfRuns]) (by decide +kernel)

/-- **C58 finding.** A thread has answered, has stored its answer and has ended, and yet the program prints
`s INDETERMINATE`. -/
theorem C58_lost_fails : ∃ s, PfReach 2 true (Problem.empty.readClauses [[⟨0, false⟩]]) pfRuns s ∧
    s.view = ⟨["s INDETERMINATE".toList], .exited 0, true⟩ ∧ s.threads 0 = .ended pfYes ∧ pfYes.status = some true := by
  have h : ((pfExec 2 true ⟨[[⟨0, false⟩]], 1⟩ (pfBegin ++ [.interrupt, .answer 0 pfYes, .answer 1 pfNone, .check 0,
      .check 1, .writeResult 0, .writeSolver 0, .writeResult 1, .main, .main, .main, .main, .main, .main, .main, .main]) .start).map
      fun s => (s.view, match s.threads 0 with | .ended _ => true | _ => false)) =
      some (⟨["s INDETERMINATE".toList], .exited 0, true⟩, true) := by decide +kernel
  obtain ⟨s, h1, h2⟩ := Option.map_eq_some_iff.1 h
  have h3 : PfReach 2 true (Problem.empty.readClauses [[⟨0, false⟩]]) pfRuns s := by
    rw [pfF_read]
    exact pfExec_reach .start (by simp [pfBegin, pfRuns]) h1
  simp only [Prod.mk.injEq] at h2
  refine ⟨s, h3, h2.1, ?_, by decide +kernel⟩
  have h4 := h2.2
  split at h4
  · rename_i res he
    have := h3.inv.may 0 res (by rw [he]; rfl)
    rcases this with ⟨_, rfl⟩ | ⟨h, _⟩
    · exact he
    · cases h
  · cases h4

/-- The answer of the thread with inprocessing for `inpF`. -/
def inpYes : Result :=
  ((solve inpCfg [] [inpRound0, inpRound1] ((Sys.new false).init (Problem.empty.readClauses inpF).nVars (Problem.empty.readClauses inpF).problem)).map (·.2)).getD ⟨none, fun _ => none, []⟩

/-- **C58 finding.** With a thread that uses inprocessing, as all but the first do, the program prints
`s SATISFIABLE` and exits with 10 for an unsatisfiable formula, without any interruption. -/
theorem C58_inprocessing_fails : ∃ (f : CNF) (runs : Nat → Result → Prop) (s : PfState),
    (∀ i res, runs i res → ThreadRun (Problem.empty.readClauses f) res) ∧
    PfReach 2 false (Problem.empty.readClauses f) runs s ∧ ¬ Satisfiable f ∧
    s.view = ⟨["s SATISFIABLE".toList], .exited 10, false⟩ := by
  obtain ⟨sys, h⟩ := map_getD_eq (o := solve inpCfg [] [inpRound0, inpRound1] ((Sys.new false).init (Problem.empty.readClauses inpF).nVars (Problem.empty.readClauses inpF).problem))
    (d := ⟨none, fun _ => none, []⟩) (by decide +kernel)
  have hv : ((pfExec 2 false (Problem.empty.readClauses inpF) (pfBegin ++ [.answer 1 inpYes, .check 1, .writeResult 1, .writeSolver 1,
      .main, .main, .main, .main, .main, .main]) .start).map PfState.view) =
      some ⟨["s SATISFIABLE".toList], .exited 10, false⟩ := by decide +kernel
  obtain ⟨s, h1, h2⟩ := Option.map_eq_some_iff.1 hv
  refine ⟨inpF, fun i res => i = 1 ∧ res = inpYes, s, ?_, ?_, inpF_unsat, h2⟩
  · rintro i res ⟨_, rfl⟩
    refine .dynamic false inpCfg [] [inpRound0, inpRound1] sys _ ?_ h
    intro r hr
    simp only [List.mem_cons, List.not_mem_nil, or_false] at hr
    rcases hr with rfl | rfl
    · exact exRestart_valid
    · exact inpRound1_valid
  · exact pfExec_reach .start (by simp [pfBegin]) h1

end Candy
