import Verif.Model.Tidy
import Verif.Proofs.Examples
import Verif.Proofs.History

/-!
# Machine-checked counterexamples: places where the code violates a property
-/

namespace Candy

/-- The round of search used here: clause reduction is triggered at its start. -/
def fdRound : Round := ⟨true, none, id, 50, fun _ => exChoice⟩

theorem fdRound_valid : fdRound.Valid := ⟨fun _ => exChoice_valid, fun _ _ h => h⟩

/-- Decidable form of `PSat`. -/
def psatb (m : PAssign) (f : CNF) : Bool := f.all fun c => c.any fun l => m l.var == some (!l.sign)

theorem psatb_iff {m : PAssign} {f : CNF} : psatb m f = true ↔ PSat m f := by
  simp [psatb, PSat, Lit.trueIn, List.all_eq_true, List.any_eq_true]

/-- Eight clauses over six variables. -/
def fdF : CNF := cnf [[-3, -4, 1], [3, -4, -6], [-1, -6], [-3, 4], [-3, 5], [-1, 3], [6], [3, -2]]

def fdRun : Option (Sys × Result) :=
  solve {} [exPreSorted, exPreSorted] [fdRound] ((Sys.new true).init 6 fdF true)

/-- C20 as stated is false of the code: with the default options and a single call, preprocessing
assigns a variable it has already eliminated (a removed clause is still watched), and the model that
is reported with the SAT answer violates a clause of the input. -/
theorem C20_full_statement_fails : ∃ (F : CNF) (sys sys' : Sys) (cfg : Config) (pre : List PreRound)
    (rounds : List Round) (res : Result),
    History .any F [] sys ∧ (∀ r ∈ rounds, r.Valid ∧ r.inprocess = none) ∧ cfg = {} ∧
    solve cfg pre rounds sys = some (sys', res) ∧ res.status = some true ∧ ¬ PSat res.model F := by
  have hrun : (fdRun.map fun x => (x.2.status, psatb x.2.model fdF)) = some (some true, false) := by
    decide
  obtain ⟨⟨sys', res⟩, h1, h2⟩ := Option.map_eq_some_iff.1 hrun
  simp only [Prod.mk.injEq] at h2
  have hh : History .any fdF [] ((Sys.new true).init 6 fdF true) := by
    have h := (History.new (u := .any) true).add 6 fdF true trivial (wfCNF_of (by decide))
    simpa using h
  refine ⟨fdF, _, sys', {}, _, _, res, hh, ?_, rfl, h1, h2.1, ?_⟩
  · intro r hr
    simp at hr; subst hr
    exact ⟨fdRound_valid, rfl⟩
  · rw [← psatb_iff, h2.2]; simp

/-! ### Restoring an eliminated variable -/

/-- The second round of preprocessing finds nothing to do. -/
def exPreIdle : PreRound := ⟨100, fun a b => decide (a < b), exOrder, false, false, false⟩

def fdUndoF : CNF := cnf [[1, 2], [-1, 3], [-2, 4]]
def fdUndoG : CNF := cnf [[-1], [-4]]

def fdUndo1 : Option (Sys × Result) :=
  solve {} [exPreSorted, exPreIdle] [fdRound] ((Sys.new true).init 4 fdUndoF true)

def fdUndo2 : Option (Sys × Result) :=
  fdUndo1.bind fun x => solve {} [exPreSorted, exPreIdle] [fdRound] (x.1.init 4 fdUndoG true)

theorem fdUndo_unsat : ¬ Satisfiable (fdUndoF ++ fdUndoG) := by
  rintro ⟨a, ha⟩
  have h1 := ha ([1, 2].map lit) (by decide)
  have h3 := ha ([-2, 4].map lit) (by decide)
  have h4 := ha ([-1].map lit) (by decide)
  have h5 := ha ([-4].map lit) (by decide)
  simp [lit, SatClause, Lit.holds] at h1 h3 h4 h5
  simp_all

/-- C20 and C23 fail for incremental use with default options: the first call eliminates variable 1,
then variable 2. The clauses added next mention variable 1, whose clauses are restored, but one of
them mentions variable 2, which stays eliminated: its clause with variable 4 is missing. The second
call answers SAT although the clauses are unsatisfiable. -/
theorem C20_incremental_fails : ∃ (F : CNF) (sys sys' : Sys) (pre : List PreRound)
    (rounds : List Round) (res : Result), History .noInprocessing F [] sys ∧
    (∀ r ∈ rounds, r.Valid ∧ r.inprocess = none) ∧ solve {} pre rounds sys = some (sys', res) ∧
    res.status = some true ∧ ¬ Satisfiable F := by
  have hrun : (fdUndo2.map fun x => x.2.status) = some (some true) := by decide +kernel
  obtain ⟨⟨sys', res⟩, h1, h2⟩ := Option.map_eq_some_iff.1 hrun
  obtain ⟨⟨sys, res0⟩, h3, h4⟩ := Option.bind_eq_some_iff.1 h1
  have hv : ∀ r ∈ [fdRound], r.Valid ∧ r.inprocess = none := by
    intro r hr; simp at hr; subst hr; exact ⟨fdRound_valid, rfl⟩
  have hh : History .noInprocessing fdUndoF [] ((Sys.new true).init 4 fdUndoF true) := by
    have h := (History.new (u := .noInprocessing) true).add 4 fdUndoF true trivial
      (wfCNF_of (by decide))
    simpa using h
  have hh1 := hh.solve {} [exPreSorted, exPreIdle] [fdRound] trivial hv h3
  have hw : WfCNF (max sys.sol.db.nVars 4) fdUndoG := by
    intro c hc
    simp [fdUndoG, cnf, lit] at hc
    rcases hc with rfl | rfl
    · exact ⟨fun l hl => by simp at hl; subst hl; show 0 < _; omega, by decide⟩
    · exact ⟨fun l hl => by simp at hl; subst hl; show 3 < _; omega, by decide⟩
  exact ⟨_, _, sys', _, _, res, hh1.add 4 fdUndoG true trivial hw, hv, h4, h2, fdUndo_unsat⟩

/-! ### Removed clauses that are not collected before the next call -/

def fdOff : Config := { useElim := false }

/-- A round that does not trigger clause reduction. -/
def fdLater : Round := ⟨false, none, id, 50, fun _ => exChoice⟩

/-- The clauses added before each of four calls of `solve`. -/
def fdStale : List CNF :=
  [cnf [[1, 2, 3]], cnf [[2, 3, 4], [-2, 4], [4], [-3, 4]], cnf [[-1, 2, 3]], cnf [[-4]]]

/-- One call of `solve` after adding clauses over four variables. -/
def fdCall (r : Round) (sys : Sys) (G : CNF) : Option (Sys × Result) :=
  solve fdOff [exPreSorted] [r] (sys.init 4 G true)

/-- The four calls; the second one does not collect the clauses preprocessing removed, the third one
does. -/
def fdStaleRun : Option (Sys × Result) :=
  (fdCall fdRound (Sys.new true) fdStale[0]).bind fun x1 =>
  (fdCall fdLater x1.1 fdStale[1]).bind fun x2 =>
  (fdCall fdRound x2.1 fdStale[2]).bind fun x3 => fdCall fdLater x3.1 fdStale[3]

theorem fdCall_history {F : CNF} {sys sys' : Sys} {res : Result} {G : CNF} {r : Round}
    (h : History .simplifying F [] sys) (hr : r.Valid ∧ r.inprocess = none) (hG : WfCNF 4 G)
    (he : fdCall r sys G = some (sys', res)) :
    History .simplifying (F ++ G) [] (sys.init 4 G true) ∧ History .simplifying (F ++ G) [] sys' := by
  have h1 := h.add 4 G true rfl
    (fun c hc => ⟨fun l hl => Nat.lt_of_lt_of_le ((hG c hc).1 l hl) (Nat.le_max_right _ _), (hG c hc).2⟩)
  refine ⟨h1, h1.solve fdOff [exPreSorted] [r] rfl ?_ he⟩
  intro q hq; simp at hq; subst hq; exact hr

/-- The first three calls when only the first round of the first call reduces the clause database, which
is what `ReduceDB::trigger_reduce` does as long as there are few conflicts (ReduceDB.h:94-102). -/
def fdStaleRun3 : Option (Sys × Result) :=
  (fdCall fdRound (Sys.new true) fdStale[0]).bind fun x1 =>
  (fdCall fdLater x1.1 fdStale[1]).bind fun x2 => fdCall fdLater x2.1 fdStale[2]

/-- C20 fails for incremental use even without variable elimination and inprocessing: the model of the
third call violates a unit clause that was added before the second call. -/
theorem C20_stale_model_fails : ∃ (F : CNF) (sys sys' : Sys) (cfg : Config) (pre : List PreRound)
    (rounds : List Round) (res : Result), History .simplifying F [] sys ∧ cfg.useElim = false ∧
    (∀ r ∈ rounds, r.Valid ∧ r.inprocess = none ∧ r.trigger = false) ∧
    solve cfg pre rounds sys = some (sys', res) ∧
    res.status = some true ∧ ∃ l, [l] ∈ F ∧ res.model l.var = some l.sign := by
  have hrun : (fdStaleRun3.map fun x => (x.2.status, x.2.model 3)) =
      some (some true, some false) := by decide +kernel
  obtain ⟨⟨sys3, res⟩, h, h2⟩ := Option.map_eq_some_iff.1 hrun
  obtain ⟨⟨sys1, _⟩, h1, h⟩ := Option.bind_eq_some_iff.1 h
  obtain ⟨⟨sys2, _⟩, h2', h⟩ := Option.bind_eq_some_iff.1 h
  simp only [Prod.mk.injEq] at h2
  have v1 : fdRound.Valid ∧ fdRound.inprocess = none := ⟨fdRound_valid, rfl⟩
  have v2 : fdLater.Valid ∧ fdLater.inprocess = none := ⟨⟨fun _ => exChoice_valid, fun _ _ h => h⟩, rfl⟩
  have hh := (fdCall_history (fdCall_history (fdCall_history (History.new true)
    v1 (wfCNF_of (by decide)) h1).2 v2 (wfCNF_of (by decide)) h2').2 v2 (wfCNF_of (by decide)) h).1
  refine ⟨_, _, sys3, fdOff, [exPreSorted], [fdLater], res, hh, rfl, ?_, h, h2.1, lit 4, by decide, h2.2⟩
  intro q hq; simp at hq; subst hq; exact ⟨v2.1, v2.2, rfl⟩

/-- C20 and C23 fail for incremental use even without variable elimination and inprocessing:
preprocessing also works with clauses that an earlier call removed but did not collect yet. Such a
clause, the unit clause `4`, removes the clause that replaced it; then the solver has lost the unit
and answers SAT when its negation is added. -/
theorem C20_stale_fails : ∃ (F : CNF) (sys sys' : Sys) (cfg : Config) (pre : List PreRound)
    (rounds : List Round) (res : Result), History .simplifying F [] sys ∧ cfg.useElim = false ∧
    (∀ r ∈ rounds, r.Valid ∧ r.inprocess = none) ∧ solve cfg pre rounds sys = some (sys', res) ∧
    res.status = some true ∧ ¬ Satisfiable F := by
  have hrun : (fdStaleRun.map fun x => x.2.status) = some (some true) := by decide +kernel
  obtain ⟨⟨sys4, res⟩, h, h2⟩ := Option.map_eq_some_iff.1 hrun
  obtain ⟨⟨sys1, _⟩, h1, h⟩ := Option.bind_eq_some_iff.1 h
  obtain ⟨⟨sys2, _⟩, h2', h⟩ := Option.bind_eq_some_iff.1 h
  obtain ⟨⟨sys3, _⟩, h3, h⟩ := Option.bind_eq_some_iff.1 h
  have v1 : fdRound.Valid ∧ fdRound.inprocess = none := ⟨fdRound_valid, rfl⟩
  have v2 : fdLater.Valid ∧ fdLater.inprocess = none := ⟨⟨fun _ => exChoice_valid, fun _ _ h => h⟩, rfl⟩
  have hh := (fdCall_history (fdCall_history (fdCall_history (fdCall_history (History.new true)
    v1 (wfCNF_of (by decide)) h1).2 v2 (wfCNF_of (by decide)) h2').2 v1 (wfCNF_of (by decide)) h3).2
    v2 (wfCNF_of (by decide)) h).1
  refine ⟨_, _, sys4, fdOff, [exPreSorted], [fdLater], res, hh, rfl, ?_, h, h2, ?_⟩
  · intro q hq; simp at hq; subst hq; exact v2
  · rintro ⟨a, ha⟩
    have u1 := ha ([4].map lit) (by decide)
    have u2 := ha ([-4].map lit) (by decide)
    revert u1 u2
    simp [lit, SatClause, Lit.holds]

end Candy
