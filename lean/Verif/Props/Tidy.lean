import Verif.Proofs.Tidy
import Verif.Props.Answers
import Verif.Props.Findings

/-!
# SAT answers in incremental use with preprocessing (C20, C23)

Any number of calls of `solve`, clauses and assumptions changing in between, every call with
subsumption and asymmetric reduction if it wants to. Excluded: variable elimination and inprocessing
(`C20_incremental_fails`, `C20_inprocessing_fails` show that the claims are false with them) and
calls that leave removed clauses uncollected (`C20_stale_fails`).
-/

namespace Candy

variable {F : CNF} {as : List Lit} {sys sys' : Sys} {res : Result}
variable {cfg : Config} {pre : List PreRound} {rounds : List Round}

/-- C20 (partial). After every tidy history, in every call of `solve` that eliminates nothing, the
reported assignment of a SAT answer satisfies every clause added so far and every assumption, and every
variable has a value. -/
theorem C20_simplifying_partial (h : TidyHistory F as sys)
    (hc : cfg.preprocessing = true → cfg.useElim = false)
    (hr : ∀ r ∈ rounds, r.Valid ∧ r.inprocess = none)
    (he : solve cfg pre rounds sys = some (sys', res)) (hs : res.status = some true) :
    PSat res.model F ∧ (∀ l ∈ as, l.trueIn res.model) ∧
      ∀ v < sys.sol.db.nVars, res.model v ≠ none := by
  have ho := h.toHistory.ok Usage.noInprocessing_valid
  have := (tidy_solve h.tidy hc (fun r hm => ⟨(hr r hm).1.choice, (hr r hm).2, (hr r hm).1.sort⟩)
    (by rw [ho.assumptions]; exact ho.bound) he).2 hs
  rw [ho.assumptions] at this
  exact this

/-- C23 (partial, same restriction). Definite answers depend only on the clauses added so far and the
assumptions of the call: two calls in arbitrary different tidy histories agree. -/
theorem C23_simplifying_partial {sys1 sys1' sys2 sys2' : Sys} {res1 res2 : Result}
    {cfg1 cfg2 : Config} {pre1 pre2 : List PreRound} {rounds1 rounds2 : List Round} {b1 b2 : Bool}
    (h1 : TidyHistory F as sys1) (h2 : TidyHistory F as sys2)
    (hc1 : cfg1.preprocessing = true → cfg1.useElim = false)
    (hc2 : cfg2.preprocessing = true → cfg2.useElim = false)
    (hr1 : ∀ r ∈ rounds1, r.Valid ∧ r.inprocess = none)
    (hr2 : ∀ r ∈ rounds2, r.Valid ∧ r.inprocess = none)
    (he1 : solve cfg1 pre1 rounds1 sys1 = some (sys1', res1))
    (he2 : solve cfg2 pre2 rounds2 sys2 = some (sys2', res2))
    (hs1 : res1.status = some b1) (hs2 : res2.status = some b2) :
    b1 = b2 ∧ (b1 = true ↔ Satisfiable (F ++ unitsOf as)) := by
  have key : ∀ {sys sys' : Sys} {res : Result} {cfg : Config} {pre : List PreRound}
      {rounds : List Round} {b : Bool}, TidyHistory F as sys →
      (cfg.preprocessing = true → cfg.useElim = false) →
      (∀ r ∈ rounds, r.Valid ∧ r.inprocess = none) →
      solve cfg pre rounds sys = some (sys', res) → res.status = some b →
      (b = true ↔ Satisfiable (F ++ unitsOf as)) := by
    intro sys sys' res cfg pre rounds b h hc hr he hs
    have hany := h.toHistory.toAny Usage.noInprocessing_valid
    cases b with
    | false =>
      simp only [Bool.false_eq_true, false_iff]
      exact C21_unsat_under_assumptions hany (fun r hm => (hr r hm).1) he hs
    | true =>
      simp only [true_iff]
      obtain ⟨m1, m2, _⟩ := C20_simplifying_partial h hc hr he hs
      refine PSat.satisfiable (m := res.model) ?_
      intro c hc
      rcases List.mem_append.1 hc with hc | hc
      · exact m1 c hc
      · simp only [unitsOf, List.mem_map] at hc
        obtain ⟨l, hl, rfl⟩ := hc
        exact ⟨l, by simp, m2 l hl⟩
  have k1 := key h1 hc1 hr1 he1 hs1
  have k2 := key h2 hc2 hr2 he2 hs2
  refine ⟨?_, k1⟩
  have : b1 = true ↔ b2 = true := k1.trans k2.symm
  cases b1 <;> cases b2 <;> simp_all

/-- The clauses of `C20_stale_fails`, but every call collects what preprocessing removes: preprocessing
removes and shortens clauses in the second and third call, the third call answers SAT with the unit
clause `4` respected, and the fourth call notices the contradiction. -/
def tidyRun : Option (Sys × Result × Result) :=
  (fdCall fdRound (Sys.new true) fdStale[0]).bind fun x1 =>
  (fdCall fdRound x1.1 fdStale[1]).bind fun x2 =>
  (fdCall fdRound x2.1 fdStale[2]).bind fun x3 =>
  (fdCall fdRound x3.1 fdStale[3]).map fun x4 => (x3.1, x3.2, x4.2)

example : ∃ (sys : Sys) (F : CNF), TidyHistory F [] sys ∧ F.length = 6 ∧
    sys.sol.db.clauses.length = 2 ∧
    ∃ sys' res, solve fdOff [exPreSorted] [fdRound] (sys.init 4 (cnf [[-2]])) = some (sys', res) ∧
      res.status = some true ∧ res.model 2 = some true := by
  have hrun : (tidyRun.map fun x => (x.2.1.status, x.2.1.model 3, x.2.2.status,
      x.1.sol.db.clauses.length)) = some (some true, some true, some false, 2) := by decide +kernel
  have hrun2 : (tidyRun.bind fun x =>
      (solve fdOff [exPreSorted] [fdRound] (x.1.init 4 (cnf [[-2]]))).map fun y =>
        (y.2.status, y.2.model 2)) = some (some true, some true) := by decide +kernel
  obtain ⟨x, hx, h2⟩ := Option.map_eq_some_iff.1 hrun
  rw [hx] at hrun2
  obtain ⟨⟨sys', res⟩, h3, h4⟩ := Option.map_eq_some_iff.1 hrun2
  unfold tidyRun at hx
  obtain ⟨⟨sys1, _⟩, h1, hx⟩ := Option.bind_eq_some_iff.1 hx
  obtain ⟨⟨sys2, _⟩, h2', hx⟩ := Option.bind_eq_some_iff.1 hx
  obtain ⟨⟨sys3, res3⟩, h3', hx⟩ := Option.bind_eq_some_iff.1 hx
  obtain ⟨x4, _, rfl⟩ := Option.map_eq_some_iff.1 hx
  have step : ∀ {F : CNF} {sys sys' : Sys} {res : Result} {G : CNF}, TidyHistory F [] sys → WfCNF 4 G →
      fdCall fdRound sys G = some (sys', res) → TidyHistory (F ++ G) [] sys' := by
    intro F sys sys' res G h hG he
    refine (h.add 4 G (fun c hc => ⟨fun l hl => Nat.lt_of_lt_of_le ((hG c hc).1 l hl)
      (Nat.le_max_right _ _), (hG c hc).2⟩)).solve fdOff [exPreSorted] [fdRound]
      ⟨fun _ => rfl, fun _ => ⟨_, rfl, rfl⟩, ?_⟩ he
    intro q hq; simp at hq; subst hq; exact ⟨fdRound_valid, rfl⟩
  have hh := step (step (step (.new true) (wfCNF_of (by decide)) h1) (wfCNF_of (by decide)) h2')
    (wfCNF_of (by decide)) h3'
  simp only [Prod.mk.injEq] at h2 h4
  exact ⟨sys3, _, hh, by decide, h2.2.2.2, sys', res, h3, h4.1, h4.2⟩

end Candy
