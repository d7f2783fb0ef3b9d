import Verif.Proofs.FirstSolve
import Verif.Props.Findings
import Verif.Props.Answers

/-!
# SAT answers with preprocessing (C20, C23)

The first call of `solve` on a solver, with subsumption, asymmetric reduction and variable
elimination. Later calls and a variable that is assigned after its elimination are excluded; the
second exclusion is necessary (`C20_full_statement_fails`).
-/

namespace Candy

variable {F : CNF} {as : List Lit} {sys sys' : Sys} {res : Result}
variable {cfg : Config} {pre : List PreRound} {rounds : List Round}

/-- Clauses are added and assumptions set, `solve` was not called yet. -/
def Usage.fresh : Usage where
  solve _ _ := False
  round _ := False
  flag b := b = true

theorem Usage.fresh_valid : Usage.fresh.Valid := fun _ h => h.elim

theorem freshOk (h : History .fresh F as sys) : FreshOk F sys := by
  induction h with
  | new recalc => exact ⟨plain_new recalc, by simp [Sys.new, DB.new]⟩
  | add h nv G flag hf hG ih => simp only [Usage.fresh] at hf; subst hf; exact ih.init hG
  | assume h as' hb ih => exact ⟨ih.plain.assume as', ih.zero⟩
  | solve h cfg pre rounds hc hr he ih => exact hc.elim

/-- What the library and the schedule of clause reduction guarantee for the first call of `solve`:
sorting returns the elements it was given, branching literals are unassigned decision variables,
no inprocessing (the default), and the first round triggers clause reduction
(`nReduceCalls_ = 0`, ReduceDB.h:95). -/
structure FirstCall (pre : List PreRound) (rounds : List Round) : Prop where
  preValid : ∀ r ∈ pre, r.Valid
  roundsValid : ∀ r ∈ rounds, r.Valid ∧ r.inprocess = none
  first : ∀ r, rounds.head? = some r → r.trigger = true

/-- No variable is both eliminated and assigned when preprocessing ends. -/
def NoAssignedEliminated (cfg : Config) (pre : List PreRound) (sys : Sys) : Prop :=
  ∀ sys1, solveEntry cfg pre sys = some sys1 →
    ∀ l ∈ sys1.sol.trail.stack, l.var ∉ sys1.ve.vars

/-- C20 (partial). First call of `solve`, any preprocessing that leaves no eliminated variable
assigned: the reported assignment of a SAT answer satisfies every clause given (including those
variable elimination and subsumption removed) and every assumption, and every variable has a
value. -/
theorem C20_first_solve_partial (h : History .fresh F as sys) (hc : FirstCall pre rounds)
    (hno : NoAssignedEliminated cfg pre sys)
    (he : solve cfg pre rounds sys = some (sys', res)) (hs : res.status = some true) :
    PSat res.model F ∧ (∀ l ∈ as, l.trueIn res.model) ∧
      ∀ v < sys.sol.db.nVars, res.model v ≠ none := by
  have ho := h.ok Usage.fresh_valid
  have hf := freshOk h
  have hr : ∀ r ∈ rounds, r.Plain :=
    fun r hm => ⟨(hc.roundsValid r hm).1.choice, (hc.roundsValid r hm).2, (hc.roundsValid r hm).1.sort⟩
  have hb : ∀ l ∈ sys.sol.trail.assumptions, l.var < sys.sol.db.nVars := by
    rw [ho.assumptions]; exact ho.bound
  cases hp : cfg.preprocessing with
  | false =>
    have := (plain_solve hf.plain hp hr hb he).2 hs
    rw [ho.assumptions] at this
    exact this
  | true =>
    have := first_solve hf hp hc.preValid hr hc.first hb (by
      intro sys1 h1 _ v hv
      rintro ⟨l, hl, rfl⟩
      refine hno { sys1 with sol := { sys1.sol with watch := resetWatch sys1.sol.db } } ?_ l hl hv
      unfold solveEntry
      simp only [hp, if_true, h1, Option.map_some]) he hs
    rw [ho.assumptions] at this
    exact this

/-- One round of preprocessing never leaves an eliminated variable assigned, unless it refutes the
clauses. -/
theorem noElim_of_one (h : History .fresh F as sys) (hv : ∀ r ∈ pre, r.Valid)
    (h1 : pre.length ≤ 1) {sys1 : Sys} (he : process cfg pre (solveStart sys) = some sys1)
    (hne : sys1.sol.db.hasEmpty = false) : NoElim sys1 :=
  (process_recon (solveStart_spec (freshOk h).plain.ok).1 (pristine_start (freshOk h)) hv he hne).2 h1

theorem noElim_of_off (h : History .fresh F as sys) (ho : cfg.useElim = false) {sys1 : Sys}
    (he : process cfg pre (solveStart sys) = some sys1) : NoElim sys1 := by
  intro v hv
  rw [process_off ho he, (plain_start (freshOk h).plain).2.1] at hv
  simp at hv

/-- C20 (partial). First call of `solve` with preprocessing that runs at most one round, or with
any number of rounds and elimination switched off (`opt_use_elim = false`). -/
theorem C20_first_solve_rounds_partial (h : History .fresh F as sys) (hc : FirstCall pre rounds)
    (h1 : pre.length ≤ 1 ∨ cfg.useElim = false ∨ cfg.preprocessing = false)
    (he : solve cfg pre rounds sys = some (sys', res)) (hs : res.status = some true) :
    PSat res.model F ∧ (∀ l ∈ as, l.trueIn res.model) ∧
      ∀ v < sys.sol.db.nVars, res.model v ≠ none := by
  have ho := h.ok Usage.fresh_valid
  have hf := freshOk h
  have hr : ∀ r ∈ rounds, r.Plain :=
    fun r hm => ⟨(hc.roundsValid r hm).1.choice, (hc.roundsValid r hm).2, (hc.roundsValid r hm).1.sort⟩
  have hb : ∀ l ∈ sys.sol.trail.assumptions, l.var < sys.sol.db.nVars := by
    rw [ho.assumptions]; exact ho.bound
  cases hp : cfg.preprocessing with
  | false =>
    have := (plain_solve hf.plain hp hr hb he).2 hs
    rw [ho.assumptions] at this
    exact this
  | true =>
    have := first_solve hf hp hc.preValid hr hc.first hb (by
      intro sys1 hs1 hne
      rcases h1 with h1 | h1 | h1
      · exact noElim_of_one h hc.preValid h1 hs1 hne
      · exact noElim_of_off h h1 hs1
      · rw [hp] at h1; simp at h1) he hs
    rw [ho.assumptions] at this
    exact this

/-- C23 (partial). The definite answer of a first call depends only on the clauses and the
assumptions, not on options, heuristics, or the order in which clauses were added: it is SAT iff
the clauses are satisfiable under the assumptions. -/
theorem C23_first_answer_partial (h : History .fresh F as sys) (hc : FirstCall pre rounds)
    (h1 : pre.length ≤ 1 ∨ cfg.useElim = false ∨ cfg.preprocessing = false) {b : Bool}
    (he : solve cfg pre rounds sys = some (sys', res)) (hs : res.status = some b) :
    b = true ↔ Satisfiable (F ++ unitsOf as) := by
  have hany := h.toAny Usage.fresh_valid
  cases b with
  | false =>
    simp only [Bool.false_eq_true, false_iff]
    exact C21_unsat_under_assumptions hany (fun r hm => (hc.roundsValid r hm).1) he hs
  | true =>
    simp only [true_iff]
    obtain ⟨m1, m2, _⟩ := C20_first_solve_rounds_partial h hc h1 he hs
    refine PSat.satisfiable (m := res.model) ?_
    intro c hc
    rcases List.mem_append.1 hc with hc | hc
    · exact m1 c hc
    · simp only [unitsOf, List.mem_map] at hc
      obtain ⟨l, hl, rfl⟩ := hc
      exact ⟨l, by simp, m2 l hl⟩

/-! ## Non-vacuity -/

/-- Five variables; preprocessing eliminates some of them. -/
def exElimF : CNF := cnf [[1, 2, 3], [-1, 4], [-2, -3, 4], [-4, 5], [2, -5, 1]]

theorem exElimF_add : History .fresh exElimF [lit 3] (((Sys.new true).init 5 exElimF true).assume [lit 3]) := by
  have h := (History.new (u := .fresh) true).add 5 exElimF true rfl (wfCNF_of (by decide))
  exact h.assume [lit 3] (by decide)

theorem exInsert_mem {n : Nat → Nat} {v x : Nat} : ∀ {ws : List Nat}, x ∈ exInsert n v ws →
    x = v ∨ x ∈ ws
  | [], h => by simp [exInsert] at h; exact Or.inl h
  | w :: ws, h => by
    rw [exInsert] at h
    split at h
    · simp at h ⊢; exact h
    · rcases List.mem_cons.1 h with h | h
      · simp [h]
      · rcases exInsert_mem h with h | h
        · exact Or.inl h
        · exact Or.inr (by simp [h])

theorem exOrder_mem {n : Nat → Nat} {x : Nat} {vs : List Nat} (h : x ∈ exOrder n vs) : x ∈ vs := by
  have : ∀ (vs acc : List Nat), x ∈ vs.foldl (fun acc v => exInsert n v acc) acc →
      x ∈ vs ∨ x ∈ acc := by
    intro vs
    induction vs with
    | nil => intro acc h; exact Or.inr h
    | cons v vs ih =>
      intro acc h
      rcases ih _ h with h | h
      · exact Or.inl (by simp [h])
      · rcases exInsert_mem h with h | h
        · exact Or.inl (by simp [h])
        · exact Or.inr h
  simpa using this vs [] h

example : FirstCall [exPreSorted] [fdRound] where
  preValid r hr := by
    simp at hr; subst hr
    intro f xs x hx
    exact exOrder_mem hx
  roundsValid r hr := by simp at hr; subst hr; exact ⟨fdRound_valid, rfl⟩
  first r hr := by simp at hr; subst hr; rfl

/-- The call answers SAT after eliminating variables. -/
example : ((solveEntry {} [exPreSorted] (((Sys.new true).init 5 exElimF true).assume [lit 3])).map
    fun s => decide (s.ve.vars ≠ [] ∧ s.sol.db.hasEmpty = false)) = some true := by decide

example : (answer (solve {} [exPreSorted] [fdRound]
    (((Sys.new true).init 5 exElimF true).assume [lit 3]))).map (·.1) = some (some true) := by decide

end Candy
