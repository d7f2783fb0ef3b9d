import Verif.Proofs.History
import Verif.Proofs.Examples

/-!
# Answers of the solver (C16, C19-C23, C29)

Each theorem ranges over all histories of API calls (`History`), i.e. any interleaving of adding
clauses, setting assumptions and solving, with any configuration of preprocessing, clause
reduction, inprocessing, branching and restarts. `F` is the list of all clauses given so far and
`as` the assumptions in force.
-/

namespace Candy

variable {F : CNF} {as : List Lit} {sys sys' : Sys} {res : Result}
variable {cfg : Config} {pre : List PreRound} {rounds : List Round}

private theorem unsatOk (h : History .any F as sys) (hr : ∀ r ∈ rounds, r.Valid)
    (he : solve cfg pre rounds sys = some (sys', res)) (hs : res.status = some false) :
    UnsatOk F as res.conflict := by
  have ih := h.ok Usage.any_valid
  obtain ⟨_, _, _, _, s5⟩ := solve_sound ih.ok hr (by rw [ih.assumptions]; exact ih.bound) he
  have := (s5 hs).1
  rw [ih.assumptions] at this
  exact this

theorem not_sat_of_core {core : Clause} (he : Entails F core) :
    ¬ Satisfiable (F ++ unitsOf (core.map Lit.neg)) := by
  rintro ⟨a, ha⟩
  obtain ⟨hF, hu⟩ := sat_append.1 ha
  obtain ⟨l, hl, hh⟩ := he a hF
  obtain ⟨m, hm, hm'⟩ := hu [l.neg] (by
    simp only [unitsOf, List.mem_map]
    exact ⟨l.neg, ⟨l, hl, rfl⟩, rfl⟩)
  simp at hm; subst hm
  simp [Lit.holds, Lit.neg] at hh hm'
  rw [hh] at hm'
  simp at hm'

theorem sat_units_mono {xs ys : List Lit} (h : ∀ l ∈ xs, l ∈ ys)
    (hs : Satisfiable (F ++ unitsOf ys)) : Satisfiable (F ++ unitsOf xs) := by
  obtain ⟨a, ha⟩ := hs
  refine ⟨a, sat_append.2 ⟨(sat_append.1 ha).1, ?_⟩⟩
  intro c hc
  simp only [unitsOf, List.mem_map] at hc
  obtain ⟨l, hl, rfl⟩ := hc
  exact (sat_append.1 ha).2 _ (by simp only [unitsOf, List.mem_map]; exact ⟨l, h l hl, rfl⟩)

/-! ## C16: the reported core -/

/-- C16. The conflict reported with an UNSAT answer consists of negations of assumptions, is a
consequence of the clauses given, and the clauses together with just the named assumptions are
unsatisfiable. -/
theorem C16_core_correct (h : History .any F as sys) (hr : ∀ r ∈ rounds, r.Valid)
    (he : solve cfg pre rounds sys = some (sys', res)) (hs : res.status = some false) :
    (∀ l ∈ res.conflict, l.neg ∈ as) ∧ Entails F res.conflict ∧
      ¬ Satisfiable (F ++ unitsOf (res.conflict.map Lit.neg)) := by
  rcases unsatOk h hr he hs with ⟨h1, h2⟩ | ⟨_, h2, h3⟩
  · rw [h1]
    have : Entails F [] := fun a ha => (h2 ⟨a, ha⟩).elim
    exact ⟨by simp, this, not_sat_of_core this⟩
  · exact ⟨h3, h2, not_sat_of_core h2⟩

/-! ## C19: UNSAT answers -/

/-- C19. An UNSAT answer without assumptions means that the clauses given so far have no
satisfying assignment. -/
theorem C19_unsat_sound (h : History .any F [] sys) (hr : ∀ r ∈ rounds, r.Valid)
    (he : solve cfg pre rounds sys = some (sys', res)) (hs : res.status = some false) :
    ¬ Satisfiable F := by
  rcases unsatOk h hr he hs with ⟨_, h2⟩ | ⟨h1, _, h3⟩
  · exact h2
  · cases hc : res.conflict with
    | nil => exact (h1 hc).elim
    | cons l ls =>
      have := h3 l (by rw [hc]; simp)
      simp at this

/-! ## C21: UNSAT under assumptions -/

/-- C21. An UNSAT answer under assumptions means that the clauses together with the assumptions
are unsatisfiable. -/
theorem C21_unsat_under_assumptions (h : History .any F as sys) (hr : ∀ r ∈ rounds, r.Valid)
    (he : solve cfg pre rounds sys = some (sys', res)) (hs : res.status = some false) :
    ¬ Satisfiable (F ++ unitsOf as) := by
  obtain ⟨h1, _, h3⟩ := C16_core_correct h hr he hs
  intro hsat
  refine h3 (sat_units_mono ?_ hsat)
  intro l hl
  obtain ⟨m, hm, rfl⟩ := List.mem_map.1 hl
  exact h1 m hm

/-- C21. The solver becomes permanently unsatisfiable (`isInConflictingState`) only if the clauses
alone are unsatisfiable. -/
theorem C21_permanent_only_if_unsat (h : History .any F as sys)
    (he : sys.sol.db.hasEmpty = true) : ¬ Satisfiable F :=
  not_sat_of_entails_nil ((h.ok Usage.any_valid).ok.db.empt he)

/-- C21. No poisoning: whatever was solved before, under whatever assumptions, a call is not
answered UNSAT if the clauses have a model that agrees with the assumptions of this call. -/
theorem C21_no_poisoning (h : History .any F as sys) (hr : ∀ r ∈ rounds, r.Valid)
    (he : solve cfg pre rounds sys = some (sys', res)) (hs : Satisfiable (F ++ unitsOf as)) :
    res.status ≠ some false :=
  fun hf => C21_unsat_under_assumptions h hr he hf hs

/-- C21. With an empty reported conflict the clauses alone are unsatisfiable. -/
theorem C21_empty_conflict (h : History .any F as sys) (hr : ∀ r ∈ rounds, r.Valid)
    (he : solve cfg pre rounds sys = some (sys', res)) (hs : res.status = some false)
    (hc : res.conflict = []) : ¬ Satisfiable F := by
  rcases unsatOk h hr he hs with ⟨_, h2⟩ | ⟨h1, _, _⟩
  · exact h2
  · exact (h1 hc).elim

/-! ## C22: interruption -/

/-- C22. A call that ends without answer reports neither a model nor a conflict. -/
theorem C22_unknown_is_empty (h : History .any F as sys) (hr : ∀ r ∈ rounds, r.Valid)
    (he : solve cfg pre rounds sys = some (sys', res)) (hs : res.status = none) :
    res.conflict = [] ∧ ∀ v, res.model v = none := by
  have ih := h.ok Usage.any_valid
  obtain ⟨_, _, _, s4, _⟩ := solve_sound ih.ok hr (by rw [ih.assumptions]; exact ih.bound) he
  refine ⟨s4 (by rw [hs]; simp), ?_⟩
  rw [solve_eq] at he
  obtain ⟨sys1, _, he⟩ := Option.bind_eq_some_iff.1 he
  obtain ⟨x, _, he⟩ := Option.bind_eq_some_iff.1 he
  unfold solveEnd at he
  split at he
  · simp only [Option.some.injEq, Prod.mk.injEq] at he
    obtain ⟨_, rfl⟩ := he
    exact fun v => rfl
  · simp only [Option.some.injEq, Prod.mk.injEq] at he
    obtain ⟨_, rfl⟩ := he
    exact fun v => rfl
  · split at he
    · simp at he
    · simp only [Option.some.injEq, Prod.mk.injEq] at he
      obtain ⟨_, rfl⟩ := he
      simp at hs

/-- C22. If the termination callback fires before the first round of search, the answer is
'unknown' unless preprocessing has already refuted the clauses. -/
theorem C22_immediate_stop (h : History .any F as sys)
    (he : solve cfg pre [] sys = some (sys', res)) :
    res.status = none ∨ (res.status = some false ∧ ¬ Satisfiable F) := by
  cases hs : res.status with
  | none => exact Or.inl rfl
  | some b =>
    rw [solve_eq] at he
    obtain ⟨sys1, h1, he⟩ := Option.bind_eq_some_iff.1 he
    have ih := h.ok Usage.any_valid
    obtain ⟨a1, _, _, _⟩ := solveEntry_spec ih.ok h1
    cases hE : sys1.sol.db.hasEmpty with
    | false =>
      simp only [hE, Bool.false_eq_true, if_false, solveLoop, Option.bind_some, solveEnd,
        Option.some.injEq, Prod.mk.injEq] at he
      obtain ⟨_, rfl⟩ := he
      simp at hs
    | true =>
      simp only [hE, if_true, Option.bind_some, solveEnd, Option.some.injEq, Prod.mk.injEq] at he
      obtain ⟨_, rfl⟩ := he
      simp at hs
      exact Or.inr ⟨by rw [hs], not_sat_of_entails_nil (a1.db.empt hE)⟩

/-- C22. After a call that was interrupted at any point, a later call (with further clauses and
other assumptions in between) is still sound. -/
theorem C22_sound_after_interruption {F' : CNF} {as' : List Lit} {sys1 sys2 sys3 : Sys}
    {res1 res2 : Result} {cfg' : Config} {pre' : List PreRound} {rounds' : List Round}
    {nv : Nat} {flag : Bool}
    (h : History .any F as sys) (hr : ∀ r ∈ rounds, r.Valid)
    (he : solve cfg pre rounds sys = some (sys1, res1)) (_ : res1.status = none)
    (hw : WfCNF (max sys1.sol.db.nVars nv) F')
    (hb : ∀ l ∈ as', l.var < (sys1.init nv F' flag).sol.db.nVars)
    (h2 : (sys1.init nv F' flag).assume as' = sys2) (hr' : ∀ r ∈ rounds', r.Valid)
    (he' : solve cfg' pre' rounds' sys2 = some (sys3, res2)) (hs : res2.status = some false) :
    ¬ Satisfiable (F ++ F' ++ unitsOf as') := by
  subst h2
  exact C21_unsat_under_assumptions
    (((h.solve cfg pre rounds trivial hr he).add nv F' flag trivial hw).assume as' hb) hr' he' hs

/-! ## C23: incremental use -/

/-- C23. A refutation of the clauses is final: after it, every later call on the same solver
answers UNSAT, in every continuation of the history. -/
theorem C23_refutation_is_final (h : History .any F as sys) (hE : sys.sol.db.hasEmpty = true) :
    (∀ cfg pre rounds sys' res, solve cfg pre rounds sys = some (sys', res) →
      res.status = some false ∧ res.conflict = [] ∧ sys'.sol.db.hasEmpty = true) ∧
    (∀ nv G flag, (sys.init nv G flag).sol.db.hasEmpty = true) ∧
    (∀ as', (sys.assume as').sol.db.hasEmpty = true) :=
  ⟨fun _ _ _ _ _ he => solve_hasEmpty (h.ok Usage.any_valid).ok hE he,
    fun _ _ _ => init_hasEmpty hE, fun _ => hE⟩

/-- C23. An UNSAT answer with empty conflict puts the solver in that final state. -/
theorem C23_unsat_sets_final (_ : History .any F as sys)
    (he : solve cfg pre rounds sys = some (sys', res)) (hs : res.status = some false)
    (hc : res.conflict = []) : sys'.sol.db.hasEmpty = true := by
  rw [solve_eq] at he
  obtain ⟨sys1, _, he⟩ := Option.bind_eq_some_iff.1 he
  obtain ⟨x, _, he⟩ := Option.bind_eq_some_iff.1 he
  unfold solveEnd at he
  split at he
  · simp only [Option.some.injEq, Prod.mk.injEq] at he
    obtain ⟨_, rfl⟩ := he
    simp at hs
  · simp only [Option.some.injEq, Prod.mk.injEq] at he
    obtain ⟨rfl, rfl⟩ := he
    simp only at hc ⊢
    simp [hc, DB.emptyClause]
  · split at he
    · simp at he
    · simp only [Option.some.injEq, Prod.mk.injEq] at he
      obtain ⟨_, rfl⟩ := he
      simp at hs

/-! ## C20: SAT answers -/

theorem plainOk (h : History .plain F as sys) : PlainOk F sys := by
  induction h with
  | new recalc => exact plain_new recalc
  | add h nv G flag hf hG ih => simp only [Usage.plain] at hf; subst hf; exact plain_init ih hG
  | assume h as' hb ih => exact ih.assume as'
  | solve h cfg pre rounds hc hr he ih =>
    have ho := h.ok Usage.plain_valid
    exact (plain_solve ih hc (fun r hm => ⟨(hr r hm).1.choice, (hr r hm).2, (hr r hm).1.sort⟩)
      (by rw [ho.assumptions]; exact ho.bound) he).1

/-- C20 (partial). If solving answers SAT then the reported assignment satisfies every clause given
so far and every assumption, and every variable has a value.

Restriction: the history uses no pre- or inprocessing (`opt_preprocessing = false`,
`opt_inprocessing = 0`) and adds clauses with the default flag of `Solver::init`. With
preprocessing the claim is false, see `Props/Findings.lean`. -/
theorem C20_sat_model_partial (h : History .plain F as sys) (hc : cfg.preprocessing = false)
    (hr : ∀ r ∈ rounds, r.Valid ∧ r.inprocess = none)
    (he : solve cfg pre rounds sys = some (sys', res)) (hs : res.status = some true) :
    PSat res.model F ∧ (∀ l ∈ as, l.trueIn res.model) ∧
      ∀ v < sys.sol.db.nVars, res.model v ≠ none := by
  have ho := h.ok Usage.plain_valid
  have := (plain_solve (plainOk h) hc
    (fun r hm => ⟨(hr r hm).1.choice, (hr r hm).2, (hr r hm).1.sort⟩)
    (by rw [ho.assumptions]; exact ho.bound) he).2 hs
  rw [ho.assumptions] at this
  exact this

/-- C23 (partial, same restriction as C20). Definite answers depend only on the clauses added so
far and the assumptions of the call: two calls in arbitrary different histories agree. -/
theorem C23_answers_agree_partial {sys1 sys1' sys2 sys2' : Sys} {res1 res2 : Result}
    {cfg1 cfg2 : Config} {pre1 pre2 : List PreRound} {rounds1 rounds2 : List Round} {b1 b2 : Bool}
    (h1 : History .plain F as sys1) (h2 : History .plain F as sys2)
    (hc1 : cfg1.preprocessing = false) (hc2 : cfg2.preprocessing = false)
    (hr1 : ∀ r ∈ rounds1, r.Valid ∧ r.inprocess = none)
    (hr2 : ∀ r ∈ rounds2, r.Valid ∧ r.inprocess = none)
    (he1 : solve cfg1 pre1 rounds1 sys1 = some (sys1', res1))
    (he2 : solve cfg2 pre2 rounds2 sys2 = some (sys2', res2))
    (hs1 : res1.status = some b1) (hs2 : res2.status = some b2) :
    b1 = b2 ∧ (b1 = true ↔ Satisfiable (F ++ unitsOf as)) := by
  have key : ∀ {sys sys' : Sys} {res : Result} {cfg : Config} {pre : List PreRound}
      {rounds : List Round} {b : Bool}, History .plain F as sys → cfg.preprocessing = false →
      (∀ r ∈ rounds, r.Valid ∧ r.inprocess = none) →
      solve cfg pre rounds sys = some (sys', res) → res.status = some b →
      (b = true ↔ Satisfiable (F ++ unitsOf as)) := by
    intro sys sys' res cfg pre rounds b h hc hr he hs
    have hany := h.toAny Usage.plain_valid
    cases b with
    | false =>
      simp only [Bool.false_eq_true, false_iff]
      exact C21_unsat_under_assumptions hany (fun r hm => (hr r hm).1) he hs
    | true =>
      simp only [true_iff]
      obtain ⟨m1, m2, _⟩ := C20_sat_model_partial h hc hr he hs
      refine PSat.satisfiable (m := res.model) ?_
      intro c hc
      rcases List.mem_append.1 hc with hc | hc
      · exact m1 c hc
      · simp only [unitsOf, List.mem_map] at hc
        obtain ⟨l, hl, rfl⟩ := hc
        exact ⟨l, by simp, m2 l hl⟩
  have k1 := key h1 hc1 hr1 he1 hs1
  have k2 := key h2 hc2 hr2 he2 hs2
  refine ⟨?_, k1⟩
  have : b1 = true ↔ b2 = true := k1.trans k2.symm
  cases b1 <;> cases b2 <;> simp_all

/-! ## C29: the certificate -/

/-- C29. In every history: each added line of the certificate is a consequence of the clauses
given, an empty-clause line is only written if they are unsatisfiable, and each deletion line
names (up to the order of literals) a clause given by the caller or added by an earlier line. -/
theorem C29_certificate (h : History .any F as sys) :
    (∀ c, .add c ∈ sys.sol.db.log → Entails F c) ∧
    (.empty ∈ sys.sol.db.log → ¬ Satisfiable F) ∧
    (∀ before d after, sys.sol.db.log = before ++ .del d :: after →
      ∃ e, (e ∈ F ∨ .add e ∈ before) ∧ d.Perm e) := by
  have ho := (h.ok Usage.any_valid).ok.db
  refine ⟨fun c hc => ho.log _ hc, fun hc => not_sat_of_entails_nil (ho.log _ hc), ?_⟩
  intro before d after he
  exact ho.dels before d after he

/-- C29. An UNSAT answer that does not depend on assumptions ends the certificate with the empty
clause. -/
theorem C29_unsat_ends_with_empty (h : History .any F as sys) (hr : ∀ r ∈ rounds, r.Valid)
    (he : solve cfg pre rounds sys = some (sys', res)) (hs : res.status = some false)
    (hc : res.conflict = []) : ∃ lines, sys'.sol.db.log = lines ++ [.empty] := by
  have ih := h.ok Usage.any_valid
  obtain ⟨_, _, _, _, s5⟩ := solve_sound ih.ok hr (by rw [ih.assumptions]; exact ih.bound) he
  exact (s5 hs).2 hc

/-! ## Non-vacuity: concrete histories -/

/-- Three variables, satisfiable only with 1 and 2 true; needs a conflict when branching on
negative literals first. -/
def exF : CNF := cnf [[1, 2, 3], [1, -2], [-1, 2], [1, 2, -3]]

theorem exF_add : History .plain exF [] ((Sys.new true).init 3 exF true) := by
  have h := (History.new (u := .plain) true).add 3 exF true rfl (wfCNF_of (by decide))
  simpa using h

/-- The answer of a call, for evaluation. -/
def answer (x : Option (Sys × Result)) : Option (Option Bool × List (Option Bool) × List Lit) :=
  x.map fun y => (y.2.status, (List.range 4).map y.2.model, y.2.conflict)

def plainCfg : Config := { preprocessing := false }

/-- C20, C23: a SAT answer of a search with a conflict and a restart. -/
example : answer (solve plainCfg [] [exRestart, exRound] ((Sys.new true).init 3 exF true)) =
    some (some true, [some true, some true, some false, none], []) := by decide

example : ∀ r ∈ [exRestart, exRound], r.Valid ∧ r.inprocess = none := by
  intro r hr
  simp at hr
  rcases hr with rfl | rfl
  · exact ⟨exRestart_valid, rfl⟩
  · exact ⟨exRound_valid, rfl⟩

/-- C16, C21: an UNSAT answer under the assumption that 2 is false; the core names both
assumptions. -/
example : answer (solve plainCfg [] [exRound]
    (((Sys.new true).init 3 exF true).assume [lit 3, lit (-2)])) =
    some (some false, [none, none, none, none], [lit 2, lit (-3)]) := by decide

/-- C19, C29: an UNSAT answer with default preprocessing. -/
example : answer (solve {} [exPre] [exRound] ((Sys.new true).init 2
    (cnf [[1, 2], [-1, 2], [1, -2], [-1, -2]]) true)) =
    some (some false, [none, none, none, none], []) := by decide

/-- C22: an interrupted call. -/
example : answer (solve plainCfg [] [exRestart] ((Sys.new true).init 3 exF true)) =
    some (none, [none, none, none, none], []) := by decide

/-- C29: a certificate with additions and deletions. -/
example : ((solve {} [exPre] [exRound] ((Sys.new true).init 3
    (cnf [[1, 2], [-1, 2], [1, -2, 3], [-1, -2]]) true)).map fun x => decide (x.1.sol.db.log.length > 3)) =
    some true := by decide

end Candy
