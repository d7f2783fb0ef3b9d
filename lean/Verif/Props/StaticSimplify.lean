import Verif.Proofs.StaticSat
import Verif.Props.Tidy
import Verif.Props.Static
import Verif.Props.FirstSolve
import Verif.Props.Inprocessing

/-!
# The static propagator with simplification (C55, C56)

`SSHistory u F as s`: `s` is the state of a solver created with the option `static-propagate` after some
calls of its interface, in which the clauses `F` were added and `as` are the current assumptions; the
calls of `solve` may preprocess and inprocess as far as `u` allows. `SSSearching u F as t`: a state at the
head of the search loop in such a call.
-/

namespace Candy

variable {F : CNF} {as : List Lit} {s s' : SSys} {t : St} {cfg : Config} {pre : List PreRound}
  {rounds : List Round} {res : Result}

/-! ## C55: propagation -/

/-- C55. With any simplification before and between the rounds of search: static unit propagation
always terminates normally, every literal on the trail that was not chosen is implied by the clauses given
together with the chosen literals before it, and a reported conflict clause is one of the clauses given
or recorded in the proof, up to the order of its literals, is implied, and all its literals are false. -/
theorem C55_simplifying_sound (h : SSSearching .any F as t) :
    ∃ W T confl, runStatic t = some ((W, T), confl) ∧
      (∀ p ∈ t.sol.trail.stack, p ∈ T.stack) ∧
      (∀ p ∈ T.stack, p ∉ t.sol.trail.stack → p ∉ decisionsIn T T.stack) ∧
      (∀ pre p post, T.stack = pre ++ p :: post → p ∉ decisionsIn T T.stack →
        ∀ a, Sat a F → (∀ d ∈ decisionsIn T pre, d.holds a) → p.holds a) ∧
      (∀ c, confl = some c →
        (∃ d, (d ∈ F ∨ ProofLine.add d ∈ t.sol.db.log) ∧ (t.sol.db.store c).lits.Perm d) ∧
        Entails F (t.sol.db.store c).lits ∧
        ∀ l ∈ (t.sol.db.store c).lits, T.value l = some false) := by
  obtain ⟨hi, _⟩ := h.ok Usage.any_valid
  obtain ⟨W, T, r, e1, e2, e3, e4, e6, e7, _⟩ := sPropagateLoop_specL (L := True) (t.sol.db.nVars + 1) t.W
    t.sol.trail hi.sol.core hi.w (fun _ => hi.sol.limq) (by omega)
  refine ⟨W, T, r, e1, fun p hp => e4.mem hp, ?_, ?_, ?_⟩
  · intro p hp hn hd
    unfold decisionsIn at hd
    have := (List.mem_filter.1 hd).2
    simp at this
    exact e4.new p hp hn this.1
  · intro pre p post hs hn a ha hd
    refine core_implied e2 pre.length pre p post rfl hs a ha ?_
    intro d hdm
    unfold decisionsIn at hdm
    obtain ⟨k1, k2⟩ := List.mem_filter.1 hdm
    rcases List.mem_append.1 k1 with k1 | k1
    · exact hd d (List.mem_filter.2 ⟨k1, k2⟩)
    · simp at k1; subst k1
      exact (hn (List.mem_filter.2 ⟨by rw [hs]; simp, k2⟩)).elim
  · intro c hc
    have hcf := e7 c hc
    exact ⟨hi.sol.db.hist c hcf.lt, hi.sol.db.ent c hcf.lt, fun l hl =>
      (e2.tinv.valFalse l).2 (hcf.allFalse l hl)⟩

/-- C55. With any simplification, an iteration of the search loop with the static propagator always
succeeds and leaves the literals of every stored clause in their order. -/
theorem C55_simplifying_keeps_order (h : SSSearching .any F as t) (ch : Choice) (hch : ch.Valid) :
    ∃ out, sSearchIter t ch = some out ∧
      ∀ t', (out = .cont t' ∨ ∃ r, out = .done t' r) →
        ∀ c ∈ t.sol.db.clauses, (t'.sol.db.store c).lits = (t.sol.db.store c).lits := by
  obtain ⟨hi, _⟩ := h.ok Usage.any_valid
  obtain ⟨out, e1, e2⟩ := sSearchIter_spec hi hch
  refine ⟨out, e1, ?_⟩
  intro s' hs c hc
  rcases hs with rfl | ⟨r, rfl⟩
  · exact e2.2.2.2.2.1 c (hi.sol.db.mem c hc)
  · rw [e2.2.1]

/-- C55, without inprocessing (with it the claim is false, `C55_inprocessing_fails`), with any preprocessing in any call. When static propagation ends without conflict,
every clause in the database (clauses with one or two literals count as long as they are not removed,
i.e. have weight 0) has a true literal or at least two unassigned ones. -/
theorem C55_preprocessing_complete_partial (h : SSSearching .noInprocessing F as t) {W : SW} {T : Trail}
    (hp : runStatic t = some ((W, T), none)) :
    ∀ c ∈ t.sol.db.clauses,
      (t.sol.db.store c).weight = 0 ∨ 3 ≤ (t.sol.db.store c).lits.length →
      (∃ l ∈ (t.sol.db.store c).lits, T.value l = some true) ∨
      (∃ l ∈ (t.sol.db.store c).lits, ∃ m ∈ (t.sol.db.store c).lits, l ≠ m ∧ T.value l = none ∧
        T.value m = none) :=
  static_complete (h.inv Usage.noInprocessing_valid (fun _ hr => hr.2)).1 hp

/-! ## C56: answers -/

theorem ssUnsatOk (h : SSHistory .any F as s) (hr : ∀ r ∈ rounds, r.Valid)
    (he : s.solve cfg pre rounds = some (s', res)) (hs : res.status = some false) :
    UnsatOk F as res.conflict ∧ (res.conflict = [] → ∃ log, s'.sys.sol.db.log = log ++ [.empty]) := by
  have ho := h.ok Usage.any_valid
  have := (sSolve_sound ho.ok ho.nw hr (by rw [ho.assumptions]; exact ho.bound) he).2.2.2.2.2.1 hs
  rw [ho.assumptions] at this
  exact this

/-- C56, UNSAT, for all histories of calls with any simplification: the reported literals are negations
of assumptions and their disjunction is implied; the clauses together with the assumptions are
unsatisfiable. -/
theorem C56_simplifying_unsat (h : SSHistory .any F as s) (hr : ∀ r ∈ rounds, r.Valid)
    (he : s.solve cfg pre rounds = some (s', res)) (hs : res.status = some false) :
    (∀ l ∈ res.conflict, l.neg ∈ as) ∧ Entails F res.conflict ∧ ¬ Satisfiable (F ++ unitsOf as) := by
  have key : (∀ l ∈ res.conflict, l.neg ∈ as) ∧ Entails F res.conflict := by
    rcases (ssUnsatOk h hr he hs).1 with ⟨h1, h2⟩ | ⟨_, h2, h3⟩
    · rw [h1]
      exact ⟨by simp, fun a ha => (h2 ⟨a, ha⟩).elim⟩
    · exact ⟨h3, h2⟩
  refine ⟨key.1, key.2, ?_⟩
  rintro ⟨a, ha⟩
  obtain ⟨h1, h2⟩ := sat_append.1 ha
  obtain ⟨l, hl, hh⟩ := key.2 a h1
  have := h2 [l.neg] (List.mem_map.2 ⟨_, key.1 l hl, rfl⟩)
  obtain ⟨m, hm, hm'⟩ := this
  simp at hm; subst hm
  exact Lit.holds_neg.1 hm' hh

/-- C56, for all histories with any simplification: a call that ends without answer reports neither a
model nor a conflict, and an UNSAT answer reports no model. -/
theorem C56_simplifying_unknown (h : SSHistory .any F as s) (hr : ∀ r ∈ rounds, r.Valid)
    (he : s.solve cfg pre rounds = some (s', res)) :
    (res.status = none → res.conflict = []) ∧ (res.status ≠ some true → ∀ v, res.model v = none) := by
  have ho := h.ok Usage.any_valid
  have := (sSolve_sound ho.ok ho.nw hr (by rw [ho.assumptions]; exact ho.bound) he).2.2.2.2
  exact ⟨fun hs => this.1 (by rw [hs]; simp), this.2.2⟩

/-- C56, for all histories with any simplification: every recorded clause is implied by the clauses
given, the empty clause is only recorded if they are unsatisfiable, and only clauses given or recorded
are recorded as deleted. -/
theorem C56_simplifying_certificate (h : SSHistory .any F as s) :
    (∀ c, .add c ∈ s.sys.sol.db.log → Entails F c) ∧
    (.empty ∈ s.sys.sol.db.log → ¬ Satisfiable F) ∧
    (∀ before d after, s.sys.sol.db.log = before ++ .del d :: after →
      ∃ e, (e ∈ F ∨ .add e ∈ before) ∧ d.Perm e) := by
  have hd := (h.ok Usage.any_valid).ok.db
  exact ⟨fun _ hc => hd.log _ hc, fun hc => not_sat_of_entails_nil (hd.log _ hc),
    fun before d after he => hd.dels before d after he⟩

/-- C56, for all histories with any simplification: an UNSAT answer that depends on no assumption ends
the certificate with the empty clause. -/
theorem C56_simplifying_certificate_complete (h : SSHistory .any F as s) (hr : ∀ r ∈ rounds, r.Valid)
    (he : s.solve cfg pre rounds = some (s', res)) (hs : res.status = some false)
    (hc : res.conflict = []) : ∃ lines, s'.sys.sol.db.log = lines ++ [.empty] :=
  (ssUnsatOk h hr he hs).2 hc

/-- C56, SAT (partial: no elimination, no inprocessing, removed clauses are collected). After any number
of such calls with preprocessing, the reported assignment satisfies every clause added so far and every
assumption, and every variable has a value. -/
theorem C56_simplifying_sat_partial (h : SSTidyHistory F as s)
    (hc : cfg.preprocessing = true → cfg.useElim = false)
    (hr : ∀ r ∈ rounds, r.Valid ∧ r.inprocess = none)
    (he : s.solve cfg pre rounds = some (s', res)) (hs : res.status = some true) :
    PSat res.model F ∧ (∀ l ∈ as, l.trueIn res.model) ∧
      ∀ v < s.sys.sol.db.nVars, res.model v ≠ none := by
  have ho := h.toHistory.ok Usage.noInprocessing_valid
  have := (sTidy_solve h.tidy ho.nw hc
    (fun r hm => ⟨(hr r hm).1.choice, (hr r hm).2, (hr r hm).1.sort⟩)
    (by rw [ho.assumptions]; exact ho.bound) he).2 hs
  rw [ho.assumptions] at this
  exact this

theorem ssFresh (h : SSHistory .fresh F as s) : FreshOk F s.sys ∧ SSTidyHistory F as s := by
  induction h with
  | new recalc => exact ⟨⟨plain_new recalc, by simp [SSys.new, Sys.new, DB.new]⟩, .new recalc⟩
  | add h nv G flag hf hG ih =>
    simp only [Usage.fresh] at hf; subst hf
    exact ⟨sFresh_init ih.1 hG, ih.2.add nv G hG⟩
  | assume h as' hb ih => exact ⟨⟨ih.1.plain.assume as', ih.1.zero⟩, ih.2.assume as' hb⟩
  | solve h cfg pre rounds hc hr he ih => exact hc.elim

/-- C56, SAT, first call of `solve` (partial: preprocessing runs at most one round or elimination is off,
no inprocessing). Variables may be eliminated: the reported assignment satisfies every clause given,
including those elimination and subsumption removed, and every assumption, and every variable has a
value. -/
theorem C56_first_solve_partial (h : SSHistory .fresh F as s) (hc : FirstCall pre rounds)
    (h1 : pre.length ≤ 1 ∨ cfg.useElim = false ∨ cfg.preprocessing = false)
    (he : s.solve cfg pre rounds = some (s', res)) (hs : res.status = some true) :
    PSat res.model F ∧ (∀ l ∈ as, l.trueIn res.model) ∧
      ∀ v < s.sys.sol.db.nVars, res.model v ≠ none := by
  obtain ⟨hf, ht⟩ := ssFresh h
  have ho := h.ok Usage.fresh_valid
  have off : (cfg.preprocessing = true → cfg.useElim = false) →
      PSat res.model F ∧ (∀ l ∈ as, l.trueIn res.model) ∧ ∀ v < s.sys.sol.db.nVars, res.model v ≠ none :=
    fun hoff => C56_simplifying_sat_partial ht hoff hc.roundsValid he hs
  cases hp : cfg.preprocessing with
  | false => exact off (fun e => by rw [hp] at e; cases e)
  | true =>
    rcases h1 with h1 | h1 | h1
    · obtain ⟨p1, p2, _⟩ := sSolveStart_sound hf.plain.ok ho.nw
      have := sFirst_solve hf ho.nw hp hc.preValid
        (fun r hm => ⟨(hc.roundsValid r hm).1.choice, (hc.roundsValid r hm).2, (hc.roundsValid r hm).1.sort⟩)
        hc.first (by rw [ho.assumptions]; exact ho.bound)
        (fun s1 hs1 hne => (sProcess_recon p1 p2.w (sPristine_start hf) hc.preValid hs1 hne).2 h1) he hs
      rw [ho.assumptions] at this
      exact this
    · exact off (fun _ => h1)
    · rw [hp] at h1; cases h1

theorem sat_of_answer {m : PAssign} (h1 : PSat m F) (h2 : ∀ l ∈ as, l.trueIn m) :
    Satisfiable (F ++ unitsOf as) := by
  refine PSat.satisfiable (m := m) ?_
  intro c hc
  rcases List.mem_append.1 hc with hc | hc
  · exact h1 c hc
  · simp only [unitsOf, List.mem_map] at hc
    obtain ⟨l, hl, rfl⟩ := hc
    exact ⟨l, by simp, h2 l hl⟩

/-- C56, first call of `solve` (partial, same restriction): a definite answer is SAT iff the clauses are
satisfiable together with the assumptions. -/
theorem C56_first_answer_partial (h : SSHistory .fresh F as s) (hc : FirstCall pre rounds)
    (h1 : pre.length ≤ 1 ∨ cfg.useElim = false ∨ cfg.preprocessing = false) {b : Bool}
    (he : s.solve cfg pre rounds = some (s', res)) (hs : res.status = some b) :
    b = true ↔ Satisfiable (F ++ unitsOf as) := by
  cases b with
  | false =>
    simp only [Bool.false_eq_true, false_iff]
    exact (C56_simplifying_unsat (h.toAny Usage.fresh_valid) (fun r hm => (hc.roundsValid r hm).1) he hs).2.2
  | true =>
    simp only [true_iff]
    obtain ⟨m1, m2, _⟩ := C56_first_solve_partial h hc h1 he hs
    exact sat_of_answer m1 m2

/-- C56 (partial, no elimination and no inprocessing). The choice of the propagator does not influence a
definite answer: a solver with the static propagator and a solver with the default one, after arbitrary
tidy histories in which the same clauses were added, agree under the same assumptions, whatever each of
them learnt, removed or simplified. -/
theorem C56_propagators_agree_partial {sys sys' : Sys} {res1 res2 : Result}
    {cfg1 cfg2 : Config} {pre1 pre2 : List PreRound} {rounds1 rounds2 : List Round} {b1 b2 : Bool}
    (h1 : SSTidyHistory F as s) (h2 : TidyHistory F as sys)
    (hc1 : cfg1.preprocessing = true → cfg1.useElim = false)
    (hc2 : cfg2.preprocessing = true → cfg2.useElim = false)
    (hr1 : ∀ r ∈ rounds1, r.Valid ∧ r.inprocess = none)
    (hr2 : ∀ r ∈ rounds2, r.Valid ∧ r.inprocess = none)
    (he1 : s.solve cfg1 pre1 rounds1 = some (s', res1))
    (he2 : solve cfg2 pre2 rounds2 sys = some (sys', res2))
    (hs1 : res1.status = some b1) (hs2 : res2.status = some b2) :
    b1 = b2 ∧ (b1 = true ↔ Satisfiable (F ++ unitsOf as)) := by
  have k1 : b1 = true ↔ Satisfiable (F ++ unitsOf as) := by
    cases b1 with
    | false =>
      simp only [Bool.false_eq_true, false_iff]
      exact (C56_simplifying_unsat (h1.toHistory.toAny Usage.noInprocessing_valid)
        (fun r hm => (hr1 r hm).1) he1 hs1).2.2
    | true =>
      simp only [true_iff]
      obtain ⟨m1, m2, _⟩ := C56_simplifying_sat_partial h1 hc1 hr1 he1 hs1
      exact sat_of_answer m1 m2
  have k2 := (C23_simplifying_partial h2 h2 hc2 hc2 hr2 hr2 he2 he2 hs2 hs2).2
  refine ⟨?_, k1⟩
  have : b1 = true ↔ b2 = true := k1.trans k2.symm
  cases b1 <;> cases b2 <;> simp_all

/-! ## The findings about inprocessing hold for this propagator too -/

def ssInpStart : SSys := SSys.new.init 13 inpF true

theorem ssInpStart_history : SSHistory .any inpF [] ssInpStart := by
  have h := (SSHistory.new (u := .any) true).add 13 inpF true trivial (wfCNF_of (by decide))
  simpa [ssInpStart] using h

theorem inpRounds_valid : ∀ r ∈ [inpRound0, inpRound1], r.Valid := by
  intro r hr
  simp only [List.mem_cons, List.not_mem_nil, or_false] at hr
  rcases hr with rfl | rfl
  · exact exRestart_valid
  · exact inpRound1_valid

/-- C56 fails with inprocessing: the formula has no model, yet the solver with the static propagator
answers SAT. -/
theorem C56_inprocessing_fails : ∃ (F : CNF) (s s' : SSys) (cfg : Config) (rounds : List Round)
    (res : Result), SSHistory .any F [] s ∧ cfg.preprocessing = false ∧ (∀ r ∈ rounds, r.Valid) ∧
    s.solve cfg [] rounds = some (s', res) ∧ res.status = some true ∧ ¬ Satisfiable F := by
  have hrun : ((ssInpStart.solve inpCfg [] [inpRound0, inpRound1]).map fun x => x.2.status) =
      some (some true) := by
    decide +kernel
  obtain ⟨⟨s', res⟩, h1, h2⟩ := Option.map_eq_some_iff.1 hrun
  exact ⟨inpF, _, s', inpCfg, _, res, ssInpStart_history, rfl, inpRounds_valid, h1, h2, inpF_unsat⟩

/-- The state in which the search after inprocessing starts. -/
def ssInpSearch : Option St :=
  match ssInpStart.solveEntry inpCfg [] with
  | none => none
  | some s =>
    match s.solveRound inpCfg inpRound0 with
    | some (s, none) =>
      match s.resetTrail.reduceStep inpCfg inpRound1 with
      | none => none
      | some s => sMaterialize ⟨s.sys.sol, s.W⟩
    | _ => none

/-- Does propagation in that state end without conflict although a clause of the database with three or
more literals has only false ones? -/
def ssInpMissed (t : St) : Bool :=
  !t.sol.db.hasEmpty &&
  match runStatic t with
  | some ((_, T), none) => t.sol.db.clauses.any fun c =>
      decide (3 ≤ (t.sol.db.store c).lits.length) &&
        (t.sol.db.store c).lits.all fun l => decide (T.value l = some false)
  | _ => false

/-- C55 (completeness) fails with inprocessing: in a reachable state of the search, propagation ends
without reporting a conflict although a clause of the database is falsified. -/
theorem C55_inprocessing_fails : ∃ (F : CNF) (t : St) (W : SW) (T : Trail) (c : Nat),
    SSSearching .any F [] t ∧ runStatic t = some ((W, T), none) ∧ c ∈ t.sol.db.clauses ∧
    3 ≤ (t.sol.db.store c).lits.length ∧ ∀ l ∈ (t.sol.db.store c).lits, T.value l = some false := by
  have hrun : ssInpSearch.map ssInpMissed = some true := by decide +kernel
  obtain ⟨t, h1, h2⟩ := Option.map_eq_some_iff.1 hrun
  unfold ssInpSearch at h1
  split at h1
  · cases h1
  · rename_i s1 e1
    split at h1
    · rename_i s2 e2
      split at h1
      · cases h1
      · rename_i s3 e3
        have hs := SSInSolve.round (SSInSolve.enter ssInpStart_history inpCfg [] trivial e1) inpCfg
          inpRound0 exRestart_valid e2
        unfold ssInpMissed at h2
        rw [Bool.and_eq_true] at h2
        obtain ⟨h3, h4⟩ := h2
        split at h4
        · rename_i W T e4
          obtain ⟨c, hc, h5⟩ := List.any_eq_true.1 h4
          rw [Bool.and_eq_true, List.all_eq_true] at h5
          exact ⟨inpF, t, W, T, c, SSSearching.start hs inpCfg inpRound1 inpRound1_valid e3 h1
            (by simpa using h3), e4, hc, of_decide_eq_true h5.1,
            fun l hl => of_decide_eq_true (h5.2 l hl)⟩
        · cases h4
    · cases h1

/-! ## Non-vacuity -/

/-- Observable part of a result. -/
def ssAnswer (x : Option (SSys × Result)) : Option (Option Bool × List (Option Bool) × List Lit) :=
  x.map fun y => (y.2.status, (List.range 5).map y.2.model, y.2.conflict)

/-- Preprocessing with elimination, then a model. -/
example : (ssAnswer ((((SSys.new).init 5 exElimF).assume [lit 3]).solve {} [exPreSorted] [fdRound])).map
    (·.1) = some (some true) := by decide +kernel

/-- Preprocessing, then a core. -/
example : ssAnswer ((((SSys.new).init 3 exF).assume [lit 3, lit (-2)]).solve {} [exPreSorted] [fdRound]) =
    some (some false, [none, none, none, none, none], [lit 2]) := by decide +kernel

example : SSHistory .any exF [lit 3, lit (-2)] (((SSys.new).init 3 exF).assume [lit 3, lit (-2)]) := by
  have := (SSHistory.new (u := .any) true).add 3 exF true trivial (wfCNF_of (by decide))
  rw [List.nil_append] at this
  exact this.assume _ (by decide +kernel)

/-- The state of a solver in which a call of `solve` searches, after preprocessing and `k` iterations. -/
def ssSearch (cfg : Config) (s : SSys) (pre : List PreRound) (r : Round) : Nat → Option St
  | 0 => (s.solveEntry cfg pre).bind fun s1 => (s1.resetTrail.reduceStep cfg r).bind fun s2 =>
      (sMaterialize ⟨s2.sys.sol, s2.W⟩).bind fun t => if t.sol.db.hasEmpty then none else some t
  | k + 1 => (ssSearch cfg s pre r k).bind fun t =>
      match sSearchIter t exChoice with
      | some (.cont t') => some t'
      | _ => none

theorem ssSearch_searching {u : Usage} {r : Round} (h : SSHistory u F as s) (hc : u.solve cfg pre)
    (hr : u.round r) : ∀ k t, ssSearch cfg s pre r k = some t → SSSearching u F as t
  | 0, t, he => by
    unfold ssSearch at he
    obtain ⟨s1, h1, he⟩ := Option.bind_eq_some_iff.1 he
    obtain ⟨s2, h2, he⟩ := Option.bind_eq_some_iff.1 he
    obtain ⟨t1, h3, he⟩ := Option.bind_eq_some_iff.1 he
    split at he
    · simp at he
    · rename_i hE
      simp only [Option.some.injEq] at he
      subst he
      exact .start (.enter h cfg pre hc h1) cfg r hr h2 h3 (by simpa using hE)
  | k + 1, t, he => by
    unfold ssSearch at he
    obtain ⟨t1, h1, he⟩ := Option.bind_eq_some_iff.1 he
    split at he
    · rename_i t' h2
      simp only [Option.some.injEq] at he
      subst he
      exact .iter (ssSearch_searching h hc hr k t1 h1) exChoice exChoice_valid h2
    · simp at he

/-- Parities over five variables, and a clause that preprocessing removes. -/
def ssF : CNF := cnf [[1, 2, 3], [1, -2, -3], [-1, 2, -3], [-1, -2, 3], [3, 4, 5], [3, -4, -5], [-3, 4, -5],
  [-3, -4, 5], [1, 2, 3, 4], [-1, -4, -5], [1, 2, 4, 5]]

def ssNoElim : Config := { useElim := false, useAsymm := false }

theorem ssF_history {u : Usage} (hf : u.flag true) : SSHistory u ssF [] ((SSys.new).init 5 ssF) := by
  have h := (SSHistory.new (u := u) true).add 5 ssF true hf (wfCNF_of (by decide))
  simpa using h

/-- C55: after preprocessing removed a clause and three decisions were made, propagation reports the
falsified clause 1 ∨ 2 ∨ 4 ∨ 5. -/
example : ∃ t W T c, SSSearching .any ssF [] t ∧ t.sol.db.clauses.length < ssF.length ∧
    runStatic t = some ((W, T), some c) ∧ (t.sol.db.store c).lits = [1, 2, 4, 5].map lit := by
  have hr : ((ssSearch ssNoElim ((SSys.new).init 5 ssF) [exPreSorted] fdRound 3).bind fun t =>
      (runStatic t).bind fun x => x.2.map fun c =>
        (t.sol.db.clauses.length, (t.sol.db.store c).lits)) =
      some (10, [1, 2, 4, 5].map lit) := by decide +kernel
  obtain ⟨t, ht, hr⟩ := Option.bind_eq_some_iff.1 hr
  obtain ⟨x, h1, h2⟩ := Option.bind_eq_some_iff.1 hr
  obtain ⟨c, h3, h4⟩ := Option.map_eq_some_iff.1 h2
  obtain ⟨⟨W, T⟩, cf⟩ := x
  simp only [Prod.mk.injEq] at h3 h4
  subst h3
  exact ⟨t, W, T, c, ssSearch_searching (u := .any) (ssF_history trivial) trivial fdRound_valid 3 t ht,
    by rw [h4.1]; decide, h1, h4.2⟩

/-- C56, first call: elimination removes variables and the extended model satisfies the formula. -/
example : ∃ s s' res, SSHistory .fresh exElimF [lit 3] s ∧ FirstCall [exPreSorted] [fdRound] ∧
    s.solve {} [exPreSorted] [fdRound] = some (s', res) ∧ res.status = some true ∧
    s'.sys.ve.vars ≠ [] ∧ res.model 2 = some true := by
  have hrun : (((((SSys.new).init 5 exElimF).assume [lit 3]).solve {} [exPreSorted] [fdRound]).map
      fun x => (x.2.status, x.1.sys.ve.vars.isEmpty, x.2.model 2)) =
      some (some true, false, some true) := by decide +kernel
  obtain ⟨⟨s', res⟩, h1, h2⟩ := Option.map_eq_some_iff.1 hrun
  have hh := ((SSHistory.new (u := .fresh) true).add 5 exElimF true rfl (wfCNF_of (by decide))).assume [lit 3]
    (by decide +kernel)
  rw [List.nil_append] at hh
  simp only [Prod.mk.injEq] at h2
  refine ⟨_, s', res, hh, ⟨?_, ?_, ?_⟩, h1, h2.1, ?_, h2.2.2⟩
  · intro r hr; simp at hr; subst hr; intro f xs x hx; exact exOrder_mem hx
  · intro r hr; simp at hr; subst hr; exact ⟨fdRound_valid, rfl⟩
  · intro r hr; simp at hr; subst hr; rfl
  · intro e; rw [e] at h2; simp at h2

/-- A call with preprocessing but without elimination. -/
def ssTidyCall (s : SSys) (F : CNF) : Option (SSys × Result) :=
  (s.init 4 F).solve fdOff [exPreSorted] [fdRound]

/-- Four calls, as `tidyRun`. -/
def ssTidyRun : Option (SSys × Result × Result) :=
  (ssTidyCall (SSys.new true) fdStale[0]).bind fun x1 =>
  (ssTidyCall x1.1 fdStale[1]).bind fun x2 =>
  (ssTidyCall x2.1 fdStale[2]).bind fun x3 =>
  (ssTidyCall x3.1 fdStale[3]).map fun x4 => (x3.1, x3.2, x4.2)

/-- C56, incremental: three calls in which preprocessing removes clauses, then a model for the fourth. -/
example : ∃ (s : SSys) (F : CNF), SSTidyHistory F [] s ∧ F.length = 6 ∧
    s.sys.sol.db.clauses.length = 2 ∧
    ∃ s' res, (s.init 4 (cnf [[-2]])).solve fdOff [exPreSorted] [fdRound] = some (s', res) ∧
      res.status = some true ∧ res.model 2 = some true := by
  have hrun : (ssTidyRun.map fun x => (x.2.1.status, x.2.1.model 3, x.2.2.status,
      x.1.sys.sol.db.clauses.length)) = some (some true, some true, some false, 2) := by decide +kernel
  have hrun2 : (ssTidyRun.bind fun x =>
      ((x.1.init 4 (cnf [[-2]])).solve fdOff [exPreSorted] [fdRound]).map fun y =>
        (y.2.status, y.2.model 2)) = some (some true, some true) := by decide +kernel
  obtain ⟨x, hx, h2⟩ := Option.map_eq_some_iff.1 hrun
  rw [hx] at hrun2
  obtain ⟨⟨s', res⟩, h3, h4⟩ := Option.map_eq_some_iff.1 hrun2
  unfold ssTidyRun at hx
  obtain ⟨⟨s1, _⟩, h1, hx⟩ := Option.bind_eq_some_iff.1 hx
  obtain ⟨⟨s2, _⟩, h2', hx⟩ := Option.bind_eq_some_iff.1 hx
  obtain ⟨⟨s3, res3⟩, h3', hx⟩ := Option.bind_eq_some_iff.1 hx
  obtain ⟨x4, _, rfl⟩ := Option.map_eq_some_iff.1 hx
  have step : ∀ {F : CNF} {s s' : SSys} {res : Result} {G : CNF}, SSTidyHistory F [] s → WfCNF 4 G →
      ssTidyCall s G = some (s', res) → SSTidyHistory (F ++ G) [] s' := by
    intro F s s' res G h hG he
    refine (h.add 4 G (fun c hc => ⟨fun l hl => Nat.lt_of_lt_of_le ((hG c hc).1 l hl)
      (Nat.le_max_right _ _), (hG c hc).2⟩)).solve fdOff [exPreSorted] [fdRound]
      ⟨fun _ => rfl, fun _ => ⟨_, rfl, rfl⟩, ?_⟩ he
    intro q hq; simp at hq; subst hq; exact ⟨fdRound_valid, rfl⟩
  have hh := step (step (step (.new true) (wfCNF_of (by decide)) h1) (wfCNF_of (by decide)) h2')
    (wfCNF_of (by decide)) h3'
  simp only [Prod.mk.injEq] at h2 h4
  exact ⟨s3, _, hh, by decide, h2.2.2.2, s', res, h3, h4.1, h4.2⟩

/-- C55: after preprocessing removed a clause and two decisions were made, propagation ends without
conflict and assigns more variables. -/
example : ∃ t W T, SSSearching .noInprocessing ssF [] t ∧ t.sol.db.clauses.length < ssF.length ∧
    runStatic t = some ((W, T), none) ∧ t.sol.trail.stack.length = 2 ∧ 2 < T.stack.length := by
  have hr : ((ssSearch ssNoElim ((SSys.new).init 5 ssF) [exPreSorted] fdRound 2).bind fun t =>
      (runStatic t).map fun x =>
        (t.sol.db.clauses.length, x.2, t.sol.trail.stack.length, x.1.2.stack.length)) =
      some (10, none, 2, 3) := by decide +kernel
  obtain ⟨t, ht, hr⟩ := Option.bind_eq_some_iff.1 hr
  obtain ⟨x, h1, h2⟩ := Option.map_eq_some_iff.1 hr
  obtain ⟨⟨W, T⟩, cf⟩ := x
  simp only [Prod.mk.injEq] at h2
  obtain ⟨h3, rfl, h4, h5⟩ := h2
  exact ⟨t, W, T, ssSearch_searching (u := .noInprocessing) (ssF_history trivial) trivial
    ⟨fdRound_valid, rfl⟩ 2 t ht, by rw [h3]; decide, h1, h4, by rw [h5]; decide⟩

end Candy
