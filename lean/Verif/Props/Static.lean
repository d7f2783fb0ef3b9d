import Verif.Proofs.StaticSolve
import Verif.Props.Answers
import Verif.Props.Search

/-!
# The static propagator (C55, C56)

`SSearching F as s`: `s` is a state at the head of the search loop of a solver created with the option
`static-propagate`, in some call of `solve` of some history of calls in which the clauses `F` were added
and `as` are the current assumptions, after any number of conflicts, backjumps, restarts and reductions
of the clause database. `SHistory F as s`: the states between the API calls. Pre- and inprocessing are
switched off.
-/

namespace Candy

variable {F : CNF} {as : List Lit} {s s' : St} {cfg : Config} {rounds : List Round} {res : Result}

/-- Unit propagation as called by `search`. -/
def runStatic (s : St) : Option ((SW × Trail) × Option Nat) :=
  sPropagateLoop s.sol.db.bin s.sol.db.store (s.sol.db.nVars + 1) s.W s.sol.trail

/-! ## C55: propagation -/

/-- C55. Static unit propagation always terminates normally. Every literal on the trail that was not
chosen, in particular every literal propagation adds, is implied by the clauses given together with
the chosen literals before it. A reported conflict clause is one of the clauses given or recorded in
the proof, up to the order of its literals, is implied, and all its literals are false. -/
theorem C55_static_sound_partial (h : SSearching F as s) :
    ∃ W T confl, runStatic s = some ((W, T), confl) ∧
      (∀ p ∈ s.sol.trail.stack, p ∈ T.stack) ∧
      (∀ p ∈ T.stack, p ∉ s.sol.trail.stack → p ∉ decisionsIn T T.stack) ∧
      (∀ pre p post, T.stack = pre ++ p :: post → p ∉ decisionsIn T T.stack →
        ∀ a, Sat a F → (∀ d ∈ decisionsIn T pre, d.holds a) → p.holds a) ∧
      (∀ c, confl = some c →
        (∃ d, (d ∈ F ∨ ProofLine.add d ∈ s.sol.db.log) ∧ (s.sol.db.store c).lits.Perm d) ∧
        Entails F (s.sol.db.store c).lits ∧
        ∀ l ∈ (s.sol.db.store c).lits, T.value l = some false) := by
  obtain ⟨hi, _⟩ := h.inv
  obtain ⟨W, T, r, e1, e2, e3, e4, e6, e7, _⟩ := sPropagateLoop_spec (s.sol.db.nVars + 1) s.W
    s.sol.trail hi.sol.core hi.w hi.sol.limq (by omega)
  refine ⟨W, T, r, e1, fun p hp => e4.mem hp, ?_, ?_, ?_⟩
  · intro p hp hn hd
    unfold decisionsIn at hd
    have := (List.mem_filter.1 hd).2
    simp at this
    exact e4.new p hp hn this.1
  · intro pre p post hs hn a ha hd
    refine core_implied e2 pre.length pre p post rfl hs a ha ?_
    intro d hdm
    unfold decisionsIn at hdm
    obtain ⟨k1, k2⟩ := List.mem_filter.1 hdm
    rcases List.mem_append.1 k1 with k1 | k1
    · exact hd d (List.mem_filter.2 ⟨k1, k2⟩)
    · simp at k1; subst k1
      exact (hn (List.mem_filter.2 ⟨by rw [hs]; simp, k2⟩)).elim
  · intro c hc
    have hcf := e7 c hc
    exact ⟨hi.sol.db.hist c hcf.lt, hi.sol.db.ent c hcf.lt, fun l hl =>
      (e2.tinv.valFalse l).2 (hcf.allFalse l hl)⟩

theorem static_complete (hi : StInv True F (GoodC s.sol) s) {W : SW} {T : Trail}
    (hp : runStatic s = some ((W, T), none)) :
    ∀ c ∈ s.sol.db.clauses,
      (s.sol.db.store c).weight = 0 ∨ 3 ≤ (s.sol.db.store c).lits.length →
      (∃ l ∈ (s.sol.db.store c).lits, T.value l = some true) ∨
      (∃ l ∈ (s.sol.db.store c).lits, ∃ m ∈ (s.sol.db.store c).lits, l ≠ m ∧ T.value l = none ∧
        T.value m = none) := by
  obtain ⟨W', T', r, e1, e2, e3, e4, e6, e7, _, e9, e10, e11, e12⟩ := sPropagateLoop_spec
    (s.sol.db.nVars + 1) s.W s.sol.trail hi.sol.core hi.w hi.sol.limq (by omega)
  unfold runStatic at hp
  rw [e1] at hp
  simp only [Option.some.injEq, Prod.mk.injEq] at hp
  obtain ⟨⟨rfl, rfl⟩, rfl⟩ := hp
  intro c hc hw
  have hg : GoodC s.sol c := ⟨hc, hw⟩
  have hq := e6 rfl
  have hfalse : ∀ w, SatW T' (s.sol.db.store c).lits w →
      T'.value w = some false → ∃ l ∈ (s.sol.db.store c).lits, T'.value l = some true := by
    intro w hw hv
    have := (e2.tinv.valFalse w).1 hv
    obtain ⟨l, h1, h2, _⟩ := hw (by rw [hq, List.take_length]; exact this)
    exact ⟨l, h1, (e2.tinv.val l).2 h2⟩
  have two : ∀ x y, x ∈ (s.sol.db.store c).lits → y ∈ (s.sol.db.store c).lits → x ≠ y →
      SatW T' (s.sol.db.store c).lits x → SatW T' (s.sol.db.store c).lits y →
      (∃ l ∈ (s.sol.db.store c).lits, T'.value l = some true) ∨
      (∃ l ∈ (s.sol.db.store c).lits, ∃ m ∈ (s.sol.db.store c).lits, l ≠ m ∧ T'.value l = none ∧
        T'.value m = none) := by
    intro x y hx hy hxy sx sy
    cases vx : T'.value x with
    | some b =>
      cases b with
      | true => exact Or.inl ⟨x, hx, vx⟩
      | false => exact Or.inl (hfalse x sx vx)
    | none =>
      cases vy : T'.value y with
      | some b =>
        cases b with
        | true => exact Or.inl ⟨y, hy, vy⟩
        | false => exact Or.inl (hfalse y sy vy)
      | none => exact Or.inr ⟨x, hx, y, hy, hxy, vx, vy⟩
  by_cases hlen : (s.sol.db.store c).lits.length ≤ 2
  · match hl : (s.sol.db.store c).lits with
    | [] => exact absurd hl (hi.sol.nonempty c ⟨hg, hlen⟩)
    | [l] =>
      obtain ⟨h1, _⟩ := hi.sol.units c ⟨hg, hlen⟩ l hl
      exact Or.inl ⟨l, by simp, (e2.tinv.val l).2 (e4.mem h1)⟩
    | x :: y :: r =>
      have hci : CInv (fun c => GoodC s.sol c ∧ (s.sol.db.store c).lits.length ≤ 2) s.sol.db.store
          noWatch s.sol.db.bin s.sol.trail (fun _ _ => False) := by
        rw [← hi.nw]; exact hi.sol.cinv
      have hci := e10 _ hci
      have hsw : ∀ w, (w = x ∨ w = y) → SatW T' (s.sol.db.store c).lits w := by
        intro w hw
        rcases hci.w4 c ⟨hg, hlen⟩ x y r hl w hw with h1 | h1
        · exact absurd rfl h1.1
        · exact h1
      rw [← hl]
      refine two x y (by rw [hl]; simp) (by rw [hl]; simp) ?_ (hsw x (Or.inl rfl)) (hsw y (Or.inr rfl))
      have := e2.nd c (hi.alt c hg)
      rw [hl] at this
      rintro rfl
      simp at this
  · obtain ⟨i, i1, i2⟩ := hi.cov c hg (by omega)
    rw [← e11] at i1
    obtain ⟨_, r2, r3, r4⟩ := e3.ref i i1
    have hs := e9 (hi.sci trivial) i i1
    rw [e12, i2] at r2 r3 hs
    refine two _ _ r2 r3 r4 ?_ ?_
    · rcases hs _ (Or.inl rfl) with h1 | h1
      · exact absurd rfl h1.1
      · exact h1
    · rcases hs _ (Or.inr rfl) with h1 | h1
      · exact absurd rfl h1.1
      · exact h1

/-- C55. When static propagation ends without conflict, every clause in the database (clauses with one
or two literals count as long as they are not removed, i.e. have weight 0) has a true literal or at
least two unassigned ones, so it is neither falsified nor unit. -/
theorem C55_static_complete_partial (h : SSearching F as s) {W : SW} {T : Trail}
    (hp : runStatic s = some ((W, T), none)) :
    ∀ c ∈ s.sol.db.clauses,
      (s.sol.db.store c).weight = 0 ∨ 3 ≤ (s.sol.db.store c).lits.length →
      (∃ l ∈ (s.sol.db.store c).lits, T.value l = some true) ∨
      (∃ l ∈ (s.sol.db.store c).lits, ∃ m ∈ (s.sol.db.store c).lits, l ≠ m ∧ T.value l = none ∧
        T.value m = none) :=
  static_complete h.inv.1 hp

/-- C55. An iteration of the search loop with the static propagator always succeeds (nothing is read
outside of a clause or list, conflict analysis finds an asserting clause), and the literals of every
stored clause stay in their order: this is the difference to the other propagator, which permutes
them. -/
theorem C55_static_keeps_order_partial (h : SSearching F as s) (ch : Choice) (hch : ch.Valid) :
    ∃ out, sSearchIter s ch = some out ∧
      ∀ s', (out = .cont s' ∨ ∃ r, out = .done s' r) →
        ∀ c ∈ s.sol.db.clauses, (s'.sol.db.store c).lits = (s.sol.db.store c).lits := by
  obtain ⟨hi, _⟩ := h.inv
  obtain ⟨out, e1, e2⟩ := sSearchIter_spec hi hch
  refine ⟨out, e1, ?_⟩
  intro s' hs c hc
  rcases hs with rfl | ⟨r, rfl⟩
  · exact e2.2.2.2.2.1 c (hi.sol.db.mem c hc)
  · rw [e2.2.1]

/-! ## C56: answers -/

theorem sUnsatOk (h : SHistory F as s) (hr : ∀ r ∈ rounds, r.StOk)
    (he : sSolve cfg rounds s = some (s', res)) (hs : res.status = some false) :
    UnsatOk F as res.conflict := by
  have ho := h.ok
  have := (sSolve_spec ho.base hr (by rw [ho.assumptions]; exact ho.bound) he).2.2.1 hs
  rw [ho.assumptions] at this
  exact this

/-- C56, UNSAT. The reported literals are negations of assumptions and their disjunction is implied;
the clauses together with the assumptions are unsatisfiable. -/
theorem C56_static_unsat_partial (h : SHistory F as s) (hr : ∀ r ∈ rounds, r.StOk)
    (he : sSolve cfg rounds s = some (s', res)) (hs : res.status = some false) :
    (∀ l ∈ res.conflict, l.neg ∈ as) ∧ Entails F res.conflict ∧ ¬ Satisfiable (F ++ unitsOf as) := by
  have key : (∀ l ∈ res.conflict, l.neg ∈ as) ∧ Entails F res.conflict := by
    rcases sUnsatOk h hr he hs with ⟨h1, h2⟩ | ⟨_, h2, h3⟩
    · rw [h1]
      exact ⟨by simp, fun a ha => (h2 ⟨a, ha⟩).elim⟩
    · exact ⟨h3, h2⟩
  refine ⟨key.1, key.2, ?_⟩
  rintro ⟨a, ha⟩
  obtain ⟨h1, h2⟩ := sat_append.1 ha
  obtain ⟨l, hl, hh⟩ := key.2 a h1
  have := h2 [l.neg] (List.mem_map.2 ⟨_, key.1 l hl, rfl⟩)
  obtain ⟨m, hm, hm'⟩ := this
  simp at hm; subst hm
  exact Lit.holds_neg.1 hm' hh

/-- C56, SAT. The reported model satisfies every clause given and every assumption and assigns every
variable. -/
theorem C56_static_sat_partial (h : SHistory F as s) (hr : ∀ r ∈ rounds, r.StOk)
    (he : sSolve cfg rounds s = some (s', res)) (hs : res.status = some true) :
    PSat res.model F ∧ (∀ l ∈ as, l.trueIn res.model) ∧
      ∀ v < s.sol.db.nVars, res.model v ≠ none := by
  have ho := h.ok
  have := (sSolve_spec ho.base hr (by rw [ho.assumptions]; exact ho.bound) he).2.2.2.2 hs
  rw [ho.assumptions] at this
  exact this

/-- C56. A call that ends without answer reports neither a model nor a conflict. -/
theorem C56_static_unknown_partial (h : SHistory F as s) (hr : ∀ r ∈ rounds, r.StOk)
    (he : sSolve cfg rounds s = some (s', res)) (hs : res.status = none) :
    res.conflict = [] ∧ ∀ v, res.model v = none := by
  have ho := h.ok
  have := sSolve_spec ho.base hr (by rw [ho.assumptions]; exact ho.bound) he
  exact ⟨this.2.1 (by rw [hs]; simp), this.2.2.2.1 (by rw [hs]; simp)⟩

/-- C56. Every recorded clause is implied by the clauses given. -/
theorem C56_static_certificate_partial (h : SHistory F as s) :
    (∀ c, .add c ∈ s.sol.db.log → Entails F c) ∧ (.empty ∈ s.sol.db.log → ¬ Satisfiable F) ∧
    (∀ before d after, s.sol.db.log = before ++ .del d :: after →
      ∃ e, (e ∈ F ∨ .add e ∈ before) ∧ d.Perm e) :=
  ⟨fun _ hc => h.ok.base.db.log _ hc, fun hc => not_sat_of_entails_nil (h.ok.base.db.log _ hc),
    fun before d after he => h.ok.base.db.dels before d after he⟩

/-- C56. The option changes no answer: a definite answer of a solver with the static propagator and one
of a solver with the other propagator agree, whatever calls were made before and whatever the
heuristics choose. -/
theorem C56_same_answer_partial {sys sys' : Sys} {cfg' : Config} {pre : List PreRound}
    {rounds' : List Round} {res' : Result} {b b' : Bool}
    (h : SHistory F as s) (hr : ∀ r ∈ rounds, r.StOk)
    (he : sSolve cfg rounds s = some (s', res)) (hs : res.status = some b)
    (h' : History .plain F as sys) (hc' : cfg'.preprocessing = false)
    (hr' : ∀ r ∈ rounds', r.Valid ∧ r.inprocess = none)
    (he' : solve cfg' pre rounds' sys = some (sys', res')) (hs' : res'.status = some b') :
    b = b' := by
  have hb' := (C23_answers_agree_partial h' h' hc' hc' hr' hr' he' he' hs' hs').2
  have hb : b = true ↔ Satisfiable (F ++ unitsOf as) := by
    cases b with
    | false =>
      simp only [Bool.false_eq_true, false_iff]
      exact (C56_static_unsat_partial h hr he hs).2.2
    | true =>
      simp only [true_iff]
      obtain ⟨m1, m2, _⟩ := C56_static_sat_partial h hr he hs
      refine PSat.satisfiable (m := res.model) ?_
      intro c hc
      rcases List.mem_append.1 hc with hc | hc
      · exact m1 c hc
      · simp only [unitsOf, List.mem_map] at hc
        obtain ⟨l, hl, rfl⟩ := hc
        exact ⟨l, by simp, m2 l hl⟩
  rw [← hb'] at hb
  cases b <;> cases b' <;> simp_all

/-! ## Non-vacuity -/

theorem exRound_stOk : exRound.StOk := ⟨exRound_valid, rfl⟩
theorem exRestart_stOk : exRestart.StOk := ⟨exRestart_valid, rfl⟩

/-- Observable part of a result. -/
def sAnswer (x : Option (St × Result)) : Option (Option Bool × List (Option Bool) × List Lit) :=
  x.map fun y => (y.2.status, (List.range 4).map y.2.model, y.2.conflict)

/-- A new solver with some clauses. -/
def exSt (nv : Nat) (G : CNF) (as : List Lit) : St := ((St.new true).init nv G).assume as

/-- C56 SAT: an interrupted round, then a model. -/
example : sAnswer (sSolve plainCfg [exRestart, exRound] (exSt 3 exF [])) =
    some (some true, [some true, some true, some false, none], []) := by decide +kernel

/-- C56 UNSAT: with a core. -/
example : sAnswer (sSolve plainCfg [exRound] (exSt 3 exF [lit 3, lit (-2)])) =
    some (some false, [none, none, none, none], [lit 2, lit (-3)]) := by decide +kernel

/-- C56: no answer. -/
example : sAnswer (sSolve plainCfg [exRestart] (exSt 3 exF [])) =
    some (none, [none, none, none, none], []) := by decide +kernel

/-- The hypotheses of C56 hold for these calls. -/
example : SHistory exF [lit 3, lit (-2)] (exSt 3 exF [lit 3, lit (-2)]) := by
  have := (SHistory.new true).add 3 exF (wfCNF_of (by decide))
  rw [List.nil_append] at this
  exact this.assume _ (by decide +kernel)

/-- The first state of the search of the solver above, after `k` iterations. -/
def exSearch (nv : Nat) (G : CNF) : Nat → Option St
  | 0 => (sMaterialize (sReduceStep {} exRound { sSolveStart (exSt nv G []) with
      sol := { (sSolveStart (exSt nv G [])).sol with
        trail := (sSolveStart (exSt nv G [])).sol.trail.reset } })).bind fun s =>
      if s.sol.db.hasEmpty then none else some s
  | k + 1 => (exSearch nv G k).bind fun s =>
      match sSearchIter s exChoice with
      | some (.cont s') => some s'
      | _ => none

theorem exSearch_searching {nv : Nat} {G : CNF} (hG : wfCNFb nv G = true)
    (hE : (sSolveStart (exSt nv G [])).sol.db.hasEmpty = false) :
    ∀ k s, exSearch nv G k = some s → SSearching G [] s
  | 0, s, h => by
    unfold exSearch at h
    obtain ⟨s1, h1, h⟩ := Option.bind_eq_some_iff.1 h
    split at h
    · simp at h
    · rename_i hE'
      simp only [Option.some.injEq] at h
      subst h
      have hh : SHistory G [] (exSt nv G []) := by
        have := (SHistory.new true).add nv G (by simpa [St.new, DB.new] using wfCNF_of hG)
        rw [List.nil_append] at this
        exact this.assume [] (by simp)
      exact .start (.enter hh hE) _ _ exRound_stOk h1 (by simpa using hE')
  | k + 1, s, h => by
    unfold exSearch at h
    obtain ⟨s1, h1, h⟩ := Option.bind_eq_some_iff.1 h
    split at h
    · rename_i s' he
      simp only [Option.some.injEq] at h
      subst h
      exact .iter (exSearch_searching hG hE k s1 h1) exChoice exChoice_valid he
    · simp at h

/-- C55: a search state in which ¬1 was decided: propagation adds ¬2 because of 1 ∨ ¬2, then 3 because of
the long clause 1 ∨ 2 ∨ 3, and reports the falsified clause 1 ∨ 2 ∨ ¬3. -/
example : ∃ s W T c, SSearching exF [] s ∧ runStatic s = some ((W, T), some c) ∧
    (s.sol.db.store c).lits = [1, 2, -3].map lit := by
  have h : (exSearch 3 exF 1).isSome = true := by decide +kernel
  obtain ⟨s, hs⟩ := Option.isSome_iff_exists.1 h
  have hS := exSearch_searching (by decide) (by decide +kernel) 1 s hs
  have hr : ((exSearch 3 exF 1).bind fun s => (runStatic s).bind fun x => x.2.map fun c =>
      (s.sol.db.store c).lits) = some ([1, 2, -3].map lit) := by decide +kernel
  rw [hs, Option.bind_some] at hr
  obtain ⟨x, h1, h2⟩ := Option.bind_eq_some_iff.1 hr
  obtain ⟨c, h3, h4⟩ := Option.map_eq_some_iff.1 h2
  obtain ⟨⟨W, T⟩, cf⟩ := x
  simp only at h3
  subst h3
  exact ⟨s, W, T, c, hS, h1, h4⟩

/-- C55: a search state in which propagation ends without conflict although there is a clause with
three literals, two of them unassigned, after a watch has been moved. -/
example : ∃ s W T, SSearching (cnf [[1, 2, 3, 4]]) [] s ∧ runStatic s = some ((W, T), none) ∧
    (s.W.tab 0).w0 = lit 1 ∧ (W.tab 0).w0 = lit 3 ∧ T.value (lit 3) = none ∧ T.value (lit 4) = none
    := by
  have h : (exSearch 4 (cnf [[1, 2, 3, 4]]) 1).isSome = true := by decide +kernel
  obtain ⟨s, hs⟩ := Option.isSome_iff_exists.1 h
  have hS := exSearch_searching (by decide) (by decide +kernel) 1 s hs
  have hr : ((exSearch 4 (cnf [[1, 2, 3, 4]]) 1).bind fun s => (runStatic s).bind fun x =>
      if x.2 = none then some ((s.W.tab 0).w0, (x.1.1.tab 0).w0, x.1.2.value (lit 3),
        x.1.2.value (lit 4)) else none) = some (lit 1, lit 3, none, none) := by decide +kernel
  rw [hs, Option.bind_some] at hr
  obtain ⟨x, h1, h2⟩ := Option.bind_eq_some_iff.1 hr
  obtain ⟨⟨W, T⟩, cf⟩ := x
  simp only at h2
  split at h2
  · rename_i hcf
    subst hcf
    simp only [Option.some.injEq, Prod.mk.injEq] at h2
    obtain ⟨a, b, c, d⟩ := h2
    exact ⟨s, W, T, hS, h1, a, b, c, d⟩
  · simp at h2

end Candy
