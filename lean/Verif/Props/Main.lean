import Verif.Model.Main
import Verif.Props.Ipasir
import Verif.Props.Dimacs
import Verif.Props.Drat

/-!
# C50: status line, model line and exit status of the command line solver

The statements go from the characters of the input file to the characters of the output: `InputFile`
(below) and `Layout`, `ClauseText` (SpecDimacs.lean) say what the texts mean. As everywhere in the search
model, clauses have fewer than 65536 literals (C48).
-/

namespace Candy

/-- The text `file` represents the formula `f` and meets the conditions under which the parser reads it
correctly (C04, C06): one line per clause and lines shorter than the read buffer `mem`, or a file smaller
than the buffer. `fuel` bounds the iterations of the reader. -/
structure InputFile (mem : List Char) (fuel : Nat) (file : List Char) (f : CNF) : Prop where
  buffer : 0 < mem.length
  fuel : file.length < fuel
  text : (Layout false file f ∧ LinesFit mem.length file) ∨ (Layout true file f ∧ file.length < mem.length)

theorem InputFile.read {mem file : List Char} {fuel : Nat} {f : CNF} (h : InputFile mem fuel file f) :
    readDimacs mem fuel file = .ok (Problem.empty.readClauses f) := by
  rcases h.text with ⟨h1, h2⟩ | ⟨h1, h2⟩
  · exact C04_layout_partial _ h.buffer mem file f rfl h1 h2 fuel h.fuel
  · exact C04_layout_small_partial _ mem file f rfl h1 h2 fuel h.fuel

theorem ClauseText.small {m : Bool} {t : List Char} {c : Clause} (h : ClauseText m t c) :
    ∀ l ∈ c, l.var < 2 ^ 30 := by
  induction h with
  | zero => simp
  | lit h1 h2 h3 h4 h5 ih =>
    intro l hl
    rcases List.mem_cons.1 hl with rfl | hl
    · show _ - 1 < _
      omega
    · exact ih l hl

theorem Layout.small {m : Bool} {t : List Char} {f : CNF} (h : Layout m t f) :
    ∀ c ∈ f, ∀ l ∈ c, l.var < 2 ^ 30 := by
  induction h with
  | nil => simp
  | space _ _ ih => exact ih
  | comment _ _ _ _ ih => exact ih
  | lastComment => simp
  | header _ _ _ _ _ _ _ _ ih => exact ih
  | clause h1 _ _ ih =>
    intro c hc
    rcases List.mem_cons.1 hc with rfl | hc
    · exact h1.small
    · exact ih c hc

theorem readClauses_wf (f : CNF) :
    WfCNF (Problem.empty.readClauses f).nVars (Problem.empty.readClauses f).problem := by
  have : ∀ (g : CNF) (p : Problem), WfCNF p.nVars p.problem →
      WfCNF (p.readClauses g).nVars (p.readClauses g).problem := by
    intro g
    induction g with
    | nil => intro p h; exact h
    | cons c g ih => intro p h; exact ih _ (readClause_wf h c)
  exact this f _ (by simp [WfCNF, Problem.empty])

theorem main_history (u : Usage) (hf : u.flag true) (f : CNF) :
    let p := Problem.empty.readClauses f
    History u p.problem [] ((Sys.new true).init p.nVars p.problem) := by
  intro p
  have := (History.new (u := u) true).add p.nVars p.problem true hf (fun c hc =>
    ⟨fun l hl => by have := (readClauses_wf f c hc).1 l hl; exact Nat.lt_of_lt_of_le this (Nat.le_max_right _ _),
      (readClauses_wf f c hc).2⟩)
  exact this

theorem main_nVars (f : CNF) :
    ((Sys.new true).init (Problem.empty.readClauses f).nVars (Problem.empty.readClauses f).problem).sol.db.nVars
      = (Problem.empty.readClauses f).nVars := by
  have h := (History.new (u := .any) true).ok Usage.any_valid
  have := (init_sound h.ok (nv := (Problem.empty.readClauses f).nVars) (G := (Problem.empty.readClauses f).problem)
    (lem := true) (fun c hc => ⟨fun l hl => Nat.lt_of_lt_of_le ((readClauses_wf f c hc).1 l hl) (Nat.le_max_right _ _),
      (readClauses_wf f c hc).2⟩)).2.1
  rw [this]
  simp [Sys.new, DB.new]

/-- What `mainSolve` does after the early exits. -/
theorem main_cases {opt : MainOptions} {mem file : List Char} {fuel : Nat} {pre : List PreRound}
    {rounds : List Round} {out : List (List Char)} {code : Nat}
    (h : mainSolve opt mem fuel pre rounds file = .ok (out, code)) :
    (out = ["c Caught Parser Exception: ".toList] ∧ code = 1) ∨
    (out = ["c Number of variables surpasses testing limit".toList] ∧ code = 0 ∧ 0 < opt.testLimit) ∨
    (out = [] ∧ code = 0 ∧ opt.gateStats = true) ∨
    ∃ p sys res, readDimacs mem fuel file = .ok p ∧
      solve opt.solver pre rounds ((Sys.new true).init p.nVars p.problem) = some (sys, res) ∧
      ((opt.printModel = true ∧ res.status = some true ∧ ∃ l, modelLine p (res.vector p.nVars) = some l ∧
          mainCheck opt mem fuel p sys res [statusLine res.status, l] = .ok (out, code)) ∨
        (¬ (opt.printModel = true ∧ res.status = some true) ∧
          mainCheck opt mem fuel p sys res [statusLine res.status] = .ok (out, code))) := by
  unfold mainSolve at h
  split at h
  · simp only [Out.ok.injEq, Prod.mk.injEq] at h; exact .inl ⟨h.1.symm, h.2.symm⟩
  · simp at h
  · simp at h
  · simp at h
  · rename_i p hp
    split at h
    · rename_i hl
      simp only [Out.ok.injEq, Prod.mk.injEq] at h
      exact .inr (.inl ⟨h.1.symm, h.2.symm, hl.1⟩)
    · split at h
      · rename_i hg
        simp only [Out.ok.injEq, Prod.mk.injEq] at h
        exact .inr (.inr (.inl ⟨h.1.symm, h.2.symm, hg⟩))
      · split at h
        · simp at h
        · rename_i sys res hs
          refine .inr (.inr (.inr ⟨p, sys, res, hp, hs, ?_⟩))
          split at h
          · rename_i hm
            split at h
            · simp at h
            · rename_i l hl
              exact .inl ⟨hm.1, hm.2, l, hl, h⟩
          · rename_i hm
            exact .inr ⟨hm, h⟩

/-- What `mainCheck` adds: at most one comment line. -/
theorem mainCheck_cases {opt : MainOptions} {mem : List Char} {fuel : Nat} {p : Problem} {sys : Sys}
    {res : Result} {out0 out : List (List Char)} {code : Nat}
    (h : mainCheck opt mem fuel p sys res out0 = .ok (out, code)) :
    (opt.testModel = true ∧ res.status = some true ∧
      ((p.checkResult (res.vector p.nVars) = some true ∧
          out = out0 ++ ["c Result verified by model checker".toList] ∧ code = 0) ∨
        (p.checkResult (res.vector p.nVars) = some false ∧
          out = out0 ++ ["c Result could not be verified by model checker".toList] ∧ code = 1))) ∨
    (opt.testProof = true ∧ res.status = some false ∧
      ((checkProof mem fuel p.nVars p.problem (certificateText sys.sol.db.log) = .ok true ∧
          out = out0 ++ ["c Result verified by proof checker".toList] ∧ code = 0) ∨
        (checkProof mem fuel p.nVars p.problem (certificateText sys.sol.db.log) = .ok false ∧
          out = out0 ++ ["c Result could not be verified by proof checker".toList] ∧ code = 1))) ∨
    (¬ (opt.testModel = true ∧ res.status = some true) ∧ ¬ (opt.testProof = true ∧ res.status = some false) ∧
      out = out0 ∧ code = exitCode res.status) := by
  unfold mainCheck at h
  split at h
  · rename_i ht
    refine .inl ⟨ht.1, ht.2, ?_⟩
    split at h
    · simp at h
    · rename_i hc; simp only [Out.ok.injEq, Prod.mk.injEq] at h; exact .inl ⟨hc, h.1.symm, h.2.symm⟩
    · rename_i hc; simp only [Out.ok.injEq, Prod.mk.injEq] at h; exact .inr ⟨hc, h.1.symm, h.2.symm⟩
  · rename_i ht
    split at h
    · rename_i hp
      refine .inr (.inl ⟨hp.1, hp.2, ?_⟩)
      obtain ⟨b, hb, h⟩ := Out.bind_ok h
      cases b with
      | true => simp only [if_true, Out.ok.injEq, Prod.mk.injEq] at h; exact .inl ⟨hb, h.1.symm, h.2.symm⟩
      | false => simp only [Bool.false_eq_true, if_false, Out.ok.injEq, Prod.mk.injEq] at h; exact .inr ⟨hb, h.1.symm, h.2.symm⟩
    · rename_i hp
      simp only [Out.ok.injEq, Prod.mk.injEq] at h
      exact .inr (.inr ⟨ht, hp, h.1.symm, h.2.symm⟩)

/-- The lines of the output other than the status and model lines are comments. -/
theorem mainCheck_mem {opt : MainOptions} {mem : List Char} {fuel : Nat} {p : Problem} {sys : Sys}
    {res : Result} {out0 out : List (List Char)} {code : Nat}
    (h : mainCheck opt mem fuel p sys res out0 = .ok (out, code)) :
    (∀ l ∈ out0, l ∈ out) ∧ ∀ l ∈ out, l.head? ≠ some 'c' → l ∈ out0 := by
  rcases mainCheck_cases h with ⟨_, _, h | h⟩ | ⟨_, _, h | h⟩ | ⟨_, _, h, _⟩
  all_goals first
    | (obtain ⟨_, rfl, _⟩ := h
       refine ⟨fun l hl => by simp [hl], fun l hl hc => ?_⟩
       rcases List.mem_append.1 hl with hl | hl
       · exact hl
       · simp only [List.mem_singleton] at hl
         subst hl
         exact absurd rfl hc)
    | (subst h; exact ⟨fun _ hl => hl, fun _ hl _ => hl⟩)

theorem modelLine_head {p : Problem} {r : SolverResult} {l : List Char} (h : modelLine p r = some l) :
    l.head? = some 'v' := by
  unfold modelLine at h
  obtain ⟨t, _, rfl⟩ := Option.map_eq_some_iff.1 h
  rfl

theorem statusLine_inj {a b : Option Bool} (h : statusLine a = statusLine b) : a = b := by
  revert h
  rcases a with _ | (_ | _) <;> rcases b with _ | (_ | _) <;> decide

theorem statusLine_head (a : Option Bool) : (statusLine a).head? = some 's' := by
  rcases a with _ | (_ | _) <;> rfl

/-- A status line tells the status of the result. -/
theorem main_status {opt : MainOptions} {mem file : List Char} {fuel : Nat} {pre : List PreRound}
    {rounds : List Round} {out : List (List Char)} {code : Nat} {b : Option Bool}
    (h : mainSolve opt mem fuel pre rounds file = .ok (out, code)) (hb : statusLine b ∈ out) :
    ∃ p sys res, readDimacs mem fuel file = .ok p ∧
      solve opt.solver pre rounds ((Sys.new true).init p.nVars p.problem) = some (sys, res) ∧ res.status = b := by
  have hb0 := statusLine_head b
  rcases main_cases h with ⟨rfl, _⟩ | ⟨rfl, _⟩ | ⟨rfl, _⟩ | ⟨p, sys, res, hp, hs, h1 | h1⟩
  · simp only [List.mem_singleton] at hb
    rw [hb] at hb0; exact absurd hb0 (by decide)
  · simp only [List.mem_singleton] at hb
    rw [hb] at hb0; exact absurd hb0 (by decide)
  · simp at hb
  · obtain ⟨_, _, l, hl, h2⟩ := h1
    refine ⟨p, sys, res, hp, hs, ?_⟩
    have := (mainCheck_mem h2).2 _ hb (by rw [hb0]; decide)
    simp only [List.mem_cons, List.not_mem_nil, or_false] at this
    rcases this with h3 | h3
    · exact (statusLine_inj h3).symm
    · have := modelLine_head hl
      rw [← h3, hb0] at this
      exact absurd this (by decide)
  · refine ⟨p, sys, res, hp, hs, ?_⟩
    have := (mainCheck_mem h1.2).2 _ hb (by rw [hb0]; decide)
    simp only [List.mem_cons, List.not_mem_nil, or_false] at this
    exact (statusLine_inj this).symm

/-! ## The verdict -/

/-- **C50 (UNSATISFIABLE).** If the program prints `s UNSATISFIABLE` for a file, the formula in the file is
unsatisfiable; for all options and all decisions of the heuristics. -/
theorem C50_unsat {opt : MainOptions} {mem file : List Char} {fuel : Nat} {pre : List PreRound}
    {rounds : List Round} {out : List (List Char)} {code : Nat} {f : CNF} (hf : InputFile mem fuel file f)
    (hr : ∀ r ∈ rounds, r.Valid) (h : mainSolve opt mem fuel pre rounds file = .ok (out, code))
    (hb : "s UNSATISFIABLE".toList ∈ out) : ¬ Satisfiable f := by
  obtain ⟨p, sys, res, hp, hs, hst⟩ := main_status (b := some false) h hb
  rw [hf.read] at hp
  simp only [Out.ok.injEq] at hp
  subst hp
  have := C19_unsat_sound (main_history .any trivial f) hr hs hst
  rintro ⟨a, ha⟩
  exact this ⟨a, (C03_meaning f a).2 ha⟩

/-- **C50 (SATISFIABLE), partial.** If the program prints `s SATISFIABLE`, the formula in the file is
satisfiable. Restriction as in C20: no inprocessing, and at most one round of preprocessing or no variable
elimination. -/
theorem C50_sat_partial {opt : MainOptions} {mem file : List Char} {fuel : Nat} {pre : List PreRound}
    {rounds : List Round} {out : List (List Char)} {code : Nat} {f : CNF} (hf : InputFile mem fuel file f)
    (hc : FirstCall pre rounds)
    (h1 : pre.length ≤ 1 ∨ opt.solver.useElim = false ∨ opt.solver.preprocessing = false)
    (h : mainSolve opt mem fuel pre rounds file = .ok (out, code))
    (hb : "s SATISFIABLE".toList ∈ out) : Satisfiable f := by
  obtain ⟨p, sys, res, hp, hs, hst⟩ := main_status (b := some true) h hb
  rw [hf.read] at hp
  simp only [Out.ok.injEq] at hp
  subst hp
  have := (C23_first_answer_partial (main_history .fresh rfl f) hc h1 hs hst).1 rfl
  obtain ⟨a, ha⟩ := this
  rw [sat_append] at ha
  exact ⟨a, (C03_meaning f a).1 ha.1⟩

/-! ## The model line -/

theorem vectorLength_le (m : PAssign) (n : Nat) : vectorLength m n ≤ n := by
  induction n with
  | zero => exact Nat.le_refl _
  | succ n ih => rw [vectorLength]; split <;> omega

theorem vectorLength_full {m : PAssign} {n : Nat} (h : ∀ v < n, m v ≠ none) : vectorLength m n = n := by
  cases n with
  | zero => rfl
  | succ n =>
    rw [vectorLength, if_pos]
    exact Option.isSome_iff_ne_none.2 (h n (by omega))

theorem vector_value {res : Result} {n : Nat} (h : ∀ v < n, res.model v ≠ none) {v : Nat} (hv : v < n) :
    (res.vector n).value v = some (some ⟨v, !((res.model v).getD false)⟩) := by
  obtain ⟨b, hb⟩ := Option.ne_none_iff_exists'.1 (h v hv)
  have : (res.vector n).model[v]? = some (if b then LBool.T else LBool.F) := by
    simp only [Result.vector, vectorLength_full h, List.getElem?_map, List.getElem?_range hv, Option.map_some, hb]
    cases b <;> rfl
  rw [SolverResult.value, this, hb]
  cases b <;> rfl

theorem valueTexts_eq {res : Result} {n : Nat} (h : ∀ v < n, res.model v ≠ none) :
    ∀ vs : List Nat, (∀ v ∈ vs, v < n) →
    ∃ t, valueTexts (res.vector n) vs = some t ∧
      t ++ [' ', '0'] ++ ['\n'] = ' ' :: clauseLine (vs.map fun v => ⟨v, !((res.model v).getD false)⟩) := by
  intro vs
  induction vs with
  | nil => intro _; exact ⟨[], rfl, rfl⟩
  | cons v vs ih =>
    intro hvs
    obtain ⟨t, h1, h2⟩ := ih fun w hw => hvs w (List.mem_cons_of_mem _ hw)
    refine ⟨' ' :: (litText ⟨v, !((res.model v).getD false)⟩ ++ t), ?_, ?_⟩
    · rw [valueTexts, vector_value h (hvs v (by simp))]
      simp only [h1, Option.map_some, valueText]
    · have e : clauseLine ((v :: vs).map fun v => (⟨v, !((res.model v).getD false)⟩ : Lit)) =
          litText ⟨v, !((res.model v).getD false)⟩ ++ (' ' :: clauseLine (vs.map fun v => ⟨v, !((res.model v).getD false)⟩)) := by
        simp [clauseLine]
      rw [e, ← h2]
      simp

theorem readClauses_small {f : CNF} (h : ∀ c ∈ f, ∀ l ∈ c, l.var < 2 ^ 30) :
    (Problem.empty.readClauses f).nVars ≤ 2 ^ 30 := by
  have : ∀ (g : CNF) (p : Problem), p.nVars ≤ 2 ^ 30 → (∀ c ∈ g, ∀ l ∈ c, l.var < 2 ^ 30) →
      (p.readClauses g).nVars ≤ 2 ^ 30 := by
    intro g
    induction g with
    | nil => intro p h _; exact h
    | cons c g ih =>
      intro p hp hg
      refine ih _ ?_ fun d hd => hg d (List.mem_cons_of_mem _ hd)
      rw [Problem.readClause]
      split
      · exact hp
      · rename_i back hb
        have hm : back ∈ c := by
          have := List.mem_of_getLast? hb
          exact mem_sortLits.1 this
        have := hg c (by simp) back hm
        have hp' : p.variables ≤ 2 ^ 30 := hp
        dsimp only
        split <;> (show max p.variables (back.var + 1) ≤ _; omega)
  exact this f _ (by simp [Problem.empty, Problem.nVars]) h

/-- **C50 (model), partial.** When the formula is reported satisfiable and models are to be printed, the
output has exactly one line beginning with `v`, and it lists the literals of one assignment of all variables
that satisfies the formula of the file, each variable once and in order, ended by 0. Restrictions as for
`C50_sat_partial`. -/
theorem C50_model_partial {opt : MainOptions} {mem file : List Char} {fuel : Nat} {pre : List PreRound}
    {rounds : List Round} {out : List (List Char)} {code : Nat} {f : CNF} (hf : InputFile mem fuel file f)
    (hc : FirstCall pre rounds)
    (h1 : pre.length ≤ 1 ∨ opt.solver.useElim = false ∨ opt.solver.preprocessing = false)
    (h : mainSolve opt mem fuel pre rounds file = .ok (out, code))
    (hb : "s SATISFIABLE".toList ∈ out) (hm : opt.printModel = true) :
    ∃ (a : Assign) (n : Nat) (txt : List Char), Sat a f ∧ (∀ c ∈ f, ∀ l ∈ c, l.var < n) ∧
      ClauseText false txt ((List.range n).map fun v => ⟨v, !a v⟩) ∧
      out.filter (fun l => l.head? == some 'v') = ['v' :: ' ' :: txt] := by
  obtain ⟨p, sys, res, hp, hs, hst⟩ := main_status (b := some true) h hb
  rcases main_cases h with ⟨rfl, _⟩ | ⟨rfl, _⟩ | ⟨rfl, _⟩ | ⟨p', sys', res', hp', hs', h2⟩
  · exact absurd hb (by decide)
  · exact absurd hb (by decide)
  · exact absurd hb (by simp)
  rw [hp] at hp'
  simp only [Out.ok.injEq] at hp'
  rw [← hp'] at hs' h2
  clear hp'
  rw [hs] at hs'
  simp only [Option.some.injEq, Prod.mk.injEq] at hs'
  obtain ⟨rfl, rfl⟩ := hs'
  have h2 : ∃ l, modelLine p (res.vector p.nVars) = some l ∧
      mainCheck opt mem fuel p sys res [statusLine res.status, l] = .ok (out, code) := by
    rcases h2 with ⟨_, _, h2⟩ | ⟨h2, _⟩
    · exact h2
    · exact absurd ⟨hm, hst⟩ h2
  obtain ⟨l, hl, h2⟩ := h2
  rw [hf.read] at hp
  simp only [Out.ok.injEq] at hp
  subst hp
  have hh := main_history .fresh rfl f
  obtain ⟨m1, _, m3⟩ := C20_first_solve_rounds_partial hh hc h1 hs hst
  have hn : ((Sys.new true).init (Problem.empty.readClauses f).nVars (Problem.empty.readClauses f).problem).sol.db.nVars
      = (Problem.empty.readClauses f).nVars := main_nVars f
  rw [hn] at m3
  obtain ⟨t, t1, t2⟩ := valueTexts_eq m3 (List.range (Problem.empty.readClauses f).nVars) (by simp)
  have hlay : ∀ c ∈ f, ∀ l ∈ c, l.var < 2 ^ 30 := by
    rcases hf.text with ⟨k, _⟩ | ⟨k, _⟩ <;> exact k.small
  have hsm := readClauses_small hlay
  obtain ⟨txt, t3, t4⟩ := clauseLine_text (c := (List.range (Problem.empty.readClauses f).nVars).map
    fun v => ⟨v, !((res.model v).getD false)⟩) (by
      intro l hl
      obtain ⟨v, hv, rfl⟩ := List.mem_map.1 hl
      have := List.mem_range.1 hv
      show v < _
      omega)
  rw [t3] at t2
  have t5 : t ++ [' ', '0'] = ' ' :: txt := by
    have : (t ++ [' ', '0']) ++ ['\n'] = (' ' :: txt) ++ ['\n'] := by simpa using t2
    exact List.append_cancel_right this
  have hline : l = 'v' :: ' ' :: txt := by
    rw [modelLine, t1, Option.map_some, t5] at hl
    simpa using hl.symm
  refine ⟨fun v => (res.model v).getD false, (Problem.empty.readClauses f).nVars, txt, ?_, ?_, t4, ?_⟩
  · rw [← C03_meaning]
    intro c hcm
    obtain ⟨x, hx, h3⟩ := m1 c hcm
    refine ⟨x, hx, ?_⟩
    unfold Lit.trueIn at h3
    show (res.model x.var).getD false = _
    rw [h3]; rfl
  · exact (C03_nVars f).1
  · rw [hst] at h2
    have e : [statusLine (some true), l].filter (fun l => l.head? == some 'v') = ['v' :: ' ' :: txt] := by
      rw [hline]; rfl
    rcases mainCheck_cases h2 with ⟨_, _, h | h⟩ | ⟨_, _, h | h⟩ | ⟨_, _, h, _⟩
    all_goals first
      | (obtain ⟨_, rfl, _⟩ := h
         rw [List.filter_append, e]; rfl)
      | (subst h; exact e)

/-! ## The exit status -/

/-- **C50 (exit status), partial.** For every file and every option, as long as neither `test_model` nor
`test_proof` is set: the exit status is 10, 20 or 0 according to the one status line that is printed; if none
is printed (unreadable file, testing limit, gate statistics) it is 0 or 1. Missing: the two options for
testing, see `C50_exit_status_fails` and `C50_exit_status_tests`. -/
theorem C50_exit_status_partial {opt : MainOptions} {mem file : List Char} {fuel : Nat} {pre : List PreRound}
    {rounds : List Round} {out : List (List Char)} {code : Nat}
    (h : mainSolve opt mem fuel pre rounds file = .ok (out, code))
    (h1 : opt.testModel = false) (h2 : opt.testProof = false) :
    (code = 10 ∧ out.filter (fun l => l.head? == some 's') = ["s SATISFIABLE".toList]) ∨
    (code = 20 ∧ out.filter (fun l => l.head? == some 's') = ["s UNSATISFIABLE".toList]) ∨
    (code = 0 ∧ out.filter (fun l => l.head? == some 's') = ["s INDETERMINATE".toList]) ∨
    (code ≤ 1 ∧ out.filter (fun l => l.head? == some 's') = []) := by
  have key : ∀ {p sys res out0}, mainCheck opt mem fuel p sys res out0 = .ok (out, code) →
      out = out0 ∧ code = exitCode res.status := by
    intro p sys res out0 h
    rcases mainCheck_cases h with ⟨h3, _⟩ | ⟨h3, _⟩ | ⟨_, _, h3⟩
    · rw [h1] at h3; exact absurd h3 (by decide)
    · rw [h2] at h3; exact absurd h3 (by decide)
    · exact h3
  rcases main_cases h with ⟨rfl, rfl⟩ | ⟨rfl, rfl, _⟩ | ⟨rfl, rfl, _⟩ | ⟨p, sys, res, hp, hs, h3 | h3⟩
  · exact .inr (.inr (.inr ⟨Nat.le_refl _, rfl⟩))
  · exact .inr (.inr (.inr ⟨Nat.zero_le _, rfl⟩))
  · exact .inr (.inr (.inr ⟨Nat.zero_le _, rfl⟩))
  · obtain ⟨_, hst, l, hl, h3⟩ := h3
    obtain ⟨rfl, rfl⟩ := key h3
    refine .inl ?_
    rw [hst]
    refine ⟨rfl, ?_⟩
    have e := modelLine_head hl
    simp only [List.filter_cons, e]
    rfl
  · obtain ⟨rfl, rfl⟩ := key h3.2
    rcases res.status with _ | (_ | _)
    · exact .inr (.inr (.inl ⟨rfl, rfl⟩))
    · exact .inr (.inl ⟨rfl, rfl⟩)
    · exact .inl ⟨rfl, rfl⟩

/-- **C50 (exit status with tests).** With `test_model` a SATISFIABLE verdict, and with `test_proof` an
UNSATISFIABLE verdict, is followed by a line with the result of the check; the exit status is 0 if the check
succeeded and 1 if it failed. -/
theorem C50_exit_status_tests {opt : MainOptions} {mem file : List Char} {fuel : Nat} {pre : List PreRound}
    {rounds : List Round} {out : List (List Char)} {code : Nat}
    (h : mainSolve opt mem fuel pre rounds file = .ok (out, code)) :
    (opt.testModel = true → "s SATISFIABLE".toList ∈ out →
      (code = 0 ∧ "c Result verified by model checker".toList ∈ out) ∨
      (code = 1 ∧ "c Result could not be verified by model checker".toList ∈ out)) ∧
    (opt.testProof = true → "s UNSATISFIABLE".toList ∈ out →
      (code = 0 ∧ "c Result verified by proof checker".toList ∈ out) ∨
      (code = 1 ∧ "c Result could not be verified by proof checker".toList ∈ out)) := by
  have key : ∀ b, statusLine b ∈ out → ∃ p sys res out0, mainCheck opt mem fuel p sys res out0 = .ok (out, code) ∧
      res.status = b := by
    intro b hb
    obtain ⟨p, sys, res, hp, hs, hst⟩ := main_status (b := b) h hb
    have hb0 := statusLine_head b
    rcases main_cases h with ⟨rfl, _⟩ | ⟨rfl, _⟩ | ⟨rfl, _⟩ | ⟨p', sys', res', hp', hs', h2⟩
    · simp only [List.mem_singleton] at hb
      rw [hb] at hb0; exact absurd hb0 (by decide)
    · simp only [List.mem_singleton] at hb
      rw [hb] at hb0; exact absurd hb0 (by decide)
    · simp at hb
    · rw [hp] at hp'
      simp only [Out.ok.injEq] at hp'
      rw [← hp'] at hs' h2
      rw [hs] at hs'
      simp only [Option.some.injEq, Prod.mk.injEq] at hs'
      obtain ⟨rfl, rfl⟩ := hs'
      rcases h2 with ⟨_, _, l, _, h2⟩ | ⟨_, h2⟩
      · exact ⟨_, _, _, _, h2, hst⟩
      · exact ⟨_, _, _, _, h2, hst⟩
  constructor
  · intro ht hb
    obtain ⟨p, sys, res, out0, h1, hst⟩ := key (some true) hb
    rcases mainCheck_cases h1 with ⟨_, _, ⟨_, rfl, rfl⟩ | ⟨_, rfl, rfl⟩⟩ | ⟨_, h3, _⟩ | ⟨h3, _⟩
    · exact .inl ⟨rfl, by simp⟩
    · exact .inr ⟨rfl, by simp⟩
    · rw [hst] at h3; exact absurd h3 (by decide)
    · exact absurd ⟨ht, hst⟩ h3
  · intro ht hb
    obtain ⟨p, sys, res, out0, h1, hst⟩ := key (some false) hb
    rcases mainCheck_cases h1 with ⟨_, h3, _⟩ | ⟨_, _, ⟨_, rfl, rfl⟩ | ⟨_, rfl, rfl⟩⟩ | ⟨_, h3, _⟩
    · rw [hst] at h3; exact absurd h3 (by decide)
    · exact .inl ⟨rfl, by simp⟩
    · exact .inr ⟨rfl, by simp⟩
    · exact absurd ⟨ht, hst⟩ h3

theorem vector_assignment {res : Result} {n : Nat} (h : ∀ v < n, res.model v ≠ none) {v : Nat} (hv : v < n) :
    (res.vector n).assignment v = res.model v := by
  obtain ⟨b, hb⟩ := Option.ne_none_iff_exists'.1 (h v hv)
  have : (res.vector n).model[v]? = some (if b then LBool.T else LBool.F) := by
    simp only [Result.vector, vectorLength_full h, List.getElem?_map, List.getElem?_range hv, Option.map_some, hb]
    cases b <;> rfl
  rw [SolverResult.assignment, this, hb]
  cases b <;> rfl

theorem vector_proper (res : Result) (n : Nat) : ∀ x ∈ (res.vector n).model, LBool.Proper x := by
  intro x hx
  obtain ⟨v, _, rfl⟩ := List.mem_map.1 hx
  split <;> decide

/-- **C50 (checked models), partial.** With `test_model` the check of a SATISFIABLE verdict always succeeds
and nothing is read out of bounds: the program ends with the line of success. Restrictions as for
`C50_sat_partial`. -/
theorem C50_model_check_partial {opt : MainOptions} {mem file : List Char} {fuel : Nat} {pre : List PreRound}
    {rounds : List Round} {f : CNF} {sys : Sys} {res : Result} (hf : InputFile mem fuel file f)
    (hc : FirstCall pre rounds)
    (h1 : pre.length ≤ 1 ∨ opt.solver.useElim = false ∨ opt.solver.preprocessing = false)
    (hl : opt.testLimit ≤ 0) (hg : opt.gateStats = false) (ht : opt.testModel = true)
    (hs : solve opt.solver pre rounds ((Sys.new true).init (Problem.empty.readClauses f).nVars
      (Problem.empty.readClauses f).problem) = some (sys, res)) (hst : res.status = some true) :
    ∃ lines, mainSolve opt mem fuel pre rounds file =
      .ok (lines ++ ["c Result verified by model checker".toList], 0) ∧
      lines.head? = some "s SATISFIABLE".toList := by
  obtain ⟨m1, _, m3⟩ := C20_first_solve_rounds_partial (main_history .fresh rfl f) hc h1 hs hst
  rw [main_nVars] at m3
  have hchk : (Problem.empty.readClauses f).checkResult (res.vector (Problem.empty.readClauses f).nVars) = some true := by
    rw [C07_accepts _ _ (vector_proper _ _)]
    intro c hcm
    obtain ⟨l, hl, h2⟩ := m1 c hcm
    refine ⟨l, hl, ?_⟩
    unfold Lit.trueIn at h2 ⊢
    rw [vector_assignment m3 ((readClauses_wf f c hcm).1 l hl), h2]
  have hk : ∀ out0, mainCheck opt mem fuel (Problem.empty.readClauses f) sys res out0 =
      .ok (out0 ++ ["c Result verified by model checker".toList], 0) := by
    intro out0
    rw [mainCheck, if_pos ⟨ht, hst⟩, hchk]
  obtain ⟨t, t1, _⟩ := valueTexts_eq m3 (List.range (Problem.empty.readClauses f).nVars) (by simp)
  unfold mainSolve
  rw [hf.read]
  simp only [hs, hg, hst, and_true]
  rw [if_neg (by omega), if_neg (by decide)]
  cases hm : opt.printModel with
  | true =>
    simp only [if_true, modelLine, t1, Option.map_some, hk]
    exact ⟨_, rfl, rfl⟩
  | false =>
    simp only [Bool.false_eq_true, if_false, hk]
    exact ⟨_, rfl, rfl⟩

/-! ## Non-vacuity and the failing part -/

/-- A satisfiable and an unsatisfiable file, read through a buffer of 40 characters. -/
def exFile : List Char := "p cnf 2 2\n1 2 0\n-1 2 0\n".toList
def exFile2 : List Char := "c x\n1 2 0\n-1 2 0\n-2 0\n".toList

theorem exRead : readDimacs (List.replicate 40 'x') 60 exFile = .ok ⟨cnf [[1, 2], [-1, 2]], 2⟩ := by
  decide +kernel

theorem exRead2 : readDimacs (List.replicate 40 'x') 60 exFile2 = .ok ⟨cnf [[1, 2], [-1, 2], [-2]], 2⟩ := by
  decide +kernel

/-- The file meets the hypothesis of the theorems. -/
example : InputFile (List.replicate 40 'x') 60 exFile (cnf [[1, 2], [-1, 2]]) := by
  refine ⟨by simp, by decide +kernel, .inl ⟨?_, ?_⟩⟩
  · have := printDIMACS_layout (p := ⟨cnf [[1, 2], [-1, 2]], 2⟩) (by decide) (by decide) (by decide)
    exact this
  · intro i hi
    have e : exFile.length = 23 := by decide +kernel
    rw [e, List.length_replicate] at hi
    omega

example : mainSolve { printModel := true, solver := { preprocessing := false } } (List.replicate 40 'x') 60 [] [fdRound] exFile =
    .ok (["s SATISFIABLE".toList, "v -1 2 0".toList], 10) := by
  unfold mainSolve
  rw [exRead]
  decide +kernel

example : mainSolve {} (List.replicate 40 'x') 60 [exPre] [fdRound] exFile2 =
    .ok (["s UNSATISFIABLE".toList], 20) := by
  unfold mainSolve
  rw [exRead2]
  decide +kernel

example : mainSolve { printModel := true, testModel := true } (List.replicate 40 'x') 60 [exPre] [fdRound] exFile =
    .ok (["s SATISFIABLE".toList, "v -1 2 0".toList, "c Result verified by model checker".toList], 0) := by
  unfold mainSolve
  rw [exRead]
  decide +kernel

/-- **C50 fails (exit status with tests).** With `test_model` the exit status of a satisfiable formula is 0,
with `test_proof` that of an unsatisfiable formula is 0. -/
theorem C50_exit_status_fails :
    (∃ opt mem fuel pre rounds out, opt.testModel = true ∧ FirstCall pre rounds ∧
      mainSolve opt mem fuel pre rounds exFile = .ok (out, 0) ∧ "s SATISFIABLE".toList ∈ out) ∧
    (∃ opt mem fuel pre rounds out, opt.testProof = true ∧ FirstCall pre rounds ∧
      mainSolve opt mem fuel pre rounds exFile2 = .ok (out, 0) ∧ "s UNSATISFIABLE".toList ∈ out) := by
  have hc : FirstCall [] [fdRound] := ⟨by simp, by simp [fdRound_valid]; rfl, by simp; rfl⟩
  constructor
  · refine ⟨{ testModel := true, solver := { preprocessing := false } }, List.replicate 40 'x', 60, [], [fdRound],
      ["s SATISFIABLE".toList, "c Result verified by model checker".toList], rfl, hc, ?_, by simp⟩
    unfold mainSolve
    rw [exRead]
    decide +kernel
  · refine ⟨{ testProof := true, solver := { preprocessing := false } }, List.replicate 40 'x', 60, [], [fdRound],
      ["s UNSATISFIABLE".toList, "c Result verified by proof checker".toList], rfl, hc, ?_, by simp⟩
    unfold mainSolve
    rw [exRead2]
    decide +kernel

end Candy
