import Verif.Model.Ipasir
import Verif.Props.Answers
import Verif.Props.FirstSolve
import Verif.Props.Problem
import Verif.Props.Findings

/-!
# C30: the incremental C interface

`Given` is the specification: what a caller has handed over with a sequence of calls. The theorems range
over every sequence of calls that the solver survives without undefined behaviour.
-/

namespace Candy

/-- What the calls so far have specified: the closed clauses, the literals of the clause being entered and
the assumptions for the next call of `solve`. -/
structure Given where
  clauses : CNF
  current : Clause
  assumptions : List Lit

/-- The literal named by a non-zero number. -/
def intLit (i : Int) : Lit := ⟨i.natAbs - 1, decide (i < 0)⟩

/-- Effect of a call on the specification: 0 ends a clause; `solve` uses up the assumptions. -/
def Given.call (g : Given) : ICall → Given
  | .add i => if i = 0 then ⟨g.clauses ++ [g.current], [], g.assumptions⟩
      else { g with current := g.current ++ [intLit i] }
  | .assume i => { g with assumptions := g.assumptions ++ [intLit i] }
  | .solve .. => { g with assumptions := [] }
  | _ => g

def Given.of (cs : List ICall) : Given := cs.foldl Given.call ⟨[], [], []⟩

/-- The calls of `solve` use inputs that are allowed. -/
def ICall.Allowed (u : Usage) : ICall → Prop
  | .solve cfg pre rounds => u.solve cfg pre ∧ ∀ r ∈ rounds, u.round r
  | _ => True

/-- Calls that only ask for results. -/
def ICall.query : ICall → Bool
  | .val _ => true
  | .failed _ => true
  | _ => false

/-! ## Refinement -/

theorem importLit_some {i : Int} {l : Lit} (h : importLit i = some l) : l = intLit i := by
  unfold importLit at h
  split at h
  · simp at h
  · simp at h; exact h.symm

theorem restoreLitsChk_eq {n : Nat} : ∀ (ls : List Lit) (sys sys' : Sys),
    restoreLitsChk n ls sys = some sys' → restoreLits ls sys = sys'
  | [], sys, sys', h => by simpa [restoreLitsChk, restoreLits] using h
  | l :: ls, sys, sys', h => by
    unfold restoreLitsChk at h
    unfold restoreLits
    split at h
    · simp at h
    · split at h
      · rename_i h1; rw [if_pos h1]; exact restoreLitsChk_eq ls _ _ h
      · rename_i h1; rw [if_neg h1]; exact restoreLitsChk_eq ls _ _ h

theorem restoreAllChk_eq {n : Nat} : ∀ (cs : CNF) (sys sys' : Sys),
    restoreAllChk n cs sys = some sys' → restoreAll cs sys = sys'
  | [], sys, sys', h => by simpa [restoreAllChk, restoreAll] using h
  | c :: cs, sys, sys', h => by
    unfold restoreAllChk at h
    unfold restoreAll
    split at h
    · rename_i h1; rw [if_pos h1]; simpa using h
    · rename_i h1
      rw [if_neg h1]
      obtain ⟨s1, h2, h3⟩ := Option.bind_eq_some_iff.1 h
      rw [restoreLitsChk_eq c _ _ h2]
      exact restoreAllChk_eq cs _ _ h3

theorem initChk_eq {sys sys' : Sys} {nv : Nat} {G : CNF} (h : sys.initChk nv G = some sys') :
    sys' = sys.init nv G := by
  unfold Sys.initChk at h
  obtain ⟨s1, h1, h2⟩ := Option.map_eq_some_iff.1 h
  have := restoreAllChk_eq _ _ _ h1
  unfold Sys.init
  dsimp only
  rw [this]
  exact h2.symm

/-- The state reached by a sequence of calls. `F` are the clauses handed to the solver so far. -/
structure IInv (u : Usage) (g : Given) (st : Ipasir) : Prop where
  hist : ∃ F as, History u F as st.sys ∧ ∀ a, Sat a (F ++ st.problem.problem) ↔ Sat a g.clauses
  clause : st.clause = g.current
  assumptions : st.assumptions = g.assumptions
  wf : WfCNF st.problem.nVars st.problem.problem

theorem IInv.new (u : Usage) : IInv u ⟨[], [], []⟩ Ipasir.new :=
  ⟨⟨[], [], .new true, fun a => by simp [Ipasir.new, Problem.empty]⟩, rfl, rfl, by
    simp [WfCNF, Ipasir.new, Problem.empty]⟩

theorem readClause_sat (p : Problem) (c : Clause) (a : Assign) :
    Sat a (p.readClause c).problem ↔ Sat a (p.problem ++ [c]) := by
  have h1 : p.readClause c = p.readClauses [c] := rfl
  rw [h1, (C03_append p [c]).1, sat_append, sat_append, C03_meaning]

theorem readClause_wf {p : Problem} (h : WfCNF p.nVars p.problem) (c : Clause) :
    WfCNF (p.readClause c).nVars (p.readClause c).problem := by
  have h1 : p.readClause c = p.readClauses [c] := rfl
  rw [h1, (C03_append p [c]).1, (C03_append p [c]).2]
  intro d hd
  rcases List.mem_append.1 hd with hd | hd
  · exact ⟨fun l hl => by have := (h d hd).1 l hl; omega, (h d hd).2⟩
  · obtain ⟨g, hg, hm⟩ := C03_clauses [c]
    have hd' := hd
    rw [hg] at hd'
    obtain ⟨e, he, rfl⟩ := List.mem_map.1 hd'
    have hec : e = c := by simpa using (List.mem_filter.1 he).1
    subst hec
    refine ⟨fun l hl => ?_, ?_⟩
    · have := (C03_nVars [e]).1 e (by simp) l ((hm e l).1 hl)
      omega
    · obtain ⟨n1, n2, n3⟩ := C03_normal [e] _ hd
      rw [List.Nodup, List.pairwise_map]
      refine (List.pairwise_iff_forall_sublist.2 ?_)
      intro x y hxy he
      have hx : x ∈ g e := hxy.subset (by simp)
      have hy : y ∈ g e := hxy.subset (by simp)
      have hne : x ≠ y := by
        intro h; subst h
        have := hxy.nodup n2
        simp at this
      apply n3 x hx
      have : y = x.neg := by
        cases x; cases y
        simp [Lit.neg] at he hne ⊢
        subst he
        simp at hne
        rename_i s1 s2
        cases s1 <;> cases s2 <;> simp_all
      rw [← this]; exact hy

theorem IInv.solve {u : Usage} (hu : u.Valid) (hf : u.flag true) {g : Given} {st st' : Ipasir} (h : IInv u g st)
    {cfg : Config} {pre : List PreRound} {rounds : List Round} {r : Int}
    (hs : Ipasir.solve cfg pre rounds st = some (st', r)) :
    ∃ F sys res, History u F g.assumptions sys ∧ (∀ a, Sat a F ↔ Sat a g.clauses) ∧
      Candy.solve cfg pre rounds sys = some (st'.sys, res) ∧ st'.result = res ∧
      sys.sol.db.nVars = max st.sys.sol.db.nVars st.problem.nVars ∧
      st' = { st with sys := st'.sys, result := res, fmap := none, assumptions := [],
                      problem := st.problem.clear, nomodel := !decide (res.status = some true) } ∧
      r = (match res.status with | none => 0 | some true => 10 | some false => 20) := by
  obtain ⟨F, as, hh, hF⟩ := h.hist
  unfold Ipasir.solve at hs
  split at hs
  · simp at hs
  · rename_i sys hsys
    have hsys := initChk_eq hsys
    dsimp only at hs
    split at hs
    · simp at hs
    · rename_i hany
      split at hs
      · simp at hs
      · rename_i sys2 res he
        simp only [Option.some.injEq, Prod.mk.injEq] at hs
        obtain ⟨rfl, rfl⟩ := hs
        have hG : WfCNF (max st.sys.sol.db.nVars st.problem.nVars) st.problem.problem :=
          fun c hc => ⟨fun l hl => by have := (h.wf c hc).1 l hl; omega, (h.wf c hc).2⟩
        have h1 := hh.add st.problem.nVars st.problem.problem true hf hG
        subst hsys
        have ok := (h1.ok hu).ok
        have h2 := h1.assume st.assumptions (fun l hl => by
          have hb : ¬ (st.sys.init st.problem.nVars st.problem.problem).sol.trail.nVars ≤ l.var := by
            intro hle
            exact hany (List.any_eq_true.2 ⟨l, hl, decide_eq_true hle⟩)
          rw [ok.nv] at hb
          omega)
        rw [h.assumptions] at h2
        refine ⟨_, _, res, h2, hF, by rw [← h.assumptions]; exact he, rfl, ?_, rfl, rfl⟩
        exact (init_sound (hh.ok hu).ok hG).2.1

theorem IInv.call {u : Usage} (hu : u.Valid) (hf : u.flag true) {g : Given} {st st' : Ipasir} (h : IInv u g st)
    {c : ICall} (ha : c.Allowed u) {r : Int} (hc : st.call c = some (st', r)) : IInv u (g.call c) st' := by
  obtain ⟨F, as, hh, hF⟩ := h.hist
  cases c with
  | add i =>
    obtain ⟨s1, h1, h2⟩ := Option.map_eq_some_iff.1 hc
    simp only [Prod.mk.injEq] at h2
    obtain ⟨rfl, _⟩ := h2
    unfold Ipasir.add at h1
    dsimp only at h1
    unfold Given.call
    by_cases hi : i = 0
    · subst hi
      simp only [ne_eq, not_true, if_false, Option.some.injEq] at h1
      subst h1
      simp only [if_true]
      refine ⟨⟨F, as, hh, fun a => ?_⟩, rfl, h.assumptions, readClause_wf h.wf _⟩
      simp only
      rw [sat_append, readClause_sat, ← sat_append, ← List.append_assoc, sat_append, hF, h.clause, ← sat_append]
    · simp only [ne_eq, hi, not_false_eq_true, if_true] at h1
      obtain ⟨l, h3, h4⟩ := Option.map_eq_some_iff.1 h1
      subst h4
      simp only [hi, if_false]
      exact ⟨⟨F, as, hh, hF⟩, by rw [h.clause, importLit_some h3], h.assumptions, h.wf⟩
  | assume i =>
    obtain ⟨s1, h1, h2⟩ := Option.map_eq_some_iff.1 hc
    simp only [Prod.mk.injEq] at h2
    obtain ⟨rfl, _⟩ := h2
    obtain ⟨l, h3, h4⟩ := Option.map_eq_some_iff.1 h1
    subst h4
    exact ⟨⟨F, as, hh, hF⟩, h.clause, by
      show st.assumptions ++ [l] = g.assumptions ++ [intLit i]
      rw [h.assumptions, importLit_some h3], h.wf⟩
  | solve cfg pre rounds =>
    obtain ⟨F', sys, res, k1, k2, k3, _, _, k6, _⟩ := h.solve hu hf hc
    refine ⟨⟨F', _, k1.solve cfg pre rounds ha.1 ha.2 k3, fun a => ?_⟩, ?_, ?_, ?_⟩
    · rw [k6]; simp only [Problem.clear, List.append_nil]; exact k2 a
    · rw [k6]; exact h.clause
    · rw [k6]; rfl
    · rw [k6]; simp [WfCNF, Problem.clear]
  | val i =>
    obtain ⟨s1, h1, h2⟩ := Option.map_eq_some_iff.1 hc
    simp only [Prod.mk.injEq] at h2
    obtain ⟨rfl, _⟩ := h2
    exact h
  | failed i =>
    have key : ∀ st1, (if st.fmap.isNone then st.analyze else some st) = some st1 →
        ∃ f, st1 = { st with fmap := f } := by
      intro st1 h1
      split at h1
      · unfold Ipasir.analyze at h1
        split at h1
        · simp at h1
        · simp only [Option.some.injEq] at h1; exact ⟨_, h1.symm⟩
      · simp only [Option.some.injEq] at h1; exact ⟨st.fmap, h1.symm⟩
    unfold Ipasir.call Ipasir.failed at hc
    dsimp only at hc
    split at hc
    · simp at hc
    · rename_i st1 h1
      obtain ⟨f, rfl⟩ := key st1 h1
      split at hc
      · split at hc
        · simp at hc
        · simp only [Option.some.injEq, Prod.mk.injEq] at hc
          obtain ⟨rfl, _⟩ := hc
          exact ⟨⟨F, as, hh, hF⟩, h.clause, h.assumptions, h.wf⟩
      · simp at hc

theorem IInv.run {u : Usage} (hu : u.Valid) (hf : u.flag true) : ∀ (cs : List ICall) (g : Given) (st st' : Ipasir),
    IInv u g st → (∀ c ∈ cs, c.Allowed u) → st.run cs = some st' → IInv u (cs.foldl Given.call g) st'
  | [], _, _, _, h, _, hr => by
    simp only [Ipasir.run, Option.some.injEq] at hr
    subst hr; exact h
  | c :: cs, g, st, st', h, ha, hr => by
    unfold Ipasir.run at hr
    obtain ⟨⟨st1, r⟩, h1, h2⟩ := Option.bind_eq_some_iff.1 hr
    exact IInv.run hu hf cs _ st1 st' (h.call hu hf (ha c (by simp)) h1) (fun d hd => ha d (by simp [hd])) h2

/-- States of the interface after calls `cs`. -/
def IReach (u : Usage) (cs : List ICall) (st : Ipasir) : Prop :=
  (∀ c ∈ cs, c.Allowed u) ∧ Ipasir.new.run cs = some st

theorem IReach.inv {u : Usage} (hu : u.Valid) (hf : u.flag true) {cs : List ICall} {st : Ipasir}
    (h : IReach u cs st) : IInv u (Given.of cs) st :=
  IInv.run hu hf cs _ _ _ (IInv.new u) h.1 h.2

/-! ## Queries do not change answers -/

theorem failed_frame {st st' : Ipasir} {i : Int} {r : Int} (h : st.failed i = some (st', r)) :
    ∃ f, st' = { st with fmap := f } ∧ (st.fmap.isSome → f = st.fmap) ∧
      (st.fmap = none → ∃ st1, st.analyze = some st1 ∧ f = st1.fmap) := by
  unfold Ipasir.failed at h
  by_cases hn : st.fmap.isNone
  · simp only [hn, if_true] at h
    split at h
    · simp at h
    · rename_i st1 h1
      split at h
      · split at h
        · simp at h
        · simp only [Option.some.injEq, Prod.mk.injEq] at h
          obtain ⟨rfl, _⟩ := h
          have h1' := h1
          unfold Ipasir.analyze at h1
          split at h1
          · simp at h1
          · simp only [Option.some.injEq] at h1
            refine ⟨st1.fmap, by rw [← h1], ?_, fun _ => ⟨st1, h1', rfl⟩⟩
            intro hs
            rw [Option.isNone_iff_eq_none] at hn
            rw [hn] at hs; simp at hs
      · simp at h
  · simp only [hn, Bool.false_eq_true, if_false] at h
    split at h
    · split at h
      · simp at h
      · simp only [Option.some.injEq, Prod.mk.injEq] at h
        obtain ⟨rfl, _⟩ := h
        exact ⟨st.fmap, rfl, fun _ => rfl, fun he => by simp [he] at hn⟩
    · simp at h

/-- What `failed` answers, as a function of result and number of variables. -/
def failedSpec (st : Ipasir) (i : Int) : Option Int :=
  match importLit i with
  | none => none
  | some l =>
    if st.result.conflict.any (fun l => decide (st.sys.sol.db.nVars ≤ l.var)) ∨ st.sys.sol.db.nVars ≤ l.var then none
    else some (if st.result.conflict.any (fun m => m.var == l.var) then 1 else 0)

/-- The array, if present, belongs to the current result. -/
def FmapOk (st : Ipasir) : Prop :=
  st.fmap = none ∨ ∃ st1, st.analyze = some st1 ∧ st.fmap = st1.fmap

theorem failed_eq {st : Ipasir} (h : FmapOk st) (i : Int) : (st.failed i).map (·.2) = failedSpec st i := by
  have key : ∀ st1 : Ipasir, st.analyze = some st1 → st1.fmap = some ((List.range st.sys.sol.db.nVars).map fun v =>
      st.result.conflict.any fun l => l.var == v) ∧
      st.result.conflict.any (fun l => decide (st.sys.sol.db.nVars ≤ l.var)) = false := by
    intro st1 h1
    unfold Ipasir.analyze at h1
    split at h1
    · simp at h1
    · rename_i hb
      simp only [Option.some.injEq] at h1
      subst h1
      exact ⟨rfl, by simpa using hb⟩
  have main : ∀ st1 : Ipasir, st1.fmap = some ((List.range st.sys.sol.db.nVars).map fun v =>
      st.result.conflict.any fun l => l.var == v) →
      st.result.conflict.any (fun l => decide (st.sys.sol.db.nVars ≤ l.var)) = false →
      ((match st1.fmap, importLit i with
        | some fmap, some l =>
          match fmap[l.var]? with
          | none => none
          | some b => some (st1, if b then 1 else 0)
        | _, _ => none : Option (Ipasir × Int))).map (·.2) = failedSpec st i := by
    intro st1 h1 h2
    unfold failedSpec
    rw [h1, h2]
    cases importLit i with
    | none => rfl
    | some l =>
      by_cases hl : st.sys.sol.db.nVars ≤ l.var
      · simp [hl]
      · have hl' : l.var < st.sys.sol.db.nVars := by omega
        simp only [hl, or_false, Bool.false_eq_true, if_false, List.getElem?_map]
        rw [List.getElem?_range hl']
        rfl
  unfold Ipasir.failed
  rcases h with h | ⟨st1, h1, h2⟩
  · simp only [h, Option.isNone_none, if_true]
    cases ha : st.analyze with
    | none =>
      unfold Ipasir.analyze at ha
      split at ha
      · rename_i hb
        unfold failedSpec
        simp only [hb, true_or, if_true]
        cases importLit i <;> rfl
      · simp at ha
    | some st1 => exact main st1 (key st1 ha).1 (key st1 ha).2
  · have hs : st.fmap.isNone = false := by rw [h2, (key st1 h1).1]; rfl
    simp only [hs, Bool.false_eq_true, if_false]
    exact main st (h2.trans (key st1 h1).1) (key st1 h1).2

theorem queries_frame : ∀ (qs : List ICall) (st st' : Ipasir), (∀ q ∈ qs, q.query = true) →
    st.run qs = some st' → FmapOk st → (∃ f, st' = { st with fmap := f }) ∧ FmapOk st'
  | [], st, st', _, hr, hf => by
    simp only [Ipasir.run, Option.some.injEq] at hr
    subst hr; exact ⟨⟨st.fmap, rfl⟩, hf⟩
  | q :: qs, st, st', hq, hr, hf => by
    unfold Ipasir.run at hr
    obtain ⟨⟨st1, r⟩, h1, h2⟩ := Option.bind_eq_some_iff.1 hr
    have hstep : (∃ f, st1 = { st with fmap := f }) ∧ FmapOk st1 := by
      cases q with
      | val i =>
        obtain ⟨v, h3, h4⟩ := Option.map_eq_some_iff.1 h1
        simp only [Prod.mk.injEq] at h4
        obtain ⟨rfl, _⟩ := h4
        exact ⟨⟨st.fmap, rfl⟩, hf⟩
      | failed i =>
        obtain ⟨f, e1, e2, e3⟩ := failed_frame h1
        refine ⟨⟨f, e1⟩, ?_⟩
        have han : ∀ st2, st.analyze = some st2 → st1.analyze = some st2 := by
          intro st2 h
          rw [e1]
          unfold Ipasir.analyze at h ⊢
          exact h
        rcases hf with hf | ⟨st2, k1, k2⟩
        · obtain ⟨st2, k1, k2⟩ := e3 hf
          exact .inr ⟨st2, han st2 k1, by rw [e1]; exact k2⟩
        · by_cases hs : st.fmap.isSome
          · exact .inr ⟨st2, han st2 k1, by rw [e1]; exact (e2 hs).trans k2⟩
          · have hs' : st.fmap = none := by simpa using hs
            obtain ⟨st3, k3, k4⟩ := e3 hs'
            exact .inr ⟨st3, han st3 k3, by rw [e1]; exact k4⟩
      | add i => have := hq (.add i) (by simp); simp [ICall.query] at this
      | assume i => have := hq (.assume i) (by simp); simp [ICall.query] at this
      | solve a b c => have := hq (.solve a b c) (by simp); simp [ICall.query] at this
    obtain ⟨⟨f1, e1⟩, hf1⟩ := hstep
    obtain ⟨⟨f2, e2⟩, hf2⟩ := queries_frame qs st1 st' (fun q h => hq q (by simp [h])) h2 hf1
    exact ⟨⟨f2, by rw [e2, e1]⟩, hf2⟩

/-! ## The theorems -/

/-- The situation after a call of `solve` that returned `r` and any number of queries. -/
structure AfterSolve (u : Usage) (cs : List ICall) (cfg : Config) (pre : List PreRound) (rounds : List Round)
    (r : Int) (st : Ipasir) : Prop where
  ex : ∃ st0 st1 qs, IReach u cs st0 ∧ ICall.Allowed u (.solve cfg pre rounds) ∧
    st0.call (.solve cfg pre rounds) = some (st1, r) ∧ (∀ q ∈ qs, q.query = true) ∧ st1.run qs = some st

theorem AfterSolve.spec {u : Usage} (hu : u.Valid) (hf : u.flag true) {cs : List ICall} {cfg : Config}
    {pre : List PreRound} {rounds : List Round} {r : Int} {st : Ipasir}
    (h : AfterSolve u cs cfg pre rounds r st) :
    ∃ F sys, History u F (Given.of cs).assumptions sys ∧ (∀ a, Sat a F ↔ Sat a (Given.of cs).clauses) ∧
      Candy.solve cfg pre rounds sys = some (st.sys, st.result) ∧
      st.sys.sol.db.nVars = sys.sol.db.nVars ∧ FmapOk st ∧
      st.nomodel = !decide (st.result.status = some true) ∧
      r = (match st.result.status with | none => 0 | some true => 10 | some false => 20) := by
  obtain ⟨st0, st1, qs, h1, h2, h3, h4, h5⟩ := h.ex
  obtain ⟨F, sys, res, k1, k2, k3, k4, _, k6, k7⟩ := (h1.inv hu hf).solve hu hf h3
  obtain ⟨⟨f, e1⟩, e2⟩ := queries_frame qs st1 st h4 h5 (.inl (by rw [k6]))
  have ho := k1.ok hu
  have hn := (solve_sound ho.ok (fun r hr => hu r (h2.2 r hr)) (by rw [ho.assumptions]; exact ho.bound) k3).2.1
  refine ⟨F, sys, k1, k2, ?_, ?_, e2, ?_, ?_⟩
  · rw [e1]; simp only; rw [k4]; exact k3
  · rw [e1]; exact hn
  · rw [e1, k6]
  · rw [e1, k6]; exact k7

/-- **C30 (return codes).** For every sequence of calls, `solve` returns 10, 20 or 0; it returns 20 only if
the clauses entered so far are unsatisfiable together with the assumptions of this call. -/
theorem C30_solve_code {cs : List ICall} {cfg : Config} {pre : List PreRound} {rounds : List Round} {r : Int}
    {st : Ipasir} (h : AfterSolve .any cs cfg pre rounds r st) :
    (r = 0 ∨ r = 10 ∨ r = 20) ∧
    (r = 20 → ¬ Satisfiable ((Given.of cs).clauses ++ unitsOf (Given.of cs).assumptions)) := by
  obtain ⟨st0, st1, qs, _, h2, _⟩ := h.ex
  obtain ⟨F, sys, k1, k2, k3, _, _, _, k7⟩ := h.spec Usage.any_valid trivial
  refine ⟨?_, fun hr => ?_⟩
  · rw [k7]; split <;> simp
  · have hs : st.result.status = some false := by
      rw [k7] at hr
      split at hr <;> simp_all
    have := C21_unsat_under_assumptions k1 h2.2 k3 hs
    rintro ⟨a, ha⟩
    exact this ⟨a, by rw [sat_append] at ha ⊢; exact ⟨(k2 a).2 ha.1, ha.2⟩⟩

/-- **C30 (failed).** After 20, in any order of queries: `failed` answers 0 or 1 for every literal of a
known variable; only variables of assumptions are reported; the reported assumptions alone are inconsistent
with the clauses. After 0 or 10 no literal is reported. -/
theorem C30_failed {cs : List ICall} {cfg : Config} {pre : List PreRound} {rounds : List Round} {r : Int}
    {st : Ipasir} (h : AfterSolve .any cs cfg pre rounds r st) :
    (∀ i l, importLit i = some l → l.var < st.sys.sol.db.nVars → ∃ st', st.call (.failed i) = some (st', 0) ∨
      st.call (.failed i) = some (st', 1)) ∧
    (∀ i st', st.call (.failed i) = some (st', 1) → r = 20 ∧
      ∃ a ∈ (Given.of cs).assumptions, a.var = (intLit i).var) ∧
    (r = 20 → ∀ S : List Lit, (∀ i, (∃ st', st.call (.failed i) = some (st', 1)) →
        intLit i ∈ (Given.of cs).assumptions → intLit i ∈ S) →
      (∀ a ∈ (Given.of cs).assumptions, ∃ i, importLit i = some a) →
      ¬ Satisfiable ((Given.of cs).clauses ++ unitsOf S)) := by
  obtain ⟨st0, st1, qs, _, h2, _⟩ := h.ex
  obtain ⟨F, sys, k1, k2, k3, k4, k5, _, k7⟩ := h.spec Usage.any_valid trivial
  have ho := k1.ok Usage.any_valid
  have hstat : st.result.status = some false ↔ r = 20 := by
    rw [k7]; split <;> simp_all
  have hsound := solve_sound ho.ok h2.2 (by rw [ho.assumptions]; exact ho.bound) k3
  have hcore : ∀ l ∈ st.result.conflict, r = 20 ∧ l.neg ∈ (Given.of cs).assumptions := by
    intro l hl
    by_cases hs : st.result.status = some false
    · exact ⟨hstat.1 hs, (C16_core_correct k1 h2.2 k3 hs).1 l hl⟩
    · rw [hsound.2.2.2.1 hs] at hl; simp at hl
  have hb : st.result.conflict.any (fun l => decide (st.sys.sol.db.nVars ≤ l.var)) = false := by
    rw [List.any_eq_false]
    intro l hl
    have := ho.bound _ (hcore l hl).2
    rw [← k4] at this
    simp at this ⊢
    omega
  have hfail : ∀ i l, importLit i = some l → l.var < st.sys.sol.db.nVars →
      (st.failed i).map (·.2) = some (if st.result.conflict.any (fun m => m.var == l.var) then 1 else 0) := by
    intro i l hi hl
    rw [failed_eq k5, failedSpec, hi]
    simp only [hb, Bool.false_eq_true, false_or]
    rw [if_neg (by omega)]
  refine ⟨fun i l hi hl => ?_, fun i st' hi => ?_, fun hr S hS hA => ?_⟩
  · obtain ⟨x, e1, e2⟩ := Option.map_eq_some_iff.1 (hfail i l hi hl)
    refine ⟨x.1, ?_⟩
    split at e2
    · right; rw [← e2]; exact e1
    · left; rw [← e2]; exact e1
  · have e : (st.failed i).map (·.2) = some 1 := by
      rw [show st.failed i = some (st', 1) from hi]; rfl
    rw [failed_eq k5, failedSpec] at e
    split at e
    · simp at e
    · rename_i l hl
      split at e
      · simp at e
      · simp only [Option.some.injEq] at e
        split at e
        · rename_i hany
          obtain ⟨m, hm, hv⟩ := List.any_eq_true.1 hany
          refine ⟨(hcore m hm).1, m.neg, (hcore m hm).2, ?_⟩
          rw [← importLit_some hl]
          simpa using hv
        · simp at e
  · obtain ⟨c1, c2, c3⟩ := C16_core_correct k1 h2.2 k3 (hstat.2 hr)
    rintro ⟨a, ha⟩
    rw [sat_append] at ha
    refine c3 ⟨a, ?_⟩
    rw [sat_append]
    refine ⟨(k2 a).2 ha.1, ?_⟩
    intro c hc
    simp only [unitsOf, List.mem_map] at hc
    obtain ⟨l, ⟨m, hm, rfl⟩, rfl⟩ := hc
    apply ha.2
    simp only [unitsOf, List.mem_map]
    refine ⟨m.neg, ?_, rfl⟩
    obtain ⟨i, hi⟩ := hA m.neg (c1 m hm)
    have hvar : m.neg.var < st.sys.sol.db.nVars := by rw [k4]; exact ho.bound _ (c1 m hm)
    obtain ⟨x, e1, e2⟩ := Option.map_eq_some_iff.1 (hfail i _ hi hvar)
    have : st.result.conflict.any (fun m' => m'.var == m.neg.var) = true :=
      List.any_eq_true.2 ⟨m, hm, by simp⟩
    rw [this] at e2
    rw [importLit_some hi]
    refine hS i ⟨x.1, ?_⟩ (by rw [← importLit_some hi]; exact c1 m hm)
    have e2 : x.2 = 1 := e2
    show st.failed i = _
    rw [e1, ← e2]

/-- **C30 (no stale models).** After entering a literal, closing a clause or assuming a literal, `val` answers
0 for every literal; the same after a call of `solve` that did not return 10. -/
theorem C30_val_invalidated {u : Usage} (hu : u.Valid) (hf : u.flag true) {st st' : Ipasir} {r : Int} (i : Int) :
    (∀ j, st.call (.add j) = some (st', r) → st'.call (.val i) = some (st', 0)) ∧
    (∀ j, st.call (.assume j) = some (st', r) → st'.call (.val i) = some (st', 0)) ∧
    (∀ cs cfg pre rounds, AfterSolve u cs cfg pre rounds r st → r ≠ 10 → st.call (.val i) = some (st, 0)) := by
  have hn : ∀ st : Ipasir, st.nomodel = true → st.call (.val i) = some (st, 0) := by
    intro st h
    simp [Ipasir.call, Ipasir.val, h]
  refine ⟨fun j h => hn _ ?_, fun j h => hn _ ?_, fun cs cfg pre rounds h hr => hn _ ?_⟩
  · obtain ⟨s1, h1, h2⟩ := Option.map_eq_some_iff.1 h
    simp only [Prod.mk.injEq] at h2
    obtain ⟨rfl, _⟩ := h2
    unfold Ipasir.add at h1
    dsimp only at h1
    split at h1
    · obtain ⟨l, _, h3⟩ := Option.map_eq_some_iff.1 h1
      subst h3; rfl
    · simp only [Option.some.injEq] at h1
      subst h1; rfl
  · obtain ⟨s1, h1, h2⟩ := Option.map_eq_some_iff.1 h
    simp only [Prod.mk.injEq] at h2
    obtain ⟨rfl, _⟩ := h2
    obtain ⟨l, _, h3⟩ := Option.map_eq_some_iff.1 h1
    subst h3; rfl
  · obtain ⟨_, _, _, _, _, _, _, k6, k7⟩ := h.spec hu hf
    rw [k6]
    simp only [Bool.not_eq_true', decide_eq_false_iff_not]
    intro hs
    rw [hs] at k7
    exact hr k7

/-- Values reported by `val` describe the assignment `a` on the known variables. -/
def ReportsModel (st : Ipasir) (a : Assign) : Prop :=
  ∀ i l, importLit i = some l → l.var < st.sys.sol.db.nVars →
    st.call (.val i) = some (st, if a l.var = !l.sign then i else -i)

theorem reports {st : Ipasir} {g : Given} {F : CNF} (hk : ∀ a, Sat a F ↔ Sat a g.clauses)
    (hm : PSat st.result.model F) (ha : ∀ l ∈ g.assumptions, l.trueIn st.result.model)
    (ht : ∀ v < st.sys.sol.db.nVars, st.result.model v ≠ none) (hn : st.nomodel = false) :
    ∃ a, Sat a (g.clauses ++ unitsOf g.assumptions) ∧ ReportsModel st a := by
  refine ⟨fun v => (st.result.model v).getD false, ?_, ?_⟩
  · have htrue : ∀ l : Lit, l.trueIn st.result.model → l.holds fun v => (st.result.model v).getD false := by
      intro l hl
      unfold Lit.trueIn at hl
      show (st.result.model l.var).getD false = _
      rw [hl]; rfl
    rw [sat_append]
    refine ⟨(hk _).1 fun c hc => ?_, fun c hc => ?_⟩
    · obtain ⟨l, hl, h2⟩ := hm c hc
      exact ⟨l, hl, htrue l h2⟩
    · simp only [unitsOf, List.mem_map] at hc
      obtain ⟨l, hl, rfl⟩ := hc
      exact ⟨l, by simp, htrue l (ha l hl)⟩
  · intro i l hi hl
    obtain ⟨b, hb⟩ := Option.ne_none_iff_exists'.1 (ht l.var hl)
    have e : Ipasir.satisfies st.result l = decide (b = !l.sign) := by simp [Ipasir.satisfies, hb]
    simp only [Ipasir.call, Ipasir.val, hn, Bool.false_eq_true, if_false, hi, Option.map_some, e, hb,
      decide_eq_true_eq, Option.getD_some]

/-- **C30 (models), partial.** After 10 the values reported for the literals of known variables are those of one
assignment that satisfies all clauses entered so far and all assumptions of the call; in particular a
literal and its negation get consistent answers. Restriction: preprocessing and inprocessing off, see C20. -/
theorem C30_model_partial {cs : List ICall} {cfg : Config} {pre : List PreRound} {rounds : List Round}
    {st : Ipasir} (h : AfterSolve .plain cs cfg pre rounds 10 st) :
    ∃ a, Sat a ((Given.of cs).clauses ++ unitsOf (Given.of cs).assumptions) ∧ ReportsModel st a := by
  obtain ⟨st0, st1, qs, _, h2, _⟩ := h.ex
  obtain ⟨F, sys, k1, k2, k3, k4, k5, k6, k7⟩ := h.spec Usage.plain_valid rfl
  have hs : st.result.status = some true := by
    revert k7; split <;> simp_all
  obtain ⟨m1, m2, m3⟩ := C20_sat_model_partial k1 h2.1 h2.2 k3 hs
  exact reports k2 m1 m2 (by rw [k4]; exact m3) (by rw [k6, hs]; rfl)

/-- **C30 (models of first calls), partial.** The same for the first call of `solve` with preprocessing
(the default of `ipasir_init`), for at most one round of simplification or without variable elimination. -/
theorem C30_first_model_partial {cs : List ICall} {cfg : Config} {pre : List PreRound} {rounds : List Round}
    {st0 st : Ipasir} (h : IReach .fresh cs st0) (hc : FirstCall pre rounds)
    (h1 : pre.length ≤ 1 ∨ cfg.useElim = false ∨ cfg.preprocessing = false)
    (hs : st0.call (.solve cfg pre rounds) = some (st, 10)) :
    ∃ a, Sat a ((Given.of cs).clauses ++ unitsOf (Given.of cs).assumptions) ∧ ReportsModel st a := by
  obtain ⟨F, sys, res, k1, k2, k3, k4, _, k6, k7⟩ := (h.inv Usage.fresh_valid rfl).solve Usage.fresh_valid rfl hs
  have hst : res.status = some true := by
    cases hr : res.status with
    | none => rw [hr] at k7; exact absurd k7 (by decide)
    | some b => cases b with
      | true => rfl
      | false => rw [hr] at k7; exact absurd k7 (by decide)
  obtain ⟨m1, m2, m3⟩ := C20_first_solve_rounds_partial k1 hc h1 k3 hst
  have ho := k1.ok Usage.fresh_valid
  have hn := (solve_sound ho.ok (fun r hr => (hc.roundsValid r hr).1) (by rw [ho.assumptions]; exact ho.bound) k3).2.1
  refine reports k2 (by rw [k4]; exact m1) (by rw [k4]; exact m2) (by rw [k4, hn]; exact m3) ?_
  have e := congrArg Ipasir.nomodel k6
  rw [e]
  simp [hst]

/-! ## Non-vacuity -/

/-- The clauses (1 ∨ 2) and (¬1 ∨ 2 ∨ 2), entered literal by literal; a call under the assumption ¬2, then
one without assumptions. -/
def exCalls : List ICall :=
  [.add 1, .add 2, .add 0, .add (-1), .add 2, .add 2, .add 0, .assume (-2), .assume 1]

def exSolve : ICall := .solve { preprocessing := false } [] [exRound]

theorem exSolve_allowed : exSolve.Allowed .plain :=
  ⟨rfl, fun r hr => by simp at hr; subst hr; exact ⟨exRound_valid, rfl⟩⟩

/-- The call under assumptions answers 20, `failed` names the first assumption only. -/
example : ((Ipasir.new.run exCalls).bind fun st => (st.call exSolve).bind fun x =>
      (x.1.call (.failed (-2))).bind fun y => (x.1.call (.failed 1)).map fun z =>
      [x.2, y.2, z.2]) = some [20, 1, 0] := by decide +kernel

/-- Without assumptions the answer is 10 and the values satisfy the clauses. -/
example : ((Ipasir.new.run (exCalls.take 7)).bind fun st => (st.call exSolve).bind fun x =>
      (x.1.call (.val 2)).bind fun y => (x.1.call (.val (-2))).map fun z =>
      [x.2, y.2, z.2]) = some [10, 2, 2] := by decide +kernel

example (st : Ipasir) (h : Ipasir.new.run (exCalls ++ [exSolve]) = some st) :
    IReach .plain (exCalls ++ [exSolve]) st := by
  refine ⟨fun c hc => ?_, h⟩
  simp [exCalls] at hc
  rcases hc with rfl | rfl | rfl | rfl | rfl | rfl | rfl | rfl | rfl <;> first | exact trivial | exact exSolve_allowed

example : (Given.of exCalls).clauses = [[pos 0, pos 1], [neg 0, pos 1, pos 1]] ∧
    (Given.of exCalls).assumptions = [neg 1, pos 0] := by decide

/-! ## Where the interface breaks -/

/-- **C30 fails (assumptions on new variables).** Assuming a literal of a variable that no clause mentions is
undefined behaviour in `solve`, for all inputs of the call. -/
theorem C30_unknown_assumption_undefined (i : Int) (hi : importLit i ≠ none) :
    ∃ st, IReach .any [.assume i] st ∧ ∀ cfg pre rounds, st.call (.solve cfg pre rounds) = none := by
  obtain ⟨l, hl⟩ := Option.ne_none_iff_exists'.1 hi
  refine ⟨_, ⟨by simp [ICall.Allowed], by simp [Ipasir.run, Ipasir.call, Ipasir.assume, hl]; rfl⟩, ?_⟩
  intro cfg pre rounds
  unfold Ipasir.call Ipasir.solve
  dsimp only
  split
  · rfl
  · rename_i sys h
    have h := initChk_eq h
    have hn : sys.sol.trail.nVars = 0 := by subst h; rfl
    rw [if_pos]
    simp [Ipasir.new, Sys.assume, Trail.setAssumptions, hn]

/-- The calls of the next theorem: two clauses over two variables, then after `solve` one clause with a
new variable. -/
def exElim : List ICall := [.add 1, .add 2, .add 0, .add (-1), .add (-2), .add 0,
  .solve {} [exPre] [fdRound], .add 3, .add 2, .add 0]

/-- **C30 fails (new variables after elimination).** With the default options: after a first call of `solve`
that eliminated a variable, adding a clause with a new variable makes the next call undefined. -/
theorem C30_new_variable_undefined : ∃ st, IReach .any exElim st ∧
    ∀ cfg pre rounds, st.call (.solve cfg pre rounds) = none := by
  have h : ((Ipasir.new.run exElim).map fun st =>
      (st.sys.initChk st.problem.nVars st.problem.problem).isNone) = some true := by decide
  obtain ⟨st, h1, h2⟩ := Option.map_eq_some_iff.1 h
  refine ⟨st, ⟨?_, h1⟩, fun cfg pre rounds => ?_⟩
  · intro c hc
    simp [exElim] at hc
    rcases hc with rfl | rfl | rfl | rfl | rfl | rfl | rfl | rfl | rfl | rfl <;> try exact trivial
    exact ⟨trivial, fun r hr => by simp at hr; subst hr; exact fdRound_valid⟩
  · unfold Ipasir.call Ipasir.solve
    rw [Option.isNone_iff_eq_none] at h2
    simp only [h2]

/-- **C30 fails (values of unknown variables).** After 10, a variable that occurs in no clause gets the value
`-3` for the literal 3 and the value `3` for the literal `-3`. -/
theorem C30_unknown_value_inconsistent : ∃ cs st, AfterSolve .plain cs { preprocessing := false } [] [exRound] 10 st ∧
    st.call (.val 3) = some (st, -3) ∧ st.call (.val (-3)) = some (st, 3) := by
  have h : ((Ipasir.new.run [.add 1, .add 2, .add 0]).bind fun st0 => (st0.call exSolve).map fun x =>
      (x.2, x.1.val 3, x.1.val (-3))) = some (10, some (-3), some 3) := by decide
  obtain ⟨st0, h0, h1⟩ := Option.bind_eq_some_iff.1 h
  obtain ⟨⟨st, r⟩, h2, h3⟩ := Option.map_eq_some_iff.1 h1
  simp only [Prod.mk.injEq] at h3
  obtain ⟨rfl, h4, h5⟩ := h3
  refine ⟨[.add 1, .add 2, .add 0], st, ⟨st0, st, [], ⟨by simp [ICall.Allowed], h0⟩, exSolve_allowed, h2, by simp, rfl⟩, ?_, ?_⟩
  · simp [Ipasir.call, h4]
  · simp [Ipasir.call, h5]

/-- **C30 fails (failed for unknown variables).** `failed` for a variable the solver does not know is an access
out of bounds, in every reachable state after `solve`. -/
theorem C30_failed_unknown_undefined {cs : List ICall} {cfg : Config} {pre : List PreRound} {rounds : List Round}
    {r : Int} {st : Ipasir} (h : AfterSolve .any cs cfg pre rounds r st) {i : Int} {l : Lit}
    (hi : importLit i = some l) (hl : st.sys.sol.db.nVars ≤ l.var) : st.call (.failed i) = none := by
  obtain ⟨_, _, _, _, _, _, k5, _, _⟩ := h.spec Usage.any_valid trivial
  have := failed_eq k5 i
  rw [failedSpec, hi] at this
  simp only [hl, or_true, if_true, Option.map_eq_none_iff] at this
  exact this

/-- The clauses of `fdUndoF`, a call of `solve` and two assumptions. -/
def exUndo : List ICall :=
  [.add 1, .add 2, .add 0, .add (-1), .add 3, .add 0, .add (-2), .add 4, .add 0,
    .solve {} [exPreSorted, exPreIdle] [fdRound], .assume (-1), .assume (-4)]

/-- **C30 fails (incremental calls).** With default options the second call of `solve` can return 10 although
the clauses and the assumptions are unsatisfiable: a variable eliminated in the first call is restored because
it is assumed, but its clauses mention another variable that stays eliminated. -/
theorem C30_incremental_fails : ∃ (cs : List ICall) (pre : List PreRound) (rounds : List Round) (st : Ipasir),
    AfterSolve .noInprocessing cs {} pre rounds 10 st ∧
    ¬ Satisfiable ((Given.of cs).clauses ++ unitsOf (Given.of cs).assumptions) := by
  have h : ((Ipasir.new.run exUndo).bind fun st0 =>
      (st0.call (.solve {} [exPreSorted, exPreIdle] [fdRound])).map fun x => x.2) = some 10 := by decide +kernel
  obtain ⟨st0, h0, h1⟩ := Option.bind_eq_some_iff.1 h
  obtain ⟨⟨st1, r⟩, h2, rfl⟩ := Option.map_eq_some_iff.1 h1
  have hv : ∀ r ∈ [fdRound], r.Valid ∧ r.inprocess = none := by
    intro r hr; simp at hr; subst hr; exact ⟨fdRound_valid, rfl⟩
  refine ⟨exUndo, _, _, st1, ⟨st0, st1, [], ⟨?_, h0⟩, ⟨trivial, hv⟩, h2, by simp, rfl⟩, ?_⟩
  · intro c hc
    simp only [exUndo, List.mem_cons, List.not_mem_nil, or_false] at hc
    rcases hc with rfl | rfl | rfl | rfl | rfl | rfl | rfl | rfl | rfl | rfl | rfl | rfl <;>
      first | exact trivial | exact ⟨trivial, hv⟩
  · have he : (Given.of exUndo).clauses ++ unitsOf (Given.of exUndo).assumptions = fdUndoF ++ fdUndoG := by
      decide
    rw [he]; exact fdUndo_unsat

end Candy
