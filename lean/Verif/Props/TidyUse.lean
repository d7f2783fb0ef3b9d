import Verif.Props.Tidy
import Verif.Props.Ipasir
import Verif.Props.Refinement

/-!
# SAT answers of the C interface and of abstraction refinement with preprocessing (C30, C43)

Restriction as for C20: calls that eliminate nothing, do not inprocess, and collect the clauses that preprocessing removed.
-/

namespace Candy

/-- A call of the interface that is tidy if it is a call of `solve`. -/
def ICall.Tidy : ICall → Prop
  | .solve cfg _ rounds => TidyCall cfg rounds
  | _ => True

theorem ICall.Tidy.allowed {c : ICall} (h : c.Tidy) : c.Allowed .noInprocessing := by
  cases c with
  | solve cfg pre rounds => exact ⟨trivial, fun r hr => h.rounds r hr⟩
  | _ => trivial

/-- The state after tidy calls. -/
structure TInv (g : Given) (st : Ipasir) : Prop where
  inv : IInv .noInprocessing g st
  hist : ∃ F as, TidyHistory F as st.sys ∧ ∀ a, Sat a (F ++ st.problem.problem) ↔ Sat a g.clauses

theorem TInv.solve {g : Given} {st st' : Ipasir} (h : TInv g st) {cfg : Config} {pre : List PreRound} {rounds : List Round} {r : Int}
    (hs : Ipasir.solve cfg pre rounds st = some (st', r)) :
    ∃ F sys res, TidyHistory F g.assumptions sys ∧ (∀ a, Sat a F ↔ Sat a g.clauses) ∧
      Candy.solve cfg pre rounds sys = some (st'.sys, res) ∧ st'.result = res ∧
      st' = { st with sys := st'.sys, result := res, fmap := none, assumptions := [],
                      problem := st.problem.clear, nomodel := !decide (res.status = some true) } ∧
      r = (match res.status with | none => 0 | some true => 10 | some false => 20) := by
  obtain ⟨F, as, hh, hF⟩ := h.hist
  unfold Ipasir.solve at hs
  split at hs
  · simp at hs
  · rename_i sys hsys
    have hsys := initChk_eq hsys
    dsimp only at hs
    split at hs
    · simp at hs
    · rename_i hany
      split at hs
      · simp at hs
      · rename_i sys2 res he
        simp only [Option.some.injEq, Prod.mk.injEq] at hs
        obtain ⟨rfl, rfl⟩ := hs
        have hG : WfCNF (max st.sys.sol.db.nVars st.problem.nVars) st.problem.problem :=
          fun c hc => ⟨fun l hl => by have := (h.inv.wf c hc).1 l hl; omega, (h.inv.wf c hc).2⟩
        have h1 := hh.add st.problem.nVars st.problem.problem hG
        subst hsys
        have ok := (h1.toHistory.ok Usage.noInprocessing_valid).ok
        have h2 := h1.assume st.assumptions (fun l hl => by
          have hb : ¬ (st.sys.init st.problem.nVars st.problem.problem).sol.trail.nVars ≤ l.var := by
            intro hle
            exact hany (List.any_eq_true.2 ⟨l, hl, decide_eq_true hle⟩)
          rw [ok.nv] at hb
          omega)
        rw [h.inv.assumptions] at h2
        exact ⟨_, _, res, h2, hF, by rw [← h.inv.assumptions]; exact he, rfl, rfl, rfl⟩

theorem TInv.call {g : Given} {st st' : Ipasir} (h : TInv g st) {c : ICall} (ht : c.Tidy) {r : Int} (hc : st.call c = some (st', r)) :
    TInv (g.call c) st' := by
  refine ⟨h.inv.call Usage.noInprocessing_valid trivial ht.allowed hc, ?_⟩
  obtain ⟨F, as, hh, hF⟩ := h.hist
  cases c with
  | add i =>
    obtain ⟨s1, h1, h2⟩ := Option.map_eq_some_iff.1 hc
    simp only [Prod.mk.injEq] at h2
    obtain ⟨rfl, _⟩ := h2
    unfold Ipasir.add at h1
    dsimp only at h1
    unfold Given.call
    by_cases hi : i = 0
    · subst hi
      simp only [ne_eq, not_true, if_false, Option.some.injEq] at h1
      subst h1
      simp only [if_true]
      refine ⟨F, as, hh, fun a => ?_⟩
      rw [sat_append, readClause_sat, ← sat_append, ← List.append_assoc, sat_append, hF, h.inv.clause, ← sat_append]
    · simp only [ne_eq, hi, not_false_eq_true, if_true] at h1
      obtain ⟨l, h3, h4⟩ := Option.map_eq_some_iff.1 h1
      subst h4
      simp only [hi, if_false]
      exact ⟨F, as, hh, hF⟩
  | assume i =>
    obtain ⟨s1, h1, h2⟩ := Option.map_eq_some_iff.1 hc
    simp only [Prod.mk.injEq] at h2
    obtain ⟨rfl, _⟩ := h2
    obtain ⟨l, h3, h4⟩ := Option.map_eq_some_iff.1 h1
    subst h4
    exact ⟨F, as, hh, hF⟩
  | solve cfg pre rounds =>
    obtain ⟨F', sys, res, k1, k2, k3, _, k6, _⟩ := h.solve hc
    refine ⟨F', _, k1.solve cfg pre rounds ht k3, fun a => ?_⟩
    rw [k6]
    simp only [Problem.clear, List.append_nil]
    exact k2 a
  | val i =>
    obtain ⟨s1, h1, h2⟩ := Option.map_eq_some_iff.1 hc
    simp only [Prod.mk.injEq] at h2
    obtain ⟨rfl, _⟩ := h2
    exact ⟨F, as, hh, hF⟩
  | failed i =>
    obtain ⟨f, rfl, _⟩ := failed_frame hc
    exact ⟨F, as, hh, hF⟩

theorem TInv.run : ∀ (cs : List ICall) (g : Given) (st st' : Ipasir), TInv g st → (∀ c ∈ cs, c.Tidy) → st.run cs = some st' →
    TInv (cs.foldl Given.call g) st'
  | [], _, _, _, h, _, hr => by
    simp only [Ipasir.run, Option.some.injEq] at hr
    subst hr; exact h
  | c :: cs, g, st, st', h, ha, hr => by
    unfold Ipasir.run at hr
    obtain ⟨⟨st1, r⟩, h1, h2⟩ := Option.bind_eq_some_iff.1 hr
    exact TInv.run cs _ st1 st' (h.call (ha c (by simp)) h1) (fun d hd => ha d (by simp [hd])) h2

/-- **C30 (models with preprocessing), partial.** For every sequence of calls in which every call of `solve` is tidy: after
10, and any queries, the values reported for the literals of known variables are those of one assignment that satisfies
all clauses entered so far and all assumptions of the call. -/
theorem C30_tidy_model_partial {cs qs : List ICall} {cfg : Config} {pre : List PreRound} {rounds : List Round} {st0 st1 st : Ipasir}
    (ht : ∀ c ∈ cs, c.Tidy) (h0 : Ipasir.new.run cs = some st0) (hc : TidyCall cfg rounds)
    (h1 : st0.call (.solve cfg pre rounds) = some (st1, 10)) (hq : ∀ q ∈ qs, q.query = true) (h2 : st1.run qs = some st) :
    ∃ a, Sat a ((Given.of cs).clauses ++ unitsOf (Given.of cs).assumptions) ∧ ReportsModel st a := by
  have hT : TInv (Given.of cs) st0 :=
    TInv.run cs _ _ _ ⟨IInv.new _, [], [], .new true, fun a => by simp [Ipasir.new, Problem.empty]⟩ ht h0
  obtain ⟨F, sys, res, k1, k2, k3, k4, k6, k7⟩ := hT.solve h1
  have hst : res.status = some true := by
    cases hr : res.status with
    | none => rw [hr] at k7; exact absurd k7 (by decide)
    | some b => cases b with
      | true => rfl
      | false => rw [hr] at k7; exact absurd k7 (by decide)
  obtain ⟨m1, m2, m3⟩ := C20_simplifying_partial k1 hc.elim hc.rounds k3 hst
  have ho := k1.toHistory.ok Usage.noInprocessing_valid
  have hn := (solve_sound ho.ok (fun r hr => (hc.rounds r hr).1) (by rw [ho.assumptions]; exact ho.bound) k3).2.1
  obtain ⟨⟨f, e1⟩, _⟩ := queries_frame qs st1 st hq h2 (.inl (by rw [k6]))
  have e2 : st.result = res := by rw [e1]; exact k4
  have e3 : st.sys = st1.sys := by rw [e1]
  have e4 : st.nomodel = false := by
    rw [e1]
    show st1.nomodel = false
    rw [k6]
    simp [hst]
  exact reports k2 (by rw [e2]; exact m1) (by rw [e2]; exact m2) (by rw [e2, e3, hn]; exact m3) e4

section
variable {eqs : List (List Lit)} {bbs : List Lit} {fuel : Nat} {maxSteps : Int} {maxVars : Nat} {a : ArStep} {steps : List ArStep}
variable {sys sys' : Sys} {res : Result} {F : CNF} {as : List Lit}

/-- **C43 (models with preprocessing), partial.** After every tidy history the answer SAT of abstraction refinement comes
with a model, if its calls of the solver eliminate nothing. -/
theorem C43_tidy_model_partial (hn : ∀ c ∈ eqs, (c.map Lit.var).Nodup) (hone : ∀ l ∈ bbs, l.neg ∉ bbs) (hm : maxSteps ≠ 0)
    (h : TidyHistory F as sys) (hc : a.cfg.preprocessing = true → a.cfg.useElim = false)
    (hr : ∀ r ∈ a.rounds, r.Valid ∧ r.inprocess = none)
    (hs : arSolve fuel maxSteps eqs bbs maxVars (a :: steps) sys = some (sys', res)) (hf : res.status = some true) : PSat res.model F := by
  have h1 : TidyHistory (F ++ []) [] ((sys.init 0 []).assume []) := (h.add 0 [] (by simp [WfCNF])).assume [] (by simp)
  rw [List.append_nil] at h1
  exact (C20_simplifying_partial h1 hc hr (C43_finding_is_plain_solve hn hone hm hs) hf).1

/-- **C43 (first call with preprocessing), partial.** The answer SAT of abstraction refinement with a new solver comes with a
model, with the default preprocessing in at most one round or without elimination. -/
theorem C43_first_model_partial (hn : ∀ c ∈ eqs, (c.map Lit.var).Nodup) (hone : ∀ l ∈ bbs, l.neg ∉ bbs) (hm : maxSteps ≠ 0)
    (h : History .fresh F as sys) (hc : FirstCall a.pre a.rounds)
    (h1 : a.pre.length ≤ 1 ∨ a.cfg.useElim = false ∨ a.cfg.preprocessing = false)
    (hs : arSolve fuel maxSteps eqs bbs maxVars (a :: steps) sys = some (sys', res)) (hf : res.status = some true) : PSat res.model F :=
  (C20_first_solve_rounds_partial (arSolve_history rfl h) hc h1 (C43_finding_is_plain_solve hn hone hm hs) hf).1

end

/-! ### Examples -/

/-- Two calls of `solve` with preprocessing, without elimination. -/
def exTidyCalls : List ICall :=
  [.add 1, .add 2, .add 0, .add 1, .add 2, .add 3, .add 0, .solve fdOff [exPreSorted] [fdRound], .add (-1), .add 0, .assume 3]

example : (∀ c ∈ exTidyCalls, c.Tidy) ∧ TidyCall fdOff [fdRound] := by
  have h : TidyCall fdOff [fdRound] :=
    ⟨fun _ => rfl, fun _ => ⟨_, rfl, rfl⟩, fun q hq => by simp at hq; subst hq; exact ⟨fdRound_valid, rfl⟩⟩
  refine ⟨fun c hc => ?_, h⟩
  simp [exTidyCalls] at hc
  rcases hc with rfl | rfl | rfl | rfl | rfl | rfl | rfl | rfl | rfl | rfl | rfl <;> first | exact trivial | exact h

example : ((Ipasir.new.run exTidyCalls).bind fun st => (st.call (.solve fdOff [exPreSorted] [fdRound])).bind fun x =>
    (x.1.call (.val 1)).bind fun y => (x.1.call (.val 2)).bind fun z => (x.1.call (.val 3)).map fun w =>
      [x.2, y.2, z.2, w.2]) = some [10, -1, 2, 3] := by decide +kernel

end Candy
