import Verif.Proofs.Minimizer
import Verif.Proofs.Examples

/-!
# Minimisation of models (C44)

A model of a problem is given to the minimiser, which computes a subset of its literals. The theorems hold
for every model, every choice of the heuristics of the solver the minimiser uses, and every interruption of
its calls.
-/

namespace Candy

/-- A set of literals satisfies every clause: whatever the other variables are set to, the clauses hold. -/
def Covers (M : List Lit) (F : CNF) : Prop := ∀ c ∈ F, ∃ l ∈ c, l ∈ M

/-- What the caller of the minimiser provides: a problem and a model of it, in which every variable of the
problem has a value, and no minimised model yet. -/
structure MinimizerInput (p : Problem) (m : SolverResult) : Prop where
  vars : ∀ c ∈ p.problem, ∀ l ∈ c, l.var < p.nVars
  proper : ∀ x ∈ m.model, LBool.Proper x
  total : ∀ v < p.nVars, m.assignment v ≠ none
  sat : PSat m.assignment p.problem
  fresh : m.minimizedModel = []

/-- No call of the solver in the first loop was interrupted. -/
def Conclusive (p : Problem) (m : SolverResult) (b : Bool) (is : List SolveInput) : Prop :=
  ∀ H st, purify m p.problem = some H → minLoop p.nVars is (minStart p.nVars H (Sys.new b)) = some st → st.satisfiable ≠ none

section
variable {p : Problem} {m r : SolverResult} {G : MinGates} {b minimal project : Bool} {is1 is2 : List SolveInput}

theorem MinimizerInput.length (h : MinimizerInput p m) {v : Nat} (hv : v < p.nVars) : v < m.model.length := by
  have := h.total v hv
  unfold SolverResult.assignment at this
  cases hx : m.model[v]? with
  | none => rw [hx] at this; exact (this rfl).elim
  | some x => exact (List.getElem?_eq_some_iff.1 hx).1

theorem hitting_of_purify {F H : CNF} {n : Nat} (hF : ∀ c ∈ F, ∀ l ∈ c, l.var < n) (hp : ∀ x ∈ m.model, LBool.Proper x)
    (hs : PSat m.assignment F) (h : purify m F = some H) : HittingProblem n H ∧ [] ∉ H := by
  have hsp := purify_spec hp h
  constructor
  · intro d hd l hl
    obtain ⟨c, hc, hcd⟩ := hsp.2 d hd
    obtain ⟨k, hk, _, rfl⟩ := (hcd l).1 hl
    exact ⟨k.var, hF c hc k hk, rfl⟩
  · intro hd
    obtain ⟨c, hc, hcd⟩ := hsp.2 [] hd
    obtain ⟨k, hk, ht⟩ := hs c hc
    exact absurd ((hcd (pos k.var)).2 ⟨k, hk, ht, rfl⟩) (by simp)

/-- The set computed by `iterativeMinimization`. -/
theorem iterative_spec {n : Nat} {H : CNF} {ls : List Lit} (hH : HittingProblem n H) (hne : [] ∉ H)
    (hi1 : ∀ i ∈ is1, i.Plain) (hi2 : ∀ i ∈ is2, i.Plain)
    (he : iterativeMinimization n H minimal is1 is2 (Sys.new b) = some ls) :
    ∃ S : Nat → Bool, ls = ((List.range n).filter S).map pos ∧ (∀ c ∈ H, ∃ v < n, S v = true ∧ pos v ∈ c) ∧
      ∃ st, minLoop n is1 (minStart n H (Sys.new b)) = some st ∧
        (st.satisfiable ≠ none → ls = st.cardinality.map Lit.neg ∧ ∀ S' : Nat → Bool, (∀ v, S' v = true → v < n ∧ S v = true) →
          (∀ c ∈ H, ∃ v, S' v = true ∧ pos v ∈ c) → ∀ v < n, S v = true → S' v = true) := by
  unfold iterativeMinimization at he
  obtain ⟨st, h1, h2⟩ := Option.bind_eq_some_iff.1 he
  obtain ⟨st', h3, rfl⟩ := Option.map_eq_some_iff.1 h2
  obtain ⟨S, hS⟩ := minLoop_done hH (minStart_inv hH hne b) hi1 h1
  have hneg : ∀ T : Nat → Bool, (((List.range n).filter T).map neg).map Lit.neg = ((List.range n).filter T).map pos := by
    intro T; rw [List.map_map]; rfl
  have hstat : st.satisfiable ≠ none → st.satisfiable = some false := by
    intro h
    cases hs : st.satisfiable with
    | none => exact (h hs).elim
    | some x => cases x with
      | false => rfl
      | true => exact (hS.notTrue hs).elim
  cases minimal with
  | false =>
    simp only [Bool.false_eq_true, if_false, Option.some.injEq] at h3
    subst h3
    refine ⟨S, by rw [hS.card, hneg], hS.hits, st, h1, fun hx => ⟨rfl, hS.minimal (hstat hx)⟩⟩
  | true =>
    simp only [if_true] at h3
    obtain ⟨⟨S', k1, k2⟩, k3⟩ := minCount_inv hH hS hi2 h3
    cases hx : st.satisfiable with
    | none => exact ⟨S', by rw [k1, hneg], k2, st, h1, fun h => (h hx).elim⟩
    | some x =>
      have hx' : st.satisfiable ≠ none := by rw [hx]; simp
      rw [k3 (hstat hx')]
      exact ⟨S, by rw [hS.card, hneg], hS.hits, st, h1, fun _ => ⟨rfl, hS.minimal (hstat hx')⟩⟩

/-- The minimised model, in terms of the variables kept. -/
theorem minimize_spec (hin : MinimizerInput p m) (hi1 : ∀ i ∈ is1, i.Plain) (hi2 : ∀ i ∈ is2, i.Plain)
    (he : minimizeModel p G false minimal project is1 is2 (Sys.new b) m = some r) :
    ∃ (H : CNF) (S : Nat → Bool), purify m p.problem = some H ∧
      (∀ l, l ∈ r.getMinimizedModelLiterals ↔ l.var < p.nVars ∧ S l.var = true ∧
        (project = true → (G.gp.gates l.var).out = none) ∧ l.trueIn m.assignment) ∧
      (∀ c ∈ H, ∃ v < p.nVars, S v = true ∧ pos v ∈ c) ∧
      ∃ st, minLoop p.nVars is1 (minStart p.nVars H (Sys.new b)) = some st ∧
        (st.satisfiable ≠ none → ∀ S' : Nat → Bool, (∀ v, S' v = true → v < p.nVars ∧ S v = true) →
          (∀ c ∈ H, ∃ v, S' v = true ∧ pos v ∈ c) → ∀ v < p.nVars, S v = true → S' v = true) := by
  unfold minimizeModel at he
  simp only [Bool.false_eq_true, if_false, Option.bind_some] at he
  obtain ⟨H, h1, h2⟩ := Option.bind_eq_some_iff.1 he
  obtain ⟨ls, h3, rfl⟩ := Option.map_eq_some_iff.1 h2
  obtain ⟨hH, hne⟩ := hitting_of_purify hin.vars hin.proper hin.sat h1
  obtain ⟨S, rfl, k1, st, k2, k3⟩ := iterative_spec hH hne hi1 hi2 h3
  refine ⟨H, S, h1, fun l => ?_, k1, st, k2, fun h => (k3 h).2⟩
  have e : (if project = true then (((List.range p.nVars).filter S).map pos).filter (fun l => (G.gp.gates l.var).out.isNone)
      else ((List.range p.nVars).filter S).map pos) =
      ((List.range p.nVars).filter fun v => S v && (!project || (G.gp.gates v).out.isNone)).map pos := by
    cases project with
    | false => simp
    | true => simp [List.filter_map, List.filter_filter, Function.comp_def, Bool.and_comm]
  rw [e, mem_translate hin.proper hin.fresh]
  · simp only [List.mem_filter, List.mem_range, Bool.and_eq_true, Bool.or_eq_true, Bool.not_eq_true', Option.isNone_iff_eq_none]
    cases project <;> simp [and_assoc]
  · intro v hv
    exact hin.total v (List.mem_range.1 (List.mem_filter.1 hv).1)

/-- **C44.** The minimised model is a part of the model, and it still satisfies every clause, with or without the
search for a minimum and also if calls of the solver are interrupted. -/
theorem C44_satisfies (hin : MinimizerInput p m) (hi1 : ∀ i ∈ is1, i.Plain) (hi2 : ∀ i ∈ is2, i.Plain)
    (he : minimizeModel p G false minimal false is1 is2 (Sys.new b) m = some r) :
    (∀ l ∈ r.getMinimizedModelLiterals, l.var < p.nVars ∧ l.trueIn m.assignment) ∧ Covers r.getMinimizedModelLiterals p.problem := by
  obtain ⟨H, S, h1, h2, h3, _⟩ := minimize_spec hin hi1 hi2 he
  refine ⟨fun l hl => ⟨((h2 l).1 hl).1, ((h2 l).1 hl).2.2.2⟩, fun c hc => ?_⟩
  obtain ⟨d, hd, hcd⟩ := (purify_spec hin.proper h1).1 c hc
  obtain ⟨v, hv, hS, hvd⟩ := h3 d hd
  obtain ⟨k, hk, ht, e⟩ := (hcd _).1 hvd
  have e : v = k.var := congrArg Lit.var e
  subst e
  exact ⟨k, hk, (h2 k).2 ⟨hv, hS, by simp, ht⟩⟩

/-- **C44.** It is minimal: removing literals from it leaves some clause unsatisfied. -/
theorem C44_minimal (hin : MinimizerInput p m) (hi1 : ∀ i ∈ is1, i.Plain) (hi2 : ∀ i ∈ is2, i.Plain)
    (hc : Conclusive p m b is1) (he : minimizeModel p G false minimal false is1 is2 (Sys.new b) m = some r)
    (M : List Lit) (hM : ∀ l ∈ M, l ∈ r.getMinimizedModelLiterals) (hcov : Covers M p.problem) :
    ∀ l ∈ r.getMinimizedModelLiterals, l ∈ M := by
  obtain ⟨H, S, h1, h2, _, st, h4, h5⟩ := minimize_spec hin hi1 hi2 he
  have hmin := h5 (hc H st h1 h4) (fun v => M.any fun l => l.var == v) ?_ ?_
  · intro l hl
    have hl' := (h2 l).1 hl
    have := hmin l.var hl'.1 hl'.2.1
    simp only [List.any_eq_true, beq_iff_eq] at this
    obtain ⟨k, hk, e⟩ := this
    have ht := ((h2 k).1 (hM k hk)).2.2.2
    have : k = l := by
      have ht' := hl'.2.2.2
      simp only [Lit.trueIn, ← e] at ht'
      obtain ⟨kv, ks⟩ := k
      obtain ⟨lv, ls⟩ := l
      simp only at e
      subst e
      simp only [Lit.trueIn] at ht
      rw [ht] at ht'
      simp at ht'
      rw [ht']
    rw [← this]; exact hk
  · intro v hv
    simp only [List.any_eq_true, beq_iff_eq] at hv
    obtain ⟨k, hk, rfl⟩ := hv
    have := (h2 k).1 (hM k hk)
    exact ⟨this.1, this.2.1⟩
  · intro d hd
    obtain ⟨c, hc, hcd⟩ := (purify_spec hin.proper h1).2 d hd
    obtain ⟨l, hl, hlM⟩ := hcov c hc
    exact ⟨l.var, List.any_eq_true.2 ⟨l, hlM, by simp⟩, (hcd _).2 ⟨l, hl, ((h2 l).1 (hM l hlM)).2.2.2, rfl⟩⟩

/-- The literals reported are those of a set of variables, each once and in the order of the variables. -/
theorem C44_sorted : r.getMinimizedModelLiterals.Pairwise fun a b => a.var < b.var := sorted_literalsFrom.2

/-- **C44** (projection). Projection to the inputs removes exactly the literals of gate outputs, from a model that covers. -/
theorem C44_projection (hin : MinimizerInput p m) (hi1 : ∀ i ∈ is1, i.Plain) (hi2 : ∀ i ∈ is2, i.Plain)
    (he : minimizeModel p G false minimal true is1 is2 (Sys.new b) m = some r) :
    ∃ r', minimizeModel p G false minimal false is1 is2 (Sys.new b) m = some r' ∧
      ∀ l, l ∈ r.getMinimizedModelLiterals ↔ l ∈ r'.getMinimizedModelLiterals ∧ (G.gp.gates l.var).out = none := by
  have he' := he
  unfold minimizeModel at he'
  simp only [Bool.false_eq_true, if_false, Option.bind_some, if_true] at he'
  obtain ⟨H, h1, h2⟩ := Option.bind_eq_some_iff.1 he'
  obtain ⟨ls, h3, _⟩ := Option.map_eq_some_iff.1 h2
  have hr' : minimizeModel p G false minimal false is1 is2 (Sys.new b) m = some (translate m ls) := by
    unfold minimizeModel
    simp only [Bool.false_eq_true, if_false, Option.bind_some, h1, h3, Option.map_some]
  refine ⟨_, hr', fun l => ?_⟩
  obtain ⟨hH, hne⟩ := hitting_of_purify hin.vars hin.proper hin.sat h1
  obtain ⟨S, rfl, _⟩ := iterative_spec hH hne hi1 hi2 h3
  rw [h1, Option.bind_some, h3, Option.map_some, Option.some.injEq] at he'
  subst he'
  rw [mem_translate hin.proper hin.fresh, List.filter_map, mem_translate hin.proper hin.fresh]
  · simp only [List.mem_filter, List.mem_range, Function.comp_apply, Option.isNone_iff_eq_none]
    constructor
    · rintro ⟨⟨h1, h2⟩, h3⟩; exact ⟨⟨h1, h3⟩, h2⟩
    · rintro ⟨⟨h1, h3⟩, h2⟩; exact ⟨⟨h1, h2⟩, h3⟩
  · intro v hv
    exact hin.total v (List.mem_range.1 (List.mem_filter.1 (List.mem_filter.1 hv).1).1)
  · intro v hv
    exact hin.total v (List.mem_range.1 (List.mem_filter.1 hv).1)

/-! ### Termination -/

/-- The calls of the first loop that find a smaller set. -/
def minRun (n : Nat) : List SolveInput → MinState → Option MinState
  | [], st => some st
  | i :: is, st => (minIter n i st).bind fun x => if x.2 then minRun n is x.1 else none

theorem filter_lt {S S' : Nat → Bool} : ∀ {l : List Nat}, (∀ v ∈ l, S' v = true → S v = true) → (∃ v ∈ l, S v = true ∧ S' v = false) →
    (l.filter S').length < (l.filter S).length
  | [], _, h => by obtain ⟨v, hv, _⟩ := h; cases hv
  | x :: l, h1, h2 => by
    have hle : (l.filter S').length ≤ (l.filter S).length := by
      have : ∀ {l : List Nat}, (∀ v ∈ l, S' v = true → S v = true) → (l.filter S').length ≤ (l.filter S).length := by
        intro l
        induction l with
        | nil => intro _; simp
        | cons y l ih =>
          intro h
          have ih := ih fun v hv => h v (List.mem_cons_of_mem _ hv)
          have hy := h y (by simp)
          simp only [List.filter_cons]
          cases hs : S' y with
          | true => simp only [hy hs, if_true, List.length_cons]; omega
          | false =>
            cases S y with
            | true => simp; omega
            | false => simpa using ih
      exact this fun v hv => h1 v (List.mem_cons_of_mem _ hv)
    have hx := h1 x (by simp)
    simp only [List.filter_cons]
    obtain ⟨v, hv, k1, k2⟩ := h2
    rcases List.mem_cons.1 hv with rfl | hv
    · simp only [k1, k2, if_true, Bool.false_eq_true, if_false, List.length_cons]; omega
    · have := filter_lt (fun v hv => h1 v (List.mem_cons_of_mem _ hv)) ⟨v, hv, k1, k2⟩
      cases hs : S' x with
      | true => simp only [hx hs, if_true, List.length_cons]; omega
      | false =>
        cases S x with
        | true => simp; omega
        | false => simpa using this

theorem minRun_bound {n : Nat} {H : CNF} (hH : HittingProblem n H) : ∀ {is : List SolveInput} {F : CNF} {as : List Lit} {S : Nat → Bool}
    {st st' : MinState}, MinInv n H F as S st → (∀ i ∈ is, i.Plain) → minRun n is st = some st' →
    is.length + st'.cardinality.length ≤ st.cardinality.length
  | [], _, _, _, _, _, _, _, he => by cases he; simp
  | i :: is, F, as, S, st, st', h, hp, he => by
    unfold minRun at he
    obtain ⟨⟨st1, c⟩, h1, h2⟩ := Option.bind_eq_some_iff.1 he
    cases c with
    | false => cases h2
    | true =>
      obtain ⟨F', S', h', hs, v, hv, k1, k2⟩ := h.sat hH (hp i (by simp)) h1
      have := minRun_bound hH h' (fun j hj => hp j (List.mem_cons_of_mem _ hj)) h2
      have hlt := filter_lt (l := List.range n) (fun v hv => hs v (List.mem_range.1 hv)) ⟨v, List.mem_range.2 hv, k1, k2⟩
      rw [h'.card, List.length_map] at this
      rw [h.card, List.length_map, List.length_cons]
      omega

/-- **C44.** The first loop ends: at most as many calls of the solver as there are variables find a smaller set. -/
theorem C44_terminates {H : CNF} {st : MinState} (hin : MinimizerInput p m) (hp : purify m p.problem = some H)
    (hi1 : ∀ i ∈ is1, i.Plain) (he : minRun p.nVars is1 (minStart p.nVars H (Sys.new b)) = some st) : is1.length ≤ p.nVars := by
  obtain ⟨hH, hne⟩ := hitting_of_purify hin.vars hin.proper hin.sat hp
  have := minRun_bound hH (minStart_inv hH hne b) hi1 he
  simp only [minStart, List.length_map, List.length_range] at this
  omega

/-- The purification reads the model only where it has a value. -/
theorem C44_purify_defined (hin : MinimizerInput p m) : ∃ H, purify m p.problem = some H :=
  purify_defined fun c hc l hl => hin.length (hin.vars c hc l hl)

/-! ### Finding: the search for a minimum has no effect -/

/-- **C44, finding.** With `computeMinimalModel` the result is the same as without: the cardinality clause and the
assumptions of the first loop are still in force, so no later call of the solver is answered SAT. -/
theorem C44_finding_minimum_no_effect {r' : SolverResult} (hin : MinimizerInput p m) (hi1 : ∀ i ∈ is1, i.Plain) (hi2 : ∀ i ∈ is2, i.Plain)
    (hc : Conclusive p m b is1) (he : minimizeModel p G false true project is1 is2 (Sys.new b) m = some r)
    (he' : minimizeModel p G false false project is1 is2 (Sys.new b) m = some r') : r = r' := by
  unfold minimizeModel at he he'
  simp only [Bool.false_eq_true, if_false, Option.bind_some] at he he'
  obtain ⟨H, h1, h2⟩ := Option.bind_eq_some_iff.1 he
  rw [h1, Option.bind_some] at he'
  obtain ⟨ls, h3, rfl⟩ := Option.map_eq_some_iff.1 h2
  obtain ⟨ls', h3', rfl⟩ := Option.map_eq_some_iff.1 he'
  obtain ⟨hH, hne⟩ := hitting_of_purify hin.vars hin.proper hin.sat h1
  obtain ⟨_, _, _, st, k2, k3⟩ := iterative_spec hH hne hi1 hi2 h3
  obtain ⟨_, _, _, st', k2', k3'⟩ := iterative_spec hH hne hi1 hi2 h3'
  rw [k2] at k2'
  cases k2'
  have hx := hc H st h1 k2
  rw [(k3 hx).1, (k3' hx).1]

end

/-! ### Examples -/

/-- Two clauses; the model makes all variables true. -/
def exMinProblem : Problem := ⟨cnf [[1, 2], [1, 3]], 3⟩
def exMinModel : SolverResult := { SolverResult.new with status := LBool.T, model := [LBool.T, LBool.T, LBool.T] }

theorem exMinInput : MinimizerInput exMinProblem exMinModel :=
  ⟨by decide, by decide, by decide, by
    intro c hc
    have : c = [pos 0, pos 1] ∨ c = [pos 0, pos 2] := by simpa [exMinProblem, cnf, lit, pos] using hc
    rcases this with rfl | rfl <;> exact ⟨pos 0, by simp, by unfold Lit.trueIn; decide⟩, rfl⟩

def exSolveInput : SolveInput := ⟨plainCfg, [], [exRound]⟩

theorem exSolveInput_plain : exSolveInput.Plain := ⟨rfl, fun r hr => by
  rw [List.mem_singleton.1 hr]; exact ⟨exRound_valid, rfl⟩⟩

def exMinGates : MinGates := ⟨GateProblem.new, 0⟩

/-- The first loop finds variables 2 and 3 and ends with UNSAT. -/
theorem exMinLoop : ((purify exMinModel exMinProblem.problem).bind fun H => (minLoop 3 [exSolveInput, exSolveInput] (minStart 3 H (Sys.new true))).map
    fun st => (st.cardinality, st.satisfiable)) = some ([neg 1, neg 2], some false) := by decide +kernel

theorem exMinConclusive : Conclusive exMinProblem exMinModel true [exSolveInput, exSolveInput] := by
  intro H st h1 h2
  have := exMinLoop
  rw [h1, Option.bind_some] at this
  change minLoop 3 _ (minStart 3 H _) = some st at h2
  rw [h2, Option.map_some, Option.some.injEq, Prod.mk.injEq] at this
  rw [this.2]; simp

/-- **C44, finding.** The search for a minimum returns a model with two literals although one literal suffices. -/
theorem C44_finding_not_minimum : ∃ r, minimizeModel exMinProblem exMinGates false true false [exSolveInput, exSolveInput] [exSolveInput]
      (Sys.new true) exMinModel = some r ∧ r.getMinimizedModelLiterals = [pos 1, pos 2] ∧
    Covers [pos 0] exMinProblem.problem ∧ pos 0 ∈ exMinModel.getModelLiterals := by
  have h : (minimizeModel exMinProblem exMinGates false true false [exSolveInput, exSolveInput] [exSolveInput]
      (Sys.new true) exMinModel).map (fun r => r.getMinimizedModelLiterals) = some [pos 1, pos 2] := by decide +kernel
  obtain ⟨r, h1, h2⟩ := Option.map_eq_some_iff.1 h
  refine ⟨r, h1, h2, ?_, by decide⟩
  intro c hc
  have : c = [pos 0, pos 1] ∨ c = [pos 0, pos 2] := by simpa [exMinProblem, cnf, lit, pos] using hc
  rcases this with rfl | rfl <;> exact ⟨pos 0, by simp, by simp⟩

end Candy
