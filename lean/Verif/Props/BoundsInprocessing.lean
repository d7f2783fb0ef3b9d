import Verif.Props.BoundsSimplify
import Verif.Props.Inprocessing

/-!
# C49 and C17: inprocessing makes the search overrun the stamps for the LBD

The array of stamps that `computeLBD` indexes with decision levels has one entry per variable. Without inprocessing, and with
assumptions of different variables, a conflict never happens at a level as high as the number of variables, because propagation
is complete: a clause that becomes false by the last decision would have been unit before. After inprocessing it is not
complete (`C12_inprocessing_fails`).
-/

namespace Candy

/-- 4 must be true, 4 implies 5, and 5 implies 7 or 8. -/
def lvF : CNF := cnf [[-4, 5], [-5, 7, 8, 6], [-5, 7, 8, -6], [4, 1], [-1, 2], [4, 3], [-3, -2]]

/-- Assumptions, of different variables. -/
def lvAs : List Lit := [lit 4, lit 5]

/-- Asymmetric variable reduction on, variable elimination and preprocessing off. -/
def lvCfg : Config := { preprocessing := false, useElim := false, useAsymm := true }

/-- An iteration of the main loop with two rounds of inprocessing: the second changes nothing that `nTouched()` counts. -/
def lvRound : Round := ⟨true, some [⟨100, fun a b => decide (a < b), exOrder, true, true, false⟩,
  ⟨100, fun a b => decide (a < b), exOrder, false, false, false⟩], id, 50, fun _ => exChoice⟩

theorem lvRound_valid : lvRound.Valid := ⟨fun _ => exChoice_valid, fun _ _ h => h⟩

/-- At the head of the main loop. -/
def lvSys : Option Sys := solveEntry lvCfg [] (((Sys.new true).init 8 lvF true).assume lvAs)

/-- After `k` iterations of the search that follows inprocessing. -/
def lvIter : Nat → Option Solver
  | 0 => lvSys.bind fun sys =>
      (reduceStep lvCfg lvRound { sys with sol := { sys.sol with trail := sys.sol.trail.reset } }).bind fun sys =>
        (materialize sys.sol).bind fun s => if s.db.hasEmpty then none else some s
  | k + 1 => (lvIter k).bind fun s =>
      match searchIter s exChoice with
      | some (.cont s') => some s'
      | _ => none

theorem lvSys_inSolve {sys : Sys} (h : lvSys = some sys) : InSolve .any lvF lvAs sys := by
  have hh := (History.new (u := .any) true).add 8 lvF true trivial (wfCNF_of (by decide))
  rw [List.nil_append] at hh
  exact .enter (hh.assume lvAs (by decide)) lvCfg [] trivial h

theorem lvIter_searching : ∀ k s, lvIter k = some s → Searching .any lvF lvAs s
  | 0, s, h => by
    unfold lvIter at h
    obtain ⟨s1, h1, h⟩ := Option.bind_eq_some_iff.1 h
    obtain ⟨s2, h2, h⟩ := Option.bind_eq_some_iff.1 h
    obtain ⟨s3, h3, h⟩ := Option.bind_eq_some_iff.1 h
    split at h
    · simp at h
    · rename_i hE
      simp only [Option.some.injEq] at h
      subst h
      exact .start (lvSys_inSolve h1) lvCfg lvRound lvRound_valid h2 h3 (by simpa using hE)
  | k + 1, s, h => by
    unfold lvIter at h
    obtain ⟨s1, h1, h⟩ := Option.bind_eq_some_iff.1 h
    split at h
    · rename_i s' he
      simp only [Option.some.injEq] at h
      subst h
      exact .iter (lvIter_searching k s1 h1) exChoice exChoice_valid he
    · simp at h

/-- C49 fails with inprocessing, for assumptions of different variables: eight variables, and a conflict at level 8; the stamp
array for the LBD has 8 entries. Inprocessing makes the clause (¬5 ∨ 7 ∨ 8), then 5 becomes true, and the watch lists made
afterwards watch ¬5 and 7: the clause is noticed when both 7 and 8 are false, and not when it is unit. -/
theorem C49_inprocessing_fails : ∃ F as s m ps c, (as.map Lit.var).Nodup ∧ Searching .any F as s ∧ RepM m s ∧
    runPropagate s = some (ps, some c) ∧ ps.T.decisionLevel = s.db.nVars ∧
    ∀ ch : AChoice, aSearchIter s.recalc m ch = none := by
  have h : ((lvIter 6).map fun s =>
      (aSearchIter s.recalc (machOf s) ⟨false, fun _ => none⟩).isNone &&
      (match aPropagateLoop (machOf s).bin ((machOf s).T.variables + 1)
          ⟨(machOf s).T, (machOf s).store, (machOf s).watch⟩ with
        | some (_, some _) => true
        | _ => false) && decide (s.trail.stack.length ≤ s.trail.nVars) &&
      (match runPropagate s with
        | some (ps, some _) => decide (ps.T.decisionLevel = s.db.nVars)
        | _ => false)) = some true := by decide +kernel
  obtain ⟨s, hs, e⟩ := Option.map_eq_some_iff.1 h
  simp only [Bool.and_eq_true, Option.isNone_iff_eq_none, decide_eq_true_eq] at e
  have e3 := e.2
  split at e3
  · rename_i ps c hp
    refine ⟨_, lvAs, s, machOf s, ps, c, by decide, lvIter_searching 6 s hs, machOf_rep e.1.2, hp, of_decide_eq_true e3,
      fun ch => ?_⟩
    rw [← e.1.1.1]
    unfold aSearchIter
    have e2 := e.1.1.2
    split at e2
    · rename_i hp; rw [hp]
    · simp at e2
  · cases e3

/-- The loop of inprocessing, with its own condition, makes the same clauses: two rounds. -/
example : (lvSys.bind fun sys =>
      (reduceStepL lvCfg 20 ⟨true, some exSimp, id, fun _ => exChoice⟩
        { sys with sol := { sys.sol with trail := sys.sol.trail.reset } }).bind fun sys => materialize sys.sol).map
      (fun s => (s.db.clauses.map fun c => (s.db.store c).lits, s.trail.stack)) =
    (lvIter 0).map (fun s => (s.db.clauses.map fun c => (s.db.store c).lits, s.trail.stack)) ∧
    (lvIter 0).isSome := by
  decide +kernel

end Candy
