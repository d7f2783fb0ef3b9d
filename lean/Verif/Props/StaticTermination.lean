import Verif.Proofs.StaticTotal
import Verif.Props.StaticSimplify

/-!
# C47 for a solver with the static propagator (option `static-propagate`)

The same bounds as in `Props/Termination.lean`. With inprocessing this propagator can miss conflicts
(`C55_inprocessing_fails`); the loops end all the same.
-/

namespace Candy

variable {u : Usage} {F : CNF} {as : List Lit}

/-- C47. Search with the static propagator returns after at most `n * (n + 1) ^ (n + 1) + 1` iterations,
whatever was added and solved before and whatever literals are picked; without a restart the result is
SAT or UNSAT. -/
theorem C47_static_search_ends {t : St} (hu : u.Valid) (h : SSSearching u F as t) (o : Nat → Choice)
    (ho : ∀ i, (o i).Valid) {k : Nat}
    (hk : t.sol.db.nVars * (t.sol.db.nVars + 1) ^ (t.sol.db.nVars + 1) < k) :
    ∃ t' r, sSearch k o t = some (t', r) ∧ ((∀ i, (o i).restart = false) → ∃ b, r = some b) := by
  obtain ⟨t', r, h1, h2⟩ := sSearch_terminates k o t _ (h.ok hu).1 ho (by omega)
  exact ⟨t', r, h1, fun hr => Option.ne_none_iff_exists'.1 (h2 hr)⟩

/-- C47. The same without fuel: no infinite run of the search loop. -/
theorem C47_static_no_infinite_search (hu : u.Valid) (run : Nat → St) (ch : Nat → Choice)
    (h0 : SSSearching u F as (run 0)) (hv : ∀ i, (ch i).Valid) :
    ¬ ∀ i, sSearchIter (run i) (ch i) = some (.cont (run (i + 1))) := by
  intro hrun
  obtain ⟨s', r, h1, -⟩ := C47_static_search_ends hu h0 ch hv (Nat.lt_succ_self _)
  have key : ∀ k (run : Nat → St) (ch : Nat → Choice),
      (∀ i, sSearchIter (run i) (ch i) = some (.cont (run (i + 1)))) → sSearch k ch (run 0) = none := by
    intro k
    induction k with
    | zero => intro run ch _; rfl
    | succ k ih =>
      intro run ch hr
      rw [sSearch, hr 0]
      exact ih (fun i => run (i + 1)) (fun i => ch (i + 1)) (fun i => hr (i + 1))
  rw [key _ run ch hrun] at h1
  simp at h1

/-- C47 for a whole call of `solve` with the static propagator, with preprocessing, inprocessing, clause
deletion and restarts: with enough fuel for the loops of the model the call is defined, nothing undefined
happens in it, and its result does not depend on the fuel. If some round of search is not interrupted by a
restart, the status is SAT or UNSAT. -/
theorem C47_static_solve_ends {s : SSys} (hu : u.Valid) (h : SSHistory u F as s) (cfg : Config)
    (pre : List PreRound) (rounds : List Round) (hr : ∀ r ∈ rounds, r.Valid) :
    ∃ N x, (∀ f, N ≤ f → s.solve cfg (pre.map (PreRound.withFuel f)) (rounds.map (Round.withFuel f)) =
        some x) ∧
      ((∃ r ∈ rounds, ∀ i, (r.choice i).restart = false) → x.2.status ≠ none) := by
  have ok := h.ok hu
  obtain ⟨N, x, h1, -, h3⟩ := sSolve_total ok.ok ok.nw (h.ve hu) cfg pre rounds hr
    (by rw [ok.assumptions]; exact ok.bound)
  exact ⟨N, x, h1, h3⟩

/-! ### Non-vacuity -/

/-- A reachable search state after two decisions and preprocessing: one iteration is not enough, fifty are. -/
example : ∃ t, ssSearch ssNoElim ((SSys.new).init 5 ssF) [exPreSorted] fdRound 2 = some t ∧
    SSSearching .any ssF [] t ∧ (sSearch 1 (fun _ => exChoice) t).isNone ∧
    ((sSearch 50 (fun _ => exChoice) t).bind Prod.snd).isSome := by
  have h : ((ssSearch ssNoElim ((SSys.new).init 5 ssF) [exPreSorted] fdRound 2).map fun t =>
      ((sSearch 1 (fun _ => exChoice) t).isNone, ((sSearch 50 (fun _ => exChoice) t).bind Prod.snd).isSome)) =
      some (true, true) := by decide +kernel
  obtain ⟨t, ht, e⟩ := Option.map_eq_some_iff.1 h
  refine ⟨t, ht, ssSearch_searching (u := .any) (ssF_history trivial) trivial fdRound_valid 2 t ht, ?_⟩
  simpa using e

/-- A restart ends search without an answer: the condition on restarts is needed. -/
example : ((ssSearch ssNoElim ((SSys.new).init 5 ssF) [exPreSorted] fdRound 1).bind fun t =>
    (sSearch 50 (fun _ => ⟨true, firstFree⟩) t).map Prod.snd) = some none := by decide +kernel

/-- A call with default options, a restart and a round without one: too little fuel, then the answer. -/
example :
    let s := (SSys.new).init 3 (cnf [[1, 2, 3], [1, -2, 3], [1, 2, -3], [-1, 2, 3]])
    (∀ r ∈ [exRestart, exRound], r.Valid) ∧ (∃ r ∈ [exRestart, exRound], ∀ i, (r.choice i).restart = false) ∧
    (s.solve {} [exPre.withFuel 0] [exRestart.withFuel 0, exRound.withFuel 0]).isNone ∧
    (s.solve {} [exPre.withFuel 50] [exRestart.withFuel 50, exRound.withFuel 50]).map (·.2.status) =
      some (some true) := by
  refine ⟨?_, ⟨exRound, by simp, fun _ => rfl⟩, by decide +kernel, by decide +kernel⟩
  intro r hr
  simp at hr
  rcases hr with rfl | rfl
  · exact exRestart_valid
  · exact exRound_valid

end Candy
