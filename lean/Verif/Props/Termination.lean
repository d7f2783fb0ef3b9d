import Verif.Proofs.SolveTotal
import Verif.Proofs.Examples

/-!
# C47: search ends

`n` is the number of variables of the solver. The bound `n * (n + 1) ^ (n + 1) + 1` on the number of
iterations of the search loop (each a decision or a conflict) depends on `n` only, not on the clauses,
the branching decisions or the state in which search is entered.
-/

namespace Candy

variable {u : Usage} {F : CNF} {as : List Lit} {s : Solver}

/-- C47. Whatever clauses were added and whatever was solved before, and whatever literals the branching
heuristic picks: search returns after at most `n * (n + 1) ^ (n + 1) + 1` iterations, and unless a
restart was triggered the result is a definite answer, SAT or UNSAT. -/
theorem C47_search_ends (hu : u.Valid) (h : Searching u F as s) (o : Nat → Choice)
    (ho : ∀ i, (o i).Valid) {k : Nat} (hk : s.db.nVars * (s.db.nVars + 1) ^ (s.db.nVars + 1) < k) :
    ∃ s' r, search k o s = some (s', r) ∧ ((∀ i, (o i).restart = false) → ∃ b, r = some b) := by
  obtain ⟨s', r, h1, h2⟩ := search_terminates k o s _ (h.ok hu).inv ho (by omega)
  exact ⟨s', r, h1, fun hr => Option.ne_none_iff_exists'.1 (h2 hr)⟩

/-- C47, the same without the fuel of the model: there is no infinite run of the search loop in which
every iteration ends with a decision or a learnt clause. -/
theorem C47_no_infinite_search (hu : u.Valid) (run : Nat → Solver) (ch : Nat → Choice)
    (h0 : Searching u F as (run 0)) (hv : ∀ i, (ch i).Valid) :
    ¬ ∀ i, searchIter (run i) (ch i) = some (.cont (run (i + 1))) := by
  intro hrun
  obtain ⟨s', r, h1, -⟩ := C47_search_ends hu h0 ch hv (Nat.lt_succ_self _)
  have key : ∀ k (run : Nat → Solver) (ch : Nat → Choice),
      (∀ i, searchIter (run i) (ch i) = some (.cont (run (i + 1)))) → search k ch (run 0) = none := by
    intro k
    induction k with
    | zero => intro run ch _; rfl
    | succ k ih =>
      intro run ch hr
      rw [search, hr 0]
      exact ih (fun i => run (i + 1)) (fun i => ch (i + 1)) (fun i => hr (i + 1))
  rw [key _ run ch hrun] at h1
  simp at h1

/-- C47 for a whole call of `solve`, with preprocessing, inprocessing, clause deletion and restarts. The
fuel bounds the repetitions in the loops of the model (subsumption, preprocessing, search): from some
amount on the call is defined and its result does not depend on the amount. If some round of search is
not interrupted by a restart, the status is SAT or UNSAT. -/
theorem C47_solve_ends {sys : Sys} (hu : u.Valid) (h : History u F as sys) (cfg : Config)
    (pre : List PreRound) (rounds : List Round) (hr : ∀ r ∈ rounds, r.Valid) :
    ∃ N x, (∀ f, N ≤ f → solve cfg (pre.map (PreRound.withFuel f)) (rounds.map (Round.withFuel f)) sys =
        some x) ∧
      ((∃ r ∈ rounds, ∀ i, (r.choice i).restart = false) → x.2.status ≠ none) := by
  have ok := h.ok hu
  obtain ⟨N, x, h1, -, h3⟩ := solve_total ok.ok (h.ve hu) cfg pre rounds hr
    (by rw [ok.assumptions]; exact ok.bound)
  exact ⟨N, x, h1, h3⟩

/-! ### Non-vacuity -/

/-- A reachable search state after two decisions, in which search needs several more iterations and then
answers. -/
example : ∃ s, exState 3 (cnf [[1, 2, 3], [1, -2, 3], [1, 2, -3], [1, -2, -3]]) [] 2 = some s ∧
    Searching .any (cnf [[1, 2, 3], [1, -2, 3], [1, 2, -3], [1, -2, -3]]) [] s ∧
    (search 2 (fun _ => exChoice) s).isNone ∧
    (search 50 (fun _ => exChoice) s).map Prod.snd = some (some true) := by
  have h : ((exState 3 (cnf [[1, 2, 3], [1, -2, 3], [1, 2, -3], [1, -2, -3]]) [] 2).map fun s =>
      ((search 2 (fun _ => exChoice) s).isNone, (search 50 (fun _ => exChoice) s).map Prod.snd)) =
      some (true, some (some true)) := by decide +kernel
  obtain ⟨s, hs, e⟩ := Option.map_eq_some_iff.1 h
  refine ⟨s, hs, exState_searching (u := .any) exRound_valid trivial trivial (by decide) (by decide) 2 s hs, ?_⟩
  simpa using e

/-- With a restart the result may be undefined: the restart condition in `C47_search_ends` is needed. -/
example : ((exState 3 (cnf [[1, 2, 3], [1, -2, 3], [1, 2, -3], [1, -2, -3]]) [] 1).bind fun s =>
    (search 50 (fun _ => ⟨true, firstFree⟩) s).map Prod.snd) = some none := by decide +kernel

/-- A call with default options, a restart and a round without one: too little fuel, then the answer. -/
example :
    let sys := (Sys.new true).init 3 (cnf [[1, 2, 3], [1, -2, 3], [1, 2, -3], [-1, 2, 3]]) true
    (∀ r ∈ [exRestart, exRound], r.Valid) ∧ (∃ r ∈ [exRestart, exRound], ∀ i, (r.choice i).restart = false) ∧
    (solve {} [exPre.withFuel 0] [exRestart.withFuel 0, exRound.withFuel 0] sys).isNone ∧
    (solve {} [exPre.withFuel 50] [exRestart.withFuel 50, exRound.withFuel 50] sys).map (·.2.status) =
      some (some true) := by
  refine ⟨?_, ⟨exRound, by simp, fun _ => rfl⟩, by decide +kernel, by decide +kernel⟩
  intro r hr
  simp at hr
  rcases hr with rfl | rfl
  · exact exRestart_valid
  · exact exRound_valid

end Candy
