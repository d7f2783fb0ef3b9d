import Verif.Model.History

/-! Concrete inputs used in the non-vacuity examples. -/

namespace Candy

/-- The unassigned decision variable with the smallest number. -/
def firstFree (T : Trail) : Option Lit :=
  ((List.range T.nVars).find? fun v => T.decision v && (T.assigns v).isNone).map neg

/-- Branch on the first free variable, never restart. -/
def exChoice : Choice := ⟨false, firstFree⟩

theorem firstFree_valid (b : Bool) : (Choice.mk b firstFree).Valid := by
  intro T
  simp only [firstFree]
  cases h : (List.range T.nVars).find? fun v => T.decision v && (T.assigns v).isNone with
  | none =>
    intro v hv hd ha
    have := List.find?_eq_none.1 h v (by simpa using hv)
    simp [hd, ha] at this
  | some v =>
    have h1 := List.find?_some h
    have h2 := List.mem_of_find?_eq_some h
    simp at h1 h2 ⊢
    exact ⟨h2, h1.2, h1.1⟩

theorem exChoice_valid : exChoice.Valid := firstFree_valid false

/-- A round of at most 50 search steps without clause reduction. -/
def exRound : Round := ⟨false, none, id, 50, fun _ => exChoice⟩

theorem exRound_valid : exRound.Valid := ⟨fun _ => exChoice_valid, fun _ _ h => h⟩

/-- A round with reduction that is interrupted by a restart after the first conflict. -/
def exRestart : Round :=
  ⟨true, none, id, 50, fun i => ⟨decide (i = 2), firstFree⟩⟩

theorem exRestart_valid : exRestart.Valid := ⟨fun _ => firstFree_valid _, fun _ _ h => h⟩

/-- One round of simplification. -/
def exPre : PreRound := ⟨100, fun a b => decide (a < b), fun _ l => l, true, true, true⟩

/-- Stable insertion by descending number of occurrences, one possible result of the `std::sort` in
`VariableElimination::eliminate`. -/
def exInsert (n : Nat → Nat) (v : Nat) : List Nat → List Nat
  | [] => [v]
  | w :: ws => if n w < n v then v :: w :: ws else w :: exInsert n v ws

def exOrder (n : Nat → Nat) (vs : List Nat) : List Nat :=
  vs.foldl (fun acc v => exInsert n v acc) []

/-- A round of simplification with that order. -/
def exPreSorted : PreRound := ⟨100, fun a b => decide (a < b), exOrder, true, true, true⟩

/-- DIMACS-style literals for examples. -/
def lit (i : Int) : Lit := ⟨i.natAbs - 1, decide (i < 0)⟩
def cnf (f : List (List Int)) : CNF := f.map (·.map lit)

/-- Decidable form of `WfCNF`. -/
def wfCNFb (nv : Nat) (G : CNF) : Bool :=
  G.all fun c => (c.all fun l => decide (l.var < nv)) && decide (c.map Lit.var).Nodup

theorem wfCNF_of {nv : Nat} {G : CNF} (h : wfCNFb nv G = true) : WfCNF nv G := by
  simp [wfCNFb, List.all_eq_true] at h
  exact fun c hc => h c hc

/-- A concrete search state: a new solver, the clauses `G` over `nv` variables, assumptions `as`, one call
of `solve` without preprocessing, `k` iterations of the search loop. -/
def exState (nv : Nat) (G : CNF) (as : List Lit) : Nat → Option Solver
  | 0 =>
    (solveEntry { preprocessing := false } [] (((Sys.new true).init nv G true).assume as)).bind fun sys =>
      (reduceStep {} exRound { sys with sol := { sys.sol with trail := sys.sol.trail.reset } }).bind
        fun sys => (materialize sys.sol).bind fun s => if s.db.hasEmpty then none else some s
  | k + 1 => (exState nv G as k).bind fun s =>
      match searchIter s exChoice with
      | some (.cont s') => some s'
      | _ => none

theorem exState_searching {u : Usage} (hu : u.round exRound) (hf : u.flag true)
    (hs : u.solve { preprocessing := false } []) {nv : Nat} {G : CNF} {as : List Lit}
    (hG : wfCNFb nv G = true)
    (ha : (as.all fun l => decide (l.var < ((Sys.new true).init nv G true).sol.db.nVars)) = true) :
    ∀ k s, exState nv G as k = some s → Searching u G as s
  | 0, s, h => by
    unfold exState at h
    obtain ⟨s1, h1, h⟩ := Option.bind_eq_some_iff.1 h
    obtain ⟨s2, h2, h⟩ := Option.bind_eq_some_iff.1 h
    obtain ⟨s3, h3, h⟩ := Option.bind_eq_some_iff.1 h
    split at h
    · simp at h
    · rename_i hE
      simp only [Option.some.injEq] at h
      subst h
      have hh : History u G as (((Sys.new true).init nv G true).assume as) := by
        have := (History.new (u := u) true).add nv G true hf
          (by simpa [Sys.new, DB.new] using wfCNF_of hG)
        rw [List.nil_append] at this
        refine this.assume as ?_
        simpa [List.all_eq_true] using ha
      exact .start (.enter hh _ _ hs h1) _ _ hu h2 h3 (by simpa using hE)
  | k + 1, s, h => by
    unfold exState at h
    obtain ⟨s1, h1, h⟩ := Option.bind_eq_some_iff.1 h
    split at h
    · rename_i s' he
      simp only [Option.some.injEq] at h
      subst h
      exact .iter (exState_searching hu hf hs hG ha k s1 h1) exChoice exChoice_valid he
    · simp at h

end Candy
