import Verif.Proofs.Clear
import Verif.Props.Answers
import Verif.Proofs.Examples

/-!
# C54: after `clear`, the solver is as good as new
-/

namespace Candy

variable {u : Usage} {F : CNF} {as : List Lit} {sys : Sys}

/-- C54 (partial). As long as no variable was eliminated, a solver that is cleared behaves exactly
like a new one: for everything that is loaded and assumed afterwards and all inputs of the heuristics,
the next call of `solve` returns the same result and leaves the same state (so all later calls agree,
too). Missing: histories with variable elimination, for which the claim is false
(`C54_clear_fails`). -/
theorem C54_clear_partial (hu : u.Keeps) (h : History u F as sys) (gs : List (Nat × CNF × Bool))
    (as' : List Lit) (cfg : Config) (pre : List PreRound) (rounds : List Round) :
    solve cfg pre rounds ((sys.clear.load gs).assume as') =
      solve cfg pre rounds (((Sys.new sys.sol.recalc).load gs).assume as') := by
  have hv := h.noVE hu
  rw [Sys.clear_eq hv, Sys.load_dirty _ _ gs _ ⟨rfl, fun _ => rfl⟩]
  exact solve_dirty (sys := ((Sys.new sys.sol.recalc).load gs).assume as') cfg pre rounds _ _

/-- Options with which nothing is ever eliminated: elimination is off, or there is neither pre- nor
inprocessing. -/
theorem C54_plain_keeps : Usage.plain.Keeps :=
  fun _ _ _ hc hr => Or.inr ⟨hc, fun r hm => (hr r hm).2⟩

/-- All options with elimination off. -/
def Usage.noElimination : Usage where
  solve cfg _ := cfg.useElim = false
  round r := r.Valid
  flag _ := True

theorem C54_noElimination_keeps : Usage.noElimination.Keeps := fun _ _ _ hc _ => Or.inl hc

/-! ### One solver object for many problems -/

/-- A solver that is used for one problem after the other: each time it is cleared, gets a problem and
solves it, with elimination off (the way `GateAnalyzer::semanticCheck` uses its solver,
GateAnalyzer.cc:237-241). -/
inductive Reused (recalc : Bool) : Sys → Prop
  | new : Reused recalc (Sys.new recalc)
  | check {sys sys' : Sys} {res : Result} (h : Reused recalc sys) (nv : Nat) (G : CNF)
      (hG : WfCNF nv G) (cfg : Config) (pre : List PreRound) (rounds : List Round)
      (hk : RoundsKeep cfg rounds) (hr : ∀ r ∈ rounds, r.Valid)
      (he : solve cfg pre rounds (sys.clear.init nv G) = some (sys', res)) : Reused recalc sys'

theorem createFold_nVars {f : Clause → Nat} {lem : Bool} : ∀ (cs : List Clause) (db : DB),
    (cs.foldl (fun d c => (d.createClause c (f c) lem).1) db).nVars = db.nVars
  | [], _ => rfl
  | c :: cs, db => by rw [List.foldl_cons, createFold_nVars cs]; simp

theorem Sys.init_new_nVars (recalc : Bool) (nv : Nat) (G : CNF) :
    ((Sys.new recalc).init nv G).sol.db.nVars = nv := by
  unfold Sys.init
  dsimp only
  rw [restoreAll_noVE (by exact ⟨rfl, fun _ => rfl⟩)]
  show (DB.new.init nv G true).nVars = nv
  unfold DB.init
  dsimp only
  rw [createFold_nVars]
  show (if 0 < nv then { DB.new with nVars := nv } else DB.new).nVars = nv
  split
  · rfl
  · show 0 = nv; omega

theorem solve_recalc_reused {recalc : Bool} {sys : Sys} (h : Reused recalc sys) :
    NoVE sys.ve := by
  induction h with
  | new => exact ⟨rfl, fun _ => rfl⟩
  | check _ nv G _ cfg pre rounds hk _ he ih =>
    have h1 : NoVE (Sys.clear _).ve := ih
    exact solve_noVE hk he (by rw [Sys.init_ve h1]; exact h1)

/-- C54. However often the solver object was cleared and used before, an UNSAT answer for the problem
loaded last is right, for all options with elimination off; without pre- and inprocessing, a SAT
answer is right as well. -/
theorem C54_reused_answers {recalc : Bool} {sys sys' : Sys} {res : Result} (h : Reused recalc sys)
    {nv : Nat} {G : CNF} (hG : WfCNF nv G) {cfg : Config} {pre : List PreRound}
    {rounds : List Round} (hr : ∀ r ∈ rounds, r.Valid)
    (he : solve cfg pre rounds (sys.clear.init nv G) = some (sys', res)) :
    (res.status = some false → ¬ Satisfiable G) ∧
    (cfg.preprocessing = false → (∀ r ∈ rounds, r.inprocess = none) → res.status = some true →
      PSat res.model G ∧ ∀ v < nv, res.model v ≠ none) := by
  have hv := solve_recalc_reused h
  have hnew : solve cfg pre rounds ((Sys.new sys.sol.recalc).init nv G) = some (sys', res) := by
    rw [← he, Sys.clear_eq hv, Sys.init_dirty ⟨rfl, fun _ => rfl⟩]
    exact (solve_dirty cfg pre rounds _ _).symm
  have hWf : WfCNF (max (Sys.new sys.sol.recalc).sol.db.nVars nv) G := by
    show WfCNF (max 0 nv) G
    rw [Nat.zero_max]; exact hG
  constructor
  · intro hs
    have hh := (History.new (u := .any) sys.sol.recalc).add nv G true trivial hWf
    rw [List.nil_append] at hh
    exact C19_unsat_sound hh hr hnew hs
  · intro hp hi hs
    have hh := (History.new (u := .plain) sys.sol.recalc).add nv G true rfl hWf
    rw [List.nil_append] at hh
    obtain ⟨m1, _, m3⟩ := C20_sat_model_partial hh hp (fun r hm => ⟨hr r hm, hi r hm⟩) hnew hs
    refine ⟨m1, fun v hlt => m3 v ?_⟩
    rw [Sys.init_new_nVars]; exact hlt

/-! ### Variable elimination survives `clear` -/

/-- Default options: the solver answers SAT for the two clauses `1 ∨ 2` and `¬1 ∨ 3` after eliminating
variables. -/
def clF : CNF := cnf [[1, 2], [-1, 3]]
/-- The problem that is loaded next. -/
def clG : CNF := cnf [[-1], [-2]]

def clRun1 : Option (Sys × Result) :=
  solve {} [exPreSorted, exPreSorted] [exRound] ((Sys.new true).init 3 clF true)

def clRun2 : Option (Sys × Result) :=
  clRun1.bind fun x => solve {} [exPreSorted, exPreSorted] [exRound] (x.1.clear.init 3 clG true)

/-- C54 as stated is false of the code: `clear` keeps the clauses of eliminated variables. When the
next problem mentions such a variable, the clauses of the old problem are added to it. With default
options the solver answers UNSAT for a satisfiable problem. -/
theorem C54_clear_fails : ∃ (F G : CNF) (sys sys' : Sys) (pre : List PreRound) (rounds : List Round)
    (res : Result), History .any F [] sys ∧ WfCNF 3 G ∧ (∀ r ∈ rounds, r.Valid) ∧
    solve {} pre rounds (sys.clear.init 3 G) = some (sys', res) ∧ res.status = some false ∧
    Satisfiable G := by
  have hrun : (clRun2.map fun x => x.2.status) = some (some false) := by decide +kernel
  obtain ⟨⟨sys', res⟩, h1, h2⟩ := Option.map_eq_some_iff.1 hrun
  obtain ⟨⟨sys, res0⟩, h3, h4⟩ := Option.bind_eq_some_iff.1 h1
  have hh : History .any clF [] ((Sys.new true).init 3 clF true) := by
    have h := (History.new (u := .any) true).add 3 clF true trivial (wfCNF_of (by decide))
    simpa using h
  have hv : ∀ r ∈ [exRound], r.Valid := by
    intro r hr; simp at hr; subst hr; exact exRound_valid
  refine ⟨clF, clG, sys, sys', _, _, res, hh.solve {} _ [exRound] trivial hv h3,
    wfCNF_of (by decide), hv, h4, h2, fun _ => false, ?_⟩
  intro c hc
  simp [clG, cnf, lit] at hc
  rcases hc with rfl | rfl
  · exact ⟨_, List.mem_cons_self, rfl⟩
  · exact ⟨_, List.mem_cons_self, rfl⟩

/-! ### The hypotheses can be met -/

/-- With elimination off, the same two problems get the right answers from one solver object, so the
hypotheses of `C54_reused_answers` hold for a state reached by a proper check. -/
def clOff : Config := { useElim := false }

def clRunOff : Option (Sys × Result) :=
  solve clOff [exPreSorted] [exRound] ((Sys.new true).clear.init 3 clF)

theorem clRunOff_runs : clRunOff.isSome = true := by decide +kernel

example : ∃ sys, Reused true sys ∧ sys.sol.db.nVars = 3 := by
  have h1 : (clRunOff.map fun x => x.1.sol.db.nVars) = some 3 := by decide +kernel
  obtain ⟨⟨sys, res⟩, h2, h3⟩ := Option.map_eq_some_iff.1 h1
  refine ⟨sys, Reused.check Reused.new 3 clF (wfCNF_of (by decide)) clOff [exPreSorted] [exRound]
    (Or.inl rfl) ?_ h2, h3⟩
  intro r hr; simp at hr; subst hr; exact exRound_valid

example : ((clRunOff.bind fun x => solve clOff [exPreSorted] [exRound] (x.1.clear.init 3 clG)).map
    fun x => x.2.status) = some (some true) := by decide +kernel

example : ((clRunOff.bind fun x => solve clOff [exPreSorted] [exRound]
    (x.1.clear.init 3 (cnf [[1, 2], [-1, 2], [1, -2], [-1, -2]]))).map
    fun x => x.2.status) = some (some false) := by decide +kernel

end Candy
