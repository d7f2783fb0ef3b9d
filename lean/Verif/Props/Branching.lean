import Verif.Proofs.BranchSearch
import Verif.Props.Answers
import Verif.Props.Search

/-!
# Branching (C35)

`SearchingB kind u F as s b`: solver state `s` and heuristic state `b` at the head of the search
loop, in some call of `solve` of some history of API calls, after any number of conflicts, backjumps,
restarts and reductions of the clause database, with heuristic `kind` (VSIDS, VSIDSC, LRB, or one of the
three variants of implicit learning), for any floating point scores and any conjectures.
-/

namespace Candy

variable {F : CNF} {as : List Lit} {s : Solver} {u : Usage} {kind : Branch.Kind} {b : Branch}

/-- The place where `search` asks the heuristic: propagation found no conflict and all assumptions
are on the trail, which is then `T`. -/
def AtPick (s : Solver) (T : Trail) : Prop :=
  ∃ ps, runPropagate s = some (ps, none) ∧
    assumeLoop ps.T (ps.T.assumptions.drop ps.T.decisionLevel) = (T, .allSet)

/-- C35. Whenever search asks for a branching literal, the heuristic answers without an access out
of bounds. It answers with an unassigned decision variable, or it has no answer and then no decision
variable is unassigned. -/
theorem C35_pick (hu : u.Valid) (h : SearchingB kind u F as s b) {T : Trail} (hp : AtPick s T)
    (ord : Orders) : ∃ b' r, b.pick ord T = some (b', r) ∧
      (∀ p, r = some p → p.var < T.nVars ∧ T.decision p.var = true ∧ T.value p = none) ∧
      (r = none → ∀ v < T.nVars, T.decision v = true → ∃ x, T.assigns v = some x) := by
  obtain ⟨-, hb⟩ := h.ok hu
  obtain ⟨ps, h1, h2⟩ := hp
  have hg := (propagateLoop_grows _ _ _ _ _ h1).trans
    (assumeLoop_grows (ps.T.assumptions.drop ps.T.decisionLevel) ps.T)
  rw [h2] at hg
  obtain ⟨b', r, e1, e2, -⟩ := pick_spec (ord := ord) (hb.grows hg)
  refine ⟨b', r, e1, ?_, ?_⟩
  · rintro p rfl
    exact ⟨e2.1, e2.2.2, (Trail.value_none_iff T p).2 e2.2.1⟩
  · rintro rfl v hv hd
    cases hx : T.assigns v with
    | none => exact absurd hx (e2 v hv hd)
    | some x => exact ⟨x, rfl⟩

/-- C35. An iteration of the search loop with the heuristic never accesses anything out of bounds:
neither propagation, conflict analysis, the bumping of activities, the reinsertion of unassigned
variables nor the choice of the next variable. The option for extra bumping must be off. For bumping with centralities
see C60. -/
theorem C35_iteration_defined (hu : u.Valid) (h : SearchingB kind u F as s b)
    (hk : kind.extraBump = false) (hv : kind.cent ≠ some true) (c : BChoice) :
    ∃ out b', searchIterB kind s b c = some (out, b') := by
  obtain ⟨h1, h2⟩ := h.ok hu
  refine (searchIterB_spec (h1.ok hu).inv h2 c).2 hk fun _ _ _ _ _ _ => ?_
  unfold Branch.lookups
  split
  · exact ⟨_, rfl⟩
  · rw [if_neg hv]; exact ⟨_, rfl⟩

/-- Finding: with the option for extra bumping (`opt_vsids_extra_bump`) every conflict above level 0
makes the program read the trail limits out of bounds. -/
theorem C35_extra_bump_fails (hu : u.Valid) {ro : Option RsilOpt} {co : Option Bool} (h : SearchingB ⟨true, true, ro, co⟩ u F as s b) {ps : PS}
    {confl : Nat} (hp : runPropagate s = some (ps, some confl)) (hl : 0 < ps.T.decisionLevel)
    (c : BChoice) : searchIterB ⟨true, true, ro, co⟩ s b c = none := by
  obtain ⟨h1, -⟩ := h.ok hu
  obtain ⟨-, hc, -, hcf⟩ := runPropagate_spec hu h1 hp
  obtain ⟨r, hr, -⟩ := handleConflict_spec hc hl (hcf confl rfl)
  simp only [runPropagate] at hp
  simp only [searchIterB, hp, hr, if_neg (Nat.ne_of_gt hl)]
  rfl

/-- C35. Every state reached with the actual heuristic is reached by a search that chooses
unassigned decision variables. So the theorems about all such searches (C11 – C23) apply. -/
theorem C35_refines (hu : u.Valid) :
    (∀ {sys : Sys}, HistoryB kind u F as sys b → History u F as sys) ∧
    (SearchingB kind u F as s b → Searching u F as s) :=
  ⟨fun h => (h.ok hu).1, fun h => (h.ok hu).1⟩

/-- C35. `solve` with the actual heuristic returns what `solve` returns for some choice of unassigned
decision variables. -/
theorem C35_solve_refines (hu : u.Valid) {cfg : Config} {pre : List PreRound} {rounds : List RoundB}
    {sys sys' : Sys} {res : Result} {b' : Branch} (h : HistoryB kind u F as sys b)
    (hr : ∀ r ∈ rounds, u.roundB r)
    (he : solveB kind cfg pre rounds sys b = some (sys', res, b')) :
    ∃ rounds', (∀ r ∈ rounds', u.round r) ∧ solve cfg pre rounds' sys = some (sys', res) := by
  obtain ⟨h1, h2⟩ := h.ok hu
  obtain ⟨rs, r1, r2, -⟩ := solveB_refines hu hr (h1.ok hu) h2 he
  exact ⟨rs, r1, r2⟩

/-- C35, C19, C20: answers with the actual heuristic, without preprocessing and inprocessing. -/
theorem C35_answers {cfg : Config} {pre : List PreRound} {rounds : List RoundB} {sys sys' : Sys}
    {res : Result} {b' : Branch} (h : HistoryB kind .plain F as sys b)
    (hc : cfg.preprocessing = false) (hr : ∀ r ∈ rounds, Usage.plain.roundB r)
    (he : solveB kind cfg pre rounds sys b = some (sys', res, b')) :
    (res.status = some true → PSat res.model F ∧ ∀ l ∈ as, l.trueIn res.model) ∧
    (res.status = some false → ¬ Satisfiable (F ++ unitsOf as)) := by
  obtain ⟨rs, r1, r2⟩ := C35_solve_refines Usage.plain_valid h hr he
  have hh := (h.ok Usage.plain_valid).1
  refine ⟨fun hs => ?_, fun hs => ?_⟩
  · obtain ⟨a, b, _⟩ := C20_sat_model_partial hh hc r1 r2 hs
    exact ⟨a, b⟩
  · exact C21_unsat_under_assumptions (hh.toAny Usage.plain_valid)
      (fun r hm => Usage.plain_valid r (r1 r hm)) r2 hs

/-- C35. Initialisation of the heuristic after clauses were added, and its reset before each
restart, never access anything out of bounds. With implicit learning, the conjectures must be disjoint and about
variables of the formula (`Rsil.Disjoint`). -/
theorem C35_reset_defined (hu : u.Valid) {sys : Sys} (lt : Nat → Nat → Bool) :
    (HistoryB kind u F as sys b → ∀ nv G flag pol conj,
      (∀ r, b.rsil = some r → 2 ≤ r.opt.maxSize ∧ ∀ c, conj = some c → Rsil.Disjoint nv c) →
      ∃ b', b.init lt pol conj nv (sys.init nv G flag).sol.trail = some b') ∧
    (InSolveB kind u F as sys b → ∃ b', b.reset lt sys.sol.trail.reset = some b') := by
  refine ⟨fun h nv G flag pol conj hc => ?_, fun h => ?_⟩
  · have := (grow_wf (h.ok hu).2.wf (sys.init nv G flag).sol.trail.nVars).2
    obtain ⟨b', h1⟩ := reset_defined (lt := lt) (b := ⟨b.heap.grow _, pol, b.rsil, b.cent⟩) this
    have h2 := reset_rsil h1
    unfold Branch.init
    rw [show Branch.reset lt _ _ = some b' from h1]
    simp only [Option.bind_some]
    split
    · exact ⟨_, rfl⟩
    · next r hr =>
      have hr' : b.rsil = some r := by rw [← hr]; exact h2.symm
      obtain ⟨r', h3⟩ := ((h.ok hu).2.rsil r hr').init_defined (hc r hr').1 (hc r hr').2
      exact ⟨_, by rw [h3]; rfl⟩
  · exact reset_defined (T := sys.sol.trail.reset) (h.ok hu).2.room

/-! ### A concrete run -/

/-- Scores that stay equal. -/
def exOrd : Orders := fun _ _ _ => false

def exRoundB : RoundB := ⟨false, none, id, 50, fun _ _ => false, fun _ => ⟨false, exOrd⟩, false, true, fun _ _ => false⟩

theorem exRoundB_ok : Usage.plain.roundB exRoundB := fun _ ho => ⟨⟨ho, fun _ _ h => h⟩, rfl⟩

/-- The heuristic after adding `exF`. -/
def exBranch : Branch :=
  ((Branch.new ⟨true, false, none, none⟩).init (fun _ _ => false) (fun _ => true) none 3
    ((Sys.new true).init 3 exF true).sol.trail).getD (Branch.new ⟨true, false, none, none⟩)

theorem exBranch_hist : HistoryB ⟨true, false, none, none⟩ .plain exF [] ((Sys.new true).init 3 exF true) exBranch := by
  have h := (HistoryB.new (kind := ⟨true, false, none, none⟩) (u := .plain) true).add 3 exF true rfl
    (wfCNF_of (by decide)) (fun _ _ => false) (fun _ => true) none (b' := exBranch) rfl
  simpa using h

/-- C35_answers, C35_solve_refines: VSIDS finds a model after a conflict. -/
example : ((solveB ⟨true, false, none, none⟩ plainCfg [] [exRoundB] ((Sys.new true).init 3 exF true) exBranch).map
    fun x => (x.2.1.status, (List.range 3).map x.2.1.model)) =
      some (some true, [some true, some true, some true]) := by decide +kernel

/-- Search states of that run. -/
def exStateB : Nat → Option (Solver × Branch)
  | 0 =>
    (solveEntry plainCfg [] ((Sys.new true).init 3 exF true)).bind fun sys =>
      (exBranch.reset exRoundB.resetOrd sys.sol.trail.reset).bind fun b =>
        (reduceStep {} (exRoundB.with fun _ => ⟨false, fun _ => none⟩)
          { sys with sol := { sys.sol with trail := sys.sol.trail.reset } }).bind fun sys =>
        (reduceB exRoundB sys b).bind fun b =>
          (materialize sys.sol).bind fun s => if s.db.hasEmpty then none else some (s, b)
  | k + 1 => (exStateB k).bind fun x =>
      match searchIterB ⟨true, false, none, none⟩ x.1 x.2 ⟨false, exOrd⟩ with
      | some (.cont s', b') => some (s', b')
      | _ => none

theorem exStateB_searching : ∀ k s b, exStateB k = some (s, b) →
    SearchingB ⟨true, false, none, none⟩ .plain exF [] s b
  | 0, s, b, h => by
    unfold exStateB at h
    obtain ⟨s1, h1, h⟩ := Option.bind_eq_some_iff.1 h
    obtain ⟨b1, h2, h⟩ := Option.bind_eq_some_iff.1 h
    obtain ⟨s2, h3, h⟩ := Option.bind_eq_some_iff.1 h
    obtain ⟨b2, h5, h⟩ := Option.bind_eq_some_iff.1 h
    obtain ⟨s3, h4, h⟩ := Option.bind_eq_some_iff.1 h
    split at h
    · simp at h
    · rename_i hE
      simp only [Option.some.injEq, Prod.mk.injEq] at h
      obtain ⟨rfl, rfl⟩ := h
      exact .start (.enter exBranch_hist plainCfg [] rfl h1) _ _ exRoundB_ok h2 h3 h5 h4 (by simpa using hE)
  | k + 1, s, b, h => by
    unfold exStateB at h
    obtain ⟨s1, h1, h⟩ := Option.bind_eq_some_iff.1 h
    split at h
    · rename_i s' b' he
      simp only [Option.some.injEq, Prod.mk.injEq] at h
      obtain ⟨rfl, rfl⟩ := h
      exact .iter (exStateB_searching k s1.1 s1.2 h1) _ he
    · simp at h

/-- C35_pick: in the run above, after a conflict and a backjump, the heuristic is asked with two
variables assigned by propagation, and it picks the third. -/
example : ((exStateB 2).bind fun x => (runPropagate x.1).bind fun y =>
    (x.2.pick exOrd (assumeLoop y.1.T (y.1.T.assumptions.drop y.1.T.decisionLevel)).1).map fun z =>
      (y.2, y.1.T.stack, z.2)) = some (none, [lit 1, lit 2], some (lit 3)) := by decide +kernel

/-- C35_iteration_defined, C35_extra_bump_fails: the state before has a conflict above level 0. -/
example : ((exStateB 1).bind fun x => (runPropagate x.1).map fun y =>
    (y.2, decide (0 < y.1.T.decisionLevel))) = some (some 3, true) := by decide +kernel

end Candy
