import Verif.Proofs.RupSolve
import Verif.Proofs.Examples
import Verif.Props.Answers

/-!
# Checking the certificate by unit propagation (property C61)

`Checks`, `RUP`, `RAT` and `ChecksRat` are defined in `SpecRup.lean`.
-/

namespace Candy

variable {F : CNF} {as : List Lit} {sys sys' : Sys}

/-- Neither preprocessing nor inprocessing; sorting permutes. -/
def Usage.tame : Usage where
  solve cfg _ := cfg.preprocessing = false
  round r := r.Valid ∧ r.inprocess = none ∧ ∀ xs, (r.sort xs).Perm xs
  flag _ := True

theorem Usage.tame_valid : Usage.tame.Valid := fun _ h => h.1

theorem History.tame (h : History .tame F as sys) : TameOk F sys := by
  induction h with
  | new recalc => exact tame_new recalc
  | add h nv G flag hf hG ih => exact tame_init ih hG
  | assume h as' hb ih => exact ⟨ih.ok.assume as', ih.vars, ih.cls, ih.cert⟩
  | solve h cfg pre rounds hc hr he ih =>
    have hh := h.ok Usage.tame_valid
    exact tame_solve ih hc (fun r hm => ⟨(hr r hm).1, (hr r hm).2.1, (hr r hm).2.2⟩)
      (by rw [hh.assumptions]; exact hh.bound) he

/-- **C61** Without simplification every line of the certificate can be checked by unit propagation
alone: each added clause follows by reverse unit propagation from the clauses present when it is
written, and each deleted clause is present. This holds after any history of calls, for all heuristic
choices, restarts and clause reductions, in particular for every prefix of the certificate that reached
the file. Missing: simplification, where the statement is false (`C61_preprocessing_fails`). -/
theorem C61_checks_partial (h : History .tame F as sys) :
    ∀ log post, sys.sol.db.log = log ++ post → Checks F log := by
  intro log post he
  obtain ⟨ids, hc⟩ := h.tame.cert
  have := hc.checks
  rw [he, Checks_append] at this
  exact this.1

/-- **C61** After an answer UNSAT without core the certificate ends with the empty clause, and it
checks. -/
theorem C61_unsat_checks_partial {cfg : Config} {pre : List PreRound} {rounds : List Round} {res : Result}
    (h : History .tame F as sys) (hc : cfg.preprocessing = false) (hr : ∀ r ∈ rounds, Usage.tame.round r)
    (he : solve cfg pre rounds sys = some (sys', res)) (hs : res.status = some false) (hcf : res.conflict = []) :
    ∃ log, sys'.sol.db.log = log ++ [.empty] ∧ Checks F (log ++ [.empty]) := by
  obtain ⟨log, hl⟩ := C29_unsat_ends_with_empty (h.toAny Usage.tame_valid) (fun r hm => (hr r hm).1) he hs hcf
  have h' : History .tame F as sys' := h.solve cfg pre rounds hc hr he
  exact ⟨log, hl, C61_checks_partial h' _ [] (by rw [hl, List.append_nil])⟩

/-- **C61** A certificate that checks and contains the empty clause is a refutation: the checker needs
to know neither the solver nor the clause database. -/
theorem C61_checked_refutes {log : List ProofLine} (h : Checks F log) (he : ProofLine.empty ∈ log) : ¬ Satisfiable F :=
  h.unsat he

/-! ## Non-vacuity -/

theorem exF_tame : History .tame exF [] ((Sys.new true).init 3 exF true) := by
  have h := (History.new (u := .tame) true).add 3 exF true trivial (wfCNF_of (by decide))
  simpa using h

/-- All eight clauses over three variables, and two more, one of them twice. -/
def rupFull : CNF :=
  cnf [[1, 2, 3], [1, 2, -3], [1, -2, 3], [1, -2, -3], [-1, 2, 3], [-1, 2, -3], [-1, -2, 3], [-1, -2, -3], [4, 5, 1, 2],
    [4, 5, 1, 2], [4, 5, 1, 3]]

theorem rupFull_tame : History .tame rupFull [] ((Sys.new true).init 5 rupFull false) := by
  have h := (History.new (u := .tame) true).add 5 rupFull false trivial (wfCNF_of (by decide))
  simpa using h

theorem tame_exRound : Usage.tame.round exRound := ⟨exRound_valid, rfl, fun _ => .refl _⟩
theorem tame_exRestart : Usage.tame.round exRestart := ⟨exRestart_valid, rfl, fun _ => .refl _⟩

/-- A call with a restart, a clause reduction and the answer UNSAT; its certificate, after the lines with
the clauses given (which `init` copies to the certificate if asked to). -/
example : (solve plainCfg [] [exRestart, exRestart, exRound] ((Sys.new true).init 5 rupFull false)).map
      (fun x => (x.2.status, x.2.conflict, x.1.sol.db.log.drop 11)) =
    some (some false, [], [.del [lit 4, lit 5, lit 1, lit 2], .del [lit 4, lit 5, lit 1, lit 3],
      .add [lit 2, lit 1], .add [lit 1], .add [lit 2], .empty]) := by decide +kernel

example {sys' res} (he : solve plainCfg [] [exRestart, exRestart, exRound] ((Sys.new true).init 5 rupFull false) = some (sys', res))
    (hs : res.status = some false) (hc : res.conflict = []) :
    ∃ log, sys'.sol.db.log = log ++ [.empty] ∧ Checks rupFull (log ++ [.empty]) :=
  C61_unsat_checks_partial rupFull_tame rfl (by
    intro r hm
    simp only [List.mem_cons, List.not_mem_nil, or_false] at hm
    rcases hm with rfl | rfl | rfl
    · exact tame_exRestart
    · exact tame_exRestart
    · exact tame_exRound) he hs hc

/-! ## Finding: simplification breaks the certificate -/

/-- No clause has all literals false under `L`, and no clause propagates a literal outside `L`. -/
def closedB (S : CNF) (L : List Lit) : Bool :=
  S.all fun c => (!(c.all fun m => L.contains m.neg)) &&
    c.all fun l => L.contains l || c.any fun m => m != l && !L.contains m.neg

theorem closedB_derives {S : CNF} {L : List Lit} (h : closedB S L = true) {l : Lit} (hd : Derives S l) : l ∈ L := by
  induction hd with
  | unit c hc l hl _ ih =>
    have h1 := List.all_eq_true.1 h c hc
    rw [Bool.and_eq_true] at h1
    have h2 := List.all_eq_true.1 h1.2 l hl
    rw [Bool.or_eq_true] at h2
    rcases h2 with h2 | h2
    · simpa using h2
    · obtain ⟨m, hm, hx⟩ := List.any_eq_true.1 h2
      rw [Bool.and_eq_true] at hx
      have := ih m hm (by simpa using hx.1)
      exact absurd this (by simpa using hx.2)

theorem closedB_not {S : CNF} {L : List Lit} (h : closedB S L = true) : ¬ UPConflict S := by
  rintro ⟨c, hc, hd⟩
  have h1 := List.all_eq_true.1 h c hc
  rw [Bool.and_eq_true] at h1
  have : (c.all fun m => L.contains m.neg) = true :=
    List.all_eq_true.2 fun m hm => by simpa using closedB_derives h (hd m hm)
  rw [this] at h1
  cases h1.1

/-- Unit propagation by `n` passes over the clauses. -/
def upClose (S : CNF) : Nat → List Lit → List Lit
  | 0, L => L
  | n + 1, L => upClose S n (S.foldl (fun L c =>
      match c.filter fun m => !L.contains m.neg with
      | [l] => if L.contains l then L else l :: L
      | _ => L) L)

/-- The clause is not implied by unit propagation. -/
def notRup (S : CNF) (C : Clause) : Bool :=
  let S' := S ++ C.map fun l => [l.neg]
  closedB S' (upClose S' 20 [])

theorem notRup_spec {S : CNF} {C : Clause} (h : notRup S C = true) : ¬ RUP S C := closedB_not h

/-- Line `n` adds a clause that is neither implied by unit propagation nor redundant with respect to
one of its literals. -/
def badLine (F : CNF) (log : List ProofLine) (n : Nat) : Bool :=
  match log.drop n with
  | .add c :: _ =>
    let S := present F (log.take n)
    notRup S c && c.all fun l => S.any fun D => D.contains l.neg && notRup S (c ++ D.filter fun m => m != l.neg)
  | _ => false

theorem ChecksRat_append : ∀ {log post : List ProofLine} {S : CNF}, ChecksRat S (log ++ post) →
    ChecksRat (present S log) post
  | [], _, _, h => h
  | .add c :: log, post, S, h => ChecksRat_append (log := log) (post := post) (S := S ++ [c]) h.2
  | .empty :: log, post, S, h => ChecksRat_append (log := log) (post := post) (S := S ++ [[]]) h.2
  | .del c :: log, post, S, h => ChecksRat_append (log := log) (post := post) (S := S.eraseP fun d => d.isPerm c) h

theorem badLine_spec {F : CNF} {log : List ProofLine} {n : Nat} (h : badLine F log n = true) : ¬ ChecksRat F log := by
  intro hc
  rw [← List.take_append_drop n log] at hc
  have hc := ChecksRat_append hc
  unfold badLine at h
  split at h
  · next c rest e =>
    rw [e] at hc
    dsimp only at h
    rw [Bool.and_eq_true] at h
    rcases hc.1 with h1 | ⟨l, hl, h1⟩
    · exact notRup_spec h.1 h1
    · obtain ⟨D, hD, hx⟩ := List.any_eq_true.1 (List.all_eq_true.1 h.2 l hl)
      rw [Bool.and_eq_true] at hx
      exact notRup_spec hx.2 (h1 D hD (by simpa using hx.1))
  · cases h

/-- 24 clauses over eleven variables. -/
def rupF : CNF := cnf [[-8, -4, -11], [-9, 2, 11], [-4, -1, 7], [3, -2, -4], [-3, -1, -5], [-8, 9, 5], [-1, -6, -3],
  [6, 4, 5], [3, -2, 8], [1, -4, 8], [6, -7, 5], [6, 4, -5], [-9, -7, -5], [-7, 2, 9], [1, -6, 4], [1, 9, 6],
  [-9, -3, 6], [-3, 8, -7], [-9, 2, -6], [-6, -8, -9], [-6, 9, -3], [2, 9, -5], [-6, 4, -5], [4, 7, -6]]

def rupRound : Round := ⟨false, none, id, 99, fun _ => exChoice⟩

/-- **C61** (finding) With preprocessing (the default) a single call can answer UNSAT and leave a
certificate that no checker accepts, not even one that checks for resolution asymmetric tautologies with
respect to every literal and that ignores deletions of absent clauses. Simplification writes the deletion
of a clause but leaves the clause in the list of clauses, from which the propagation of the search is
set up: a learnt clause may depend on a clause that was deleted in the certificate. -/
theorem C61_preprocessing_fails : ∃ F pre rounds sys' res, WfCNF 11 F ∧ (∀ r ∈ rounds, Usage.tame.round r) ∧
    solve {} pre rounds ((Sys.new true).init 11 F true) = some (sys', res) ∧ res.status = some false ∧
    ¬ ChecksRat F sys'.sol.db.log := by
  have key : ((solve {} [exPreSorted] [rupRound] ((Sys.new true).init 11 rupF true)).any fun x =>
      x.2.status == some false && badLine rupF x.1.sol.db.log 14) = true := by decide +kernel
  cases e : solve {} [exPreSorted] [rupRound] ((Sys.new true).init 11 rupF true) with
  | none => rw [e] at key; cases key
  | some x =>
    rw [e] at key
    have h : (x.2.status == some false && badLine rupF x.1.sol.db.log 14) = true := key
    rw [Bool.and_eq_true] at h
    refine ⟨rupF, [exPreSorted], [rupRound], x.1, x.2, wfCNF_of (by decide), ?_, e, by simpa using h.1, badLine_spec h.2⟩
    intro r hm
    rw [List.mem_singleton.1 hm]
    exact ⟨⟨fun _ => exChoice_valid, fun _ _ h => h⟩, rfl, fun _ => .refl _⟩

end Candy
