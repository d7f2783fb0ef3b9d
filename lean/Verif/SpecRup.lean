import Verif.Model.Database

/-!
# Specification: what it means that a certificate can be checked by unit propagation

Only the lines of a certificate (`ProofLine`) are taken from the model.
-/

namespace Candy

/-- Literals derived by unit propagation: a literal of a clause whose other literals are all false. -/
inductive Derives (S : CNF) : Lit → Prop
  | unit (c : Clause) (hc : c ∈ S) (l : Lit) (hl : l ∈ c) (h : ∀ m ∈ c, m ≠ l → Derives S m.neg) :
      Derives S l

/-- Unit propagation runs into a clause all of whose literals are false. -/
def UPConflict (S : CNF) : Prop := ∃ c ∈ S, ∀ m ∈ c, Derives S m.neg

/-- Reverse unit propagation: assuming that all literals of the clause are false, unit propagation
finds a conflict. -/
def RUP (S : CNF) (C : Clause) : Prop := UPConflict (S ++ C.map fun l => [l.neg])

/-- Resolution asymmetric tautology with respect to the literal `l`: every resolvent with a clause that
contains the complement follows by reverse unit propagation. -/
def RAT (S : CNF) (C : Clause) (l : Lit) : Prop :=
  ∀ D ∈ S, l.neg ∈ D → RUP S (C ++ D.filter fun m => m != l.neg)

/-- `Checks S log`: starting with the clauses `S`, every line of the certificate can be checked:
added clauses (and the empty clause) follow by unit propagation from the clauses present at that
point; deleted clauses are present, up to the order of literals, and one copy is removed. -/
def Checks : CNF → List ProofLine → Prop
  | _, [] => True
  | S, .add c :: log => RUP S c ∧ Checks (S ++ [c]) log
  | S, .empty :: log => RUP S [] ∧ Checks (S ++ [[]]) log
  | S, .del c :: log => (∃ d ∈ S, d.Perm c) ∧ Checks (S.eraseP fun d => d.isPerm c) log

/-- `ChecksRat S log`: the weaker check of DRAT certificates. Added clauses may also be resolution
asymmetric tautologies with respect to any of their literals, and deletions of clauses that are not
present are ignored. -/
def ChecksRat : CNF → List ProofLine → Prop
  | _, [] => True
  | S, .add c :: log => (RUP S c ∨ ∃ l ∈ c, RAT S c l) ∧ ChecksRat (S ++ [c]) log
  | S, .empty :: log => RUP S [] ∧ ChecksRat (S ++ [[]]) log
  | S, .del c :: log => ChecksRat (S.eraseP fun d => d.isPerm c) log

/-- The clauses present after the lines of the certificate. -/
def present : CNF → List ProofLine → CNF
  | S, [] => S
  | S, .add c :: log => present (S ++ [c]) log
  | S, .empty :: log => present (S ++ [[]]) log
  | S, .del c :: log => present (S.eraseP fun d => d.isPerm c) log

theorem Derives.holds {S : CNF} {a : Assign} (hs : Sat a S) {l : Lit} (h : Derives S l) : l.holds a := by
  induction h with
  | unit c hc l hl _ ih =>
    obtain ⟨m, hm, hh⟩ := hs c hc
    by_cases e : m = l
    · rw [← e]; exact hh
    · have := ih m hm e
      unfold Lit.holds Lit.neg at *
      rw [hh] at this
      cases h : m.sign <;> simp [h] at this

/-- Reverse unit propagation is sound. -/
theorem RUP.entails {S : CNF} {C : Clause} (h : RUP S C) : Entails S C := by
  intro a ha
  apply Classical.byContradiction
  intro hn
  obtain ⟨c, hc, hd⟩ := h
  have hs : Sat a (S ++ C.map fun l => [l.neg]) := by
    intro d hd
    rcases List.mem_append.1 hd with hd | hd
    · exact ha d hd
    · obtain ⟨l, hl, rfl⟩ := List.mem_map.1 hd
      refine ⟨l.neg, by simp, ?_⟩
      have : ¬ l.holds a := fun hh => hn ⟨l, hl, hh⟩
      unfold Lit.holds Lit.neg at *
      cases h : a l.var <;> cases h' : l.sign <;> simp_all
  obtain ⟨m, hm, hh⟩ := hs c hc
  have := (hd m hm).holds hs
  unfold Lit.holds Lit.neg at *
  rw [hh] at this
  cases h : m.sign <;> simp [h] at this

/-- A certificate that can be checked and contains the empty clause shows that the clauses are
unsatisfiable. -/
theorem Checks.unsat : ∀ {log : List ProofLine} {S : CNF}, Checks S log → ProofLine.empty ∈ log → ¬ Satisfiable S
  | [], _, _, h => by cases h
  | l :: log, S, hc, h => by
    rintro ⟨a, ha⟩
    cases l with
    | add c =>
      have h : ProofLine.empty ∈ log := by simpa using h
      refine (hc.2.unsat h) ⟨a, fun d hd => ?_⟩
      rcases List.mem_append.1 hd with hd | hd
      · exact ha d hd
      · rw [List.mem_singleton.1 hd]; exact hc.1.entails a ha
    | empty =>
      obtain ⟨l, hl, -⟩ := hc.1.entails a ha
      cases hl
    | del c =>
      have h : ProofLine.empty ∈ log := by simpa using h
      exact (hc.2.unsat h) ⟨a, fun d hd => ha d (List.mem_of_mem_eraseP hd)⟩

theorem Checks.rat : ∀ {log : List ProofLine} {S : CNF}, Checks S log → ChecksRat S log
  | [], _, _ => trivial
  | .add _ :: _, _, h => ⟨.inl h.1, h.2.rat⟩
  | .empty :: _, _, h => ⟨h.1, h.2.rat⟩
  | .del _ :: _, _, h => h.2.rat

end Candy
