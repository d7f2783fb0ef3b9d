import Verif.Model.SharedMemory

/-!
# Vocabulary for C64: schedules of solvers that share clause memory
-/

namespace Candy.Shared

/-- The thread has found everybody ready, and has not yet replaced the shared pages. -/
def Moving (pc : Pc) : Prop := pc = .free ∨ pc = .realloc

/-- The thread has allocated a shared clause, and has not yet constructed it. -/
def Writing (pc : Pc) : Prop := ∃ a c, pc = .write a c

/-- The thread walks over shared memory in its next step. -/
def Walks (pc : Pc) : Prop := pc = .realloc ∨ pc = .units ∨ ∃ fs, pc = .collect fs

/-- The next step of thread `t` respects three rules that the locks of the program do not enforce: no thread walks
over shared memory while a clause is under construction; no thread collects the shared clauses while another one is
about to replace them; no thread tests whether everybody is ready while another one has collected but not yet said
so. -/
def Orderly (s : Sys) (t : Nat) : Prop :=
  (Walks (s.thr t).pc → ∀ u, ¬ Writing (s.thr u).pc) ∧
  (∀ fs, (s.thr t).pc = .collect fs → ∀ u, ¬ Moving (s.thr u).pc) ∧
  ((s.thr t).pc = .check → ∀ u, (s.thr u).pc ≠ .ready)

/-- All steps of a schedule are orderly. -/
def OrderlyRun (s : Sys) : List (Nat × Request) → Prop
  | [] => True
  | e :: es => Orderly s e.1 ∧ ∀ s', step s e.1 e.2 = some s' → OrderlyRun s' es

/-- The thread lists a clause with these literals: among its own clauses, or through a pointer into shared memory. -/
def Lists (s : Sys) (t : Nat) (ls : List Lit) : Prop :=
  (∃ c ∈ (s.thr t).own, c.lits = ls) ∨ ∃ a ∈ (s.thr t).held, ∃ w, s.read a = some (.full ⟨ls, w⟩)

/-- The next step of thread `t` does not mark a shared clause with these literals as deleted. -/
def Keeps (ls : List Lit) (s : Sys) (t : Nat) (r : Request) : Prop :=
  ∀ k, r = .remove k → ∀ a, (s.thr t).held[k]? = some a → ∀ w, s.read a ≠ some (.full ⟨ls, w⟩)

/-- No step of a schedule marks a shared clause with these literals as deleted. -/
def KeepsRun (ls : List Lit) (s : Sys) : List (Nat × Request) → Prop
  | [] => True
  | e :: es => Keeps ls s e.1 e.2 ∧ ∀ s', step s e.1 e.2 = some s' → KeepsRun ls s' es

/-- The next step of thread `u` does not mark a clause with these literals in the own memory of thread `t` as deleted. -/
def KeepsOwn (ls : List Lit) (t : Nat) (s : Sys) (u : Nat) (r : Request) : Prop :=
  u = t → ∀ k, r = .removeOwn k → ∀ c, (s.thr t).own[k]? = some c → c.lits ≠ ls

/-- No step of a schedule marks a clause with these literals in the own memory of thread `t` as deleted. -/
def KeepsOwnRun (ls : List Lit) (t : Nat) (s : Sys) : List (Nat × Request) → Prop
  | [] => True
  | e :: es => KeepsOwn ls t s e.1 e.2 ∧ ∀ s', step s e.1 e.2 = some s' → KeepsOwnRun ls t s' es

/-- A clause in own memory that is for all threads: one of weight 0 (such as those of the problem), or one that is
shorter than the bound, if there is one. -/
def ForAll (bound : Nat) (c : Cls) : Prop :=
  c.isDeleted = false ∧ (c.weight = 0 ∨ bound = 0 ∨ c.lits.length < bound)

/-- The clauses a request brings in. -/
def Request.clauses : Request → List (List Lit)
  | .join f => f
  | .create ls _ => [ls]
  | _ => []

end Candy.Shared
