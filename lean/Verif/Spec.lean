/-!
# Specification vocabulary

Literals, clauses, formulas, assignments and entailment of propositional logic.
Nothing in this file depends on the model of the code.
-/

namespace Candy

/-- A literal: a variable (numbered from 0) and a sign. `sign = true` means *negated*,
as in `Lit(Var v, bool sign)` (src/candy/core/SolverTypes.h:104). -/
structure Lit where
  var : Nat
  sign : Bool
deriving DecidableEq, Repr, Inhabited

/-- The complementary literal. -/
def Lit.neg (l : Lit) : Lit := ⟨l.var, !l.sign⟩

/-- The positive / negative literal of a variable. -/
abbrev pos (v : Nat) : Lit := ⟨v, false⟩
abbrev neg (v : Nat) : Lit := ⟨v, true⟩

/-- A clause is a disjunction of literals, a formula a conjunction of clauses. -/
abbrev Clause := List Lit
abbrev CNF := List Clause

/-- A total truth assignment. -/
abbrev Assign := Nat → Bool

/-- Truth of a literal under an assignment. -/
def Lit.holds (a : Assign) (l : Lit) : Prop := a l.var = !l.sign

/-- A clause is satisfied when one of its literals holds. -/
def SatClause (a : Assign) (c : Clause) : Prop := ∃ l ∈ c, l.holds a

/-- A formula is satisfied when all its clauses are. -/
def Sat (a : Assign) (f : CNF) : Prop := ∀ c ∈ f, SatClause a c

/-- Some assignment satisfies the formula. -/
def Satisfiable (f : CNF) : Prop := ∃ a, Sat a f

/-- Every model of the formula satisfies the clause. -/
def Entails (f : CNF) (c : Clause) : Prop := ∀ a, Sat a f → SatClause a c

/-- The formula whose clauses are the given literals (used for assumptions). -/
def unitsOf (ls : List Lit) : CNF := ls.map fun l => [l]

/-- Two formulas with the same models. -/
def Equivalent (f g : CNF) : Prop := ∀ a, Sat a f ↔ Sat a g

/-- A partial assignment, as reported in a result. -/
abbrev PAssign := Nat → Option Bool

/-- Truth of a literal under a partial assignment: its variable is assigned accordingly. -/
def Lit.trueIn (m : PAssign) (l : Lit) : Prop := m l.var = some (!l.sign)

/-- The partial assignment makes a literal of every clause true. -/
def PSat (m : PAssign) (f : CNF) : Prop := ∀ c ∈ f, ∃ l ∈ c, l.trueIn m

/-- A formula with a satisfying partial assignment is satisfiable. -/
theorem PSat.satisfiable {m : PAssign} {f : CNF} (h : PSat m f) : Satisfiable f := by
  refine ⟨fun v => (m v).getD false, fun c hc => ?_⟩
  obtain ⟨l, hl, ht⟩ := h c hc
  exact ⟨l, hl, by unfold Lit.trueIn at ht; simp [Lit.holds, ht]⟩

end Candy
