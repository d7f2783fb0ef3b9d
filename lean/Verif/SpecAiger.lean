/-!
# And-inverter circuits

Combinational circuits in the ASCII format `aag` of AIGER without latches: a literal is a number, twice the
variable plus one if it is negated, and the literals 0 and 1 are the constants false and true.
Nothing in this file depends on the model of the code.
-/

namespace Candy

/-- A file `aag M I 0 1 A`: the maximal variable, the input literals, the output and the gates `lhs rhs0 rhs1`. -/
structure Aiger where
  maxVar : Nat
  inputs : List Nat
  output : Nat
  ands : List (Nat × Nat × Nat)
deriving DecidableEq, Repr

namespace Aiger

/-- Value of a literal. -/
def value (v : Nat → Bool) (n : Nat) : Bool := v (n / 2) != (n % 2 == 1)

/-- Values of the variables which the gates and the constant allow. -/
structure Run (C : Aiger) (v : Nat → Bool) : Prop where
  const : v 0 = false
  ands : ∀ g ∈ C.ands, value v g.1 = (value v g.2.1 && value v g.2.2)

/-- Some values of the inputs make the output true. -/
def CanBeTrue (C : Aiger) : Prop := ∃ v, C.Run v ∧ value v C.output = true

/-- What the format requires of the literals. -/
structure Format (C : Aiger) : Prop where
  /-- Inputs are positive literals of distinct variables, not constants. -/
  inputEven : ∀ n ∈ C.inputs, n % 2 = 0 ∧ 0 < n ∧ n / 2 ≤ C.maxVar
  inputNodup : C.inputs.Nodup
  /-- So are the outputs of gates; no variable is defined twice. -/
  lhsEven : ∀ g ∈ C.ands, g.1 % 2 = 0 ∧ 0 < g.1 ∧ g.1 / 2 ≤ C.maxVar
  lhsNodup : (C.inputs ++ C.ands.map (·.1)).Nodup
  /-- Every literal used is a constant or its variable is defined. -/
  defined : ∀ n, (n = C.output ∨ ∃ g ∈ C.ands, n = g.2.1 ∨ n = g.2.2) →
    n / 2 = 0 ∨ 2 * (n / 2) ∈ C.inputs ++ C.ands.map (·.1)

/-- The circuit computes a function of its inputs: for all values of the inputs there are values of all
variables that the gates allow, and these determine the value of the output. -/
def Functional (C : Aiger) : Prop :=
  (∀ w : Nat → Bool, ∃ v, C.Run v ∧ ∀ n ∈ C.inputs, v (n / 2) = w (n / 2)) ∧
  ∀ v v', C.Run v → C.Run v' → (∀ n ∈ C.inputs, v (n / 2) = v' (n / 2)) → value v C.output = value v' C.output

end Aiger

end Candy
