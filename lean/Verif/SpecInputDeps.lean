import Verif.Model.Gates

/-!
# Inputs on which the output of a gate depends
-/

namespace Candy.InputDeps
open Candy

/-- The gate of `v` depends on the input `x`: `x` has no gate, and is an input of the gate of `v` or of a gate that it
is built from. -/
inductive DependsOn (G : GateProblem) : Nat → Nat → Prop
  | input {v : Nat} {l : Lit} (hl : l ∈ (G.gates v).inp) (hn : (G.gates l.var).out = none) : DependsOn G v l.var
  | gate {v x : Nat} {l : Lit} (hl : l ∈ (G.gates v).inp) (hn : (G.gates l.var).out ≠ none) (h : DependsOn G l.var x) :
    DependsOn G v x

/-- The gate of `v` depends on `n` inputs. -/
def InputCount (G : GateProblem) (v n : Nat) : Prop :=
  ∃ xs : List Nat, xs.Nodup ∧ (∀ x, x ∈ xs ↔ DependsOn G v x) ∧ xs.length = n

/-- A gate output with `n` inputs is due in round `i` (counted from 0): round `i` is the first whose limit is below `n`,
or the round after the last limit if there is no such limit. -/
def Due (config : List Nat) (n i : Nat) : Prop :=
  (∀ j < i, ∃ b, config[j]? = some b ∧ n ≤ b) ∧ (i = config.length ∨ ∃ b, config[i]? = some b ∧ b < n)

end Candy.InputDeps
