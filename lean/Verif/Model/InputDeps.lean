import Verif.Model.Traversal
import Verif.Model.Refinement

/-!
# Model of the refinement heuristic that counts inputs (src/candy/rsar/Heuristics.cc)

As in `Model/Traversal.lean`, a pointer to a gate is the variable of its output. `unordered_set`s are lists, and the
order in which they are iterated is not modelled.
-/

namespace Candy.InputDeps
open Candy

/-- `getDirectlyNestedGates`, Heuristics.cc:80-95: the gates of `order` that have `v` as input, once for each literal. -/
def dependents (G : GateProblem) (order : List Nat) (v : Nat) : List Nat :=
  order.flatMap fun u => ((G.gates u).inp.filter fun l => (G.gates l.var).isDefined && l.var == v).map fun _ => u

/-- `exceedingMax`, Heuristics.cc:116. -/
def exceedingMax : Nat := 2 ^ 64 - 1

/-- `unordered_set::insert` -/
def setInsert (s : List Nat) (x : Nat) : List Nat := if s.contains x then s else x :: s

/-- `inputDependencies` (`none`: no set) and `inputDependencyCount` (`none`: not in the map), Heuristics.cc:113-114. -/
structure Counting where
  sets : Nat → Option (List Nat)
  count : Nat → Option Nat

/-- Heuristics.cc:118-121 -/
def Counting.start (order : List Nat) : Counting :=
  ⟨fun v => if order.contains v then some [] else none, fun _ => none⟩

/-- The loop over the inputs, Heuristics.cc:132-143. The second component is `detectedExceedingMax`. -/
def addInputs (G : GateProblem) (max : Nat) : List Lit → List Nat → List Nat × Bool
  | [], s => (s, false)
  | l :: ls, s =>
    if (G.gates l.var).isDefined then addInputs G max ls s
    else if max < (setInsert s l.var).length then (setInsert s l.var, true)
    else addInputs G max ls (setInsert s l.var)

/-- Heuristics.cc:150-153; `none`: the set of a gate is missing (a null pointer), or a set is inserted into itself. -/
def pushTo (v : Nat) (xs : List Nat) : List Nat → (Nat → Option (List Nat)) → Option (Nat → Option (List Nat))
  | [], f => some f
  | d :: ds, f =>
    match f d with
    | none => none
    | some s => if d = v then none else pushTo v xs ds (upd f d (some (xs.foldl setInsert s)))

/-- The values that the loop of `countInputDependencies` computes for a gate: the set, and `detectedExceedingMax`,
Heuristics.cc:127-144. -/
def gather (G : GateProblem) (max : Nat) (v : Nat) (s : List Nat) (c : Option Nat) : List Nat × Bool :=
  if c = some exceedingMax then (s, true) else addInputs G max (G.gates v).inp s

/-- The body of the loop of `countInputDependencies`, Heuristics.cc:123-165; `none`: undefined behaviour. -/
def countStep (G : GateProblem) (order : List Nat) (max : Nat) (c : Counting) (v : Nat) : Option Counting :=
  match c.sets v with
  | none => none
  | some s =>
    let r := gather G max v s (c.count v)
    if r.2 then
      some ⟨upd c.sets v none,
        (dependents G order v).foldl (fun f d => upd f d (some exceedingMax)) (upd c.count v (some exceedingMax))⟩
    else
      (pushTo v r.1 (dependents G order v) c.sets).map fun f => ⟨upd f v none, upd c.count v (some r.1.length)⟩

/-- The loop of `countInputDependencies`, Heuristics.cc:123-165. -/
def countLoop (G : GateProblem) (order : List Nat) (max : Nat) : List Nat → Counting → Option Counting
  | [], c => some c
  | v :: vs, c => (countStep G order max c v).bind (countLoop G order max vs)

/-- `countInputDependencies`, Heuristics.cc:101-168, with the order of the outputs. `none`: undefined behaviour, or the
traversal takes more than `fuel` steps. -/
def countInputDependencies (G : GateProblem) (cls : Nat → Clause) (max fuel : Nat) :
    Option (List Nat × (Nat → Option Nat)) :=
  (G.traverseDFS cls (fun _ => false) fuel).bind fun T =>
  (countLoop G (backtracked T) max (backtracked T) (Counting.start (backtracked T))).map fun c => (backtracked T, c.count)

/-- The index of the step, Heuristics.cc:214-224: the first limit that the size exceeds, or the last index. -/
def stepOf (size : Nat) : List Nat → Nat
  | [] => 0
  | b :: bs => if b < size then 0 else stepOf size bs + 1

/-- `InputDepCountRefinementHeuristic`, Heuristics.cc:171-188. -/
structure Heuristic where
  byStep : List (List Nat)
  step : Nat

/-- The body of the loop of `init`, Heuristics.cc:210-225, for the output `v`; `none`: it is not in the map. -/
def place (count : Nat → Option Nat) (config : List Nat) (sets : List (List Nat)) (v : Nat) : List (List Nat) :=
  match count v with
  | none => sets
  | some size => sets.modify (stepOf size config) fun s => setInsert s v

/-- The constructor and `init`, Heuristics.cc:190-226. -/
def Heuristic.new (G : GateProblem) (cls : Nat → Clause) (config : List Nat) (fuel : Nat) : Option Heuristic :=
  (countInputDependencies G cls (config.headD 0) fuel).map fun r =>
    ⟨r.1.foldl (place r.2 config) (List.replicate (config.length + 1) []), 0⟩

/-- `genericMarkRemovals`, Heuristics.cc:58-73, for the variables of the target: the marked ones, and the set that is
left. -/
def genericMarkRemovals : List Nat → List Nat → List Nat × List Nat
  | [], set => ([], set)
  | v :: vs, set =>
    if set.contains v then
      (v :: (genericMarkRemovals vs (set.filter (· != v))).1, (genericMarkRemovals vs (set.filter (· != v))).2)
    else genericMarkRemovals vs set

/-- `markRemovals` for the equivalence conjectures, one after the other, Heuristics.cc:232-244, Refinement.cc:188-193. -/
def markEquivs : List EquivImpls → List Nat → List (List Nat) × List Nat
  | [], set => ([], set)
  | e :: es, set =>
    let r := genericMarkRemovals (e.implications.map fun i => i.1.var) set
    (r.1 :: (markEquivs es r.2).1, (markEquivs es r.2).2)

/-- The marks of one step: `beginRefinementStep`, `markRemovals` for the backbones if there are any, then for the
equivalence conjectures, Heuristics.cc:228-258, Refinement.cc:178-194. Marks of other heuristics change the queues only,
which are not read here. -/
def Heuristic.marks (h : Heuristic) (s : ApproxState) : Marks × Heuristic :=
  let step := h.step + 1
  if h.byStep.length < step then (⟨[], s.eqs.map fun _ => []⟩, { h with step := step })
  else
    let set := h.byStep.getD (step - 1) []
    let b := if s.bbs.lits.isEmpty then ([], set) else genericMarkRemovals (s.bbs.lits.map Lit.var) set
    let e := markEquivs s.eqs b.2
    (⟨b.1, e.1⟩, ⟨h.byStep.set (step - 1) e.2, step⟩)

/-- `probe`, Heuristics.cc:260-268; for step 0 the index is out of range. -/
def Heuristic.probe (h : Heuristic) (v : Nat) : Option Bool :=
  if h.byStep.length < h.step then some false
  else if h.step = 0 then none
  else some ((h.byStep.getD (h.step - 1) []).contains v)

end Candy.InputDeps
