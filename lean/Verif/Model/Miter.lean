import Verif.Model.Traversal

/-!
# Model of the detection of miters (src/candy/gates/MiterDetector.cc)

A gate is the index of the gate in the vector of gates, a variable. The hash set of border gates is a list without
repetitions; its iteration order is arbitrary, so the checks take the list in any order.
-/

namespace Candy

/-- `MonotonousRegionBorderGateCollector`, MiterDetector.cc:44-94, without `m_seenNonmonotonous`. -/
structure BorderGates where
  seenOuts : List Nat
  border : List Nat
  deriving DecidableEq

/-- The variable of the output, `g->out.var()`. Only defined gates are collected; the other case is never used. -/
def Gate.outVar (g : Gate) : Nat := match g.out with | some o => o.var | none => 0

namespace GateProblem

/-- One call of the collector: `backtrack`, MiterDetector.cc:47-57, `collect`, lines 59-61, and `collectInput`,
lines 63-65. -/
def borderStep (G : GateProblem) (s : BorderGates) : GateCall → BorderGates
  | .collect v => { s with seenOuts := (G.gates v).outVar :: s.seenOuts }
  | .backtrack v =>
    if ((G.gates v).inp.any fun l => !s.seenOuts.contains l.var) && !s.border.contains v then
      { s with border := v :: s.border }
    else s
  | .collectInput _ => s

/-- `getMonotonousRegionBorder`, MiterDetector.cc:82-84, after the calls of the traversal. -/
def borderGates (G : GateProblem) (calls : List GateCall) : List Nat :=
  (calls.foldl G.borderStep ⟨[], []⟩).border

/-- `hasSeenNonmonotonouslyNestedGate`, MiterDetector.cc:86-88: `pruneAt`, lines 71-76, has been called for such a
gate. GateDFSTraversal.h:96 calls it for the gates of the literals of roots, and line 123 for the gates of the
inputs of a collected gate that were not visited; a gate at which the traversal prunes is never visited. -/
def seenNonMono (G : GateProblem) (cls : Nat → Clause) (calls : List GateCall) : Bool :=
  ((G.roots.flatMap cls).any fun l => (G.gates l.var).isDefined && (G.gates l.var).notMono) ||
  calls.any fun
    | .collect v => (G.gates v).inp.any fun l => (G.gates l.var).isDefined && (G.gates l.var).notMono
    | _ => false

end GateProblem

/-- Inserting into a hash set, as a list without repetitions. -/
def hashInsert {α : Type} [BEq α] (x : α) (s : List α) : List α := if s.contains x then s else x :: s

/-- `allGatesHaveTwoInputs`, MiterDetector.cc:103-117. -/
def twoInputs (gs : List Gate) : Bool :=
  gs.all fun g => ((g.inp.map Lit.var).foldl (fun s v => hashInsert v s) []).length == 2

/-- The loop over the literals, MiterDetector.cc:156-166: `none` is `return false`. `occ` are the literals that have
occurred, the map from variables to `SignOccurence`, lines 119-143. -/
def signOccurrences : List Lit → List Lit → Option (List Lit)
  | [], occ => some occ
  | l :: ls, occ => if occ.contains l then none else signOccurrences ls (l :: occ)

/-- `allGatesAreAIGXORsWithUniqueInputVars`, MiterDetector.cc:152-176. -/
def aigXors (gs : List Gate) : Bool :=
  match signOccurrences (gs.flatMap Gate.inp) [] with
  | none => false
  | some occ => occ.all fun l => occ.contains l.neg

/-- `isBinaryXORGate`, MiterDetector.cc:187-204. `cls` gives the clauses. -/
def isBinaryXor (cls : Nat → Clause) (g : Gate) : Bool :=
  match g.fwd with
  | [i, j] => (cls i).length == 3 && (cls j).length == 3 &&
    ((cls i ++ cls j).foldl (fun s l => hashInsert l s) []).length == 5
  | _ => false

/-- The loop of `allGatesAreBinaryXORsWithUniqueInputVars`, MiterDetector.cc:216-237, with the set
`seenInputVars`. -/
def binaryXors (cls : Nat → Clause) : List Gate → List Nat → Bool
  | [], _ => true
  | g :: gs, seen =>
    isBinaryXor cls g && !(g.inp.any fun l => seen.contains l.var) &&
      binaryXors cls gs ((g.inp.map Lit.var).foldl (fun s v => hashInsert v s) seen)

namespace GateProblem

/-- The tests of `hasPossiblyMiterStructure`, MiterDetector.cc:245-252, on the border gates in the iteration order
of the hash set. -/
def miterTests (G : GateProblem) (cls : Nat → Clause) (nonMono : Bool) (border : List Nat) : Bool :=
  if border.isEmpty || !nonMono || !twoInputs (border.map G.gates) then false
  else aigXors (border.map G.gates) || binaryXors cls (border.map G.gates) []

/-- `hasPossiblyMiterStructure`, MiterDetector.cc:240-253. `perm` is the iteration order of the hash set of border
gates. The number bounds the iterations of the traversal. -/
def hasMiter (G : GateProblem) (cls : Nat → Clause) (perm : List Nat → List Nat) (fuel : Nat) : Option Bool :=
  (G.traverseDFS cls (fun v => (G.gates v).notMono) fuel).map fun T =>
    G.miterTests cls (G.seenNonMono cls T) (perm (G.borderGates T))

end GateProblem

end Candy
