import Verif.Model.Solve
import Verif.Model.Problem

/-!
# Model of gate encodings and gate recognition
(src/candy/gates/GateBuilder.h, BlockList.h, GateProblem.h, GateAnalyzer.{h,cc})

Clause pointers are positions in the clause list of the problem. All literals come from clauses of the
problem, whose variables are below `nVars()` (C03), so the accesses of the vectors indexed by literals are in
bounds and the vectors are functions.
-/

namespace Candy

/-! ## GateBuilder -/

/-- `and_gate`, GateBuilder.h:34-40. -/
def andGate (o l1 l2 : Lit) (full : Bool := true) : CNF :=
  if full then [[o.neg, l1], [o.neg, l2], [o, l1.neg, l2.neg]] else [[o.neg, l1], [o.neg, l2]]

/-- `or_gate`, GateBuilder.h:42-48. -/
def orGate (o l1 l2 : Lit) (full : Bool := true) : CNF :=
  if full then [[o.neg, l1, l2], [o, l1.neg], [o, l2.neg]] else [[o.neg, l1, l2]]

/-- `xor_gate`, GateBuilder.h:50-56. -/
def xorGate (o l1 l2 : Lit) (full : Bool := true) : CNF :=
  if full then [[o.neg, l1, l2], [o.neg, l1.neg, l2.neg], [o, l1, l2.neg], [o, l1.neg, l2]]
  else [[o.neg, l1, l2], [o.neg, l1.neg, l2.neg]]

/-! ## BlockList -/

/-- `BlockList`, BlockList.h:35-40. `cls` gives the clause at a position of the problem; `numBlocked` are
numbers of 16 bits. -/
structure BlockList where
  problem : CNF
  nVars : Nat
  index : Lit → List Nat
  numBlocked : Lit → Nat

/-- `num_blocked_invalid`, BlockList.h:40. -/
def blockedInvalid : Nat := 65535

namespace BlockList

/-- The clause a pointer refers to. -/
def cls (B : BlockList) (i : Nat) : Clause := B.problem.getD i []

/-- `isBlocked(o, c1, c2)`, BlockList.h:42-45. -/
def isBlockedPair (o : Lit) (c1 c2 : Clause) : Bool :=
  c1.any fun l1 => l1 != o && c2.any fun l2 => l1 == l2.neg

/-- `isBlocked(o, clause)`, BlockList.h:47-50. -/
def isBlocked (B : BlockList) (o : Lit) (c : Nat) : Bool :=
  (B.index o.neg).all fun d => isBlockedPair o (B.cls c) (B.cls d)

/-- `countBlocked`, BlockList.h:52-59: the counter has 16 bits. -/
def countBlocked (B : BlockList) (o : Lit) : BlockList :=
  { B with numBlocked := upd B.numBlocked o (((B.index o).filter (B.isBlocked o)).length % 65536) }

/-- The constructor, BlockList.h:62-71. -/
def new (p : Problem) : BlockList where
  problem := p.problem
  nVars := p.nVars
  index := fun l => (List.range p.problem.length).flatMap fun i => List.replicate ((p.problem.getD i []).count l) i
  numBlocked := fun _ => blockedInvalid

/-- `getNumBlocked`, BlockList.h:75-80. -/
def getNumBlocked (B : BlockList) (o : Lit) : BlockList × Nat :=
  let B := if B.numBlocked o = blockedInvalid then B.countBlocked o else B
  (B, B.numBlocked o)

/-- The inner loop of `remove`, BlockList.h:84-89. -/
def removeLits (c : Nat) : Clause → BlockList → BlockList
  | [], B => B
  | l :: ls, B => removeLits c ls
      { B with index := upd B.index l ((B.index l).filter (· != c))
               numBlocked := upd (upd B.numBlocked l blockedInvalid) l.neg blockedInvalid }

/-- `remove`, BlockList.h:82-91. -/
def remove (B : BlockList) (cs : List Nat) : BlockList := cs.foldl (fun B c => removeLits c (B.cls c) B) B

/-- `isBlockedSet`, BlockList.h:101-103. -/
def isBlockedSet (B : BlockList) (o : Lit) : BlockList × Bool :=
  let r := B.getNumBlocked o
  (r.1, (r.1.index o).length == r.2)

/-- The body of the inner loop of `getMinimallyUnblockedLiteral`, BlockList.h:109-116. The difference of
sizes is taken in `size_t` and cannot be negative. -/
def minStep (lit : Lit) (s : BlockList × Option Lit × Nat) : BlockList × Option Lit × Nat :=
  let r := s.1.getNumBlocked lit
  let diff := (r.1.index lit).length - r.2
  if 0 < diff ∧ diff < s.2.2 then (r.1, some lit, diff) else (r.1, s.2)

/-- The outer loop, BlockList.h:108: variables `n - 1` down to 0. -/
def minLoop : Nat → BlockList × Option Lit × Nat → BlockList × Option Lit × Nat
  | 0, s => s
  | v + 1, s => if s.2.2 ≤ 1 then s else minLoop v (minStep ⟨v, false⟩ (minStep ⟨v, true⟩ s))

/-- `getMinimallyUnblockedLiteral`, BlockList.h:105-119; `none` is `lit_Undef`. -/
def getMinimallyUnblockedLiteral (B : BlockList) : BlockList × Option Lit :=
  let r := minLoop B.nVars (B, none, 65535)
  (r.1, r.2.1)

/-- The inner loop of `stripUnblockedClauses`, BlockList.h:131-141. -/
def stripLits (o : Lit) (c : Nat) : Clause → BlockList → BlockList
  | [], B => B
  | l :: ls, B =>
    let B := { B with index := upd B.index l ((B.index l).filter (· != c)) }
    stripLits o c ls
      (if l ≠ o then { B with numBlocked := upd (upd B.numBlocked l blockedInvalid) l.neg blockedInvalid }
      else { B with numBlocked := upd B.numBlocked l.neg ((B.index l.neg).length % 65536) })

/-- `stripUnblockedClauses`, BlockList.h:121-145. -/
def stripUnblockedClauses (B : BlockList) (o : Lit) : BlockList × List Nat :=
  let result := (B.index o).filter fun c => !B.isBlocked o c
  (result.foldl (fun B c => stripLits o c (B.cls c) B) B, result)

end BlockList

/-! ## GateProblem -/

/-- `Gate`, GateProblem.h:34-42; `out = none` is `lit_Undef`. -/
structure Gate where
  out : Option Lit
  fwd : List Nat
  bwd : List Nat
  notMono : Bool
  inp : List Lit

/-- A sorted vector without repetitions, as `std::sort` and `std::unique` or a `std::set` produce it. -/
def litSet (ls : List Lit) : List Lit := uniqueBy (fun a b => decide (a = b)) (sortLits ls)

/-- `GateProblem`, GateProblem.h:45-60, without statistics. -/
structure GateProblem where
  roots : List Nat
  inputs : Lit → Bool
  gates : Nat → Gate
  remainder : List Nat

namespace GateProblem

/-- The constructor, GateProblem.h:64-70. -/
def new : GateProblem where
  roots := []
  inputs := fun _ => false
  gates := fun _ => ⟨none, [], [], false, []⟩
  remainder := []

/-- `isNestedMonotonic`, GateProblem.h:84-86. -/
def isNestedMonotonic (G : GateProblem) (l : Lit) : Bool := !(G.inputs l && G.inputs l.neg)

/-- `addGate`, GateProblem.h:88-105. `cls` gives the clauses. -/
def addGate (G : GateProblem) (cls : Nat → Clause) (o : Lit) (fwd bwd : List Nat) : GateProblem :=
  let g := G.gates o.var
  let notMono := !G.isNestedMonotonic o
  let inp := litSet (g.inp ++ fwd.flatMap fun c => (cls c).filter fun l => l != o.neg)
  { G with
    gates := upd G.gates o.var ⟨some o, g.fwd ++ fwd, g.bwd ++ bwd, notMono, inp⟩
    inputs := inp.foldl (fun f l => if notMono then upd (upd f l true) l.neg true else upd f l true) G.inputs }

end GateProblem

/-! ## GateAnalyzer -/

/-- The options and the solver of the analyzer: `unsat k F` tells whether the `k`-th call of the solver, on
the formula `F`, answers UNSAT. -/
structure GateMethod where
  patterns : Bool
  semantic : Bool
  holistic : Bool
  unsat : Nat → CNF → Bool

/-- State of the analyzer, GateAnalyzer.h:79-96, with the number of solver calls. -/
structure Analyzer where
  index : BlockList
  gp : GateProblem
  calls : Nat

/-- `fixedClauseSize`, GateAnalyzer.h:106-109. -/
def fixedClauseSize (f : CNF) (n : Nat) : Bool := f.all fun c => c.length == n

/-- The inputs collected by `patternCheck`, GateAnalyzer.cc:184-186. -/
def fwdInputs (o : Lit) (fwd : CNF) : List Lit := litSet (fwd.flatMap fun c => c.filter fun l => l != o.neg)
def bwdInputs (o : Lit) (bwd : CNF) : List Lit := litSet (bwd.flatMap fun c => (c.filter fun l => l != o).map Lit.neg)

/-- `patternCheck`, GateAnalyzer.cc:182-209. The comparison of `2 * fwd.size()` with a power of two is done in
floating point, where it is exact. The set of variables has as many elements as the sorted list of inputs
has runs of equal variables. -/
def patternCheck (o : Lit) (fwd bwd : CNF) : Bool :=
  let fwdInp := fwdInputs o fwd
  if fwdInp ≠ bwdInputs o bwd then false
  else if fwd.length == 1 && bwd.length == 1 && (fwd.all fun c => c.length == 2) && (bwd.all fun c => c.length == 2) then true
  else if fwd.length == 1 && fixedClauseSize bwd 2 then true
  else if bwd.length == 1 && fixedClauseSize fwd 2 then true
  else if fwd.length == bwd.length && 2 * fwd.length == 2 ^ (fwdInp.length / 2) then
    2 * (uniqueBy (fun a b => a.var == b.var) fwdInp).length == fwdInp.length
  else false

/-- Lines 212-222 of `semanticCheck`: the clauses without the output. -/
def outputFree (o : Lit) (fwd bwd : CNF) : CNF := (fwd ++ bwd).map fun c => c.filter fun l => l.var != o.var

/-- The formula `semanticCheck` hands to the solver, GateAnalyzer.cc:211-238. The environment is sorted by
addresses, which are positions in the model. -/
def semanticFormula (B : BlockList) (o : Lit) (fwd bwd : CNF) (holistic : Bool) : Problem :=
  let constraint := Problem.empty.readClauses (outputFree o fwd bwd)
  let constraint := if holistic then
      constraint.readClauses (((List.range B.problem.length).filter fun i =>
        constraint.problem.any fun c => c.any fun l => (B.index l).contains i).map B.cls)
    else constraint
  constraint.normalizeVariableNames

namespace Analyzer

/-- The constructor, GateAnalyzer.cc:34-52. -/
def new (p : Problem) : Analyzer := ⟨BlockList.new p, GateProblem.new, 0⟩

/-- `semanticCheck`, GateAnalyzer.cc:211-241, with the answer of the solver. -/
def semanticCheck (m : GateMethod) (A : Analyzer) (o : Lit) (holistic : Bool) : Analyzer × Bool :=
  let cl := A.index.cls
  ({ A with calls := A.calls + 1 },
    m.unsat A.calls (semanticFormula A.index o ((A.index.index o.neg).map cl) ((A.index.index o).map cl) holistic).problem)

/-- The checks of `isGate`, GateAnalyzer.cc:153-165, for a candidate that is not monotonic. -/
def checkGate (m : GateMethod) (A : Analyzer) (o : Lit) : Analyzer × Bool :=
  let cl := A.index.cls
  if m.patterns && patternCheck o ((A.index.index o.neg).map cl) ((A.index.index o).map cl) then (A, true)
  else
    let r := if m.semantic then A.semanticCheck m o false else (A, false)
    if r.2 then r
    else if m.holistic then r.1.semanticCheck m o true
    else (r.1, false)

/-- The body of `isGate`, GateAnalyzer.cc:148-174, once the candidate is known to be blocked. -/
def tryGate (m : GateMethod) (A : Analyzer) (o : Lit) : Analyzer × Bool :=
  let r := if A.gp.isNestedMonotonic o then (A, true) else A.checkGate m o
  let A := r.1
  if !r.2 then (A, false)
  else
    let gp := A.gp.addGate A.index.cls o (A.index.index o.neg) (A.index.index o)
    ({ A with gp := gp, index := (A.index.remove (gp.gates o.var).fwd).remove (gp.gates o.var).bwd }, true)

/-- `isGate`, GateAnalyzer.cc:146-178. -/
def isGate (m : GateMethod) (A : Analyzer) (o : Lit) : Analyzer × Bool :=
  if A.index.index o.neg = [] then (A, false)
  else
    let b := A.index.isBlockedSet o
    if !b.2 then ({ A with index := b.1 }, false)
    else tryGate m { A with index := b.1 } o

/-- The loop over the candidates, GateAnalyzer.cc:126-132: returns the new frontier. -/
def candidates (m : GateMethod) : List Lit → Analyzer → Analyzer × List Lit
  | [], A => (A, [])
  | o :: os, A =>
    let r := A.isGate m o
    let inp := if r.2 then (r.1.gp.gates o.var).inp else []
    let s := candidates m os r.1
    (s.1, inp ++ s.2)

/-- `gate_recognition`, GateAnalyzer.cc:118-135. The number bounds the iterations. -/
def recognition (m : GateMethod) : Nat → List Lit → Analyzer → Option Analyzer
  | _, [], A => some A
  | 0, _ :: _, _ => none
  | n + 1, os, A =>
    let r := candidates m os A
    recognition m n r.2 r.1

/-- Lines 96-103 of `analyze`: roots are recorded, then gates are looked for. -/
def fromRoots (m : GateMethod) (fuel : Nat) (roots : List Nat) (A : Analyzer) : Option Analyzer :=
  if roots = [] then some A
  else
    let lits := roots.flatMap A.index.cls
    recognition m fuel lits
      { A with gp := { A.gp with roots := A.gp.roots ++ roots
                                 inputs := lits.foldl (fun f l => upd f l true) A.gp.inputs } }

/-- The first iteration of `analyze`, GateAnalyzer.cc:71-78: unit clauses are roots. -/
def firstTry (m : GateMethod) (fuel : Nat) (A : Analyzer) : Option Analyzer :=
  let roots := (List.range A.index.problem.length).filter fun i => (A.index.cls i).length == 1
  fromRoots m fuel roots { A with index := A.index.remove roots }

/-- The other iterations, GateAnalyzer.cc:79-89; the flag is `false` when the loop is left. -/
def nextTry (m : GateMethod) (fuel : Nat) (A : Analyzer) : Option (Analyzer × Bool) :=
  let r := A.index.getMinimallyUnblockedLiteral
  match r.2 with
  | none => some ({ A with index := r.1 }, false)
  | some l =>
    let s := r.1.stripUnblockedClauses l
    (fromRoots m fuel s.2 { A with index := s.1 }).map (·, true)

/-- The further iterations, `k` of them unless the loop is left. -/
def tries (m : GateMethod) (fuel : Nat) : Nat → Analyzer → Option Analyzer
  | 0, A => some A
  | k + 1, A =>
    match nextTry m fuel A with
    | none => none
    | some (A, false) => some A
    | some (A, true) => tries m fuel k A

/-- Lines 106-111 of `analyze`: the clauses still in the index, in the order of their positions (the order of
an `unordered_set` is not specified). -/
def finish (A : Analyzer) : Analyzer :=
  { A with gp := { A.gp with remainder := A.gp.remainder ++ (List.range A.index.problem.length).filter fun i =>
      (List.range A.index.nVars).any fun v => (A.index.index ⟨v, true⟩).contains i || (A.index.index ⟨v, false⟩).contains i } }

/-- `analyze`, GateAnalyzer.cc:63-116. `count` is the number of iterations that the limit of tries and the
time limit allow. -/
def analyze (m : GateMethod) (fuel : Nat) (count : Nat) (p : Problem) : Option Analyzer :=
  match count with
  | 0 => some (new p).finish
  | k + 1 =>
    match firstTry m fuel (new p) with
    | none => none
    | some A => (tries m fuel k A).map finish

end Analyzer

end Candy
