import Verif.SpecAiger
import Verif.Model.Gates

/-!
# Model of the conversion of a formula to an and-inverter circuit
(src/candy/gates/AIGProblem.h, `normalizeRoots` and `getRoot` of src/candy/gates/GateProblem.h, src/candy/cnf2aig.cc)
-/

namespace Candy

/-- What `AIGProblem` reads of a gate problem with one root: the number of variables of the formula, the
output and the forward clauses of the gates, and the root. -/
structure AigInput where
  nVars : Nat
  gates : Nat → Option (Lit × CNF)
  root : Lit

/-- `normalizeRoots`, GateProblem.h:268-289, and `getRoot`, :258-261. The literal appended to the root
clauses is appended to the clauses of the problem too; no gate refers to these clauses, and no clause is
listed twice (C51), so the copies contain it once. -/
def normalizeRoots (p : Problem) (G : GateProblem) : AigInput where
  nVars := p.nVars
  gates := fun v =>
    if v = p.nVars then
      some (⟨p.nVars, false⟩, (G.roots ++ G.remainder).map fun i => p.problem.getD i [] ++ [⟨p.nVars, true⟩])
    else (G.gates v).out.map fun o => (o, (G.gates v).fwd.map fun i => p.problem.getD i [])
  root := ⟨p.nVars, false⟩

/-- `AndGate`, AIGProblem.h:33-40. -/
structure AndGate where
  output : Lit
  conj : List Lit
deriving DecidableEq, Repr

/-- `BinaryAndGate`, AIGProblem.h:42-50. Only the right input can be `lit_Undef`, here `none`. -/
structure BinaryAnd where
  output : Lit
  left : Lit
  right : Option Lit
deriving DecidableEq, Repr

/-- `AIGProblem`, AIGProblem.h:52-62; `literals` begins with the top of the stack, `inputs` is the ordered
set of variables. -/
structure Aig where
  varCount : Nat
  literals : List Lit
  inputs : List Nat
  visited : Lit → Bool
  pands : List AndGate

/-- Results of the conversion: a step that is undefined behaviour, more steps needed, or a result. -/
inductive AigOut (α : Type) where
  | ub
  | more
  | ok (a : α)
deriving DecidableEq, Repr

/-- Insertion into a `std::set<Var>`. -/
def insertVar (v : Nat) : List Nat → List Nat
  | [] => [v]
  | w :: ws => if v < w then v :: w :: ws else if v = w then w :: ws else w :: insertVar v ws

namespace Aig

/-- The constructor, AIGProblem.h:65-72, for a problem with an artificial root. -/
def new (I : AigInput) : Aig := ⟨I.nVars + 1, [I.root], [], fun _ => false, []⟩

/-- `registerLiteral`, AIGProblem.h:120-126. -/
def registerLiteral (I : AigInput) (s : Aig) (l : Lit) : Aig :=
  if (I.gates l.var).isSome then { s with literals := l :: s.literals }
  else { s with inputs := insertVar l.var s.inputs }

/-- The body of the loop of `createAndFromClauses`, AIGProblem.h:130-146: the new state and the literal
appended to the conjunction. -/
def andOfClause (I : AigInput) (s : Aig) : Clause → Aig × Lit
  | [l] => (s.registerLiteral I l, l)
  | c =>
    let out : Lit := ⟨s.varCount + 1, false⟩
    let s := c.foldl (registerLiteral I) { s with varCount := s.varCount + 1 }
    ({ s with pands := s.pands ++ [⟨out.neg, c.map Lit.neg⟩] }, out)

/-- The loop of `createAndFromClauses`, AIGProblem.h:130-146. -/
def andsOfClauses (I : AigInput) : List Clause → Aig → Aig × List Lit
  | [], s => (s, [])
  | c :: cs, s =>
    let r := andOfClause I s c
    let t := andsOfClauses I cs r.1
    (t.1, r.2 :: t.2)

/-- `createAndFromClauses`, AIGProblem.h:128-148. -/
def createAndFromClauses (I : AigInput) (cs : List Clause) (output : Lit) (s : Aig) : Aig :=
  let r := andsOfClauses I cs s
  { r.1 with pands := r.1.pands ++ [⟨output, r.2⟩] }

/-- Removing the output from a clause, AIGProblem.h:164-165: the literals other than `~lit` are copied to a
vector with one element less than the clause. If they are more, the copy writes behind the vector. They
cannot be less, because clauses have no repeated literals (C03). -/
def stripOutput (lit : Lit) (c : Clause) : Option Clause :=
  let r := c.filter fun l => l != lit.neg
  if r.length + 1 = c.length then some r else none

/-- Removing it from all clauses, AIGProblem.h:162-167. -/
def stripOutputs (lit : Lit) : List Clause → Option (List Clause)
  | [] => some []
  | c :: cs =>
    match stripOutput lit c, stripOutputs lit cs with
    | some r, some rs => some (r :: rs)
    | _, _ => none

/-- `createAnds`, AIGProblem.h:150-175. The number bounds the iterations. The vectors indexed by literals and
variables have entries for all variables of the formula and the root, and only such literals are on the
stack. -/
def createAnds (I : AigInput) : Nat → Aig → AigOut Aig
  | fuel, s =>
    match s.literals, fuel with
    | [], _ => .ok s
    | _ :: _, 0 => .more
    | l :: ls, n + 1 =>
      if s.visited l then createAnds I n { s with literals := ls }
      else
        let s := { s with literals := ls, visited := upd s.visited l true }
        match I.gates l.var with
        | none => createAnds I n s
        | some g =>
          match stripOutputs l g.2 with
          | none => .ub
          | some cs => createAnds I n (createAndFromClauses I cs l s)

end Aig

/-- `convertNaryRecursive`, AIGProblem.h:177-191, with the counter of variables and the gates. The number
bounds the depth; without it the recursion does not end for an empty conjunction. -/
def convertNary : Nat → List Lit → Nat × List BinaryAnd → Option ((Nat × List BinaryAnd) × Lit)
  | 0, _, _ => none
  | _ + 1, [l], s => some (s, l)
  | n + 1, conj, s =>
    match convertNary n (conj.take (conj.length / 2)) s with
    | none => none
    | some (s, left) =>
      match convertNary n (conj.drop (conj.length / 2)) s with
      | none => none
      | some (s, right) => some ((s.1 + 1, s.2 ++ [⟨⟨s.1 + 1, false⟩, left, some right⟩]), ⟨s.1 + 1, false⟩)

/-- The body of the loop of `convertNaryAndsToBinaryAnds`, AIGProblem.h:194-209: nothing but a warning for an
empty conjunction. -/
def convertAnd (a : AndGate) (s : Nat × List BinaryAnd) : Option (Nat × List BinaryAnd) :=
  match a.conj with
  | [] => some s
  | [l] => some (s.1, s.2 ++ [⟨a.output, l, none⟩])
  | conj =>
    match convertNary conj.length (conj.take (conj.length / 2)) s with
    | none => none
    | some (s, left) =>
      match convertNary conj.length (conj.drop (conj.length / 2)) s with
      | none => none
      | some (s, right) => some (s.1, s.2 ++ [⟨a.output, left, some right⟩])

/-- `convertNaryAndsToBinaryAnds`, AIGProblem.h:193-210. -/
def convertAnds : List AndGate → Nat × List BinaryAnd → Option (Nat × List BinaryAnd)
  | [], s => some s
  | a :: as, s =>
    match convertAnd a s with
    | none => none
    | some s => convertAnds as s

/-- What `createAIG` leaves behind. -/
structure AigCircuit where
  varCount : Nat
  inputs : List Nat
  ands : List BinaryAnd
  root : Lit
deriving DecidableEq, Repr

/-- `createAIG`, AIGProblem.h:81-84. -/
def createAIG (I : AigInput) (fuel : Nat) : AigOut AigCircuit :=
  match Aig.createAnds I fuel (Aig.new I) with
  | .ub => .ub
  | .more => .more
  | .ok s =>
    match convertAnds s.pands (s.varCount, []) with
    | none => .more
    | some r => .ok ⟨r.1, s.inputs, r.2, I.root⟩

/-- The vector `negate` of `printAIG`, AIGProblem.h:96-99. -/
def negateOf (ands : List BinaryAnd) (v : Nat) : Bool := ands.any fun a => a.output.sign && a.output.var == v

/-- `printLit`, AIGProblem.h:86-92: the number printed; `none` is the access of an entry that the vector
`negate`, which has `n` entries, does not have. -/
def printLit (n : Nat) (negate : Nat → Bool) : Option Lit → Option Nat
  | none => some 1
  | some l => if l.var < n then some (2 * l.var + if l.sign != negate l.var then 1 else 0) else none

/-- Printing a list of literals. -/
def printLits (n : Nat) (negate : Nat → Bool) : List (Option Lit) → Option (List Nat)
  | [] => some []
  | l :: ls =>
    match printLit n negate l, printLits n negate ls with
    | some x, some xs => some (x :: xs)
    | _, _ => none

/-- The loop over the gates, AIGProblem.h:109-116. -/
def printAnds (n : Nat) (negate : Nat → Bool) : List BinaryAnd → Option (List (Nat × Nat × Nat))
  | [] => some []
  | a :: as =>
    match printLit n negate (some a.output), printLit n negate (some a.left), printLit n negate a.right, printAnds n negate as with
    | some o, some l, some r, some xs => some ((o, l, r) :: xs)
    | _, _, _, _ => none

/-- `printAIG`, AIGProblem.h:94-117: the numbers printed. The vector `negate` has `var_count` entries; an
access behind it is undefined behaviour. -/
def printAIG (C : AigCircuit) : Option Aiger :=
  let negate := negateOf C.ands
  if (C.ands.all fun a => !a.output.sign || decide (a.output.var < C.varCount)) = false then none
  else
    match printLits C.varCount negate (C.inputs.map fun v => some ⟨v, false⟩), printLit C.varCount negate (some C.root),
      printAnds C.varCount negate C.ands with
    | some inputs, some output, some ands => some ⟨C.varCount, inputs, output, ands⟩
    | _, _, _ => none

/-- `main` of src/candy/cnf2aig.cc:48-70 after the formula `f` has been read: the circuit printed. -/
def cnf2aig (m : GateMethod) (fuel count : Nat) (f : CNF) : AigOut Aiger :=
  let p := Problem.empty.readClauses f
  if p.problem.length = 0 then .ok ⟨0, [], 1, []⟩
  else if p.nVars = 0 ∨ p.problem.any (fun c => c.length == 0) = true then .ok ⟨0, [], 0, []⟩
  else
    match Analyzer.analyze m fuel count p with
    | none => .more
    | some A =>
      match createAIG (normalizeRoots p A.gp) fuel with
      | .ub => .ub
      | .more => .more
      | .ok C =>
        match printAIG C with
        | none => .ub
        | some x => .ok x

end Candy
