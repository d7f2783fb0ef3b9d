import Verif.Model.LitBits

/-!
# Model of problems and results
(src/candy/core/CNFProblem.{h,cc}, src/candy/core/CandySolverResult.h)

`Cl` and `For` are lists; literals are (variable, sign) pairs, which `C01_roundtrip` and `C01_order`
relate to the 32-bit encoding. `std::sort` is modelled by insertion sort and `std::unique` by its
definition. Memory management (`new`, `delete`) is not modelled.
-/

namespace Candy

/-- `Lit::operator<`, SolverTypes.h:140-142, on pairs (see `C01_order`). -/
def Lit.ltb (a b : Lit) : Bool := a.var < b.var || (a.var == b.var && !a.sign && b.sign)

/-- One insertion step of the sort. -/
def insertLit (l : Lit) : List Lit → List Lit
  | [] => [l]
  | x :: xs => if x.ltb l then x :: insertLit l xs else l :: x :: xs

/-- `std::sort(clause->begin(), clause->end())`, CNFProblem.cc:115. -/
def sortLits : List Lit → List Lit
  | [] => []
  | x :: xs => insertLit x (sortLits xs)

/-- `std::unique` with a predicate: keeps an element unless the last element kept is equivalent to
it (CNFProblem.cc:119, 121). -/
def uniqueBy (p : Lit → Lit → Bool) : List Lit → List Lit
  | [] => []
  | x :: xs => x :: go x xs
where
  go (last : Lit) : List Lit → List Lit
    | [] => []
    | y :: ys => if p last y then go last ys else y :: go y ys

/-- `CNFProblem`, CNFProblem.h:34-35. -/
structure Problem where
  problem : CNF
  variables : Nat
deriving Repr, DecidableEq

namespace Problem

/-- `CNFProblem()`, CNFProblem.h:38. -/
def empty : Problem := ⟨[], 0⟩

/-- `readClause`, CNFProblem.cc:111-128. -/
def readClause (p : Problem) (c : Clause) : Problem :=
  match (sortLits c).getLast? with
  | none => { p with problem := p.problem ++ [c] }
  | some back =>
    let sorted := sortLits c
    let variables := max p.variables (back.var + 1)
    let uniq := uniqueBy (fun a b => decide (a = b)) sorted
    -- `isTautological`: a second `std::unique` by variable moves the end
    if (uniqueBy (fun a b => a.var == b.var) uniq).length ≠ uniq.length then
      { p with variables := variables }
    else ⟨p.problem ++ [uniq], variables⟩

/-- `readClauses`, CNFProblem.cc:99-109, and the constructors, CNFProblem.h:40-50. -/
def readClauses (p : Problem) (f : CNF) : Problem := f.foldl readClause p

/-- `nVars`, `nClauses`, CNFProblem.h:70-76. -/
def nVars (p : Problem) : Nat := p.variables
def nClauses (p : Problem) : Nat := p.problem.length

/-- `newVar`, CNFProblem.h:78-80: returns the new variable. -/
def newVar (p : Problem) : Problem × Nat := ({ p with variables := p.variables + 1 }, p.variables)

/-- `clear`, CNFProblem.h:82-87. The variable counter is not reset. -/
def clear (p : Problem) : Problem := { p with problem := [] }

/-- State of `normalizeVariableNames`: the map `name` (`none` is the default `Var` -1) and `max`. -/
structure Renaming where
  name : Nat → Option Nat
  max : Nat

/-- The body of the inner loop, CNFProblem.cc:160-163. -/
def Renaming.lit (r : Renaming) (l : Lit) : Renaming × Lit :=
  match r.name l.var with
  | some w => (r, ⟨w, l.sign⟩)
  | none => (⟨fun v => if v = l.var then some r.max else r.name v, r.max + 1⟩, ⟨r.max, l.sign⟩)

/-- The inner loop over a clause. -/
def Renaming.clause (r : Renaming) : Clause → Renaming × Clause
  | [] => (r, [])
  | l :: ls =>
    let (r1, l') := r.lit l
    let (r2, ls') := Renaming.clause r1 ls
    (r2, l' :: ls')

/-- The outer loop. -/
def Renaming.cnf (r : Renaming) : CNF → Renaming × CNF
  | [] => (r, [])
  | c :: cs =>
    let (r1, c') := r.clause c
    let (r2, cs') := Renaming.cnf r1 cs
    (r2, c' :: cs')

/-- `normalizeVariableNames`, CNFProblem.cc:155-166. -/
def normalizeVariableNames (p : Problem) : Problem :=
  let (r, f) := Renaming.cnf ⟨fun _ => none, 0⟩ p.problem
  ⟨f, r.max⟩

end Problem

/-- `CandySolverResult`, CandySolverResult.h:30-41. -/
structure SolverResult where
  status : LBool
  model : List LBool
  minimizedModel : List LBool
  conflict : List Lit
deriving DecidableEq

namespace SolverResult

/-- `CandySolverResult()`, CandySolverResult.h:41. -/
def new : SolverResult := ⟨LBool.U, [], [], []⟩

/-- `std::vector::resize(n, l_Undef)` when growing. -/
def grow (m : List LBool) (n : Nat) : List LBool := m ++ List.replicate (n - m.length) LBool.U

/-- The common body of `setModelValue` and `setMinimizedModelValue`. -/
def store (m : List LBool) (l : Lit) : List LBool :=
  (if m.length ≤ l.var then grow m (l.var + 1) else m).set l.var (if l.sign then LBool.F else LBool.T)

/-- `setModelValue`, CandySolverResult.h:65-70. -/
def setModelValue (r : SolverResult) (l : Lit) : SolverResult := { r with model := store r.model l }

/-- `setModel`, CandySolverResult.h:59-63, with the literals of the trail. -/
def setModel (r : SolverResult) (trail : List Lit) : SolverResult := trail.foldl setModelValue r

/-- `setConflict`, CandySolverResult.h:72-74. -/
def setConflict (r : SolverResult) (ls : List Lit) : SolverResult := { r with conflict := r.conflict ++ ls }

/-- `setStatus`, CandySolverResult.h:55-57. -/
def setStatus (r : SolverResult) (s : LBool) : SolverResult := { r with status := s }

/-- `clear`, CandySolverResult.h:49-53. The minimized model is kept. -/
def clear (r : SolverResult) : SolverResult := { r with status := LBool.U, model := [], conflict := [] }

/-- `setMinimizedModelValue`, CandySolverResult.h:111-116. -/
def setMinimizedModelValue (r : SolverResult) (l : Lit) : SolverResult :=
  { r with minimizedModel := store r.minimizedModel l }

/-- `satisfies`, CandySolverResult.h:76-78. -/
def satisfies (r : SolverResult) (l : Lit) : Bool :=
  match r.model[l.var]? with
  | none => false
  | some v => LBool.eq LBool.T (LBool.xor v l.sign)

/-- `value`, CandySolverResult.h:81-91. The outer `none` is an access outside the vector (undefined
behaviour), the inner `none` is `lit_Undef`. -/
def value (r : SolverResult) (x : Nat) : Option (Option Lit) :=
  match r.model[x]? with
  | none => none
  | some v =>
    if LBool.eq v LBool.F then some (some ⟨x, true⟩)
    else if LBool.eq v LBool.T then some (some ⟨x, false⟩)
    else some none

/-- The loop of `getModelLiterals` from index `v` on. -/
def literalsFrom (v : Nat) : List LBool → List Lit
  | [] => []
  | x :: xs =>
    if LBool.eq x LBool.T then ⟨v, false⟩ :: literalsFrom (v + 1) xs
    else if LBool.eq x LBool.F then ⟨v, true⟩ :: literalsFrom (v + 1) xs
    else literalsFrom (v + 1) xs

/-- `getModelLiterals`, CandySolverResult.h:93-104. -/
def getModelLiterals (r : SolverResult) : List Lit := literalsFrom 0 r.model

/-- `getMinimizedModelLiterals`, CandySolverResult.h:118-129. -/
def getMinimizedModelLiterals (r : SolverResult) : List Lit := literalsFrom 0 r.minimizedModel

end SolverResult

/-- `checkResult`, CNFProblem.cc:130-149: `none` is undefined behaviour. When a clause is not
satisfied the loop that prints its values calls `value` for each of its variables, without a bounds
check (CNFProblem.cc:141-143). -/
def Problem.checkClauses (r : SolverResult) : CNF → Option Bool
  | [] => some true
  | c :: cs =>
    if c.any r.satisfies then Problem.checkClauses r cs
    else if c.all fun l => (r.value l.var).isSome then some false
    else none

def Problem.checkResult (p : Problem) (r : SolverResult) : Option Bool := Problem.checkClauses r p.problem

end Candy
