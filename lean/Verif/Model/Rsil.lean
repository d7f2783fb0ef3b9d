import Verif.Model.FastRand
import Verif.Model.Trail

/-!
# Model of implicit learning (src/candy/systems/branching/rsil)

`ImplicitLearningAdvice.h` and the members of `RSILBranchingHeuristic`, `RSILBudgetBranchingHeuristic` and
`RSILVanishingBranchingHeuristic` apart from the embedded `VSIDS`. `none` is an access out of bounds.
Not modelled here: `init` with given conjectures (used by tests only) and `filterWithRSARHeuristics`, whose call
is commented out (see `AdviceFilter`).
-/

namespace Candy

/-- The three variants, CandyBuilder.cc:31-35. -/
inductive RsilMode where
  | unrestricted
  | vanishing
  | budgeted
deriving DecidableEq

/-- The options: variant, `opt_rsil_advice_size` (the template parameter), `opt_rsil_vanHalfLife`,
`opt_rsil_impBudgets`. -/
structure RsilOpt where
  mode : RsilMode
  maxSize : Nat
  halfLife : BitVec 64
  budget : BitVec 32

/-- `AdviceEntry` and `BudgetAdviceEntry`, ImplicitLearningAdvice.h:59-270. The array `m_lits` of length
`tMaxAdviceSize - 1` with `m_size` is the list `lits`. -/
structure Advice where
  lits : List Lit
  backbone : Bool
  budgets : Nat → Int

/-- `AdviceEntry()`, ImplicitLearningAdvice.h:135-137, and `BudgetAdviceEntry()`. -/
def Advice.empty : Advice := ⟨[], false, fun _ => 0⟩

/-- `addLiteral`, ImplicitLearningAdvice.h:119-123: writes behind the end of the array if it is full. -/
def Advice.add (max : Nat) (e : Advice) (l : Lit) : Option Advice :=
  if e.lits.length + 1 < max then some { e with lits := e.lits ++ [l] } else none

/-- Conjectures: classes of equivalent literals, and backbone literals, Conjectures.h. -/
structure Conj where
  equivalences : List (List Lit)
  backbones : List Lit

/-- The members of the heuristic apart from the embedded `VSIDS`. -/
structure Rsil where
  opt : RsilOpt
  /-- `blockInitialization` -/
  blocked : Bool
  /-- `initializationCompleted` -/
  done : Bool
  /-- `m_backbonesEnabled` -/
  backbones : Bool
  /-- `m_advice.m_advice.size()` -/
  size : Nat
  entry : Nat → Advice
  /-- `m_callCounter` -/
  counter : BitVec 64
  mask : BitVec 64
  rng : BitVec 64

namespace Rsil

/-- Constructors, BranchingHeuristics.h:170-183 and 362-367. -/
def new (opt : RsilOpt) : Rsil :=
  ⟨opt, false, false, false, 0, fun _ => Advice.empty, opt.halfLife, 0, 0xFFFF⟩

/-- The inner loop of `addEquivalenceConjecture`, ImplicitLearningAdvice.h:342-346. -/
def addLits (max : Nat) (key : Lit) : List Lit → Advice → Option Advice
  | [], e => some e
  | l :: ls, e =>
    if key = l then addLits max key ls e
    else (e.add max (if key.sign then l else l.neg)).bind (addLits max key ls)

/-- `addEquivalenceConjecture`, ImplicitLearningAdvice.h:329-348; `c` is the class, the last argument the keys
still to be treated. -/
def addEquivalence (c : List Lit) : List Lit → Rsil → Option Rsil
  | [], r => some r
  | key :: keys, r =>
    if key.var < r.size then
      (addLits r.opt.maxSize key c { r.entry key.var with backbone := false }).bind fun e =>
        addEquivalence c keys { r with entry := upd r.entry key.var e }
    else none

/-- `addBackboneConjecture`, ImplicitLearningAdvice.h:351-357. -/
def addBackbone (r : Rsil) (l : Lit) : Option Rsil :=
  if l.var < r.size then
    ({ r.entry l.var with backbone := true }.add r.opt.maxSize l).map fun e => { r with entry := upd r.entry l.var e }
  else none

/-- First loop of `ImplicitLearningAdvice::init`, ImplicitLearningAdvice.h:365-369. -/
def addEquivalences : List (List Lit) → Rsil → Option Rsil
  | [], r => some r
  | c :: cs, r =>
    if c.length ≤ r.opt.maxSize then (addEquivalence c c r).bind (addEquivalences cs) else addEquivalences cs r

/-- Second loop of `ImplicitLearningAdvice::init`, ImplicitLearningAdvice.h:371-373. -/
def addBackbones : List Lit → Rsil → Option Rsil
  | [], r => some r
  | l :: ls, r => (r.addBackbone l).bind (addBackbones ls)

/-- `setBudget` for all entries, BranchingHeuristics.h:280-285. -/
def fillBudgets (r : Rsil) : Rsil :=
  if r.opt.mode = .budgeted then
    { r with entry := fun v => { r.entry v with
        budgets := fun i => if v < r.size ∧ i < (r.entry v).lits.length then r.opt.budget.toInt else (r.entry v).budgets i } }
  else r

/-- `init`, BranchingHeuristics.h:98-108 without the embedded heuristic, and 278-286. `conj` are the conjectures
found by random simulation for the first formula; `none` if there are none or `generateConjectures`
(BranchingHeuristics.h:128-156) gives up. -/
def init (conj : Option Conj) (nVars : Nat) (r : Rsil) : Option Rsil :=
  (if r.blocked then some r
  else
    match conj with
    | none => some { r with blocked := true }
    | some c =>
      (addEquivalences c.equivalences { r with blocked := true, done := true, backbones := !c.backbones.isEmpty
                                               size := max r.size nVars }).bind (addBackbones c.backbones)).map fillBudgets

/-- `canUseAdvice`, BranchingHeuristics.h:429-433 and 447-450. -/
def canUse (opt : RsilOpt) (e : Advice) (i : Nat) : Bool :=
  opt.mode != .budgeted || decide (0 < e.budgets i)

/-- `usedAdvice`, BranchingHeuristics.h:421-424 and 438-442. -/
def used (opt : RsilOpt) (e : Advice) (i : Nat) : Advice :=
  if opt.mode = .budgeted then { e with budgets := upd e.budgets i (e.budgets i - 1) } else e

/-- The inner loop of `getAdvice`, BranchingHeuristics.h:485-499; the list are the values of `a`, `k` is the
decision level. -/
def tryAdvice (opt : RsilOpt) (T : Trail) (k : Nat) (e : Advice) : List Nat → Option (Option (Lit × Nat))
  | [] => some none
  | a :: as =>
    match e.lits[(k + a) % e.lits.length]? with
    | none => none
    | some l =>
      if T.nVars ≤ l.var then none
      else if T.assigns l.var = none ∧ T.decision l.var = true ∧ canUse opt e ((k + a) % e.lits.length) = true then
        some (some (l, (k + a) % e.lits.length))
      else tryAdvice opt T k e as

/-- The outer loop of `getAdvice`, BranchingHeuristics.h:469-500. -/
def scan (T : Trail) (k : Nat) : List Lit → Rsil → Option (Rsil × Option Lit)
  | [], r => some (r, none)
  | c :: cs, r =>
    if r.size ≤ c.var then scan T k cs r
    else if (r.entry c.var).backbone then scan T k cs r
    else
      match tryAdvice r.opt T k (r.entry c.var) (List.range (r.entry c.var).lits.length) with
      | none => none
      | some none => scan T k cs r
      | some (some (l, i)) =>
        some ({ r with entry := upd r.entry c.var (used r.opt (r.entry c.var) i) }, some (if c.sign then l.neg else l))

/-- `getAdvice`, BranchingHeuristics.h:460-503. The literals of the last decision level begin at
`trail_lim.back()`, which is within the trail (C10). -/
def getAdvice (r : Rsil) (T : Trail) : Option (Rsil × Option Lit) :=
  match T.lim.getLast? with
  | none => some (r, none)
  | some k => scan T T.lim.length (T.stack.drop k) r

/-- `getSignAdvice`, BranchingHeuristics.h:506-520. -/
def signAdvice (r : Rsil) (p : Lit) : Rsil × Lit :=
  if r.backbones = true ∧ p.var < r.size ∧ (r.entry p.var).backbone = true ∧ canUse r.opt (r.entry p.var) 0 = true then
    match (r.entry p.var).lits with
    | [l] => ({ r with entry := upd r.entry p.var (used r.opt (r.entry p.var) 0) }, l.neg)
    | _ => (r, p)
  else (r, p)

/-- `makeRSILDecision`, BranchingHeuristics.h:530-541; the other variants always decide with advice. -/
def draw (r : Rsil) : Rsil × Bool :=
  if r.opt.mode = .vanishing then
    let x := fastNextRand r.rng
    let c := r.counter - 1
    ({ r with rng := x
              mask := if c = 0 then (r.mask <<< 1) ||| 1 else r.mask
              counter := if c = 0 then r.opt.halfLife else c }, x &&& r.mask == 0)
  else (r, true)

/-- First part of `pickBranchLit`, BranchingHeuristics.cc:35-40, 55-62, 82-87. -/
def pickFirst (r : Rsil) (T : Trail) : Option (Rsil × Option Lit) :=
  if r.draw.2 then r.draw.1.getAdvice T else some (r.draw.1, none)

/-- The sign of the literal picked by the embedded heuristic, BranchingHeuristics.cc:42-45, 64-72, 89-92. -/
def pickSign (r : Rsil) (p : Lit) : Rsil × Lit :=
  if r.draw.2 then r.draw.1.signAdvice p else (r.draw.1, p)

/-- States of the heuristic after it was initialised first with conjectures `conj`, and then called for branching
literals and initialised again any number of times. -/
inductive Reach : Option Conj → Rsil → Prop
  | init {r : Rsil} (opt : RsilOpt) (conj : Option Conj) (nv : Nat) (h : (new opt).init conj nv = some r) :
      Reach conj r
  | again {conj : Option Conj} {r r' : Rsil} (h : Reach conj r) (c : Option Conj) (nv : Nat)
      (he : r.init c nv = some r') : Reach conj r'
  | first {conj : Option Conj} {r r' : Rsil} {o : Option Lit} (h : Reach conj r) (T : Trail)
      (he : r.pickFirst T = some (r', o)) : Reach conj r'
  | sign {conj : Option Conj} {r : Rsil} (h : Reach conj r) (p : Lit) : Reach conj (r.pickSign p).1

end Rsil

end Candy
