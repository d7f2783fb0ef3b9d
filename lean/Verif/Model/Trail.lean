import Verif.Spec

/-!
# Model of `Trail` (src/candy/core/Trail.h)

The arrays `assigns`, `vardata[].reason`, `vardata[].level`, `decision` are functions on
variables; the part `trail[0 .. trail_size)` of the trail array is the list `stack`
(oldest literal first); `trail_lim` is `lim`. Clause pointers are clause identifiers.
Counters (`nDecisions`, `nPropagations`) are dropped.
-/

namespace Candy

/-- Array write `f[k] = v`. -/
def upd {α β : Type} [DecidableEq α] (f : α → β) (k : α) (v : β) : α → β :=
  fun x => if x = k then v else f x

/-- State of `Trail`, src/candy/core/Trail.h:74-88. `lbool` values of variables are
`Option Bool` (`none` is `l_Undef`). -/
structure Trail where
  nVars : Nat
  stack : List Lit
  assigns : Nat → Option Bool
  level : Nat → Nat
  reason : Nat → Option Nat
  lim : List Nat
  qhead : Nat
  assumptions : List Lit
  decision : Nat → Bool

namespace Trail

/-- `Trail::Trail(unsigned int nVars)`, Trail.h:62-72 with `init`, 92-101. -/
def empty (n : Nat) : Trail where
  nVars := n
  stack := []
  assigns := fun _ => none
  level := fun _ => 0
  reason := fun _ => none
  lim := []
  qhead := 0
  assumptions := []
  decision := fun _ => true

/-- `Trail::init`, Trail.h:92-101: only grows; new entries get default values (in the model
every index outside `nVars` already has the default value, see `Trail.clear`). -/
def init (T : Trail) (n : Nat) : Trail :=
  if n > T.nVars then { T with nVars := n } else T

/-- `Trail::reset`, Trail.h:114-120. -/
def reset (T : Trail) : Trail :=
  { T with assigns := fun _ => none, level := fun _ => 0, reason := fun _ => none,
           qhead := 0, stack := [], lim := [] }

/-- `Trail::setDecisionVar`, Trail.h:123-125. -/
def setDecisionVar (T : Trail) (v : Nat) (b : Bool) : Trail :=
  { T with decision := upd T.decision v b }

/-- `Trail::setAssumptions`, Trail.h:131-139. The call `init(variables)` in the source never
changes anything (`nVars > variables` is false for `nVars = variables`); the bounds problem this
causes is treated in `Model/Ipasir.lean`. -/
def setAssumptions (T : Trail) (as : List Lit) : Trail :=
  { T with assumptions := as }

/-- `Trail::decisionLevel`, Trail.h:236-238. -/
def decisionLevel (T : Trail) : Nat := T.lim.length

/-- `Trail::value(Lit)`, Trail.h:204-206: `assigns[p.var()] ^ p.sign()`. -/
def value (T : Trail) (l : Lit) : Option Bool :=
  match T.assigns l.var with
  | none => none
  | some b => some (b ^^ l.sign)

/-- `Trail::satisfies(Lit)`, Trail.h:208-210. -/
def satisfies (T : Trail) (l : Lit) : Bool := T.value l == some true

/-- `Trail::falsifies(Lit)`, Trail.h:217-219. -/
def falsifies (T : Trail) (l : Lit) : Bool := T.value l == some false

/-- `Trail::newDecisionLevel`, Trail.h:241-243. -/
def newDecisionLevel (T : Trail) : Trail :=
  { T with lim := T.lim ++ [T.stack.length] }

/-- `Trail::set_value`, Trail.h:245-248. -/
def setValue (T : Trail) (p : Lit) : Trail :=
  { T with assigns := upd T.assigns p.var (some (!p.sign)), stack := T.stack ++ [p] }

/-- `Trail::decide`, Trail.h:250-256. -/
def decide (T : Trail) (p : Lit) : Trail :=
  { T.setValue p with
    reason := upd T.reason p.var none, level := upd T.level p.var T.decisionLevel }

/-- `Trail::propagate`, Trail.h:258-269 (state part; the returned flag is
`!falsifies p`). -/
def propagate (T : Trail) (p : Lit) (c : Nat) : Trail :=
  if T.falsifies p then T
  else
    { T.setValue p with
      reason := upd T.reason p.var (some c), level := upd T.level p.var T.decisionLevel }

/-- `Trail::fact`, Trail.h:271-283: the flag is `false` iff the literal is falsified. -/
def fact (T : Trail) (p : Lit) : Trail × Bool :=
  if T.falsifies p then (T, false)
  else
    let T1 := { T with reason := upd T.reason p.var none, level := upd T.level p.var 0 }
    if T.satisfies p then (T1, true) else (T1.setValue p, true)

/-- `Trail::backtrack`, Trail.h:285-294. `lim[lvl]? = some k` iff `decisionLevel() > lvl`. -/
def backtrack (T : Trail) (lvl : Nat) : Trail :=
  match T.lim[lvl]? with
  | none => T
  | some k =>
    { T with
      assigns := fun v => if (T.stack.drop k).any (fun l => l.var == v) then none else T.assigns v
      qhead := if lvl = 0 then 0 else k
      stack := T.stack.take k
      lim := T.lim.take lvl }

/-- `Trail::computeLBD`, Trail.h:300-315: number of levels stamped. The stamp array is modelled
by the list of levels stamped since `stamp.clear()`. -/
def computeLBD (T : Trail) (ls : List Lit) : Nat :=
  (ls.foldl (fun (acc : List Nat × Nat) l =>
    let lv := T.level l.var
    if acc.1.contains lv then acc else (lv :: acc.1, acc.2 + 1)) ([], 0)).2

end Trail
end Candy
