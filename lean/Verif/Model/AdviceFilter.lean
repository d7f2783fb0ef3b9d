import Verif.Model.Rsil

/-!
# Model of the filter for advice (src/candy/systems/branching/rsil/RSARHeuristicsFilter.h)

A heuristic is its function `probe`. `none` is an access out of bounds.
-/

namespace Candy

/-- `removeLiteral`, ImplicitLearningAdvice.h:99-105, and the one of `BudgetAdviceEntry`, lines 197-202: the last
literal moves to the free place, with its budget. -/
def Advice.removeLiteral (e : Advice) (i : Nat) : Option Advice :=
  if i < e.lits.length then
    if e.lits.length > 1 ∧ i + 1 ≠ e.lits.length then
      some { e with lits := (e.lits.set i (e.lits.getD (e.lits.length - 1) default)).dropLast
                    budgets := upd e.budgets i (e.budgets (e.lits.length - 1)) }
    else some { e with lits := e.lits.dropLast }
  else none

/-- `clear`, ImplicitLearningAdvice.h:110-112. -/
def Advice.clear (e : Advice) : Advice := { e with lits := [] }

/-- `RSARHeuristicsFilterImpl::probe`, RSARHeuristicsFilter.h:53-60. -/
def probeAny (hs : List (Nat → Bool → Bool)) (v : Nat) (backbone : Bool) : Bool := hs.any fun h => h v backbone

/-- The loop over the literals of an entry, from the last to the first, RSARHeuristicsFilter.h:75-81: the number is
`i + 1`. -/
def Advice.filterLits (hs : List (Nat → Bool → Bool)) : Nat → Advice → Option Advice
  | 0, e => some e
  | i + 1, e =>
    match e.lits[i]? with
    | none => none
    | some l =>
      if probeAny hs l.var e.backbone then (e.removeLiteral i).bind (filterLits hs i) else filterLits hs i e

/-- `RSARHeuristicsFilterImpl::filterWithRSARHeuristics`, RSARHeuristicsFilter.h:62-83, for the entry of `v`. -/
def Advice.filter (hs : List (Nat → Bool → Bool)) (v : Nat) (e : Advice) : Option Advice :=
  if e.lits.length = 0 then some e
  else if probeAny hs v e.backbone then some e.clear
  else e.filterLits hs e.lits.length

/-- `filterWithRSARHeuristics`, RSARHeuristicsFilter.h:86-96: the list are the variables still to be treated, all
those with an entry, in order. -/
def Rsil.filterAdvice (hs : List (Nat → Bool → Bool)) (onlyBackbone : Bool) : List Nat → Rsil → Option Rsil
  | [], r => some r
  | v :: vs, r =>
    if !onlyBackbone || (r.entry v).backbone then
      ((r.entry v).filter hs v).bind fun e => filterAdvice hs onlyBackbone vs { r with entry := upd r.entry v e }
    else filterAdvice hs onlyBackbone vs r

/-- `filterWithRSARHeuristics` from the first variable to the last. -/
def Rsil.filterAll (hs : List (Nat → Bool → Bool)) (onlyBackbone : Bool) (r : Rsil) : Option Rsil :=
  filterAdvice hs onlyBackbone (List.range r.size) r

end Candy
