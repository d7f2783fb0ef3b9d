import Verif.Model.Simplify

/-!
# `Trail` with its arrays (src/candy/core/Trail.h)

The model of `Trail` in `Model/Trail.lean` uses functions on variables and a list for the assigned part
of the trail. Here the vectors are lists of the length the code gives them, and every access is checked:
`none` stands for an access outside a vector. `Props/Bounds.lean` relates the two.
-/

namespace Candy

/-- The vectors of `Trail`, Trail.h:74-88. The stamp array is treated in `Model/Lbd.lean`. -/
structure ATrail where
  variables : Nat
  assigns : List (Option Bool)
  /-- reason and level of each variable -/
  vardata : List (Option Nat × Nat)
  trail : List Lit
  trailSize : Nat
  lim : List Nat
  qhead : Nat
  decision : List Bool
  assumptions : List Lit

namespace ATrail

/-- `std::vector::resize(n, x)` for a vector that does not shrink. -/
def grow {α : Type} (xs : List α) (n : Nat) (x : α) : List α := xs ++ List.replicate (n - xs.length) x

/-- The constructor, Trail.h:62-67. -/
def empty : ATrail := ⟨0, [], [], [], 0, [], 0, [], []⟩

/-- `init`, Trail.h:92-101. New elements of `trail` are value-initialised literals (`Lit()`, here
variable 0). -/
def init (A : ATrail) (n : Nat) : ATrail :=
  if n > A.variables then
    { A with variables := n, assigns := grow A.assigns n none, vardata := grow A.vardata n (none, 0),
             trail := grow A.trail n ⟨0, false⟩, decision := grow A.decision n true }
  else A

/-- `reset`, Trail.h:114-120. -/
def reset (A : ATrail) : ATrail :=
  { A with assigns := A.assigns.map fun _ => none, vardata := A.vardata.map fun _ => (none, 0),
           qhead := 0, trailSize := 0, lim := [] }

/-- `setDecisionVar`, Trail.h:123-125. -/
def setDecisionVar (A : ATrail) (v : Nat) (b : Bool) : Option ATrail :=
  if v < A.decision.length then some { A with decision := A.decision.set v b } else none

/-- `value(Lit)`, Trail.h:204-206. -/
def value (A : ATrail) (l : Lit) : Option (Option Bool) :=
  A.assigns[l.var]?.map fun x => x.map (· ^^ l.sign)

/-- `reason(Var)`, Trail.h:227-229. -/
def reason (A : ATrail) (v : Nat) : Option (Option Nat) := A.vardata[v]?.map Prod.fst

/-- `level(Var)`, Trail.h:231-233. -/
def level (A : ATrail) (v : Nat) : Option Nat := A.vardata[v]?.map Prod.snd

/-- `operator[]`, Trail.h:149-152. -/
def get (A : ATrail) (i : Nat) : Option Lit := A.trail[i]?

/-- `newDecisionLevel`, Trail.h:241-243. -/
def newDecisionLevel (A : ATrail) : ATrail := { A with lim := A.lim ++ [A.trailSize] }

/-- `set_value`, Trail.h:245-248. -/
def setValue (A : ATrail) (p : Lit) : Option ATrail :=
  if p.var < A.assigns.length ∧ A.trailSize < A.trail.length then
    some { A with assigns := A.assigns.set p.var (some (!p.sign)), trail := A.trail.set A.trailSize p,
                  trailSize := A.trailSize + 1 }
  else none

/-- `vardata[v] = x`. -/
def setData (A : ATrail) (v : Nat) (x : Option Nat × Nat) : Option ATrail :=
  if v < A.vardata.length then some { A with vardata := A.vardata.set v x } else none

/-- `decide`, Trail.h:250-256. -/
def decide (A : ATrail) (p : Lit) : Option ATrail :=
  (A.setValue p).bind fun A' => A'.setData p.var (none, A'.lim.length)

/-- `propagate`, Trail.h:258-269. -/
def propagate (A : ATrail) (p : Lit) (c : Nat) : Option ATrail :=
  match A.value p with
  | none => none
  | some (some false) => some A
  | some _ => (A.setValue p).bind fun A' => A'.setData p.var (some c, A'.lim.length)

/-- `fact`, Trail.h:271-283. -/
def fact (A : ATrail) (p : Lit) : Option (ATrail × Bool) :=
  match A.value p with
  | none => none
  | some (some false) => some (A, false)
  | some (some true) => (A.setData p.var (none, 0)).map (·, true)
  | some none => ((A.setData p.var (none, 0)).bind fun A' => A'.setValue p).map (·, true)

/-- The loop of `backtrack`, Trail.h:287-289: `n` elements from position `i` on. -/
def unassign (trail : List Lit) : Nat → Nat → List (Option Bool) → Option (List (Option Bool))
  | _, 0, as => some as
  | i, n + 1, as =>
    match trail[i]? with
    | none => none
    | some l => if l.var < as.length then unassign trail (i + 1) n (as.set l.var none) else none

/-- `backtrack`, Trail.h:285-294. -/
def backtrack (A : ATrail) (lvl : Nat) : Option ATrail :=
  if lvl < A.lim.length then
    match A.lim[lvl]? with
    | none => none
    | some k =>
      (unassign A.trail k (A.trailSize - k) A.assigns).map fun as =>
        { A with assigns := as, qhead := if lvl = 0 then 0 else k, trailSize := k, lim := A.lim.take lvl }
  else some A

/-- `satisfies(begin, end)`, Trail.h:213-216 (`std::any_of` stops at the first true literal). -/
def satisfies (A : ATrail) : List Lit → Option Bool
  | [] => some false
  | l :: ls =>
    match A.value l with
    | none => none
    | some (some true) => some true
    | some _ => A.satisfies ls

/-- The loop in VariableElimination.h:144-153: the first stored clause that is not satisfied. -/
def firstUnsat (A : ATrail) : List Clause → Option (Option Clause)
  | [] => some none
  | c :: cs =>
    match A.satisfies c with
    | none => none
    | some true => A.firstUnsat cs
    | some false => some (some c)

/-- Body of `propagate_eliminated_variables`, VariableElimination.h:140-163, on the arrays. -/
def extendVar (A : ATrail) (v : Nat) (cs : List Clause) : Option ATrail :=
  match A.firstUnsat cs with
  | none => none
  | some (some c) =>
    match litOf v c with
    | some l => A.setValue l
    | none => extendDefault A v cs
  | some none => extendDefault A v cs
where
  /-- VariableElimination.h:155-162 -/
  extendDefault (A : ATrail) (v : Nat) (cs : List Clause) : Option ATrail :=
    match cs with
    | [] => none
    | c :: _ =>
      match litOf v c with
      | some l => A.setValue l.neg
      | none => some A

/-- `propagate_eliminated_variables`, VariableElimination.h:139-165, on the arrays. -/
def extendModel (cls : Nat → List Clause) : List Nat → ATrail → Option ATrail
  | [], A => some A
  | v :: vs, A => (A.extendVar v (cls v)).bind (extendModel cls vs)

end ATrail
end Candy
