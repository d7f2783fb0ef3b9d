import Verif.Model.Search

/-!
# Model of the simplification code

`SubsumptionClauseDatabase`, `SubsumptionClause`, `Subsumption`, `VariableElimination` and
`AsymmetricVariableReduction` (src/candy/simplification). The result `none` of a function stands
for undefined behaviour (dereferencing a null or dangling pointer) or exhausted fuel.
-/

namespace Candy

/-- `SubsumptionClauseDatabase`, SubsumptionClauseDatabase.h:34-42. `obj` are the
`SubsumptionClause` objects in allocation order; an object is a clause pointer, `none` is the null
pointer of a deleted object. `occ v` is `occurrences[v]`, a list of objects.
Simplification: all objects are on one memory page (Memory.h), see `Model/PagedMemory.lean` for several pages; the stored abstraction is computed
on demand from the literals. -/
structure SDB where
  db : DB
  obj : List (Option Nat)
  occ : Nat → List Nat

namespace SDB

/-- Placement of a new object and `addToOccurenceLists`, SubsumptionClauseDatabase.h:41-45. -/
def addObj (s : SDB) (c : Nat) : SDB :=
  { s with
    obj := s.obj ++ [some c]
    occ := fun v => s.occ v ++ ((s.db.lits c).filter (fun l => l.var == v)).map
      (fun _ => s.obj.length) }

/-- `init`, SubsumptionClauseDatabase.h:54-62. Every clause of the database gets an object,
including clauses that are marked as deleted. -/
def init (db : DB) : SDB :=
  db.clauses.foldl addObj ⟨db, [], fun _ => []⟩

/-- `cleanup`, SubsumptionClauseDatabase.h:69-75. -/
def cleanup (s : SDB) : SDB :=
  { s with occ := fun v => (s.occ v).filter fun i => s.obj[i]? != some none }

/-- `create`, SubsumptionClauseDatabase.h:100-106. -/
def create (s : SDB) (ls : List Lit) (lbd : Nat := 0) : SDB :=
  let r := s.db.createClause ls lbd
  { s with db := r.1 }.addObj r.2

/-- `remove`, SubsumptionClauseDatabase.h:108-111. -/
def remove (s : SDB) (i : Nat) : Option SDB :=
  match s.obj[i]? with
  | some (some c) => some { s with db := s.db.removeClause c, obj := s.obj.set i none }
  | _ => none

/-- `strengthen`, SubsumptionClauseDatabase.h:113-118. -/
def strengthen (s : SDB) (i : Nat) (l : Lit) : Option SDB :=
  match s.obj[i]? with
  | some (some c) =>
    let r := s.db.strengthenClause c l
    some { db := r.1, obj := s.obj.set i (some r.2),
           occ := upd s.occ l.var ((s.occ l.var).filter (fun j => j != i)) }
  | _ => none

end SDB

/-! ### Subsumption -/

/-- `SubsumptionClause::calc_abstraction`, SubsumptionClause.h:33-38. -/
def abstraction (ls : List Lit) : BitVec 64 :=
  ls.foldl (fun a l => a ||| (1#64 <<< (l.var % 64))) 0#64

/-- The inner loop of `subsumes`, SubsumptionClause.h:128-136: `none` if neither `c` nor
(allowed once) its negation is found. -/
def subLit (c : Lit) (ret : Option Lit) : List Lit → Option (Option Lit)
  | [] => none
  | d :: ds =>
    if c = d then some ret
    else if ret = none ∧ c = d.neg then some (some c)
    else subLit c ret ds

/-- The outer loop of `subsumes`, SubsumptionClause.h:127-139. -/
def subLoop (other : List Lit) : List Lit → Option Lit → Option (Option Lit)
  | [], ret => some ret
  | c :: cs, ret =>
    match subLit c ret other with
    | none => none
    | some ret => subLoop other cs ret

/-- `SubsumptionClause::subsumes`, SubsumptionClause.h:124-145. `none` is `lit_Error`,
`some none` is `lit_Undef`. -/
def subsumes (this other : List Lit) : Option (Option Lit) :=
  if abstraction this &&& ~~~ abstraction other = 0#64 ∧ this.length ≤ other.length then
    subLoop other this none
  else none

/-- How a scan of the candidate list ends: finished, contradiction found, or continue with the
strengthened clause (the recursive call in Subsumption.h:158). -/
inductive ScanOut where
  | done
  | unsat
  | again (i : Nat)
deriving Repr, DecidableEq

/-- The candidate loop of `Subsumption::subsume(SubsumptionClause*)`, Subsumption.h:133-166.
`start` is `subsumption_clause`, `cur` is `clause`; `before` compares clause addresses. -/
def subsumeScan (before : Nat → Nat → Bool) (start : Nat) :
    List Nat → SDB → Nat → Option (SDB × ScanOut)
  | [], s, _ => some (s, .done)
  | o :: os, s, cur =>
    match s.obj[o]? with
    | none => none
    | some none => subsumeScan before start os s cur
    | some (some oc) =>
      if o = cur then subsumeScan before start os s cur
      else
        match s.obj[cur]? with
        | some (some cc) =>
          match subsumes (s.db.lits cc) (s.db.lits oc) with
          | none => subsumeScan before start os s cur
          | some none =>
            let wc := (s.db.store cc).weight
            let wo := (s.db.store oc).weight
            if (s.db.lits cc).length = (s.db.lits oc).length ∧
                (wc < wo ∨ (wc = wo ∧ before cc oc = true)) then
              match s.remove o with
              | none => none
              | some s => subsumeScan before start os s cur
            else if (s.db.store oc).isPersistent && (s.db.store cc).isLearnt then
              let j := s.obj.length
              match (s.create (s.db.lits cc)).remove start with
              | none => none
              | some s =>
                match s.remove o with
                | none => none
                | some s => subsumeScan before start os s j
            else
              match s.remove o with
              | none => none
              | some s => subsumeScan before start os s cur
          | some (some l) =>
            if 1 < (s.db.lits oc).length then
              match s.strengthen o l.neg with
              | none => none
              | some s => some (s, .again o)
            else some (s, .unsat)
        | _ => none

/-- `std::min_element` over the literals by number of occurrences, Subsumption.h:126-128: the
first minimal element; `none` for the empty clause (dereferencing the end iterator). -/
def minOcc (occ : Nat → List Nat) : List Lit → Option Lit
  | [] => none
  | l :: ls => some (ls.foldl (fun b x =>
      if (occ x.var).length < (occ b.var).length then x else b) l)

/-- `Subsumption::subsume(SubsumptionClause*)`, Subsumption.h:122-169. -/
def subsumeClause (before : Nat → Nat → Bool) : Nat → SDB → Nat → Option (SDB × Bool)
  | 0, _, _ => none
  | fuel + 1, s, i =>
    match s.obj[i]? with
    | some (some c) =>
      match minOcc s.occ (s.db.lits c) with
      | none => none
      | some best =>
        match subsumeScan before i (s.occ best.var) s i with
        | none => none
        | some (s, .done) => some (s, true)
        | some (s, .unsat) => some (s, false)
        | some (s, .again j) => subsumeClause before fuel s j
    | _ => none

/-- The loop of `Subsumption::unit_resolution`, Subsumption.h:105-118. -/
def unitScan (i : Nat) (unit : Lit) : List Nat → SDB → Option (SDB × Bool)
  | [], s => some (s, true)
  | o :: os, s =>
    match s.obj[o]? with
    | none => none
    | some none => unitScan i unit os s
    | some (some oc) =>
      if o = i then unitScan i unit os s
      else if unit ∈ s.db.lits oc then
        match s.remove o with
        | none => none
        | some s => unitScan i unit os s
      else if (s.db.lits oc).length = 1 then some (s, false)
      else
        match s.strengthen o unit.neg with
        | none => none
        | some s => unitScan i unit os s

/-- The loop body of `Subsumption::subsume()`, Subsumption.h:76-90. -/
def subsumeStep (before : Nat → Nat → Bool) (fuel : Nat) (s : SDB) (i : Nat) :
    Option (SDB × Bool) :=
  match s.obj[i]? with
  | none => none
  | some none => some (s, true)
  | some (some c) =>
    match s.db.lits c with
    | [u] => unitScan i u (s.occ u.var) s
    | _ => subsumeClause before fuel s i

/-- `Subsumption::subsume()`, Subsumption.h:73-93, over the objects `is`. -/
def subsumeList (before : Nat → Nat → Bool) (fuel : Nat) :
    List Nat → SDB → Option (SDB × Bool)
  | [], s => some (s, true)
  | i :: is, s =>
    match subsumeStep before fuel s i with
    | none => none
    | some (s, false) => some (s, false)
    | some (s, true) => subsumeList before fuel is s

/-- `Subsumption::subsume()`, Subsumption.h:73-93. The iterator caches the end of the memory page
(Memory.h), so objects created during the loop are not visited. -/
def subsumeAll (before : Nat → Nat → Bool) (fuel : Nat) (s : SDB) : Option (SDB × Bool) :=
  subsumeList before fuel (List.range s.obj.length) s

/-! ### Variable elimination -/

/-- State of `VariableElimination`, VariableElimination.h:57-61. -/
structure VE where
  /-- `eliminiated_variables` -/
  vars : List Nat
  /-- `eliminated_clauses` -/
  cls : Nat → List Clause
  frozen : Nat → Bool

namespace VE

def empty : VE := ⟨[], fun _ => [], fun _ => false⟩

/-- `is_eliminated`, VariableElimination.h:135-137 (index in range). -/
def isEliminated (ve : VE) (v : Nat) : Bool := !(ve.cls v).isEmpty

end VE

/-- First loop of `merge`, VariableElimination.h:273-283. -/
def mergeQ (ps : List Lit) (v : Nat) : List Lit → Option (List Lit)
  | [] => some []
  | q :: qs =>
    if q.var = v then mergeQ ps v qs
    else
      match ps.find? (fun p => p.var == q.var) with
      | none => (mergeQ ps v qs).map (q :: ·)
      | some p => if p = q.neg then none else mergeQ ps v qs

/-- `merge(ps, qs, v, out_clause)`, VariableElimination.h:264-292; `none` is the return value
`false` (tautological resolvent). -/
def merge (P Q : List Lit) (v : Nat) : Option (List Lit) :=
  let ps := if P.length < Q.length then Q else P
  let qs := if P.length < Q.length then P else Q
  (mergeQ ps v qs).map (· ++ ps.filter (fun p => p.var != v))

/-- First loop of `merge(ps, qs, v, size)`, VariableElimination.h:305-315. -/
def mergeSizeQ (ps : List Lit) (v : Nat) : List Lit → Nat → Option Nat
  | [], n => some n
  | q :: qs, n =>
    if q.var = v then mergeSizeQ ps v qs n
    else
      match ps.find? (fun p => p.var == q.var) with
      | none => mergeSizeQ ps v qs (n + 1)
      | some p => if p = q.neg then none else mergeSizeQ ps v qs n

/-- `merge(ps, qs, v, size)`, VariableElimination.h:295-318. -/
def mergeSize (P Q : List Lit) (v : Nat) : Option Nat :=
  let ps := if P.length < Q.length then Q else P
  let qs := if P.length < Q.length then P else Q
  mergeSizeQ ps v qs (ps.length - 1)

/-- Outcome of the counting loop, VariableElimination.h:218-230. -/
inductive CountOut where
  | unsat
  | skip
  | go
deriving Repr, DecidableEq

/-- The counting loop, VariableElimination.h:218-230, over the pairs of clauses. -/
def countResolvents (v bound clauseLim : Nat) : List (List Lit × List Lit) → Nat → CountOut
  | [], _ => .go
  | (p, n) :: rest, cnt =>
    match mergeSize p n v with
    | none => countResolvents v bound clauseLim rest cnt
    | some size =>
      if size = 0 then .unsat
      else if cnt + 1 > bound ∨ (clauseLim > 0 ∧ size > clauseLim) then .skip
      else countResolvents v bound clauseLim rest (cnt + 1)

/-- The resolvent loop, VariableElimination.h:235-242, over pairs of clause identifiers. -/
def createResolvents (v : Nat) : List (Nat × Nat) → SDB → SDB
  | [], s => s
  | (p, n) :: rest, s =>
    match merge (s.db.lits p) (s.db.lits n) v with
    | none => createResolvents v rest s
    | some r =>
      let lbd := min (min (s.db.store p).weight (s.db.store n).weight) ((r.length - 1) % 65536)
      createResolvents v rest (s.create r lbd)

/-- Removal loops, VariableElimination.h:244-251. -/
def removeAll : List Nat → SDB → Option SDB
  | [], s => some s
  | i :: is, s =>
    match s.remove i with
    | none => none
    | some s => removeAll is s

/-- The occurrences of a variable that are not deleted, with their clause identifiers
(VariableElimination.h:187-197). `none` entries stand for dangling objects. -/
def liveOcc (s : SDB) : List Nat → Option (List (Nat × Nat))
  | [] => some []
  | i :: is =>
    match s.obj[i]?, liveOcc s is with
    | some (some c), some r => some ((i, c) :: r)
    | some none, some r => some r
    | _, _ => none

/-- All pairs in the order of the nested loops. -/
def pairs {α : Type} (xs ys : List α) : List (α × α) :=
  xs.flatMap fun x => ys.map fun y => (x, y)

/-- State passed through variable elimination. -/
structure VES where
  s : SDB
  ve : VE
  T : Trail

/-- `eliminate(Var, pos, neg)`, VariableElimination.h:211-261. `pos` and `neg` hold objects with
their clause identifiers. -/
def eliminateVar (clauseLim : Nat) (st : VES) (v : Nat) (pos neg : List (Nat × Nat)) :
    Option (VES × Bool) :=
  if pos.length = 0 ∧ neg.length = 0 then some (st, true)
  else
    let lits := fun (x : Nat × Nat) => st.s.db.lits x.2
    match countResolvents v (pos.length + neg.length) clauseLim
        (pairs (pos.map lits) (neg.map lits)) 0 with
    | .unsat => some (st, false)
    | .skip => some (st, true)
    | .go =>
      let ve := { st.ve with
        vars := st.ve.vars ++ [v]
        cls := upd st.ve.cls v (st.ve.cls v ++ neg.map lits ++ pos.map lits) }
      let s := createResolvents v (pairs (pos.map Prod.snd) (neg.map Prod.snd)) st.s
      match removeAll (pos.map Prod.fst ++ neg.map Prod.fst) s with
      | none => none
      | some s => some (⟨s, ve, st.T.setDecisionVar v false⟩, true)

/-- The body of the loop in `eliminate()`, VariableElimination.h:187-205. -/
def eliminateStep (clauseLim : Nat) (st : VES) (v : Nat) : Option (VES × Bool) :=
  if st.T.assigns v = none then
    match liveOcc st.s (st.s.occ v) with
    | none => none
    | some os =>
      let pos := os.filter fun x => decide ((⟨v, false⟩ : Lit) ∈ st.s.db.lits x.2)
      let neg := os.filter fun x => !decide ((⟨v, false⟩ : Lit) ∈ st.s.db.lits x.2)
      eliminateVar clauseLim st v pos neg
  else some (st, true)

/-- The loop in `eliminate()`, VariableElimination.h:187-206. -/
def eliminateList (clauseLim : Nat) : List Nat → VES → Option (VES × Bool)
  | [], st => some (st, true)
  | v :: vs, st =>
    match eliminateStep clauseLim st v with
    | none => none
    | some (st, false) => some (st, false)
    | some (st, true) => eliminateList clauseLim vs st

/-- `init`, VariableElimination.h:69-78 (freeze the assumption variables). -/
def VE.freeze (ve : VE) (T : Trail) : VE :=
  { ve with frozen := T.assumptions.foldl (fun f l => upd f l.var true) ve.frozen }

/-- Candidate variables, VariableElimination.h:178-180. -/
def VE.candidates (ve : VE) (T : Trail) : List Nat :=
  (List.range T.nVars).filter fun v => !ve.frozen v && !ve.isEliminated v

/-- `eliminate()`, VariableElimination.h:171-208. `order` is what `std::sort` does to the candidates
for the given numbers of occurrences. -/
def eliminateAll (active : Bool) (clauseLim : Nat) (order : (Nat → Nat) → List Nat → List Nat)
    (st : VES) : Option (VES × Bool) :=
  let st := { st with ve := st.ve.freeze st.T }
  if active then
    eliminateList clauseLim (order (fun v => (st.s.occ v).length) (st.ve.candidates st.T)) st
  else some (st, true)

/-- `undo_elimination`, VariableElimination.h:114-129: restored clauses, new state. -/
def VE.undo (ve : VE) (T : Trail) (v : Nat) : List Clause × VE × Trail :=
  (ve.cls v,
   { ve with cls := upd ve.cls v [], vars := ve.vars.filter (fun w => w != v) },
   T.setDecisionVar v true)

/-- The loop of `reset`, VariableElimination.h:103-110. -/
def VE.resetLoop : List Lit → VE → Trail → List Clause → List Clause × VE × Trail
  | [], ve, T, acc => (acc, ve, T)
  | l :: ls, ve, T, acc =>
    let ve := { ve with frozen := upd ve.frozen l.var true }
    if ve.isEliminated l.var then
      let r := ve.undo T l.var
      VE.resetLoop ls r.2.1 r.2.2 (acc ++ r.1)
    else VE.resetLoop ls ve T acc

/-- `reset`, VariableElimination.h:95-112: the correction set and the new state. -/
def VE.reset (ve : VE) (T : Trail) : List Clause × VE × Trail :=
  VE.resetLoop T.assumptions { ve with frozen := fun _ => false } T []

/-- The literal of variable `v` in a clause (the loops in VariableElimination.h:145-150 and
156-161 act once for clauses that mention a variable at most once). -/
def litOf (v : Nat) (c : Clause) : Option Lit := c.find? fun l => l.var == v

/-- Body of `propagate_eliminated_variables`, VariableElimination.h:140-163, for one variable.
`none` if there is no stored clause (out-of-bounds access to `eliminated_clauses[var][0]`). -/
def extendVar (T : Trail) (v : Nat) (cs : List Clause) : Option Trail :=
  match cs.find? (fun c => !c.any fun l => T.satisfies l) with
  | some c =>
    match litOf v c with
    | some l => some (T.setValue l)
    | none => extendDefault T v cs
  | none => extendDefault T v cs
where
  /-- VariableElimination.h:155-162 -/
  extendDefault (T : Trail) (v : Nat) (cs : List Clause) : Option Trail :=
    match cs with
    | [] => none
    | c :: _ =>
      match litOf v c with
      | some l => some (T.setValue l.neg)
      | none => some T

/-- `propagate_eliminated_variables`, VariableElimination.h:139-165, given the eliminated variables
in reverse order. -/
def extendModel (cls : Nat → List Clause) : List Nat → Trail → Option Trail
  | [], T => some T
  | v :: vs, T =>
    match extendVar T v (cls v) with
    | none => none
    | some T => extendModel cls vs T

/-! ### Asymmetric variable reduction -/

/-- State passed through asymmetric variable reduction. -/
structure AVS where
  s : SDB
  watch : Lit → List Watcher
  T : Trail

/-- The decision loop, AsymmetricVariableReduction.h:70-77: the last literal that is not decided
(`none` is `lit_Undef`). -/
def asymDecide (v : Nat) : List Lit → Trail → Option Lit → Trail × Option Lit
  | [], T, l => (T, l)
  | x :: xs, T, l =>
    if x.var ≠ v ∧ T.assigns x.var = none then asymDecide v xs (T.decide x.neg) l
    else asymDecide v xs T (some x)

/-- The loop of `reduce(Var)`, AsymmetricVariableReduction.h:64-91. -/
def asymScan (v : Nat) : List Nat → AVS → Option (AVS × Bool)
  | [], st => some (st, true)
  | o :: os, st =>
    match st.s.obj[o]? with
    | none => none
    | some none => asymScan v os st
    | some (some c) =>
      let ls := st.s.db.lits c
      if ls.any (fun l => st.T.satisfies l) then asymScan v os st
      else
        let r := asymDecide v ls st.T.newDecisionLevel none
        match propagateLoop st.s.db.bin (st.s.db.nVars + 1) ⟨st.s.db.store, st.watch, r.1⟩ with
        | none => none
        | some (ps, confl) =>
          let st : AVS := ⟨{ st.s with db := { st.s.db with store := ps.store } }, ps.watch,
            ps.T.backtrack 0⟩
          match confl with
          | none => asymScan v os st
          | some _ =>
            if 1 < ls.length then
              match r.2 with
              | none => none
              | some l =>
                match st.s.strengthen o l with
                | none => none
                | some s => asymScan v os { st with s := s }
            else some (st, false)

/-- `reduce()`, AsymmetricVariableReduction.h:110-127, over the variables `vs`. -/
def asymList : List Nat → AVS → Option (AVS × Bool)
  | [], st => some (st, true)
  | v :: vs, st =>
    if st.T.assigns v = none then
      match asymScan v (st.s.occ v) st with
      | none => none
      | some (st, false) => some (st, false)
      | some (st, true) => asymList vs st
    else asymList vs st

/-- `reduce()`, AsymmetricVariableReduction.h:110-127. -/
def asymAll (active : Bool) (st : AVS) : Option (AVS × Bool) :=
  if active then asymList (List.range st.T.nVars) st else some (st, true)

end Candy
