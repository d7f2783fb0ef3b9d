import Verif.Model.ArraySolve

/-!
# Pre- and inprocessing on arrays

`SubsumptionClauseDatabase`, `Subsumption`, `VariableElimination`, `AsymmetricVariableReduction`
(src/candy/simplification) and the loop of `Solver::processClauseDatabase` once more, now on the vectors of
the code: the occurrence lists (indexed by variables), the vectors `frozen` and `eliminated_clauses`, the
clause store, the watch lists and the trail. Every access is checked; `none` stands for an access outside a
vector, a dangling or null pointer, or exhausted fuel. `Props/BoundsSimplify.lean` shows that it is simulated
by the model of `Model/Simplify.lean` and `Model/Solve.lean`.
-/

namespace Candy

/-! ### The clause database with occurrence lists -/

/-- `SubsumptionClauseDatabase`, SubsumptionClauseDatabase.h:34-45, with the part of `ClauseDatabase` it writes:
clause store, lists of binary clauses, vector of clauses, flag for the empty clause. -/
structure ASDB where
  store : List Cls
  bin : List (List Watcher)
  clauses : List Nat
  e : Bool
  obj : List (Option Nat)
  occ : List (List Nat)

/-- `addToOccurenceLists`, SubsumptionClauseDatabase.h:41-45, for the object with number `i`. -/
def aPushOcc (i : Nat) : List Lit → List (List Nat) → Option (List (List Nat))
  | [], occ => some occ
  | l :: ls, occ =>
    match occ[l.var]? with
    | none => none
    | some os => aPushOcc i ls (occ.set l.var (os ++ [i]))

namespace ASDB

/-- Placement of a new object, SubsumptionClauseDatabase.h:59-60, 103-104. -/
def addObj (a : ASDB) (c : Nat) : Option ASDB :=
  match a.store[c]? with
  | none => none
  | some cl => (aPushOcc a.obj.length cl.lits a.occ).map fun occ =>
      { a with obj := a.obj ++ [some c], occ := occ }

/-- The loop in SubsumptionClauseDatabase.h:58-61. -/
def addObjs : List Nat → ASDB → Option ASDB
  | [], a => some a
  | c :: cs, a =>
    match a.addObj c with
    | none => none
    | some a => addObjs cs a

/-- `init`, SubsumptionClauseDatabase.h:54-62 (`occurrences` is empty before, see `finalize` in lines 64-67). -/
def init (nVars : Nat) (store : List Cls) (bin : List (List Watcher)) (clauses : List Nat) (e : Bool) :
    Option ASDB :=
  addObjs clauses ⟨store, bin, clauses, e, [], List.replicate nVars []⟩

/-- `ClauseDatabase::createClause`, ClauseDatabase.h:183-201. -/
def createClause (a : ASDB) (ls : List Lit) (lbd : Nat) : Option ASDB :=
  let a' : ASDB := { a with
    store := a.store ++ [⟨ls, if ls.length < 3 then 0 else lbd % 65536⟩]
    clauses := a.clauses ++ [a.store.length]
    e := a.e || ls.isEmpty }
  match ls with
  | [x, y] => (aAttach a.bin a.store.length x y).map fun bin => { a' with bin := bin }
  | _ => some a'

/-- `create`, SubsumptionClauseDatabase.h:100-106. -/
def create (a : ASDB) (ls : List Lit) (lbd : Nat := 0) : Option ASDB :=
  match a.createClause ls lbd with
  | none => none
  | some a' => a'.addObj a.store.length

/-- `remove`, SubsumptionClauseDatabase.h:108-111. -/
def remove (a : ASDB) (i : Nat) : Option ASDB :=
  match a.obj[i]? with
  | some (some c) => (aRemoveClause (a.store, a.bin) c).map fun x =>
      { a with store := x.1, bin := x.2, obj := a.obj.set i none }
  | _ => none

/-- `ClauseDatabase::strengthenClause`, ClauseDatabase.h:216-223. -/
def strengthenClause (a : ASDB) (c : Nat) (l : Lit) : Option ASDB :=
  match a.store[c]? with
  | none => none
  | some cl =>
    let ls := cl.lits.filter (fun x => x != l)
    match a.createClause ls (min cl.weight ls.length) with
    | none => none
    | some a => (aRemoveClause (a.store, a.bin) c).map fun x => { a with store := x.1, bin := x.2 }

/-- `strengthen`, SubsumptionClauseDatabase.h:113-118. -/
def strengthen (a : ASDB) (i : Nat) (l : Lit) : Option ASDB :=
  match a.obj[i]? with
  | some (some c) =>
    match a.strengthenClause c l with
    | none => none
    | some a' =>
      match a'.occ[l.var]? with
      | none => none
      | some os => some { a' with
          obj := a'.obj.set i (some a.store.length)
          occ := a'.occ.set l.var (os.filter (fun j => j != i)) }
  | _ => none

end ASDB

/-- `std::remove_if`, SubsumptionClauseDatabase.h:71-73. -/
def aCleanList (obj : List (Option Nat)) : List Nat → Option (List Nat)
  | [] => some []
  | i :: is =>
    match obj[i]?, aCleanList obj is with
    | some none, some r => some r
    | some (some _), some r => some (i :: r)
    | _, _ => none

/-- The loop in SubsumptionClauseDatabase.h:70-74. -/
def aCleanLists (obj : List (Option Nat)) : List (List Nat) → Option (List (List Nat))
  | [] => some []
  | os :: rest =>
    match aCleanList obj os, aCleanLists obj rest with
    | some r, some rs => some (r :: rs)
    | _, _ => none

/-- `cleanup`, SubsumptionClauseDatabase.h:69-75. -/
def ASDB.cleanup (a : ASDB) : Option ASDB :=
  (aCleanLists a.obj a.occ).map fun occ => { a with occ := occ }

/-! ### Subsumption -/

/-- The candidate loop of `Subsumption::subsume(SubsumptionClause*)`, Subsumption.h:133-166. -/
def aSubsumeScan (before : Nat → Nat → Bool) (start : Nat) :
    List Nat → ASDB → Nat → Option (ASDB × ScanOut)
  | [], a, _ => some (a, .done)
  | o :: os, a, cur =>
    match a.obj[o]? with
    | none => none
    | some none => aSubsumeScan before start os a cur
    | some (some oc) =>
      if o = cur then aSubsumeScan before start os a cur
      else
        match a.obj[cur]? with
        | some (some cc) =>
          match a.store[cc]?, a.store[oc]? with
          | some k, some ko =>
            match subsumes k.lits ko.lits with
            | none => aSubsumeScan before start os a cur
            | some none =>
              if k.lits.length = ko.lits.length ∧
                  (k.weight < ko.weight ∨ (k.weight = ko.weight ∧ before cc oc = true)) then
                match a.remove o with
                | none => none
                | some a => aSubsumeScan before start os a cur
              else if ko.isPersistent && k.isLearnt then
                let j := a.obj.length
                match a.create k.lits with
                | none => none
                | some a =>
                  match a.remove start with
                  | none => none
                  | some a =>
                    match a.remove o with
                    | none => none
                    | some a => aSubsumeScan before start os a j
              else
                match a.remove o with
                | none => none
                | some a => aSubsumeScan before start os a cur
            | some (some l) =>
              if 1 < ko.lits.length then
                match a.strengthen o l.neg with
                | none => none
                | some a => some (a, .again o)
              else some (a, .unsat)
          | _, _ => none
        | _ => none

/-- `numOccurences`, SubsumptionClauseDatabase.h:77-79. -/
def aNumOcc (occ : List (List Nat)) (l : Lit) : Option Nat := occ[l.var]?.map List.length

/-- The loop of `std::min_element`, Subsumption.h:126-128, with the best literal so far. -/
def aMinLoop (occ : List (List Nat)) : List Lit → Lit → Option Lit
  | [], b => some b
  | x :: xs, b =>
    match aNumOcc occ x, aNumOcc occ b with
    | some m, some n => aMinLoop occ xs (if m < n then x else b)
    | _, _ => none

/-- `*std::min_element`, Subsumption.h:126-128. -/
def aMinOcc (occ : List (List Nat)) : List Lit → Option Lit
  | [] => none
  | l :: ls => aMinLoop occ ls l

/-- `Subsumption::subsume(SubsumptionClause*)`, Subsumption.h:122-169. -/
def aSubsumeClause (before : Nat → Nat → Bool) : Nat → ASDB → Nat → Option (ASDB × Bool)
  | 0, _, _ => none
  | fuel + 1, a, i =>
    match a.obj[i]? with
    | some (some c) =>
      match a.store[c]? with
      | none => none
      | some cl =>
        match aMinOcc a.occ cl.lits with
        | none => none
        | some best =>
          match a.occ[best.var]? with
          | none => none
          | some os =>
            match aSubsumeScan before i os a i with
            | none => none
            | some (a, .done) => some (a, true)
            | some (a, .unsat) => some (a, false)
            | some (a, .again j) => aSubsumeClause before fuel a j
    | _ => none

/-- The loop of `Subsumption::unit_resolution`, Subsumption.h:105-118. -/
def aUnitScan (i : Nat) (unit : Lit) : List Nat → ASDB → Option (ASDB × Bool)
  | [], a => some (a, true)
  | o :: os, a =>
    match a.obj[o]? with
    | none => none
    | some none => aUnitScan i unit os a
    | some (some oc) =>
      if o = i then aUnitScan i unit os a
      else
        match a.store[oc]? with
        | none => none
        | some cl =>
          if unit ∈ cl.lits then
            match a.remove o with
            | none => none
            | some a => aUnitScan i unit os a
          else if cl.lits.length = 1 then some (a, false)
          else
            match a.strengthen o unit.neg with
            | none => none
            | some a => aUnitScan i unit os a

/-- The loop body of `Subsumption::subsume()`, Subsumption.h:76-90. -/
def aSubsumeStep (before : Nat → Nat → Bool) (fuel : Nat) (a : ASDB) (i : Nat) : Option (ASDB × Bool) :=
  match a.obj[i]? with
  | none => none
  | some none => some (a, true)
  | some (some c) =>
    match a.store[c]? with
    | none => none
    | some cl =>
      match cl.lits with
      | [u] =>
        match a.occ[u.var]? with
        | none => none
        | some os => aUnitScan i u os a
      | _ => aSubsumeClause before fuel a i

/-- `Subsumption::subsume()`, Subsumption.h:73-93, over the objects `is`. -/
def aSubsumeList (before : Nat → Nat → Bool) (fuel : Nat) : List Nat → ASDB → Option (ASDB × Bool)
  | [], a => some (a, true)
  | i :: is, a =>
    match aSubsumeStep before fuel a i with
    | none => none
    | some (a, false) => some (a, false)
    | some (a, true) => aSubsumeList before fuel is a

/-- `Subsumption::subsume()`, Subsumption.h:73-93. -/
def aSubsumeAll (before : Nat → Nat → Bool) (fuel : Nat) (a : ASDB) : Option (ASDB × Bool) :=
  aSubsumeList before fuel (List.range a.obj.length) a

/-! ### Variable elimination -/

/-- The vectors of `VariableElimination`, VariableElimination.h:59-61. -/
structure AVE where
  vars : List Nat
  cls : List (List Clause)
  frozen : List Bool

/-- What variable elimination reads and writes. -/
structure AVES where
  s : ASDB
  ve : AVE
  T : ATrail

/-- Lines 190-199 of VariableElimination.h: the objects of the list that are not deleted, with their clauses,
split by the sign of the variable. -/
def aSplit (a : ASDB) (v : Nat) : List Nat → Option (List (Nat × Nat) × List (Nat × Nat))
  | [] => some ([], [])
  | i :: is =>
    match a.obj[i]? with
    | none => none
    | some none => aSplit a v is
    | some (some c) =>
      match a.store[c]?, aSplit a v is with
      | some cl, some r =>
        some (if (⟨v, false⟩ : Lit) ∈ cl.lits then ((i, c) :: r.1, r.2) else (r.1, (i, c) :: r.2))
      | _, _ => none

/-- The resolvent loop, VariableElimination.h:235-242. -/
def aCreateResolvents (v : Nat) : List (Nat × Nat) → ASDB → Option ASDB
  | [], a => some a
  | (p, n) :: rest, a =>
    match a.store[p]?, a.store[n]? with
    | some cp, some cn =>
      match merge cp.lits cn.lits v with
      | none => aCreateResolvents v rest a
      | some r =>
        match a.create r (min (min cp.weight cn.weight) ((r.length - 1) % 65536)) with
        | none => none
        | some a => aCreateResolvents v rest a
    | _, _ => none

/-- Removal loops, VariableElimination.h:244-251. -/
def aRemoveObjs : List Nat → ASDB → Option ASDB
  | [], a => some a
  | i :: is, a =>
    match a.remove i with
    | none => none
    | some a => aRemoveObjs is a

/-- Lines 232-233 of VariableElimination.h: the clauses are stored in `eliminated_clauses[variable]`. -/
def AVE.keep (ve : AVE) (v : Nat) (cs : List Clause) : Option AVE :=
  match ve.cls[v]? with
  | none => none
  | some old => some { ve with cls := ve.cls.set v (old ++ cs), vars := ve.vars ++ [v] }

/-- `eliminate(Var, pos, neg)`, VariableElimination.h:211-261. Simplification: the clauses are read once, before
the counting loop; `eliminiated_variables.push_back` (line 255) happens together with lines 232-233. -/
def aEliminateVar (clauseLim : Nat) (st : AVES) (v : Nat) (pos neg : List (Nat × Nat)) :
    Option (AVES × Bool) :=
  if pos.length = 0 ∧ neg.length = 0 then some (st, true)
  else
    match aRead st.s.store (pos.map Prod.snd), aRead st.s.store (neg.map Prod.snd) with
    | some ps, some ns =>
      match countResolvents v (pos.length + neg.length) clauseLim
          (pairs (ps.map Cls.lits) (ns.map Cls.lits)) 0 with
      | .unsat => some (st, false)
      | .skip => some (st, true)
      | .go =>
        match st.ve.keep v (ns.map Cls.lits ++ ps.map Cls.lits) with
        | none => none
        | some ve =>
          match aCreateResolvents v (pairs (pos.map Prod.snd) (neg.map Prod.snd)) st.s with
          | none => none
          | some s =>
            match aRemoveObjs (pos.map Prod.fst ++ neg.map Prod.fst) s with
            | none => none
            | some s =>
              match st.T.setDecisionVar v false with
              | none => none
              | some T => some (⟨s, ve, T⟩, true)
    | _, _ => none

/-- The body of the loop in `eliminate()`, VariableElimination.h:187-205. -/
def aEliminateStep (clauseLim : Nat) (st : AVES) (v : Nat) : Option (AVES × Bool) :=
  match st.T.assigns[v]? with
  | none => none
  | some (some _) => some (st, true)
  | some none =>
    match st.s.occ[v]? with
    | none => none
    | some os =>
      match aSplit st.s v os with
      | none => none
      | some (pos, neg) => aEliminateVar clauseLim st v pos neg

/-- The loop in `eliminate()`, VariableElimination.h:187-206. -/
def aEliminateList (clauseLim : Nat) : List Nat → AVES → Option (AVES × Bool)
  | [], st => some (st, true)
  | v :: vs, st =>
    match aEliminateStep clauseLim st v with
    | none => none
    | some (st, false) => some (st, false)
    | some (st, true) => aEliminateList clauseLim vs st

/-- `frozen[lit.var()] = true` for the assumptions, VariableElimination.h:75-77. -/
def aFreeze : List Lit → List Bool → Option (List Bool)
  | [], f => some f
  | l :: ls, f => if l.var < f.length then aFreeze ls (f.set l.var true) else none

/-- Lines 71-74 of VariableElimination.h. -/
def AVE.grow (ve : AVE) (n : Nat) : AVE :=
  if n > ve.frozen.length then
    { ve with frozen := ATrail.grow ve.frozen n false, cls := ATrail.grow ve.cls n [] }
  else ve

/-- `init`, VariableElimination.h:69-78. -/
def AVE.freeze (ve : AVE) (T : ATrail) : Option AVE :=
  (aFreeze T.assumptions (ve.grow T.variables).frozen).map fun f => { ve.grow T.variables with frozen := f }

/-- Candidate variables, VariableElimination.h:178-181: `n` variables from `v` on. -/
def AVE.candidates (ve : AVE) : Nat → Nat → Option (List Nat)
  | _, 0 => some []
  | v, n + 1 =>
    match ve.frozen[v]? with
    | none => none
    | some true => ve.candidates (v + 1) n
    | some false =>
      match ve.cls[v]?, ve.candidates (v + 1) n with
      | some cs, some r => some (if cs.isEmpty then v :: r else r)
      | _, _ => none

/-- `std::sort`, VariableElimination.h:183-185: the comparison reads the number of occurrences of the candidates,
so all of them need an occurrence list. -/
def aSort (order : (Nat → Nat) → List Nat → List Nat) (occ : List (List Nat)) (vs : List Nat) :
    Option (List Nat) :=
  if vs.all (fun v => decide (v < occ.length)) then some (order (fun v => (occ.getD v []).length) vs) else none

/-- `eliminate()`, VariableElimination.h:171-208. -/
def aEliminateAll (active : Bool) (clauseLim : Nat) (order : (Nat → Nat) → List Nat → List Nat)
    (st : AVES) : Option (AVES × Bool) :=
  match st.ve.freeze st.T with
  | none => none
  | some ve =>
    if active then
      match ve.candidates 0 ve.frozen.length with
      | none => none
      | some vs =>
        match aSort order st.s.occ vs with
        | none => none
        | some vs => aEliminateList clauseLim vs { st with ve := ve }
    else some ({ st with ve := ve }, true)

/-- `undo_elimination`, VariableElimination.h:114-129. The second loop compacts the vector in place. -/
def AVE.undo (ve : AVE) (T : ATrail) (v : Nat) : Option (List Clause × AVE × ATrail) :=
  match ve.cls[v]?, T.setDecisionVar v true with
  | some cs, some T =>
    some (cs, { ve with cls := ve.cls.set v [], vars := ve.vars.filter (fun w => w != v) }, T)
  | _, _ => none

/-- The loop of `reset`, VariableElimination.h:104-110. -/
def AVE.resetLoop : List Lit → AVE → ATrail → List Clause → Option (List Clause × AVE × ATrail)
  | [], ve, T, acc => some (acc, ve, T)
  | l :: ls, ve, T, acc =>
    if l.var < ve.frozen.length then
      match ve.cls[l.var]? with
      | none => none
      | some [] => AVE.resetLoop ls { ve with frozen := ve.frozen.set l.var true } T acc
      | some (_ :: _) =>
        match AVE.undo { ve with frozen := ve.frozen.set l.var true } T l.var with
        | none => none
        | some (cs, ve, T) => AVE.resetLoop ls ve T (acc ++ cs)
    else none

/-- `reset`, VariableElimination.h:95-112. -/
def AVE.reset (ve : AVE) (T : ATrail) : Option (List Clause × AVE × ATrail) :=
  AVE.resetLoop T.assumptions (AVE.grow { ve with frozen := ve.frozen.map fun _ => false } T.variables) T []

/-! ### Asymmetric variable reduction -/

/-- What asymmetric variable reduction reads and writes. -/
structure AAVS where
  s : ASDB
  watch : List (List Watcher)
  T : ATrail

/-- The decision loop, AsymmetricVariableReduction.h:68-75. -/
def aAsymDecide (v : Nat) : List Lit → ATrail → Option Lit → Option (ATrail × Option Lit)
  | [], A, l => some (A, l)
  | x :: xs, A, l =>
    if x.var = v then aAsymDecide v xs A (some x)
    else
      match A.assigns[x.var]? with
      | none => none
      | some (some _) => aAsymDecide v xs A (some x)
      | some none =>
        match A.decide x.neg with
        | none => none
        | some A => aAsymDecide v xs A l

/-- The loop of `reduce(Var)`, AsymmetricVariableReduction.h:64-91. -/
def aAsymScan (v : Nat) : List Nat → AAVS → Option (AAVS × Bool)
  | [], st => some (st, true)
  | o :: os, st =>
    match st.s.obj[o]? with
    | none => none
    | some none => aAsymScan v os st
    | some (some c) =>
      match st.s.store[c]? with
      | none => none
      | some cl =>
        match st.T.satisfies cl.lits with
        | none => none
        | some true => aAsymScan v os st
        | some false =>
          match aAsymDecide v cl.lits st.T.newDecisionLevel none with
          | none => none
          | some (T, l) =>
            match aPropagateLoop st.s.bin (T.variables + 1) ⟨T, st.s.store, st.watch⟩ with
            | none => none
            | some (ps, confl) =>
              match ps.T.backtrack 0 with
              | none => none
              | some T =>
                let st : AAVS := ⟨{ st.s with store := ps.store }, ps.watch, T⟩
                match confl with
                | none => aAsymScan v os st
                | some _ =>
                  if 1 < cl.lits.length then
                    match l with
                    | none => none
                    | some l =>
                      match st.s.strengthen o l with
                      | none => none
                      | some s => aAsymScan v os { st with s := s }
                  else some (st, false)

/-- `reduce()`, AsymmetricVariableReduction.h:117-124, over the variables `vs`. -/
def aAsymList : List Nat → AAVS → Option (AAVS × Bool)
  | [], st => some (st, true)
  | v :: vs, st =>
    match st.T.assigns[v]? with
    | none => none
    | some (some _) => aAsymList vs st
    | some none =>
      match st.s.occ[v]? with
      | none => none
      | some os =>
        match aAsymScan v os st with
        | none => none
        | some (st, false) => some (st, false)
        | some (st, true) => aAsymList vs st

/-- `reduce()`, AsymmetricVariableReduction.h:110-127. -/
def aAsymAll (active : Bool) (st : AAVS) : Option (AAVS × Bool) :=
  if active then aAsymList (List.range st.T.variables) st else some (st, true)

/-! ### The loop -/

/-- The vectors during `processClauseDatabase`: those of search, those of the clause database with occurrence
lists, and those of variable elimination. -/
structure AProc where
  m : AMach
  clauses : List Nat
  e : Bool
  obj : List (Option Nat)
  occ : List (List Nat)
  ve : AVE

namespace AProc

/-- View as a `SubsumptionClauseDatabase`. -/
def sdb (p : AProc) : ASDB := ⟨p.m.store, p.m.bin, p.clauses, p.e, p.obj, p.occ⟩

/-- Write back a `SubsumptionClauseDatabase`. -/
def setSdb (p : AProc) (a : ASDB) : AProc :=
  { p with m := { p.m with store := a.store, bin := a.bin }, clauses := a.clauses, e := a.e,
           obj := a.obj, occ := a.occ }

/-- `if (!ok) clause_db.emptyClause(); if (nTouched() > 0) augmented_database.cleanup();`, Solver.h:237-243,
248-253, 258-263. -/
def after (p : AProc) (ok clean : Bool) : Option AProc :=
  let p := { p with e := p.e || !ok }
  if clean then p.sdb.cleanup.map p.setSdb else some p

/-- `propagateAndMaterializeUnitClauses()`, Solver.h:200-222, 234, 245, 255: the unit clauses are collected
first, new clauses are entered in the vector of clauses. -/
def materialize (p : AProc) : Option AProc :=
  match aFilter p.m.store (fun cl => !cl.isDeleted && cl.lits.length == 1) p.clauses with
  | none => none
  | some units =>
    (aMaterialize units p.e p.m).map fun x =>
      { p with m := x.1, e := x.2
               clauses := p.clauses ++ List.range' p.m.store.length (x.1.store.length - p.m.store.length) }

/-- `subsumption.subsume()`, Solver.h:237-243. -/
def subsume (p : AProc) (r : PreRound) : Option AProc :=
  match aSubsumeAll r.before r.fuel p.sdb with
  | none => none
  | some (a, ok) => (p.setSdb a).after ok r.cleanup1

/-- Write back what asymmetric variable reduction changes. -/
def setAsym (p : AProc) (st : AAVS) : AProc :=
  let p := p.setSdb st.s
  { p with m := { p.m with watch := st.watch, T := st.T } }

/-- `reduction.reduce()`, Solver.h:248-253. -/
def reduce (cfg : Config) (p : AProc) (r : PreRound) : Option AProc :=
  match aAsymAll cfg.useAsymm ⟨p.sdb, p.m.watch, p.m.T⟩ with
  | none => none
  | some (st, ok) => (p.setAsym st).after ok r.cleanup2

/-- Write back what variable elimination changes. -/
def setElim (p : AProc) (st : AVES) : AProc :=
  let p := p.setSdb st.s
  { p with m := { p.m with T := st.T }, ve := st.ve }

/-- `elimination.eliminate()`, Solver.h:258-263. -/
def eliminate (cfg : Config) (p : AProc) (r : PreRound) : Option AProc :=
  match aEliminateAll cfg.useElim cfg.clauseLim r.order ⟨p.sdb, p.ve, p.m.T⟩ with
  | none => none
  | some (st, ok) => (p.setElim st).after ok r.cleanup3

/-- One iteration of the loop in `processClauseDatabase`, Solver.h:234-266; the flag is `false`
for `break`. -/
def round (cfg : Config) (p : AProc) (r : PreRound) : Option (AProc × Bool) :=
  match p.materialize with
  | none => none
  | some p =>
    if p.e then some (p, false)
    else
      match (p.subsume r).bind materialize with
      | none => none
      | some p =>
        if p.e then some (p, false)
        else
          match (p.reduce cfg r).bind materialize with
          | none => none
          | some p =>
            if p.e then some (p, false)
            else (p.eliminate cfg r).map fun p => (p, true)

/-- The loop of `processClauseDatabase`, Solver.h:233-267. -/
def rounds (cfg : Config) : List PreRound → AProc → Option AProc
  | [], p => some p
  | r :: rs, p =>
    match p.round cfg r with
    | none => none
    | some (p, false) => some p
    | some (p, true) => rounds cfg rs p

end AProc

/-- The vectors outside `processClauseDatabase`. -/
structure ASys where
  m : AMach
  clauses : List Nat
  e : Bool
  ve : AVE

/-- `processClauseDatabase`, Solver.h:225-270. -/
def aProcess (cfg : Config) (nVars : Nat) (rs : List PreRound) (x : ASys) : Option ASys :=
  match ASDB.init nVars x.m.store x.m.bin x.clauses x.e with
  | none => none
  | some a =>
    (AProc.rounds cfg rs ⟨x.m, x.clauses, x.e, a.obj, a.occ, x.ve⟩).map fun p => ⟨p.m, p.clauses, p.e, p.ve⟩

/-- Loop body of Solver.h:436-440: a clause of the correction set. -/
def aAddCorrections : List Clause → ASys → Option ASys
  | [], x => some x
  | c :: cs, x =>
    match aCreate x.m c 0 with
    | none => none
    | some m =>
      match aAttachLong m.watch x.m.store.length c with
      | none => none
      | some W => aAddCorrections cs { x with m := { m with watch := W }, e := x.e || c.isEmpty,
                                              clauses := x.clauses ++ [x.m.store.length] }

/-- Start of `solve`, Solver.h:430-440. -/
def aSolveStart (nVars : Nat) (x : ASys) : Option ASys :=
  match aResetWatch nVars x.m.store x.clauses with
  | none => none
  | some W =>
    match x.ve.reset x.m.T.reset with
    | none => none
    | some (cs, ve, T) => aAddCorrections cs { x with m := { x.m with watch := W, T := T }, ve := ve }

/-- `solve` up to the head of its main loop, Solver.h:430-446. -/
def aSolveEntry (cfg : Config) (nVars : Nat) (rs : List PreRound) (x : ASys) : Option ASys :=
  match aSolveStart nVars x with
  | none => none
  | some x =>
    if cfg.preprocessing then
      match aProcess cfg nVars rs x with
      | none => none
      | some x => (aResetWatch nVars x.m.store x.clauses).map fun W => { x with m := { x.m with watch := W } }
    else some x

/-- Solver.h:451-466 when inprocessing is due: reset of the trail, the simplification loop, and the two rebuilds of watch
lists. -/
def aInprocess (cfg : Config) (nVars : Nat) (rs : List PreRound) (x : ASys) : Option ASys :=
  match aProcess cfg nVars rs { x with m := { x.m with T := x.m.T.reset } } with
  | none => none
  | some x =>
    match aReorganize nVars x.m.store x.clauses with
    | none => none
    | some y =>
      (aResetWatch nVars y.1 (List.range y.1.length)).map fun W =>
        { x with m := { x.m with store := y.1, bin := y.2, watch := W }, clauses := List.range y.1.length }

/-- One iteration of the main loop with inprocessing, Solver.h:450-477, given the rounds of the simplification loop. -/
def aInprocessRound (cfg : Config) (rs : List PreRound) (steps : Nat) (o : Nat → AChoice) (recalc : Bool) (nVars : Nat)
    (x : ASys) : ASearchOut :=
  match aInprocess cfg nVars rs x with
  | none => .ub
  | some x =>
    match aFilter x.m.store (fun cl => !cl.isDeleted && cl.lits.length == 1) x.clauses with
    | none => .ub
    | some units =>
      match aMaterialize units x.e x.m with
      | none => .ub
      | some (m, true) => .done m (some false) []
      | some (m, false) => aSearch recalc steps o m

end Candy
