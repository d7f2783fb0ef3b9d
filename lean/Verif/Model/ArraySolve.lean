import Verif.Model.ArraySearch
import Verif.Model.Solve

/-!
# The other steps of the main loop of `solve` on arrays

`Solver::solve` around `search` (Solver.h:446-476) without inprocessing: reset of the trail, rebuilding of
the watch lists after a reduction, propagation of the unit clauses. As in `Model/ArraySearch.lean`, `none`
is an access outside a vector.
-/

namespace Candy

/-- Lines 80-84 of Propagate.h. -/
def aAttachAll (store : List Cls) : List Nat → List (List Watcher) → Option (List (List Watcher))
  | [], ws => some ws
  | c :: cs, ws =>
    match store[c]? with
    | none => none
    | some cl => (aAttachLong ws c cl.lits).bind (aAttachAll store cs)

/-- `Propagate::reset`, Propagate.h:78-90: `Lit(n, true)` is the number `2 n + 1`. -/
def aResetWatch (nVars : Nat) (store : List Cls) (clauses : List Nat) : Option (List (List Watcher)) :=
  aAttachAll store clauses (List.replicate (2 * nVars + 1) [])

/-- Lines 122-127 of ClauseDatabase.h. -/
def aAttachBins (store : List Cls) : List Nat → List (List Watcher) → Option (List (List Watcher))
  | [], ws => some ws
  | c :: cs, ws =>
    match store[c]? with
    | none => none
    | some cl =>
      match cl.lits with
      | [x, y] => (aAttach ws c x y).bind (aAttachBins store cs)
      | _ => aAttachBins store cs ws

/-- `ClauseDatabase::reinitBinaryWatchers`, ClauseDatabase.h:119-128. -/
def aReinitBin (nVars : Nat) (store : List Cls) (clauses : List Nat) : Option (List (List Watcher)) :=
  aAttachBins store clauses (List.replicate (2 * nVars + 2) [])

/-- Solver.h:202-206: `trail.fact` for every unit clause (`first()` reads the first literal of the
clause); the flag says whether there is an empty clause. -/
def aFacts (store : List Cls) : List Nat → ATrail × Bool → Option (ATrail × Bool)
  | [], x => some x
  | c :: cs, (A, e) =>
    match store[c]? with
    | none => none
    | some cl =>
      match cl.lits with
      | [] => none
      | l :: _ =>
        match A.fact l with
        | none => none
        | some (A, ok) => aFacts store cs (A, e || !ok)

/-- Solver.h:214-219: `n` elements of the trail from position `i` on become unit clauses. -/
def aUnits : Nat → Nat → AMach → Option AMach
  | _, 0, m => some m
  | i, n + 1, m =>
    match m.T.get i with
    | none => none
    | some l =>
      match aCreate m [l] 0 with
      | none => none
      | some m =>
        match m.T.fact l with
        | none => none
        | some (A, _) => aUnits (i + 1) n { m with T := A }

/-- `propagateAndMaterializeUnitClauses`, Solver.h:200-222. The list has the addresses of the unit
clauses; the flag says whether there is an empty clause. -/
def aMaterialize (units : List Nat) (e : Bool) (m : AMach) : Option (AMach × Bool) :=
  match aFacts m.store units (m.T, e) with
  | none => none
  | some (A, true) => some ({ m with T := A }, true)
  | some (A, false) =>
    match aPropagateLoop m.bin (A.variables + 1) ⟨A, m.store, m.watch⟩ with
    | none => none
    | some (ps, some _) => some ({ m with T := ps.T, store := ps.store, watch := ps.watch }, true)
    | some (ps, none) =>
      (aUnits A.trailSize (ps.T.trailSize - A.trailSize)
        { m with T := ps.T, store := ps.store, watch := ps.watch }).map fun m => (m, false)

/-! ### Reduction of the clause database -/

/-- The addresses in a list whose clause has a property (`copy_if` and the loops of `collect`). -/
def aFilter (store : List Cls) (p : Cls → Bool) : List Nat → Option (List Nat)
  | [] => some []
  | c :: cs =>
    match store[c]? with
    | none => none
    | some cl => (aFilter store p cs).map fun r => if p cl then c :: r else r

/-- Skip the clauses of weight `w`, ReduceDB.h:76-80. -/
def aSkip (store : List Cls) (w : Nat) : List Nat → Option (List Nat)
  | [] => some []
  | c :: cs =>
    match store[c]? with
    | none => none
    | some cl => if cl.weight == w then aSkip store w cs else some (c :: cs)

/-- The clauses to be removed, ReduceDB.h:73-81. -/
def aVictims (keepMedian : Bool) (store : List Cls) (sorted : List Nat) : Option (List Nat) :=
  if 1 < sorted.length then
    let tail := sorted.drop (sorted.length / 2)
    if keepMedian then
      match tail with
      | [] => none
      | m :: _ =>
        match store[m]? with
        | none => none
        | some cl => aSkip store cl.weight tail
    else some tail
  else some []

/-- `ClauseDatabase::removeClause`, ClauseDatabase.h:203-214: the clause is marked; for a binary clause
the two lists of its watchers are filtered. -/
def aRemoveClause (x : List Cls × List (List Watcher)) (c : Nat) : Option (List Cls × List (List Watcher)) :=
  match x.1[c]? with
  | none => none
  | some cl =>
    let store := x.1.set c ⟨cl.lits, Cls.deletedWeight⟩
    match cl.lits with
    | [a, b] =>
      match x.2[a.neg.index]? with
      | none => none
      | some l1 =>
        match aSetList x.2 a.neg.index (l1.filter fun w => w.cref != c) with
        | none => none
        | some bin =>
          match bin[b.neg.index]? with
          | none => none
          | some l2 => (aSetList bin b.neg.index (l2.filter fun w => w.cref != c)).map fun bin => (store, bin)
    | _ => some (store, x.2)

/-- Lines 82-84 of ReduceDB.h. -/
def aRemoveAll : List Nat → List Cls × List (List Watcher) → Option (List Cls × List (List Watcher))
  | [], x => some x
  | c :: cs, x => (aRemoveClause x c).bind (aRemoveAll cs)

/-- `ReduceDB::reduce`, ReduceDB.h:62-92. -/
def aReduceDB (cfg : Config) (sort : List Nat → List Nat) (clauses : List Nat)
    (x : List Cls × List (List Watcher)) : Option (List Cls × List (List Watcher)) :=
  match aFilter x.1 (fun cl => decide (cfg.persistentLBD < cl.weight) && !cl.isDeleted) clauses with
  | none => none
  | some cands =>
    match aVictims cfg.keepMedian x.1 (sort cands) with
    | none => none
    | some victims => aRemoveAll victims x

/-- The clauses at the addresses in the list. -/
def aRead (store : List Cls) : List Nat → Option (List Cls)
  | [] => some []
  | c :: cs =>
    match store[c]? with
    | none => none
    | some cl => (aRead store cs).map (cl :: ·)

/-- `reorganize`, ClauseDatabase.h:236-241: the surviving clauses are copied to consecutive addresses (the
pages of the allocator are treated in `Model/Allocator.lean`) and the binary watchers are rebuilt. -/
def aReorganize (nVars : Nat) (store : List Cls) (clauses : List Nat) :
    Option (List Cls × List (List Watcher)) :=
  match aFilter store (fun cl => !cl.isDeleted && cl.lits.length != 1) clauses with
  | none => none
  | some long =>
    match aFilter store (fun cl => !cl.isDeleted && cl.lits.length == 1) clauses with
    | none => none
    | some units =>
      match aRead store (long ++ units) with
      | none => none
      | some st => (aReinitBin nVars st (List.range (long ++ units).length)).map fun bin => (st, bin)

/-- Solver.h:454-466 without inprocessing: reset of the trail, and, if it is due, the reduction with the
two rebuilds of watch lists. The result has the new vector of clauses. -/
def aReduceStep (cfg : Config) (trigger : Bool) (sort : List Nat → List Nat) (nVars : Nat)
    (clauses : List Nat) (m : AMach) : Option (AMach × List Nat) :=
  let m := { m with T := m.T.reset }
  if trigger then
    match aReduceDB cfg sort clauses (m.store, m.bin) with
    | none => none
    | some x =>
      match aReorganize nVars x.1 clauses with
      | none => none
      | some y =>
        (aResetWatch nVars y.1 (List.range y.1.length)).map fun w =>
          ({ m with store := y.1, bin := y.2, watch := w }, List.range y.1.length)
  else some (m, clauses)

/-- One iteration of the loop of `solve` without inprocessing, Solver.h:450-477. `clauses` is the vector of
clauses, `e` says whether there is an empty clause. -/
def aSolveRound (cfg : Config) (r : Round) (o : Nat → AChoice) (recalc : Bool) (nVars : Nat)
    (clauses : List Nat) (e : Bool) (m : AMach) : ASearchOut :=
  match aReduceStep cfg r.trigger r.sort nVars clauses m with
  | none => .ub
  | some (m, clauses) =>
    match aFilter m.store (fun cl => !cl.isDeleted && cl.lits.length == 1) clauses with
    | none => .ub
    | some units =>
      match aMaterialize units e m with
      | none => .ub
      | some (m, true) => .done m (some false) []
      | some (m, false) => aSearch recalc r.steps o m

end Candy
