import Verif.Model.TrailArrays
import Verif.Model.Stamp

/-!
# The search loop on arrays

`Solver::search` with propagation, conflict analysis, learning and backtracking once more, now on the
vectors of the code: `Trail` (Trail.h), the two families of watch lists (indexed by the number of a
literal), the clause store and the two stamp arrays. Every access to a vector is checked, `none` stands for
an access outside of it, for dereferencing an invalid clause pointer or an invalidated iterator.
`Props/Bounds.lean` shows that it is simulated by the model of `Model/Search.lean`.
-/

namespace Candy

/-- `Lit::operator int`, SolverTypes.h: the number of a literal. -/
def Lit.index (l : Lit) : Nat := 2 * l.var + if l.sign then 1 else 0

/-- `std::numeric_limits<uint32_t>::max()`, the type of both stamps (Trail.h:88, ConflictAnalysis.h:61). -/
def stampMax : Nat := 4294967295

/-! ### Propagation -/

/-- `propagate_binary_clauses`, Propagate.h:106-118. -/
def aPropBinary : List Watcher → ATrail → Option (ATrail × Option Nat)
  | [], A => some (A, none)
  | w :: ws, A =>
    match A.value w.blocker with
    | none => none
    | some (some false) => some (A, some w.cref)
    | some none => (A.propagate w.blocker w.cref).bind (aPropBinary ws)
    | some (some true) => aPropBinary ws A

/-- What propagation writes. -/
structure APS where
  T : ATrail
  store : List Cls
  watch : List (List Watcher)

/-- The inner loop, Propagate.h:150-156: `k` is the position of the first literal of the list. -/
def aFindWatch (A : ATrail) : List Lit → Nat → Option (Option Nat)
  | [], _ => some none
  | l :: ls, k =>
    match A.value l with
    | none => none
    | some (some false) => aFindWatch A ls (k + 1)
    | some _ => some (some k)

/-- Replace the watch list with number `i`. -/
def aSetList (ws : List (List Watcher)) (i : Nat) (l : List Watcher) : Option (List (List Watcher)) :=
  if i < ws.length then some (ws.set i l) else none

/-- `watchers[i].emplace_back(w)`. -/
def aPush (ws : List (List Watcher)) (i : Nat) (w : Watcher) : Option (List (List Watcher)) :=
  match ws[i]? with
  | none => none
  | some l => some (ws.set i (l ++ [w]))

/-- `propagate_watched_clauses`, Propagate.h:131-175. The list of `p` is traversed by iterators: appending
to that same list (`second.neg = p`) would invalidate them. -/
def aPropWatched (p : Lit) : List Watcher → List Watcher → APS → Option (APS × Option Nat)
  | [], kept, s => (aSetList s.watch p.index kept).map fun W => ({ s with watch := W }, none)
  | w :: ws, kept, s =>
    match s.T.value w.blocker with
    | none => none
    | some (some true) => aPropWatched p ws (kept ++ [w]) s
    | some val =>
      match s.store[w.cref]? with
      | none => none
      | some cl =>
        let ls := fixFirst p cl.lits
        let s := { s with store := s.store.set w.cref { cl with lits := ls } }
        match ls with
        | first :: _ :: _ =>
          match (if w.blocker ≠ first then s.T.value first else some val) with
          | none => none
          | some (some true) => aPropWatched p ws (kept ++ [⟨w.cref, first⟩]) s
          | some val =>
            match aFindWatch s.T (ls.drop 2) 2 with
            | none => none
            | some (some k) =>
              let ls' := swapAt ls 1 k
              match ls'[1]? with
              | none => none
              | some second =>
                if second.neg = p then none
                else
                  match aPush s.watch second.neg.index ⟨w.cref, first⟩ with
                  | none => none
                  | some W =>
                    aPropWatched p ws kept
                      { s with store := s.store.set w.cref { cl with lits := ls' }, watch := W }
            | some none =>
              if val = some false then
                (aSetList s.watch p.index (kept ++ ⟨w.cref, first⟩ :: ws)).map fun W =>
                  ({ s with watch := W }, some w.cref)
              else
                match s.T.propagate first w.cref with
                | none => none
                | some T => aPropWatched p ws (kept ++ [⟨w.cref, first⟩]) { s with T := T }
        | _ => none

/-- `propagate`, Propagate.h:177-193. -/
def aPropagateLoop (bin : List (List Watcher)) : Nat → APS → Option (APS × Option Nat)
  | 0, _ => none
  | fuel + 1, s =>
    if s.T.qhead < s.T.trailSize then
      match s.T.get s.T.qhead with
      | none => none
      | some p =>
        match bin[p.index]? with
        | none => none
        | some bs =>
          match aPropBinary bs { s.T with qhead := s.T.qhead + 1 } with
          | none => none
          | some (T, some c) => some ({ s with T := T }, some c)
          | some (T, none) =>
            match s.watch[p.index]? with
            | none => none
            | some ws =>
              match aPropWatched p ws [] { s with T := T } with
              | none => none
              | some (s, some c) => some (s, some c)
              | some (s, none) => aPropagateLoop bin fuel s
    else some (s, none)

/-! ### Conflict analysis -/

/-- Local state of `analyze`, with the stamp array. -/
structure AAS where
  stamp : Stamp
  pathC : Int
  learnt : List Lit
  involved : List Nat

/-- The `for (Lit lit : *confl)` loop, ConflictAnalysis.h:177-190. -/
def aScanClause (A : ATrail) (a : Option Lit) : List Lit → AAS → Option AAS
  | [], st => some st
  | l :: ls, st =>
    if a = some l then aScanClause A a ls st
    else
      match st.stamp.isStamped l.var with
      | none => none
      | some true => aScanClause A a ls st
      | some false =>
        match A.level l.var, st.stamp.set l.var with
        | some lv, some stamp =>
          let st := { st with stamp := stamp }
          aScanClause A a ls
            (if lv ≥ A.lim.length then { st with pathC := st.pathC + 1 }
             else if lv > 0 then { st with learnt := st.learnt ++ [l] }
             else st)
        | _, _ => none

/-- `while (!stamp[trail_iterator->var()]) ++trail_iterator;`, ConflictAnalysis.h:192-195. The iterator
points to `trail[i - 1]`; `i = 0` is `rend()`. -/
def aSeek (A : ATrail) (st : Stamp) : Nat → Option (Nat × Lit)
  | 0 => none
  | i + 1 =>
    match A.get i with
    | none => none
    | some l =>
      match st.isStamped l.var with
      | none => none
      | some true => some (i + 1, l)
      | some false => aSeek A st i

/-- The first-UIP loop, ConflictAnalysis.h:167-201. -/
def aAnalyzeLoop (store : List Cls) (A : ATrail) :
    Nat → Nat → Option Lit → Nat → AAS → Option (Lit × AAS)
  | 0, _, _, _, _ => none
  | fuel + 1, confl, a, i, st =>
    match store[confl]? with
    | none => none
    | some cl =>
      match aScanClause A a cl.lits { st with involved := st.involved ++ [confl] } with
      | none => none
      | some st =>
        match aSeek A st.stamp i with
        | none => none
        | some (i, p) =>
          match st.stamp.unset p.var, A.reason p.var with
          | some stamp, some r =>
            let st := { st with stamp := stamp, pathC := st.pathC - 1 }
            if st.pathC > 0 then
              match r with
              | none => none
              | some c => aAnalyzeLoop store A fuel c (some p) i st
            else some (p, st)
          | _, _ => none

/-- `abstractLevel`, ConflictAnalysis.h:70-72. -/
def aAbstractLevel (A : ATrail) (v : Nat) : Option Nat := (A.level v).map fun l => 1 <<< (l % 64)

/-- Local state of `litRedundant`. -/
structure ARS where
  stamp : Stamp
  stack : List Nat
  clear : List Nat

/-- The loop in ConflictAnalysis.h:94-96. -/
def aUnstamp : List Nat → Stamp → Option Stamp
  | [], st => some st
  | v :: vs, st =>
    match st.unset v with
    | none => none
    | some st => aUnstamp vs st

/-- The inner loop of `litRedundant`, ConflictAnalysis.h:86-100. -/
def aRedScan (A : ATrail) (absl : Nat) : List Lit → ARS → Option (ARS × Bool)
  | [], r => some (r, true)
  | l :: ls, r =>
    match r.stamp.isStamped l.var, A.level l.var, A.reason l.var, aAbstractLevel A l.var with
    | some st, some lv, some rs, some al =>
      if st = false ∧ lv > 0 then
        if rs.isSome ∧ (al &&& absl) ≠ 0 then
          match r.stamp.set l.var with
          | none => none
          | some stamp => aRedScan A absl ls ⟨stamp, l.var :: r.stack, l.var :: r.clear⟩
        else
          match aUnstamp r.clear r.stamp with
          | none => none
          | some stamp => some (⟨stamp, r.stack, []⟩, false)
      else aRedScan A absl ls r
    | _, _, _, _ => none

/-- `litRedundant`, ConflictAnalysis.h:76-105. -/
def aLitRedundant (store : List Cls) (A : ATrail) (absl : Nat) : Nat → ARS → Option (Stamp × Bool)
  | 0, _ => none
  | fuel + 1, r =>
    match r.stack with
    | [] => some (r.stamp, true)
    | v :: rest =>
      match A.reason v with
      | none => none
      | some none => none
      | some (some c) =>
        match store[c]? with
        | none => none
        | some cl =>
          match aRedScan A absl cl.lits { r with stack := rest } with
          | none => none
          | some (r', false) => some (r'.stamp, false)
          | some (r', true) => aLitRedundant store A absl fuel r'

/-- The main loop of `minimization`, ConflictAnalysis.h:116-126. -/
def aMinimizeLoop (store : List Cls) (A : ATrail) (absl : Nat) :
    List Lit → List Lit → Stamp → Option (List Lit × Stamp)
  | [], out, st => some (out, st)
  | l :: ls, out, st =>
    match A.reason l.var with
    | none => none
    | some none => aMinimizeLoop store A absl ls (out ++ [l]) st
    | some (some _) =>
      match aLitRedundant store A absl (A.trailSize + 2) ⟨st, [l.var], []⟩ with
      | none => none
      | some (st', true) => aMinimizeLoop store A absl ls out st'
      | some (st', false) => aMinimizeLoop store A absl ls (out ++ [l]) st'

/-- ConflictAnalysis.h:111-114. -/
def aAbstractLevels (A : ATrail) : List Lit → Nat → Option Nat
  | [], a => some a
  | l :: ls, a =>
    match aAbstractLevel A l.var with
    | none => none
    | some x => aAbstractLevels A ls (a ||| x)

/-- `minimization`, ConflictAnalysis.h:107-128. -/
def aMinimization (store : List Cls) (A : ATrail) (learnt : List Lit) (st : Stamp) :
    Option (List Lit × Stamp) :=
  match aAbstractLevels A learnt 0 with
  | none => none
  | some absl => aMinimizeLoop store A absl learnt [] st

/-- The first loop of `minimizationWithBinaryResolution`, ConflictAnalysis.h:137-142. -/
def aStampBinary (A : ATrail) : List Watcher → Stamp → Option Stamp
  | [], st => some st
  | w :: ws, st =>
    match A.value w.blocker with
    | none => none
    | some (some true) =>
      match st.set w.blocker.var with
      | none => none
      | some st => aStampBinary A ws st
    | some _ => aStampBinary A ws st

/-- `std::remove_if`, ConflictAnalysis.h:145. -/
def aRemoveStamped (st : Stamp) : List Lit → Option (List Lit)
  | [] => some []
  | l :: ls =>
    match st.isStamped l.var, aRemoveStamped st ls with
    | some b, some r => some (if b then r else l :: r)
    | _, _ => none

/-- `minimizationWithBinaryResolution`, ConflictAnalysis.h:133-148 (the flag `minimize` only saves the
second loop). -/
def aMinimizeBinary (bin : List (List Watcher)) (A : ATrail) (first : Lit) (learnt : List Lit)
    (st : Stamp) : Option (List Lit × Stamp) :=
  match bin[first.neg.index]? with
  | none => none
  | some ws =>
    match aStampBinary A ws (st.clear stampMax) with
    | none => none
    | some st => (aRemoveStamped st learnt).map (·, st)

/-- `analyze`, ConflictAnalysis.h:167-209. The counter of the loop ranges over the trail. -/
def aAnalyze (store : List Cls) (bin : List (List Watcher)) (A : ATrail) (confl : Nat) (st : Stamp) :
    Option (Lit × List Lit × List Nat × Stamp) :=
  match aAnalyzeLoop store A (A.trailSize + 1) confl none A.trailSize ⟨st.clear stampMax, 0, [], []⟩ with
  | none => none
  | some (p, r) =>
    match aMinimization store A r.learnt r.stamp with
    | none => none
    | some (ls, st) =>
      match aMinimizeBinary bin A p.neg ls st with
      | none => none
      | some (ls, st) => some (p.neg, ls, r.involved, st)

/-- The loop of `computeLBD`, Trail.h:305-312. -/
def aLbdLoop (A : ATrail) : List Lit → Stamp → Nat → Option (Nat × Stamp)
  | [], s, n => some (n, s)
  | l :: ls, s, n =>
    match A.level l.var with
    | none => none
    | some lv =>
      match s.isStamped lv with
      | none => none
      | some true => aLbdLoop A ls s n
      | some false =>
        match s.set lv with
        | none => none
        | some s => aLbdLoop A ls s (n + 1)

/-- `computeLBD`, Trail.h:300-315, on the stamp array of the trail. -/
def aLbd (A : ATrail) (ls : List Lit) (s : Stamp) : Option (Nat × Stamp) :=
  aLbdLoop A ls (s.clear stampMax) 0

/-- ConflictAnalysis.h:236-246. -/
def aPickSecond (A : ATrail) : Lit → Nat → List Lit → Option (Lit × Nat × List Lit)
  | s, b, [] => some (s, b, [])
  | s, b, r :: rs =>
    match A.level r.var with
    | none => none
    | some lv =>
      if lv > b then (aPickSecond A r lv rs).map fun x => (x.1, x.2.1, s :: x.2.2)
      else (aPickSecond A s b rs).map fun x => (x.1, x.2.1, r :: x.2.2)

/-- `reestimateClauseWeights`, ClauseDatabase.h:130-139. -/
def aReestimate (A : ATrail) : List Nat → List Cls × Stamp → Option (List Cls × Stamp)
  | [], x => some x
  | c :: cs, (store, st) =>
    match store[c]? with
    | none => none
    | some cl =>
      if cl.isLearnt then
        match aLbd A cl.lits st with
        | none => none
        | some (n, st) => aReestimate A cs (store.set c { cl with weight := n % 65536 }, st)
      else aReestimate A cs (store, st)

/-! ### Search -/

/-- The vectors used by search. -/
structure AMach where
  T : ATrail
  store : List Cls
  bin : List (List Watcher)
  watch : List (List Watcher)
  /-- `ConflictAnalysis::stamp` -/
  stamp : Stamp
  /-- `Trail::stamp` -/
  lbd : Stamp

/-- `handle_conflict`, ConflictAnalysis.h:228-250: the learnt clause, its LBD and the level to go back
to. -/
def aHandleConflict (recalc : Bool) (m : AMach) (confl : Nat) : Option (AMach × List Lit × Nat × Nat) :=
  match aAnalyze m.store m.bin m.T confl m.stamp with
  | none => none
  | some (first, rest, involved, stamp) =>
    match aLbd m.T (first :: rest) m.lbd with
    | none => none
    | some (n, lbd) =>
      let x := match rest with
        | [] => some ([first], 0)
        | s :: rs =>
          match m.T.level s.var with
          | none => none
          | some b => (aPickSecond m.T s b rs).map fun x => (first :: x.1 :: x.2.2, x.2.1)
      match x with
      | none => none
      | some (learnt, bt) =>
        match (if recalc then aReestimate m.T involved (m.store, lbd) else some (m.store, lbd)) with
        | none => none
        | some (store, lbd) => some ({ m with store := store, stamp := stamp, lbd := lbd }, learnt, n, bt)

/-- Two calls of `emplace_back` (ClauseDatabase.h:193-198, Propagate.h:92-96). -/
def aAttach (ws : List (List Watcher)) (c : Nat) (x y : Lit) : Option (List (List Watcher)) :=
  (aPush ws x.neg.index ⟨c, y⟩).bind fun ws => aPush ws y.neg.index ⟨c, x⟩

/-- `createClause`, ClauseDatabase.h:183-201, for a learnt clause: the store and the lists of binary
clauses. -/
def aCreate (m : AMach) (ls : List Lit) (lbd : Nat) : Option AMach :=
  let store := m.store ++ [⟨ls, if ls.length < 3 then 0 else lbd % 65536⟩]
  match ls with
  | [x, y] => (aAttach m.bin m.store.length x y).map fun bin => { m with store := store, bin := bin }
  | _ => some { m with store := store }

/-- `attachClause` for clauses with more than two literals, Solver.h:374-376, Propagate.h:92-96. -/
def aAttachLong (ws : List (List Watcher)) (c : Nat) (ls : List Lit) : Option (List (List Watcher)) :=
  match ls with
  | x :: y :: _ :: _ => aAttach ws c x y
  | _ => some ws

/-- The conflict branch, Solver.h:360-381. -/
def aLearnStep (recalc : Bool) (m : AMach) (confl : Nat) : Option AMach :=
  match aHandleConflict recalc m confl with
  | none => none
  | some (m, learnt, n, bt) =>
    let id := m.store.length
    match aCreate m learnt n with
    | none => none
    | some m =>
      match aAttachLong m.watch id learnt, learnt with
      | some W, first :: _ =>
        ((m.T.backtrack bt).bind fun T => T.propagate first id).map fun T => { m with T := T, watch := W }
      | _, _ => none

/-- The assumption loop, Solver.h:389-405: `assumptions[decisionLevel()]` as long as there is one. -/
def aAssumeLoop : Nat → ATrail → Option (ATrail × AssumeOut)
  | 0, _ => none
  | fuel + 1, A =>
    if A.lim.length < A.assumptions.length then
      match A.assumptions[A.lim.length]? with
      | none => none
      | some p =>
        match A.value p with
        | none => none
        | some (some true) => aAssumeLoop fuel A.newDecisionLevel
        | some (some false) => some (A, .failed p)
        | some none => some (A, .next p)
    else some (A, .allSet)

/-- The inner loop of `analyzeFinal`, ConflictAnalysis.h:276-280. -/
def aFinalScan (A : ATrail) : List Lit → Stamp → Option Stamp
  | [], st => some st
  | l :: ls, st =>
    match A.level l.var with
    | none => none
    | some lv =>
      if lv > 0 then
        match st.set l.var with
        | none => none
        | some st => aFinalScan A ls st
      else aFinalScan A ls st

/-- The loop of `analyzeFinal`, ConflictAnalysis.h:268-284: `n` elements, the last one at position
`lo + n - 1`. -/
def aFinalLoop (store : List Cls) (A : ATrail) (lo : Nat) :
    Nat → Stamp × List Lit → Option (Stamp × List Lit)
  | 0, x => some x
  | n + 1, (st, out) =>
    match A.get (lo + n) with
    | none => none
    | some q =>
      match st.isStamped q.var with
      | none => none
      | some false => aFinalLoop store A lo n (st, out)
      | some true =>
        match A.reason q.var with
        | none => none
        | some none =>
          match st.unset q.var with
          | none => none
          | some st => aFinalLoop store A lo n (st, out ++ [q.neg])
        | some (some c) =>
          match store[c]? with
          | none => none
          | some cl =>
            match (aFinalScan A cl.lits st).bind fun st => st.unset q.var with
            | none => none
            | some st => aFinalLoop store A lo n (st, out)

/-- `analyzeFinal`, ConflictAnalysis.h:260-288. -/
def aAnalyzeFinal (store : List Cls) (A : ATrail) (p : Lit) (st : Stamp) : Option (List Lit × Stamp) :=
  match A.lim with
  | [] => some ([p], st)
  | k :: _ =>
    match (st.clear stampMax).set p.var with
    | none => none
    | some st =>
      match aFinalLoop store A k (A.trailSize - k) (st, [p]) with
      | none => none
      | some (st, out) => (st.unset p.var).map fun st => (out, st)

/-- Result of one iteration: go on, or return with the value and the literals added to
`result.conflict`. -/
inductive AIterOut where
  | cont (m : AMach)
  | done (m : AMach) (res : Option Bool) (conflict : List Lit)

/-- The results of `trigger_restart` and `pickBranchLit` if they are called; the latter may look at the
arrays. -/
structure AChoice where
  restart : Bool
  pick : ATrail → Option Lit

/-- Contract of `pickBranchLit` (VSIDS.h:266-284): an unassigned decision variable, or none if there is
no such variable. -/
def AChoice.Valid (ch : AChoice) : Prop :=
  ∀ A : ATrail,
    match ch.pick A with
    | none => ∀ v : Nat, A.decision[v]? = some true → A.assigns[v]? ≠ some none
    | some p => A.assigns[p.var]? = some none ∧ A.decision[p.var]? = some true

/-- One iteration of `search`, Solver.h:356-419. -/
def aSearchIter (recalc : Bool) (m : AMach) (ch : AChoice) : Option AIterOut :=
  match aPropagateLoop m.bin (m.T.variables + 1) ⟨m.T, m.store, m.watch⟩ with
  | none => none
  | some (ps, confl) =>
    let m := { m with T := ps.T, store := ps.store, watch := ps.watch }
    match confl with
    | some confl =>
      if m.T.lim.length = 0 then some (.done m (some false) [])
      else (aLearnStep recalc m confl).map .cont
    | none =>
      if ch.restart then some (.done m none [])
      else
        match aAssumeLoop (m.T.assumptions.length + 1) m.T with
        | none => none
        | some (T, .failed p) =>
          (aAnalyzeFinal m.store T p.neg m.stamp).map fun x =>
            .done { m with T := T, stamp := x.2 } (some false) x.1
        | some (T, .next p) => (T.newDecisionLevel.decide p).map fun T => .cont { m with T := T }
        | some (T, .allSet) =>
          match ch.pick T with
          | none => some (.done { m with T := T } (some true) [])
          | some p => (T.newDecisionLevel.decide p).map fun T => .cont { m with T := T }

/-- The loop of `search`, Solver.h:352-422; the fuel bounds the number of iterations. `ub` is an
out-of-bounds access. -/
inductive ASearchOut where
  | ub
  | more
  | done (m : AMach) (res : Option Bool) (conflict : List Lit)

/-- `search`, Solver.h:352-422. -/
def aSearch (recalc : Bool) : Nat → (Nat → AChoice) → AMach → ASearchOut
  | 0, _, _ => .more
  | fuel + 1, o, m =>
    match aSearchIter recalc m (o 0) with
    | none => .ub
    | some (.done m r c) => .done m r c
    | some (.cont m) => aSearch recalc fuel (fun i => o (i + 1)) m

end Candy
