import Verif.Model.Propagate

/-!
# Model of `ConflictAnalysis` (src/candy/systems/learning/ConflictAnalysis.h)

The stamp array is a predicate on variables (see `Model/Stamp.lean` for the refinement).
Outcome `none` stands for undefined behaviour (null dereference of a missing reason clause, the
trail iterator running off the trail) or exhausted fuel.
-/

namespace Candy

/-- Local state of `analyze`: stamps, the counter `pathC`, the learnt literals from position 1 on,
and `involved_clauses`. -/
structure AS where
  stamp : Nat → Bool
  pathC : Int
  learnt : List Lit
  involved : List Nat

/-- The `for (Lit lit : *confl)` loop, ConflictAnalysis.h:177-190. `a` is `asserted_literal`
(`none` for `lit_Undef`). -/
def scanClause (T : Trail) (a : Option Lit) (ls : List Lit) (st : AS) : AS :=
  ls.foldl (fun st l =>
    if a ≠ some l ∧ st.stamp l.var = false then
      let lv := T.level l.var
      let st := { st with stamp := upd st.stamp l.var true }
      if lv ≥ T.decisionLevel then { st with pathC := st.pathC + 1 }
      else if lv > 0 then { st with learnt := st.learnt ++ [l] }
      else st
    else st) st

/-- The first-UIP loop, ConflictAnalysis.h:167-201. `R` is the trail from `trail_iterator` on
(newest literal first). -/
def analyzeLoop (store : Nat → Cls) (T : Trail) :
    Nat → Nat → Option Lit → List Lit → AS → Option (Lit × AS)
  | 0, _, _, _, _ => none
  | fuel + 1, confl, a, R, st =>
    let st := scanClause T a (store confl).lits { st with involved := st.involved ++ [confl] }
    match R.dropWhile (fun l => !st.stamp l.var) with
    | [] => none
    | p :: R' =>
      let st := { st with stamp := upd st.stamp p.var false, pathC := st.pathC - 1 }
      if st.pathC > 0 then
        match T.reason p.var with
        | none => none
        | some c => analyzeLoop store T fuel c (some p) (p :: R') st
      else some (p, st)

/-- `abstractLevel`, ConflictAnalysis.h:70-72. -/
def abstractLevel (T : Trail) (v : Nat) : Nat := 1 <<< (T.level v % 64)

/-- Local state of `litRedundant`: stamps, `analyze_stack` (top first) and the part of
`analyze_clear` from `clear_start` on. -/
structure RS where
  stamp : Nat → Bool
  stack : List Nat
  clear : List Nat

/-- The inner loop of `litRedundant`, ConflictAnalysis.h:86-100; the flag is `false` when the
redundancy test fails. -/
def redScan (T : Trail) (absl : Nat) : List Lit → RS → RS × Bool
  | [], r => (r, true)
  | l :: ls, r =>
    if r.stamp l.var = false ∧ T.level l.var > 0 then
      if (T.reason l.var).isSome ∧ (abstractLevel T l.var &&& absl) ≠ 0 then
        redScan T absl ls
          { stamp := upd r.stamp l.var true, stack := l.var :: r.stack, clear := l.var :: r.clear }
      else
        ({ r with stamp := r.clear.foldl (fun s v => upd s v false) r.stamp, clear := [] }, false)
    else redScan T absl ls r

/-- `litRedundant`, ConflictAnalysis.h:76-105. -/
def litRedundantLoop (store : Nat → Cls) (T : Trail) (absl : Nat) :
    Nat → RS → Option ((Nat → Bool) × Bool)
  | 0, _ => none
  | fuel + 1, r =>
    match r.stack with
    | [] => some (r.stamp, true)
    | v :: rest =>
      match T.reason v with
      | none => none
      | some c =>
        match redScan T absl (store c).lits { r with stack := rest } with
        | (r', false) => some (r'.stamp, false)
        | (r', true) => litRedundantLoop store T absl fuel r'

/-- The main loop of `minimization`, ConflictAnalysis.h:116-126, on the literals after the
asserted one. -/
def minimizeLoop (store : Nat → Cls) (T : Trail) (absl : Nat) :
    List Lit → List Lit → (Nat → Bool) → Option (List Lit)
  | [], out, _ => some out
  | l :: ls, out, stamp =>
    match T.reason l.var with
    | none => minimizeLoop store T absl ls (out ++ [l]) stamp
    | some _ =>
      match litRedundantLoop store T absl (T.stack.length + 2) ⟨stamp, [l.var], []⟩ with
      | none => none
      | some (stamp', true) => minimizeLoop store T absl ls out stamp'
      | some (stamp', false) => minimizeLoop store T absl ls (out ++ [l]) stamp'

/-- `minimization`, ConflictAnalysis.h:107-128: returns the literals after the asserted one. -/
def minimization (store : Nat → Cls) (T : Trail) (learnt : List Lit) (stamp : Nat → Bool) :
    Option (List Lit) :=
  let absl := learnt.foldl (fun a l => a ||| abstractLevel T l.var) 0
  minimizeLoop store T absl learnt [] stamp

/-- `minimizationWithBinaryResolution`, ConflictAnalysis.h:133-148. -/
def minimizeBinary (bin : Lit → List Watcher) (T : Trail) (first : Lit) (learnt : List Lit) :
    List Lit :=
  let stamp := (bin first.neg).foldl (fun s w =>
    if T.satisfies w.blocker then upd s w.blocker.var true else s) (fun _ => false)
  learnt.filter fun l => !stamp l.var

/-- `analyze`, ConflictAnalysis.h:167-209: the learnt clause as (first literal, rest) and the
involved clauses. -/
def analyze (store : Nat → Cls) (bin : Lit → List Watcher) (T : Trail) (confl : Nat) :
    Option (Lit × List Lit × List Nat) :=
  match analyzeLoop store T (T.stack.length + 1) confl none T.stack.reverse
      ⟨fun _ => false, 0, [], []⟩ with
  | none => none
  | some (p, st) =>
    match minimization store T st.learnt st.stamp with
    | none => none
    | some ls => some (p.neg, minimizeBinary bin T p.neg ls, st.involved)

/-- The loop of `handle_conflict` that moves a literal of maximal level to position 1,
ConflictAnalysis.h:236-246: current second literal, current level, remaining literals. -/
def pickSecond (T : Trail) : Lit → Nat → List Lit → Lit × Nat × List Lit
  | s, b, [] => (s, b, [])
  | s, b, r :: rs =>
    if T.level r.var > b then
      let (s', b', rs') := pickSecond T r (T.level r.var) rs
      (s', b', s :: rs')
    else
      let (s', b', rs') := pickSecond T s b rs
      (s', b', r :: rs')

/-- `AnalysisResult`, ClauseDatabase.h:40-58. -/
structure AnalysisResult where
  learnt : List Lit
  involved : List Nat
  lbd : Nat
  btlevel : Nat

/-- `handle_conflict`, ConflictAnalysis.h:228-250 (the re-estimation of weights is a separate
function, `DB.reestimate`). -/
def handleConflict (store : Nat → Cls) (bin : Lit → List Watcher) (T : Trail) (confl : Nat) :
    Option AnalysisResult :=
  match analyze store bin T confl with
  | none => none
  | some (first, rest, involved) =>
    let lbd := T.computeLBD (first :: rest)
    match rest with
    | [] => some ⟨[first], involved, lbd, 0⟩
    | s :: rs =>
      let (s', b, rs') := pickSecond T s (T.level s.var) rs
      some ⟨first :: s' :: rs', involved, lbd, b⟩

/-- Body of the loop of `analyzeFinal`, ConflictAnalysis.h:268-284. -/
def finalStep (store : Nat → Cls) (T : Trail) (acc : (Nat → Bool) × List Lit) (q : Lit) :
    (Nat → Bool) × List Lit :=
  if acc.1 q.var then
    match T.reason q.var with
    | none => (upd acc.1 q.var false, acc.2 ++ [q.neg])
    | some c =>
      (upd ((store c).lits.foldl (fun s l =>
        if T.level l.var > 0 then upd s l.var true else s) acc.1) q.var false, acc.2)
  else acc

/-- `analyzeFinal`, ConflictAnalysis.h:260-288. -/
def analyzeFinal (store : Nat → Cls) (T : Trail) (p : Lit) : List Lit :=
  match T.lim with
  | [] => [p]
  | k :: _ =>
    ((T.stack.drop k).reverse.foldl (finalStep store T) (upd (fun _ => false) p.var true, [p])).2

end Candy
