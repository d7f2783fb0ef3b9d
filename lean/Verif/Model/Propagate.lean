import Verif.Model.Database

/-!
# Model of `Propagate` (src/candy/systems/propagate/Propagate.h)

Outcome `none` of the functions below stands for undefined behaviour (access to a literal
beyond the end of a clause) or for exhausted fuel; the theorems show that it does not occur.
-/

namespace Candy

/-- The mutable state touched by propagation: clause store (literals are reordered in place),
watch lists and trail. -/
structure PS where
  store : Nat → Cls
  watch : Lit → List Watcher
  T : Trail

/-- `Clause::swap`, src/candy/core/clauses/Clause.h:45-50 (both positions in range). -/
def swapAt (ls : List Lit) (i j : Nat) : List Lit :=
  match ls[i]?, ls[j]? with
  | some a, some b => (ls.set i b).set j a
  | _, _ => ls

/-- Replace the literals of clause `c`. -/
def setLits (s : Nat → Cls) (c : Nat) (ls : List Lit) : Nat → Cls :=
  fun x => if x = c then { s x with lits := ls } else s x

/-- `Propagate::attachClause`, Propagate.h:92-96; undefined for clauses with less than two
literals. -/
def attachClause (store : Nat → Cls) (watch : Lit → List Watcher) (c : Nat) :
    Option (Lit → List Watcher) :=
  match (store c).lits with
  | x :: y :: _ => some (DB.addBin watch c x y)
  | _ => none

/-- `Propagate::init`, Propagate.h:78-85: attaches every clause of the database with more than
two literals (deleted or not). -/
def attachAll (store : Nat → Cls) (watch : Lit → List Watcher) (cs : List Nat) :
    Lit → List Watcher :=
  cs.foldl (fun w c =>
    match (store c).lits with
    | x :: y :: _ :: _ => DB.addBin w c x y
    | _ => w) watch

/-- `Propagate::reset`, Propagate.h:87-90. -/
def resetWatch (db : DB) : Lit → List Watcher :=
  attachAll db.store (fun _ => []) db.clauses

/-- `Propagate::propagate_binary_clauses`, Propagate.h:106-118. -/
def propBinary (T : Trail) : List Watcher → Trail × Option Nat
  | [] => (T, none)
  | w :: ws =>
    match T.value w.blocker with
    | some false => (T, some w.cref)
    | none => propBinary (T.propagate w.blocker w.cref) ws
    | some true => propBinary T ws

/-- Lines 140-142 of `propagate_watched_clauses`: make sure the false literal is in position 1. -/
def fixFirst (p : Lit) (ls : List Lit) : List Lit :=
  if ls.head? = some p.neg then swapAt ls 0 1 else ls

/-- The inner loop, Propagate.h:150-156: index (≥ 2) of the first literal that is not false. -/
def findWatch (T : Trail) (ls : List Lit) : Option Nat :=
  (ls.drop 2).findIdx? (fun l => T.value l != some false) |>.map (· + 2)

/-- `Propagate::propagate_watched_clauses`, Propagate.h:131-175. `kept` is the part of the list
in front of the `keep` iterator. The entry of `watch` at `p` is rewritten when the loop ends. -/
def propWatched (p : Lit) : List Watcher → List Watcher → PS → Option (PS × Option Nat)
  | [], kept, s => some ({ s with watch := upd s.watch p kept }, none)
  | w :: ws, kept, s =>
    if s.T.value w.blocker = some true then propWatched p ws (kept ++ [w]) s
    else
      let ls := fixFirst p (s.store w.cref).lits
      let s := { s with store := setLits s.store w.cref ls }
      match ls with
      | first :: _ :: _ =>
        -- blocker repaired to `first`; `val` is the value of `first` in either case
        let w' : Watcher := ⟨w.cref, first⟩
        let val := s.T.value first
        if val = some true then propWatched p ws (kept ++ [w']) s
        else
          match findWatch s.T ls with
          | some k =>
            let ls' := swapAt ls 1 k
            match ls'[1]? with
            | none => none
            | some second =>
              propWatched p ws kept
                { s with
                  store := setLits s.store w.cref ls'
                  watch := upd s.watch second.neg (s.watch second.neg ++ [⟨w.cref, first⟩]) }
          | none =>
            if val = some false then
              some ({ s with watch := upd s.watch p (kept ++ w' :: ws) }, some w.cref)
            else
              propWatched p ws (kept ++ [w']) { s with T := s.T.propagate first w.cref }
      | _ => none

/-- `Propagate::propagate`, Propagate.h:177-193, with fuel for the `while` loop. -/
def propagateLoop (bin : Lit → List Watcher) : Nat → PS → Option (PS × Option Nat)
  | 0, _ => none
  | fuel + 1, s =>
    match s.T.stack[s.T.qhead]? with
    | none => some (s, none)
    | some p =>
      let s := { s with T := { s.T with qhead := s.T.qhead + 1 } }
      match propBinary s.T (bin p) with
      | (T, some c) => some ({ s with T := T }, some c)
      | (T, none) =>
        match propWatched p (s.watch p) [] { s with T := T } with
        | none => none
        | some (s, some c) => some (s, some c)
        | some (s, none) => propagateLoop bin fuel s

end Candy
