import Verif.Model.Dimacs
import Verif.Model.Propagate

/-!
# Model of the proof checker (src/candy/core/DRATChecker.{h,cc})

`none` stands for undefined behaviour: an access to `occurences`, the binary watch lists or the trail
with a literal whose variable is not a variable of the problem. The certificate of the checker's own
clause database is disabled in the code; the log of the model is not looked at. The counter
`num_deleted` is unbounded in the model.
-/

namespace Candy

/-- The literals of a clause object as seen through `begin()`, `end()` and `size()`: the length is
stored in a `uint16_t`, Clause.h:39, 65-70. -/
def seen16 (ls : Clause) : Clause := ls.take (ls.length % 65536)

/-- State of `DRATChecker`, DRATChecker.h:38-48. -/
structure Checker where
  db : DB
  T : Trail
  watch : Lit → List Watcher
  occ : Lit → List Nat
  numDeleted : Nat

namespace Checker

/-- The loops filling `occurences`, DRATChecker.cc:44-48 and 182-186: a clause is entered once for
each occurrence of the literal. -/
def occOf (db : DB) : Lit → List Nat :=
  fun l => db.clauses.flatMap fun c => List.replicate ((db.lits c).count l) c

/-- Lines 49-51 of the constructor: unit clauses become facts; the returned flag is ignored. -/
def factOf (db : DB) (T : Trail) (c : Nat) : Trail :=
  match db.lits c with
  | [l] => (T.fact l).1
  | _ => T

/-- The constructor, DRATChecker.cc:37-53. -/
def new (nv : Nat) (problem : CNF) : Checker :=
  let db := DB.new.init nv (problem.map seen16)
  { db := db
    T := db.clauses.foldl (factOf db) ((Trail.empty 0).init db.nVars)
    watch := resetWatch db
    occ := occOf db
    numDeleted := 0 }

/-- The loop of `check_asymm`, DRATChecker.cc:113-122; the flag tells that the function returned
inside the loop. -/
def asymAssume (nv : Nat) (pivot : Option Lit) : List Lit → Trail → Option (Trail × Bool)
  | [], T => some (T, false)
  | l :: ls, T =>
    if pivot = some l then asymAssume nv pivot ls T
    else if nv ≤ l.var then none
    else if T.falsifies l.neg then some (T, true)
    else if T.satisfies l.neg then asymAssume nv pivot ls T
    else asymAssume nv pivot ls (T.newDecisionLevel.decide l.neg)

/-- `check_asymm`, DRATChecker.cc:109-124. `pivot = none` is `lit_Undef`. -/
def checkAsymm (ck : Checker) (ls : Clause) (pivot : Option Lit) : Option (Checker × Bool) :=
  if ck.db.hasEmpty then some (ck, true)
  else
    match asymAssume ck.db.nVars pivot ls ck.T with
    | none => none
    | some (T, true) => some ({ ck with T := T }, true)
    | some (T, false) =>
      match propagateLoop ck.db.bin (ck.db.nVars + 1) ⟨ck.db.store, ck.watch, T⟩ with
      | none => none
      | some (s, r) =>
        some ({ ck with db := { ck.db with store := s.store }, watch := s.watch, T := s.T }, r.isSome)

/-- The inner loop over `occurences[~pivot]`, DRATChecker.cc:135-139. -/
def ratClauses (level : Nat) (p : Lit) : List Nat → Checker → Bool → Option (Checker × Bool)
  | [], ck, conflict => some (ck, conflict)
  | c :: cs, ck, conflict =>
    if (ck.db.store c).isDeleted then ratClauses level p cs ck conflict
    else
      match ck.checkAsymm (ck.db.lits c) (some p.neg) with
      | none => none
      | some (ck, r) =>
        let ck := { ck with T := ck.T.backtrack level }
        if r then ratClauses level p cs ck true else some (ck, false)

/-- The loop over the pivots, DRATChecker.cc:133-140. -/
def ratLoop (level : Nat) : List Lit → Checker → Option (Checker × Bool)
  | [], ck => some (ck, false)
  | p :: ps, ck =>
    if ck.db.nVars ≤ p.var then none
    else
      match ratClauses level p (ck.occ p.neg) ck false with
      | none => none
      | some (ck, true) => some (ck, true)
      | some (ck, false) => ratLoop level ps ck

/-- Lines 144-153 of `check_clause_add`: the clause is stored. The literals beyond the 16-bit length
are never looked at again. -/
def storeClause (ck : Checker) (line : Clause) : Option Checker :=
  let ls := seen16 line
  if ls.any (fun l => ck.db.nVars ≤ l.var) then none
  else
    let r := ck.db.createClause ls
    let watch := match ls with
      | x :: y :: _ :: _ => DB.addBin ck.watch r.2 x y
      | _ => ck.watch
    let occ := fun l => ck.occ l ++ List.replicate (ls.count l) r.2
    match ls with
    | [l] =>
      let f := ck.T.fact l
      some { ck with db := if f.2 then r.1 else r.1.emptyClause, watch := watch, occ := occ, T := f.1 }
    | _ => some { ck with db := r.1, watch := watch, occ := occ }

/-- `check_clause_add`, DRATChecker.cc:126-157. -/
def addClause (ck : Checker) (ls : Clause) : Option (Checker × Bool) :=
  match ck.checkAsymm ls none with
  | none => none
  | some (ck, r) =>
    match (if r then some (ck, true) else ratLoop ck.T.decisionLevel ls ck) with
    | none => none
    | some (ck, false) => some ({ ck with T := ck.T.backtrack 0 }, false)
    | some (ck, true) =>
      match storeClause { ck with T := ck.T.backtrack 0 } ls with
      | none => none
      | some ck => some (ck, true)

/-- `Propagate::detachClause`, Propagate.h:98-104. -/
def detach (store : Nat → Cls) (watch : Lit → List Watcher) (c : Nat) : Lit → List Watcher :=
  match (store c).lits with
  | x :: y :: _ :: _ => fun p =>
      if p = x.neg ∨ p = y.neg then (watch p).filter (fun w => w.cref != c) else watch p
  | _ => watch

/-- `cleanup_deleted`, DRATChecker.cc:177-187. -/
def cleanup (ck : Checker) : Checker :=
  let db := ck.db.reorganize
  { ck with db := db, watch := resetWatch db, occ := occOf db }

/-- The test `size == clause->size() && std::all_of(begin+1, end, contains)`, DRATChecker.cc:164. -/
def matchesLine (ck : Checker) (ls : Clause) (c : Nat) : Bool :=
  ls.length == (ck.db.lits c).length && (ls.drop 1).all (fun l => (ck.db.lits c).contains l)

/-- `check_clause_remove`, DRATChecker.cc:159-175; the returned flag is ignored by the caller. -/
def removeClause (ck : Checker) (ls : Clause) : Option Checker :=
  match ls with
  | l :: _ :: _ =>
    if ck.db.nVars ≤ l.var then none
    else
      match (ck.occ l).find? (ck.matchesLine ls) with
      | none => some ck
      | some c =>
        let db := ck.db.removeClause c
        let ck := { ck with db := db, watch := detach db.store ck.watch c, numDeleted := ck.numDeleted + 1 }
        some (if ck.db.clauses.length < ck.numDeleted * 10 then ck.cleanup else ck)
  | _ => some ck

end Checker

/-- A line of a proof file: an added or a deleted clause. -/
inductive DLine where
  | add (c : Clause)
  | del (c : Clause)
deriving DecidableEq, Repr

namespace Checker

/-- One iteration of `check_proof` after the line has been read; the flag is `false` when the proof
is rejected. -/
def line (ck : Checker) : DLine → Option (Checker × Bool)
  | .add c => ck.addClause c
  | .del c => (ck.removeClause c).map (·, true)

/-- `check_proof`, DRATChecker.cc:77-107, on lines that have been read. -/
def runLines : List DLine → Checker → Option Bool
  | [], ck => some ck.db.hasEmpty
  | d :: ds, ck =>
    match ck.line d with
    | none => none
    | some (_, false) => some false
    | some (ck, true) => runLines ds ck

end Checker

section Reader
variable {σ : Type} (S : Stream σ)

/-- Reading one line, DRATChecker.cc:81-103. -/
def readLine (m : Nat) (s : σ) : Out (Option DLine × σ) :=
  match S.peek s with
  | none => .ub
  | some c =>
    if c = 'c' then (skipLine S m s).bind fun s => .ok (none, s)
    else if c = 'd' then (S.inc s 1).bind fun s => (clauseLoop S m s []).bind fun r => .ok (some (.del r.1), r.2)
    else (clauseLoop S m s []).bind fun r => .ok (some (.add r.1), r.2)

/-- `check_proof(gzFile)`, DRATChecker.cc:77-107. The number arguments bound the iterations. -/
def checkLoop (m : Nat) : Nat → σ → Checker → Out Bool
  | 0, _, _ => .loops
  | n + 1, s, ck =>
    if S.eof s then .ok ck.db.hasEmpty
    else (readLine S m s).bind fun r =>
      match r.1 with
      | none => (skipWhitespace S m r.2).bind fun s => checkLoop m n s ck
      | some d =>
        match ck.line d with
        | none => .ub
        | some (_, false) => .ok false
        | some (ck, true) => (skipWhitespace S m r.2).bind fun s => checkLoop m n s ck

/-- The lines of a proof text, for use in statements: what `check_proof` reads when it is not
stopped by a rejected line. -/
def readLines (m : Nat) : Nat → σ → Out (List DLine)
  | 0, _ => .loops
  | n + 1, s =>
    if S.eof s then .ok []
    else (readLine S m s).bind fun r =>
      (skipWhitespace S m r.2).bind fun s => (readLines m n s).bind fun ds =>
        .ok (match r.1 with | none => ds | some d => d :: ds)

end Reader

/-- `check_proof(const char*)`, DRATChecker.cc:61-69, on a proof file with the given content. -/
def checkProof (memory : List Char) (fuel : Nat) (nv : Nat) (problem : CNF) (file : List Char) : Out Bool :=
  let ck := Checker.new nv problem
  if ck.db.hasEmpty then .ok true
  else (SBuf.init memory file).bind fun b => (skipWhitespace SBuf.stream fuel b).bind fun b =>
    checkLoop SBuf.stream fuel fuel b ck

/-- The lines of a proof file. -/
def proofLines (memory : List Char) (fuel : Nat) (file : List Char) : Out (List DLine) :=
  (SBuf.init memory file).bind fun b => (skipWhitespace SBuf.stream fuel b).bind fun b =>
    readLines SBuf.stream fuel fuel b

/-! ## Certificates as text -/

/-- What `Certificate::added`, `removed` and `proof` write, Certificate.h:44-50, 72-91. The products
`(var + 1) * ±1` are written like literals by `operator<<`. -/
def ProofLine.text : ProofLine → List Char
  | .add c => clauseLine c
  | .del c => 'd' :: ' ' :: clauseLine c
  | .empty => ['0', '\n']

/-- The content of the certificate file. -/
def certificateText (log : List ProofLine) : List Char := log.flatMap ProofLine.text

/-- The line as the checker reads it. -/
def ProofLine.read : ProofLine → DLine
  | .add c => .add c
  | .del c => .del c
  | .empty => .add []

end Candy
