import Verif.Spec

/-!
# Model of the approximation state (src/candy/rsar/ApproximationState.cc)

Sets and maps are lists; the order in which they are iterated is not modelled. `std::map::operator[]` with a key that
is not in the map inserts a default value; the model has no result in this case.
-/

namespace Candy

/-- `Implication`, ApproximationState.h:41. -/
abbrev Implication := Lit × Lit

/-- `std::map<Var, Implication>`. -/
abbrev ImplMap := List (Nat × Implication)

namespace ImplMap

/-- `operator[]` for a key of the map, and `find`. -/
def find (m : ImplMap) (v : Nat) : Option Implication := (m.find? fun e => e.1 == v).map (·.2)

/-- `erase`. -/
def erase (m : ImplMap) (v : Nat) : ImplMap := m.filter fun e => e.1 != v

/-- Assignment to `operator[]`. -/
def insert (m : ImplMap) (v : Nat) (i : Implication) : ImplMap := (v, i) :: erase m v

end ImplMap

/-- `EquivalenceImplicationsImpl`, ApproximationState.cc:298-353; `m_implicationsCached` is the list `implications`. -/
structure EquivImpls where
  byAnte : ImplMap
  bySucc : ImplMap
  queue : List Nat
deriving DecidableEq

/-- `EquivalenceImplications::CommitResult`, ApproximationState.h:104-108. -/
structure EqDelta where
  added : List Implication
  removed : List Implication
deriving DecidableEq

/-- Consecutive pairs of a list. -/
def steps : List Lit → List Implication
  | x :: y :: r => (x, y) :: steps (y :: r)
  | _ => []

namespace EquivImpls

/-- `addImplication`, ApproximationState.cc:374-377. -/
def addImplication (s : EquivImpls) (i : Implication) : EquivImpls :=
  { s with byAnte := s.byAnte.insert i.1.var i, bySucc := s.bySucc.insert i.2.var i }

/-- `removeImplication`, ApproximationState.cc:379-382. -/
def removeImplication (s : EquivImpls) (i : Implication) : EquivImpls :=
  { s with byAnte := s.byAnte.erase i.1.var, bySucc := s.bySucc.erase i.2.var }

/-- The constructor, ApproximationState.cc:356-372. -/
def ofConjecture (c : List Lit) : EquivImpls :=
  match c with
  | x :: y :: r => (steps (x :: y :: r) ++ [((y :: r).getLast (by simp), x)]).foldl addImplication ⟨[], [], []⟩
  | _ => ⟨[], [], []⟩

/-- The implications (`begin`, `end`, `at`, `size`), ApproximationState.cc:384-389, 395-413. -/
def implications (s : EquivImpls) : List Implication := s.byAnte.map (·.2)

/-- `addVariableRemovalToWorkQueue`, ApproximationState.cc:391-393. -/
def addRemoval (s : EquivImpls) (v : Nat) : EquivImpls :=
  { s with queue := if s.queue.contains v then s.queue else s.queue ++ [v] }

/-- `removalQueue.front().first != removalQueue.back().second`. -/
def openEnds (q : List Implication) : Bool := q.head?.map (·.1) != q.getLast?.map (·.2)

/-- The forward part, ApproximationState.cc:438-446. -/
def forward (s : EquivImpls) (first : Nat) : Nat → Nat → List Implication → Option (List Implication)
  | 0, _, _ => none
  | fuel + 1, cur, q =>
    if cur ≠ first ∧ s.queue.contains cur ∧ openEnds q then
      match s.byAnte.find cur with
      | none => none
      | some i => forward s first fuel i.2.var (q ++ [i])
    else some q

/-- The backward part, ApproximationState.cc:448-454. -/
def backward (s : EquivImpls) (first : Nat) : Nat → Nat → List Implication → Option (List Implication)
  | 0, _, _ => none
  | fuel + 1, cur, q =>
    if cur ≠ first ∧ s.queue.contains cur ∧ openEnds q then
      match s.bySucc.find cur with
      | none => none
      | some i => backward s first fuel i.1.var (i :: q)
    else some q

/-- ApproximationState.cc:457-482: removal of the implications `q` from `a` to `b`, and the new implication. -/
def replace (s : EquivImpls) (q : List Implication) (a b : Lit) : EquivImpls × EqDelta :=
  let s1 := q.foldl removeImplication s
  let patch := decide (a ≠ b) && !s.queue.contains a.var && !s.queue.contains b.var
  let s2 := if patch then s1.addImplication (a, b) else s1
  ({ s2 with queue := s2.queue.filter fun v => !q.any fun i => i.1.var == v || i.2.var == v },
    ⟨if patch then [(a, b)] else [], q⟩)

/-- One iteration of the loop of `commitWorkQueue`, ApproximationState.cc:423-482, for the first variable of the
queue. -/
def commitStep (fuel : Nat) (s : EquivImpls) (first : Nat) : Option (EquivImpls × EqDelta) :=
  match s.byAnte.find first with
  | none => some ({ s with queue := s.queue.filter (· != first) }, ⟨[], []⟩)
  | some out =>
    match s.bySucc.find first with
    | none => none
    | some inn =>
      (s.forward first fuel out.2.var [inn, out]).bind fun q =>
      (s.backward first fuel inn.1.var q).bind fun q =>
      match q.head?, q.getLast? with
      | some a, some b => some (s.replace q a.1 b.2)
      | _, _ => none

/-- The loop of `commitWorkQueue`, ApproximationState.cc:423-483. -/
def commitLoop (fuel : Nat) : Nat → EquivImpls → EqDelta → Option (EquivImpls × EqDelta)
  | 0, _, _ => none
  | n + 1, s, d =>
    match s.queue with
    | [] => some (s, d)
    | first :: _ =>
      match s.commitStep fuel first with
      | none => none
      | some (s', e) => commitLoop fuel n s' ⟨d.added ++ e.added, d.removed ++ e.removed⟩

/-- `commitWorkQueue`, ApproximationState.cc:415-485. -/
def commit (fuel : Nat) (s : EquivImpls) : Option (EquivImpls × EqDelta) := s.commitLoop fuel fuel ⟨[], []⟩

end EquivImpls

/-- `BackbonesImpl`, ApproximationState.cc:153-186. -/
structure Backbones where
  lits : List Lit
  queue : List Nat
deriving DecidableEq

namespace Backbones

/-- The constructor, ApproximationState.cc:189-198. -/
def ofConjectures (c : List Lit) : Backbones := ⟨c, []⟩

/-- `addVariableRemovalToWorkQueue`, ApproximationState.cc:200-202. -/
def addRemoval (s : Backbones) (v : Nat) : Backbones :=
  { s with queue := if s.queue.contains v then s.queue else s.queue ++ [v] }

/-- An iteration of the loop of `commitWorkQueue`, ApproximationState.cc:229-238. -/
def commitVar (s : List Lit × List Lit) (v : Nat) : List Lit × List Lit :=
  let candidate := if s.1.contains (pos v) then pos v else neg v
  if s.1.contains candidate then (s.1.filter (· != candidate), s.2 ++ [candidate]) else s

/-- `commitWorkQueue`, ApproximationState.cc:225-249. The second component are the removed literals. -/
def commit (s : Backbones) : Backbones × List Lit :=
  let r := s.queue.foldl commitVar (s.lits, [])
  (⟨r.1, []⟩, r.2)

end Backbones

/-- `ApproximationStateImpl`, ApproximationState.cc:533-560. -/
structure ApproxState where
  eqs : List EquivImpls
  bbs : Backbones

/-- `ApproximationDeltaImpl`, ApproximationState.cc:52-81. -/
structure ApproxDelta where
  added : List Implication
  removed : List Implication
  removedBackbones : List Lit

namespace ApproxState

/-- The constructor, ApproximationState.cc:580-589. -/
def ofConjectures (eqs : List (List Lit)) (bbs : List Lit) : ApproxState :=
  ⟨eqs.map EquivImpls.ofConjecture, Backbones.ofConjectures bbs⟩

/-- All implications. -/
def implications (s : ApproxState) : List Implication := s.eqs.flatMap (·.implications)

/-- `commitWorkQueue` of all classes. -/
def commitAll (fuel : Nat) : List EquivImpls → Option (List EquivImpls × EqDelta)
  | [] => some ([], ⟨[], []⟩)
  | s :: ss =>
    match s.commit fuel with
    | none => none
    | some (s, d) => (commitAll fuel ss).map fun r => (s :: r.1, ⟨d.added ++ r.2.added, d.removed ++ r.2.removed⟩)

/-- `createDelta`, ApproximationState.cc:591-602. -/
def createDelta (fuel : Nat) (s : ApproxState) : Option (ApproxState × ApproxDelta) :=
  (commitAll fuel s.eqs).map fun r =>
    let b := s.bbs.commit
    (⟨r.1, b.1⟩, ⟨r.2.added, r.2.removed, b.2⟩)

/-- `createInitializationDelta`, ApproximationState.cc:604-620. -/
def createInitializationDelta (fuel : Nat) (s : ApproxState) : Option (ApproxState × ApproxDelta) :=
  (commitAll fuel s.eqs).map fun r =>
    (⟨r.1, s.bbs.commit.1⟩, ⟨r.1.flatMap (·.implications), [], []⟩)

end ApproxState

end Candy
