import Verif.Model.Allocator

/-!
# Model of the clause memory shared by several solvers

`ClauseAllocator` with a global allocator (src/candy/core/clauses/ClauseAllocator.h),
`ClauseAllocatorMemory` (ClauseAllocatorMemory.h) and the parts of `ClauseDatabase` that use them
(ClauseDatabase.h:108-117, 141-149, 178-201, 203-206, 240-246).

The words of a page are treated in `Model/Allocator.lean`; here a page is a list of clauses. A clause that was
allocated but not yet constructed is a cell of its own kind (`raw`): its header is not initialised, so that reading it
has no defined result. Pages carry a number that is never used again, so that a pointer into a page that was freed is
a pointer to nothing.

Every action between two operations on a lock, and every section between `lock` and `unlock`, is one step of a thread;
the steps of all threads interleave in any order. Simplifications: reading the shared list of facts without a lock
(ClauseAllocator.h:117) and emptying the list of old pages without a lock (91) are single steps, as if protected;
literals of shared clauses are not swapped (static propagation) and weights of shared clauses not recomputed
(`opt_recalculate_lbd` is off with several threads, Main.cc:250).
-/

namespace Candy.Shared

/-- A clause in a page: allocated (`allocate`, ClauseAllocatorMemory.h:97-103) or also constructed. -/
inductive Cell
  | raw (length : Nat)
  | full (c : Cls)
deriving DecidableEq, Repr

/-- Bytes of a clause, ClauseAllocatorMemory.h:130-132. -/
def Cell.bytes : Cell → Nat
  | .raw n => clauseBytes n
  | .full c => clauseBytes c.lits.length

/-- Is the clause not constructed? -/
def Cell.isRaw : Cell → Bool
  | .raw _ => true
  | .full _ => false

/-- `ClauseAllocatorPage`, ClauseAllocatorMemory.h:66-68. -/
structure Page where
  id : Nat
  size : Nat
  cells : List Cell
deriving Repr

/-- The cursor of a page, ClauseAllocatorMemory.h:67, 117-119. -/
def Page.used (p : Page) : Nat := (p.cells.map Cell.bytes).sum

/-- `hasMemory`, ClauseAllocatorMemory.h:92-95. -/
def Page.hasMemory (p : Page) (length : Nat) : Bool := decide (p.used + clauseBytes length < p.size)

/-- A pointer to a clause. -/
structure Ptr where
  page : Nat
  idx : Nat
deriving DecidableEq, Repr

/-- The iterator over pages, ClauseAllocatorMemory.h:143-198: pointers with what they point to. -/
def entries (ps : List Page) : List (Ptr × Cell) :=
  ps.flatMap fun p => p.cells.zipIdx.map fun x => (⟨p.id, x.2⟩, x.1)

/-- The clause in a cell that is not marked deleted. -/
def liveCell (x : Ptr × Cell) : Option (Ptr × Cls) :=
  match x.2 with
  | .raw _ => none
  | .full c => if c.isDeleted then none else some (x.1, c)

/-- `collect`, ClauseAllocatorMemory.h:236-244. -/
def live (ps : List Page) : List (Ptr × Cls) := (entries ps).filterMap liveCell

/-- Does walking over the pages read a clause that is not constructed? -/
def torn (ps : List Page) : Bool := (entries ps).any fun x => x.2.isRaw

/-- `ClauseAllocatorMemory`, ClauseAllocatorMemory.h:201-204, without `phase_out_pages`. -/
structure Mem where
  pageSize : Nat
  pages : List Page

/-- A new page, holding one clause. -/
def Mem.grow (m : Mem) (fresh : Nat) (c : Cell) : Mem × Ptr × Nat :=
  ({ m with pages := m.pages ++ [⟨fresh, m.pageSize, [c]⟩] }, ⟨fresh, 0⟩, fresh + 1)

/-- `allocate`, ClauseAllocatorMemory.h:220-225: from the last page, or from a new page. -/
def Mem.allocate (m : Mem) (fresh : Nat) (c : Cell) (length : Nat) : Mem × Ptr × Nat :=
  match m.pages.getLast? with
  | none => m.grow fresh c
  | some p =>
    if p.hasMemory length then
      ({ m with pages := m.pages.dropLast ++ [{ p with cells := p.cells ++ [c] }] }, ⟨p.id, p.cells.length⟩, fresh)
    else m.grow fresh c

/-- Allocate and copy clauses, as in the loops of `reallocate` (ClauseAllocatorMemory.h:259-266) and of `import`
(280-288). -/
def Mem.fill (m : Mem) (fresh : Nat) : List Cls → Mem × Nat
  | [] => (m, fresh)
  | c :: cs =>
    let r := m.allocate fresh (.full c) c.lits.length
    Mem.fill r.1 r.2.2 cs

/-- `used`, ClauseAllocatorMemory.h:246-252. -/
def Mem.used (m : Mem) : Nat := (m.pages.map Page.used).sum

/-- Overwrite a cell. -/
def setCell (ps : List Page) (a : Ptr) (c : Cell) : List Page :=
  ps.map fun p => if p.id = a.page then { p with cells := p.cells.set a.idx c } else p

/-- What a thread does next. `idle`: it works with its clauses. `write a c`: the clause `c` is to be constructed at
`a` (ClauseDatabase.h:184-188, after ClauseAllocator.h:51). `check`, `free`, `realloc`: ClauseAllocator.h:88, 91 and
92-94. `units`, `collect`, `ready`: lines 101, 105-107 and 108. `out`: no global allocator yet. -/
inductive Pc
  | out
  | idle
  | write (a : Ptr) (c : Cls)
  | check
  | free
  | realloc
  | units
  | collect (fs : List Ptr)
  | ready
deriving DecidableEq, Repr

/-- A solver: the clauses in its own memory, and its pointers into shared memory (`ClauseDatabase::clauses`,
ClauseDatabase.h:70, is the union). -/
structure Thread where
  pc : Pc
  own : List Cls
  held : List Ptr

/-- Shared state: the members of the global allocator (ClauseAllocator.h:142-152), and the threads. -/
structure Sys where
  memory : Mem
  phaseOut : List Page
  facts : Mem
  fresh : Nat
  ready : List (Nat × Bool)
  thr : Nat → Thread
  bound : Nat

/-- All pages that are not freed. -/
def Sys.all (s : Sys) : List Page := s.facts.pages ++ s.memory.pages ++ s.phaseOut

/-- What a pointer points to; nothing if its page was freed. -/
def Sys.read (s : Sys) (a : Ptr) : Option Cell := ((entries s.all).find? fun x => x.1 == a).map Prod.snd

/-- Overwrite a clause. -/
def Sys.write (s : Sys) (a : Ptr) (c : Cell) : Sys :=
  { s with
    facts := { s.facts with pages := setCell s.facts.pages a c }
    memory := { s.memory with pages := setCell s.memory.pages a c }
    phaseOut := setCell s.phaseOut a c }

/-- Set the state of a thread. -/
def Sys.set (s : Sys) (t : Nat) (th : Thread) : Sys := { s with thr := upd s.thr t th }

/-- `set_ready`, ClauseAllocator.h:157-162. -/
def setReady : List (Nat × Bool) → Nat → Bool → List (Nat × Bool)
  | [], t, b => [(t, b)]
  | x :: xs, t, b => if x.1 = t then (t, b) :: xs else x :: setReady xs t b

/-- What a thread that works with its clauses may do: start to use the global allocator after loading a problem
(`ClauseDatabase::init`), create a clause, read a clause it holds, mark a clause it holds (or one of its own) as
deleted, and `ClauseDatabase::reorganize`. -/
inductive Request
  | join (problem : List (List Lit))
  | create (ls : List Lit) (lbd : Nat)
  | use (k : Nat)
  | remove (k : Nat)
  | removeOwn (k : Nat)
  | reorganize
deriving DecidableEq, Repr

/-- The test of `import`, ClauseAllocatorMemory.h:282. -/
def exported (bound : Nat) (c : Cls) : Bool :=
  c.weight == 0 || (!c.isDeleted && (bound == 0 || decide (c.lits.length < bound)))

/-- `createClause`, ClauseDatabase.h:178-188: clauses of weight 0 are allocated in shared memory under the lock
(ClauseAllocator.h:47-53; unit clauses among the facts, 55-56) and constructed afterwards; others in own memory. -/
def create (s : Sys) (t : Nat) (th : Thread) (ls : List Lit) (lbd : Nat) : Sys :=
  let weight := if ls.length < 3 then 0 else lbd
  if weight = 0 then
    if ls.length = 1 then
      let r := s.facts.allocate s.fresh (.raw 1) 1
      Sys.set { s with facts := r.1, fresh := r.2.2 } t { th with pc := .write r.2.1 ⟨ls, weight⟩ }
    else
      let r := s.memory.allocate s.fresh (.raw ls.length) ls.length
      Sys.set { s with memory := r.1, fresh := r.2.2 } t { th with pc := .write r.2.1 ⟨ls, weight⟩ }
  else s.set t { th with own := th.own ++ [⟨ls, weight⟩] }

/-- `synchronize` (ClauseAllocator.h:67-76) and the reorganisation of own memory (84-85): clauses for all are copied
to new pages, which are added to the shared memory; the others are kept unless deleted. -/
def synchronize (s : Sys) (t : Nat) (th : Thread) : Sys :=
  let r := (Mem.mk (1024 * 1024) []).fill s.fresh (th.own.filter (exported s.bound))
  Sys.set { s with memory := { s.memory with pages := s.memory.pages ++ r.1.pages }, fresh := r.2 } t
    { th with pc := .check, own := th.own.filter fun c => !exported s.bound c && !c.isDeleted }

/-- `reallocate` of the shared memory, ClauseAllocatorMemory.h:254-268. `none`: a clause is read that is not
constructed. -/
def reallocate (s : Sys) : Option Sys :=
  if s.phaseOut.isEmpty then
    if torn s.memory.pages then none
    else
      let r := (Mem.mk s.memory.pageSize [⟨s.fresh, s.memory.used, []⟩]).fill (s.fresh + 1)
        ((live s.memory.pages).map Prod.snd)
      some { s with memory := r.1, phaseOut := s.memory.pages, fresh := r.2 }
  else some s

/-- A request of a thread that works with its clauses. `none`: memory is read that was freed or not constructed. -/
def request (s : Sys) (t : Nat) (th : Thread) : Request → Option Sys
  | .join _ => some s
  | .create ls lbd => some (create s t th ls lbd)
  | .use k =>
    match th.held[k]? with
    | none => some s
    | some a =>
      match s.read a with
      | some (.full _) => some s
      | _ => none
  | .remove k =>
    match th.held[k]? with
    | none => some s
    | some a =>
      match s.read a with
      | some (.full c) => some (s.write a (.full { c with weight := Cls.deletedWeight }))
      | _ => none
  | .removeOwn k => some (s.set t { th with own := th.own.modify k fun c => { c with weight := Cls.deletedWeight } })
  | .reorganize => some (synchronize s t th)

/-- The next step of a thread. A thread that does not work with its clauses goes on with what it does, and the
request is ignored. `none`: memory is read that was freed or not constructed. -/
def step (s : Sys) (t : Nat) (r : Request) : Option Sys :=
  let th := s.thr t
  match th.pc with
  | .out =>
    match r with
    | .join f =>
      -- ClauseDatabase.h:113-116, ClauseAllocator.h:125-130; own unit clauses are not collected again (115-119)
      some (Sys.set { s with ready := setReady s.ready t false } t
        ⟨.units, (f.filter fun ls => ls.length ≠ 1).map fun ls => ⟨ls, 0⟩, []⟩)
    | _ => some s
  | .idle => request s t th r
  | .write a c =>
    match s.read a with
    | some _ => some ((s.write a (.full c)).set t { th with pc := .idle, held := th.held ++ [a] })
    | none => none
  | .check =>
    -- everybody_ready, ClauseAllocator.h:164-177
    if s.ready.all (·.2) then
      some (Sys.set { s with ready := s.ready.map fun x => (x.1, false) } t { th with pc := .free })
    else some (s.set t { th with pc := .units })
  | .free => some (Sys.set { s with phaseOut := [] } t { th with pc := .realloc })
  | .realloc => (reallocate s).map fun s => s.set t { th with pc := .units }
  | .units =>
    if torn s.facts.pages then none
    else some (s.set t { th with pc := .collect ((live s.facts.pages).map Prod.fst) })
  | .collect fs =>
    if torn s.memory.pages then none
    else some (s.set t { th with pc := .ready, held := fs ++ (live s.memory.pages).map Prod.fst })
  | .ready => some (Sys.set { s with ready := setReady s.ready t true } t { th with pc := .idle })

/-- Steps in the order of a schedule. -/
def run (s : Sys) : List (Nat × Request) → Option Sys
  | [] => some s
  | e :: es => (step s e.1 e.2).bind fun s => run s es

/-- `create_global_allocator`, ClauseAllocator.h:132-139, called by thread 0 after it has loaded a problem
(Main.cc:166-170): its pages become the shared ones. -/
def start (f : List (List Lit)) (bound : Nat) : Sys :=
  let m := (Mem.mk (32 * 1024 * 1024) []).fill 0 ((f.filter fun ls => ls.length ≠ 1).map fun ls => ⟨ls, 0⟩)
  let u := (Mem.mk (1024 * 1024) []).fill m.2 ((f.filter fun ls => ls.length = 1).map fun ls => ⟨ls, 0⟩)
  { memory := m.1, phaseOut := [], facts := u.1, fresh := u.2, ready := [(0, true)], bound := bound
    thr := fun t => if t = 0 then
        ⟨.idle, [], (live u.1.pages).map Prod.fst ++ (live m.1.pages).map Prod.fst⟩
      else ⟨.out, [], []⟩ }

end Candy.Shared
