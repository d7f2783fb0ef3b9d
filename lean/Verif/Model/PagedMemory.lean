import Verif.Model.Simplify

/-!
# Pages of objects

`MemoryPage<T>` and `Memory<T>` (src/candy/mtl/Memory.h), and the loop of `Subsumption::subsume` over such a memory. `sz` is
`sizeof(T)`. An address is the number of a page and the index of an object in it: pages keep their blocks when the vector of
pages moves them (Memory.h:79-83). Values of the model are identities of objects, not their changing content.
-/

namespace Candy.Paged

variable {α σ : Type}

/-- `MemoryPage`, Memory.h:66-77: the size of the block in bytes, and the objects placed in it. `cursor` is the number of
objects times `sizeof(T)`. -/
structure Page (α : Type) where
  size : Nat
  data : List α

/-- `used`, Memory.h:116-118. -/
def Page.used (sz : Nat) (p : Page α) : Nat := p.data.length * sz

/-- `hasMemory`, Memory.h:92-95. -/
def Page.hasMemory (sz : Nat) (p : Page α) : Bool := decide (p.used sz + sz < p.size)

/-- `allocate`, Memory.h:97-102, and placing `x` there: undefined if the object does not fit into the block. -/
def Page.allocate (sz : Nat) (x : α) (p : Page α) : Option (Page α) :=
  if p.used sz + sz ≤ p.size then some { p with data := p.data ++ [x] } else none

/-- `Memory`, Memory.h:220-226, with the vector of pages: `buf` is the identity of the array of the vector, `room` its
capacity. -/
structure Mem (α : Type) where
  pages : List (Page α)
  buf : Nat
  room : Nat

/-- `pages.emplace_back(default_page_size)`, Memory.h:240: a vector that is full moves its elements to a new array; `grow` is the
new capacity, chosen by the library. -/
def Mem.newPage (grow : Nat → Nat) (size : Nat) (m : Mem α) : Mem α :=
  if m.pages.length < m.room then { m with pages := m.pages ++ [⟨size, []⟩] }
  else ⟨m.pages ++ [⟨size, []⟩], m.buf + 1, grow m.room⟩

/-- `pages.back().allocate()`, Memory.h:242. -/
def Mem.onLast (sz : Nat) (x : α) (m : Mem α) : Option (Mem α) :=
  match m.pages.getLast? with
  | none => none
  | some p => (p.allocate sz x).map fun p => { m with pages := m.pages.dropLast ++ [p] }

/-- The condition of Memory.h:239. -/
def Mem.full (sz : Nat) (m : Mem α) : Bool :=
  match m.pages.getLast? with
  | none => true
  | some p => !p.hasMemory sz

/-- `Memory::allocate`, Memory.h:238-243, with `default_page_size = size`. -/
def Mem.allocate (sz size : Nat) (grow : Nat → Nat) (x : α) (m : Mem α) : Option (Mem α) :=
  if m.full sz then (m.newPage grow size).onLast sz x else m.onLast sz x

/-- Several allocations. -/
def Mem.allocateAll (sz size : Nat) (grow : Nat → Nat) : List α → Mem α → Option (Mem α)
  | [], m => some m
  | x :: xs, m =>
    match m.allocate sz size grow x with
    | none => none
    | some m => Mem.allocateAll sz size grow xs m

/-- `free_all`, Memory.h:245-247; a vector keeps its array in `clear`. -/
def Mem.freeAll (m : Mem α) : Mem α := { m with pages := [] }

/-- `Memory::const_iterator`, Memory.h:199-202: `buf` is the array that `page` and `endPage` point into; positions are addresses
of objects, `none` the null pointer. -/
structure Iter where
  buf : Nat
  page : Nat
  endPage : Nat
  pos : Option (Nat × Nat)
  endPos : Option (Nat × Nat)

/-- `skip_empty_pages`, Memory.h:204-215, with at most `n` pages left: undefined if the array of pages is not the one that the
iterator points into any more. Simplification: comparing such iterators is not counted as undefined, only stepping and
reading are. -/
def Iter.skipF (m : Mem α) : Nat → Iter → Option Iter
  | 0, it => some it
  | n + 1, it =>
    if it.pos = it.endPos ∧ it.page ≠ it.endPage then
      if it.buf = m.buf then
        if it.page + 1 ≠ it.endPage then
          match m.pages[it.page + 1]? with
          | none => none
          | some p => Iter.skipF m n { it with page := it.page + 1, pos := some (it.page + 1, 0),
                                               endPos := some (it.page + 1, p.data.length) }
        else Iter.skipF m n { it with page := it.page + 1, pos := none, endPos := none }
      else none
    else some it

/-- `skip_empty_pages`, Memory.h:204-215. -/
def Iter.skip (m : Mem α) (it : Iter) : Option Iter := Iter.skipF m (it.endPage - it.page) it

/-- `Memory::begin`, Memory.h:229-232, with the constructor Memory.h:147-155. -/
def Mem.begin (m : Mem α) : Option Iter :=
  match m.pages with
  | [] => some ⟨m.buf, 0, 0, none, none⟩
  | p :: _ => Iter.skip m ⟨m.buf, 0, m.pages.length, some (0, 0), some (0, p.data.length)⟩

/-- `operator ++`, Memory.h:167-176. -/
def Iter.next (m : Mem α) (it : Iter) : Option Iter :=
  match Iter.skip m it with
  | none => none
  | some it =>
    match it.pos with
    | none => some it
    | some (p, i) => Iter.skip m { it with pos := some (p, i + 1) }

/-- `operator *`, Memory.h:157-160. -/
def Iter.get (m : Mem α) (it : Iter) : Option α :=
  match it.pos with
  | none => none
  | some (p, i) =>
    match m.pages[p]? with
    | none => none
    | some pg => pg.data[i]?

/-- `operator !=` with the iterator `end()`, Memory.h:190-192, 234-236. -/
def Iter.atEnd (endPage : Nat) (it : Iter) : Bool := decide (it.page = endPage ∧ it.pos = none)

/-- `for (x : memory) body`: the body may use the memory, and leaves the loop with `false`. `none`: undefined, or more than
`fuel` iterations. -/
def loop (body : σ → Mem α → α → Option (σ × Mem α × Bool)) (endPage : Nat) :
    Nat → Iter → σ → Mem α → Option (σ × Mem α × Bool)
  | 0, _, _, _ => none
  | fuel + 1, it, st, m =>
    if it.atEnd endPage then some (st, m, true)
    else
      match it.get m with
      | none => none
      | some x =>
        match body st m x with
        | none => none
        | some (st, m, false) => some (st, m, false)
        | some (st, m, true) =>
          match it.next m with
          | none => none
          | some it => loop body endPage fuel it st m

/-- The whole range-based loop. -/
def forEach (body : σ → Mem α → α → Option (σ × Mem α × Bool)) (fuel : Nat) (st : σ) (m : Mem α) :
    Option (σ × Mem α × Bool) :=
  match m.begin with
  | none => none
  | some it => loop body m.pages.length fuel it st m

/-- `Memory::sort`, Memory.h:249-272: several pages are first joined to one whose block has the size in use. `sort` is
`std::sort`; `fuel` bounds the loop. -/
def Mem.sort (sz fuel : Nat) (sort : List α → List α) (m : Mem α) : Option (Mem α) :=
  match m.pages with
  | [] => some m
  | [p] => some { m with pages := [{ p with data := sort p.data }] }
  | ps =>
    match (forEach (fun (q : Page α) m x => (q.allocate sz x).map fun q => (q, m, true))
        fuel ⟨(ps.map (Page.used sz)).sum, []⟩ m) with
    | none => none
    | some (q, _, _) => some ⟨[{ q with data := sort q.data }], m.buf + 1, 1⟩

/-! ### Subsumption over a memory -/

/-- The body of the loop in `Subsumption::subsume()`, Subsumption.h:76-90: objects that it creates
(SubsumptionClauseDatabase.h:103) are placed in the memory. -/
def subsumeBody (sz size : Nat) (grow : Nat → Nat) (before : Nat → Nat → Bool) (depth : Nat) (s : SDB) (m : Mem Nat) (i : Nat) :
    Option (SDB × Mem Nat × Bool) :=
  match subsumeStep before depth s i with
  | none => none
  | some (s', b) =>
    match m.allocateAll sz size grow (List.range' s.obj.length (s'.obj.length - s.obj.length)) with
    | none => none
    | some m => some (s', m, b)

/-- `Subsumption::subsume()`, Subsumption.h:73-93, with the memory of the objects. -/
def subsumeMem (sz size : Nat) (grow : Nat → Nat) (before : Nat → Nat → Bool) (depth fuel : Nat) (s : SDB) (m : Mem Nat) :
    Option (SDB × Mem Nat × Bool) :=
  forEach (subsumeBody sz size grow before depth) fuel s m

end Candy.Paged
