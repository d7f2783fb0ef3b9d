import Verif.Model.Database

/-!
# Model of clause memory

`Clause` (src/candy/core/clauses/Clause.h), `ClauseAllocatorPage` and `ClauseAllocatorMemory`
(ClauseAllocatorMemory.h), `ClauseAllocator` without a global allocator (ClauseAllocator.h).

A page is an array of 32-bit words, addressed by the byte offset of the word. A clause is a header
word with the 16-bit fields `length` and `weight`, followed by its literals. The words of a page
that were not written hold arbitrary values.
-/

namespace Candy

/-- `Lit(Var, bool)`, src/candy/core/SolverTypes.h:104: the number `var + var + sign`. The 32-bit
range is treated in `Model/LitBits.lean`. -/
def Lit.word (l : Lit) : Nat := 2 * l.var + l.sign.toNat

/-- `Lit::var` and `Lit::sign`, SolverTypes.h:112-118. -/
def Lit.ofWord (x : Nat) : Lit := ⟨x / 2, x % 2 == 1⟩

/-- The words of a memory block, by byte offset. -/
abbrev Words := Nat → Nat

namespace Words

/-- `Clause::size`, Clause.h:93-95: the low half of the header. -/
def size (mem : Words) (o : Nat) : Nat := mem o % 65536

/-- `weight`, Clause.h:41: the high half of the header. -/
def weight (mem : Words) (o : Nat) : Nat := mem o / 65536 % 65536

/-- `begin` to `end`, Clause.h:85-91. -/
def lits (mem : Words) (o : Nat) : List Lit :=
  (List.range (mem.size o)).map fun i => Lit.ofWord (mem (o + 4 + 4 * i))

/-- The clause a reader sees at an offset. -/
def read (mem : Words) (o : Nat) : Cls := ⟨mem.lits o, mem.weight o⟩

/-- `copyLiterals`, called in Clause.h:67. -/
def writeLits (mem : Words) (o : Nat) : List Lit → Words
  | [] => mem
  | l :: ls => writeLits (upd mem o l.word) (o + 4) ls

/-- A header word; both fields are `uint16_t`. -/
def header (length weight : Nat) : Nat := length % 65536 + 65536 * (weight % 65536)

/-- The constructor `Clause(begin, end, lbd)`, Clause.h:65-71. -/
def construct (mem : Words) (o : Nat) (ls : List Lit) (weight : Nat) : Words :=
  upd (mem.writeLits (o + 4) ls) o (header ls.length weight)

/-- `setLBD`, Clause.h:60-62; `setDeleted` is `setWeight 65535`, `setPersistent` is
`setWeight 0` (Clause.h:52-58). -/
def setWeight (mem : Words) (o : Nat) (w : Nat) : Words := upd mem o (header (mem.size o) w)

/-- `Clause::swap`, Clause.h:45-50. -/
def swap (mem : Words) (o i j : Nat) : Words :=
  let tmp := mem (o + 4 + 4 * i)
  upd (upd mem (o + 4 + 4 * i) (mem (o + 4 + 4 * j))) (o + 4 + 4 * j) tmp

end Words

/-- `clauseBytes`, ClauseAllocatorMemory.h:60-62, 130-132: `sizeof(Clause) + sizeof(Lit) *
(length - 1)` with `sizeof(Clause) = 8`. For length 0 the unsigned subtraction wraps around twice
and the value is 4, the value of this expression. -/
def clauseBytes (length : Nat) : Nat := 8 + 4 * length - 4

/-- `ClauseAllocatorPage`, ClauseAllocatorMemory.h:66-68. -/
structure Page where
  size : Nat
  cursor : Nat
  mem : Words

namespace Page

/-- `ClauseAllocatorPage(size_t)`, ClauseAllocatorMemory.h:74-77; `malloc` returns arbitrary
contents, here `junk`. -/
def new (size : Nat) (junk : Words) : Page := ⟨size, 0, junk⟩

/-- `hasMemory`, ClauseAllocatorMemory.h:92-95. -/
def hasMemory (p : Page) (length : Nat) : Bool := decide (p.cursor + clauseBytes length < p.size)

/-- The iterator of a page, ClauseAllocatorMemory.h:36-63 and `begin`/`end` 103-109, as the list of
offsets it visits up to `stop`. `none` if it does not hit `stop`. -/
def walk (mem : Words) (stop : Nat) : Nat → Nat → Option (List Nat)
  | 0, _ => none
  | fuel + 1, o =>
    if o = stop then some []
    else if stop < o then none
    else (walk mem stop fuel (o + clauseBytes (mem.size o))).map (o :: ·)

/-- All offsets of clauses of a page. Every step advances, so `cursor + 1` steps suffice. -/
def offsets (p : Page) : Option (List Nat) := walk p.mem p.cursor (p.cursor + 1) 0

end Page

/-- `ClauseAllocatorMemory`, ClauseAllocatorMemory.h:201-204; `phase_out_pages` is empty except
inside `reorganize` (no global allocator). Pages are in reverse order: the head is `pages.back()`.
A clause pointer is a page number (from the first page) and an offset. -/
structure AMem where
  pageSize : Nat
  pages : List Page

abbrev Ptr := Nat × Nat

namespace AMem

/-- The page with a number. -/
def page? (m : AMem) (k : Nat) : Option Page := m.pages.reverse[k]?

/-- Overwrite the words of a page. -/
def setMem (m : AMem) (k : Nat) (f : Words → Words) : AMem :=
  { m with pages := (m.pages.reverse.modify k fun p => { p with mem := f p.mem }).reverse }

/-- `allocate`, ClauseAllocatorMemory.h:220-225, followed by writing with `f` at the new offset. -/
def allocate (m : AMem) (junk : Words) (length : Nat) (f : Words → Nat → Words) : AMem × Ptr :=
  let pages := match m.pages with
    | [] => [Page.new m.pageSize junk]
    | p :: ps => if p.hasMemory length then p :: ps else Page.new m.pageSize junk :: p :: ps
  match pages with
  | [] => (m, (0, 0))
  | p :: ps =>
    ({ m with pages := { p with cursor := p.cursor + clauseBytes length, mem := f p.mem p.cursor } :: ps },
      (ps.length, p.cursor))

/-- The iterator over all pages, ClauseAllocatorMemory.h:143-198 (empty pages are skipped), as the
list of visited pointers. -/
def walkPages : Nat → List Page → Option (List Ptr)
  | _, [] => some []
  | k, p :: ps =>
    match p.offsets, walkPages (k + 1) ps with
    | some os, some r => some (os.map (fun o => (k, o)) ++ r)
    | _, _ => none

def walk (m : AMem) : Option (List Ptr) := walkPages 0 m.pages.reverse

/-- The clause a pointer points to. -/
def read (m : AMem) (a : Ptr) : Cls :=
  match m.page? a.1 with
  | some p => p.mem.read a.2
  | none => ⟨[], 0⟩

/-- `collect`, ClauseAllocatorMemory.h:236-244. -/
def collect (m : AMem) : Option (List Ptr) :=
  m.walk.map fun as => as.filter fun a => !(m.read a).isDeleted

/-- `used`, ClauseAllocatorMemory.h:246-252. -/
def used (m : AMem) : Nat := (m.pages.map Page.cursor).sum

/-- `memcpy` of a clause, ClauseAllocatorMemory.h:263: copies `clauseBytes` bytes. -/
def copyWords (src : Words) (o : Nat) (n : Nat) (dst : Words) (d : Nat) : Words :=
  fun x => if d ≤ x ∧ x < d + n then src (o + (x - d)) else dst x

/-- The inner loop of `reallocate`, ClauseAllocatorMemory.h:260-265, over the offsets of one page. -/
def moveClauses (junk : Words) (src : Words) : List Nat → AMem → AMem
  | [], m => m
  | o :: os, m =>
    if (src.read o).isDeleted then moveClauses junk src os m
    else moveClauses junk src os
      (m.allocate junk (src.size o) (copyWords src o (clauseBytes (src.size o)))).1

/-- The outer loop of `reallocate`, ClauseAllocatorMemory.h:259-266. -/
def movePages (junk : Words) : List Page → AMem → Option AMem
  | [], m => some m
  | p :: ps, m =>
    match p.offsets with
    | none => none
    | some os => movePages junk ps (moveClauses junk p.mem os m)

/-- `reallocate` and `free_phase_out_pages`, ClauseAllocatorMemory.h:254-268. -/
def reallocate (m : AMem) (junk : Words) : Option AMem :=
  movePages junk m.pages.reverse ⟨m.pageSize, [Page.new m.used junk]⟩

end AMem

/-- `ClauseAllocator` without global allocator, ClauseAllocator.h:38-44, 128-129: clauses of length
one are kept apart. -/
structure Alloc where
  memory : AMem
  facts : AMem

/-- A clause pointer: in `facts` or in `memory`. -/
structure Addr where
  fact : Bool
  ptr : Ptr
deriving DecidableEq, Repr

namespace Alloc

/-- ClauseAllocator.h:41. -/
def new : Alloc := ⟨⟨32 * 1024 * 1024, []⟩, ⟨1 * 1024 * 1024, []⟩⟩

/-- The clause a pointer points to. -/
def read (al : Alloc) (a : Addr) : Cls := (if a.fact then al.facts else al.memory).read a.ptr

/-- `new (allocator.allocate(length, weight)) Clause(begin, end, weight)`,
ClauseDatabase.h:184-187 with ClauseAllocator.h:47-61. -/
def create (al : Alloc) (junk : Words) (ls : List Lit) (weight : Nat) : Alloc × Addr :=
  if ls.length = 1 then
    let r := al.facts.allocate junk 1 (fun mem o => mem.construct o ls weight)
    ({ al with facts := r.1 }, ⟨true, r.2⟩)
  else
    let r := al.memory.allocate junk ls.length (fun mem o => mem.construct o ls weight)
    ({ al with memory := r.1 }, ⟨false, r.2⟩)

/-- Writing to the clause at a pointer. -/
def modify (al : Alloc) (a : Addr) (f : Words → Nat → Words) : Alloc :=
  if a.fact then { al with facts := al.facts.setMem a.ptr.1 (f · a.ptr.2) }
  else { al with memory := al.memory.setMem a.ptr.1 (f · a.ptr.2) }

/-- `setLBD`, `setPersistent` and (with 65535) `deallocate`, ClauseAllocator.h:63-65. -/
def setWeight (al : Alloc) (a : Addr) (w : Nat) : Alloc := al.modify a fun mem o => mem.setWeight o w

/-- `Clause::swap` on the clause at a pointer. -/
def swap (al : Alloc) (a : Addr) (i j : Nat) : Alloc := al.modify a fun mem o => mem.swap o i j

/-- `reorganize`, ClauseAllocator.h:83-97. -/
def reorganize (al : Alloc) (junk : Words) : Option Alloc :=
  (al.memory.reallocate junk).map fun m => { al with memory := m }

/-- `collect`, ClauseAllocator.h:99-113. -/
def collect (al : Alloc) : Option (List Addr) :=
  match al.memory.collect, al.facts.collect with
  | some ms, some fs => some (ms.map (Addr.mk false) ++ fs.map (Addr.mk true))
  | _, _ => none

end Alloc

end Candy
