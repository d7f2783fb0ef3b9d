import Verif.Model.Trail

/-!
# Model of `Heap<Comp>` (src/candy/mtl/Heap.h)

The vector `heap` is a function together with its `size`; the vector `indices` is a function
together with its length `isize`, with `-1` represented by `none`. The comparator `lt` refers to
priorities that change between calls, so it is an argument of every operation. An operation whose
argument makes it access a vector out of bounds is `none`; the asserts are compiled out. `int`
indices are unbounded.
-/

namespace Candy

/-- `Heap`, Heap.h:33-36. -/
structure VHeap where
  size : Nat
  heap : Nat → Nat
  isize : Nat
  idx : Nat → Option Nat

namespace VHeap

/-- `Heap::Heap`, Heap.h:78-80. -/
def empty : VHeap := ⟨0, fun _ => 0, 0, fun _ => none⟩

/-- `heap[i] = x; indices[x] = i`, Heap.h:59-60 and 73-74. -/
def place (s : VHeap) (i x : Nat) : VHeap :=
  { s with heap := upd s.heap i x, idx := upd s.idx x (some i) }

/-- The loop of `percolateUp`, Heap.h:53-60, with `x` the moving element and `i` the hole. The
fuel is at least `i`, and `i` decreases, so that at fuel zero the loop has ended anyway
(`i = 0`). -/
def upLoop (lt : Nat → Nat → Bool) (x : Nat) : Nat → Nat → VHeap → VHeap
  | 0, i, s => s.place i x
  | k + 1, i, s =>
    let p := (i - 1) / 2
    if i ≠ 0 ∧ lt x (s.heap p) = true then
      upLoop lt x k p { s with heap := upd s.heap i (s.heap p), idx := upd s.idx (s.heap p) (some i) }
    else s.place i x

/-- `Heap::percolateUp`, Heap.h:49-61. -/
def percolateUp (lt : Nat → Nat → Bool) (s : VHeap) (i : Nat) : VHeap := upLoop lt (s.heap i) i i s

/-- The choice of the child, Heap.h:66. -/
def child (lt : Nat → Nat → Bool) (s : VHeap) (i : Nat) : Nat :=
  if (i + 1) * 2 < s.size ∧ lt (s.heap ((i + 1) * 2)) (s.heap (i * 2 + 1)) = true then (i + 1) * 2
  else i * 2 + 1

/-- The loop of `percolateDown`, Heap.h:65-74. The hole index grows, and `fuel + i` is at least the
size, so that at fuel zero the loop has ended anyway. -/
def downLoop (lt : Nat → Nat → Bool) (x : Nat) : Nat → Nat → VHeap → VHeap
  | 0, i, s => s.place i x
  | k + 1, i, s =>
    if i * 2 + 1 < s.size ∧ lt (s.heap (s.child lt i)) x = true then
      let c := s.child lt i
      downLoop lt x k c { s with heap := upd s.heap i (s.heap c), idx := upd s.idx (s.heap c) (some i) }
    else s.place i x

/-- `Heap::percolateDown`, Heap.h:63-75. -/
def percolateDown (lt : Nat → Nat → Bool) (s : VHeap) (i : Nat) : VHeap :=
  downLoop lt (s.heap i) s.size i s

/-- `Heap::inHeap`, Heap.h:88-90. -/
def inHeap (s : VHeap) (n : Nat) : Bool := decide (n < s.isize) && (s.idx n).isSome

/-- `Heap::decrease`, Heap.h:96-99. -/
def decrease (lt : Nat → Nat → Bool) (s : VHeap) (n : Nat) : Option VHeap :=
  if n < s.isize then (s.idx n).map (s.percolateUp lt) else none

/-- `Heap::increase`, Heap.h:101-104. -/
def increase (lt : Nat → Nat → Bool) (s : VHeap) (n : Nat) : Option VHeap :=
  if n < s.isize then (s.idx n).map (s.percolateDown lt) else none

/-- `Heap::insert`, Heap.h:122-127. -/
def insert (lt : Nat → Nat → Bool) (s : VHeap) (n : Nat) : Option VHeap :=
  if n < s.isize then
    some (percolateUp lt
      { s with idx := upd s.idx n (some s.size), heap := upd s.heap s.size n, size := s.size + 1 }
      s.size)
  else none

/-- `Heap::update`, Heap.h:107-114. -/
def update (lt : Nat → Nat → Bool) (s : VHeap) (n : Nat) : Option VHeap :=
  if s.inHeap n = false then s.insert lt n
  else (s.decrease lt n).bind fun s => s.increase lt n

/-- `Heap::grow`, Heap.h:116-120. -/
def grow (s : VHeap) (n : Nat) : VHeap := if s.isize < n then { s with isize := n } else s

/-- `Heap::removeMin`, Heap.h:129-138. -/
def removeMin (lt : Nat → Nat → Bool) (s : VHeap) : Option (VHeap × Nat) :=
  if s.size = 0 then none
  else
    let x := s.heap 0
    let y := s.heap (s.size - 1)
    let s := { s with
      heap := upd s.heap 0 y, idx := upd (upd s.idx y (some 0)) x none, size := s.size - 1 }
    some (if s.size > 1 then s.percolateDown lt 0 else s, x)

/-- `Heap::clear`, Heap.h:153-158. -/
def clear (s : VHeap) : VHeap :=
  { s with
    idx := fun v => if (List.range s.size).any (fun i => s.heap i == v) then none else s.idx v
    size := 0 }

/-- First loop of `Heap::build`, Heap.h:144-147. -/
def pushAll (s : VHeap) : List Nat → VHeap
  | [] => s
  | n :: ns =>
    pushAll { s with idx := upd s.idx n (some s.size), heap := upd s.heap s.size n, size := s.size + 1 } ns

/-- Second loop of `Heap::build`, Heap.h:149-150, from index `k - 1` down to `0`. -/
def heapify (lt : Nat → Nat → Bool) : Nat → VHeap → VHeap
  | 0, s => s
  | k + 1, s => heapify lt k (s.percolateDown lt k)

/-- `Heap::build`, Heap.h:141-151. -/
def build (lt : Nat → Nat → Bool) (s : VHeap) (ns : List Nat) : Option VHeap :=
  if ns.all (fun n => n < s.isize) then
    let s := s.clear.pushAll ns
    some (heapify lt (s.size / 2) s)
  else none

end VHeap

end Candy
