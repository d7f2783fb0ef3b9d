import Verif.Model.PagedMemory

/-! What a memory holds, in the order in which objects were created. -/

namespace Candy.Paged

variable {α : Type}

/-- The objects of all pages in order. -/
def Mem.objects (m : Mem α) : List α := (m.pages.map Page.data).flatten

/-- Every page has room for its objects: no object reaches over the end of the block. -/
def Mem.Fits (sz : Nat) (m : Mem α) : Prop := ∀ p ∈ m.pages, p.used sz ≤ p.size

/-- The object at an address, a page and an index. -/
def Mem.at (m : Mem α) (p i : Nat) : Option α := (m.pages[p]?).bind fun pg => pg.data[i]?

end Candy.Paged
