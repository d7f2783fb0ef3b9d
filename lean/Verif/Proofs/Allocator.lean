import Verif.Model.Allocator

/-! Clause memory: layout of pages, allocation, modification and reorganisation. -/

namespace Candy

theorem Lit.ofWord_word (l : Lit) : Lit.ofWord l.word = l := by
  obtain ⟨v, s⟩ := l
  cases s
  · simp [Lit.ofWord, Lit.word]
  · simp [Lit.ofWord, Lit.word]; omega

namespace Words

theorem header_size {n w : Nat} : header n w % 65536 = n % 65536 := by
  unfold header; omega

theorem header_weight {n w : Nat} : header n w / 65536 % 65536 = w % 65536 := by
  unfold header; omega

theorem lits_length (mem : Words) (o : Nat) : (mem.lits o).length = mem.size o := by
  simp [lits]

theorem size_lt (mem : Words) (o : Nat) : mem.size o < 65536 := Nat.mod_lt _ (by decide)
theorem weight_lt (mem : Words) (o : Nat) : mem.weight o < 65536 := Nat.mod_lt _ (by decide)

/-- Two memories agree on a range of offsets. -/
def Agree (a b : Words) (lo hi : Nat) : Prop := ∀ x, lo ≤ x → x < hi → a x = b x

theorem read_congr {a b : Words} {o : Nat} (h : Agree a b o (o + clauseBytes (b.size o))) :
    a.read o = b.read o := by
  have h0 : a o = b o := h o (Nat.le_refl _) (by unfold clauseBytes; omega)
  have hs : a.size o = b.size o := by simp [size, h0]
  have hl : a.lits o = b.lits o := by
    unfold lits
    rw [hs]
    apply List.map_congr_left
    intro i hi
    rw [List.mem_range] at hi
    rw [h _ (by omega) (by unfold clauseBytes; omega)]
  simp [read, hl, weight, h0]

theorem writeLits_other : ∀ (ls : List Lit) (mem : Words) (o x : Nat),
    (x < o ∨ o + 4 * ls.length ≤ x) → mem.writeLits o ls x = mem x
  | [], _, _, _, _ => rfl
  | l :: ls, mem, o, x, h => by
    simp only [List.length_cons] at h
    rw [writeLits, writeLits_other ls _ _ _ (by omega)]
    exact if_neg (by omega)

theorem writeLits_at : ∀ (ls : List Lit) (mem : Words) (o i : Nat) (h : i < ls.length),
    mem.writeLits o ls (o + 4 * i) = (ls[i]'h).word
  | [], _, _, _, h => by simp at h
  | l :: ls, mem, o, 0, _ => by
    rw [writeLits, writeLits_other ls _ _ _ (by omega)]
    exact if_pos (by omega)
  | l :: ls, mem, o, i + 1, h => by
    have h' : i < ls.length := by simpa using h
    have := writeLits_at ls (upd mem o l.word) (o + 4) i h'
    rw [writeLits, show o + 4 * (i + 1) = o + 4 + 4 * i by omega, this]
    simp

/-- Reading back a constructed clause. -/
theorem read_construct (mem : Words) (o : Nat) {ls : List Lit} {w : Nat} (hl : ls.length < 65536)
    (hw : w < 65536) : (mem.construct o ls w).read o = ⟨ls, w⟩ := by
  have h0 : mem.construct o ls w o = header ls.length w := if_pos rfl
  have hs : (mem.construct o ls w).size o = ls.length := by
    simp only [size, h0, header_size]; omega
  have hwt : (mem.construct o ls w).weight o = w := by
    simp only [weight, h0, header_weight]; omega
  have hls : (mem.construct o ls w).lits o = ls := by
    apply List.ext_getElem
    · rw [lits_length, hs]
    · intro i h1 h2
      simp only [lits, List.getElem_map, List.getElem_range]
      have : mem.construct o ls w (o + 4 + 4 * i) = (ls[i]'h2).word := by
        unfold construct
        rw [show upd (mem.writeLits (o + 4) ls) o (header ls.length w) (o + 4 + 4 * i) =
          mem.writeLits (o + 4) ls (o + 4 + 4 * i) from if_neg (by omega)]
        exact writeLits_at ls mem (o + 4) i h2
      rw [this, Lit.ofWord_word]
  simp [read, hls, hwt]

theorem construct_other (mem : Words) (o : Nat) (ls : List Lit) (w x : Nat)
    (h : x < o ∨ o + clauseBytes ls.length ≤ x) : mem.construct o ls w x = mem x := by
  unfold construct
  unfold clauseBytes at h
  rw [show upd (mem.writeLits (o + 4) ls) o (header ls.length w) x =
    mem.writeLits (o + 4) ls x from if_neg (by omega)]
  exact writeLits_other _ _ _ _ (by omega)

theorem read_setWeight (mem : Words) (o : Nat) {w : Nat} (hw : w < 65536) :
    (mem.setWeight o w).read o = ⟨(mem.read o).lits, w⟩ := by
  have h0 : mem.setWeight o w o = header (mem.size o) w := if_pos rfl
  have hs : (mem.setWeight o w).size o = mem.size o := by
    have := size_lt mem o
    simp only [size, h0, header_size]; simp only [size] at this ⊢; omega
  have hwt : (mem.setWeight o w).weight o = w := by
    simp only [weight, h0, header_weight]; omega
  have hls : (mem.setWeight o w).lits o = mem.lits o := by
    unfold lits
    rw [hs]
    apply List.map_congr_left
    intro i _
    rw [show mem.setWeight o w (o + 4 + 4 * i) = mem (o + 4 + 4 * i) from if_neg (by omega)]
  simp [read, hls, hwt]

/-- Swap two positions of a list. -/
def swapList (ls : List Lit) (i j : Nat) : List Lit :=
  match ls[i]?, ls[j]? with
  | some x, some y => (ls.set i y).set j x
  | _, _ => ls

theorem read_swap (mem : Words) (o : Nat) {i j : Nat} (hi : i < (mem.read o).lits.length)
    (hj : j < (mem.read o).lits.length) :
    (mem.swap o i j).read o = ⟨swapList (mem.read o).lits i j, (mem.read o).weight⟩ := by
  have h0 : mem.swap o i j o = mem o := by
    simp only [swap, upd]
    rw [if_neg (by omega), if_neg (by omega)]
  have hs : (mem.swap o i j).size o = mem.size o := by simp [size, h0]
  have hwt : (mem.swap o i j).weight o = mem.weight o := by simp [weight, h0]
  have hi' : i < (mem.lits o).length := hi
  have hj' : j < (mem.lits o).length := hj
  have hls : (mem.swap o i j).lits o = swapList (mem.lits o) i j := by
    unfold swapList
    rw [List.getElem?_eq_getElem hi', List.getElem?_eq_getElem hj']
    apply List.ext_getElem
    · simp [lits_length, hs]
    · intro k h1 h2
      simp only [List.getElem_set]
      simp only [lits, List.getElem_map, List.getElem_range, swap, upd]
      by_cases hkj : j = k
      · subst hkj
        simp
      · by_cases hki : i = k
        · subst hki
          rw [if_neg (by omega), if_pos rfl]; simp [hkj]
        · rw [if_neg (by omega), if_neg (by omega)]; simp [hkj, hki]
  simp [read, hls, hwt]

theorem swapList_length (ls : List Lit) (i j : Nat) : (swapList ls i j).length = ls.length := by
  unfold swapList; split <;> simp

theorem setWeight_other (mem : Words) (o w x : Nat) (h : x ≠ o) : mem.setWeight o w x = mem x :=
  if_neg h

theorem swap_other (mem : Words) (o i j x : Nat) (hi : i < mem.size o) (hj : j < mem.size o)
    (h : x < o ∨ o + clauseBytes (mem.size o) ≤ x) : mem.swap o i j x = mem x := by
  unfold clauseBytes at h
  simp only [swap, upd]
  rw [if_neg (by omega), if_neg (by omega)]

end Words

/-! ### Pages -/

/-- From offset `o` to `stop` the memory holds exactly the clauses `cs`, one after the other. -/
inductive Chain (mem : Words) (stop : Nat) : Nat → List (Nat × Cls) → Prop
  | nil : Chain mem stop stop []
  | cons {o : Nat} {c : Cls} {cs : List (Nat × Cls)} (hr : mem.read o = c)
      (h : Chain mem stop (o + clauseBytes c.lits.length) cs) : Chain mem stop o ((o, c) :: cs)

namespace Chain

variable {mem mem' : Words} {stop o : Nat} {cs : List (Nat × Cls)}

theorem size_eq {c : Cls} (hr : mem.read o = c) : mem.size o = c.lits.length := by
  rw [← hr]; exact (Words.lits_length mem o).symm

theorem le (h : Chain mem stop o cs) : o ≤ stop := by
  induction h with
  | nil => exact Nat.le_refl _
  | cons _ _ ih => omega

/-- Cells lie between the bounds. -/
theorem mem_bounds (h : Chain mem stop o cs) : ∀ x ∈ cs,
    o ≤ x.1 ∧ x.1 + clauseBytes x.2.lits.length ≤ stop ∧ mem.read x.1 = x.2 := by
  induction h with
  | nil => simp
  | cons hr h ih =>
    intro x hx
    rcases List.mem_cons.1 hx with rfl | hx
    · exact ⟨Nat.le_refl _, h.le, hr⟩
    · obtain ⟨a, b, c⟩ := ih x hx
      exact ⟨by omega, b, c⟩

theorem walk (h : Chain mem stop o cs) : ∀ fuel, stop - o < fuel →
    Page.walk mem stop fuel o = some (cs.map Prod.fst) := by
  induction h with
  | nil =>
    intro fuel hf
    cases fuel with
    | zero => omega
    | succ n => simp [Page.walk]
  | cons hr h ih =>
    rename_i o c cs
    intro fuel hf
    cases fuel with
    | zero => omega
    | succ n =>
      have := h.le
      have hb : 4 ≤ clauseBytes c.lits.length := by unfold clauseBytes; omega
      rw [Page.walk, if_neg (by omega), if_neg (by omega), size_eq hr, ih n (by omega)]
      simp

theorem congr (h : Chain mem stop o cs) (ha : Words.Agree mem' mem o stop) :
    Chain mem' stop o cs := by
  induction h with
  | nil => exact .nil
  | cons hr h ih =>
    have := h.le
    refine .cons ?_ (ih fun x h1 h2 => ha x (by omega) h2)
    rw [Words.read_congr, hr]
    intro x h1 h2
    rw [size_eq hr] at h2
    exact ha x h1 (by omega)

theorem snoc (h : Chain mem stop o cs) {c : Cls} (hr : mem.read stop = c) :
    Chain mem (stop + clauseBytes c.lits.length) o (cs ++ [(stop, c)]) := by
  induction h with
  | nil => exact .cons hr .nil
  | cons hr' _ ih => exact .cons hr' ih

theorem nodup (h : Chain mem stop o cs) : (cs.map Prod.fst).Nodup := by
  induction h with
  | nil => simp
  | cons hr h ih =>
    rw [List.map_cons, List.nodup_cons]
    refine ⟨?_, ih⟩
    intro hm
    obtain ⟨x, hx, he⟩ := List.mem_map.1 hm
    have := (h.mem_bounds x hx).1
    unfold clauseBytes at this
    simp only at he
    omega

/-- Replace the clause at an offset. -/
def replace (a : Nat) (c' : Cls) (x : Nat × Cls) : Nat × Cls := if x.1 = a then (a, c') else x

theorem modify (h : Chain mem stop o cs) {a : Nat} {c c' : Cls} (hm : (a, c) ∈ cs)
    (hl : c'.lits.length = c.lits.length) (hr' : mem'.read a = c')
    (ho : ∀ x, (x < a ∨ a + clauseBytes c.lits.length ≤ x) → mem' x = mem x) :
    Chain mem' stop o (cs.map (replace a c')) := by
  induction h with
  | nil => simp at hm
  | cons hr h ih =>
    rename_i o d cs
    rw [List.map_cons]
    have hne : ∀ x ∈ cs, x.1 ≠ o := by
      intro x hx he
      have := (h.mem_bounds x hx).1
      unfold clauseBytes at this; omega
    rcases List.mem_cons.1 hm with he | hm
    · obtain ⟨rfl, rfl⟩ := Prod.mk.inj he
      rw [replace, if_pos rfl]
      refine .cons hr' ?_
      rw [hl]
      have : cs.map (replace a c') = cs := by
        rw [List.map_congr_left (g := id), List.map_id]
        intro x hx
        exact if_neg (hne x hx)
      rw [this]
      exact h.congr fun x h1 h2 => ho x (Or.inr h1)
    · have hb := h.mem_bounds _ hm
      simp only at hb
      have ha : o ≠ a := fun e => hne _ hm e.symm
      rw [replace, if_neg ha]
      refine .cons ?_ (ih hm)
      rw [Words.read_congr, hr]
      intro x h1 h2
      rw [size_eq hr] at h2
      exact ho x (Or.inl (by omega))

end Chain

namespace Page

/-- The clauses of a page with their offsets, as its iterator visits them. -/
def cells (p : Page) : List (Nat × Cls) := (p.offsets.getD []).map fun o => (o, p.mem.read o)

theorem cells_of_chain {p : Page} {cs : List (Nat × Cls)} (h : Chain p.mem p.cursor 0 cs) :
    p.offsets = some (cs.map Prod.fst) ∧ p.cells = cs := by
  have hw := h.walk (p.cursor + 1) (by omega)
  refine ⟨hw, ?_⟩
  unfold cells offsets
  rw [hw]
  simp only [Option.getD_some, List.map_map]
  conv => rhs; rw [← List.map_id cs]
  apply List.map_congr_left
  intro x hx
  simp [(h.mem_bounds x hx).2.2]

/-- Layout invariant of a page: the words up to the cursor are clauses, and the cursor is within the
page. -/
structure Ok (p : Page) : Prop where
  chain : Chain p.mem p.cursor 0 p.cells
  bound : p.cursor ≤ p.size

theorem Ok.of_chain {p : Page} {cs : List (Nat × Cls)} (h : Chain p.mem p.cursor 0 cs)
    (hb : p.cursor ≤ p.size) : p.Ok ∧ p.cells = cs := by
  obtain ⟨_, h2⟩ := cells_of_chain h
  exact ⟨⟨by rw [h2]; exact h, hb⟩, h2⟩

theorem new_ok (n : Nat) (junk : Words) : (Page.new n junk).Ok ∧ (Page.new n junk).cells = [] :=
  Ok.of_chain .nil (Nat.zero_le _)

theorem Ok.offsets {p : Page} (h : p.Ok) : p.offsets = some (p.cells.map Prod.fst) :=
  (cells_of_chain h.chain).1

/-- Appending a clause behind the cursor. -/
theorem Ok.append {p : Page} (h : p.Ok) {mem' : Words} {c : Cls}
    (hf : p.cursor + clauseBytes c.lits.length ≤ p.size)
    (ha : Words.Agree mem' p.mem 0 p.cursor) (hr : mem'.read p.cursor = c) :
    let p' : Page := { p with cursor := p.cursor + clauseBytes c.lits.length, mem := mem' }
    p'.Ok ∧ p'.cells = p.cells ++ [(p.cursor, c)] :=
  Ok.of_chain ((h.chain.congr ha).snoc hr) hf

theorem Ok.modify {p : Page} (h : p.Ok) {mem' : Words} {a : Nat} {c c' : Cls}
    (hm : (a, c) ∈ p.cells) (hl : c'.lits.length = c.lits.length) (hr : mem'.read a = c')
    (ho : ∀ x, (x < a ∨ a + clauseBytes c.lits.length ≤ x) → mem' x = p.mem x) :
    let p' : Page := { p with mem := mem' }
    p'.Ok ∧ p'.cells = p.cells.map (Chain.replace a c') :=
  Ok.of_chain (h.chain.modify hm hl hr ho) h.bound

end Page

/-! ### Memories -/

namespace AMem

/-- The clauses of a list of pages with their pointers; the first page has number `k`. -/
def cellsFrom : Nat → List Page → List (Ptr × Cls)
  | _, [] => []
  | k, p :: ps => p.cells.map (fun x => ((k, x.1), x.2)) ++ cellsFrom (k + 1) ps

/-- All clauses of a memory, in the order of its iterator. -/
def cells (m : AMem) : List (Ptr × Cls) := cellsFrom 0 m.pages.reverse

structure Ok (m : AMem) : Prop where
  pages : ∀ p ∈ m.pages, p.Ok

theorem cellsFrom_append : ∀ (xs ys : List Page) (k : Nat),
    cellsFrom k (xs ++ ys) = cellsFrom k xs ++ cellsFrom (k + xs.length) ys
  | [], _, _ => by simp [cellsFrom]
  | x :: xs, ys, k => by
    simp only [List.cons_append, cellsFrom, cellsFrom_append xs ys (k + 1), List.append_assoc,
      List.length_cons]
    rw [show k + 1 + xs.length = k + (xs.length + 1) by omega]

theorem walkPages_eq : ∀ (ps : List Page) (k : Nat), (∀ p ∈ ps, p.Ok) →
    walkPages k ps = some ((cellsFrom k ps).map Prod.fst)
  | [], _, _ => rfl
  | p :: ps, k, h => by
    rw [walkPages, (h p (by simp)).offsets, walkPages_eq ps (k + 1) (fun q hq => h q (by simp [hq]))]
    simp [cellsFrom, Function.comp_def]

theorem mem_cellsFrom {x : Ptr × Cls} : ∀ (ps : List Page) (k : Nat), x ∈ cellsFrom k ps ↔
    ∃ i p, ps[i]? = some p ∧ x.1.1 = k + i ∧ (x.1.2, x.2) ∈ p.cells
  | [], _ => by simp [cellsFrom]
  | p :: ps, k => by
    rw [cellsFrom, List.mem_append, mem_cellsFrom ps (k + 1)]
    constructor
    · rintro (h | ⟨i, q, h1, h2, h3⟩)
      · obtain ⟨y, hy, rfl⟩ := List.mem_map.1 h
        exact ⟨0, p, by simp, by simp, hy⟩
      · exact ⟨i + 1, q, by simpa using h1, by omega, h3⟩
    · rintro ⟨i, q, h1, h2, h3⟩
      cases i with
      | zero =>
        left
        have hp : p = q := by simpa using h1
        subst hp
        exact List.mem_map.2 ⟨_, h3, by obtain ⟨⟨a, b⟩, c⟩ := x; simp at h2 ⊢; omega⟩
      | succ i => exact Or.inr ⟨i, q, by simpa using h1, by omega, h3⟩

theorem cellsFrom_nodup : ∀ (ps : List Page) (k : Nat), (∀ p ∈ ps, p.Ok) →
    ((cellsFrom k ps).map Prod.fst).Nodup
  | [], _, _ => by simp [cellsFrom]
  | p :: ps, k, h => by
    rw [cellsFrom, List.map_append, List.nodup_append]
    refine ⟨?_, cellsFrom_nodup ps (k + 1) (fun q hq => h q (by simp [hq])), ?_⟩
    · have := (h p (by simp)).chain.nodup
      rw [List.map_map]
      have e : p.cells.map (Prod.fst ∘ fun x => ((k, x.1), x.2)) =
          (p.cells.map Prod.fst).map fun o => (k, o) := by
        rw [List.map_map]; rfl
      rw [e, List.nodup_iff_pairwise_ne, List.pairwise_map]
      exact this.imp fun hne he => hne (by simpa using he)
    · intro a ha b hb he
      obtain ⟨x, hx, rfl⟩ := List.mem_map.1 ha
      obtain ⟨y, hy, rfl⟩ := List.mem_map.1 hb
      obtain ⟨z, hz, rfl⟩ := List.mem_map.1 hx
      obtain ⟨i, q, h1, h2, h3⟩ := (mem_cellsFrom ps (k + 1)).1 hy
      rw [← he] at h2
      simp only at h2
      omega

variable {m : AMem}

theorem Ok.walk (h : m.Ok) : m.walk = some (m.cells.map Prod.fst) :=
  walkPages_eq _ _ (by simpa using h.pages)

theorem Ok.nodup (h : m.Ok) : (m.cells.map Prod.fst).Nodup :=
  cellsFrom_nodup _ _ (by simpa using h.pages)

/-- Every clause can be read through its pointer. -/
theorem Ok.read (h : m.Ok) {a : Ptr} {c : Cls} (hm : (a, c) ∈ m.cells) : m.read a = c := by
  obtain ⟨i, p, h1, h2, h3⟩ := (mem_cellsFrom _ _).1 hm
  simp only [Nat.zero_add] at h2
  have hp : p ∈ m.pages := by simpa using List.mem_of_getElem? h1
  unfold AMem.read page?
  rw [h2, h1]
  exact ((h.pages p hp).chain.mem_bounds _ h3).2.2

theorem Ok.collect (h : m.Ok) :
    m.collect = some ((m.cells.filter fun x => !x.2.isDeleted).map Prod.fst) := by
  unfold AMem.collect
  rw [h.walk, Option.map_some, List.filter_map]
  congr 2
  apply List.filter_congr
  intro x hx
  simp [h.read (show (x.1, x.2) ∈ m.cells from hx)]

/-- Allocation appends one clause and leaves the others alone. -/
theorem Ok.allocate (h : m.Ok) (junk : Words) {f : Words → Nat → Words} {c : Cls}
    (hfit : clauseBytes c.lits.length < m.pageSize)
    (hr : ∀ mem o, (f mem o).read o = c)
    (ho : ∀ mem o, Words.Agree (f mem o) mem 0 o) :
    (m.allocate junk c.lits.length f).1.Ok ∧
    (m.allocate junk c.lits.length f).1.cells = m.cells ++ [((m.allocate junk c.lits.length f).2, c)] ∧
    (m.allocate junk c.lits.length f).1.pageSize = m.pageSize := by
  -- the pages after a new one was opened if necessary
  have key : ∀ (p : Page) (ps : List Page), p.Ok → (∀ q ∈ ps, q.Ok) →
      p.hasMemory c.lits.length = true →
      cellsFrom 0 (p :: ps).reverse = m.cells →
      let p' : Page := { p with cursor := p.cursor + clauseBytes c.lits.length, mem := f p.mem p.cursor }
      (∀ q ∈ p' :: ps, q.Ok) ∧
      cellsFrom 0 (p' :: ps).reverse = m.cells ++ [((ps.length, p.cursor), c)] := by
    intro p ps hp hps hm hc p'
    simp only [Page.hasMemory, decide_eq_true_eq] at hm
    obtain ⟨h1, h2⟩ := hp.append (mem' := f p.mem p.cursor) (c := c) (by omega) (ho _ _) (hr _ _)
    constructor
    · intro q hq
      rcases List.mem_cons.1 hq with rfl | hq
      · exact h1
      · exact hps q hq
    · rw [← hc]
      simp only [List.reverse_cons, cellsFrom_append, List.length_reverse, cellsFrom,
        List.append_nil, p', h2]
      simp
  unfold AMem.allocate
  cases hp : m.pages with
  | nil =>
    obtain ⟨k1, k2⟩ := key (Page.new m.pageSize junk) [] (Page.new_ok _ _).1 (by simp)
      (by simpa [Page.hasMemory, Page.new] using hfit)
      (by simp [cells, hp, cellsFrom, (Page.new_ok _ _).2])
    exact ⟨⟨k1⟩, k2, rfl⟩
  | cons p ps =>
    have hok := h.pages
    rw [hp] at hok
    dsimp only
    by_cases hm : p.hasMemory c.lits.length = true
    · rw [if_pos hm]
      obtain ⟨k1, k2⟩ := key p ps (hok p (by simp)) (fun q hq => hok q (by simp [hq])) hm
        (by simp [cells, hp])
      exact ⟨⟨k1⟩, k2, rfl⟩
    · rw [if_neg hm]
      obtain ⟨k1, k2⟩ := key (Page.new m.pageSize junk) (p :: ps) (Page.new_ok _ _).1 hok
        (by simpa [Page.hasMemory, Page.new] using hfit)
        (by
          unfold cells
          rw [hp, List.reverse_cons, cellsFrom_append]
          simp [cellsFrom, (Page.new_ok _ _).2])
      exact ⟨⟨k1⟩, k2, rfl⟩

/-- Replace the clause at a pointer. -/
def replace (a : Ptr) (c' : Cls) (x : Ptr × Cls) : Ptr × Cls := if x.1 = a then (a, c') else x

theorem cellsFrom_modify {p : Page} {p' : Page} {o : Nat} {c' : Cls}
    (hc : p'.cells = p.cells.map (Chain.replace o c')) :
    ∀ (ps : List Page) (k i : Nat), ps[i]? = some p →
      cellsFrom k (ps.modify i fun _ => p') = (cellsFrom k ps).map (replace (k + i, o) c')
  | [], _, _, h => by simp at h
  | q :: ps, k, 0, h => by
    have : q = p := by simpa using h
    subst this
    simp only [List.modify_zero_cons, cellsFrom, hc, List.map_append, List.map_map]
    congr 1
    · apply List.map_congr_left
      intro x _
      simp only [Function.comp, Chain.replace, replace, Nat.add_zero, Prod.mk.injEq, true_and]
      split <;> simp_all
    · conv => lhs; rw [← List.map_id (cellsFrom (k + 1) ps)]
      apply List.map_congr_left
      intro x hx
      obtain ⟨i, _, _, h2, _⟩ := (mem_cellsFrom ps (k + 1)).1 hx
      simp only [replace]
      rw [if_neg]
      · rfl
      · intro e; rw [e] at h2; simp at h2; omega
  | q :: ps, k, i + 1, h => by
    simp only [List.modify_succ_cons, cellsFrom, List.map_append]
    rw [cellsFrom_modify hc ps (k + 1) i (by simpa using h)]
    rw [show k + 1 + i = k + (i + 1) by omega]
    congr 1
    conv => lhs; rw [← List.map_id (List.map _ q.cells)]
    apply List.map_congr_left
    intro x hx
    obtain ⟨y, _, rfl⟩ := List.mem_map.1 hx
    simp only [replace]
    rw [if_neg]
    · rfl
    · intro e; simp at e

/-- Writing to one clause. -/
theorem Ok.setMem (h : m.Ok) {a : Ptr} {c c' : Cls} {f : Words → Words} (hm : (a, c) ∈ m.cells)
    (hl : c'.lits.length = c.lits.length)
    (hr : ∀ mem : Words, mem.read a.2 = c → (f mem).read a.2 = c')
    (ho : ∀ mem : Words, mem.read a.2 = c → ∀ x,
      (x < a.2 ∨ a.2 + clauseBytes c.lits.length ≤ x) → f mem x = mem x) :
    (m.setMem a.1 f).Ok ∧ (m.setMem a.1 f).cells = m.cells.map (replace a c') ∧
    (m.setMem a.1 f).pageSize = m.pageSize := by
  obtain ⟨i, p, h1, h2, h3⟩ := (mem_cellsFrom _ _).1 hm
  simp only [Nat.zero_add] at h2
  have hp : p ∈ m.pages := by simpa using List.mem_of_getElem? h1
  have hread := ((h.pages p hp).chain.mem_bounds _ h3).2.2
  obtain ⟨k1, k2⟩ := (h.pages p hp).modify h3 hl (hr _ hread) (ho _ hread)
  have e : m.pages.reverse.modify a.1 (fun p => { p with mem := f p.mem }) =
      m.pages.reverse.modify a.1 (fun _ => { p with mem := f p.mem }) := by
    apply List.ext_getElem?
    intro j
    rw [List.getElem?_modify, List.getElem?_modify]
    by_cases hj : a.1 = j
    · subst hj
      rw [h2, h1]; simp
    · simp [hj]
  refine ⟨⟨?_⟩, ?_, rfl⟩
  · intro q hq
    simp only [AMem.setMem, List.mem_reverse] at hq
    rw [e] at hq
    obtain ⟨j, hj⟩ := List.mem_iff_getElem?.1 hq
    rw [List.getElem?_modify] at hj
    cases hq' : m.pages.reverse[j]? with
    | none => rw [hq'] at hj; simp at hj
    | some r =>
      rw [hq'] at hj
      by_cases hj' : a.1 = j
      · simp [hj'] at hj; subst hj; exact k1
      · simp [hj'] at hj; subst hj
        exact h.pages r (by simpa using List.mem_of_getElem? hq')
  · simp only [cells, AMem.setMem, List.reverse_reverse]
    rw [e, h2, cellsFrom_modify k2 _ 0 i h1]
    congr 2
    simp [Prod.ext_iff, h2]

/-! ### Reorganisation -/

theorem read_copyWords (src dst : Words) (o d : Nat) :
    (copyWords src o (clauseBytes (src.size o)) dst d).read d = src.read o := by
  have hb : clauseBytes (src.size o) = 4 + 4 * src.size o := by unfold clauseBytes; omega
  have h0 : copyWords src o (clauseBytes (src.size o)) dst d d = src o := by
    unfold copyWords; rw [if_pos (by omega)]; simp
  have hs : Words.size (copyWords src o (clauseBytes (src.size o)) dst d) d = src.size o := by
    show copyWords src o (clauseBytes (src.size o)) dst d d % 65536 = _
    rw [h0]; rfl
  have hl : Words.lits (copyWords src o (clauseBytes (src.size o)) dst d) d = src.lits o := by
    unfold Words.lits
    rw [hs]
    apply List.map_congr_left
    intro i hi
    rw [List.mem_range] at hi
    congr 1
    unfold copyWords
    rw [if_pos (by omega)]
    congr 1
    omega
  simp [Words.read, hl, Words.weight, h0]

theorem moveClauses_cells (junk : Words) (src : Words) : ∀ (os : List Nat) (m : AMem), m.Ok →
    (∀ o ∈ os, clauseBytes (src.size o) < m.pageSize) →
    (moveClauses junk src os m).Ok ∧
    (moveClauses junk src os m).cells.map Prod.snd =
      m.cells.map Prod.snd ++ (os.map src.read).filter (fun c => !c.isDeleted) ∧
    (moveClauses junk src os m).pageSize = m.pageSize
  | [], m, h, _ => ⟨h, by simp [moveClauses], rfl⟩
  | o :: os, m, h, hb => by
    have hb' : ∀ x ∈ os, clauseBytes (src.size x) < m.pageSize := fun x hx => hb x (by simp [hx])
    rw [moveClauses]
    by_cases hd : (src.read o).isDeleted = true
    · rw [if_pos hd]
      obtain ⟨a, b, c⟩ := moveClauses_cells junk src os m h hb'
      refine ⟨a, ?_, c⟩
      rw [b]; simp [hd]
    · rw [if_neg hd]
      have hsz : (src.read o).lits.length = src.size o := Words.lits_length src o
      have hbo := hb o (by simp)
      rw [← hsz] at hbo
      obtain ⟨a1, a2, a3⟩ := h.allocate junk
        (f := copyWords src o (clauseBytes (src.size o))) (c := src.read o) hbo
        (fun mem d => read_copyWords src mem o d)
        (fun mem d x _ hx => by unfold copyWords; rw [if_neg (by omega)])
      rw [hsz] at a1 a2 a3
      obtain ⟨b1, b2, b3⟩ := moveClauses_cells junk src os _ a1 (by rw [a3]; exact hb')
      refine ⟨b1, ?_, b3.trans a3⟩
      rw [b2, a2]
      simp [hd]

theorem movePages_cells (junk : Words) : ∀ (ps : List Page) (m : AMem) (k : Nat), m.Ok →
    (∀ p ∈ ps, p.Ok) → (∀ p ∈ ps, ∀ x ∈ p.cells, clauseBytes x.2.lits.length < m.pageSize) →
    ∃ m', movePages junk ps m = some m' ∧ m'.Ok ∧ m'.cells.map Prod.snd =
      m.cells.map Prod.snd ++ ((cellsFrom k ps).map Prod.snd).filter (fun c => !c.isDeleted) ∧
      m'.pageSize = m.pageSize
  | [], m, k, h, _, _ => ⟨m, rfl, h, by simp [cellsFrom], rfl⟩
  | p :: ps, m, k, h, hp, hb => by
    have hpo := hp p (by simp)
    rw [movePages, hpo.offsets]
    have hrd : ∀ x ∈ p.cells, p.mem.read x.1 = x.2 := fun x hx => (hpo.chain.mem_bounds x hx).2.2
    obtain ⟨a1, a2, a3⟩ := moveClauses_cells junk p.mem (p.cells.map Prod.fst) m h (by
      intro o ho
      obtain ⟨x, hx, rfl⟩ := List.mem_map.1 ho
      rw [Chain.size_eq (hrd x hx)]
      exact hb p (by simp) x hx)
    obtain ⟨m', b1, b2, b3, b4⟩ := movePages_cells junk ps _ (k + 1) a1
      (fun q hq => hp q (by simp [hq])) (by rw [a3]; exact fun q hq => hb q (by simp [hq]))
    refine ⟨m', b1, b2, ?_, b4.trans a3⟩
    have e : (p.cells.map Prod.fst).map p.mem.read = p.cells.map Prod.snd := by
      rw [List.map_map]
      exact List.map_congr_left hrd
    rw [b3, a2, e]
    simp [cellsFrom, Function.comp_def]

theorem Ok.reallocate (h : m.Ok) (junk : Words)
    (hb : ∀ x ∈ m.cells, clauseBytes x.2.lits.length < m.pageSize) :
    ∃ m', m.reallocate junk = some m' ∧ m'.Ok ∧
      m'.cells.map Prod.snd = (m.cells.map Prod.snd).filter (fun c => !c.isDeleted) ∧
      m'.pageSize = m.pageSize := by
  obtain ⟨m', a, b, c, d⟩ := movePages_cells junk m.pages.reverse
    ⟨m.pageSize, [Page.new m.used junk]⟩ 0 ⟨by simp [Page.new_ok]⟩ (by simpa using h.pages) (by
      intro p hp x hx
      obtain ⟨i, hi⟩ := List.mem_iff_getElem?.1 hp
      exact hb ((i, x.1), x.2) ((mem_cellsFrom _ _).2 ⟨i, p, hi, by simp, hx⟩))
  refine ⟨m', a, b, ?_, d⟩
  rw [c]
  simp [cells, cellsFrom, (Page.new_ok _ _).2]

end AMem

end Candy
