import Verif.Proofs.Allocator
import Verif.Proofs.Solve

/-!
# Properties of clause memory (C34, C48)
-/

namespace Candy

/-! ## C34 -/

/-- The weight written by `Clause::setDeleted`. -/
def Live (c : Cls) : Bool := c.weight != 65535

/-- Overwrite the entry of a pointer in a list of clauses with their pointers. -/
def setAt (a : Addr) (c' : Cls) (m : List (Addr × Cls)) : List (Addr × Cls) :=
  m.map fun x => if x.1 = a then (a, c') else x

/-- `AllocRun al m`: some sequence of operations on clause memory leads to `al`; `m` are the clauses
that callers hold, with their pointers: what was created since, as modified since. `junk` are the
arbitrary contents of fresh memory.

After `reorganize` the old pointers are void; callers hold what `collect` returns. -/
inductive AllocRun : Alloc → List (Addr × Cls) → Prop
  | new : AllocRun .new []
  | create {al : Alloc} {m : List (Addr × Cls)} (h : AllocRun al m) (junk : Words) (ls : List Lit)
      (w : Nat) (hl : ls.length ≤ 65535) (hw : w ≤ 65535) :
      AllocRun (al.create junk ls w).1 (m ++ [((al.create junk ls w).2, ⟨ls, w⟩)])
  | setWeight {al : Alloc} {m : List (Addr × Cls)} (h : AllocRun al m) {a : Addr} {c : Cls}
      (hm : (a, c) ∈ m) (w : Nat) (hw : w ≤ 65535) :
      AllocRun (al.setWeight a w) (setAt a ⟨c.lits, w⟩ m)
  | swap {al : Alloc} {m : List (Addr × Cls)} (h : AllocRun al m) {a : Addr} {c : Cls}
      (hm : (a, c) ∈ m) (i j : Nat) (hi : i < c.lits.length) (hj : j < c.lits.length) :
      AllocRun (al.swap a i j) (setAt a ⟨Words.swapList c.lits i j, c.weight⟩ m)
  | reorganize {al al' : Alloc} {m : List (Addr × Cls)} {as : List Addr} (h : AllocRun al m)
      (junk : Words) (hr : al.reorganize junk = some al') (hc : al'.collect = some as) :
      AllocRun al' (as.map fun a => (a, al'.read a))

/-- All clauses in memory with their pointers. -/
def Alloc.cells (al : Alloc) : List (Addr × Cls) :=
  al.memory.cells.map (fun x => (⟨false, x.1⟩, x.2)) ++ al.facts.cells.map (fun x => (⟨true, x.1⟩, x.2))

structure Alloc.Ok (al : Alloc) : Prop where
  memory : al.memory.Ok
  facts : al.facts.Ok
  ms : al.memory.pageSize = 32 * 1024 * 1024
  fs : al.facts.pageSize = 1024 * 1024

/-- Relation between memory and the clauses callers hold. -/
structure AllocInv (al : Alloc) (m : List (Addr × Cls)) : Prop where
  ok : al.Ok
  sub : ∀ x ∈ m, x ∈ al.cells
  live : ∀ x ∈ al.cells, Live x.2 = true → x ∈ m
  nodup : (m.map Prod.fst).Nodup

theorem live_eq (c : Cls) : (!c.isDeleted) = Live c := rfl

theorem mem_cells {al : Alloc} {a : Addr} {c : Cls} : (a, c) ∈ al.cells ↔
    if a.fact then (a.ptr, c) ∈ al.facts.cells else (a.ptr, c) ∈ al.memory.cells := by
  obtain ⟨f, p⟩ := a
  cases f <;> simp [Alloc.cells]

theorem Alloc.Ok.read {al : Alloc} (h : al.Ok) {a : Addr} {c : Cls} (hm : (a, c) ∈ al.cells) :
    al.read a = c := by
  rw [mem_cells] at hm
  unfold Alloc.read
  split at hm
  · rename_i hf; rw [if_pos hf]; exact h.facts.read hm
  · rename_i hf; rw [if_neg hf]; exact h.memory.read hm

theorem Alloc.Ok.cells_nodup {al : Alloc} (h : al.Ok) : (al.cells.map Prod.fst).Nodup := by
  have h1 := h.memory.nodup
  have h2 := h.facts.nodup
  unfold Alloc.cells
  rw [List.map_append, List.map_map, List.map_map, List.nodup_append]
  have e : ∀ (b : Bool) (xs : List (Ptr × Cls)),
      xs.map (Prod.fst ∘ fun x => ((⟨b, x.1⟩ : Addr), x.2)) = (xs.map Prod.fst).map (Addr.mk b) := by
    intro b xs; rw [List.map_map]; rfl
  rw [e, e]
  refine ⟨?_, ?_, ?_⟩
  · rw [List.nodup_iff_pairwise_ne, List.pairwise_map]
    exact h1.imp fun hne he => hne (by simpa using he)
  · rw [List.nodup_iff_pairwise_ne, List.pairwise_map]
    exact h2.imp fun hne he => hne (by simpa using he)
  · intro a ha b hb
    obtain ⟨x, _, rfl⟩ := List.mem_map.1 ha
    obtain ⟨y, _, rfl⟩ := List.mem_map.1 hb
    simp

theorem Alloc.Ok.collect {al : Alloc} (h : al.Ok) :
    al.collect = some ((al.cells.filter fun x => Live x.2).map Prod.fst) := by
  unfold Alloc.collect
  rw [h.memory.collect, h.facts.collect]
  simp only [Alloc.cells, List.filter_append, List.map_append, List.filter_map, List.map_map]
  rfl

theorem nodup_of_map {α β : Type} {f : α → β} {xs : List α} (h : (xs.map f).Nodup) : xs.Nodup := by
  rw [List.nodup_iff_pairwise_ne, List.pairwise_map] at h
  exact h.imp fun hne he => hne (by rw [he])

theorem fst_inj {α β : Type} {xs : List (α × β)} (h : (xs.map Prod.fst).Nodup) {a : α} {b c : β}
    (h1 : (a, b) ∈ xs) (h2 : (a, c) ∈ xs) : b = c := by
  induction xs with
  | nil => simp at h1
  | cons x xs ih =>
    rw [List.map_cons, List.nodup_cons] at h
    rcases List.mem_cons.1 h1 with rfl | h1'
    · rcases List.mem_cons.1 h2 with e | h2'
      · exact (Prod.mk.inj e).2.symm
      · exact (h.1 (List.mem_map.2 ⟨_, h2', rfl⟩)).elim
    · rcases List.mem_cons.1 h2 with rfl | h2'
      · exact (h.1 (List.mem_map.2 ⟨_, h1', rfl⟩)).elim
      · exact ih h.2 h1' h2'

/-- The clauses of all cells fit into a page. -/
theorem cell_fits {m : AMem} (h : m.Ok) {n : Nat} (hn : 4 * 65536 < n) :
    ∀ x ∈ m.cells, clauseBytes x.2.lits.length < n := by
  intro x hx
  have hr := h.read (a := x.1) (c := x.2) hx
  have : x.2.lits.length < 65536 := by
    rw [← hr]
    unfold AMem.read
    split
    · show (Words.lits _ _).length < _
      rw [Words.lits_length]; exact Words.size_lt _ _
    · simp
  unfold clauseBytes; omega

theorem AllocInv.create {al : Alloc} {m : List (Addr × Cls)} (h : AllocInv al m) (junk : Words)
    {ls : List Lit} {w : Nat} (hl : ls.length ≤ 65535) (hw : w ≤ 65535) :
    (al.create junk ls w).2 ∉ al.cells.map Prod.fst ∧
    AllocInv (al.create junk ls w).1 (m ++ [((al.create junk ls w).2, ⟨ls, w⟩)]) := by
  have hr : ∀ (mem : Words) (o : Nat), (mem.construct o ls w).read o = ⟨ls, w⟩ :=
    fun mem o => Words.read_construct mem o (by omega) (by omega)
  have ho : ∀ (mem : Words) (o : Nat), Words.Agree (mem.construct o ls w) mem 0 o :=
    fun mem o x _ hx => Words.construct_other _ _ _ _ _ (Or.inl hx)
  have hfit : clauseBytes ls.length < 1024 * 1024 := by unfold clauseBytes; omega
  -- both cases: the cells of the new state are the old ones and the new clause
  have key : (al.create junk ls w).1.Ok ∧ ∀ x, x ∈ (al.create junk ls w).1.cells ↔
      x ∈ al.cells ∨ x = ((al.create junk ls w).2, ⟨ls, w⟩) := by
    unfold Alloc.create
    by_cases h1 : ls.length = 1
    · rw [if_pos h1]
      obtain ⟨a, b, c⟩ := h.ok.facts.allocate junk (c := ⟨ls, w⟩)
        (f := fun mem o => mem.construct o ls w) (by rw [h.ok.fs]; exact hfit) hr ho
      simp only [h1] at a b c
      refine ⟨⟨h.ok.memory, a, h.ok.ms, c.trans h.ok.fs⟩, ?_⟩
      rintro ⟨⟨f, p⟩, c⟩
      rw [mem_cells, mem_cells]
      dsimp only
      rw [b]
      cases f <;> simp
    · rw [if_neg h1]
      obtain ⟨a, b, c⟩ := h.ok.memory.allocate junk (c := ⟨ls, w⟩)
        (f := fun mem o => mem.construct o ls w)
        (by rw [h.ok.ms]; simp only; omega) hr ho
      simp only at a b c
      refine ⟨⟨a, h.ok.facts, c.trans h.ok.ms, h.ok.fs⟩, ?_⟩
      rintro ⟨⟨f, p⟩, c⟩
      rw [mem_cells, mem_cells]
      dsimp only
      rw [b]
      cases f <;> simp
  have hfresh : (al.create junk ls w).2 ∉ al.cells.map Prod.fst := by
    unfold Alloc.create
    by_cases h1 : ls.length = 1
    · rw [if_pos h1]
      obtain ⟨a, b, c⟩ := h.ok.facts.allocate junk (c := ⟨ls, w⟩)
        (f := fun mem o => mem.construct o ls w) (by rw [h.ok.fs]; exact hfit) hr ho
      have := a.nodup
      rw [b] at this
      simp only [h1, List.map_append, List.nodup_append] at this
      intro hm
      obtain ⟨⟨a, c⟩, hx, he⟩ := List.mem_map.1 hm
      simp only at he; subst he
      rw [mem_cells] at hx
      exact this.2.2 _ (List.mem_map.2 ⟨_, hx, rfl⟩) _ (by simp) rfl
    · rw [if_neg h1]
      obtain ⟨a, b, c⟩ := h.ok.memory.allocate junk (c := ⟨ls, w⟩)
        (f := fun mem o => mem.construct o ls w)
        (by rw [h.ok.ms]; simp only; omega) hr ho
      have := a.nodup
      rw [b] at this
      simp only [List.map_append, List.nodup_append] at this
      intro hm
      obtain ⟨⟨a, c⟩, hx, he⟩ := List.mem_map.1 hm
      simp only at he; subst he
      rw [mem_cells] at hx
      exact this.2.2 _ (List.mem_map.2 ⟨_, hx, rfl⟩) _ (by simp) rfl
  refine ⟨hfresh, key.1, ?_, ?_, ?_⟩
  · intro x hx
    rw [key.2]
    rcases List.mem_append.1 hx with hx | hx
    · exact Or.inl (h.sub x hx)
    · exact Or.inr (by simpa using hx)
  · intro x hx hlv
    rw [List.mem_append]
    rcases (key.2 x).1 hx with hx | hx
    · exact Or.inl (h.live x hx hlv)
    · exact Or.inr (by simpa using hx)
  · rw [List.map_append, List.nodup_append]
    refine ⟨h.nodup, by simp, ?_⟩
    intro a ha b hb he
    simp only [List.map_cons, List.map_nil, List.mem_singleton] at hb
    obtain ⟨x, hx, rfl⟩ := List.mem_map.1 ha
    exact hfresh (by rw [← hb, ← he]; exact List.mem_map.2 ⟨x, h.sub x hx, rfl⟩)

theorem AllocInv.modify {al : Alloc} {m : List (Addr × Cls)} (h : AllocInv al m) {a : Addr} {c c' : Cls}
    {f : Words → Nat → Words} (hm : (a, c) ∈ m) (hl : c'.lits.length = c.lits.length)
    (hr : ∀ mem : Words, mem.read a.ptr.2 = c → (f mem a.ptr.2).read a.ptr.2 = c')
    (ho : ∀ mem : Words, mem.read a.ptr.2 = c → ∀ x,
      (x < a.ptr.2 ∨ a.ptr.2 + clauseBytes c.lits.length ≤ x) → f mem a.ptr.2 x = mem x) :
    AllocInv (al.modify a f) (setAt a c' m) := by
  have hmc := h.sub _ hm
  have key : (al.modify a f).Ok ∧ (al.modify a f).cells = setAt a c' al.cells := by
    have hmc := hmc
    rw [mem_cells] at hmc
    obtain ⟨b, p⟩ := a
    have other : ∀ (b b' : Bool) (xs : List (Ptr × Cls)), b ≠ b' →
        setAt ⟨b, p⟩ c' (xs.map fun x => (⟨b', x.1⟩, x.2)) = xs.map fun x => (⟨b', x.1⟩, x.2) := by
      intro b b' xs hb
      unfold setAt
      rw [List.map_map]
      apply List.map_congr_left
      intro x _
      simp only [Function.comp]
      rw [if_neg]
      intro e; exact hb (by injection e with e _; exact e.symm)
    have same : ∀ (b : Bool) (xs : List (Ptr × Cls)),
        setAt ⟨b, p⟩ c' (xs.map fun x => (⟨b, x.1⟩, x.2)) =
          (xs.map (AMem.replace p c')).map fun x => (⟨b, x.1⟩, x.2) := by
      intro b xs
      unfold setAt
      rw [List.map_map, List.map_map]
      apply List.map_congr_left
      intro x _
      simp only [Function.comp, AMem.replace, Addr.mk.injEq, true_and]
      split <;> simp
    cases b with
    | true =>
      simp only [if_true] at hmc
      obtain ⟨k1, k2, k3⟩ := h.ok.facts.setMem (f := (f · p.2)) hmc hl hr ho
      refine ⟨⟨h.ok.memory, k1, h.ok.ms, k3.trans h.ok.fs⟩, ?_⟩
      unfold Alloc.cells Alloc.modify
      rw [if_pos rfl]
      simp only [k2]
      rw [show ∀ xs ys, setAt ⟨true, p⟩ c' (xs ++ ys) = setAt ⟨true, p⟩ c' xs ++ setAt ⟨true, p⟩ c' ys
        from fun _ _ => List.map_append, other true false _ (by simp), same true]
    | false =>
      simp only [Bool.false_eq_true, if_false] at hmc
      obtain ⟨k1, k2, k3⟩ := h.ok.memory.setMem (f := (f · p.2)) hmc hl hr ho
      refine ⟨⟨k1, h.ok.facts, k3.trans h.ok.ms, h.ok.fs⟩, ?_⟩
      unfold Alloc.cells Alloc.modify
      rw [if_neg (by simp)]
      simp only [k2]
      rw [show ∀ xs ys, setAt ⟨false, p⟩ c' (xs ++ ys) = setAt ⟨false, p⟩ c' xs ++ setAt ⟨false, p⟩ c' ys
        from fun _ _ => List.map_append, other false true _ (by simp), same false]
  refine ⟨key.1, ?_, ?_, ?_⟩
  · intro x hx
    obtain ⟨y, hy, rfl⟩ := List.mem_map.1 hx
    rw [key.2]
    exact List.mem_map.2 ⟨y, h.sub y hy, rfl⟩
  · intro x hx hlv
    rw [key.2] at hx
    obtain ⟨y, hy, rfl⟩ := List.mem_map.1 hx
    refine List.mem_map.2 ⟨y, ?_, rfl⟩
    by_cases hya : y.1 = a
    · obtain ⟨ya, yc⟩ := y
      simp only at hya; subst hya
      have := fst_inj h.ok.cells_nodup hy hmc
      rw [this]; exact hm
    · rw [if_neg hya] at hlv
      exact h.live y hy hlv
  · have : (setAt a c' m).map Prod.fst = m.map Prod.fst := by
      unfold setAt
      rw [List.map_map]
      apply List.map_congr_left
      intro x _
      simp only [Function.comp]
      split
      · rename_i e; exact e.symm
      · rfl
    rw [this]; exact h.nodup

theorem AllocInv.reorganize {al : Alloc} {m : List (Addr × Cls)} (h : AllocInv al m) (junk : Words) :
    ∃ al' as, al.reorganize junk = some al' ∧ al'.collect = some as ∧
      AllocInv al' (as.map fun a => (a, al'.read a)) ∧
      (as.map al'.read).Perm ((m.filter fun x => Live x.2).map Prod.snd) := by
  obtain ⟨mm, h1, h2, h3, h4⟩ := h.ok.memory.reallocate junk
    (cell_fits h.ok.memory (by rw [h.ok.ms]; decide))
  have hok : Alloc.Ok { al with memory := mm } := ⟨h2, h.ok.facts, h4.trans h.ok.ms, h.ok.fs⟩
  refine ⟨{ al with memory := mm }, _, by rw [Alloc.reorganize, h1]; rfl, hok.collect, ?_, ?_⟩
  · have e : (List.map Prod.fst (List.filter (fun x => Live x.2) (Alloc.cells { al with memory := mm }))).map
        (fun a => (a, Alloc.read { al with memory := mm } a)) =
        List.filter (fun x => Live x.2) (Alloc.cells { al with memory := mm }) := by
      rw [List.map_map]
      conv => rhs; rw [← List.map_id (List.filter (fun x => Live x.2) (Alloc.cells { al with memory := mm }))]
      apply List.map_congr_left
      intro x hx
      simp [hok.read (a := x.1) (c := x.2) (List.mem_filter.1 hx).1]
    rw [e]
    refine ⟨hok, fun x hx => (List.mem_filter.1 hx).1, fun x hx hl => List.mem_filter.2 ⟨hx, hl⟩, ?_⟩
    exact hok.cells_nodup.sublist (List.filter_sublist.map _)
  · have e : (List.map Prod.fst (List.filter (fun x => Live x.2) (Alloc.cells { al with memory := mm }))).map
        (Alloc.read { al with memory := mm }) =
        ((Alloc.cells { al with memory := mm }).map Prod.snd).filter Live := by
      rw [List.map_map, List.filter_map]
      apply List.map_congr_left
      intro x hx
      simp [hok.read (a := x.1) (c := x.2) (List.mem_filter.1 hx).1]
    rw [e]
    have e2 : ((Alloc.cells { al with memory := mm }).map Prod.snd).filter Live =
        (al.cells.map Prod.snd).filter Live := by
      simp only [Alloc.cells, List.map_append, List.map_map, List.filter_append]
      congr 1
      have : mm.cells.map (Prod.snd ∘ fun x => ((⟨false, x.1⟩ : Addr), x.2)) = mm.cells.map Prod.snd := rfl
      rw [this, h3]
      rw [List.filter_filter]
      simp only [live_eq, Bool.and_self]
      rfl
    rw [e2]
    have hp : (al.cells.filter fun x => Live x.2).Perm (m.filter fun x => Live x.2) := by
      rw [List.perm_ext_iff_of_nodup]
      · intro x
        rw [List.mem_filter, List.mem_filter]
        exact ⟨fun hx => ⟨h.live x hx.1 hx.2, hx.2⟩, fun hx => ⟨h.sub x hx.1, hx.2⟩⟩
      · exact (nodup_of_map h.ok.cells_nodup).sublist List.filter_sublist
      · exact (nodup_of_map h.nodup).sublist List.filter_sublist
    have := hp.map Prod.snd
    rw [List.filter_map]
    exact this

theorem AllocRun.inv {al : Alloc} {m : List (Addr × Cls)} (h : AllocRun al m) : AllocInv al m := by
  induction h with
  | new =>
    refine ⟨⟨⟨by simp [Alloc.new]⟩, ⟨by simp [Alloc.new]⟩, rfl, rfl⟩, by simp, ?_, by simp⟩
    intro x hx
    simp [Alloc.cells, Alloc.new, AMem.cells, AMem.cellsFrom] at hx
  | create _ junk ls w hl hw ih => exact (ih.create junk hl hw).2
  | setWeight h hm w hw ih =>
    rename_i a c
    refine ih.modify hm (f := fun mem o => mem.setWeight o w) rfl ?_ ?_
    · intro mem hr
      rw [Words.read_setWeight _ _ (by omega), hr]
    · intro mem hr x hx
      exact Words.setWeight_other _ _ _ _ (by unfold clauseBytes at hx; omega)
  | swap h hm i j hi hj ih =>
    rename_i a c
    refine ih.modify hm (f := fun mem o => mem.swap o i j) (Words.swapList_length ..) ?_ ?_
    · intro mem hr
      rw [Words.read_swap _ _ (by rw [hr]; exact hi) (by rw [hr]; exact hj), hr]
    · intro mem hr x hx
      have hs := Chain.size_eq hr
      exact Words.swap_other _ _ _ _ _ (by rw [hs]; exact hi) (by rw [hs]; exact hj)
        (by rw [hs]; exact hx)
  | reorganize _ junk hr hc ih =>
    obtain ⟨al', as, h1, h2, h3, _⟩ := ih.reorganize junk
    rw [hr] at h1; cases h1
    rw [hc] at h2; cases h2
    exact h3

/-- C34 (between reorganisations). After every history of creating, deleting, re-weighting,
reordering and reorganising, for any contents of fresh memory: every clause that callers hold is
found at its pointer with its literals and weight, inside its page; no two clauses share a
pointer; and collecting the clauses returns the pointers of exactly those not marked deleted. -/
theorem C34_contents {al : Alloc} {m : List (Addr × Cls)} (h : AllocRun al m) :
    (∀ x ∈ m, al.read x.1 = x.2) ∧ (m.map Prod.fst).Nodup ∧
    (∀ x ∈ m, ∃ p, (if x.1.fact then al.facts else al.memory).page? x.1.ptr.1 = some p ∧
      x.1.ptr.2 + 4 * (x.2.lits.length + 1) ≤ p.size) ∧
    ∃ as, al.collect = some as ∧ as.Perm ((m.filter fun x => Live x.2).map Prod.fst) := by
  have hi := h.inv
  refine ⟨fun x hx => hi.ok.read (hi.sub x hx), hi.nodup, ?_, _, hi.ok.collect, ?_⟩
  · intro x hx
    have hc := hi.sub x hx
    rw [show x = (x.1, x.2) from rfl, mem_cells] at hc
    have aux : ∀ (mm : AMem), mm.Ok → (x.1.ptr, x.2) ∈ mm.cells →
        ∃ p, mm.page? x.1.ptr.1 = some p ∧ x.1.ptr.2 + 4 * (x.2.lits.length + 1) ≤ p.size := by
      intro mm hok hm
      obtain ⟨i, p, h1, h2, h3⟩ := (AMem.mem_cellsFrom _ _).1 hm
      simp only [Nat.zero_add] at h2
      have hp := hok.pages p (by simpa using List.mem_of_getElem? h1)
      refine ⟨p, by rw [AMem.page?, h2]; exact h1, ?_⟩
      have hb := hp.chain.mem_bounds _ h3
      have := hp.bound
      unfold clauseBytes at hb
      simp only at hb
      omega
    split at hc
    · rename_i hf; rw [if_pos hf]; exact aux _ hi.ok.facts hc
    · rename_i hf; rw [if_neg hf]; exact aux _ hi.ok.memory hc
  · have hp : (al.cells.filter fun x => Live x.2).Perm (m.filter fun x => Live x.2) := by
      rw [List.perm_ext_iff_of_nodup]
      · intro x
        rw [List.mem_filter, List.mem_filter]
        exact ⟨fun hx => ⟨hi.live x hx.1 hx.2, hx.2⟩, fun hx => ⟨hi.sub x hx.1, hx.2⟩⟩
      · exact (nodup_of_map hi.ok.cells_nodup).sublist List.filter_sublist
      · exact (nodup_of_map hi.nodup).sublist List.filter_sublist
    exact hp.map _

/-- C34 (reorganisation). After every history, reorganising clause memory succeeds, and collecting
afterwards yields exactly the clauses that were not marked deleted, each with the literals (in
the same order) and the weight it had before. -/
theorem C34_reorganize {al : Alloc} {m : List (Addr × Cls)} (h : AllocRun al m) (junk : Words) :
    ∃ al' as, al.reorganize junk = some al' ∧ al'.collect = some as ∧
      (as.map al'.read).Perm ((m.filter fun x => Live x.2).map Prod.snd) := by
  obtain ⟨al', as, h1, h2, _, h4⟩ := h.inv.reorganize junk
  exact ⟨al', as, h1, h2, h4⟩

/-- C34 (fresh pointers). A new clause never overlaps a clause callers hold: its pointer is new. -/
theorem C34_fresh {al : Alloc} {m : List (Addr × Cls)} (h : AllocRun al m) (junk : Words)
    (ls : List Lit) (w : Nat) (hl : ls.length ≤ 65535) (hw : w ≤ 65535) :
    (al.create junk ls w).2 ∉ m.map Prod.fst := by
  intro hm
  obtain ⟨x, hx, he⟩ := List.mem_map.1 hm
  exact (h.inv.create junk hl hw).1 (List.mem_map.2 ⟨x, h.inv.sub x hx, he⟩)

/-- Non-vacuity: three clauses are created (one of them a unit clause), one is deleted and one is
reordered; reorganising keeps the other two. -/
def exAlloc : Alloc :=
  let j : Words := fun x => 7 * x
  let a0 := (Alloc.new.create j [pos 0, neg 1, pos 2] 2).1
  let a1 := (a0.create j [neg 4] 0).1
  let r2 := a1.create j [pos 3, neg 5] 0
  (r2.1.setWeight ⟨false, (0, 16)⟩ 65535).swap ⟨false, (0, 0)⟩ 0 2

example : AllocRun exAlloc [(⟨false, (0, 0)⟩, ⟨[pos 2, neg 1, pos 0], 2⟩), (⟨true, (0, 0)⟩, ⟨[neg 4], 0⟩),
    (⟨false, (0, 16)⟩, ⟨[pos 3, neg 5], 65535⟩)] :=
  ((((AllocRun.new.create _ [pos 0, neg 1, pos 2] 2 (by decide) (by decide)).create _ [neg 4] 0
    (by decide) (by decide)).create _ [pos 3, neg 5] 0 (by decide) (by decide)).setWeight
    (a := ⟨false, (0, 16)⟩) (c := ⟨[pos 3, neg 5], 0⟩) (by decide) 65535 (by decide)).swap
    (a := ⟨false, (0, 0)⟩) (c := ⟨[pos 0, neg 1, pos 2], 2⟩) (by decide) 0 2 (by decide) (by decide)

example : ((exAlloc.reorganize fun _ => 99).bind fun al => al.collect.map fun as => as.map al.read) =
    some [⟨[pos 2, neg 1, pos 0], 2⟩, ⟨[neg 4], 0⟩] := by decide

/-- C34 (clause database). `ClauseDatabase::reorganize` lists exactly the clauses that were listed
and not marked deleted, with their literals and weights. -/
theorem C34_database (db : DB) :
    (db.reorganize.clauses.map db.reorganize.store).Perm
      ((db.clauses.map db.store).filter Live) := by
  have h1 : db.reorganize.clauses.map db.reorganize.store = db.collect.map db.store := by
    rw [reorganize_clauses]
    apply List.ext_getElem
    · simp
    · intro i a b
      simp only [List.getElem_map, List.getElem_range]
      rw [reorganize_store (List.getElem?_eq_getElem (by simpa using b))]
  rw [h1]
  have h2 : db.collect.Perm (db.clauses.filter fun c => Live (db.store c)) := by
    unfold DB.collect
    induction db.clauses with
    | nil => exact .refl _
    | cons c cs ih =>
      simp only [List.filter_cons, ← live_eq] at ih ⊢
      by_cases hd : (db.store c).isDeleted = true
      · simpa [hd] using ih
      · by_cases hl : (db.lits c).length = 1
        · simp [hd, hl]
          exact List.perm_middle.trans (by simpa using ih)
        · simp [hd, hl]
          simpa using ih
  have := h2.map db.store
  rw [List.filter_map]
  exact this

/-! ## C48 -/

/-- C48 (partial). A clause of at most 65535 literals with a weight below 65535 is stored as
given, in any memory contents at any offset, and is not marked deleted. Missing: longer clauses
and the weight 65535, for which the statement is false (next theorem). -/
theorem C48_storage_partial (mem : Words) (o : Nat) (ls : List Lit) (w : Nat)
    (hl : ls.length ≤ 65535) (hw : w < 65535) :
    (mem.construct o ls w).read o = ⟨ls, w⟩ ∧ ((mem.construct o ls w).read o).isDeleted = false := by
  have h := Words.read_construct mem o (ls := ls) (w := w) (by omega) (by omega)
  rw [h]
  refine ⟨rfl, ?_⟩
  simp only [Cls.isDeleted, Cls.deletedWeight, beq_eq_false_iff_ne, ne_eq]
  omega

example : (Words.construct (fun _ => 3) 8 [pos 0, neg 3, pos 1] 3).read 8 =
    ⟨[pos 0, neg 3, pos 1], 3⟩ := by decide

/-- C48 fails beyond these ranges: the length field has 16 bits, so a clause of 65536 literals is
stored as the empty clause and one of 65537 literals as its first literal; a clause with weight
65535 is marked deleted from the start. -/
theorem C48_full_statement_fails (mem : Words) (o : Nat) (l : Lit) :
    ((mem.construct o (List.replicate 65536 l) 0).read o).lits = [] ∧
    ((mem.construct o (List.replicate 65537 l) 0).read o).lits = [l] ∧
    ((mem.construct o (List.replicate 65536 l) 65535).read o).isDeleted = true := by
  have h0 : ∀ (ls : List Lit) (w : Nat), mem.construct o ls w o = Words.header ls.length w :=
    fun _ _ => if_pos rfl
  have hs : ∀ (ls : List Lit) (w : Nat), (mem.construct o ls w).size o = ls.length % 65536 := by
    intro ls w; simp only [Words.size, h0, Words.header_size]
  refine ⟨?_, ?_, ?_⟩
  · show Words.lits _ _ = _
    unfold Words.lits
    rw [hs, List.length_replicate]
    rfl
  · show Words.lits _ _ = _
    unfold Words.lits
    rw [hs, List.length_replicate]
    rw [show List.range (65537 % 65536) = [0] from rfl]
    simp only [List.map_cons, List.map_nil, Nat.mul_zero, Nat.add_zero]
    have : mem.construct o (List.replicate 65537 l) 0 (o + 4) = l.word := by
      have e := Words.writeLits_at (List.replicate 65537 l) mem (o + 4) 0
        (by rw [List.length_replicate]; exact Nat.zero_lt_succ _)
      rw [Nat.mul_zero, Nat.add_zero, List.getElem_replicate] at e
      rw [← e]
      exact if_neg (by omega)
    rw [this, Lit.ofWord_word]
  · simp only [Cls.isDeleted, Words.read, Words.weight, h0, Words.header_weight, Cls.deletedWeight]
    decide

end Candy
