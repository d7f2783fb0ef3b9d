import Verif.Model.SharedMemory
import Verif.Proofs.Basic

/-!
# Lemmas about shared clause memory
-/

namespace Candy.Shared

/-- Page numbers. -/
def ids (ps : List Page) : List Nat := ps.map Page.id

theorem ids_append (a b : List Page) : ids (a ++ b) = ids a ++ ids b := by simp [ids]

theorem entries_append (a b : List Page) : entries (a ++ b) = entries a ++ entries b := by simp [entries]

theorem entries_single (p : Page) : entries [p] = p.cells.zipIdx.map fun x => (⟨p.id, x.2⟩, x.1) := by
  simp [entries]

theorem entries_ids {ps : List Page} {a : Ptr} {c : Cell} (h : (a, c) ∈ entries ps) : a.page ∈ ids ps := by
  simp only [entries, List.mem_flatMap, List.mem_map] at h
  obtain ⟨p, hp, x, _, he⟩ := h
  have := congrArg (fun z : Ptr × Cell => z.1.page) he
  simp only at this
  exact List.mem_map.2 ⟨p, hp, this⟩

theorem entries_snoc (p : Page) (c : Cell) : entries [{ p with cells := p.cells ++ [c] }] =
    entries [p] ++ [(⟨p.id, p.cells.length⟩, c)] := by
  simp [entries, List.zipIdx_append]

theorem allocate_spec (m : Mem) (f : Nat) (c : Cell) (n : Nat) :
    entries (m.allocate f c n).1.pages = entries m.pages ++ [((m.allocate f c n).2.1, c)] ∧
      ∃ k, ids (m.allocate f c n).1.pages = ids m.pages ++ List.range' f k ∧ (m.allocate f c n).2.2 = f + k := by
  have hg : entries (m.grow f c).1.pages = entries m.pages ++ [((m.grow f c).2.1, c)] ∧
      ∃ k, ids (m.grow f c).1.pages = ids m.pages ++ List.range' f k ∧ (m.grow f c).2.2 = f + k := by
    refine ⟨by simp [Mem.grow, entries], 1, by simp [Mem.grow, ids], rfl⟩
  unfold Mem.allocate
  split
  · exact hg
  · rename_i p hp
    split
    · have hd : m.pages = m.pages.dropLast ++ [p] := by
        obtain ⟨ys, hys⟩ := List.getLast?_eq_some_iff.1 hp
        rw [hys]; simp
      refine ⟨?_, 0, ?_, rfl⟩
      · show entries (m.pages.dropLast ++ [_]) = _
        rw [entries_append, entries_snoc, ← List.append_assoc, ← entries_append, ← hd]
      · show ids (m.pages.dropLast ++ [_]) = _
        rw [ids_append]
        conv => rhs; rw [hd, ids_append]
        simp [ids]
    · exact hg

theorem fill_spec (cs : List Cls) : ∀ (m : Mem) (f : Nat),
    (∃ as : List Ptr, as.length = cs.length ∧
      entries (m.fill f cs).1.pages = entries m.pages ++ as.zip (cs.map Cell.full)) ∧
      ∃ k, ids (m.fill f cs).1.pages = ids m.pages ++ List.range' f k ∧ (m.fill f cs).2 = f + k := by
  induction cs with
  | nil => intro m f; exact ⟨⟨[], rfl, by simp [Mem.fill]⟩, 0, by simp [Mem.fill], rfl⟩
  | cons c cs ih =>
    intro m f
    obtain ⟨h1, k1, h2, h3⟩ := allocate_spec m f (.full c) c.lits.length
    obtain ⟨⟨as, hl, h4⟩, k2, h5, h6⟩ := ih (m.allocate f (.full c) c.lits.length).1
      (m.allocate f (.full c) c.lits.length).2.2
    refine ⟨⟨(m.allocate f (.full c) c.lits.length).2.1 :: as, by simp [hl], ?_⟩, k1 + k2, ?_, ?_⟩
    · simp only [Mem.fill]
      rw [h4, h1]; simp
    · simp only [Mem.fill]
      rw [h5, h2, h3, List.append_assoc]
      congr 1
      rw [← List.range'_append_1]
    · simp only [Mem.fill]
      rw [h6, h3]; omega

/-- What a filled memory contains: full cells with the given clauses. -/
theorem fill_mem {m : Mem} {f : Nat} {cs : List Cls} {a : Ptr} {c : Cell}
    (h : (a, c) ∈ entries (m.fill f cs).1.pages) : (a, c) ∈ entries m.pages ∨ ∃ d ∈ cs, c = .full d := by
  obtain ⟨⟨as, _, he⟩, _⟩ := fill_spec cs m f
  rw [he, List.mem_append] at h
  refine h.imp id fun h => ?_
  have := (List.of_mem_zip h).2
  simp only [List.mem_map] at this
  obtain ⟨d, hd, he⟩ := this
  exact ⟨d, hd, he.symm⟩

theorem fill_has {m : Mem} {f : Nat} {cs : List Cls} {d : Cls} (h : d ∈ cs) :
    ∃ a, (a, Cell.full d) ∈ entries (m.fill f cs).1.pages := by
  obtain ⟨⟨as, hl, he⟩, _⟩ := fill_spec cs m f
  rw [he]
  obtain ⟨i, hi, rfl⟩ := List.getElem_of_mem h
  refine ⟨as[i]'(by omega), List.mem_append_right _ ?_⟩
  rw [List.mem_iff_getElem]
  exact ⟨i, by simp; omega, by simp⟩

theorem fill_old {m : Mem} {f : Nat} {cs : List Cls} {x : Ptr × Cell} (h : x ∈ entries m.pages) :
    x ∈ entries (m.fill f cs).1.pages := by
  obtain ⟨⟨as, hl, he⟩, _⟩ := fill_spec cs m f
  rw [he]; exact List.mem_append_left _ h

theorem entries_setCell (ps : List Page) (a : Ptr) (c : Cell) :
    entries (setCell ps a c) = (entries ps).map fun x => if x.1 = a then (x.1, c) else x := by
  induction ps with
  | nil => rfl
  | cons p ps ih =>
    have h1 : entries (setCell (p :: ps) a c) = entries [(if p.id = a.page then
        { p with cells := p.cells.set a.idx c } else p)] ++ entries (setCell ps a c) := by
      rw [← entries_append]; rfl
    have h2 : entries (p :: ps) = entries [p] ++ entries ps := by rw [← entries_append]; rfl
    rw [h1, h2, List.map_append, ih]
    congr 1
    simp only [entries_single]
    split
    · rename_i hp
      apply List.ext_getElem
      · simp
      · intro i h3 h4
        simp only [List.getElem_map, List.getElem_zipIdx, Nat.zero_add, List.getElem_set]
        by_cases hi : a.idx = i
        · subst hi; simp [hp]
        · have : ¬ (⟨p.id, i⟩ : Ptr) = a := fun h => hi (by rw [← h])
          simp [hi, this]
    · rename_i hp
      apply List.ext_getElem
      · simp
      · intro i h3 h4
        simp only [List.getElem_map, List.getElem_zipIdx, Nat.zero_add]
        have : ¬ (⟨p.id, i⟩ : Ptr) = a := fun h => hp (by rw [← h])
        simp [this]

theorem ids_setCell (ps : List Page) (a : Ptr) (c : Cell) : ids (setCell ps a c) = ids ps := by
  simp only [ids, setCell, List.map_map]
  apply List.map_congr_left
  intro p _
  simp only [Function.comp]
  split <;> rfl

theorem entries_nodup {ps : List Page} (h : (ids ps).Nodup) : ((entries ps).map Prod.fst).Nodup := by
  induction ps with
  | nil => simp [entries]
  | cons p ps ih =>
    have h2 : entries (p :: ps) = entries [p] ++ entries ps := by rw [← entries_append]; rfl
    simp only [ids, List.map_cons, List.nodup_cons] at h
    rw [h2, List.map_append, List.nodup_append]
    refine ⟨?_, ih h.2, ?_⟩
    · rw [entries_single, List.map_map]
      have : (Prod.fst ∘ fun x : Cell × Nat => ((⟨p.id, x.2⟩ : Ptr), x.1)) = (fun i => (⟨p.id, i⟩ : Ptr)) ∘ Prod.snd := rfl
      rw [this, ← List.map_map, List.zipIdx_map_snd]
      rw [List.nodup_iff_pairwise_ne, List.pairwise_map]
      refine List.Pairwise.imp ?_ (List.nodup_iff_pairwise_ne.1 List.nodup_range')
      intro i j hij he
      injection he; contradiction
    · intro a ha b hb hab
      subst hab
      obtain ⟨x, hx, rfl⟩ := List.mem_map.1 ha
      obtain ⟨y, hy, he⟩ := List.mem_map.1 hb
      have h3 := entries_ids (c := x.2) (a := x.1) hx
      have h4 := entries_ids (c := y.2) (a := y.1) hy
      simp only [ids, List.map_cons, List.map_nil, List.mem_singleton] at h3
      rw [he, h3] at h4
      exact h.1 h4

theorem find_of_nodup {xs : List (Ptr × Cell)} (h : (xs.map Prod.fst).Nodup) {a : Ptr} {c : Cell}
    (hm : (a, c) ∈ xs) : xs.find? (fun x => x.1 == a) = some (a, c) := by
  induction xs with
  | nil => cases hm
  | cons x xs ih =>
    simp only [List.map_cons, List.nodup_cons] at h
    rw [List.find?_cons]
    rcases List.mem_cons.1 hm with rfl | hm
    · simp
    · have : x.1 ≠ a := fun he => h.1 (List.mem_map.2 ⟨_, hm, he.symm⟩)
      have hb : (x.1 == a) = false := by simpa using this
      rw [hb]; exact ih h.2 hm

theorem read_of_mem {s : Sys} (h : (ids s.all).Nodup) {a : Ptr} {c : Cell} (hm : (a, c) ∈ entries s.all) :
    s.read a = some c := by
  unfold Sys.read
  rw [find_of_nodup (entries_nodup h) hm]; rfl

theorem mem_of_read {s : Sys} {a : Ptr} {c : Cell} (h : s.read a = some c) : (a, c) ∈ entries s.all := by
  unfold Sys.read at h
  cases hf : (entries s.all).find? (fun x => x.1 == a) with
  | none => rw [hf] at h; cases h
  | some x =>
    rw [hf] at h
    have h1 := List.mem_of_find?_eq_some hf
    have h2 := List.find?_some hf
    simp only [beq_iff_eq] at h2
    cases h
    rw [← h2]; exact h1

theorem mem_live {ps : List Page} {a : Ptr} {c : Cls} :
    (a, c) ∈ live ps ↔ (a, Cell.full c) ∈ entries ps ∧ c.isDeleted = false := by
  simp only [live, List.mem_filterMap]
  constructor
  · rintro ⟨⟨b, d⟩, hm, he⟩
    cases d with
    | raw n => cases he
    | full d =>
      simp only [liveCell] at he
      split at he
      · cases he
      · rename_i hd
        simp only [Option.some.injEq, Prod.mk.injEq] at he
        obtain ⟨rfl, rfl⟩ := he
        exact ⟨hm, by simpa using hd⟩
  · rintro ⟨hm, hd⟩
    exact ⟨_, hm, by simp [liveCell, hd]⟩

theorem not_torn {ps : List Page} (h : ∀ a n, (a, Cell.raw n) ∉ entries ps) : torn ps = false := by
  unfold torn
  rw [List.any_eq_false]
  intro ⟨a, c⟩ hx
  cases c with
  | raw n => exact absurd hx (h a n)
  | full c => simp [Cell.isRaw]

theorem mem_setReady {xs : List (Nat × Bool)} {t : Nat} {b : Bool} (hn : (xs.map Prod.fst).Nodup) {y : Nat × Bool} :
    y ∈ setReady xs t b ↔ (y.1 ≠ t ∧ y ∈ xs) ∨ y = (t, b) := by
  induction xs with
  | nil => simp [setReady]
  | cons x xs ih =>
    simp only [List.map_cons, List.nodup_cons] at hn
    simp only [setReady]
    split
    · rename_i hx
      have h2 : ∀ z ∈ xs, z.1 ≠ t := fun z hz he => hn.1 (List.mem_map.2 ⟨z, hz, he.trans hx.symm⟩)
      simp only [List.mem_cons]
      constructor
      · rintro (rfl | h)
        · exact .inr rfl
        · exact .inl ⟨h2 _ h, .inr h⟩
      · rintro (⟨h1, rfl | h⟩ | rfl)
        · exact absurd hx h1
        · exact .inr h
        · exact .inl rfl
    · rename_i hx
      simp only [List.mem_cons, ih hn.2]
      constructor
      · rintro (rfl | ⟨h1, h⟩ | rfl)
        · exact .inl ⟨hx, .inl rfl⟩
        · exact .inl ⟨h1, .inr h⟩
        · exact .inr rfl
      · rintro (⟨h1, rfl | h⟩ | rfl)
        · exact .inl rfl
        · exact .inr (.inl ⟨h1, h⟩)
        · exact .inr (.inr rfl)

theorem setReady_nodup {xs : List (Nat × Bool)} {t : Nat} {b : Bool} (hn : (xs.map Prod.fst).Nodup) :
    ((setReady xs t b).map Prod.fst).Nodup := by
  induction xs with
  | nil => simp [setReady]
  | cons x xs ih =>
    have hn' := hn
    simp only [List.map_cons, List.nodup_cons] at hn
    simp only [setReady]
    split
    · rename_i hx
      simp only [List.map_cons, List.nodup_cons]
      exact ⟨hx ▸ hn.1, hn.2⟩
    · rename_i hx
      simp only [List.map_cons, List.nodup_cons]
      refine ⟨fun h => ?_, ih hn.2⟩
      obtain ⟨y, hy, he⟩ := List.mem_map.1 h
      rcases (mem_setReady hn.2).1 hy with ⟨_, h1⟩ | rfl
      · exact hn.1 (List.mem_map.2 ⟨y, h1, he⟩)
      · exact hx he.symm

end Candy.Shared
