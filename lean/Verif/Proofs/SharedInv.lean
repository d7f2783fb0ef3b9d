import Verif.Proofs.SharedMemory
import Verif.SpecShared

/-!
# The invariant of shared clause memory
-/

namespace Candy.Shared

/-- The pointer points into a page that is not phased out. -/
def Cur (s : Sys) (a : Ptr) : Prop := ∃ c, (a, c) ∈ entries (s.facts.pages ++ s.memory.pages)

theorem Cur.all {s : Sys} {a : Ptr} (h : Cur s a) : ∃ c, (a, c) ∈ entries s.all := by
  obtain ⟨c, hc⟩ := h
  exact ⟨c, by unfold Sys.all; rw [entries_append]; exact List.mem_append_left _ hc⟩

/-- Invariant, without the part about clauses that are not constructed. -/
structure Base (s : Sys) : Prop where
  nd : (ids s.all).Nodup
  lt : ∀ i ∈ ids s.all, i < s.fresh
  keys : ∀ t, (s.thr t).pc ≠ .out → ∃ b, (t, b) ∈ s.ready
  rnd : (s.ready.map Prod.fst).Nodup
  held : ∀ t, ∀ a ∈ (s.thr t).held, ∃ c, (a, Cell.full c) ∈ entries s.all
  cur : ∀ t, ((t, true) ∈ s.ready ∨ (s.thr t).pc = .ready) → ∀ a ∈ (s.thr t).held, Cur s a
  move : ∀ w, Moving (s.thr w).pc → (∀ t, ∀ a ∈ (s.thr t).held, Cur s a) ∧ (∀ t, (s.thr t).pc ≠ .ready) ∧
    (∀ t, (t, true) ∉ s.ready) ∧ ∀ w', Moving (s.thr w').pc → w' = w
  empty : ∀ w, (s.thr w).pc = .realloc → s.phaseOut = []
  wr : ∀ t a c, (s.thr t).pc = .write a c → Cur s a
  col : ∀ t fs, (s.thr t).pc = .collect fs → ∀ a ∈ fs, ∃ c, (a, Cell.full c) ∈ entries s.facts.pages
  outs : ∀ t, (s.thr t).pc = .out → (s.thr t).held = []

/-- Every clause that is not constructed is being constructed by some thread. -/
def RawOk (s : Sys) : Prop := ∀ a n, (a, Cell.raw n) ∈ entries s.all → ∃ t c, (s.thr t).pc = .write a c

/-- Nothing is lost from a list of pages, and constructed clauses stay constructed. -/
def Sub (ps qs : List Page) : Prop :=
  ∀ a c, (a, c) ∈ entries ps → ∃ c', (a, c') ∈ entries qs ∧ ((∃ d, c = .full d) → ∃ d, c' = .full d)

theorem Sub.refl (ps : List Page) : Sub ps ps := fun _ c h => ⟨c, h, id⟩

theorem Sub.append {ps qs ps' qs' : List Page} (h1 : Sub ps ps') (h2 : Sub qs qs') : Sub (ps ++ qs) (ps' ++ qs') := by
  intro a c h
  rw [entries_append, List.mem_append] at h
  rcases h with h | h
  · obtain ⟨c', h3, h4⟩ := h1 a c h
    exact ⟨c', by rw [entries_append]; exact List.mem_append_left _ h3, h4⟩
  · obtain ⟨c', h3, h4⟩ := h2 a c h
    exact ⟨c', by rw [entries_append]; exact List.mem_append_right _ h3, h4⟩

theorem Sub.full {ps qs : List Page} (h : Sub ps qs) {a : Ptr} (hf : ∃ c, (a, Cell.full c) ∈ entries ps) :
    ∃ c, (a, Cell.full c) ∈ entries qs := by
  obtain ⟨c, hc⟩ := hf
  obtain ⟨c', h1, h2⟩ := h a _ hc
  obtain ⟨d, rfl⟩ := h2 ⟨c, rfl⟩
  exact ⟨d, h1⟩

theorem sub_setCell (ps : List Page) (a : Ptr) (d : Cls) : Sub ps (setCell ps a (.full d)) := by
  intro b c h
  rw [entries_setCell]
  by_cases hb : b = a
  · exact ⟨.full d, List.mem_map.2 ⟨_, h, by simp [hb]⟩, fun _ => ⟨d, rfl⟩⟩
  · exact ⟨c, List.mem_map.2 ⟨_, h, by simp [hb]⟩, id⟩

theorem sub_left (ps qs : List Page) : Sub ps (ps ++ qs) :=
  fun _ c h => ⟨c, by rw [entries_append]; exact List.mem_append_left _ h, id⟩

/-- A change of memory that loses nothing. -/
theorem Base.mem {s s' : Sys} (h : Base s) (nd : (ids s'.all).Nodup) (lt : ∀ i ∈ ids s'.all, i < s'.fresh)
    (hr : s'.ready = s.ready) (ht : s'.thr = s.thr) (hf : Sub s.facts.pages s'.facts.pages)
    (hm : Sub s.memory.pages s'.memory.pages) (hq : Sub s.phaseOut s'.phaseOut)
    (he : s.phaseOut = [] → s'.phaseOut = []) : Base s' := by
  have hall : Sub s.all s'.all := (hf.append hm).append hq
  have hcur : ∀ a, Cur s a → Cur s' a := fun a ⟨c, hc⟩ => by
    obtain ⟨c', h1, _⟩ := (hf.append hm) a c hc
    exact ⟨c', h1⟩
  refine ⟨nd, lt, ?_, ?_, ?_, ?_, ?_, ?_, ?_, ?_, ?_⟩
  · rw [hr, ht]; exact h.keys
  · rw [hr]; exact h.rnd
  · rw [ht]; exact fun t a ha => hall.full (h.held t a ha)
  · rw [hr, ht]; exact fun t h1 a ha => hcur a (h.cur t h1 a ha)
  · rw [hr, ht]; exact fun w hw => ⟨fun t a ha => hcur a ((h.move w hw).1 t a ha), (h.move w hw).2⟩
  · rw [ht]; exact fun w hw => he (h.empty w hw)
  · rw [ht]; exact fun t a c hc => hcur a (h.wr t a c hc)
  · rw [ht]; exact fun t fs hc a ha => hf.full (h.col t fs hc a ha)
  · rw [ht]; exact h.outs

theorem set_thr (s : Sys) (t u : Nat) (th : Thread) : (s.set t th).thr u = if u = t then th else s.thr u := by
  unfold Sys.set; exact upd_apply _ _ _ _

theorem set_same (s : Sys) (t : Nat) (th : Thread) : (s.set t th).thr t = th := by rw [set_thr, if_pos rfl]

theorem set_ne (s : Sys) {t u : Nat} (th : Thread) (h : u ≠ t) : (s.set t th).thr u = s.thr u := by
  rw [set_thr, if_neg h]

/-- A change of the thread and of the table of flags. -/
theorem Base.upd {s : Sys} (h : Base s) {t : Nat} {th : Thread} {rd : List (Nat × Bool)}
    (rnd : (rd.map Prod.fst).Nodup) (k1 : ∀ u b, (u, b) ∈ s.ready → ∃ b, (u, b) ∈ rd)
    (k2 : th.pc ≠ .out → ∃ b, (t, b) ∈ rd)
    (hh : ∀ a ∈ th.held, ∃ c, (a, Cell.full c) ∈ entries s.all)
    (c1 : ∀ u, u ≠ t → (u, true) ∈ rd → (u, true) ∈ s.ready)
    (c2 : (t, true) ∈ rd ∨ th.pc = .ready → ∀ a ∈ th.held, Cur s a)
    (m1 : Moving th.pc → (∀ u, ∀ a ∈ (s.thr u).held, Cur s a) ∧ (∀ a ∈ th.held, Cur s a) ∧
      (∀ u, u ≠ t → (s.thr u).pc ≠ .ready) ∧ (∀ u, (u, true) ∉ rd) ∧ ∀ u, u ≠ t → ¬ Moving (s.thr u).pc)
    (m2 : ∀ w, w ≠ t → Moving (s.thr w).pc → (∀ a ∈ th.held, Cur s a) ∧ th.pc ≠ .ready ∧ (t, true) ∉ rd ∧
      ¬ Moving th.pc)
    (em : th.pc = .realloc → s.phaseOut = [])
    (w1 : ∀ a c, th.pc = .write a c → Cur s a)
    (co : ∀ fs, th.pc = .collect fs → ∀ a ∈ fs, ∃ c, (a, Cell.full c) ∈ entries s.facts.pages)
    (ou : th.pc = .out → th.held = []) : Base (Sys.set { s with ready := rd } t th) := by
  have hall : (Sys.set { s with ready := rd } t th).all = s.all := rfl
  have hcur : ∀ a, Cur (Sys.set { s with ready := rd } t th) a ↔ Cur s a := fun a => Iff.rfl
  have hth : ∀ u, u ≠ t → (Sys.set { s with ready := rd } t th).thr u = s.thr u := fun u hu => set_ne _ th hu
  have hts : (Sys.set { s with ready := rd } t th).thr t = th := set_same _ t th
  refine ⟨h.nd, h.lt, ?_, rnd, ?_, ?_, ?_, ?_, ?_, ?_, ?_⟩
  · intro u hu
    by_cases he : u = t
    · subst he; rw [hts] at hu; exact k2 hu
    · rw [hth u he] at hu
      obtain ⟨b, hb⟩ := h.keys u hu
      exact k1 u b hb
  · intro u a ha
    by_cases he : u = t
    · subst he; rw [hts] at ha; exact hh a ha
    · rw [hth u he] at ha; exact h.held u a ha
  · intro u hu a ha
    by_cases he : u = t
    · subst he; rw [hts] at ha hu; exact c2 hu a ha
    · rw [hth u he] at ha hu
      exact h.cur u (hu.imp (c1 u he) id) a ha
  · intro w hw
    by_cases he : w = t
    · subst he; rw [hts] at hw
      obtain ⟨x1, x2, x3, x4, x5⟩ := m1 hw
      refine ⟨?_, ?_, x4, ?_⟩
      · intro u a ha
        by_cases hu : u = w
        · subst hu; rw [hts] at ha; exact x2 a ha
        · rw [hth u hu] at ha; exact x1 u a ha
      · intro u
        by_cases hu : u = w
        · subst hu; rw [hts]; rcases hw with hw | hw <;> rw [hw] <;> exact fun h => by cases h
        · rw [hth u hu]; exact x3 u hu
      · intro u hm
        by_cases hu : u = w
        · exact hu
        · rw [hth u hu] at hm; exact absurd hm (x5 u hu)
    · rw [hth w he] at hw
      obtain ⟨x1, x2, x3, x4⟩ := m2 w he hw
      obtain ⟨y1, y2, y3, y4⟩ := h.move w hw
      refine ⟨?_, ?_, ?_, ?_⟩
      · intro u a ha
        by_cases hu : u = t
        · subst hu; rw [hts] at ha; exact x1 a ha
        · rw [hth u hu] at ha; exact y1 u a ha
      · intro u
        by_cases hu : u = t
        · subst hu; rw [hts]; exact x2
        · rw [hth u hu]; exact y2 u
      · intro u hm
        by_cases hu : u = t
        · subst hu; exact x3 hm
        · exact y3 u (c1 u hu hm)
      · intro u hm
        by_cases hu : u = t
        · subst hu; rw [hts] at hm; exact absurd hm x4
        · rw [hth u hu] at hm; exact y4 u hm
  · intro u hu
    by_cases he : u = t
    · subst he; rw [hts] at hu; exact em hu
    · rw [hth u he] at hu; exact h.empty u hu
  · intro u a c hu
    by_cases he : u = t
    · subst he; rw [hts] at hu; exact w1 a c hu
    · rw [hth u he] at hu; exact h.wr u a c hu
  · intro u fs hu
    by_cases he : u = t
    · subst he; rw [hts] at hu; exact co fs hu
    · rw [hth u he] at hu; exact h.col u fs hu
  · intro u hu
    by_cases he : u = t
    · subst he; rw [hts] at hu ⊢; exact ou hu
    · rw [hth u he] at hu ⊢; exact h.outs u hu

/-- A change of the thread alone, to a state outside the critical sections, that keeps its pointers. -/
theorem Base.pc {s : Sys} (h : Base s) {t : Nat} {th : Thread} (hn : (s.thr t).pc ≠ .out)
    (hl : th.held = (s.thr t).held) (h1 : th.pc ≠ .ready) (h2 : ¬ Moving th.pc)
    (w1 : ∀ a c, th.pc = .write a c → Cur s a)
    (co : ∀ fs, th.pc = .collect fs → ∀ a ∈ fs, ∃ c, (a, Cell.full c) ∈ entries s.facts.pages)
    (ou : th.pc ≠ .out) : Base (s.set t th) := by
  have := h.upd (t := t) (th := th) (rd := s.ready) h.rnd (fun u b hb => ⟨b, hb⟩) (fun _ => h.keys t hn)
    (fun a ha => h.held t a (hl ▸ ha)) (fun _ _ hu => hu)
    (fun hc a ha => h.cur t (hc.imp id fun hc => absurd hc h1) a (hl ▸ ha)) (fun hm => absurd hm h2)
    (fun w _ hw => ⟨fun a ha => (h.move w hw).1 t a (hl ▸ ha), h1, (h.move w hw).2.2.1 t, h2⟩)
    (fun he => absurd (.inr he) h2) w1 co (fun he => absurd he ou)
  exact this

theorem mem_all {s : Sys} {x : Ptr × Cell} : x ∈ entries s.all ↔
    x ∈ entries s.facts.pages ∨ x ∈ entries s.memory.pages ∨ x ∈ entries s.phaseOut := by
  unfold Sys.all
  rw [entries_append, entries_append, List.mem_append, List.mem_append, or_assoc]

theorem cur_iff {s : Sys} {a : Ptr} : Cur s a ↔
    (∃ c, (a, c) ∈ entries s.facts.pages) ∨ ∃ c, (a, c) ∈ entries s.memory.pages := by
  unfold Cur
  simp only [entries_append, List.mem_append, exists_or]

theorem mem_ids_all {s : Sys} {i : Nat} : i ∈ ids s.all ↔
    i ∈ ids s.facts.pages ∨ i ∈ ids s.memory.pages ∨ i ∈ ids s.phaseOut := by
  unfold Sys.all
  rw [ids_append, ids_append, List.mem_append, List.mem_append, or_assoc]

/-- Adding fresh numbers in the middle of a list of numbers. -/
theorem nodup_insert {A B : List Nat} {f k : Nat} (h : (A ++ B).Nodup) (hl : ∀ i ∈ A ++ B, i < f) :
    (A ++ List.range' f k ++ B).Nodup := by
  rw [List.nodup_append] at h ⊢
  obtain ⟨h1, h2, h3⟩ := h
  refine ⟨?_, h2, ?_⟩
  · rw [List.nodup_append]
    refine ⟨h1, List.nodup_range', ?_⟩
    intro a ha b hb hab
    have := hl a (List.mem_append_left _ ha)
    simp only [List.mem_range'_1] at hb
    omega
  · intro a ha b hb hab
    rcases List.mem_append.1 ha with ha | ha
    · exact h3 a ha b hb hab
    · have := hl b (List.mem_append_right _ hb)
      simp only [List.mem_range'_1] at ha
      omega

/-- The shared memory grows. -/
theorem Base.growM {s : Sys} (h : Base s) {m : Mem} {k : Nat} (hi : ids m.pages = ids s.memory.pages ++ List.range' s.fresh k)
    (hs : Sub s.memory.pages m.pages) : Base { s with memory := m, fresh := s.fresh + k } := by
  refine h.mem ?_ ?_ rfl rfl (Sub.refl _) hs (Sub.refl _) id
  · have h1 := h.nd
    have h2 := h.lt
    unfold Sys.all at h1 h2 ⊢
    simp only [ids_append, hi] at h1 h2 ⊢
    have := nodup_insert (A := ids s.facts.pages ++ ids s.memory.pages) (B := ids s.phaseOut) (f := s.fresh) (k := k) h1 h2
    simpa only [List.append_assoc] using this
  · intro i hi'
    rw [mem_ids_all] at hi'
    show i < s.fresh + k
    rcases hi' with h1 | h1 | h1
    · have := h.lt i (mem_ids_all.2 (.inl h1)); omega
    · have h1 : i ∈ ids m.pages := h1
      rw [hi, List.mem_append, List.mem_range'_1] at h1
      rcases h1 with h1 | h1
      · have := h.lt i (mem_ids_all.2 (.inr (.inl h1))); omega
      · omega
    · have := h.lt i (mem_ids_all.2 (.inr (.inr h1))); omega

/-- The shared facts grow. -/
theorem Base.growF {s : Sys} (h : Base s) {m : Mem} {k : Nat} (hi : ids m.pages = ids s.facts.pages ++ List.range' s.fresh k)
    (hs : Sub s.facts.pages m.pages) : Base { s with facts := m, fresh := s.fresh + k } := by
  refine h.mem ?_ ?_ rfl rfl hs (Sub.refl _) (Sub.refl _) id
  · have h1 := h.nd
    have h2 := h.lt
    unfold Sys.all at h1 h2 ⊢
    simp only [ids_append, hi, List.append_assoc] at h1 h2 ⊢
    have := nodup_insert (A := ids s.facts.pages) (B := ids s.memory.pages ++ ids s.phaseOut) (f := s.fresh) (k := k) h1 h2
    simpa only [List.append_assoc] using this
  · intro i hi'
    rw [mem_ids_all] at hi'
    show i < s.fresh + k
    rcases hi' with h1 | h1 | h1
    · have h1 : i ∈ ids m.pages := h1
      rw [hi, List.mem_append, List.mem_range'_1] at h1
      rcases h1 with h1 | h1
      · have := h.lt i (mem_ids_all.2 (.inl h1)); omega
      · omega
    · have := h.lt i (mem_ids_all.2 (.inr (.inl h1))); omega
    · have := h.lt i (mem_ids_all.2 (.inr (.inr h1))); omega

/-- Writing a clause. -/
theorem Base.write {s : Sys} (h : Base s) (a : Ptr) (c : Cls) : Base (s.write a (.full c)) := by
  have hi : ids (s.write a (.full c)).all = ids s.all := by
    unfold Sys.all Sys.write
    simp only [ids_append, ids_setCell]
  refine h.mem (hi ▸ h.nd) (fun i hx => h.lt i (hi ▸ hx)) rfl rfl (sub_setCell _ _ _) (sub_setCell _ _ _)
    (sub_setCell _ _ _) fun he => ?_
  show setCell s.phaseOut a (.full c) = []
  rw [he]; rfl

theorem write_entries {s : Sys} {a : Ptr} {c : Cell} {x : Ptr × Cell} : x ∈ entries (s.write a c).all ↔
    x ∈ (entries s.all).map fun x => if x.1 = a then (x.1, c) else x := by
  have : entries (s.write a c).all = (entries s.all).map fun x => if x.1 = a then (x.1, c) else x := by
    unfold Sys.all Sys.write
    simp only [entries_append, entries_setCell, List.map_append]
  rw [this]

end Candy.Shared
