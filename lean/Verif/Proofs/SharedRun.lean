import Verif.Proofs.SharedContent

/-!
# Runs of threads that share clause memory
-/

namespace Candy.Shared

/-- The cell under construction survives everything but its construction. -/
theorem raw_survives {s s' : Sys} {t : Nat} {r : Request} (hb : Base s) (he : step s t r = some s') {a : Ptr} {n : Nat}
    (hr : (a, Cell.raw n) ∈ entries s.all) (hc : Cur s a) (ht : ∀ c, (s.thr t).pc ≠ .write a c) :
    (a, Cell.raw n) ∈ entries s'.all := by
  have hcur : (a, Cell.raw n) ∈ entries (s.facts.pages ++ s.memory.pages) := by
    obtain ⟨d, hd⟩ := hc
    have h2 : (a, d) ∈ entries s.all := by unfold Sys.all; rw [entries_append]; exact List.mem_append_left _ hd
    have h3 := read_of_mem hb.nd h2
    rw [read_of_mem hb.nd hr] at h3
    cases h3
    exact hd
  unfold step at he
  dsimp only at he
  split at he
  · split at he <;> cases he <;> exact hr
  · cases r with
    | join f => cases he; exact hr
    | create cs lbd =>
      simp only [request, Option.some.injEq] at he
      subst he
      unfold create
      extract_lets w r1 r2
      clear_value w
      rw [mem_all] at hr
      split
      · split
        · obtain ⟨h1, _⟩ := allocate_spec s.facts s.fresh (.raw 1) 1
          rw [mem_all]
          refine hr.imp (fun h => ?_) id
          show _ ∈ entries (s.facts.allocate s.fresh (.raw 1) 1).1.pages
          rw [h1]; exact List.mem_append_left _ h
        · obtain ⟨h1, _⟩ := allocate_spec s.memory s.fresh (.raw cs.length) cs.length
          rw [mem_all]
          refine hr.imp id (Or.imp (fun h => ?_) id)
          show _ ∈ entries (s.memory.allocate s.fresh (.raw cs.length) cs.length).1.pages
          rw [h1]; exact List.mem_append_left _ h
      · exact mem_all.2 hr
    | use k =>
      simp only [request] at he
      split at he
      · cases he; exact hr
      · split at he
        · cases he; exact hr
        · cases he
    | remove k =>
      simp only [request] at he
      split at he
      · cases he; exact hr
      · rename_i b hbk
        split at he
        · rename_i c hcr
          cases he
          have hne : a ≠ b := fun e => by
            subst e
            rw [read_of_mem hb.nd hr] at hcr; cases hcr
          exact write_entries.2 (List.mem_map.2 ⟨_, hr, by simp [hne]⟩)
        · cases he
    | removeOwn k => cases he; exact hr
    | reorganize =>
      cases he
      unfold synchronize
      extract_lets r
      rw [mem_all] at hr ⊢
      refine hr.imp id (Or.imp (fun h => ?_) id)
      show _ ∈ entries (s.memory.pages ++ r.1.pages)
      rw [entries_append]; exact List.mem_append_left _ h
  · rename_i b c hp
    split at he
    · cases he
      have hne : a ≠ b := fun e => ht c (e ▸ hp)
      exact write_entries.2 (List.mem_map.2 ⟨_, hr, by simp [hne]⟩)
    · cases he
  · split at he <;> cases he <;> exact hr
  · cases he
    show _ ∈ entries (s.facts.pages ++ s.memory.pages ++ [])
    rw [List.append_nil]; exact hcur
  · rename_i hp
    rw [Option.map_eq_some_iff] at he
    obtain ⟨s1, h1, rfl⟩ := he
    unfold reallocate at h1
    rw [if_pos (by rw [hb.empty t hp]; rfl)] at h1
    split at h1
    · cases h1
    · extract_lets r at h1
      cases h1
      show _ ∈ entries (s.facts.pages ++ r.1.pages ++ s.memory.pages)
      rw [entries_append] at hcur
      rw [entries_append, entries_append, List.mem_append, List.mem_append]
      rcases List.mem_append.1 hcur with h | h
      · exact .inl (.inl h)
      · exact .inr h
  · split at he
    · cases he
    · cases he; exact hr
  · split at he
    · cases he
    · cases he; exact hr
  · cases he; exact hr

/-- A thread starts to construct a clause only by creating one, at a new place. -/
theorem step_writes {s s' : Sys} {t : Nat} {r : Request} (he : step s t r = some s') (hnd : (ids s'.all).Nodup)
    {a : Ptr} {c : Cls} (hw : (s'.thr t).pc = .write a c) (ho : ∀ a c, (s.thr t).pc ≠ .write a c) :
    (∃ n, (a, Cell.raw n) ∈ entries s'.all) ∧ ∀ d, (a, d) ∉ entries s.all := by
  have hnew : ∀ (X Y Z : List (Ptr × Cell)) (d : Cell), ((X ++ [(a, d)] ++ Y ++ Z).map Prod.fst).Nodup →
      ∀ e, (a, e) ∉ X ++ Y ++ Z := by
    intro X Y Z d hn e hm
    have hp : (X ++ [(a, d)] ++ Y ++ Z).Perm ((a, d) :: (X ++ Y ++ Z)) := by
      simp only [List.append_assoc]
      exact List.perm_middle
    have := (hp.map Prod.fst).nodup_iff.1 hn
    rw [List.map_cons, List.nodup_cons] at this
    exact this.1 (List.mem_map.2 ⟨_, hm, rfl⟩)
  have hnew' : ∀ (X Y Z : List (Ptr × Cell)) (d : Cell), ((X ++ (Y ++ [(a, d)]) ++ Z).map Prod.fst).Nodup →
      ∀ e, (a, e) ∉ X ++ Y ++ Z := by
    intro X Y Z d hn e
    have := hnew (X ++ Y) [] Z d (by simpa only [List.append_assoc, List.nil_append, List.append_nil] using hn) e
    simpa only [List.append_assoc, List.nil_append, List.append_nil] using this
  unfold step at he
  dsimp only at he
  split at he
  · split at he
    · cases he; rw [set_same] at hw; cases hw
    · cases he; exact absurd hw (ho a c)
  · rename_i hp
    cases r with
    | join f => cases he; exact absurd hw (ho a c)
    | create cs lbd =>
      simp only [request, Option.some.injEq] at he
      subst he
      unfold create at hw hnd ⊢
      extract_lets w r1 r2 at hw hnd ⊢
      clear_value w
      split at hw
      · rename_i h0
        rw [if_pos h0] at hnd ⊢
        split at hw
        · rename_i h1
          rw [if_pos h1] at hnd ⊢
          rw [set_same] at hw
          simp only [Pc.write.injEq] at hw
          obtain ⟨h2, _⟩ := allocate_spec s.facts s.fresh (.raw 1) 1
          change entries r1.1.pages = entries s.facts.pages ++ [(r1.2.1, .raw 1)] at h2
          rw [hw.1] at h2
          constructor
          · refine ⟨1, mem_all.2 (.inl ?_)⟩
            show _ ∈ entries r1.1.pages
            rw [h2]; simp
          · have h3 := entries_nodup hnd
            have h4 : entries (Sys.all (Sys.set { s with facts := r1.1, fresh := r1.2.2 } t
                { s.thr t with pc := .write r1.2.1 ⟨cs, w⟩ })) =
                entries s.facts.pages ++ [(a, .raw 1)] ++ entries s.memory.pages ++ entries s.phaseOut := by
              rw [← h2, ← entries_append, ← entries_append]; rfl
            rw [h4] at h3
            intro d hd
            refine hnew _ _ _ _ h3 d ?_
            unfold Sys.all at hd
            rw [entries_append, entries_append] at hd
            exact hd
        · rename_i h1
          rw [if_neg h1] at hnd ⊢
          rw [set_same] at hw
          simp only [Pc.write.injEq] at hw
          obtain ⟨h2, _⟩ := allocate_spec s.memory s.fresh (.raw cs.length) cs.length
          change entries r2.1.pages = entries s.memory.pages ++ [(r2.2.1, .raw cs.length)] at h2
          rw [hw.1] at h2
          constructor
          · refine ⟨cs.length, mem_all.2 (.inr (.inl ?_))⟩
            show _ ∈ entries r2.1.pages
            rw [h2]; simp
          · have h3 := entries_nodup hnd
            have h4 : entries (Sys.all (Sys.set { s with memory := r2.1, fresh := r2.2.2 } t
                { s.thr t with pc := .write r2.2.1 ⟨cs, w⟩ })) =
                entries s.facts.pages ++ (entries s.memory.pages ++ [(a, .raw cs.length)]) ++ entries s.phaseOut := by
              rw [← h2, ← entries_append, ← entries_append]; rfl
            rw [h4] at h3
            intro d hd
            refine hnew' _ _ _ _ h3 d ?_
            unfold Sys.all at hd
            rw [entries_append, entries_append] at hd
            exact hd
      · rw [set_same] at hw; exact absurd hw (ho a c)
    | use k =>
      simp only [request] at he
      split at he
      · cases he; exact absurd hw (ho a c)
      · split at he
        · cases he; exact absurd hw (ho a c)
        · cases he
    | remove k =>
      simp only [request] at he
      split at he
      · cases he; exact absurd hw (ho a c)
      · split at he
        · cases he; exact absurd hw (ho a c)
        · cases he
    | removeOwn k => cases he; rw [set_same] at hw; exact absurd hw (ho a c)
    | reorganize => cases he; unfold synchronize at hw; rw [set_same] at hw; cases hw
  · rename_i b d hp; exact absurd hp (ho b d)
  · split at he <;> cases he <;> rw [set_same] at hw <;> cases hw
  · cases he; rw [set_same] at hw; cases hw
  · rw [Option.map_eq_some_iff] at he
    obtain ⟨s1, h1, rfl⟩ := he
    rw [set_same] at hw; cases hw
  · split at he
    · cases he
    · cases he; rw [set_same] at hw; cases hw
  · split at he
    · cases he
    · cases he; rw [set_same] at hw; cases hw
  · cases he; rw [set_same] at hw; cases hw

/-- A thread that constructs a clause has constructed it after its step. -/
theorem step_write_done {s s' : Sys} {t : Nat} {r : Request} (he : step s t r = some s') {a : Ptr} {c : Cls}
    (hp : (s.thr t).pc = .write a c) : (s'.thr t).pc = .idle := by
  unfold step at he
  simp only [hp] at he
  split at he
  · cases he; rw [set_same]
  · cases he

theorem step_wr {s s' : Sys} {t : Nat} {r : Request} (hb : Base s) (hb' : Base s') (hw : WrOk s)
    (he : step s t r = some s') : WrOk s' := by
  have hcase : ∀ u a c, (s'.thr u).pc = .write a c →
      (u ≠ t ∧ (s.thr u).pc = .write a c) ∨ (u = t ∧ ∀ a c, (s.thr t).pc ≠ .write a c) := by
    intro u a c hu
    by_cases hut : u = t
    · subst hut
      refine .inr ⟨rfl, fun b d hp => ?_⟩
      rw [step_write_done he hp] at hu; cases hu
    · rw [step_thr he hut] at hu; exact .inl ⟨hut, hu⟩
  constructor
  · intro u a c hu
    rcases hcase u a c hu with ⟨hut, h1⟩ | ⟨rfl, h1⟩
    · obtain ⟨n, hn⟩ := hw.raw u a c h1
      exact ⟨n, raw_survives hb he hn (hb.wr u a c h1) fun d hd => hut (hw.one u t a c d h1 hd)⟩
    · exact (step_writes he hb'.nd hu h1).1
  · intro u v a c d hu hv
    rcases hcase u a c hu with ⟨hut, h1⟩ | ⟨rfl, h1⟩ <;> rcases hcase v a d hv with ⟨hvt, h2⟩ | ⟨rfl, h2⟩
    · exact hw.one u v a c d h1 h2
    · obtain ⟨n, hn⟩ := hw.raw u a c h1
      exact absurd hn ((step_writes he hb'.nd hv h2).2 _)
    · obtain ⟨n, hn⟩ := hw.raw v a d h2
      exact absurd hn ((step_writes he hb'.nd hu h1).2 _)
    · rfl

/-! ### Where clauses come from -/

/-- All clauses satisfy `P`. -/
structure AllP (P : List Lit → Prop) (s : Sys) : Prop where
  cell : ∀ a c, (a, Cell.full c) ∈ entries s.all → P c.lits
  own : ∀ t, ∀ c ∈ (s.thr t).own, P c.lits
  wr : ∀ t a c, (s.thr t).pc = .write a c → P c.lits

theorem AllP.mk' {P : List Lit → Prop} {s s' : Sys} (h : AllP P s) {t : Nat} {th : Thread} (hs : s'.thr = s.thr)
    (h1 : ∀ a c, (a, Cell.full c) ∈ entries s'.all → (a, Cell.full c) ∈ entries s.all ∨ P c.lits)
    (h2 : ∀ c ∈ th.own, P c.lits) (h3 : ∀ a c, th.pc = .write a c → P c.lits) : AllP P (s'.set t th) := by
  refine ⟨fun a c hc => (h1 a c hc).elim (h.cell a c) id, ?_, ?_⟩
  · intro u c hc
    by_cases hu : u = t
    · subst hu; rw [set_same] at hc; exact h2 c hc
    · rw [set_ne _ _ hu, hs] at hc; exact h.own u c hc
  · intro u a c hc
    by_cases hu : u = t
    · subst hu; rw [set_same] at hc; exact h3 a c hc
    · rw [set_ne _ _ hu, hs] at hc; exact h.wr u a c hc

theorem AllP.write {P : List Lit → Prop} {s : Sys} (h : AllP P s) (a : Ptr) {c : Cls} (hc : P c.lits) :
    ∀ b d, (b, Cell.full d) ∈ entries (s.write a (.full c)).all → (b, Cell.full d) ∈ entries s.all ∨ P d.lits := by
  intro b d hd
  rw [write_entries] at hd
  obtain ⟨x, hx, he⟩ := List.mem_map.1 hd
  split at he
  · cases he; exact .inr hc
  · subst he; exact .inl hx

theorem step_allP {P : List Lit → Prop} {s s' : Sys} {t : Nat} {r : Request} (h : AllP P s)
    (hr : ∀ ls ∈ r.clauses, P ls) (he : step s t r = some s') : AllP P s' := by
  have hown := h.own t
  unfold step at he
  dsimp only at he
  split at he
  · split at he
    · rename_i f
      cases he
      refine h.mk' rfl (fun a c hc => .inl hc) (fun c hc => ?_) (fun a c e => by cases e)
      simp only [List.mem_map, List.mem_filter] at hc
      obtain ⟨ls, hl, rfl⟩ := hc
      exact hr ls hl.1
    · cases he; exact h
  · rename_i hp
    have hnw : ∀ a c, (s.thr t).pc = .write a c → P c.lits := fun a c e => by rw [hp] at e; cases e
    cases r with
    | join f => cases he; exact h
    | create cs lbd =>
      have hcs : P cs := hr cs (by simp [Request.clauses])
      simp only [request, Option.some.injEq] at he
      subst he
      unfold create
      extract_lets w r1 r2
      clear_value w
      split
      · split
        · obtain ⟨h1, _⟩ := allocate_spec s.facts s.fresh (.raw 1) 1
          change entries r1.1.pages = entries s.facts.pages ++ [(r1.2.1, .raw 1)] at h1
          clear_value r1
          refine h.mk' rfl (fun a c hc => .inl ?_) hown (fun a c e => by cases e; exact hcs)
          rw [mem_all] at hc ⊢
          refine hc.imp (fun h2 => ?_) id
          have h2 : _ ∈ entries r1.1.pages := h2
          rw [h1] at h2
          simpa using h2
        · obtain ⟨h1, _⟩ := allocate_spec s.memory s.fresh (.raw cs.length) cs.length
          change entries r2.1.pages = entries s.memory.pages ++ [(r2.2.1, .raw cs.length)] at h1
          clear_value r2
          refine h.mk' rfl (fun a c hc => .inl ?_) hown (fun a c e => by cases e; exact hcs)
          rw [mem_all] at hc ⊢
          refine hc.imp id (Or.imp (fun h2 => ?_) id)
          have h2 : _ ∈ entries r2.1.pages := h2
          rw [h1] at h2
          simpa using h2
      · refine h.mk' rfl (fun a c hc => .inl hc) (fun c hc => ?_) hnw
        rcases List.mem_append.1 hc with hc | hc
        · exact hown c hc
        · rw [List.mem_singleton.1 hc]; exact hcs
    | use k =>
      simp only [request] at he
      split at he
      · cases he; exact h
      · split at he
        · cases he; exact h
        · cases he
    | remove k =>
      simp only [request] at he
      split at he
      · cases he; exact h
      · split at he
        · rename_i a _ _ c hc
          cases he
          have h1 := h.write a (c := { c with weight := Cls.deletedWeight }) (h.cell a c (mem_of_read hc))
          exact ⟨fun b d hd => (h1 b d hd).elim (h.cell b d) id, h.own, h.wr⟩
        · cases he
    | removeOwn k =>
      cases he
      refine h.mk' rfl (fun a c hc => .inl hc) (fun c hc => ?_) hnw
      obtain ⟨i, hi, rfl⟩ := List.getElem_of_mem hc
      simp only [List.getElem_modify]
      split
      · exact hown ((s.thr t).own[i]'(by simpa using hi)) (List.getElem_mem _)
      · exact hown _ (List.getElem_mem _)
    | reorganize =>
      cases he
      unfold synchronize
      extract_lets r
      refine h.mk' rfl (fun a c hc => ?_) (fun c hc => hown c (List.mem_filter.1 hc).1) (fun a c e => by cases e)
      rw [mem_all] at hc
      rcases hc with hc | hc | hc
      · exact .inl (mem_all.2 (.inl hc))
      · have hc : _ ∈ entries (s.memory.pages ++ r.1.pages) := hc
        rw [entries_append, List.mem_append] at hc
        rcases hc with hc | hc
        · exact .inl (mem_all.2 (.inr (.inl hc)))
        · rcases fill_mem hc with h5 | ⟨d, h6, h5⟩
          · cases h5
          · cases h5; exact .inr (hown _ (List.mem_filter.1 h6).1)
      · exact .inl (mem_all.2 (.inr (.inr hc)))
  · rename_i a c hp
    split at he
    · cases he
      exact h.mk' rfl (h.write a (h.wr t a c hp)) hown (fun a c e => by cases e)
    · cases he
  · split at he <;> cases he <;>
      exact h.mk' rfl (fun a c hc => .inl hc) hown (fun a c e => by cases e)
  · cases he
    refine h.mk' rfl (fun a c hc => .inl ?_) hown (fun a c e => by cases e)
    rw [mem_all] at hc ⊢
    exact hc.imp id (Or.imp id fun h => by cases h)
  · rw [Option.map_eq_some_iff] at he
    obtain ⟨s1, h1, rfl⟩ := he
    unfold reallocate at h1
    split at h1
    · split at h1
      · cases h1
      · extract_lets r at h1
        cases h1
        refine h.mk' rfl (fun a c hc => ?_) hown (fun a c e => by cases e)
        rw [mem_all] at hc
        rcases hc with hc | hc | hc
        · exact .inl (mem_all.2 (.inl hc))
        · rcases fill_mem hc with h5 | ⟨d, h6, h5⟩
          · simp [entries] at h5
          · cases h5
            obtain ⟨x, hx, he⟩ := List.mem_map.1 h6
            rw [← he]
            exact .inr (h.cell x.1 x.2 (mem_all.2 (.inr (.inl (mem_live (a := x.1) (c := x.2) |>.1 hx).1))))
        · exact .inl (mem_all.2 (.inr (.inl hc)))
    · cases h1
      exact h.mk' rfl (fun a c hc => .inl hc) hown (fun a c e => by cases e)
  · split at he
    · cases he
    · cases he; exact h.mk' rfl (fun a c hc => .inl hc) hown (fun a c e => by cases e)
  · split at he
    · cases he
    · cases he; exact h.mk' rfl (fun a c hc => .inl hc) hown (fun a c e => by cases e)
  · cases he; exact h.mk' rfl (fun a c hc => .inl hc) hown (fun a c e => by cases e)

/-! ### The start -/

theorem start_full {f : List (List Lit)} {bound : Nat} {a : Ptr} {c : Cell} (h : (a, c) ∈ entries (start f bound).all) :
    ∃ ls ∈ f, c = .full ⟨ls, 0⟩ := by
  have key : ∀ (m : Mem) (n : Nat) (g : List (List Lit)), m.pages = [] → (∀ ls ∈ g, ls ∈ f) →
      (a, c) ∈ entries (m.fill n (g.map fun ls => ⟨ls, 0⟩)).1.pages → ∃ ls ∈ f, c = .full ⟨ls, 0⟩ := by
    intro m n g hm hg h
    rcases fill_mem h with h | ⟨d, hd, rfl⟩
    · rw [hm] at h; cases h
    · obtain ⟨ls, hl, rfl⟩ := List.mem_map.1 hd
      exact ⟨ls, hg ls hl, rfl⟩
  rw [mem_all] at h
  rcases h with h | h | h
  · exact key _ _ _ rfl (fun ls hl => (List.mem_filter.1 hl).1) h
  · exact key _ _ _ rfl (fun ls hl => (List.mem_filter.1 hl).1) h
  · cases h

theorem start_pc (f : List (List Lit)) (bound : Nat) (t : Nat) :
    (t = 0 ∧ ((start f bound).thr t).pc = .idle) ∨ (t ≠ 0 ∧ ((start f bound).thr t) = ⟨.out, [], []⟩) := by
  by_cases h : t = 0
  · left; subst h; exact ⟨rfl, rfl⟩
  · right; exact ⟨h, if_neg h⟩

theorem start_held (f : List (List Lit)) (bound : Nat) : ((start f bound).thr 0).held =
    (live (start f bound).facts.pages).map Prod.fst ++ (live (start f bound).memory.pages).map Prod.fst := rfl

theorem start_inv (f : List (List Lit)) (bound : Nat) : Inv (start f bound) := by
  have hpc : ∀ t q, ((start f bound).thr t).pc = q → q ≠ .idle → q ≠ .out → False := by
    intro t q h1 h2 h3
    rcases start_pc f bound t with ⟨_, h⟩ | ⟨_, h⟩
    · rw [h] at h1; exact h2 h1.symm
    · rw [h] at h1; exact h3 h1.symm
  have hheld : ∀ t, ∀ a ∈ ((start f bound).thr t).held,
      (∃ c, (a, Cell.full c) ∈ entries (start f bound).facts.pages) ∨
        ∃ c, (a, Cell.full c) ∈ entries (start f bound).memory.pages := by
    intro t a ha
    rcases start_pc f bound t with ⟨rfl, _⟩ | ⟨_, h⟩
    · rw [start_held] at ha
      rcases List.mem_append.1 ha with ha | ha
      · obtain ⟨x, hx, rfl⟩ := List.mem_map.1 ha
        exact .inl ⟨x.2, (mem_live (a := x.1) (c := x.2) |>.1 hx).1⟩
      · obtain ⟨x, hx, rfl⟩ := List.mem_map.1 ha
        exact .inr ⟨x.2, (mem_live (a := x.1) (c := x.2) |>.1 hx).1⟩
    · rw [h] at ha; cases ha
  have hids : ∃ k1 k2, ids (start f bound).memory.pages = List.range' 0 k1 ∧
      ids (start f bound).facts.pages = List.range' k1 k2 ∧ (start f bound).fresh = k1 + k2 := by
    obtain ⟨_, k1, h1, h2⟩ := fill_spec ((f.filter fun ls => ls.length ≠ 1).map fun ls => (⟨ls, 0⟩ : Cls))
      (Mem.mk (32 * 1024 * 1024) []) 0
    obtain ⟨_, k2, h3, h4⟩ := fill_spec ((f.filter fun ls => ls.length = 1).map fun ls => (⟨ls, 0⟩ : Cls))
      (Mem.mk (1024 * 1024) []) (0 + k1)
    rw [← h2] at h3 h4
    refine ⟨k1, k2, h1, ?_, ?_⟩
    · refine h3.trans ?_
      rw [h2, Nat.zero_add]; rfl
    · refine h4.trans ?_
      rw [h2, Nat.zero_add]
  obtain ⟨k1, k2, hm, hf, hn⟩ := hids
  refine ⟨⟨?_, ?_, ?_, ?_, ?_, ?_, ?_, ?_, ?_, ?_, ?_⟩, ?_⟩
  · have : ids (start f bound).all = List.range' k1 k2 ++ List.range' 0 k1 := by
      unfold Sys.all
      rw [ids_append, ids_append, hm, hf]
      exact List.append_nil _
    rw [this, List.nodup_append]
    refine ⟨List.nodup_range', List.nodup_range', fun a ha b hb hab => ?_⟩
    rw [List.mem_range'_1] at ha hb
    omega
  · intro i hi
    rw [mem_ids_all, hm, hf, List.mem_range'_1, List.mem_range'_1] at hi
    rw [hn]
    rcases hi with hi | hi | hi
    · omega
    · omega
    · cases hi
  · intro t ht
    rcases start_pc f bound t with ⟨rfl, _⟩ | ⟨_, h⟩
    · exact ⟨true, List.mem_singleton.2 rfl⟩
    · rw [h] at ht; exact absurd rfl ht
  · exact List.nodup_cons.2 ⟨List.not_mem_nil, List.nodup_nil⟩
  · intro t a ha
    rcases hheld t a ha with ⟨c, h⟩ | ⟨c, h⟩
    · exact ⟨c, mem_all.2 (.inl h)⟩
    · exact ⟨c, mem_all.2 (.inr (.inl h))⟩
  · intro t _ a ha
    rcases hheld t a ha with ⟨c, h⟩ | ⟨c, h⟩
    · exact cur_iff.2 (.inl ⟨_, h⟩)
    · exact cur_iff.2 (.inr ⟨_, h⟩)
  · intro w hw
    rcases hw with hw | hw
    · exact (hpc w _ hw (fun e => by cases e) (fun e => by cases e)).elim
    · exact (hpc w _ hw (fun e => by cases e) (fun e => by cases e)).elim
  · exact fun w hw => (hpc w _ hw (fun e => by cases e) (fun e => by cases e)).elim
  · exact fun t a c hw => (hpc t _ hw (fun e => by cases e) (fun e => by cases e)).elim
  · exact fun t fs hw => (hpc t _ hw (fun e => by cases e) (fun e => by cases e)).elim
  · intro t ht
    rcases start_pc f bound t with ⟨_, h⟩ | ⟨_, h⟩
    · rw [h] at ht; cases ht
    · rw [h]
  · intro a n ha
    obtain ⟨ls, _, h⟩ := start_full ha
    cases h

theorem start_wr (f : List (List Lit)) (bound : Nat) : WrOk (start f bound) := by
  have hpc : ∀ t a c, ((start f bound).thr t).pc ≠ .write a c := by
    intro t a c h1
    rcases start_pc f bound t with ⟨_, h⟩ | ⟨_, h⟩
    · rw [h] at h1; cases h1
    · rw [h] at h1; cases h1
  exact ⟨fun t a c h => absurd h (hpc t a c), fun t u a c d h => absurd h (hpc t a c)⟩

theorem start_allP {P : List Lit → Prop} {f : List (List Lit)} (hf : ∀ ls ∈ f, P ls) (bound : Nat) :
    AllP P (start f bound) := by
  refine ⟨fun a c hc => ?_, fun t c hc => ?_, fun t a c h => ?_⟩
  · obtain ⟨ls, hl, he⟩ := start_full hc
    cases he; exact hf ls hl
  · rcases start_pc f bound t with ⟨rfl, _⟩ | ⟨_, h⟩
    · cases hc
    · rw [h] at hc; cases hc
  · have := (start_wr f bound).raw t a c h
    obtain ⟨n, hn⟩ := this
    obtain ⟨ls, _, he⟩ := start_full hn
    cases he

theorem start_content {f : List (List Lit)} {ls : List Lit} (h : ls ∈ f) (bound : Nat) (T : Nat → Prop) :
    Content ls T (start f bound) := by
  have key : ∀ (m : Mem) (n : Nat) (g : List (List Lit)), ls ∈ g →
      Has (m.fill n (g.map fun ls => ⟨ls, 0⟩)).1.pages ls := by
    intro m n g hg
    obtain ⟨a, ha⟩ := fill_has (m := m) (f := n) (List.mem_map.2 ⟨ls, hg, rfl⟩ :
      (⟨ls, 0⟩ : Cls) ∈ g.map fun ls => (⟨ls, 0⟩ : Cls))
    exact ⟨(a, ⟨ls, 0⟩), mem_live.2 ⟨ha, rfl⟩, rfl⟩
  have hg : Has (start f bound).facts.pages ls ∨ Has (start f bound).memory.pages ls := by
    by_cases hl : ls.length = 1
    · exact .inl (key _ _ _ (List.mem_filter.2 ⟨h, by simp [hl]⟩))
    · exact .inr (key _ _ _ (List.mem_filter.2 ⟨h, by simp [hl]⟩))
  refine ⟨hg, fun t _ fs ht => ?_, fun t _ h1 _ _ => ?_⟩
  · rcases start_pc f bound t with ⟨_, h⟩ | ⟨_, h⟩
    · rw [h] at ht; cases ht
    · rw [h] at ht; cases ht
  · rcases start_pc f bound t with ⟨rfl, _⟩ | ⟨_, h⟩
    · rw [start_held]
      rcases hg with ⟨x, hx, rfl⟩ | ⟨x, hx, rfl⟩
      · exact ⟨x.1, List.mem_append_left _ (List.mem_map.2 ⟨x, hx, rfl⟩), x.2.weight,
          mem_all.2 (.inl (mem_live (a := x.1) (c := x.2) |>.1 hx).1)⟩
      · exact ⟨x.1, List.mem_append_right _ (List.mem_map.2 ⟨x, hx, rfl⟩), x.2.weight,
          mem_all.2 (.inr (.inl (mem_live (a := x.1) (c := x.2) |>.1 hx).1))⟩
    · rw [h] at h1; exact absurd rfl h1

/-! ### Runs -/

theorem run_inv {es : List (Nat × Request)} : ∀ {s : Sys}, Inv s → WrOk s → OrderlyRun s es →
    ∃ s', run s es = some s' ∧ Inv s' ∧ WrOk s' := by
  induction es with
  | nil => exact fun h1 h2 _ => ⟨_, rfl, h1, h2⟩
  | cons e es ih =>
    intro s h1 h2 ho
    obtain ⟨s', he, hi⟩ := step_inv h1 ho.1 e.2
    have hw := step_wr h1.1 hi.1 h2 he
    obtain ⟨s2, h3, h4⟩ := ih hi hw (ho.2 s' he)
    exact ⟨s2, by simp only [run, he]; exact h3, h4⟩

theorem run_content {ls : List Lit} {T : Nat → Prop} {es : List (Nat × Request)} : ∀ {s s' : Sys}, Inv s → WrOk s → OrderlyRun s es →
    KeepsRun ls s es → Content ls T s → run s es = some s' → Content ls T s' := by
  induction es with
  | nil => intro s s' _ _ _ _ h he; cases he; exact h
  | cons e es ih =>
    intro s s' h1 h2 ho hk hc hr
    obtain ⟨s1, he, hi⟩ := step_inv h1 ho.1 e.2
    have hw := step_wr h1.1 hi.1 h2 he
    simp only [run, he, Option.bind_some] at hr
    exact ih hi hw (ho.2 s1 he) (hk.2 s1 he) (step_content h1.1 h2 hk.1 he hc) hr

theorem run_allP {P : List Lit → Prop} {es : List (Nat × Request)} : ∀ {s s' : Sys}, AllP P s →
    (∀ e ∈ es, ∀ ls ∈ e.2.clauses, P ls) → run s es = some s' → AllP P s' := by
  induction es with
  | nil => intro s s' h _ he; cases he; exact h
  | cons e es ih =>
    intro s s' h hp hr
    simp only [run] at hr
    cases he : step s e.1 e.2 with
    | none => rw [he] at hr; cases hr
    | some s1 =>
      rw [he] at hr
      exact ih (step_allP h (hp e (List.mem_cons_self ..)) he)
        (fun e' h' => hp e' (List.mem_cons_of_mem _ h')) hr

end Candy.Shared
