import Verif.Proofs.SharedStep

/-!
# Which clauses the threads list
-/

namespace Candy.Shared

/-- A clause under construction is not constructed, and has one thread that constructs it. -/
structure WrOk (s : Sys) : Prop where
  raw : ∀ t a c, (s.thr t).pc = .write a c → ∃ n, (a, Cell.raw n) ∈ entries s.all
  one : ∀ t u a c d, (s.thr t).pc = .write a c → (s.thr u).pc = .write a d → t = u

/-- A clause with these literals, not marked as deleted. -/
def Has (ps : List Page) (ls : List Lit) : Prop := ∃ x ∈ live ps, x.2.lits = ls

/-- Literals are kept. -/
def LSub (ps qs : List Page) : Prop :=
  ∀ a c, (a, Cell.full c) ∈ entries ps → ∃ w, (a, Cell.full ⟨c.lits, w⟩) ∈ entries qs

/-- What a step keeps. -/
structure Frame (ls : List Lit) (s s' : Sys) : Prop where
  f : LSub s.facts.pages s'.facts.pages
  gf : Has s.facts.pages ls → Has s'.facts.pages ls
  gm : Has s.memory.pages ls → Has s'.memory.pages ls
  p : ∀ u, ∀ a ∈ (s.thr u).held, ∀ c, (a, Cell.full c) ∈ entries s.all →
    ∃ w, (a, Cell.full ⟨c.lits, w⟩) ∈ entries s'.all

theorem Has.sub {ps qs : List Page} {ls : List Lit} (h : Has ps ls) (hs : ∀ x ∈ entries ps, x ∈ entries qs) :
    Has qs ls := by
  obtain ⟨⟨a, c⟩, hx, rfl⟩ := h
  rw [mem_live] at hx
  exact ⟨(a, c), mem_live.2 ⟨hs _ hx.1, hx.2⟩, rfl⟩

theorem Frame.of_sub {ls : List Lit} {s s' : Sys} (hf : ∀ x ∈ entries s.facts.pages, x ∈ entries s'.facts.pages)
    (hm : ∀ x ∈ entries s.memory.pages, x ∈ entries s'.memory.pages)
    (hq : ∀ x ∈ entries s.phaseOut, x ∈ entries s'.phaseOut) : Frame ls s s' := by
  refine ⟨fun a c h => ⟨c.weight, hf _ h⟩, fun h => h.sub hf, fun h => h.sub hm, ?_⟩
  intro u a _ c hc
  refine ⟨c.weight, ?_⟩
  rw [mem_all] at hc ⊢
  exact hc.imp (hf _) (Or.imp (hm _) (hq _))

theorem Frame.rfl' {ls : List Lit} {s s' : Sys} (hf : s'.facts = s.facts) (hm : s'.memory = s.memory)
    (hq : s'.phaseOut = s.phaseOut) : Frame ls s s' :=
  .of_sub (fun _ h => by rw [hf]; exact h) (fun _ h => by rw [hm]; exact h) (fun _ h => by rw [hq]; exact h)

theorem mem_setCell {ps : List Page} {a b : Ptr} {c d : Cell} (h : (b, d) ∈ entries ps) (hne : b ≠ a) :
    (b, d) ∈ entries (setCell ps a c) := by
  rw [entries_setCell]; exact List.mem_map.2 ⟨_, h, by simp [hne]⟩

theorem mem_setCell_same {ps : List Page} {a : Ptr} {c d : Cell} (h : (a, d) ∈ entries ps) :
    (a, c) ∈ entries (setCell ps a c) := by
  rw [entries_setCell]; exact List.mem_map.2 ⟨_, h, by simp⟩

theorem Has.setCell {ps : List Page} {ls : List Lit} {a : Ptr} {c : Cell} (h : Has ps ls)
    (hn : ∀ w, (a, Cell.full ⟨ls, w⟩) ∉ entries ps) : Has (setCell ps a c) ls := by
  obtain ⟨⟨b, d⟩, hx, he⟩ := h
  rw [mem_live] at hx
  have hne : b ≠ a := fun e => by
    subst e
    have : d = ⟨ls, d.weight⟩ := by cases d; simp only at he; rw [he]
    exact hn d.weight (this ▸ hx.1)
  exact ⟨(b, d), mem_live.2 ⟨mem_setCell hx.1 hne, hx.2⟩, he⟩

/-- Marking a clause as deleted. -/
theorem Frame.del {ls : List Lit} {s : Sys} (hnd : (ids s.all).Nodup) {a : Ptr} {c : Cls}
    (hc : s.read a = some (.full c)) (hne : c.lits ≠ ls) (w : Nat) :
    Frame ls s (s.write a (.full ⟨c.lits, w⟩)) := by
  have huniq : ∀ d, (a, Cell.full d) ∈ entries s.all → d = c := fun d hd => by
    have := read_of_mem hnd hd
    rw [hc] at this; cases this; rfl
  have hno : ∀ w, (a, Cell.full ⟨ls, w⟩) ∉ entries s.all := fun w hw => hne (by rw [← huniq _ hw])
  have hl : ∀ ps : List Page, (∀ x ∈ entries ps, x ∈ entries s.all) →
      LSub ps (setCell ps a (.full ⟨c.lits, w⟩)) := by
    intro ps hps b d hd
    by_cases hb : b = a
    · subst hb
      rw [huniq d (hps _ hd)]
      exact ⟨w, mem_setCell_same hd⟩
    · exact ⟨d.weight, mem_setCell hd hb⟩
  refine ⟨hl _ fun x hx => mem_all.2 (.inl hx), fun h => h.setCell fun w hw => hno w (mem_all.2 (.inl hw)),
    fun h => h.setCell fun w hw => hno w (mem_all.2 (.inr (.inl hw))), ?_⟩
  intro u b _ d hd
  rw [mem_all] at hd
  simp only [mem_all]
  rcases hd with hd | hd | hd
  · obtain ⟨w, hw⟩ := hl s.facts.pages (fun x hx => mem_all.2 (.inl hx)) b d hd
    exact ⟨w, .inl hw⟩
  · obtain ⟨w, hw⟩ := hl s.memory.pages (fun x hx => mem_all.2 (.inr (.inl hx))) b d hd
    exact ⟨w, .inr (.inl hw)⟩
  · obtain ⟨w, hw⟩ := hl s.phaseOut (fun x hx => mem_all.2 (.inr (.inr hx))) b d hd
    exact ⟨w, .inr (.inr hw)⟩

/-- Constructing a clause. -/
theorem Frame.wr {ls : List Lit} {s : Sys} (hnd : (ids s.all).Nodup) {a : Ptr} {n : Nat}
    (hr : (a, Cell.raw n) ∈ entries s.all) (c : Cell) : Frame ls s (s.write a c) := by
  have hno : ∀ d, (a, Cell.full d) ∉ entries s.all := fun d hd => by
    have h1 := read_of_mem hnd hd
    rw [read_of_mem hnd hr] at h1; cases h1
  have hl : ∀ ps : List Page, (∀ x ∈ entries ps, x ∈ entries s.all) → ∀ b d, (b, Cell.full d) ∈ entries ps →
      (b, Cell.full d) ∈ entries (setCell ps a c) := by
    intro ps hps b d hd
    exact mem_setCell hd fun e => hno d (e ▸ hps _ hd)
  refine ⟨fun b d hd => ⟨d.weight, hl _ (fun x hx => mem_all.2 (.inl hx)) b d hd⟩,
    fun h => h.setCell fun w hw => hno _ (mem_all.2 (.inl hw)),
    fun h => h.setCell fun w hw => hno _ (mem_all.2 (.inr (.inl hw))), ?_⟩
  intro u b _ d hd
  refine ⟨d.weight, ?_⟩
  rw [mem_all] at hd ⊢
  exact hd.imp (hl _ (fun x hx => mem_all.2 (.inl hx)) b d) (Or.imp
    (hl _ (fun x hx => mem_all.2 (.inr (.inl hx))) b d) (hl _ (fun x hx => mem_all.2 (.inr (.inr hx))) b d))

/-- The state without the change to the thread. -/
theorem Frame.set {ls : List Lit} {s s' : Sys} (h : Frame ls s s') (t : Nat) (th : Thread) : Frame ls s (s'.set t th) :=
  ⟨h.f, h.gf, h.gm, h.p⟩

theorem step_frame {s s' : Sys} {t : Nat} {r : Request} {ls : List Lit} (hb : Base s) (hw : WrOk s)
    (hk : Keeps ls s t r) (he : step s t r = some s') : Frame ls s s' := by
  unfold step at he
  dsimp only at he
  split at he
  · split at he
    · cases he; exact .rfl' rfl rfl rfl
    · cases he; exact .rfl' rfl rfl rfl
  · rename_i hp
    cases r with
    | join f => cases he; exact .rfl' rfl rfl rfl
    | create cs lbd =>
      simp only [request, Option.some.injEq] at he
      subst he
      unfold create
      extract_lets w r1 r2
      clear_value w
      split
      · split
        · obtain ⟨h1, _⟩ := allocate_spec s.facts s.fresh (.raw 1) 1
          exact (Frame.of_sub (s := s) (s' := { s with facts := r1.1, fresh := r1.2.2 })
            (fun x hx => by show x ∈ entries (s.facts.allocate s.fresh (.raw 1) 1).1.pages; rw [h1]; exact List.mem_append_left _ hx)
            (fun _ h => h) (fun _ h => h)).set _ _
        · obtain ⟨h1, _⟩ := allocate_spec s.memory s.fresh (.raw cs.length) cs.length
          exact (Frame.of_sub (s := s) (s' := { s with memory := r2.1, fresh := r2.2.2 }) (fun _ h => h)
            (fun x hx => by show x ∈ entries (s.memory.allocate s.fresh (.raw cs.length) cs.length).1.pages; rw [h1]; exact List.mem_append_left _ hx)
            (fun _ h => h)).set _ _
      · exact .rfl' rfl rfl rfl
    | use k =>
      simp only [request] at he
      split at he
      · cases he; exact .rfl' rfl rfl rfl
      · split at he
        · cases he; exact .rfl' rfl rfl rfl
        · cases he
    | remove k =>
      simp only [request] at he
      split at he
      · cases he; exact .rfl' rfl rfl rfl
      · rename_i a ha
        split at he
        · rename_i c hc
          cases he
          refine Frame.del hb.nd hc (fun e => ?_) _
          exact hk k rfl a ha c.weight (by rw [hc, ← e])
        · cases he
    | removeOwn k => cases he; exact .rfl' rfl rfl rfl
    | reorganize =>
      cases he
      unfold synchronize
      extract_lets r
      exact (Frame.of_sub (s := s) (s' := { s with memory := { s.memory with pages := s.memory.pages ++ r.1.pages }, fresh := r.2 })
        (fun _ h => h)
        (fun x hx => by show x ∈ entries (s.memory.pages ++ r.1.pages); rw [entries_append]; exact List.mem_append_left _ hx)
        (fun _ h => h)).set _ _
  · rename_i a c hp
    split at he
    · cases he
      obtain ⟨n, hn⟩ := hw.raw t a c hp
      exact (Frame.wr hb.nd hn _).set _ _
    · cases he
  · split at he
    · cases he; exact .rfl' rfl rfl rfl
    · cases he; exact .rfl' rfl rfl rfl
  · rename_i hp
    cases he
    refine Frame.set (s := s) (s' := { s with phaseOut := [] }) ⟨fun a c h => ⟨c.weight, h⟩, id, id, ?_⟩ _ _
    intro u a ha c hc
    obtain ⟨d, hd⟩ := (hb.move t (.inl hp)).1 u a ha
    have h2 : (a, d) ∈ entries s.all := by
      unfold Sys.all; rw [entries_append]; exact List.mem_append_left _ hd
    have h3 := read_of_mem hb.nd h2
    rw [read_of_mem hb.nd hc] at h3
    cases h3
    refine ⟨c.weight, ?_⟩
    unfold Sys.all; rw [entries_append]; exact List.mem_append_left _ hd
  · rename_i hp
    have hq := hb.empty t hp
    rw [Option.map_eq_some_iff] at he
    obtain ⟨s1, h1, rfl⟩ := he
    unfold reallocate at h1
    rw [if_pos (by rw [hq]; rfl)] at h1
    split at h1
    · cases h1
    · extract_lets r at h1
      cases h1
      refine Frame.set (s := s) (s' := { s with memory := r.1, phaseOut := s.memory.pages, fresh := r.2 })
        ⟨fun a c h => ⟨c.weight, h⟩, id, ?_, ?_⟩ _ _
      · intro ⟨x, hx, hl⟩
        obtain ⟨a, ha⟩ := fill_has (m := Mem.mk s.memory.pageSize [⟨s.fresh, s.memory.used, []⟩]) (f := s.fresh + 1)
          (List.mem_map.2 ⟨x, hx, rfl⟩)
        exact ⟨(a, x.2), mem_live.2 ⟨ha, (mem_live (a := x.1) (c := x.2)|>.1 hx).2⟩, hl⟩
      · intro u a _ c hc
        refine ⟨c.weight, ?_⟩
        rw [mem_all] at hc ⊢
        rcases hc with hc | hc | hc
        · exact .inl hc
        · exact .inr (.inr hc)
        · rw [hq] at hc; cases hc
  · split at he
    · cases he
    · cases he; exact .rfl' rfl rfl rfl
  · split at he
    · cases he
    · cases he; exact .rfl' rfl rfl rfl
  · cases he; exact .rfl' rfl rfl rfl

/-- The other threads are untouched. -/
theorem step_thr {s s' : Sys} {t : Nat} {r : Request} (he : step s t r = some s') {u : Nat} (hu : u ≠ t) :
    s'.thr u = s.thr u := by
  unfold step at he
  dsimp only at he
  split at he
  · split at he <;> cases he <;> first | rfl | exact set_ne _ _ hu
  · cases r with
    | join f => cases he; rfl
    | create cs lbd =>
      simp only [request, Option.some.injEq] at he
      subst he
      unfold create
      extract_lets w r1 r2
      split
      · split <;> exact set_ne _ _ hu
      · exact set_ne _ _ hu
    | use k =>
      simp only [request] at he
      split at he
      · cases he; rfl
      · split at he
        · cases he; rfl
        · cases he
    | remove k =>
      simp only [request] at he
      split at he
      · cases he; rfl
      · split at he
        · cases he; rfl
        · cases he
    | removeOwn k => cases he; exact set_ne _ _ hu
    | reorganize => cases he; exact set_ne _ _ hu
  · split at he
    · cases he; exact set_ne _ _ hu
    · cases he
  · split at he <;> cases he <;> exact set_ne _ _ hu
  · cases he; exact set_ne _ _ hu
  · rw [Option.map_eq_some_iff] at he
    obtain ⟨s1, h1, rfl⟩ := he
    rw [set_ne _ _ hu]
    unfold reallocate at h1
    split at h1
    · split at h1
      · cases h1
      · cases h1; rfl
    · cases h1; rfl
  · split at he
    · cases he
    · cases he; exact set_ne _ _ hu
  · split at he
    · cases he
    · cases he; exact set_ne _ _ hu
  · cases he; exact set_ne _ _ hu

/-- The clause is in shared memory, and every thread in `T` that has collected lists it. -/
structure Content (ls : List Lit) (T : Nat → Prop) (s : Sys) : Prop where
  g : Has s.facts.pages ls ∨ Has s.memory.pages ls
  k : ∀ t, T t → ∀ fs, (s.thr t).pc = .collect fs → Has s.memory.pages ls ∨
    ∃ a ∈ fs, ∃ w, (a, Cell.full ⟨ls, w⟩) ∈ entries s.facts.pages
  v : ∀ t, T t → (s.thr t).pc ≠ .out → (s.thr t).pc ≠ .units → (∀ fs, (s.thr t).pc ≠ .collect fs) →
    ∃ a ∈ (s.thr t).held, ∃ w, (a, Cell.full ⟨ls, w⟩) ∈ entries s.all

/-- How the thread changes in a step, as far as its list of shared clauses goes. -/
inductive Moves (s : Sys) : Thread → Thread → Prop
  | same (th th' : Thread) (h : ∀ a ∈ th.held, a ∈ th'.held) (h1 : th.pc ≠ .out) (h2 : th.pc ≠ .units)
      (h3 : ∀ fs, th.pc ≠ .collect fs) (h4 : ∀ fs, th'.pc ≠ .collect fs) : Moves s th th'
  | nothing (th : Thread) : Moves s th th
  | units (th th' : Thread) (h : th'.pc = .units) : Moves s th th'
  | collect (th th' : Thread) (h : th'.pc = .collect ((live s.facts.pages).map Prod.fst)) : Moves s th th'
  | list (fs : List Ptr) (th th' : Thread) (h : th.pc = .collect fs)
      (hh : th'.held = fs ++ (live s.memory.pages).map Prod.fst) (hp : ∀ fs, th'.pc ≠ .collect fs) : Moves s th th'

theorem step_moves {s s' : Sys} {t : Nat} {r : Request} (he : step s t r = some s') :
    Moves s (s.thr t) (s'.thr t) := by
  unfold step at he
  dsimp only at he
  split at he
  · split at he
    · cases he; rw [set_same]; exact .units _ _ rfl
    · cases he; exact .nothing _
  · rename_i hp
    have n1 : (s.thr t).pc ≠ .out := fun e => by rw [hp] at e; cases e
    have n2 : (s.thr t).pc ≠ .units := fun e => by rw [hp] at e; cases e
    have n3 : ∀ fs, (s.thr t).pc ≠ .collect fs := fun fs e => by rw [hp] at e; cases e
    cases r with
    | join f => cases he; exact .nothing _
    | create cs lbd =>
      simp only [request, Option.some.injEq] at he
      subst he
      unfold create
      extract_lets w r1 r2
      split
      · split <;> rw [set_same] <;> exact .same _ _ (fun _ h => h) n1 n2 n3 (fun fs e => by cases e)
      · rw [set_same]; exact .same _ _ (fun _ h => h) n1 n2 n3 n3
    | use k =>
      simp only [request] at he
      split at he
      · cases he; exact .nothing _
      · split at he
        · cases he; exact .nothing _
        · cases he
    | remove k =>
      simp only [request] at he
      split at he
      · cases he; exact .nothing _
      · split at he
        · cases he; exact .nothing _
        · cases he
    | removeOwn k => cases he; rw [set_same]; exact .same _ _ (fun _ h => h) n1 n2 n3 n3
    | reorganize =>
      cases he; unfold synchronize; rw [set_same]
      exact .same _ _ (fun _ h => h) n1 n2 n3 (fun fs e => by cases e)
  · rename_i a c hp
    split at he
    · cases he; rw [set_same]
      exact .same _ _ (fun _ h => List.mem_append_left _ h) (by rw [hp]; exact fun e => by cases e)
        (by rw [hp]; exact fun e => by cases e) (by rw [hp]; exact fun fs e => by cases e) (fun fs e => by cases e)
    · cases he
  · rename_i hp
    split at he
    · cases he; rw [set_same]
      exact .same _ _ (fun _ h => h) (by rw [hp]; exact fun e => by cases e)
        (by rw [hp]; exact fun e => by cases e) (by rw [hp]; exact fun fs e => by cases e) (fun fs e => by cases e)
    · cases he; rw [set_same]; exact .units _ _ rfl
  · rename_i hp
    cases he; rw [set_same]
    exact .same _ _ (fun _ h => h) (by rw [hp]; exact fun e => by cases e)
      (by rw [hp]; exact fun e => by cases e) (by rw [hp]; exact fun fs e => by cases e) (fun fs e => by cases e)
  · rw [Option.map_eq_some_iff] at he
    obtain ⟨s1, h1, rfl⟩ := he
    rw [set_same]; exact .units _ _ rfl
  · split at he
    · cases he
    · cases he; rw [set_same]; exact .collect _ _ rfl
  · rename_i fs hp
    split at he
    · cases he
    · cases he; rw [set_same]; exact .list fs _ _ hp rfl (fun fs e => by cases e)
  · rename_i hp
    cases he; rw [set_same]
    exact .same _ _ (fun _ h => h) (by rw [hp]; exact fun e => by cases e)
      (by rw [hp]; exact fun e => by cases e) (by rw [hp]; exact fun fs e => by cases e) (fun fs e => by cases e)

theorem step_content {s s' : Sys} {t : Nat} {r : Request} {ls : List Lit} {T : Nat → Prop} (hb : Base s) (hw : WrOk s)
    (hk : Keeps ls s t r) (he : step s t r = some s') (h : Content ls T s) : Content ls T s' := by
  have hf := step_frame hb hw hk he
  have hg : Has s'.facts.pages ls ∨ Has s'.memory.pages ls := h.g.imp hf.gf hf.gm
  have hkeep : ∀ u, T u → ∀ fs, (s.thr u).pc = .collect fs → Has s'.memory.pages ls ∨
      ∃ a ∈ fs, ∃ w, (a, Cell.full ⟨ls, w⟩) ∈ entries s'.facts.pages := fun u hT fs hu => by
    rcases h.k u hT fs hu with h1 | ⟨a, ha, w, h1⟩
    · exact .inl (hf.gm h1)
    · obtain ⟨w', h2⟩ := hf.f a _ h1
      exact .inr ⟨a, ha, w', h2⟩
  have hv : ∀ u, T u → (s.thr u).pc ≠ .out → (s.thr u).pc ≠ .units → (∀ fs, (s.thr u).pc ≠ .collect fs) →
      ∃ a ∈ (s.thr u).held, ∃ w, (a, Cell.full ⟨ls, w⟩) ∈ entries s'.all := fun u hT h1 h2 h3 => by
    obtain ⟨a, ha, w, hm⟩ := h.v u hT h1 h2 h3
    obtain ⟨w', h4⟩ := hf.p u a ha _ hm
    exact ⟨a, ha, w', h4⟩
  refine ⟨hg, ?_, ?_⟩
  · intro u hT fs hu
    by_cases hut : u = t
    · subst hut
      have hm := step_moves he
      generalize (s'.thr u) = th' at hm hu
      cases hm with
      | same _ _ h0 h1 h2 h3 h4 => exact absurd hu (h4 fs)
      | nothing => exact hkeep u hT fs hu
      | units _ _ h0 => rw [h0] at hu; cases hu
      | collect _ _ h0 =>
        rw [h0] at hu
        cases hu
        rcases h.g with ⟨x, hx, rfl⟩ | h1
        · right
          obtain ⟨w', h2⟩ := hf.f x.1 _ (mem_live (a := x.1) (c := x.2) |>.1 hx).1
          exact ⟨x.1, List.mem_map.2 ⟨x, hx, rfl⟩, w', h2⟩
        · exact .inl (hf.gm h1)
      | list fs' _ _ h0 hh hp => exact absurd hu (hp fs)
    · rw [step_thr he hut] at hu
      exact hkeep u hT fs hu
  · intro u hT h1 h2 h3
    by_cases hut : u = t
    · subst hut
      have hm := step_moves he
      have hfr := step_frame hb hw hk he
      generalize (s'.thr u) = th' at hm h1 h2 h3 ⊢
      cases hm with
      | same _ _ h0 n1 n2 n3 h4 =>
        obtain ⟨a, ha, w, hx⟩ := hv u hT n1 n2 n3
        exact ⟨a, h0 a ha, w, hx⟩
      | nothing => exact hv u hT h1 h2 h3
      | units _ _ h0 => exact absurd h0 h2
      | collect _ _ h0 => exact absurd h0 (h3 _)
      | list fs' _ _ h0 hh hp =>
        rw [hh]
        have hmem : ∀ y ∈ entries s.memory.pages, y ∈ entries s'.memory.pages := by
          intro y hy
          unfold step at he
          simp only [h0] at he
          split at he
          · cases he
          · cases he; exact hy
        rcases h.k u hT fs' h0 with ⟨x, hx, hl⟩ | ⟨a, ha, w, hx⟩
        · refine ⟨x.1, List.mem_append_right _ (List.mem_map.2 ⟨x, hx, rfl⟩), x.2.weight, ?_⟩
          have h5 := (mem_live (a := x.1) (c := x.2) |>.1 hx).1
          have h6 := hmem _ h5
          rw [mem_all]
          have : (⟨ls, x.2.weight⟩ : Cls) = x.2 := by rw [← hl]
          rw [this]; exact .inr (.inl h6)
        · obtain ⟨w', h4⟩ := hf.f a _ hx
          exact ⟨a, List.mem_append_left _ ha, w', mem_all.2 (.inl h4)⟩
    · rw [step_thr he hut] at h1 h2 h3 ⊢
      exact hv u hT h1 h2 h3

end Candy.Shared
