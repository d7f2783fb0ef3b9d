import Verif.Proofs.SharedInv

/-!
# Orderly steps keep the invariant of shared clause memory
-/

namespace Candy.Shared

/-- The invariant. -/
def Inv (s : Sys) : Prop := Base s ∧ RawOk s

/-- The thread was not constructing a clause, and no new cell is raw. -/
theorem RawOk.keep {s s' : Sys} (h : RawOk s) {t : Nat} {th : Thread} (hw : ∀ a c, (s.thr t).pc ≠ .write a c)
    (hs : s'.thr = s.thr) (he : ∀ a n, (a, Cell.raw n) ∈ entries s'.all → (a, Cell.raw n) ∈ entries s.all) :
    RawOk (s'.set t th) := by
  intro a n ha
  obtain ⟨u, c, hu⟩ := h a n (he a n ha)
  have hne : u ≠ t := fun e => hw a c (e ▸ hu)
  exact ⟨u, c, by rw [set_ne _ _ hne, hs]; exact hu⟩

theorem RawOk.set {s : Sys} (h : RawOk s) {t : Nat} {th : Thread} (hw : ∀ a c, (s.thr t).pc ≠ .write a c) :
    RawOk (s.set t th) := h.keep hw rfl fun _ _ h => h

theorem Sub.of_append {ps qs : List Page} {x : List (Ptr × Cell)} (h : entries qs = entries ps ++ x) : Sub ps qs :=
  fun _ c hc => ⟨c, by rw [h]; exact List.mem_append_left _ hc, id⟩

theorem create_inv {s : Sys} (h : Inv s) {t : Nat} (hp : (s.thr t).pc = .idle) (ls : List Lit) (lbd : Nat) :
    Inv (create s t (s.thr t) ls lbd) := by
  obtain ⟨hb, hr⟩ := h
  have hw : ∀ a c, (s.thr t).pc ≠ .write a c := fun a c e => by rw [hp] at e; cases e
  have hn : (s.thr t).pc ≠ .out := fun e => by rw [hp] at e; cases e
  unfold create
  extract_lets w r1 r2
  clear_value w
  split
  · split
    · obtain ⟨h1, k, h2, h3⟩ := allocate_spec s.facts s.fresh (.raw 1) 1
      change entries r1.1.pages = entries s.facts.pages ++ [(r1.2.1, .raw 1)] at h1
      change ids r1.1.pages = _ at h2
      change r1.2.2 = _ at h3
      clear_value r1
      have hg := hb.growF h2 (Sub.of_append h1)
      rw [← h3] at hg
      refine ⟨hg.pc (t := t) hn rfl (fun e => by cases e) (fun e => by cases e <;> contradiction) ?_
        (fun fs e => by cases e) (fun e => by cases e), ?_⟩
      · intro a c e
        cases e
        exact cur_iff.2 (.inl ⟨.raw 1, by show _ ∈ entries r1.1.pages; rw [h1]; simp⟩)
      · intro a n ha
        have ha' : (a, Cell.raw n) ∈ entries ({ s with facts := r1.1, fresh := r1.2.2 } : Sys).all := ha
        rw [mem_all] at ha'
        have : (a, Cell.raw n) ∈ entries s.all ∨ a = r1.2.1 := by
          rw [mem_all]
          rcases ha' with h4 | h4
          · have h4 : _ ∈ entries r1.1.pages := h4
            rw [h1, List.mem_append] at h4
            rcases h4 with h4 | h4
            · exact .inl (.inl h4)
            · simp only [List.mem_singleton, Prod.mk.injEq] at h4; exact .inr h4.1
          · exact .inl (.inr h4)
        rcases this with h4 | h4
        · obtain ⟨u, c, hu⟩ := hr a n h4
          have hne : u ≠ t := fun e => hw a c (e ▸ hu)
          exact ⟨u, c, by rw [set_ne _ _ hne]; exact hu⟩
        · exact ⟨t, _, by rw [set_same, h4]⟩
    · obtain ⟨h1, k, h2, h3⟩ := allocate_spec s.memory s.fresh (.raw ls.length) ls.length
      change entries r2.1.pages = entries s.memory.pages ++ [(r2.2.1, .raw ls.length)] at h1
      change ids r2.1.pages = _ at h2
      change r2.2.2 = _ at h3
      clear_value r2
      have hg := hb.growM h2 (Sub.of_append h1)
      rw [← h3] at hg
      refine ⟨hg.pc (t := t) hn rfl (fun e => by cases e) (fun e => by cases e <;> contradiction) ?_
        (fun fs e => by cases e) (fun e => by cases e), ?_⟩
      · intro a c e
        cases e
        exact cur_iff.2 (.inr ⟨.raw ls.length, by show _ ∈ entries r2.1.pages; rw [h1]; simp⟩)
      · intro a n ha
        have ha' : (a, Cell.raw n) ∈ entries ({ s with memory := r2.1, fresh := r2.2.2 } : Sys).all := ha
        rw [mem_all] at ha'
        have : (a, Cell.raw n) ∈ entries s.all ∨ a = r2.2.1 := by
          rw [mem_all]
          rcases ha' with h4 | h4 | h4
          · exact .inl (.inl h4)
          · have h4 : _ ∈ entries r2.1.pages := h4
            rw [h1, List.mem_append] at h4
            rcases h4 with h4 | h4
            · exact .inl (.inr (.inl h4))
            · simp only [List.mem_singleton, Prod.mk.injEq] at h4; exact .inr h4.1
          · exact .inl (.inr (.inr h4))
        rcases this with h4 | h4
        · obtain ⟨u, c, hu⟩ := hr a n h4
          have hne : u ≠ t := fun e => hw a c (e ▸ hu)
          exact ⟨u, c, by rw [set_ne _ _ hne]; exact hu⟩
        · exact ⟨t, _, by rw [set_same, h4]⟩
  · exact ⟨hb.pc hn rfl (fun e => by rw [hp] at e; cases e)
      (fun e => by unfold Moving at e; simp only [hp] at e; cases e <;> contradiction)
      (fun a c e => by simp only [hp] at e; cases e) (fun fs e => by simp only [hp] at e; cases e)
      (fun e => by simp only [hp] at e; cases e), hr.set hw⟩

theorem sync_inv {s : Sys} (h : Inv s) {t : Nat} (hp : (s.thr t).pc = .idle) : Inv (synchronize s t (s.thr t)) := by
  obtain ⟨hb, hr⟩ := h
  have hw : ∀ a c, (s.thr t).pc ≠ .write a c := fun a c e => by rw [hp] at e; cases e
  have hn : (s.thr t).pc ≠ .out := fun e => by rw [hp] at e; cases e
  unfold synchronize
  extract_lets r
  have hf := @fill_mem (Mem.mk (1024 * 1024) []) s.fresh ((s.thr t).own.filter (exported s.bound))
  obtain ⟨_, k, h2, h3⟩ := fill_spec ((s.thr t).own.filter (exported s.bound)) (Mem.mk (1024 * 1024) []) s.fresh
  change ids r.1.pages = [] ++ _ at h2
  change r.2 = _ at h3
  change ∀ {a : Ptr} {c : Cell}, (a, c) ∈ entries r.1.pages → _ at hf
  clear_value r
  have hg := hb.growM (m := { s.memory with pages := s.memory.pages ++ r.1.pages }) (k := k)
    (by show ids (s.memory.pages ++ r.1.pages) = _; rw [ids_append, h2, List.nil_append])
    (sub_left s.memory.pages r.1.pages)
  rw [← h3] at hg
  refine ⟨hg.pc (t := t) hn rfl (fun e => by cases e) (fun e => by cases e <;> contradiction) (fun a c e => by cases e)
        (fun fs e => by cases e) (fun e => by cases e), hr.keep hw rfl ?_⟩
  intro a n ha
  rw [mem_all] at ha ⊢
  rcases ha with ha | ha | ha
  · exact .inl ha
  · have ha : _ ∈ entries (s.memory.pages ++ r.1.pages) := ha
    rw [entries_append, List.mem_append] at ha
    rcases ha with ha | ha
    · exact .inr (.inl ha)
    · rcases hf ha with h5 | ⟨d, _, h5⟩
      · cases h5
      · cases h5
  · exact .inr (.inr ha)

theorem request_inv {s : Sys} (h : Inv s) {t : Nat} (hp : (s.thr t).pc = .idle) (r : Request) :
    ∃ s', request s t (s.thr t) r = some s' ∧ Inv s' := by
  have hb := h.1
  have hr := h.2
  have hw : ∀ a c, (s.thr t).pc ≠ .write a c := fun a c e => by rw [hp] at e; cases e
  have hn : (s.thr t).pc ≠ .out := fun e => by rw [hp] at e; cases e
  have hread : ∀ a, a ∈ (s.thr t).held → ∃ c, s.read a = some (.full c) := fun a ha => by
    obtain ⟨c, hc⟩ := hb.held t a ha
    exact ⟨c, read_of_mem hb.nd hc⟩
  cases r with
  | join f => exact ⟨s, rfl, h⟩
  | create ls lbd => exact ⟨_, rfl, create_inv h hp ls lbd⟩
  | use k =>
    simp only [request]
    cases hk : (s.thr t).held[k]? with
    | none => exact ⟨s, rfl, h⟩
    | some a =>
      obtain ⟨c, hc⟩ := hread a (List.mem_of_getElem? hk)
      simp only [hc]
      exact ⟨s, rfl, h⟩
  | remove k =>
    simp only [request]
    cases hk : (s.thr t).held[k]? with
    | none => exact ⟨s, rfl, h⟩
    | some a =>
      obtain ⟨c, hc⟩ := hread a (List.mem_of_getElem? hk)
      simp only [hc]
      refine ⟨_, rfl, hb.write a _, ?_⟩
      intro b n hbn
      rw [write_entries] at hbn
      obtain ⟨x, hx, he⟩ := List.mem_map.1 hbn
      split at he
      · cases he
      · rw [he] at hx; exact hr b n hx
  | removeOwn k =>
    refine ⟨_, rfl, hb.pc hn rfl ?_ ?_ ?_ ?_ ?_, hr.set hw⟩
    · exact fun e => by rw [hp] at e; cases e
    · exact fun e => by unfold Moving at e; simp only [hp] at e; cases e <;> contradiction
    · exact fun a c e => by simp only [hp] at e; cases e
    · exact fun fs e => by simp only [hp] at e; cases e
    · exact fun e => by simp only [hp] at e; cases e
  | reorganize => exact ⟨_, rfl, sync_inv h hp⟩

theorem realloc_inv {s : Sys} (h : Inv s) {t : Nat} (hp : (s.thr t).pc = .realloc) (ho : ∀ u, ¬ Writing (s.thr u).pc) :
    ∃ s', reallocate s = some s' ∧ Inv (s'.set t { s.thr t with pc := .units }) := by
  obtain ⟨hb, hr⟩ := h
  have hq := hb.empty t hp
  obtain ⟨m1, m2, m3, m4⟩ := hb.move t (.inr hp)
  have hraw : ∀ a n, (a, Cell.raw n) ∉ entries s.all := fun a n ha => by
    obtain ⟨u, c, hu⟩ := hr a n ha
    exact ho u ⟨a, c, hu⟩
  have ht : torn s.memory.pages = false := not_torn fun a n ha => hraw a n (mem_all.2 (.inr (.inl ha)))
  unfold reallocate
  rw [if_pos (by rw [hq]; rfl), if_neg (by rw [ht]; exact Bool.false_ne_true)]
  extract_lets r
  have hf := @fill_mem (Mem.mk s.memory.pageSize [⟨s.fresh, s.memory.used, []⟩]) (s.fresh + 1)
    ((live s.memory.pages).map Prod.snd)
  obtain ⟨_, k, h2, h3⟩ := fill_spec ((live s.memory.pages).map Prod.snd)
    (Mem.mk s.memory.pageSize [⟨s.fresh, s.memory.used, []⟩]) (s.fresh + 1)
  change ids r.1.pages = [s.fresh] ++ _ at h2
  change r.2 = _ at h3
  change ∀ {a : Ptr} {c : Cell}, (a, c) ∈ entries r.1.pages → _ at hf
  have h2' : ids r.1.pages = List.range' s.fresh (1 + k) := by
    rw [h2, ← List.range'_append_1]; rfl
  clear_value r
  refine ⟨_, rfl, ?_, ?_⟩
  · have hth : ∀ u, u ≠ t → (Sys.set { s with memory := r.1, phaseOut := s.memory.pages, fresh := r.2 } t
        { s.thr t with pc := .units }).thr u = s.thr u := fun u hu => set_ne _ _ hu
    have hts : (Sys.set { s with memory := r.1, phaseOut := s.memory.pages, fresh := r.2 } t
        { s.thr t with pc := .units }).thr t = { s.thr t with pc := .units } := set_same _ _ _
    have hheld : ∀ u, ((Sys.set { s with memory := r.1, phaseOut := s.memory.pages, fresh := r.2 } t
        { s.thr t with pc := .units }).thr u).held = (s.thr u).held := fun u => by
      by_cases hu : u = t
      · subst hu; rw [hts]
      · rw [hth u hu]
    have hpc : ∀ u q, ((Sys.set { s with memory := r.1, phaseOut := s.memory.pages, fresh := r.2 } t
        { s.thr t with pc := .units }).thr u).pc = q → q ≠ .units → u ≠ t ∧ (s.thr u).pc = q := fun u q hu hq => by
      by_cases he : u = t
      · subst he; rw [hts] at hu; exact absurd hu.symm hq
      · rw [hth u he] at hu; exact ⟨he, hu⟩
    refine ⟨?_, ?_, ?_, hb.rnd, ?_, ?_, ?_, ?_, ?_, ?_, ?_⟩
    · have h1 := hb.nd
      have h4 := hb.lt
      unfold Sys.all at h1 h4
      show (ids (s.facts.pages ++ r.1.pages ++ s.memory.pages)).Nodup
      rw [hq, List.append_nil] at h1 h4
      rw [ids_append] at h1 h4
      rw [ids_append, ids_append, h2']
      exact nodup_insert h1 h4
    · intro i hi
      have hi : i ∈ ids (s.facts.pages ++ r.1.pages ++ s.memory.pages) := hi
      show i < r.2
      rw [h3]
      rw [ids_append, ids_append, h2', List.mem_append, List.mem_append, List.mem_range'_1] at hi
      rcases hi with (hi | hi) | hi
      · have := hb.lt i (mem_ids_all.2 (.inl hi)); omega
      · omega
      · have := hb.lt i (mem_ids_all.2 (.inr (.inl hi))); omega
    · intro u hu
      by_cases he : u = t
      · subst he; exact hb.keys u (by rw [hp]; exact fun e => by cases e)
      · rw [hth u he] at hu; exact hb.keys u hu
    · intro u a ha
      rw [hheld] at ha
      obtain ⟨c, hc⟩ := hb.held u a ha
      refine ⟨c, ?_⟩
      rw [mem_all] at hc
      show _ ∈ entries (s.facts.pages ++ r.1.pages ++ s.memory.pages)
      rw [entries_append, entries_append, List.mem_append, List.mem_append]
      rcases hc with hc | hc | hc
      · exact .inl (.inl hc)
      · exact .inr hc
      · rw [hq] at hc; cases hc
    · intro u hu
      rcases hu with hu | hu
      · exact absurd hu (m3 u)
      · exact absurd (hpc u _ hu (fun e => by cases e)).2 (m2 u)
    · intro w hw
      have : w ≠ t ∧ Moving (s.thr w).pc := by
        rcases hw with hw | hw
        · have := hpc w _ hw (fun e => by cases e); exact ⟨this.1, .inl this.2⟩
        · have := hpc w _ hw (fun e => by cases e); exact ⟨this.1, .inr this.2⟩
      exact absurd (m4 w this.2) this.1
    · intro w hw
      have := hpc w _ hw (fun e => by cases e)
      exact absurd (m4 w (.inr this.2)) this.1
    · intro u a c hu
      have := hpc u _ hu (fun e => by cases e)
      exact absurd ⟨a, c, this.2⟩ (ho u)
    · intro u fs hu
      have := hpc u _ hu (fun e => by cases e)
      exact hb.col u fs this.2
    · intro u hu
      rw [hheld]
      exact hb.outs u (hpc u _ hu (fun e => by cases e)).2
  · intro a n ha
    exfalso
    have ha : _ ∈ entries (s.facts.pages ++ r.1.pages ++ s.memory.pages) := ha
    rw [entries_append, entries_append, List.mem_append, List.mem_append] at ha
    rcases ha with (ha | ha) | ha
    · exact hraw a n (mem_all.2 (.inl ha))
    · rcases hf ha with h5 | ⟨d, _, h5⟩
      · simp [entries] at h5
      · cases h5
    · exact hraw a n (mem_all.2 (.inr (.inl ha)))

theorem step_inv {s : Sys} (h : Inv s) {t : Nat} (ho : Orderly s t) (r : Request) :
    ∃ s', step s t r = some s' ∧ Inv s' := by
  obtain ⟨o1, o2, o3⟩ := ho
  have hb := h.1
  have hr := h.2
  unfold step
  dsimp only
  split
  · rename_i hp
    have hw : ∀ a c, (s.thr t).pc ≠ .write a c := fun a c e => by rw [hp] at e; cases e
    split
    · rename_i f
      refine ⟨_, rfl, ?_, hr.keep hw rfl fun _ _ h => h⟩
      refine hb.upd (setReady_nodup hb.rnd) ?_ ?_ (fun a ha => by cases ha) ?_ (fun _ a ha => by cases ha) ?_ ?_
        (fun e => by cases e) (fun a c e => by cases e) (fun fs e => by cases e) (fun e => by cases e)
      · intro u b hu
        by_cases he : u = t
        · subst he; exact ⟨false, (mem_setReady hb.rnd).2 (.inr rfl)⟩
        · exact ⟨b, (mem_setReady hb.rnd).2 (.inl ⟨he, hu⟩)⟩
      · exact fun _ => ⟨false, (mem_setReady hb.rnd).2 (.inr rfl)⟩
      · intro u hu hm
        rcases (mem_setReady hb.rnd).1 hm with h1 | h1
        · exact h1.2
        · cases h1
      · intro hm; cases hm <;> contradiction
      · intro w _ hw
        refine ⟨fun a ha => (by cases ha), fun e => (by cases e), fun hm => ?_, fun hm => (by cases hm <;> contradiction)⟩
        rcases (mem_setReady hb.rnd).1 hm with h1 | h1
        · exact h1.1 rfl
        · cases h1
    · exact ⟨s, rfl, h⟩
  · rename_i hp; exact request_inv h hp r
  · rename_i a c hp
    have hn : (s.thr t).pc ≠ .out := fun e => by rw [hp] at e; cases e
    have hc := hb.wr t a c hp
    obtain ⟨d, hd⟩ := hc.all
    rw [read_of_mem hb.nd hd]
    refine ⟨_, rfl, ?_, ?_⟩
    · have hb' := hb.write a c
      have hcur : ∀ b, Cur s b → Cur (s.write a (.full c)) b := fun b ⟨x, hx⟩ => by
        obtain ⟨x', h1, _⟩ := ((sub_setCell s.facts.pages a c).append (sub_setCell s.memory.pages a c)) b x hx
        exact ⟨x', h1⟩
      have hfull : ∃ c', (a, Cell.full c') ∈ entries (s.write a (.full c)).all := by
        refine ⟨c, write_entries.2 (List.mem_map.2 ⟨_, hd, by simp⟩)⟩
      have := hb'.upd (t := t) (th := { s.thr t with pc := .idle, held := (s.thr t).held ++ [a] }) (rd := s.ready)
        hb.rnd (fun u b hu => ⟨b, hu⟩) (fun _ => hb.keys t hn)
        (fun b hbm => by
          rcases List.mem_append.1 hbm with h1 | h1
          · exact hb'.held t b h1
          · rw [List.mem_singleton.1 h1]; exact hfull)
        (fun _ _ hu => hu)
        (fun hx b hbm => by
          rcases List.mem_append.1 hbm with h1 | h1
          · refine hb'.cur t (hx.imp id fun e => by cases e) b h1
          · rw [List.mem_singleton.1 h1]; exact hcur a hc)
        (fun hm => by cases hm <;> contradiction)
        (fun w _ hw => ⟨fun b hbm => by
          rcases List.mem_append.1 hbm with h1 | h1
          · exact (hb'.move w hw).1 t b h1
          · rw [List.mem_singleton.1 h1]; exact hcur a hc, fun e => (by cases e), (hb'.move w hw).2.2.1 t,
          fun hm => (by cases hm <;> contradiction)⟩)
        (fun e => by cases e) (fun a c e => by cases e) (fun fs e => by cases e) (fun e => by cases e)
      exact this
    · intro b n hbn
      have hbn : (b, Cell.raw n) ∈ entries (s.write a (.full c)).all := hbn
      rw [write_entries] at hbn
      obtain ⟨x, hx, he⟩ := List.mem_map.1 hbn
      split at he
      · cases he
      · rename_i hne
        rw [he] at hx hne
        obtain ⟨u, e, hu⟩ := hr b n hx
        have hut : u ≠ t := fun e' => by
          rw [e', hp] at hu; cases hu; exact hne rfl
        exact ⟨u, e, by rw [set_ne _ _ hut]; exact hu⟩
  · rename_i hp
    have hw : ∀ a c, (s.thr t).pc ≠ .write a c := fun a c e => by rw [hp] at e; cases e
    have hn : (s.thr t).pc ≠ .out := fun e => by rw [hp] at e; cases e
    split
    · rename_i hall
      rw [List.all_eq_true] at hall
      have hcu : ∀ u, ∀ a ∈ (s.thr u).held, Cur s a := fun u a ha => by
        by_cases hu : (s.thr u).pc = .out
        · rw [hb.outs u hu] at ha; cases ha
        · obtain ⟨b, hbm⟩ := hb.keys u hu
          have := hall _ hbm
          simp only at this
          subst this
          exact hb.cur u (.inl hbm) a ha
      have hnm : ∀ w, ¬ Moving (s.thr w).pc := fun w hm => by
        have hu : (s.thr w).pc ≠ .out := by rcases hm with hm | hm <;> rw [hm] <;> exact fun e => by cases e
        obtain ⟨b, hbm⟩ := hb.keys w hu
        have := hall _ hbm
        simp only at this
        subst this
        exact (hb.move w hm).2.2.1 w hbm
      have hnt : ∀ u, (u, true) ∉ s.ready.map (fun x => (x.1, false)) := fun u hu => by
        obtain ⟨x, _, he⟩ := List.mem_map.1 hu
        cases he
      refine ⟨_, rfl, ?_, hr.keep hw rfl fun _ _ h => h⟩
      refine hb.upd ?_ ?_ ?_ (hb.held t) (fun u _ hu => absurd hu (hnt u)) (fun hx => ?_) (fun _ => ?_)
        (fun w _ hm => absurd hm (hnm w)) (fun e => by cases e) (fun a c e => by cases e) (fun fs e => by cases e)
        (fun e => by cases e)
      · rw [List.map_map]; exact hb.rnd
      · intro u b hu; exact ⟨false, List.mem_map.2 ⟨_, hu, rfl⟩⟩
      · intro _
        obtain ⟨b, hbm⟩ := hb.keys t hn
        exact ⟨false, List.mem_map.2 ⟨_, hbm, rfl⟩⟩
      · rcases hx with hx | hx
        · exact absurd hx (hnt t)
        · cases hx
      · exact ⟨hcu, hcu t, fun u _ => o3 hp u, hnt, fun u _ => hnm u⟩
    · exact ⟨_, rfl, hb.pc hn rfl (fun e => by cases e) (fun e => by cases e <;> contradiction) (fun a c e => by cases e)
        (fun fs e => by cases e) (fun e => by cases e), hr.set hw⟩
  · rename_i hp
    have hw : ∀ a c, (s.thr t).pc ≠ .write a c := fun a c e => by rw [hp] at e; cases e
    have hn : (s.thr t).pc ≠ .out := fun e => by rw [hp] at e; cases e
    obtain ⟨m1, m2, m3, m4⟩ := hb.move t (.inl hp)
    -- first empty the list of old pages
    have hsub : ∀ x ∈ entries ({ s with phaseOut := [] } : Sys).all, x ∈ entries s.all := fun x hx => by
      rw [mem_all] at hx ⊢
      rcases hx with hx | hx | hx
      · exact .inl hx
      · exact .inr (.inl hx)
      · cases hx
    have hb' : Base ({ s with phaseOut := [] } : Sys) := by
      refine ⟨?_, ?_, hb.keys, hb.rnd, ?_, hb.cur, hb.move, fun _ _ => rfl, hb.wr, hb.col, hb.outs⟩
      · have h1 := hb.nd
        unfold Sys.all at h1 ⊢
        rw [ids_append] at h1
        rw [List.append_nil]
        exact (List.nodup_append.1 h1).1
      · intro i hi
        refine hb.lt i (mem_ids_all.2 ?_)
        rcases mem_ids_all.1 hi with hi | hi | hi
        · exact .inl hi
        · exact .inr (.inl hi)
        · cases hi
      · intro u a ha
        obtain ⟨c, hc⟩ := hb.held u a ha
        obtain ⟨d, hd⟩ := m1 u a ha
        have h1 := read_of_mem hb.nd hc
        have h2 : (a, d) ∈ entries s.all := by
          unfold Sys.all; rw [entries_append]; exact List.mem_append_left _ hd
        have h3 := read_of_mem hb.nd h2
        rw [h1] at h3
        cases h3
        refine ⟨c, ?_⟩
        unfold Sys.all; rw [entries_append]; exact List.mem_append_left _ hd
    refine ⟨_, rfl, ?_, hr.keep hw rfl fun a n ha => hsub _ ha⟩
    refine hb'.upd (t := t) (th := { s.thr t with pc := .realloc }) (rd := s.ready) hb.rnd (fun u b hu => ⟨b, hu⟩)
      (fun _ => hb.keys t hn) (hb'.held t) (fun _ _ hu => hu) (fun _ => m1 t)
      (fun _ => ⟨m1, m1 t, fun u _ => m2 u, m3, fun u hu hm => hu (m4 u hm)⟩)
      (fun w hwt hm => absurd (m4 w hm) hwt) (fun _ => rfl) (fun a c e => by cases e) (fun fs e => by cases e)
      (fun e => by cases e)
  · rename_i hp
    obtain ⟨s', h1, h2⟩ := realloc_inv h hp (o1 (.inl hp))
    rw [h1]
    exact ⟨_, rfl, h2⟩
  · rename_i hp
    have hw : ∀ a c, (s.thr t).pc ≠ .write a c := fun a c e => by rw [hp] at e; cases e
    have hn : (s.thr t).pc ≠ .out := fun e => by rw [hp] at e; cases e
    have ht : torn s.facts.pages = false := not_torn fun a n ha => by
      obtain ⟨u, c, hu⟩ := hr a n (mem_all.2 (.inl ha))
      exact o1 (.inr (.inl hp)) u ⟨a, c, hu⟩
    rw [if_neg (by rw [ht]; exact Bool.false_ne_true)]
    refine ⟨_, rfl, hb.pc hn rfl (fun e => by cases e) (fun e => by cases e <;> contradiction) (fun a c e => by cases e)
        (fun fs e a ha => ?_) (fun e => by cases e), hr.set hw⟩
    cases e
    obtain ⟨x, hx, rfl⟩ := List.mem_map.1 ha
    exact ⟨x.2, (mem_live.1 hx).1⟩
  · rename_i fs hp
    have hw : ∀ a c, (s.thr t).pc ≠ .write a c := fun a c e => by rw [hp] at e; cases e
    have hn : (s.thr t).pc ≠ .out := fun e => by rw [hp] at e; cases e
    have ht : torn s.memory.pages = false := not_torn fun a n ha => by
      obtain ⟨u, c, hu⟩ := hr a n (mem_all.2 (.inr (.inl ha)))
      exact o1 (.inr (.inr ⟨fs, hp⟩)) u ⟨a, c, hu⟩
    rw [if_neg (by rw [ht]; exact Bool.false_ne_true)]
    have hx : ∀ a ∈ fs ++ (live s.memory.pages).map Prod.fst, (∃ c, (a, Cell.full c) ∈ entries s.facts.pages) ∨
        ∃ c, (a, Cell.full c) ∈ entries s.memory.pages := fun a ha => by
      rcases List.mem_append.1 ha with ha | ha
      · exact .inl (hb.col t fs hp a ha)
      · obtain ⟨x, hx, rfl⟩ := List.mem_map.1 ha
        exact .inr ⟨x.2, (mem_live.1 hx).1⟩
    have hcur : ∀ a ∈ fs ++ (live s.memory.pages).map Prod.fst, Cur s a := fun a ha => by
      rcases hx a ha with ⟨c, hc⟩ | ⟨c, hc⟩
      · exact cur_iff.2 (.inl ⟨_, hc⟩)
      · exact cur_iff.2 (.inr ⟨_, hc⟩)
    refine ⟨_, rfl, ?_, hr.set hw⟩
    refine hb.upd (rd := s.ready) hb.rnd (fun u b hu => ⟨b, hu⟩) (fun _ => hb.keys t hn) (fun a ha => ?_)
      (fun _ _ hu => hu) (fun _ => hcur) (fun hm => by cases hm <;> contradiction)
      (fun w _ hm => absurd hm (o2 fs hp w)) (fun e => by cases e) (fun a c e => by cases e) (fun fs e => by cases e)
      (fun e => by cases e)
    rcases hx a ha with ⟨c, hc⟩ | ⟨c, hc⟩
    · exact ⟨c, mem_all.2 (.inl hc)⟩
    · exact ⟨c, mem_all.2 (.inr (.inl hc))⟩
  · rename_i hp
    have hw : ∀ a c, (s.thr t).pc ≠ .write a c := fun a c e => by rw [hp] at e; cases e
    refine ⟨_, rfl, ?_, hr.keep hw rfl fun _ _ h => h⟩
    refine hb.upd (setReady_nodup hb.rnd) ?_ (fun _ => ⟨true, (mem_setReady hb.rnd).2 (.inr rfl)⟩) (hb.held t) ?_
      (fun _ => hb.cur t (.inr hp)) (fun hm => by cases hm <;> contradiction)
      (fun w _ hm => absurd hp ((hb.move w hm).2.1 t)) (fun e => by cases e) (fun a c e => by cases e)
      (fun fs e => by cases e) (fun e => by cases e)
    · intro u b hu
      by_cases he : u = t
      · subst he; exact ⟨true, (mem_setReady hb.rnd).2 (.inr rfl)⟩
      · exact ⟨b, (mem_setReady hb.rnd).2 (.inl ⟨he, hu⟩)⟩
    · intro u hu hm
      rcases (mem_setReady hb.rnd).1 hm with h1 | h1
      · exact h1.2
      · cases h1; exact absurd rfl hu

end Candy.Shared
