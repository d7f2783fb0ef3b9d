import Verif.Proofs.SharedRun

/-!
# Clauses in the own memory of a thread that shares clauses
-/

namespace Candy.Shared

/-- The clause is in shared memory, and thread `t` lists it once it has collected. -/
structure Posted (ls : List Lit) (t : Nat) (s : Sys) : Prop where
  g : Has s.facts.pages ls ∨ Has s.memory.pages ls
  k : ∀ fs, (s.thr t).pc = .collect fs → Has s.memory.pages ls ∨
    ∃ a ∈ fs, ∃ w, (a, Cell.full ⟨ls, w⟩) ∈ entries s.facts.pages
  v : ((s.thr t).pc = .idle ∨ Writing (s.thr t).pc ∨ (s.thr t).pc = .ready) →
    ∃ a ∈ (s.thr t).held, ∃ w, (a, Cell.full ⟨ls, w⟩) ∈ entries s.all

/-- The thread has the clause in its own memory, or it has exported it. -/
def OwnOk (ls : List Lit) (t : Nat) (s : Sys) : Prop :=
  (s.thr t).pc ≠ .out ∧ ((∃ c ∈ (s.thr t).own, c.isDeleted = false ∧ c.lits = ls) ∨ Posted ls t s)

/-- A thread that works has worked before or has just collected. -/
theorem step_works {s s' : Sys} {t : Nat} {r : Request} (he : step s t r = some s')
    (h : (s'.thr t).pc = .idle ∨ Writing (s'.thr t).pc ∨ (s'.thr t).pc = .ready) :
    ((s.thr t).pc = .idle ∨ Writing (s.thr t).pc ∨ (s.thr t).pc = .ready) ∨ ∃ fs, (s.thr t).pc = .collect fs := by
  cases hp : (s.thr t).pc with
  | idle => exact .inl (.inl rfl)
  | write a c => exact .inl (.inr (.inl ⟨a, c, rfl⟩))
  | ready => exact .inl (.inr (.inr rfl))
  | collect fs => exact .inr ⟨fs, rfl⟩
  | out =>
    exfalso
    unfold step at he
    simp only [hp] at he
    split at he
    · cases he
      rw [set_same] at h
      rcases h with h | ⟨_, _, h⟩ | h <;> cases h
    · cases he
      rw [hp] at h
      rcases h with h | ⟨_, _, h⟩ | h <;> cases h
  | check =>
    exfalso
    unfold step at he
    simp only [hp] at he
    split at he <;> cases he <;> rw [set_same] at h <;> rcases h with h | ⟨_, _, h⟩ | h <;> cases h
  | free =>
    exfalso
    unfold step at he
    simp only [hp] at he
    cases he; rw [set_same] at h; rcases h with h | ⟨_, _, h⟩ | h <;> cases h
  | realloc =>
    exfalso
    unfold step at he
    simp only [hp] at he
    rw [Option.map_eq_some_iff] at he
    obtain ⟨s1, _, rfl⟩ := he
    rw [set_same] at h; rcases h with h | ⟨_, _, h⟩ | h <;> cases h
  | units =>
    exfalso
    unfold step at he
    simp only [hp] at he
    split at he
    · cases he
    · cases he; rw [set_same] at h; rcases h with h | ⟨_, _, h⟩ | h <;> cases h

theorem step_posted {s s' : Sys} {t u : Nat} {r : Request} {ls : List Lit} (hb : Base s) (hw : WrOk s)
    (hk : Keeps ls s u r) (he : step s u r = some s') (h : Posted ls t s) : Posted ls t s' := by
  -- reduced to `step_content`, for the thread once it has collected
  by_cases hut : t = u
  · subst hut
    have hf := step_frame hb hw hk he
    by_cases hp : (s.thr t).pc = .idle ∨ Writing (s.thr t).pc ∨ (s.thr t).pc = .ready
    · have hc : Content ls (fun x => x = t) s := by
        refine ⟨h.g, fun x hx fs hfs => ?_, fun x hx _ _ _ => ?_⟩
        · rw [show x = t from hx] at hfs
          exact h.k fs hfs
        · rw [show x = t from hx]; exact h.v hp
      have hc' := step_content hb hw hk he hc
      refine ⟨hc'.g, hc'.k t rfl, fun hp' => ?_⟩
      refine hc'.v t rfl ?_ ?_ ?_
      all_goals rcases hp' with e | ⟨_, _, e⟩ | e <;> rw [e] <;> simp
    · by_cases hcol : ∃ fs, (s.thr t).pc = .collect fs
      · obtain ⟨fs, hfs⟩ := hcol
        have hc : Content ls (fun x => x = t) s :=
          ⟨h.g, fun x hx fs hfs => by rw [show x = t from hx] at hfs; exact h.k fs hfs,
            fun x hx _ _ h3 => absurd (show (s.thr x).pc = .collect fs by rw [show x = t from hx]; exact hfs) (h3 fs)⟩
        have hc' := step_content hb hw hk he hc
        refine ⟨hc'.g, hc'.k t rfl, fun hp' => ?_⟩
        refine hc'.v t rfl ?_ ?_ ?_
        all_goals rcases hp' with e | ⟨_, _, e⟩ | e <;> rw [e] <;> simp
      · have hn : ¬ ((s'.thr t).pc = .idle ∨ Writing (s'.thr t).pc ∨ (s'.thr t).pc = .ready) := fun e => by
          rcases step_works he e with e | e
          · exact hp e
          · exact hcol e
        refine ⟨h.g.imp hf.gf hf.gm, fun fs hfs => ?_, fun e => absurd e hn⟩
        have hm := step_moves he
        generalize (s'.thr t) = th' at hm hfs
        cases hm with
        | same _ _ h0 h1 h2 h3 h4 => exact absurd hfs (h4 fs)
        | nothing => exact absurd ⟨fs, hfs⟩ hcol
        | units _ _ h0 => rw [h0] at hfs; cases hfs
        | collect _ _ h0 =>
          rw [h0] at hfs
          cases hfs
          rcases h.g with ⟨x, hx, rfl⟩ | h1
          · right
            obtain ⟨w', h2⟩ := hf.f x.1 _ (mem_live (a := x.1) (c := x.2) |>.1 hx).1
            exact ⟨x.1, List.mem_map.2 ⟨x, hx, rfl⟩, w', h2⟩
          · exact .inl (hf.gm h1)
        | list fs' _ _ h0 hh hp => exact absurd hfs (hp fs)
  · have hf := step_frame hb hw hk he
    have ht := step_thr he hut
    refine ⟨h.g.imp hf.gf hf.gm, fun fs hfs => ?_, fun e => ?_⟩
    · rw [ht] at hfs
      rcases h.k fs hfs with h1 | ⟨a, ha, w, h1⟩
      · exact .inl (hf.gm h1)
      · obtain ⟨w', h2⟩ := hf.f a _ h1
        exact .inr ⟨a, ha, w', h2⟩
    · rw [ht] at e ⊢
      obtain ⟨a, ha, w, hm⟩ := h.v e
      obtain ⟨w', h4⟩ := hf.p t a ha _ hm
      exact ⟨a, ha, w', h4⟩

/-- Exporting. -/
theorem sync_posted {s : Sys} {t : Nat} {c : Cls} (hc : c ∈ (s.thr t).own) (hd : c.isDeleted = false)
    (hx : exported s.bound c = true) : Has (synchronize s t (s.thr t)).memory.pages c.lits := by
  unfold synchronize
  extract_lets r
  obtain ⟨a, ha⟩ := fill_has (m := Mem.mk (1024 * 1024) []) (f := s.fresh)
    (List.mem_filter.2 ⟨hc, hx⟩ : c ∈ (s.thr t).own.filter (exported s.bound))
  refine ⟨(a, c), mem_live.2 ⟨?_, hd⟩, rfl⟩
  show _ ∈ entries (s.memory.pages ++ r.1.pages)
  rw [entries_append]
  exact List.mem_append_right _ ha

theorem step_own {s s' : Sys} {t u : Nat} {r : Request} {ls : List Lit} (hb : Base s) (hw : WrOk s)
    (hk : Keeps ls s u r) (hko : KeepsOwn ls t s u r) (he : step s u r = some s') (h : OwnOk ls t s) :
    OwnOk ls t s' := by
  obtain ⟨hpc, h⟩ := h
  rcases Classical.em (t ≠ u) with hut | hut
  · have ht := step_thr he hut
    refine ⟨by rw [ht]; exact hpc, ?_⟩
    rcases h with h | h
    · left; rw [ht]; exact h
    · exact .inr (step_posted hb hw hk he h)
  have hut := Classical.not_not.1 hut
  subst hut
  have hpost := fun h => step_posted (t := t) hb hw hk he h
  cases hp : (s.thr t).pc with
  | out => exact absurd hp hpc
  | idle =>
    have he' := he
    unfold step at he'
    simp only [hp] at he'
    cases r with
    | join f => cases he'; exact ⟨hpc, h⟩
    | create cs lbd =>
      simp only [request, Option.some.injEq] at he'
      subst he'
      refine ⟨?_, h.imp ?_ hpost⟩
      · unfold create
        extract_lets w r1 r2
        split
        · split <;> rw [set_same] <;> simp
        · rw [set_same]; simp [hp]
      · rintro ⟨c, hc, h2⟩
        refine ⟨c, ?_, h2⟩
        unfold create
        extract_lets w r1 r2
        split
        · split <;> rw [set_same] <;> exact hc
        · rw [set_same]; exact List.mem_append_left _ hc
    | use k =>
      simp only [request] at he'
      split at he'
      · cases he'; exact ⟨hpc, h⟩
      · split at he'
        · cases he'; exact ⟨hpc, h⟩
        · cases he'
    | remove k =>
      simp only [request] at he'
      split at he'
      · cases he'; exact ⟨hpc, h⟩
      · split at he'
        · cases he'; exact ⟨hpc, h.imp id hpost⟩
        · cases he'
    | removeOwn k =>
      simp only [request, Option.some.injEq] at he'
      subst he'
      refine ⟨by rw [set_same]; simp [hp], h.imp ?_ hpost⟩
      rintro ⟨c, hc, h1, h2⟩
      rw [set_same]
      obtain ⟨i, hi, rfl⟩ := List.mem_iff_getElem.1 hc
      by_cases hik : i = k
      · subst hik
        exact absurd h2 (hko rfl i rfl _ (List.getElem?_eq_getElem hi))
      · refine ⟨(s.thr t).own[i], ?_, h1, h2⟩
        refine List.mem_iff_getElem?.2 ⟨i, ?_⟩
        show ((s.thr t).own.modify k _)[i]? = _
        rw [List.getElem?_modify, List.getElem?_eq_getElem hi]
        simp [Ne.symm hik]
    | reorganize =>
      simp only [request, Option.some.injEq] at he'
      subst he'
      have hpc' : ((synchronize s t (s.thr t)).thr t).pc = .check := by unfold synchronize; rw [set_same]
      refine ⟨by rw [hpc']; simp, ?_⟩
      rcases h with ⟨c, hc, h1, h2⟩ | h
      · cases hx : exported s.bound c with
        | true =>
          refine .inr ⟨.inr (h2 ▸ sync_posted hc h1 hx), fun fs e => ?_, fun e => ?_⟩
          · rw [hpc'] at e; cases e
          · rw [hpc'] at e; rcases e with e | ⟨_, _, e⟩ | e <;> cases e
        | false =>
          left
          refine ⟨c, ?_, h1, h2⟩
          unfold synchronize
          rw [set_same]
          exact List.mem_filter.2 ⟨hc, by simp [hx, h1]⟩
      · exact .inr (hpost h)
  | write a c =>
    have he' := he
    unfold step at he'
    simp only [hp] at he'
    split at he'
    · cases he'
      exact ⟨by rw [set_same]; simp, h.imp (fun h => by rw [set_same]; exact h) hpost⟩
    · cases he'
  | check =>
    have he' := he
    unfold step at he'
    simp only [hp] at he'
    split at he' <;> cases he' <;>
      exact ⟨by rw [set_same]; simp, h.imp (fun h => by rw [set_same]; exact h) hpost⟩
  | free =>
    have he' := he
    unfold step at he'
    simp only [hp] at he'
    cases he'
    exact ⟨by rw [set_same]; simp, h.imp (fun h => by rw [set_same]; exact h) hpost⟩
  | realloc =>
    have he' := he
    unfold step at he'
    simp only [hp] at he'
    rw [Option.map_eq_some_iff] at he'
    obtain ⟨s1, _, rfl⟩ := he'
    exact ⟨by rw [set_same]; simp, h.imp (fun h => by rw [set_same]; exact h) hpost⟩
  | units =>
    have he' := he
    unfold step at he'
    simp only [hp] at he'
    split at he'
    · cases he'
    · cases he'
      exact ⟨by rw [set_same]; simp, h.imp (fun h => by rw [set_same]; exact h) hpost⟩
  | collect fs =>
    have he' := he
    unfold step at he'
    simp only [hp] at he'
    split at he'
    · cases he'
    · cases he'
      exact ⟨by rw [set_same]; simp, h.imp (fun h => by rw [set_same]; exact h) hpost⟩
  | ready =>
    have he' := he
    unfold step at he'
    simp only [hp] at he'
    cases he'
    exact ⟨by rw [set_same]; simp, h.imp (fun h => by rw [set_same]; exact h) hpost⟩

theorem run_own {ls : List Lit} {t : Nat} {es : List (Nat × Request)} : ∀ {s s' : Sys}, Inv s → WrOk s → OrderlyRun s es →
    KeepsRun ls s es → KeepsOwnRun ls t s es → OwnOk ls t s → run s es = some s' → OwnOk ls t s' := by
  induction es with
  | nil => intro s s' _ _ _ _ _ h he; cases he; exact h
  | cons e es ih =>
    intro s s' i w o k k2 h he
    obtain ⟨s1, e1, i1⟩ := step_inv i o.1 e.2
    simp only [run, e1, Option.bind_some] at he
    exact ih i1 (step_wr i.1 i1.1 w e1) (o.2 s1 e1) (k.2 s1 e1) (k2.2 s1 e1) (step_own i.1 w k.1 k2.1 e1 h) he

end Candy.Shared
