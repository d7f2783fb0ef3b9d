import Verif.Proofs.History

/-! Completeness of propagation in every reachable search state without inprocessing. -/

namespace Candy

variable {F : CNF} {as : List Lit} {sys sys' : Sys} {u : Usage}

/-- All clauses of the database are in the watch lists. -/
def AttAll (s : Solver) : Prop := ∀ c ∈ s.db.clauses, Attached s.db.store s.watch c

/-- The clauses propagation takes into account. -/
def GoodC (s : Solver) (c : Nat) : Prop :=
  c ∈ s.db.clauses ∧ ((s.db.store c).weight = 0 ∨ 3 ≤ (s.db.lits c).length)

theorem attAll_correction {s : Solver} (hd : DBOk F s.db) (h : AttAll s) (c : Clause) :
    AttAll (addCorrection s c) := by
  rw [addCorrection_eq]
  intro d hd' x y r hl hr
  simp only [createClause_clauses, List.mem_append, List.mem_singleton] at hd'
  have mono : ∀ p w, w ∈ s.watch p → w ∈ (match c with
      | x :: y :: _ :: _ => DB.addBin s.watch s.db.next x y
      | _ => s.watch) p := by
    intro p w hw
    split
    · simp [DB.addBin, hw]
    · exact hw
  rcases hd' with hd' | rfl
  · have hlt := hd.mem d hd'
    simp only [createClause_store] at hl
    rw [upd_ne _ _ (by omega)] at hl
    obtain ⟨⟨w, a, b⟩, ⟨w', a', b'⟩⟩ := h d hd' x y r hl hr
    exact ⟨⟨w, mono _ _ a, b⟩, ⟨w', mono _ _ a', b'⟩⟩
  · simp only [createClause_store, upd_same] at hl
    subst hl
    obtain ⟨z, r', rfl⟩ := List.exists_cons_of_ne_nil hr
    simp only
    refine ⟨⟨⟨s.db.next, y⟩, ?_, rfl⟩, ⟨⟨s.db.next, x⟩, ?_, rfl⟩⟩ <;> simp [DB.addBin]

theorem attAll_corrections : ∀ (cs : List Clause) (s : Solver), DBOk F s.db →
    WatchInv s.db.next s.db.store s.watch →
    (∀ c ∈ cs, Entails F c ∧ (∀ l ∈ c, l.var < s.db.nVars) ∧ (c.map Lit.var).Nodup) →
    AttAll s → AttAll (cs.foldl addCorrection s)
  | [], _, _, _, _, h => h
  | c :: cs, s, hd, hw, hc, h => by
    rw [List.foldl_cons]
    obtain ⟨h1, h2, h3⟩ := hc c (by simp)
    obtain ⟨d1, d2⟩ := addCorrection_spec hd hw h1 h2 h3
    refine attAll_corrections cs _ d1 d2 ?_ (attAll_correction hd h c)
    intro d hd'
    rw [(addCorrection_frame s c).1]
    exact hc d (by simp [hd'])

theorem attAll_reset {s : Solver} : AttAll { s with watch := resetWatch s.db } :=
  fun _ hc => attached_resetWatch hc

theorem attAll_start (h : SysOk F sys) : AttAll (solveStart sys).sol := by
  have h' : VEOk F sys.sol.db.nVars { sys.ve with frozen := fun _ => false } :=
    ⟨h.ve.ent, h.ve.wf, h.ve.nd⟩
  obtain ⟨r1, r2, r3⟩ := resetLoop_spec sys.sol.trail.reset.assumptions
    { sys.ve with frozen := fun _ => false } sys.sol.trail.reset [] h' (by simp)
  unfold solveStart
  dsimp only
  unfold VE.reset
  generalize VE.resetLoop sys.sol.trail.reset.assumptions
    { sys.ve with frozen := fun _ => false } sys.sol.trail.reset [] = r at *
  exact attAll_corrections (F := F) r.1
    ({ sys.sol with conflict := [], trail := r.2.2, watch := resetWatch sys.sol.db } : Solver)
    h.db (resetWatch_inv h.db) r2 (fun _ hc => attached_resetWatch hc)

theorem attAll_entry {cfg : Config} {pre : List PreRound} (h : SysOk F sys)
    (he : solveEntry cfg pre sys = some sys') : AttAll sys'.sol := by
  unfold solveEntry at he
  dsimp only at he
  split at he
  · obtain ⟨sys2, h2, rfl⟩ := Option.map_eq_some_iff.1 he
    exact attAll_reset
  · simp at he; subst he
    exact attAll_start h

/-- The state after `reduceStep` without inprocessing. -/
theorem attAll_reduce {cfg : Config} {r : Round} (hin : r.inprocess = none) (h : AttAll sys.sol)
    (he : reduceStep cfg r { sys with sol := { sys.sol with trail := sys.sol.trail.reset } }
      = some sys') : AttAll sys'.sol ∧ sys'.sol.trail.stack = [] := by
  obtain ⟨db, w, e1, e2, e3⟩ := reduceStep_plain (cfg := cfg)
    (sys := { sys with sol := { sys.sol with trail := sys.sol.trail.reset } }) hin
  rw [he] at e1
  simp only [Option.some.injEq] at e1
  subst e1
  refine ⟨?_, rfl⟩
  cases ht : r.trigger with
  | true =>
    obtain ⟨h1, h2⟩ := e2 ht
    intro c hc
    simp only at hc ⊢
    rw [h2]; exact attached_resetWatch hc
  | false =>
    obtain ⟨rfl, rfl⟩ := e3 ht
    exact h

/-- The search invariant for all clauses after materialisation. -/
theorem start_good {s s' : Solver} (hd : DBOk F s.db) (hs : s.trail.stack = [])
    (hatt : AttAll s) (hm : Mat F s s') (hne : s'.db.hasEmpty = false)
    (hb : ∀ l ∈ s'.trail.assumptions, l.var < s'.db.nVars) : SInv F (GoodC s') s' := by
  have hl' := hm.l0 hne
  obtain ⟨ext, x1, x2⟩ := hm.add.clauses
  -- the clauses present before materialisation
  have hA : ∀ c, GoodC s' c → (GoodC s c ∨ ∃ l ∈ s'.trail.stack, s'.db.lits c = [l]) := by
    intro c hc
    obtain ⟨h1, h2⟩ := hc
    rw [x1] at h1
    rcases List.mem_append.1 h1 with h1 | h1
    · have hlt := hd.mem c h1
      refine Or.inl ⟨h1, ?_⟩
      rw [hm.add.weight c hlt, (hm.add.lits c hlt).length_eq] at h2
      exact h2
    · exact Or.inr (x2 c h1).2.2.2
  have hlt : ∀ c, GoodC s c → c < s.db.next := fun c hc => hd.mem c hc.1
  have hc0 : CInv (GoodC s) s.db.store s.watch s.db.bin s.trail (fun _ _ => False) := by
    refine ⟨fun c hc => hatt c hc.1, fun c hc x y hxy => ?_, fun c _ x y r _ w _ => Or.inr ?_⟩
    · refine hd.binAll c hc.1 ?_ x y hxy
      rcases hc.2 with h | h
      · exact h
      · unfold DB.lits at h; rw [hxy] at h; simp at h
    · intro hw; rw [hs] at hw; simp at hw
  have hc1 := hm.cinv hne _ hlt hc0
  refine {
    db := hm.db
    core := hl'.core
    watch := hl'.watch
    limq := by intro k hk; rw [hl'.lim] at hk; simp at hk
    cinv := ⟨?_, ?_, ?_⟩
    alt := fun c hc => hm.db.mem c hc.1
    units := ?_
    nonempty := ?_
    asmBound := hb
    asm := by
      intro p hp _ h0
      rw [level_zero hl'.core.tinv hl'.lim hp] at h0; omega
    asmTrue := by
      intro i p _ hi
      simp [Trail.decisionLevel, hl'.lim] at hi }
  · intro c hc x y r hxy hr
    rcases hA c hc with h | ⟨l, _, h⟩
    · exact hc1.w1 c h x y r hxy hr
    · unfold DB.lits at h; rw [hxy] at h; simp at h
  · intro c hc x y hxy
    rcases hA c hc with h | ⟨l, _, h⟩
    · exact hc1.b1 c h x y hxy
    · unfold DB.lits at h; rw [hxy] at h; simp at h
  · intro c hc x y r hxy w hw
    rcases hA c hc with h | ⟨l, _, h⟩
    · exact hc1.w4 c h x y r hxy w hw
    · unfold DB.lits at h; rw [hxy] at h; simp at h
  · intro c hc l hcl
    have : l ∈ s'.trail.stack := by
      rcases hA c hc with h | ⟨m, hm1, h⟩
      · have hp := hm.add.lits c (hlt c h)
        unfold DB.lits at hp
        rw [hcl] at hp
        have hp' := List.perm_singleton.1 hp.symm
        refine hm.units hne c h.1 (not_deleted_of_zero ?_) l hp'
        rcases h.2 with h2 | h2
        · exact h2
        · unfold DB.lits at h2; rw [hp'] at h2; simp at h2
      · unfold DB.lits at h; rw [hcl] at h; simp at h; subst h; exact hm1
    exact ⟨this, level_zero hl'.core.tinv hl'.lim this⟩
  · intro c hc he
    have := hm.db.emptAll c hc.1 he
    rw [this] at hne; simp at hne

theorem good_step {s s' : Solver} {A : Nat → Prop} (hd : DBOk F s.db)
    (hne : ∀ c ∈ s.db.clauses, s.db.lits c ≠ []) (hf : Frame F s s')
    (hA : ∀ c, GoodC s c → A c) (hnew : ∀ c ∈ s'.db.clauses, c ∈ s.db.clauses ∨ A c) :
    ∀ c, GoodC s' c → A c := by
  intro c hc
  rcases hnew c hc.1 with h | h
  · have hlt := hd.mem c h
    refine hA c ⟨h, ?_⟩
    have hlen := (hf.perm c hlt).length_eq
    by_cases h3 : 3 ≤ (s.db.lits c).length
    · exact Or.inr h3
    · left
      rcases hc.2 with h2 | h2
      · exact hf.weightRev c hlt (hne c h) (by unfold DB.lits at h3; omega) h2
      · unfold DB.lits at h2 h3; omega
  · exact h

theorem nonempty_of {s : Solver} (hd : DBOk F s.db) (h : s.db.hasEmpty = false) :
    ∀ c ∈ s.db.clauses, s.db.lits c ≠ [] := by
  intro c hc he
  have := hd.emptAll c hc he
  rw [h] at this; simp at this

/-- Rounds without inprocessing. -/
def Usage.NoInpr (u : Usage) : Prop := ∀ r, u.round r → r.inprocess = none

theorem InSolve.attAll (hu : u.Valid) (hn : u.NoInpr) (h : InSolve u F as sys) :
    AttAll sys.sol := by
  induction h with
  | enter h cfg pre hc he => exact attAll_entry (h.ok hu).ok he
  | round h cfg r hr he ih =>
    rename_i sys1 sys2
    have hok := h.ok hu
    unfold solveRound at he
    dsimp only at he
    cases h1 : reduceStep cfg r
        { sys1 with sol := { sys1.sol with trail := sys1.sol.trail.reset } } with
    | none => rw [h1] at he; simp at he
    | some sysr =>
      rw [h1] at he
      dsimp only at he
      obtain ⟨a1, a2⟩ := hok.inv.reset.reduceStep (hu r hr).sort h1
      obtain ⟨t1, t2⟩ := attAll_reduce (hn r hr) ih h1
      obtain ⟨s, m1, m2, m3, _, _⟩ := a1.materialize
      rw [m1] at he
      dsimp only at he
      split at he
      · simp at he
      · rename_i hE
        have hE : s.db.hasEmpty = false := by simpa using hE
        have hE0 : sysr.sol.db.hasEmpty = false := by
          cases hh : sysr.sol.db.hasEmpty with
          | false => rfl
          | true => have := m3.hasEmpty hh; simp only at this; rw [hE] at this; simp at this
        obtain ⟨s1, n1, hm⟩ := materialize_spec a1.db (a1.l0 hE0)
        rw [m1] at n1
        simp at n1; subst n1
        have hf := a2.trans m3
        have hS := start_good a1.db t2 t1 hm hE (by
          intro l hl
          have has := hf.assumptions.trans hok.assumptions
          have hnv := hf.nVars
          simp only at has hnv hl ⊢
          rw [has] at hl; rw [hnv]; exact hok.bound l hl)
        obtain ⟨x, hx, hxe⟩ := Option.map_eq_some_iff.1 he
        obtain ⟨s', b'⟩ := x
        simp only [Prod.mk.injEq] at hxe
        obtain ⟨rfl, rfl⟩ := hxe
        obtain ⟨_, f1, _, f3, _, _⟩ := search_spec r.steps r.choice _ s hS (hu r hr).choice s' _ hx
        obtain ⟨_, A', g1, g2, g3⟩ := f3 (by simp)
        intro c hc x y rr hl hr'
        have hAc : A' c := good_step hm.db (nonempty_of hm.db hE) f1 g1 g3 c
          ⟨hc, Or.inr (by
            unfold DB.lits
            simp only at hl ⊢
            rw [hl]
            have := List.length_pos_iff.2 hr'
            simp only [List.length_cons]; omega)⟩
        exact g2.cinv.w1 c hAc x y rr hl hr'

theorem Searching.good {s : Solver} (hu : u.Valid) (hn : u.NoInpr) (h : Searching u F as s) :
    SInv F (GoodC s) s ∧ s.db.hasEmpty = false := by
  induction h with
  | start h cfg r hr h1 h2 h3 =>
    rename_i sys1 sysr s0
    have hok := h.ok hu
    obtain ⟨a1, a2⟩ := hok.inv.reset.reduceStep (hu r hr).sort h1
    obtain ⟨t1, t2⟩ := attAll_reduce (hn r hr) (h.attAll hu hn) h1
    obtain ⟨s, m1, m2, m3, _, _⟩ := a1.materialize
    rw [h2] at m1
    simp at m1; subst m1
    have hE0 : sysr.sol.db.hasEmpty = false := by
      cases hh : sysr.sol.db.hasEmpty with
      | false => rfl
      | true => have := m3.hasEmpty hh; simp only at this; rw [h3] at this; simp at this
    obtain ⟨s1, n1, hm⟩ := materialize_spec a1.db (a1.l0 hE0)
    rw [h2] at n1
    simp at n1; subst n1
    have hf := a2.trans m3
    refine ⟨start_good a1.db t2 t1 hm h3 ?_, h3⟩
    intro l hl
    have has := hf.assumptions.trans hok.assumptions
    have hnv := hf.nVars
    simp only at has hnv hl ⊢
    rw [has] at hl; rw [hnv]; exact hok.bound l hl
  | iter h ch hch he ih =>
    obtain ⟨ih, ihE⟩ := ih
    obtain ⟨out, e1, e2⟩ := searchIter_spec ih hch
    rw [he] at e1
    simp at e1; subst e1
    obtain ⟨f, c, _, A', g1, hS, g3⟩ := e2
    exact ⟨hS.weaken (good_step ih.db (nonempty_of ih.db ihE) f g1 g3), f.hasEmpty.trans ihE⟩

end Candy
