import Verif.Proofs.StaticSearch
import Verif.Proofs.Complete

/-!
# Rounds, calls and histories of a solver with the static propagator
-/

namespace Candy

variable {F : CNF} {A : Nat → Prop}

/-! ### Unit clauses -/

theorem SCI.growLevel0 {store : Nat → Cls} {W : SW} {T T' : Trail}
    (h : SCI store W T (fun _ _ => False))
    (ht : T.Inv) (ht' : T'.Inv) (hl : T.lim = []) (hg : TGrow T T') (hq : T'.qhead = T.qhead) :
    SCI store W T' (fun _ _ => False) := by
  have hlim : T'.lim = [] := by rw [hg.lim, hl]
  intro i hi w hw
  rcases h i hi w hw with h1 | h1
  · exact h1.elim
  · right
    intro hm
    obtain ⟨suf, hs⟩ := hg.stack
    have hm' : w.neg ∈ T'.stack := List.mem_of_mem_take hm
    rw [hs, hq, List.take_append_of_le_length ht.qle] at hm
    obtain ⟨l, k1, k2, k3⟩ := h1 hm
    have h2 := hg.mem k2
    refine ⟨l, k1, h2, ?_⟩
    rw [level_zero ht' hlim h2]; omega

theorem SCI.congr {store store' : Nat → Cls} {W : SW} {T : Trail} {ex : Nat → Lit → Prop}
    (h : SCI store W T ex)
    (hs : ∀ i < W.cnt, (store' (W.tab i).cref).lits = (store (W.tab i).cref).lits) :
    SCI store' W T ex := by
  intro i hi w hw
  rw [hs i hi]
  exact h i hi w hw

/-- `propagateAndMaterializeUnitClauses` on a database with a contradiction. -/
theorem sMaterialize_empty {s : St} (hd : DBOk F s.sol.db) (he : s.sol.db.hasEmpty = true) :
    ∃ s', sMaterialize s = some s' ∧ DBOk F s'.sol.db ∧ DBSame s.sol.db s'.sol.db ∧
      s'.sol.db.hasEmpty = true ∧ s'.sol.trail.nVars = s.sol.trail.nVars ∧
      s'.sol.trail.assumptions = s.sol.trail.assumptions ∧
      s'.sol.conflict = s.sol.conflict ∧ s'.sol.trail.decision = s.sol.trail.decision ∧
      s'.sol.watch = s.sol.watch := by
  obtain ⟨a, b, c, d, e, f⟩ := factFold_empty s.sol.db.unitLits s.sol.trail s.sol.db hd he
  refine ⟨{ s with sol := { s.sol with
    trail := (s.sol.db.unitLits.foldl factStep (s.sol.trail, s.sol.db)).1,
    db := (s.sol.db.unitLits.foldl factStep (s.sol.trail, s.sol.db)).2 } }, ?_, a, b, c, d, e, rfl,
    f, rfl⟩
  unfold sMaterialize
  simp only
  rw [if_pos c]

/-- What materialisation keeps for the watchers. -/
structure SMat (s s' : St) : Prop where
  w : SWInv s'.sol.db.next s'.sol.db.store s'.W
  cnt : s'.W.cnt = s.W.cnt
  cref : ∀ i, (s'.W.tab i).cref = (s.W.tab i).cref
  lits : ∀ c < s.sol.db.next, (s'.sol.db.store c).lits = (s.sol.db.store c).lits
  sci : s'.sol.db.hasEmpty = false → SCI s.sol.db.store s.W s.sol.trail (fun _ _ => False) →
    SCI s'.sol.db.store s'.W s'.sol.trail (fun _ _ => False)

theorem sMaterialize_spec {s : St} (hd : DBOk F s.sol.db) (h : L0 F s.sol)
    (hnw : s.sol.watch = noWatch) (hw : SWInv s.sol.db.next s.sol.db.store s.W) :
    ∃ s', sMaterialize s = some s' ∧ Mat F s.sol s'.sol ∧ s'.sol.watch = noWatch ∧ SMat s s' := by
  obtain ⟨f1, f2, f3, f4, f5, f6, f7⟩ := factFold_spec s.sol.db.unitLits s.sol.trail s.sol.db h.core
    h.lim hd (unitLits_spec hd)
  have f4 := f4 h.rz
  have fsrc := factFold_src s.sol.db.unitLits s.sol.trail s.sol.db
  have hadd0 : AddsUnits s.sol.db (s.sol.db.unitLits.foldl factStep (s.sol.trail, s.sol.db)).2
      (s.sol.db.unitLits.foldl factStep (s.sol.trail, s.sol.db)).1 := by
    refine ⟨f6.nVars, by rw [f6.next]; exact Nat.le_refl _, ?_, ?_, ⟨[], ?_, by simp⟩,
      fun c h1 h2 => by rw [f6.next] at h2; omega⟩
    · intro c _; unfold DB.lits; rw [f6.store]
    · intro c _; rw [f6.store]
    · rw [f6.clauses]; simp
  unfold sMaterialize
  generalize s.sol.db.unitLits.foldl factStep (s.sol.trail, s.sol.db) = x at *
  obtain ⟨T1, db1⟩ := x
  simp only at *
  have hlim1 : T1.lim = [] := by rw [f2.lim, h.lim]
  have hsrc1 : ∀ P : Nat → Prop, (∀ c < s.sol.db.next, ∀ l ∈ s.sol.db.lits c, P l.var) →
      (∀ l ∈ s.sol.trail.stack, P l.var) → ∀ l ∈ T1.stack, P l.var := by
    intro P h1 h2 l hl
    rcases fsrc l hl with h3 | h3
    · exact h2 l h3
    · obtain ⟨c, h4, h5⟩ := unitLits_mem hd.mem h3
      exact h1 c h4 l h5
  have hw1 : SWInv db1.next db1.store s.W := by
    rw [f6.next, f6.store]; exact hw
  split
  · rename_i he
    refine ⟨_, rfl, ?_, hnw, ?_⟩
    · exact {
        db := f5
        add := hadd0
        grow := f2
        conflict := rfl
        recalc := rfl
        sent := rfl
        hasEmpty := fun _ => he
        l0 := by simp only [he]; simp
        qhead := by simp only [he]; simp
        units := by simp only [he]; simp
        cinv := by simp only [he]; simp
        src := hsrc1 }
    · exact ⟨hw1, rfl, fun _ => rfl, fun c _ => by simp only; rw [f6.store], by simp only [he]; simp⟩
  · rename_i he
    have he : db1.hasEmpty = false := by simpa using he
    obtain ⟨f7a, f7b⟩ := f7 he
    have hc1 : Core F db1.nVars db1.next db1.bin db1.store T1 := by
      rw [f6.nVars, f6.next, f6.bin, f6.store]; exact f1
    have hq : LimQ T1 := by intro k hk; rw [hlim1] at hk; simp at hk
    obtain ⟨W, T, r, e1, e2, e3, e4, e6, e7, e8, e9, e10, e11, e12⟩ := sPropagateLoop_spec
      (db1.nVars + 1) s.W T1 hc1 hw1 hq (by omega)
    have hce : ∀ A : Nat → Prop, CInv A s.sol.db.store s.sol.watch s.sol.db.bin s.sol.trail
        (fun _ _ => False) → r = none → CInv A db1.store noWatch db1.bin T (fun _ _ => False) := by
      intro A hA hr
      have h0 : CInv A db1.store noWatch db1.bin T1 (fun _ _ => False) := by
        rw [f6.store, f6.bin, ← hnw]
        exact hA.growLevel0 h.core.tinv f1.tinv h.lim f2 f3
      have := e10 A h0
      refine ⟨this.w1, this.b1, ?_⟩
      intro c hc x y r hl w hw
      rcases this.w4 c hc x y r hl w hw with h1 | h1
      · exact (h1.1 hr).elim
      · exact Or.inr h1
    have hse : SCI s.sol.db.store s.W s.sol.trail (fun _ _ => False) → r = none →
        SCI db1.store W T (fun _ _ => False) := by
      intro hA hr
      have h0 : SCI db1.store s.W T1 (fun _ _ => False) := by
        rw [f6.store]
        exact hA.growLevel0 h.core.tinv f1.tinv h.lim f2 f3
      intro i hi w hw
      rcases e9 h0 i hi w hw with h1 | h1
      · exact (h1.1 hr).elim
      · exact Or.inr h1
    have hsrc2 : ∀ P : Nat → Prop, (∀ c < s.sol.db.next, ∀ l ∈ s.sol.db.lits c, P l.var) →
        (∀ l ∈ s.sol.trail.stack, P l.var) → ∀ l ∈ T.stack, P l.var := by
      intro P h1 h2 l hl
      by_cases hm : l ∈ T1.stack
      · exact hsrc1 P h1 h2 l hm
      · obtain ⟨pre, post, hpp⟩ := List.append_of_mem hl
        obtain ⟨c, hc⟩ := Option.ne_none_iff_exists'.1 (e4.new l hl hm)
        obtain ⟨k1, k2, _⟩ := e2.rsome pre l post c hpp hc
        rw [f6.store] at k2
        rw [f6.next] at k1
        exact h1 c k1 l k2
    rw [e1]
    have hlim2 : T.lim = [] := by rw [e4.lim, hlim1]
    cases r with
    | some c =>
      simp only
      refine ⟨_, rfl, ?_, hnw, ?_⟩
      · have hE : Entails F [] :=
          ConflictL.refutes e2 (by simp [Trail.decisionLevel, hlim2]) (e7 c rfl)
        exact {
          db := f5.emptyClause hE
          add := by
            refine ⟨f6.nVars, by simp only [DB.emptyClause]; rw [f6.next]; exact Nat.le_refl _,
              ?_, ?_, ⟨[], ?_, by simp⟩, fun c h1 h2 => by
                simp only [DB.emptyClause] at h2; rw [f6.next] at h2; omega⟩
            · intro d _
              simp only [DB.emptyClause, DB.lits]; rw [f6.store]
            · intro d _
              simp only [DB.emptyClause]; rw [f6.store]
            · simp only [DB.emptyClause]; rw [f6.clauses]; simp
          grow := f2.trans e4.toGrow
          conflict := rfl
          recalc := rfl
          sent := rfl
          hasEmpty := fun _ => rfl
          l0 := by simp [DB.emptyClause]
          qhead := by simp [DB.emptyClause]
          units := by simp [DB.emptyClause]
          cinv := by simp [DB.emptyClause]
          src := hsrc2 }
      · exact ⟨e3, e11, e12, fun c _ => by simp only [DB.emptyClause]; rw [f6.store],
          by simp [DB.emptyClause]⟩
    | none =>
      simp only
      obtain ⟨suf, hsuf⟩ := e4.stack
      have hdrop : T.stack.drop T1.stack.length = suf := by rw [hsuf]; simp
      rw [hdrop]
      obtain ⟨db', k1, k0, k2, k3, k4, k5, _, k7, k8, k9, k10, k11, k12⟩ := unitFold_spec suf T
        db1 e2 hlim2 f5
        (fun x hx => by rw [hsuf]; exact List.mem_append_right _ hx)
      generalize suf.foldl unitStep (T, db1) = y at *
      obtain ⟨T2, db2⟩ := y
      simp only at *
      subst k0
      refine ⟨_, rfl, ?_, hnw, ?_⟩
      · have hgrow := (f2.trans e4.toGrow).trans k3
        exact {
          db := k8
          add := by
            obtain ⟨ext, x1, x2⟩ := k10.clauses
            refine ⟨k10.nVars.trans f6.nVars, ?_, ?_, ?_, ⟨ext, ?_, ?_⟩, ?_⟩
            · have := k10.next; rw [f6.next] at this; exact this
            · intro c hc
              have := k9.lits c (by rw [f6.next]; exact hc)
              rw [this]
              unfold DB.lits
              rw [f6.store]
            · intro c hc
              rw [k10.weight c (by rw [f6.next]; exact hc), f6.store]
            · rw [x1, f6.clauses]
            · intro c hc
              obtain ⟨a, b, d, l, e, g⟩ := x2 c hc
              rw [f6.next] at a
              exact ⟨a, b, d, l, by simp only; rw [k4]; exact e, g⟩
            · intro c h1 h2
              obtain ⟨l, e, g⟩ := k10.news c (by rw [f6.next]; exact h1) h2
              exact ⟨l, by simp only; rw [k4]; exact e, g⟩
          grow := hgrow
          conflict := rfl
          recalc := rfl
          sent := rfl
          hasEmpty := fun hh => by rw [f7a] at hh; simp at hh
          l0 := fun _ => {
            core := k2
            watch := by rw [hnw]; exact ⟨by simp, by simp⟩
            lim := by simp only; rw [k3.lim, hlim2]
            rz := by
              intro l hl
              simp only at hl ⊢
              refine k7 l ?_
              rw [k4, hsuf] at hl
              rcases List.mem_append.1 hl with hl | hl
              · right
                rw [e4.reason l hl]; exact f4 l hl
              · exact Or.inl hl }
          qhead := fun _ => by simp only; rw [k5, k4]; exact e6 trivial
          units := fun _ c hc hdel l hl =>
            ((e4.toGrow).trans k3).mem (f7b l (mem_unitLits hc hdel hl))
          cinv := fun _ A hA hC => by
            have h1 := hce A hC trivial
            have h2 := h1.congr (store' := db'.store) (watch' := noWatch) (bin' := db'.bin)
              (fun c hc => k9.lits c (by rw [f6.next]; exact hA c hc))
              (fun _ _ h => h) k12
            simp only
            rw [hnw]
            exact h2.growLevel0 e2.tinv k2.tinv hlim2 k3 k5
          src := fun P h1 h2 l hl => by
            simp only at hl
            rw [k4] at hl
            exact hsrc2 P h1 h2 l hl }
      · refine ⟨e3.congr k9.next k9.lits, e11, e12, ?_, fun _ hA => ?_⟩
        · intro c hc
          rw [show (db'.store c).lits = (db1.store c).lits from k9.lits c (by rw [f6.next]; exact hc),
            f6.store]
        · have h1 := hse hA trivial
          have h2 := h1.congr (store' := db'.store) (fun i hi => k9.lits _ (e3.ref i hi).1)
          exact h2.growLevel0 e2.tinv k2.tinv hlim2 k3 k5

/-! ### Rounds -/

/-- Invariant between API calls. -/
structure SBase (F : CNF) (s : St) : Prop where
  db : DBOk F s.sol.db
  nv : s.sol.trail.nVars = s.sol.db.nVars
  nw : s.sol.watch = noWatch
  dec : ∀ v, s.sol.trail.decision v = true
  carries : CarriesDB F s.sol.db

/-- Invariant at the head of the loop of `solve`. -/
structure SRound (F : CNF) (s : St) : Prop extends SBase F s where
  w : SWInv s.sol.db.next s.sol.db.store s.W
  cov : ∀ c ∈ s.sol.db.clauses, 2 < (s.sol.db.store c).lits.length →
    ∃ i < s.W.cnt, (s.W.tab i).cref = c

theorem SBase.resetW {s : St} (h : SBase F s) : SRound F ⟨s.sol, SW.reset s.sol.db⟩ where
  toSBase := ⟨h.db, h.nv, h.nw, h.dec, h.carries⟩
  w := swinv_reset h.db
  cov _ hc hl := attachFold_all hl _ _ hc

theorem SRound.resetTrail {s : St} (h : SRound F s) :
    SRound F { s with sol := { s.sol with trail := s.sol.trail.reset } } where
  db := h.db
  nv := h.nv
  nw := h.nw
  dec := h.dec
  carries := h.carries
  w := h.w
  cov := h.cov

theorem sReduceStep_spec {cfg : Config} {r : Round} {s : St} (h : SRound F s) (hr : r.Valid) :
    SRound F (sReduceStep cfg r s) ∧ (sReduceStep cfg r s).sol.db.nVars = s.sol.db.nVars ∧
      (sReduceStep cfg r s).sol.trail = s.sol.trail ∧
      (sReduceStep cfg r s).sol.conflict = s.sol.conflict := by
  unfold sReduceStep
  split
  · obtain ⟨a, b, _⟩ := removeFold (reduceVictims cfg.keepMedian s.sol.db
      (r.sort (reduceCandidates cfg.persistentLBD s.sol.db))) s.sol.db h.db (fun c hc =>
        h.db.mem c (List.mem_filter.1 (hr.sort _ _ (mem_reduceVictims hc))).1)
    have hb : SBase F ⟨{ s.sol with db := (reduceDB cfg r.sort s.sol.db).reorganize }, s.W⟩ :=
      { db := a.reorganize
        nv := h.nv.trans b.nVars.symm
        nw := h.nw
        dec := h.dec
        carries := (h.carries.reduceDB hr.sort).reorganize }
    exact ⟨hb.resetW, b.nVars, rfl, rfl⟩
  · exact ⟨h, rfl, rfl, rfl⟩

/-- The search invariant when search begins. -/
theorem start_static {s s' : St} (hd : DBOk F s.sol.db)
    (hcov : ∀ c ∈ s.sol.db.clauses, 2 < (s.sol.db.store c).lits.length →
      ∃ i < s.W.cnt, (s.W.tab i).cref = c) (hst : s.sol.trail.stack = [])
    (hm : Mat F s.sol s'.sol) (hnw : s'.sol.watch = noWatch) (hM : SMat s s')
    (hne : s'.sol.db.hasEmpty = false)
    (hb : ∀ l ∈ s'.sol.trail.assumptions, l.var < s'.sol.db.nVars) :
    StInv True F (GoodC s'.sol) s' := by
  have hl' := hm.l0 hne
  obtain ⟨ext, x1, x2⟩ := hm.add.clauses
  have hA : ∀ c, GoodC s'.sol c →
      (GoodC s.sol c ∨ ∃ l ∈ s'.sol.trail.stack, s'.sol.db.lits c = [l]) := by
    intro c hc
    obtain ⟨h1, h2⟩ := hc
    rw [x1] at h1
    rcases List.mem_append.1 h1 with h1 | h1
    · have hlt := hd.mem c h1
      refine Or.inl ⟨h1, ?_⟩
      rw [hm.add.weight c hlt, (hm.add.lits c hlt).length_eq] at h2
      exact h2
    · exact Or.inr (x2 c h1).2.2.2
  have hlt : ∀ c, GoodC s.sol c → c < s.sol.db.next := fun c hc => hd.mem c hc.1
  let B : Nat → Prop := fun c => GoodC s.sol c ∧ (s.sol.db.store c).lits.length ≤ 2
  have hc0 : CInv B s.sol.db.store s.sol.watch s.sol.db.bin s.sol.trail (fun _ _ => False) := by
    refine ⟨fun c hc x y r hl hr => ?_, fun c hc x y hxy => ?_, fun c _ x y r _ w _ => Or.inr ?_⟩
    · have := hc.2
      rw [hl] at this
      cases r with
      | nil => exact (hr rfl).elim
      | cons => simp at this
    · refine hd.binAll c hc.1.1 ?_ x y hxy
      rcases hc.1.2 with h | h
      · exact h
      · unfold DB.lits at h; rw [hxy] at h; simp at h
    · intro hw; rw [hst] at hw; simp at hw
  have hc1 := hm.cinv hne _ (fun c hc => hlt c hc.1) hc0
  have hAB : ∀ c, GoodC s'.sol c ∧ (s'.sol.db.store c).lits.length ≤ 2 →
      (B c ∨ ∃ l ∈ s'.sol.trail.stack, s'.sol.db.lits c = [l]) := by
    intro c hc
    rcases hA c hc.1 with h | h
    · refine Or.inl ⟨h, ?_⟩
      rw [← hM.lits c (hlt c h)]; exact hc.2
    · exact Or.inr h
  have hsol : SInv F (fun c => GoodC s'.sol c ∧ (s'.sol.db.store c).lits.length ≤ 2) s'.sol := by
    refine {
      db := hm.db
      core := hl'.core
      watch := hl'.watch
      limq := by intro k hk; rw [hl'.lim] at hk; simp at hk
      cinv := ⟨?_, ?_, ?_⟩
      alt := fun c hc => hm.db.mem c hc.1.1
      units := ?_
      nonempty := ?_
      asmBound := hb
      asm := by
        intro p hp _ h0
        rw [level_zero hl'.core.tinv hl'.lim hp] at h0; omega
      asmTrue := by
        intro i p _ hi
        simp [Trail.decisionLevel, hl'.lim] at hi }
    · intro c hc x y r hxy hr
      rcases hAB c hc with h | ⟨l, _, h⟩
      · exact hc1.w1 c h x y r hxy hr
      · unfold DB.lits at h; rw [hxy] at h; simp at h
    · intro c hc x y hxy
      rcases hAB c hc with h | ⟨l, _, h⟩
      · exact hc1.b1 c h x y hxy
      · unfold DB.lits at h; rw [hxy] at h; simp at h
    · intro c hc x y r hxy w hw
      rcases hAB c hc with h | ⟨l, _, h⟩
      · exact hc1.w4 c h x y r hxy w hw
      · unfold DB.lits at h; rw [hxy] at h; simp at h
    · intro c hc l hcl
      have : l ∈ s'.sol.trail.stack := by
        rcases hA c hc.1 with h | ⟨m, hm1, h⟩
        · have hp := hM.lits c (hlt c h)
          rw [hcl] at hp
          refine hm.units hne c h.1 (not_deleted_of_zero ?_) l hp.symm
          rcases h.2 with h2 | h2
          · exact h2
          · unfold DB.lits at h2; rw [← hp] at h2; simp at h2
        · unfold DB.lits at h; rw [hcl] at h; simp at h; subst h; exact hm1
      exact ⟨this, level_zero hl'.core.tinv hl'.lim this⟩
    · intro c hc he
      have := hm.db.emptAll c hc.1.1 he
      rw [this] at hne; simp at hne
  refine ⟨hsol, hnw, fun c hc => hm.db.mem c hc.1, hM.w, fun _ => hM.sci hne ?_, ?_⟩
  · intro i hi w _
    right
    intro hw; rw [hst] at hw; simp at hw
  · intro c hc hlen
    rcases hA c hc with h2 | ⟨l, _, h2⟩
    · rw [hM.lits c (hlt c h2)] at hlen
      obtain ⟨i, h3, h4⟩ := hcov c h2.1 hlen
      exact ⟨i, by rw [hM.cnt]; exact h3, by rw [hM.cref]; exact h4⟩
    · unfold DB.lits at h2; rw [h2] at hlen; simp at hlen

/-- What a part of a call keeps. -/
structure SKeep (F : CNF) (s s' : St) : Prop where
  base : SBase F s'
  nVars : s'.sol.db.nVars = s.sol.db.nVars
  assumptions : s'.sol.trail.assumptions = s.sol.trail.assumptions

/-- A state in which SAT is reported. -/
structure SModel (F : CNF) (s : St) : Prop where
  tinv : s.sol.trail.Inv
  complete : Complete s.sol
  sat : ∀ f ∈ F, ∃ l ∈ f, l ∈ s.sol.trail.stack

theorem sRound_start {cfg : Config} {r : Round} {s : St} (h : SRound F s) (hr : r.Valid)
    (hb : ∀ l ∈ s.sol.trail.assumptions, l.var < s.sol.db.nVars) :
    ∃ s1, sMaterialize (sReduceStep cfg r { s with sol := { s.sol with trail := s.sol.trail.reset } })
        = some s1 ∧ SKeep F s s1 ∧ s1.sol.conflict = s.sol.conflict ∧
      (s1.sol.db.hasEmpty = false → StInv True F (GoodC s1.sol) s1) := by
  obtain ⟨a1, a2, a3, a4⟩ := sReduceStep_spec (cfg := cfg) (r := r) h.resetTrail hr
  generalize hs0 : sReduceStep cfg r { s with sol := { s.sol with trail := s.sol.trail.reset } } = s0
    at *
  simp only at a2 a4
  cases hE0 : s0.sol.db.hasEmpty with
  | true =>
    obtain ⟨s1, h1, h2, h3, h4, h5, h6, h7, h8, h9⟩ := sMaterialize_empty a1.db hE0
    refine ⟨s1, h1, ⟨⟨h2, ?_, h9.trans a1.nw, ?_, ?_⟩, h3.nVars.trans a2, ?_⟩, h7.trans a4, ?_⟩
    · rw [h5, h3.nVars]; exact a1.nv
    · intro v; rw [h8]; exact a1.dec v
    · intro b hb
      obtain ⟨c, k1, k2, k3⟩ := a1.carries b hb
      refine ⟨c, by rw [h3.clauses]; exact k1, by rw [h3.store]; exact k2, ?_⟩
      unfold DB.lits
      rw [h3.store]; exact k3
    · rw [h6, a3]; rfl
    · rw [h4]; simp
  | false =>
    have hl0 : L0 F s0.sol := by
      refine ⟨?_, ?_, ?_, ?_⟩
      · rw [a3]; exact core_reset a1.db (by have := a1.nv; rw [a3] at this; exact this)
      · rw [a1.nw]; exact ⟨by simp, by simp⟩
      · rw [a3]; rfl
      · rw [a3]; exact noReason_reset _
    obtain ⟨s1, h1, hm, hnw, hM⟩ := sMaterialize_spec a1.db hl0 a1.nw a1.w
    have hnv : s1.sol.db.nVars = s.sol.db.nVars := hm.add.nVars.trans a2
    have has : s1.sol.trail.assumptions = s.sol.trail.assumptions := by
      rw [hm.grow.assumptions, a3]; rfl
    refine ⟨s1, h1, ⟨⟨hm.db, ?_, hnw, ?_, ?_⟩, hnv, has⟩, hm.conflict.trans a4, fun hE => ?_⟩
    · rw [hm.grow.nVars, hm.add.nVars]; exact a1.nv
    · intro v; rw [hm.grow.decision]; exact a1.dec v
    · intro b hb
      obtain ⟨c, k1, k2, k3⟩ := a1.carries b hb
      have hlt := a1.db.mem c k1
      refine ⟨c, hm.add.mem k1, by rw [hm.add.weight c hlt]; exact k2, ?_⟩
      exact (hm.add.lits c hlt).trans k3
    · refine start_static a1.db a1.cov (by rw [a3]; rfl) hm hnw hM hE ?_
      intro l hl
      rw [has] at hl; rw [hnv]; exact hb l hl

theorem sSolveRound_spec {cfg : Config} {r : Round} {s s' : St} {b : Option Bool}
    (h : SRound F s) (hr : r.StOk)
    (hb : ∀ l ∈ s.sol.trail.assumptions, l.var < s.sol.db.nVars) (hcf : s.sol.conflict = [])
    (he : sSolveRound cfg r s = some (s', b)) :
    SKeep F s s' ∧ (b ≠ some false → s'.sol.conflict = [] ∧ SRound F s') ∧
    (b = some false → UnsatOk F s.sol.trail.assumptions s'.sol.conflict) ∧
    (b = some true → SModel F s') := by
  obtain ⟨s1, h1, hk, hc, hS⟩ := sRound_start (cfg := cfg) h hr.1 hb
  unfold sSolveRound at he
  rw [h1] at he
  dsimp only at he
  split at he
  · rename_i hE
    simp only [Option.some.injEq, Prod.mk.injEq] at he
    obtain ⟨rfl, rfl⟩ := he
    exact ⟨hk, by simp, fun _ => Or.inl ⟨hc.trans hcf, not_sat_of_entails_nil (hk.base.db.empt hE)⟩,
      by simp⟩
  · rename_i hE
    have hE : s1.sol.db.hasEmpty = false := by simpa using hE
    obtain ⟨_, f1, f2, fw, fi, ⟨A', g2, g4, g5, f3⟩, f4, f5⟩ := sSearch_spec r.steps r.choice _ s1
      (hS hE) hr.1.choice s' b he
    have hcar : ∀ f ∈ F, ∃ c ∈ s1.sol.db.clauses, (s1.sol.db.store c).weight = 0 ∧
        c ∈ s'.sol.db.clauses ∧ (s'.sol.db.store c).weight = 0 ∧ (s'.sol.db.lits c).Perm f := by
      intro f hf
      obtain ⟨c, k1, k2, k3⟩ := hk.base.carries f hf
      have hlt := hk.base.db.mem c k1
      obtain ⟨ext, q1, _⟩ := f1.clauses
      exact ⟨c, k1, k2, by rw [q1]; exact List.mem_append_left _ k1, f1.weight c hlt k2,
        (f1.perm c hlt).trans k3⟩
    have hbase : SBase F s' := {
      db := f2
      nv := by rw [f1.tnVars, f1.nVars]; exact hk.base.nv
      nw := fw
      dec := fun v => by rw [f1.decision]; exact hk.base.dec v
      carries := fun f hf => by
        obtain ⟨c, _, _, k3, k4, k5⟩ := hcar f hf
        exact ⟨c, k3, k4, k5⟩ }
    refine ⟨⟨hbase, f1.nVars.trans hk.nVars, f1.assumptions.trans hk.assumptions⟩, ?_, ?_, ?_⟩
    · intro hb'
      refine ⟨(f3 hb').1.trans (hc.trans hcf), hbase, fi, ?_⟩
      intro c hc' hl
      refine g5 c ?_ hl
      rcases g4 c hc' with h' | h'
      · refine g2 c ⟨h', Or.inr ?_⟩
        have := (f1.perm c (hk.base.db.mem c h')).length_eq
        unfold DB.lits
        omega
      · exact h'
    · intro hb'
      rcases f4 hb' with ⟨g1, g2⟩ | ⟨core, g1, g2, g3, g4⟩
      · exact Or.inl ⟨g1.trans (hc.trans hcf), g2⟩
      · right
        rw [g2, hc, hcf, List.nil_append]
        exact ⟨g1, g3, by rw [← hk.assumptions]; exact g4⟩
    · intro hb'
      have hI := (f3 (by rw [hb']; simp)).2
      refine ⟨hI.sol.core.tinv, f5 hb', ?_⟩
      intro f hf
      obtain ⟨c, k1, k2, _, _, k5⟩ := hcar f hf
      obtain ⟨l, l1, l2⟩ := hI.satisfied trivial (f5 hb') (g2 c ⟨k1, Or.inl k2⟩)
        (fun l _ => hbase.dec l.var)
      exact ⟨l, k5.mem_iff.1 l1, l2⟩

theorem sSolveLoop_spec {cfg : Config} : ∀ (rs : List Round) (s : St), SRound F s →
    (∀ r ∈ rs, r.StOk) →
    (∀ l ∈ s.sol.trail.assumptions, l.var < s.sol.db.nVars) → s.sol.conflict = [] →
    ∀ s' b, sSolveLoop cfg rs s = some (s', b) →
    SKeep F s s' ∧ (b ≠ some false → s'.sol.conflict = []) ∧
    (b = some false → UnsatOk F s.sol.trail.assumptions s'.sol.conflict) ∧
    (b = some true → SModel F s')
  | [], s, h, _, _, hcf, s', b, he => by
    simp only [sSolveLoop, Option.some.injEq, Prod.mk.injEq] at he
    obtain ⟨rfl, rfl⟩ := he
    exact ⟨⟨h.toSBase, rfl, rfl⟩, fun _ => hcf, by simp, by simp⟩
  | r :: rs, s, h, hr, hb, hcf, s', b, he => by
    rw [sSolveLoop] at he
    split at he
    · simp at he
    · rename_i s1 h1
      obtain ⟨a1, a2, _⟩ := sSolveRound_spec h (hr r (by simp)) hb hcf h1
      obtain ⟨a2, a3⟩ := a2 (by simp)
      obtain ⟨c1, c2, c3, c4⟩ := sSolveLoop_spec rs s1 a3 (fun q hq => hr q (by simp [hq]))
        (by rw [a1.assumptions, a1.nVars]; exact hb) a2 s' b he
      exact ⟨⟨c1.base, c1.nVars.trans a1.nVars, c1.assumptions.trans a1.assumptions⟩, c2,
        fun hh => by rw [← a1.assumptions]; exact c3 hh, c4⟩
    · rename_i s1 b1 h1
      simp only [Option.some.injEq, Prod.mk.injEq] at he
      obtain ⟨rfl, rfl⟩ := he
      obtain ⟨a1, a2, a3, a4⟩ := sSolveRound_spec h (hr r (by simp)) hb hcf h1
      exact ⟨a1, fun hh => (a2 hh).1, a3, a4⟩

theorem sSolveStart_spec {s : St} (h : SBase F s) : SRound F (sSolveStart s) :=
  SBase.resetW (s := ⟨{ s.sol with conflict := [], trail := s.sol.trail.reset }, s.W⟩)
    ⟨h.db, h.nv, h.nw, h.dec, h.carries⟩

/-- Invariant of `solve` and its answers. -/
theorem sSolve_spec {cfg : Config} {rounds : List Round} {s s' : St} {res : Result}
    (h : SBase F s) (hr : ∀ r ∈ rounds, r.StOk)
    (hb : ∀ l ∈ s.sol.trail.assumptions, l.var < s.sol.db.nVars)
    (he : sSolve cfg rounds s = some (s', res)) :
    SKeep F s s' ∧ (res.status ≠ some false → res.conflict = []) ∧
    (res.status = some false → UnsatOk F s.sol.trail.assumptions res.conflict) ∧
    (res.status ≠ some true → ∀ v, res.model v = none) ∧
    (res.status = some true → PSat res.model F ∧
      (∀ l ∈ s.sol.trail.assumptions, l.trueIn res.model) ∧
      ∀ v < s.sol.db.nVars, res.model v ≠ none) := by
  have hs := sSolveStart_spec h
  unfold sSolve at he
  dsimp only at he
  split at he
  · simp at he
  · rename_i s2 status hs2
    have key : SKeep F s s2 ∧ (status ≠ some false → s2.sol.conflict = []) ∧
        (status = some false → UnsatOk F s.sol.trail.assumptions s2.sol.conflict) ∧
        (status = some true → SModel F s2) := by
      split at hs2
      · rename_i hE
        simp only [Option.some.injEq, Prod.mk.injEq] at hs2
        obtain ⟨rfl, rfl⟩ := hs2
        exact ⟨⟨hs.toSBase, rfl, rfl⟩, by simp,
          fun _ => Or.inl ⟨rfl, not_sat_of_entails_nil (hs.db.empt hE)⟩, by simp⟩
      · obtain ⟨c1, c2⟩ := sSolveLoop_spec rounds _ hs hr hb rfl s2 status hs2
        exact ⟨⟨c1.base, c1.nVars, c1.assumptions⟩, c2⟩
    obtain ⟨k1, k2, k3, k4⟩ := key
    simp only [sSolveEnd, Option.some.injEq, Prod.mk.injEq] at he
    obtain ⟨rfl, rfl⟩ := he
    have hdb : DBOk F (if status = some false ∧ s2.sol.conflict.isEmpty = true then
        s2.sol.db.emptyClause else s2.sol.db) := by
      split
      · rename_i hc
        rcases k3 hc.1 with h1 | h1
        · exact k1.base.db.emptyClause (fun a ha => (h1.2 ⟨a, ha⟩).elim)
        · have := hc.2; simp at this; exact (h1.1 this).elim
      · exact k1.base.db
    have hnv : (if status = some false ∧ s2.sol.conflict.isEmpty = true then
        s2.sol.db.emptyClause else s2.sol.db).nVars = s2.sol.db.nVars := by
      split <;> rfl
    refine ⟨⟨⟨hdb, ?_, k1.base.nw, ?_, ?_⟩, hnv.trans k1.nVars, ?_⟩, k2, k3, ?_, ?_⟩
    · rw [Trail.backtrack_nVars, hnv]; exact k1.base.nv
    · intro v; simp only [Trail.backtrack_decision]; exact k1.base.dec v
    · simp only
      split
      · exact k1.base.carries
      · exact k1.base.carries
    · simp only [Trail.backtrack_assumptions]; exact k1.assumptions
    · intro hh v
      simp only at hh ⊢
      rw [if_neg hh]
    · intro hh
      simp only at hh ⊢
      rw [if_pos hh]
      obtain ⟨m1, m2, m3⟩ := k4 hh
      refine ⟨?_, ?_, ?_⟩
      · intro f hf
        obtain ⟨l, l1, l2⟩ := m3 f hf
        exact ⟨l, l1, modelOf_mem m1 l2⟩
      · intro l hl
        exact modelOf_mem m1 (m2.assumptions l (by rw [k1.assumptions]; exact hl))
      · intro v hv
        rw [modelOf_assigns m1]
        refine m2.decided v ?_ (k1.base.dec v)
        rw [k1.base.nv, k1.nVars]; exact hv

/-! ### Histories -/

theorem SBase.init {s : St} (h : SBase F s) {nv : Nat} {G : CNF}
    (hG : WfCNF (max s.sol.db.nVars nv) G) :
    SBase (F ++ G) (s.init nv G) ∧ (s.init nv G).sol.db.nVars = max s.sol.db.nVars nv := by
  obtain ⟨a, b⟩ := dbInit_spec h.db (lem := true) hG
  refine ⟨⟨a, ?_, h.nw, ?_, ?_⟩, b⟩
  · have := h.nv
    simp only [St.init, Trail.init]
    have hmx : (s.sol.db.init nv G true).nVars = max s.sol.db.nVars nv := b
    rw [hmx]
    split
    · rfl
    · show s.sol.trail.nVars = _
      omega
  · intro v
    simp only [St.init, Trail.init]
    split <;> exact h.dec v
  · simp only [St.init, DB.init]
    refine createFold_carries (f := fun c => if true = true then 0 else c.length) (by simp) G F _ ?_ ?_
    · split <;> exact h.db.mem
    · split <;> exact h.carries

/-- Invariant of histories. -/
structure SHistOk (F : CNF) (as : List Lit) (s : St) : Prop where
  base : SBase F s
  assumptions : s.sol.trail.assumptions = as
  bound : ∀ l ∈ as, l.var < s.sol.db.nVars

theorem SHistory.ok {as : List Lit} {s : St} (h : SHistory F as s) : SHistOk F as s := by
  induction h with
  | new recalc =>
    have h := plain_new recalc
    exact ⟨⟨h.ok.db, rfl, rfl, fun _ => rfl, h.carries⟩, rfl, by simp⟩
  | add h nv G hG ih =>
    obtain ⟨a, b⟩ := ih.base.init hG
    refine ⟨a, ?_, ?_⟩
    · rw [← ih.assumptions]
      simp only [St.init, Trail.init]
      split <;> rfl
    · intro l hl
      have := ih.bound l hl
      rw [b]; omega
  | assume h as' hb ih =>
    exact ⟨⟨ih.base.db, ih.base.nv, ih.base.nw, ih.base.dec, ih.base.carries⟩, rfl, hb⟩
  | solve h cfg rounds hr he ih =>
    obtain ⟨k, _⟩ := sSolve_spec ih.base hr (by rw [ih.assumptions]; exact ih.bound) he
    exact ⟨k.base, k.assumptions.trans ih.assumptions, fun l hl => by
      rw [k.nVars]; exact ih.bound l hl⟩

theorem SInSolve.ok {as : List Lit} {s : St} (h : SInSolve F as s) :
    SRound F s ∧ s.sol.trail.assumptions = as ∧ (∀ l ∈ as, l.var < s.sol.db.nVars) ∧
      s.sol.conflict = [] := by
  induction h with
  | enter h he =>
    have := h.ok
    exact ⟨sSolveStart_spec this.base, this.assumptions, this.bound, rfl⟩
  | round h cfg r hr he ih =>
    obtain ⟨i1, i2, i3, i4⟩ := ih
    obtain ⟨k, k1, _⟩ := sSolveRound_spec i1 hr (by rw [i2]; exact i3) i4 he
    obtain ⟨k1, k2⟩ := k1 (by simp)
    exact ⟨k2, k.assumptions.trans i2, fun l hl => by rw [k.nVars]; exact i3 l hl, k1⟩

/-- Every state of the search satisfies the invariant, for all clauses that have not been removed. -/
theorem SSearching.inv {as : List Lit} {s : St} (h : SSearching F as s) :
    StInv True F (GoodC s.sol) s ∧ s.sol.db.hasEmpty = false := by
  induction h with
  | start h cfg r hr h1 h2 =>
    obtain ⟨i1, i2, i3, i4⟩ := h.ok
    obtain ⟨s1, k1, _, _, k4⟩ := sRound_start (cfg := cfg) i1 hr.1 (by rw [i2]; exact i3)
    rw [h1] at k1
    simp at k1; subst k1
    exact ⟨k4 h2, h2⟩
  | iter h ch hch he ih =>
    obtain ⟨ih, ihE⟩ := ih
    obtain ⟨out, e1, e2⟩ := sSearchIter_spec ih hch
    rw [he] at e1
    simp at e1; subst e1
    obtain ⟨f, _, _, _, _, A', g1, hS, g3⟩ := e2
    have hg := good_step ih.sol.db (nonempty_of ih.sol.db ihE) f g1 g3
    refine ⟨⟨hS.sol.weaken (fun c hc => ⟨hg c hc.1, hc.2⟩), hS.nw, fun c hc => hS.alt c (hg c hc),
      hS.w, hS.sci, fun c hc => hS.cov c (hg c hc)⟩, f.hasEmpty.trans ihE⟩

end Candy
