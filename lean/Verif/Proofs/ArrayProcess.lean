import Verif.Proofs.ArrayAsym
import Verif.Proofs.Solve
import Verif.Model.History

/-! Lemmas for C49: the loop of pre- and inprocessing on arrays. -/

namespace Candy

variable {F : CNF}

/-- The vectors represent the state inside `processClauseDatabase`. -/
structure RepQ (a : AProc) (p : Proc) : Prop where
  m : RepM a.m p.sys.sol
  o : RepO a.sdb p.sdb
  ve : RepVE p.sys.sol.db.nVars a.ve p.sys.ve

/-- The trail is at decision level zero and the assumptions are variables of the solver. -/
structure Level0 (p : Proc) : Prop where
  inv : p.sys.sol.trail.Inv
  lim : p.sys.sol.trail.lim = []
  asm : ∀ l ∈ p.sys.sol.trail.assumptions, l.var < p.sys.sol.db.nVars

theorem factFold_db : ∀ (ls : List Lit) (T : Trail) (db : DB),
    (ls.foldl factStep (T, db)).2.next = db.next ∧ (ls.foldl factStep (T, db)).2.clauses = db.clauses
  | [], T, db => ⟨rfl, rfl⟩
  | l :: ls, T, db => by
    rw [List.foldl_cons]
    unfold factStep
    cases T.fact l with
    | mk T1 b => cases b <;> exact factFold_db ls _ _

theorem unitFold_db : ∀ (ls : List Lit) (T : Trail) (db : DB),
    (ls.foldl unitStep (T, db)).2.next = db.next + ls.length ∧
    (ls.foldl unitStep (T, db)).2.clauses = db.clauses ++ List.range' db.next ls.length
  | [], T, db => by simp
  | l :: ls, T, db => by
    rw [List.foldl_cons]
    obtain ⟨h1, h2⟩ := unitFold_db ls (unitStep (T, db) l).1 (unitStep (T, db) l).2
    have e1 : (unitStep (T, db) l).2.next = db.next + 1 := by simp [unitStep]
    have e2 : (unitStep (T, db) l).2.clauses = db.clauses ++ [db.next] := by simp [unitStep]
    rw [e1] at h1 h2
    rw [e2] at h2
    refine ⟨by rw [h1]; simp; omega, ?_⟩
    rw [h2, List.length_cons, List.range'_succ]
    simp

theorem materialize_db {s s' : Solver} (h : materialize s = some s') :
    ∃ k, s'.db.next = s.db.next + k ∧ s'.db.clauses = s.db.clauses ++ List.range' s.db.next k := by
  unfold materialize at h
  obtain ⟨h1, h2⟩ := factFold_db s.db.unitLits s.trail s.db
  dsimp only at h
  generalize s.db.unitLits.foldl factStep (s.trail, s.db) = x at *
  split at h
  · simp only [Option.some.injEq] at h; subst h; exact ⟨0, by simp [h1], by simp [h2]⟩
  · split at h
    · simp at h
    · simp only [Option.some.injEq] at h; subst h; exact ⟨0, by simp [h1, DB.emptyClause], by simp [h2, DB.emptyClause]⟩
    · next ps _ =>
      simp only [Option.some.injEq] at h; subst h
      obtain ⟨g1, g2⟩ := unitFold_db (ps.T.stack.drop x.1.stack.length) ps.T { x.2 with store := ps.store }
      refine ⟨(ps.T.stack.drop x.1.stack.length).length, g1.trans ?_, g2.trans ?_⟩
      · show x.2.next + _ = _; rw [h1]
      · show x.2.clauses ++ List.range' x.2.next _ = _; rw [h1, h2]

theorem DBOk.binLt {db : DB} (h : DBOk F db) : ∀ p, ∀ w ∈ db.bin p, w.blocker.var < db.nVars := by
  intro p w hw
  obtain ⟨h1, h2⟩ := h.binInv p w hw
  refine h.wf _ h1 _ ?_
  rcases h2 with h2 | h2 <;> simp [h2]

theorem factFold_inv {n : Nat} : ∀ (ls : List Lit) (T : Trail) (db : DB), T.Inv → T.lim = [] →
    T.nVars = n → (∀ l ∈ ls, l.var < n) →
    (ls.foldl factStep (T, db)).1.Inv ∧ (ls.foldl factStep (T, db)).1.lim = []
  | [], T, db, hi, hl, _, _ => ⟨hi, hl⟩
  | l :: ls, T, db, hi, hl, hn, hv => by
    rw [List.foldl_cons]
    obtain ⟨i1, i2, i3⟩ := aFact_inv hi hl (by rw [hn]; exact hv l (by simp))
    have e : factStep (T, db) l = ((T.fact l).1, (factStep (T, db) l).2) := by
      unfold factStep
      cases hfl : T.fact l with
      | mk T1 b => cases b <;> rfl
    rw [e]
    exact factFold_inv ls _ _ i1 (i3.trans hl) (i2.trans hn) (fun x hx => hv x (by simp [hx]))

/-- The trail stays consistent, also when unit propagation finds a conflict. -/
theorem materialize_trail {s s' : Solver} (hd : DBOk F s.db) (hi : s.trail.Inv) (hl : s.trail.lim = [])
    (hn : s.trail.nVars = s.db.nVars) (h0 : s.db.hasEmpty = false → L0 F s)
    (he : materialize s = some s') : s'.trail.Inv ∧ s'.trail.lim = [] := by
  unfold materialize at he
  dsimp only at he
  obtain ⟨i1, i2⟩ := factFold_inv s.db.unitLits s.trail s.db hi hl hn (fun l hl => (unitLits_spec hd l hl).1)
  cases hE : s.db.hasEmpty with
  | true =>
    obtain ⟨_, _, f3, _⟩ := factFold_empty s.db.unitLits s.trail s.db hd hE
    rw [if_pos f3] at he
    simp only [Option.some.injEq] at he
    subst he
    exact ⟨i1, i2⟩
  | false =>
    have h0 := h0 hE
    obtain ⟨f1, f2, f3, f4, f5, f6, f7⟩ := factFold_spec s.db.unitLits s.trail s.db h0.core h0.lim hd
      (unitLits_spec hd)
    generalize s.db.unitLits.foldl factStep (s.trail, s.db) = x at he f1 f2 f3 f4 f5 f6 f7 i1 i2
    split at he
    · simp only [Option.some.injEq] at he
      subst he
      exact ⟨i1, i2⟩
    · have hcx : Core F x.2.nVars x.2.next x.2.bin x.2.store x.1 := by
        rw [f6.nVars, f6.next, f6.bin, f6.store]; exact f1
      have hwx : WatchInv x.2.next x.2.store s.watch := by
        rw [f6.next, f6.store]; exact h0.watch
      obtain ⟨ps', r, e1, e2, e3, e4, e5, -⟩ := propagateLoop_specL (L := False)
        (A := fun _ => False) (x.2.nVars + 1) ⟨x.2.store, s.watch, x.1⟩ hcx hwx (fun h => h.elim)
        (by omega)
      rw [e1] at he
      have hlim : ps'.T.lim = [] := e4.lim.trans i2
      cases r with
      | some c =>
        simp only [Option.some.injEq] at he
        subst he
        exact ⟨e2.tinv, hlim⟩
      | none =>
        obtain ⟨db', k1, k0, k2, k3, -⟩ := unitFold_spec
          (F := F) (ps'.T.stack.drop x.1.stack.length) ps'.T { x.2 with store := ps'.store } e2
          hlim (f5.perm e5) (fun l hl => List.mem_of_mem_drop hl)
        simp only [Option.some.injEq] at he
        subst he
        exact ⟨k2.tinv, k3.lim.trans hlim⟩

theorem aMaterialize_sim' {m : AMach} {s s' : Solver} (hd : DBOk F s.db) (hi : s.trail.Inv) (hl : s.trail.lim = [])
    (hn : s.trail.nVars = s.db.nVars) (h0 : s.db.hasEmpty = false → L0 F s) (hm : RepM m s)
    (hs : materialize s = some s') :
    ∃ m', aMaterialize s.db.unitClauses s.db.hasEmpty m = some (m', s'.db.hasEmpty) ∧ RepM m' s' := by
  cases hE : s.db.hasEmpty with
  | false =>
    have := aMaterialize_sim hd (h0 hE) hm hs
    rw [hE] at this; exact this
  | true =>
    obtain ⟨A1, e1, r1⟩ := aFacts_sim hm.store s.db.unitClauses (db' := s.db) hm.trail hi
      (by
        intro c hc
        obtain ⟨h1, h2⟩ := List.mem_filter.1 hc
        have hlt := hd.mem c h1
        simp only [Bool.and_eq_true, beq_iff_eq] at h2
        exact ⟨hlt, h2.2, fun l hl' => by rw [hn]; exact hd.wf c hlt l hl'⟩) hl
    obtain ⟨f1, f2, f3, f4, f5, f6⟩ := factFold_empty s.db.unitLits s.trail s.db
      hd hE
    unfold Candy.materialize at hs
    dsimp only at hs
    rw [if_pos f3] at hs
    simp only [Option.some.injEq] at hs
    subst hs
    rw [hE] at e1
    unfold aMaterialize
    rw [e1]
    have f3' : ((s.db.unitClauses.filterMap fun c => (s.db.lits c).head?).foldl factStep
      (s.trail, s.db)).2.hasEmpty = true := f3
    rw [f3']
    refine ⟨{ m with T := A1 }, ?_, ⟨r1, ?_, ?_, ?_, ?_, ?_⟩⟩
    · show some (_, true) = some (_, (s.db.unitLits.foldl factStep (s.trail, s.db)).2.hasEmpty)
      rw [f3]
    · show RepS (s.db.unitLits.foldl factStep (s.trail, s.db)).2.next _
        (s.db.unitLits.foldl factStep (s.trail, s.db)).2.store
      rw [f2.next, f2.store]; exact hm.store
    · show RepWt (s.db.unitLits.foldl factStep (s.trail, s.db)).2.nVars _
        (s.db.unitLits.foldl factStep (s.trail, s.db)).2.bin
      rw [f2.nVars, f2.bin]; exact hm.bin
    · show RepWt (s.db.unitLits.foldl factStep (s.trail, s.db)).2.nVars _ _
      rw [f2.nVars]; exact hm.watch
    · show ∃ f, RepSt (s.db.unitLits.foldl factStep (s.trail, s.db)).2.nVars _ f
      rw [f2.nVars]; exact hm.stamp
    · show ∃ f, RepSt (s.db.unitLits.foldl factStep (s.trail, s.db)).2.nVars _ f
      rw [f2.nVars]; exact hm.lbd

theorem RepQ.materialize {a : AProc} {p p' : Proc} (h : RepQ a p) (hl : Level0 p) (hq : QInv F p)
    (he : p.materialize = some p') :
    ∃ a', a.materialize = some a' ∧ RepQ a' p' ∧ Level0 p' := by
  obtain ⟨q1, fr⟩ := hq.materialize he
  unfold Proc.materialize at he
  obtain ⟨s', hs, rfl⟩ := Option.map_eq_some_iff.1 he
  obtain ⟨k, k1, k2⟩ := materialize_db hs
  have hcl : a.clauses = p.sys.sol.db.clauses := h.o.clauses
  have hee : a.e = p.sys.sol.db.hasEmpty := h.o.e
  have hnv : s'.db.nVars = p.sys.sol.db.nVars := fr.nVars
  unfold AProc.materialize
  rw [aFilter_sim h.m.store _ _ (by rw [hcl]; exact h.o.mem), hcl]
  have hun : p.sys.sol.db.clauses.filter (fun c => !(p.sys.sol.db.store c).isDeleted &&
      (p.sys.sol.db.store c).lits.length == 1) = p.sys.sol.db.unitClauses := rfl
  rw [hun, hee]
  obtain ⟨i1, i2⟩ := materialize_trail hq.inv.db hl.inv hl.lim hq.inv.nv hq.inv.l0 hs
  have key := aMaterialize_sim' hq.inv.db hl.inv hl.lim hq.inv.nv hq.inv.l0 h.m hs
  obtain ⟨m', e1, e2⟩ := key
  dsimp only
  rw [e1]
  have hsz : m'.store.length - a.m.store.length = k := by
    rw [e2.store.size, h.m.store.size, k1]; omega
  refine ⟨_, rfl, ⟨e2, ?_, by show RepVE s'.db.nVars _ _; rw [hnv]; exact h.ve⟩,
    ⟨i1, i2, by rw [fr.assumptions, fr.nVars]; exact hl.asm⟩⟩
  refine h.o.ofD (db := s'.db) ?_ rfl rfl hnv (by show p.sys.sol.db.next ≤ _; omega)
  refine ⟨e2.store, e2.bin, ?_, rfl, q1.inv.db.wf, q1.inv.db.binLt, q1.inv.db.mem⟩
  show p.sys.sol.db.clauses ++ List.range' a.m.store.length _ = s'.db.clauses
  rw [k2]
  show p.sys.sol.db.clauses ++ List.range' a.m.store.length (m'.store.length - a.m.store.length) = _
  rw [hsz, h.m.store.size]

/-- Writing back a clause database with occurrence lists. -/
theorem RepM.setDB {m : AMach} {s : Solver} (h : RepM m s) {a : ASDB} {d : SDB} (ho : RepO a d)
    (hn : d.db.nVars = s.db.nVars) :
    RepM { m with store := a.store, bin := a.bin } { s with db := d.db } :=
  ⟨h.trail, ho.store, ho.bin, by show RepWt d.db.nVars _ _; rw [hn]; exact h.watch,
    by show ∃ f, RepSt d.db.nVars _ f; rw [hn]; exact h.stamp,
    by show ∃ f, RepSt d.db.nVars _ f; rw [hn]; exact h.lbd⟩

theorem RepQ.setSdb {a : AProc} {p : Proc} (h : RepQ a p) {x : ASDB} {d : SDB} (ho : RepO x d)
    (hn : d.db.nVars = p.sys.sol.db.nVars) : RepQ (a.setSdb x) (p.setSdb d) :=
  ⟨h.m.setDB ho hn, ho, by show RepVE d.db.nVars _ _; rw [hn]; exact h.ve⟩

theorem RepQ.after {a : AProc} {p : Proc} (h : RepQ a p) (ok clean : Bool) :
    ∃ a', a.after ok clean = some a' ∧ RepQ a' (p.after ok clean) := by
  have h1 : RepQ { a with e := a.e || !ok } (p.after ok false) := by
    unfold Proc.after
    cases ok with
    | true =>
      have e : ({ a with e := a.e || !true } : AProc) = a := by
        cases a; simp
      rw [e]; exact h
    | false =>
      refine ⟨⟨h.m.trail, h.m.store, h.m.bin, h.m.watch, h.m.stamp, h.m.lbd⟩,
        ⟨h.o.store, h.o.bin, h.o.clauses, ?_, h.o.obj, h.o.occLen, h.o.occ, h.o.occOut, h.o.occLt, h.o.lits, h.o.objLt,
          h.o.binLt, h.o.mem⟩, h.ve⟩
      show (a.e || !false) = true
      simp
  unfold AProc.after
  cases clean with
  | false => exact ⟨_, rfl, h1⟩
  | true =>
    obtain ⟨x, e1, e2⟩ := h1.o.cleanup
    refine ⟨AProc.setSdb { a with e := a.e || !ok } x, ?_, ?_⟩
    · dsimp only
      rw [if_pos rfl, e1]; rfl
    · have e : p.after ok true = (p.after ok false).setSdb (p.after ok false).sdb.cleanup := rfl
      rw [e]
      exact h1.setSdb e2 rfl

theorem after_trail (p : Proc) (ok clean : Bool) :
    (p.after ok clean).sys.sol.trail = p.sys.sol.trail ∧
    (p.after ok clean).sys.sol.db.nVars = p.sys.sol.db.nVars := by
  unfold Proc.after
  cases ok <;> cases clean <;> exact ⟨rfl, rfl⟩

theorem RepQ.subsume {a : AProc} {p p' : Proc} {r : PreRound} (h : RepQ a p) (hl : Level0 p)
    (he : p.subsume r = some p') : ∃ a', a.subsume r = some a' ∧ RepQ a' p' ∧ Level0 p' := by
  unfold Proc.subsume at he
  obtain ⟨x, hs, rfl⟩ := Option.map_eq_some_iff.1 he
  obtain ⟨d, ok⟩ := x
  obtain ⟨x, e1, e2, e3⟩ := aSubsumeAll_sim h.o hs
  unfold AProc.subsume
  rw [e1]
  obtain ⟨a', f1, f2⟩ := (h.setSdb e2 e3).after ok r.cleanup1
  obtain ⟨t1, t2⟩ := after_trail (p.setSdb d) ok r.cleanup1
  refine ⟨a', f1, f2, ⟨?_, ?_, ?_⟩⟩
  · dsimp only; rw [t1]; exact hl.inv
  · dsimp only; rw [t1]; exact hl.lim
  · dsimp only; rw [t1, t2]; show ∀ l ∈ p.sys.sol.trail.assumptions, l.var < d.db.nVars; rw [e3]; exact hl.asm

theorem RepQ.reduce {cfg : Config} {a : AProc} {p p' : Proc} {r : PreRound} (h : RepQ a p) (hl : Level0 p)
    (hq : QInv F p) (hE : p.sys.sol.db.hasEmpty = false) (he : p.reduce cfg r = some p') :
    ∃ a', a.reduce cfg r = some a' ∧ RepQ a' p' ∧ Level0 p' := by
  obtain ⟨_, fr⟩ := hq.reduce hE he
  have l0 := hq.inv.l0 hE
  unfold Proc.reduce at he
  obtain ⟨x, hs, rfl⟩ := Option.map_eq_some_iff.1 he
  obtain ⟨st, ok⟩ := x
  have hY : RepY ⟨a.sdb, a.m.watch, a.m.T⟩ ⟨p.sdb, p.sys.sol.watch, p.sys.sol.trail⟩ :=
    ⟨h.o, h.m.watch, h.m.trail, hl.inv, hq.inv.nv, fun q w hw => by
      obtain ⟨g1, g2, _⟩ := l0.watch.wmem q w hw
      exact ⟨g1, hq.inv.db.wf _ g1 _ g2⟩, hl.lim⟩
  obtain ⟨y, e1, e2, e3⟩ := aAsymAll_sim hY hs
  unfold AProc.reduce
  rw [e1]
  have e3' : st.s.db.nVars = p.sys.sol.db.nVars := e3
  have hR : RepQ (a.setAsym y) (Proc.mk
      { p.sys with sol := { p.sys.sol with db := st.s.db, watch := st.watch, trail := st.T } } st.s.obj st.s.occ) :=
    ⟨⟨e2.T, e2.s.store, e2.s.bin, e2.watch, by show ∃ f, RepSt st.s.db.nVars _ f; rw [e3']; exact h.m.stamp,
      by show ∃ f, RepSt st.s.db.nVars _ f; rw [e3']; exact h.m.lbd⟩, e2.s,
      by show RepVE st.s.db.nVars _ _; rw [e3']; exact h.ve⟩
  obtain ⟨a', f1, f2⟩ := hR.after ok r.cleanup2
  obtain ⟨t1, t2⟩ := after_trail (Proc.mk
      { p.sys with sol := { p.sys.sol with db := st.s.db, watch := st.watch, trail := st.T } } st.s.obj st.s.occ) ok r.cleanup2
  refine ⟨a', f1, f2, ⟨?_, ?_, ?_⟩⟩
  · dsimp only; rw [t1]; exact e2.inv
  · dsimp only; rw [t1]; exact e2.lim
  · have h1 := fr.assumptions
    have h2 := fr.nVars
    dsimp only at h1 h2 ⊢
    rw [h1, h2]; exact hl.asm

theorem RepQ.eliminate {cfg : Config} {a : AProc} {p p' : Proc} {r : PreRound}
    (ho : ∀ f xs, ∀ x ∈ r.order f xs, x ∈ xs) (h : RepQ a p) (hl : Level0 p)
    (hq : QInv F p) (he : p.eliminate cfg r = some p') :
    ∃ a', a.eliminate cfg r = some a' ∧ RepQ a' p' ∧ Level0 p' := by
  obtain ⟨_, fr⟩ := hq.eliminate he
  unfold Proc.eliminate at he
  obtain ⟨x, hs, rfl⟩ := Option.map_eq_some_iff.1 he
  obtain ⟨st, ok⟩ := x
  have hEl : RepE ⟨a.sdb, a.ve, a.m.T⟩ ⟨p.sdb, p.sys.ve, p.sys.sol.trail⟩ :=
    ⟨h.o, h.ve, h.m.trail, hq.inv.nv⟩
  obtain ⟨y, e1, e2, e3, e4, e5, e6⟩ := aEliminateAll_sim ho hEl
    (by intro l hm; show l.var < p.sys.sol.trail.nVars; rw [hq.inv.nv]; exact hl.asm l hm) hs
  unfold AProc.eliminate
  rw [e1]
  have e3' : st.s.db.nVars = p.sys.sol.db.nVars := e3
  have hR : RepQ (a.setElim y) (Proc.mk { sol := { p.sys.sol with db := st.s.db, trail := st.T }, ve := st.ve }
      st.s.obj st.s.occ) :=
    ⟨⟨e2.T, e2.s.store, e2.s.bin, by show RepWt st.s.db.nVars _ _; rw [e3']; exact h.m.watch,
      by show ∃ f, RepSt st.s.db.nVars _ f; rw [e3']; exact h.m.stamp,
      by show ∃ f, RepSt st.s.db.nVars _ f; rw [e3']; exact h.m.lbd⟩, e2.s, e2.ve⟩
  obtain ⟨a', f1, f2⟩ := hR.after ok r.cleanup3
  obtain ⟨t1, t2⟩ := after_trail (Proc.mk { sol := { p.sys.sol with db := st.s.db, trail := st.T }, ve := st.ve }
      st.s.obj st.s.occ) ok r.cleanup3
  refine ⟨a', f1, f2, ⟨?_, ?_, ?_⟩⟩
  · dsimp only; rw [t1]; exact e6 hl.inv
  · dsimp only; rw [t1]; exact e5.trans hl.lim
  · have h1 := fr.assumptions
    have h2 := fr.nVars
    dsimp only at h1 h2 ⊢
    rw [h1, h2]; exact hl.asm

theorem Level0.ofQ {p p' : Proc} (hq : QInv F p') (hl : Level0 p) (fr : PFrame p.sys p'.sys)
    (hE : p'.sys.sol.db.hasEmpty = false) : Level0 p' :=
  ⟨(hq.inv.l0 hE).core.tinv, (hq.inv.l0 hE).lim, by rw [fr.assumptions, fr.nVars]; exact hl.asm⟩

theorem RepQ.empty {a : AProc} {p : Proc} (h : RepQ a p) : a.e = p.sys.sol.db.hasEmpty := h.o.e

theorem RepQ.round {cfg : Config} {a : AProc} {p p' : Proc} {r : PreRound} {b : Bool}
    (ho : ∀ f xs, ∀ x ∈ r.order f xs, x ∈ xs) (h : RepQ a p) (hl : Level0 p)
    (hq : QInv F p) (he : p.round cfg r = some (p', b)) :
    ∃ a', a.round cfg r = some (a', b) ∧ RepQ a' p' ∧ Level0 p' := by
  unfold Proc.round at he
  unfold AProc.round
  split at he
  · simp at he
  · next p1 h1 =>
    obtain ⟨a1, e1, r1, l1⟩ := h.materialize hl hq h1
    obtain ⟨q1, f1⟩ := hq.materialize h1
    rw [e1]
    dsimp only
    rw [r1.empty]
    cases hE1 : p1.sys.sol.db.hasEmpty with
    | true =>
      rw [if_pos hE1] at he
      simp only [Option.some.injEq, Prod.mk.injEq] at he
      obtain ⟨rfl, rfl⟩ := he
      exact ⟨a1, rfl, r1, l1⟩
    | false =>
      rw [if_neg (by rw [hE1]; simp)] at he
      rw [if_neg (by simp)]
      split at he
      · simp at he
      · next p3 h3 =>
        obtain ⟨p2, h2, h3⟩ := Option.bind_eq_some_iff.1 h3
        obtain ⟨a2, e2, r2, l2⟩ := r1.subsume l1 h2
        obtain ⟨q2, f2⟩ := q1.subsume h2
        obtain ⟨a3, e3, r3, l3⟩ := r2.materialize l2 q2 h3
        obtain ⟨q3, f3⟩ := q2.materialize h3
        have hb : (a1.subsume r).bind AProc.materialize = some a3 := by rw [e2]; exact e3
        rw [hb]
        dsimp only
        rw [r3.empty]
        cases hE3 : p3.sys.sol.db.hasEmpty with
        | true =>
          rw [if_pos hE3] at he
          simp only [Option.some.injEq, Prod.mk.injEq] at he
          obtain ⟨rfl, rfl⟩ := he
          exact ⟨a3, rfl, r3, l3⟩
        | false =>
          rw [if_neg (by rw [hE3]; simp)] at he
          rw [if_neg (by simp)]
          split at he
          · simp at he
          · next p5 h5 =>
            obtain ⟨p4, h4, h5⟩ := Option.bind_eq_some_iff.1 h5
            obtain ⟨a4, e4, r4, l4⟩ := r3.reduce l3 q3 hE3 h4
            obtain ⟨q4, f4⟩ := q3.reduce hE3 h4
            obtain ⟨a5, e5, r5, l5⟩ := r4.materialize l4 q4 h5
            obtain ⟨q5, f5⟩ := q4.materialize h5
            have hb : (a3.reduce cfg r).bind AProc.materialize = some a5 := by rw [e4]; exact e5
            rw [hb]
            dsimp only
            rw [r5.empty]
            cases hE5 : p5.sys.sol.db.hasEmpty with
            | true =>
              rw [if_pos hE5] at he
              simp only [Option.some.injEq, Prod.mk.injEq] at he
              obtain ⟨rfl, rfl⟩ := he
              exact ⟨a5, rfl, r5, l5⟩
            | false =>
              rw [if_neg (by rw [hE5]; simp)] at he
              rw [if_neg (by simp)]
              obtain ⟨p6, h6, hx⟩ := Option.map_eq_some_iff.1 he
              simp only [Prod.mk.injEq] at hx
              obtain ⟨rfl, rfl⟩ := hx
              obtain ⟨a6, e6, r6, l6⟩ := r5.eliminate ho l5 q5 h6
              exact ⟨a6, by rw [e6]; rfl, r6, l6⟩

theorem RepQ.rounds {cfg : Config} : ∀ (rs : List PreRound), (∀ r ∈ rs, ∀ f xs, ∀ x ∈ r.order f xs, x ∈ xs) →
    ∀ {a : AProc} {p p' : Proc}, RepQ a p → Level0 p → QInv F p → Proc.rounds cfg rs p = some p' →
    ∃ a', AProc.rounds cfg rs a = some a' ∧ RepQ a' p' ∧ Level0 p'
  | [], _, a, p, p', h, hl, _, he => by
    simp only [Proc.rounds, Option.some.injEq] at he
    subst he
    exact ⟨a, rfl, h, hl⟩
  | r :: rs, ho, a, p, p', h, hl, hq, he => by
    rw [Proc.rounds] at he
    rw [AProc.rounds]
    split at he
    · simp at he
    · next p1 h1 =>
      obtain ⟨a1, e1, r1, l1⟩ := h.round (ho r (by simp)) hl hq h1
      rw [e1]
      simp only [Option.some.injEq] at he
      subst he
      exact ⟨a1, rfl, r1, l1⟩
    · next p1 h1 =>
      obtain ⟨a1, e1, r1, l1⟩ := h.round (ho r (by simp)) hl hq h1
      rw [e1]
      exact RepQ.rounds rs (fun x hx => ho x (by simp [hx])) r1 l1 (hq.round h1).1 he

/-- The vectors represent the state between the steps of `solve`. -/
structure RepX (x : ASys) (sys : Sys) : Prop where
  m : RepM x.m sys.sol
  clauses : x.clauses = sys.sol.db.clauses
  e : x.e = sys.sol.db.hasEmpty
  ve : RepVE sys.sol.db.nVars x.ve sys.ve

theorem RepX.process {cfg : Config} {rs : List PreRound} (ho : ∀ r ∈ rs, ∀ f xs, ∀ x ∈ r.order f xs, x ∈ xs)
    {x : ASys} {sys sys' : Sys} (h : RepX x sys) (hp : PInv F sys) (hi : sys.sol.trail.Inv)
    (hl : sys.sol.trail.lim = []) (ha : ∀ l ∈ sys.sol.trail.assumptions, l.var < sys.sol.db.nVars)
    (he : process cfg rs sys = some sys') :
    ∃ x', aProcess cfg sys.sol.db.nVars rs x = some x' ∧ RepX x' sys' ∧ sys'.sol.trail.Inv ∧
      sys'.sol.trail.lim = [] := by
  unfold Candy.process at he
  obtain ⟨p, hp1, rfl⟩ := Option.map_eq_some_iff.1 he
  obtain ⟨a, e1, e2⟩ := RepO.init (a := ⟨x.m.store, x.m.bin, x.clauses, x.e, [], []⟩) (db := sys.sol.db)
    ⟨h.m.store, h.m.bin, h.clauses, h.e, hp.db.wf, hp.db.binLt, hp.db.mem⟩
  unfold aProcess
  have e1' : ASDB.init sys.sol.db.nVars x.m.store x.m.bin x.clauses x.e = some a := e1
  rw [e1']
  dsimp only
  have hok : SOk F (SDB.init sys.sol.db) := SOk.init hp.db
  have e : (SDB.init sys.sol.db) = ⟨sys.sol.db, (SDB.init sys.sol.db).obj, (SDB.init sys.sol.db).occ⟩ := by
    conv => lhs; rw [show SDB.init sys.sol.db = ⟨(SDB.init sys.sol.db).db,
      (SDB.init sys.sol.db).obj, (SDB.init sys.sol.db).occ⟩ from rfl, init_db]
  have hq : QInv F ⟨sys, (SDB.init sys.sol.db).obj, (SDB.init sys.sol.db).occ⟩ := by
    refine ⟨hp, ?_⟩
    rw [e] at hok; exact hok
  rw [e] at e2
  have hR : RepQ ⟨x.m, x.clauses, x.e, a.obj, a.occ, x.ve⟩
      ⟨sys, (SDB.init sys.sol.db).obj, (SDB.init sys.sol.db).occ⟩ :=
    ⟨h.m, ⟨h.m.store, h.m.bin, h.clauses, h.e, e2.obj, e2.occLen, e2.occ, e2.occOut, e2.occLt, e2.lits, e2.objLt,
      e2.binLt, e2.mem⟩, h.ve⟩
  obtain ⟨a', g1, g2, g3⟩ := RepQ.rounds rs ho hR ⟨hi, hl, ha⟩ hq hp1
  rw [g1]
  exact ⟨_, rfl, ⟨g2.m, g2.o.clauses, g2.o.e, g2.ve⟩, g3.inv, g3.lim⟩

/-! ### The start of `solve` -/

/-- The vectors represent the state between two calls. Those of variable elimination may be shorter than the number of
variables. -/
structure RepX0 (x : ASys) (sys : Sys) : Prop where
  m : RepM x.m sys.sol
  clauses : x.clauses = sys.sol.db.clauses
  e : x.e = sys.sol.db.hasEmpty
  ve : RepVE0 sys.sol.db.nVars x.ve sys.ve

theorem aCreate_sim' {m : AMach} {s : Solver} (hm : RepM m s) {ls : List Lit} {lbd : Nat}
    (hls : ∀ l ∈ ls, l.var < s.db.nVars) :
    ∃ m', aCreate m ls lbd = some m' ∧ RepM m' { s with db := (s.db.createClause ls lbd).1 } ∧
      m'.T = m.T ∧ m'.watch = m.watch := by
  cases ls with
  | cons l ls => exact aCreate_sim hm hls (by simp)
  | nil =>
    unfold aCreate DB.createClause
    exact ⟨_, rfl, ⟨hm.trail, hm.store.push _, hm.bin, hm.watch, hm.stamp, hm.lbd⟩, rfl, rfl⟩

theorem createClause_hasEmpty' (db : DB) (c : Clause) (lbd : Nat) :
    (db.createClause c lbd).1.hasEmpty = (db.hasEmpty || c.isEmpty) := by
  unfold DB.createClause
  rcases c with _ | ⟨x, _ | ⟨y, _ | ⟨z, r⟩⟩⟩ <;> simp

theorem aAddCorrections_sim : ∀ (cs : List Clause) {x : ASys} {s : Solver} {ve : VE}, RepX x ⟨s, ve⟩ →
    (∀ c ∈ cs, ∀ l ∈ c, l.var < s.db.nVars) →
    ∃ x', aAddCorrections cs x = some x' ∧ RepX x' ⟨cs.foldl addCorrection s, ve⟩
  | [], x, s, ve, h, _ => ⟨x, rfl, h⟩
  | c :: cs, x, s, ve, h, hc => by
    have hv := hc c (by simp)
    obtain ⟨m1, e1, r1, t1, w1⟩ := aCreate_sim' h.m (lbd := 0) hv
    have hlen : x.m.store.length = s.db.next := h.m.store.size
    rw [aAddCorrections, e1, List.foldl_cons]
    obtain ⟨f1, f2, f3⟩ := addCorrection_frame s c
    have hW : ∃ W, aAttachLong m1.watch x.m.store.length c = some W ∧
        RepWt s.db.nVars W (addCorrection s c).watch := by
      rw [addCorrection_eq, w1, hlen]
      match c, hv with
      | [], _ => exact ⟨_, rfl, h.m.watch⟩
      | [y], _ => exact ⟨_, rfl, h.m.watch⟩
      | [y, z], _ => exact ⟨_, rfl, h.m.watch⟩
      | y :: z :: w :: r, hv => exact h.m.watch.attach (hv y (by simp)) (hv z (by simp)) _
    obtain ⟨W, e2, r2⟩ := hW
    dsimp only
    rw [e2]
    dsimp only
    refine aAddCorrections_sim cs ?_ (fun d hd => by rw [f1]; exact hc d (by simp [hd]))
    have hdb : (addCorrection s c).db = (s.db.createClause c).1 := rfl
    refine ⟨⟨?_, ?_, ?_, ?_, ?_, ?_⟩, ?_, ?_, ?_⟩
    · show RepT m1.T (addCorrection s c).trail
      rw [f2]; exact r1.trail
    · exact r1.store
    · exact r1.bin
    · show RepWt (addCorrection s c).db.nVars W _
      rw [f1]; exact r2
    · exact r1.stamp
    · exact r1.lbd
    · show x.clauses ++ [x.m.store.length] = (s.db.createClause c).1.clauses
      rw [createClause_clauses, hlen, h.clauses]
    · show (x.e || c.isEmpty) = (s.db.createClause c).1.hasEmpty
      rw [createClause_hasEmpty', h.e]
    · show RepVE (addCorrection s c).db.nVars _ _
      rw [f1]; exact h.ve

theorem RepX0.start {x : ASys} {sys : Sys} (h : RepX0 x sys) (hs : SysOk F sys)
    (ha : ∀ l ∈ sys.sol.trail.assumptions, l.var < sys.sol.db.nVars) :
    ∃ x', aSolveStart sys.sol.db.nVars x = some x' ∧ RepX x' (solveStart sys) ∧ (solveStart sys).sol.trail.Inv ∧
      (solveStart sys).sol.trail.lim = [] := by
  have hnv : sys.sol.trail.reset.nVars = sys.sol.db.nVars := hs.nv
  obtain ⟨W, w1, w2⟩ := aResetWatch_sim hs.db h.m.store
  have h' : VEOk F sys.sol.db.nVars { sys.ve with frozen := fun _ => false } :=
    ⟨hs.ve.ent, hs.ve.wf, hs.ve.nd⟩
  obtain ⟨c1, c2, c3⟩ := resetLoop_spec sys.sol.trail.reset.assumptions
    { sys.ve with frozen := fun _ => false } sys.sol.trail.reset [] h' (by simp)
  obtain ⟨ve', A', v1, v2, v3⟩ := RepVE0.reset (T := sys.sol.trail.reset) (by rw [hnv]; exact h.ve) h.m.trail.reset
    (by rw [hnv]; exact ha)
  rw [hnv] at v2
  unfold aSolveStart
  rw [h.clauses, w1]
  dsimp only
  rw [v1]
  dsimp only
  unfold solveStart
  dsimp only
  obtain ⟨x', e1, e2⟩ := aAddCorrections_sim (sys.ve.reset sys.sol.trail.reset).1
    (x := { x with m := { x.m with watch := W, T := A' }, ve := ve' })
    (s := { sys.sol with conflict := [], trail := (sys.ve.reset sys.sol.trail.reset).2.2,
                         watch := resetWatch sys.sol.db }) (ve := (sys.ve.reset sys.sol.trail.reset).2.1)
    ⟨⟨v3, h.m.store, h.m.bin, w2, h.m.stamp, h.m.lbd⟩, h.clauses, h.e, v2⟩
    (fun c hc => (c2 c hc).2.1)
  obtain ⟨-, -, -, d4, -⟩ := corrections_spec (F := F) (sys.ve.reset sys.sol.trail.reset).1
    { sys.sol with conflict := [], trail := (sys.ve.reset sys.sol.trail.reset).2.2, watch := resetWatch sys.sol.db }
    hs.db (resetWatch_inv hs.db) c2
  refine ⟨x', ?_, e2, ?_, ?_⟩
  · rw [← h.clauses]; exact e1
  · rw [d4]; exact c3.inv (Trail.reset_inv _)
  · rw [d4]; exact c3.lim

theorem RepX0.entry {cfg : Config} {rs : List PreRound} (ho : ∀ r ∈ rs, ∀ f xs, ∀ x ∈ r.order f xs, x ∈ xs)
    {x : ASys} {sys sys' : Sys} (h : RepX0 x sys) (hs : SysOk F sys)
    (ha : ∀ l ∈ sys.sol.trail.assumptions, l.var < sys.sol.db.nVars) (he : solveEntry cfg rs sys = some sys') :
    ∃ x', aSolveEntry cfg sys.sol.db.nVars rs x = some x' ∧ RepX x' sys' := by
  obtain ⟨x1, e1, r1, i1, l1⟩ := h.start hs ha
  obtain ⟨p1, p2, p3, p4, p5⟩ := solveStart_spec hs
  unfold solveEntry at he
  unfold aSolveEntry
  rw [e1]
  dsimp only at he ⊢
  by_cases hc : cfg.preprocessing = true
  · rw [if_pos hc] at he ⊢
    obtain ⟨sys1, h1, rfl⟩ := Option.map_eq_some_iff.1 he
    obtain ⟨x2, e2, r2, -⟩ := r1.process ho p1 i1 l1 (by rw [p4, p3]; exact ha) h1
    obtain ⟨q1, q2⟩ := p1.process h1
    rw [p3] at e2
    rw [e2]
    obtain ⟨W, w1, w2⟩ := aResetWatch_sim q1.db r2.m.store
    rw [q2.nVars, p3] at w1
    dsimp only
    rw [r2.clauses, w1]
    exact ⟨_, rfl, ⟨r2.m.trail, r2.m.store, r2.m.bin, w2, r2.m.stamp, r2.m.lbd⟩, rfl, r2.e, r2.ve⟩
  · rw [if_neg hc] at he ⊢
    simp only [Option.some.injEq] at he
    subst he
    exact ⟨x1, rfl, r1⟩

theorem RepX.inprocess {cfg : Config} {rs : List PreRound} {r : Round}
    (ho : ∀ r ∈ rs, ∀ f xs, ∀ x ∈ r.order f xs, x ∈ xs) (hr : r.inprocess = some rs) (htr : r.trigger = true)
    {x : ASys} {sys sys' : Sys} (h : RepX x sys) (hi : RoundInv F sys)
    (ha : ∀ l ∈ sys.sol.trail.assumptions, l.var < sys.sol.db.nVars)
    (he : reduceStep cfg r { sys with sol := { sys.sol with trail := sys.sol.trail.reset } } = some sys') :
    ∃ x', aInprocess cfg sys.sol.db.nVars rs x = some x' ∧ RepX x' sys' ∧ sys'.sol.trail.Inv ∧ sys'.sol.trail.lim = [] := by
  unfold reduceStep at he
  rw [if_pos htr, hr] at he
  dsimp only at he
  obtain ⟨sys1, h1, rfl⟩ := Option.map_eq_some_iff.1 he
  have hx : RepX { x with m := { x.m with T := x.m.T.reset } }
      { sys with sol := { sys.sol with trail := sys.sol.trail.reset } } :=
    ⟨⟨h.m.trail.reset, h.m.store, h.m.bin, h.m.watch, h.m.stamp, h.m.lbd⟩, h.clauses, h.e, h.ve⟩
  obtain ⟨x1, e1, r1, i1, i2⟩ := hx.process ho hi.reset (Trail.reset_inv _) rfl ha h1
  obtain ⟨q1, q2⟩ := hi.reset.process h1
  have hn : sys1.sol.db.nVars = sys.sol.db.nVars := q2.nVars
  unfold aInprocess
  have e1' : aProcess cfg sys.sol.db.nVars rs { x with m := { x.m with T := x.m.T.reset } } = some x1 := e1
  rw [e1']
  dsimp only
  obtain ⟨y, f1, f2, f3⟩ := aReorganize_sim q1.db r1.m.store
  rw [r1.clauses]
  rw [hn] at f1
  rw [f1]
  dsimp only
  obtain ⟨W, g1, g2⟩ := aResetWatch_sim q1.db.reorganize f2
  have hcl : sys1.sol.db.reorganize.clauses = List.range y.1.length := by rw [f2.size]; rfl
  have hn' : sys1.sol.db.reorganize.nVars = sys.sol.db.nVars := hn
  rw [hcl, hn'] at g1
  rw [g1]
  exact ⟨_, rfl, ⟨⟨r1.m.trail, f2, f3, g2, r1.m.stamp, r1.m.lbd⟩, hcl.symm, r1.e, r1.ve⟩, i1, i2⟩

end Candy
