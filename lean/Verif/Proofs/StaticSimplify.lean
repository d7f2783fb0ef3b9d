import Verif.Proofs.StaticSolve
import Verif.Proofs.Tidy
import Verif.Proofs.FirstSolve
import Verif.Model.StaticSimplify

/-!
# The static propagator together with pre- and inprocessing
-/

namespace Candy

variable {F G : CNF}

/-! ### Asymmetric variable reduction -/

/-- Invariant of asymmetric reduction. -/
structure SAOk (F : CNF) (st : SAVS) : Prop where
  ok : SOk F st.s
  core : Core F st.s.db.nVars st.s.db.next st.s.db.bin st.s.db.store st.T
  watch : SWInv st.s.db.next st.s.db.store st.W
  lim : st.T.lim = []

theorem SAOk.db {st : SAVS} (h : SAOk F st) {s' : SDB} (hs : SOk F s') (hx : DBExt st.s.db s'.db) :
    SAOk F { st with s := s' } where
  ok := hs
  core := Core.ofDB hs.db h.core hx.next hx.nVars.symm hx.lits
  watch := h.watch.congr hx.next hx.lits
  lim := h.lim

theorem sAsymScan_spec {v : Nat} : ∀ (os : List Nat) (st : SAVS), SAOk F st → os.Nodup →
    (∀ o ∈ os, ∀ c, st.s.obj[o]? = some (some c) → ∃ l ∈ st.s.db.lits c, l.var = v) →
    ∀ st' b, sAsymScan v os st = some (st', b) →
    SAOk F st' ∧ GSteps F st.s st'.s ∧ TEq st.T st'.T ∧ (b = false → Entails F [])
  | [], st, h, _, _, st', b, he => by
    simp only [sAsymScan, Option.some.injEq, Prod.mk.injEq] at he
    obtain ⟨rfl, rfl⟩ := he
    exact ⟨h, .refl _, TEq.refl _, by simp⟩
  | o :: os, st, h, hn, hv, st', b, he => by
    have hn' := List.nodup_cons.1 hn
    have hv' : ∀ x ∈ os, ∀ c, st.s.obj[x]? = some (some c) → ∃ l ∈ st.s.db.lits c, l.var = v :=
      fun x hx => hv x (by simp [hx])
    rw [sAsymScan] at he
    split at he
    · simp at he
    · exact sAsymScan_spec os st h hn'.2 hv' st' b he
    · rename_i c hc
      simp only at he
      split at he
      · exact sAsymScan_spec os st h hn'.2 hv' st' b he
      · rename_i hsat
        have hclt := h.ok.lt hc
        generalize hdec : asymDecide v (st.s.db.lits c) st.T.newDecisionLevel none = r at he
        obtain ⟨T1, l1⟩ := r
        -- axioms: the formula and the negations of the decided literals
        let D := asymKeep v st.T (st.s.db.lits c)
        have hG : ∀ a, Sat a (F ++ unitsOf (D.map Lit.neg)) → Sat a F := fun a ha => (sat_append.1 ha).1
        have hcore1 := CoreB.newLevel (h.core.toBase h.lim hG 1) h.lim
        have hb1 : st.T.newDecisionLevel.decisionLevel ≤ 1 := by
          simp [Trail.newDecisionLevel, Trail.decisionLevel, h.lim]
        obtain ⟨a1, a2, a3, a4, a5, a6, ⟨suf, a7⟩, a8, a9, a10⟩ := asymDecide_spec (v := v) (T0 := st.T)
          (ls := st.s.db.lits c) (st.s.db.lits c) st.T.newDecisionLevel none hcore1 hb1
          (h.ok.db.wf c hclt) (h.ok.db.nd c hclt) (fun _ h => h) (fun _ _ => rfl) (by
            intro x hx a ha
            have := sat_unitsOf.1 (sat_append.1 ha).2 x.neg (List.mem_map.2 ⟨x, hx, rfl⟩)
            exact ⟨x.neg, by simp, this⟩) T1 l1 hdec
        have hlim1 : T1.lim = [st.T.stack.length] := by
          rw [a2]; simp [Trail.newDecisionLevel, h.lim]
        obtain ⟨W2, T2, rr, e1, e2, e3, e4, e6, e7, _⟩ := sPropagateLoop_specL (L := False)
          (st.s.db.nVars + 1) st.W T1 a1 h.watch
          (fun h => h.elim) (by omega)
        rw [e1] at he
        simp only at he
        have hlim2 : T2.lim[0]? = some st.T.stack.length := by
          rw [e4.lim, hlim1]; rfl
        have hdl : T2.decisionLevel ≤ 1 := by
          unfold Trail.decisionLevel; rw [e4.lim, hlim1]; simp
        obtain ⟨suf2, hstk⟩ := e4.stack
        rw [a7] at hstk
        have hstack : (T2.backtrack 0).stack = st.T.stack := by
          rw [Trail.backtrack_stack hlim2, hstk]
          simp only [Trail.newDecisionLevel]
          rw [List.append_assoc, List.take_left']
          rfl
        have hlimB : (T2.backtrack 0).lim = [] := by
          rw [Trail.backtrack_lim hlim2]; simp
        have hmem1 : ∀ x ∈ st.T.stack, x ∈ T1.stack := by
          intro x hx; rw [a7]; exact List.mem_append_left _ hx
        have hcoreB : Core F st.s.db.nVars st.s.db.next st.s.db.bin st.s.db.store
            (T2.backtrack 0) := by
          have h0 := h.core
          exact {
            tinv := Trail.backtrack_inv e2.tinv
            nv := by rw [Trail.backtrack_nVars, e4.nVars, a3]; exact h.core.nv
            wf := h0.wf
            nd := h0.nd
            ent := h0.ent
            rsome := by
              intro pre p post d hs hr
              rw [hstack] at hs
              have hp : p ∈ st.T.stack := by rw [hs]; simp
              rw [Trail.backtrack_reason, e4.reason p (hmem1 p hp), a9 p hp] at hr
              exact h0.rsome pre p post d hs hr
            rnone := by
              intro pre p post hs hr
              rw [hstack] at hs
              have hp : p ∈ st.T.stack := by rw [hs]; simp
              rw [Trail.backtrack_reason, e4.reason p (hmem1 p hp), a9 p hp] at hr
              rw [Trail.backtrack_level, e4.level p (hmem1 p hp), a8 p hp]
              rcases h0.rnone pre p post hs hr with h1 | ⟨h1, h2⟩
              · exact Or.inl h1
              · rw [h.lim] at h2; simp at h2
            binInv := h0.binInv }
        have hTEq : TEq st.T (T2.backtrack 0) := by
          refine ⟨?_, hstack, by rw [hlimB, h.lim], ?_, ?_, fun x hx => by
            rw [Trail.backtrack_reason, e4.reason x (hmem1 x hx), a9 x hx]; rfl⟩
          · rw [Trail.backtrack_nVars, e4.nVars, a3]; rfl
          · rw [Trail.backtrack_assumptions, e4.assumptions, a5]; rfl
          · rw [Trail.backtrack_decision, e4.decision, a6]; rfl
        have hok2 : SAOk F ⟨st.s, W2, T2.backtrack 0⟩ := ⟨h.ok, hcoreB, e3, hlimB⟩
        cases rr with
        | none =>
          simp only at he
          obtain ⟨r1, r2, r3, r4⟩ := sAsymScan_spec os _ hok2 hn'.2 hv' st' b he
          exact ⟨r1, r2, hTEq.trans r3, r4⟩
        | some cf =>
          simp only at he
          have hempty := ConflictL.refutes e2 hdl (e7 cf rfl)
          have hD : Entails F D := by
            intro a ha
            by_cases hall : ∀ x ∈ D, ¬ x.holds a
            · obtain ⟨l, hl, _⟩ := hempty a (sat_append.2 ⟨ha, sat_unitsOf.2 (by
                intro l hl
                obtain ⟨x, hx, rfl⟩ := List.mem_map.1 hl
                exact Lit.holds_neg.2 (hall x hx))⟩)
              simp at hl
            · have : ∃ x, x ∈ D ∧ x.holds a := by
                by_cases hex : ∃ x, x ∈ D ∧ x.holds a
                · exact hex
                · exact (hall fun x hx hxa => hex ⟨x, hx, hxa⟩).elim
              exact this
          split at he
          · split at he
            · simp at he
            · rename_i l
              have hlD : l ∈ st.s.db.lits c ∧ l ∉ D := by
                rcases a10 l rfl with h1 | h1
                · simp at h1
                · exact h1
              split at he
              · simp at he
              · rename_i s2 hs2
                have hent2 : ∀ d, st.s.obj[o]? = some (some d) → Entails F
                    ((st.s.db.lits d).filter (fun x => x != l)) := by
                  intro d hd
                  have hdc : d = c := by
                    rw [hc] at hd; exact (Option.some.inj (Option.some.inj hd)).symm
                  subst hdc
                  refine hD.mono ?_
                  intro x hx
                  have hxm := mem_asymKeep.1 hx
                  refine List.mem_filter.2 ⟨hxm.1, ?_⟩
                  simp only [bne_iff_ne, ne_eq]
                  rintro rfl
                  exact hlD.2 hx
                have hsh : GStep F st.s s2 :=
                  .shrink hs2 (fun d hd => ⟨by
                    have hdc : d = c := by
                      have hd : st.s.obj[o]? = some (some d) := hd
                      rw [hc] at hd; exact (Option.some.inj (Option.some.inj hd)).symm
                    subst hdc
                    exact hlD.1, hent2 d hd⟩) (fun d hd => by
                    have hdc : d = c := by
                      have hd : st.s.obj[o]? = some (some d) := hd
                      rw [hc] at hd; exact (Option.some.inj (Option.some.inj hd)).symm
                    subst hdc
                    assumption)
                obtain ⟨k1, k2⟩ := h.ok.strengthen hs2 hent2
                obtain ⟨r1, r2, r3, r4⟩ := sAsymScan_spec os ⟨s2, W2, T2.backtrack 0⟩
                  (hok2.db k1 k2) hn'.2 (by
                    intro x hx d hd
                    have hxo : x ≠ o := fun e => hn'.1 (e ▸ hx)
                    have hd' : st.s.obj[x]? = some (some d) := by
                      obtain ⟨cc, _, es2⟩ := strengthen_eq hs2
                      rw [es2] at hd
                      rcases set_obj hd with ⟨e, _⟩ | ⟨_, e⟩
                      · exact (hxo e.symm).elim
                      · exact e
                    obtain ⟨y, hy1, hy2⟩ := hv' x hx d hd'
                    refine ⟨y, ?_, hy2⟩
                    simp only
                    rw [k2.lits d (h.ok.lt hd')]
                    exact hy1) st' b he
                exact ⟨r1, .cons hsh r2, hTEq.trans r3, r4⟩
          · rename_i hlen
            simp only [Option.some.injEq, Prod.mk.injEq] at he
            obtain ⟨rfl, rfl⟩ := he
            refine ⟨hok2, .refl _, hTEq, fun _ => ?_⟩
            have hDnil : D = [] := by
              obtain ⟨l, h1, h2⟩ := hv o (by simp) c hc
              have hl := length_le_one (show (st.s.db.lits c).length ≤ 1 by omega) h1
              simp only [D, asymKeep, hl]
              simp [h2]
            rw [hDnil] at hD
            exact hD

theorem sAsymList_spec : ∀ (vs : List Nat) (st : SAVS), SAOk F st →
    ∀ st' b, sAsymList vs st = some (st', b) →
    SAOk F st' ∧ GSteps F st.s st'.s ∧ TEq st.T st'.T ∧ (b = false → Entails F [])
  | [], st, h, st', b, he => by
    simp only [sAsymList, Option.some.injEq, Prod.mk.injEq] at he
    obtain ⟨rfl, rfl⟩ := he
    exact ⟨h, .refl _, TEq.refl _, by simp⟩
  | v :: vs, st, h, st', b, he => by
    rw [sAsymList] at he
    split at he
    · split at he
      · simp at he
      · rename_i st1 hst1
        simp only [Option.some.injEq, Prod.mk.injEq] at he
        obtain ⟨rfl, rfl⟩ := he
        exact sAsymScan_spec _ st h (h.ok.occNd v) (h.ok.occVar v) _ _ hst1
      · rename_i st1 hst1
        obtain ⟨a, c, d, _⟩ := sAsymScan_spec _ st h (h.ok.occNd v) (h.ok.occVar v) _ _ hst1
        obtain ⟨a2, c2, d2, e2⟩ := sAsymList_spec vs st1 a st' b he
        exact ⟨a2, c.trans c2, d.trans d2, e2⟩
    · exact sAsymList_spec vs st h st' b he

theorem sAsymAll_spec {active : Bool} {st st' : SAVS} {b : Bool} (h : SAOk F st)
    (he : sAsymAll active st = some (st', b)) :
    SAOk F st' ∧ GSteps F st.s st'.s ∧ TEq st.T st'.T ∧ (b = false → Entails F []) := by
  rw [sAsymAll] at he
  split at he
  · exact sAsymList_spec _ st h st' b he
  · simp only [Option.some.injEq, Prod.mk.injEq] at he
    obtain ⟨rfl, rfl⟩ := he
    exact ⟨h, .refl _, TEq.refl _, by simp⟩

/-! ### Pre- and inprocessing -/

/-- Clauses keep their literals. -/
structure LKeep (db db' : DB) : Prop where
  next : db.next ≤ db'.next
  lits : ∀ c < db.next, db'.lits c = db.lits c

theorem DBExt.keep {db db' : DB} (h : DBExt db db') : LKeep db db' := ⟨h.next, h.lits⟩

theorem LKeep.after {db : DB} {p : Proc} (h : LKeep db p.sys.sol.db) (ok clean : Bool) :
    LKeep db (p.after ok clean).sys.sol.db := by
  unfold Proc.after
  cases ok <;> cases clean <;> exact ⟨h.next, h.lits⟩

theorem after_watch (p : Proc) (ok clean : Bool) :
    (p.after ok clean).sys.sol.watch = p.sys.sol.watch := by
  unfold Proc.after
  cases ok <;> cases clean <;> rfl

theorem subsume_keep {p p' : Proc} {r : PreRound} (h : QInv F p) (he : p.subsume r = some p') :
    LKeep p.sys.sol.db p'.sys.sol.db ∧ p'.sys.sol.watch = p.sys.sol.watch := by
  unfold Proc.subsume at he
  obtain ⟨x, hs, rfl⟩ := Option.map_eq_some_iff.1 he
  obtain ⟨s, b⟩ := x
  obtain ⟨h1, h2⟩ := subsumeAll_steps h.ok hs
  obtain ⟨h3, h4⟩ := h1.sound h.ok
  exact ⟨LKeep.after (p := p.setSdb s) h4.keep _ _, after_watch ..⟩

theorem eliminate_keep {p p' : Proc} {cfg : Config} {r : PreRound} (h : QInv F p)
    (he : p.eliminate cfg r = some p') :
    LKeep p.sys.sol.db p'.sys.sol.db ∧ p'.sys.sol.watch = p.sys.sol.watch := by
  unfold Proc.eliminate at he
  obtain ⟨x, hs, rfl⟩ := Option.map_eq_some_iff.1 he
  obtain ⟨st, b⟩ := x
  obtain ⟨h1, h2, h3, h4, h5⟩ := eliminateAll_sound (F := F)
    (st := ⟨p.sdb, p.sys.ve, p.sys.sol.trail⟩) h.ok h.inv.ve hs
  exact ⟨LKeep.after (db := p.sys.sol.db) (p := Proc.mk { sol := { p.sys.sol with db := st.s.db, trail := st.T }, ve := st.ve }
    st.s.obj st.s.occ) h2.keep _ _, after_watch ..⟩

/-- Invariant of the watchers: only those of the static propagator are used. -/
structure SWOk (s : Solver) (W : SW) : Prop where
  nw : s.watch = noWatch
  w : SWInv s.db.next s.db.store W

theorem SWOk.keep {s s' : Solver} {W : SW} (h : SWOk s W) (hk : LKeep s.db s'.db)
    (hw : s'.watch = s.watch) : SWOk s' W := ⟨hw.trans h.nw, h.w.congr hk.next hk.lits⟩

theorem SWOk.watchInv {s : Solver} {W : SW} (h : SWOk s W) (n : Nat) (store : Nat → Cls) :
    WatchInv n store s.watch := by
  rw [h.nw]; exact ⟨by simp, by simp⟩

theorem SWOk.reset {s : Solver} {db : DB} (h : s.watch = noWatch) (hd : DBOk F db) :
    SWOk { s with db := db } (SW.reset db) := ⟨h, swinv_reset hd⟩

theorem sMaterialize_emptyW {s s' : St} (hd : DBOk F s.sol.db) (he : s.sol.db.hasEmpty = true)
    (h : sMaterialize s = some s') : s'.W = s.W := by
  obtain ⟨a, b, c, d, e, f⟩ := factFold_empty s.sol.db.unitLits s.sol.trail s.sol.db hd he
  unfold sMaterialize at h
  dsimp only at h
  rw [if_pos c] at h
  simp only [Option.some.injEq] at h
  subst h; rfl

/-- `propagateAndMaterializeUnitClauses` while simplifying. -/
theorem PInv.sMaterialize {sys : Sys} {W : SW} (h : PInv F sys) (hw : SWOk sys.sol W) :
    ∃ t, Candy.sMaterialize ⟨sys.sol, W⟩ = some t ∧ PInv F { sys with sol := t.sol } ∧
      PFrame sys { sys with sol := t.sol } ∧ SWOk t.sol t.W ∧
      (∀ c ∈ sys.sol.db.clauses, c ∈ t.sol.db.clauses) ∧
      (∀ c ∈ sys.sol.db.clauses, ∀ l, l ∈ t.sol.db.lits c ↔ l ∈ sys.sol.db.lits c) := by
  cases he : sys.sol.db.hasEmpty with
  | true =>
    obtain ⟨t, h1, h2, h3, h4, h5, h6, h7, h8, h9⟩ := sMaterialize_empty (s := ⟨sys.sol, W⟩) h.db he
    have hW := sMaterialize_emptyW (s := ⟨sys.sol, W⟩) h.db he h1
    simp only at h3 h5 h6 h7 h8 h9 hW
    refine ⟨t, h1, ⟨h2, ?_, ?_, ?_⟩, ⟨h3.nVars, h5, h6, h7, fun _ => h4⟩, ⟨h9.trans hw.nw, ?_⟩, ?_, ?_⟩
    · simp only; rw [h3.nVars]; exact h.ve
    · simp only; rw [h5, h3.nVars]; exact h.nv
    · simp only [h4]; simp
    · rw [hW, h3.next, h3.store]; exact hw.w
    · intro c hc; rw [h3.clauses]; exact hc
    · intro c _ l; unfold DB.lits; rw [h3.store]
  | false =>
    obtain ⟨t, h1, h2, h3, h4⟩ := sMaterialize_spec (s := ⟨sys.sol, W⟩) h.db (h.l0 he) hw.nw hw.w
    refine ⟨t, h1, ⟨h2.db, ?_, ?_, h2.l0⟩, ⟨h2.add.nVars, h2.grow.nVars, h2.grow.assumptions,
      h2.conflict, h2.hasEmpty⟩, ⟨h3, h4.w⟩, ?_, ?_⟩
    · simp only; rw [h2.add.nVars]; exact h.ve
    · simp only; rw [h2.grow.nVars, h2.add.nVars]; exact h.nv
    · intro c hc; exact h2.add.mem hc
    · intro c hc l
      exact (h2.add.lits c (h.db.mem c hc)).mem_iff

/-- Invariant of the loop in `processClauseDatabase`. -/
structure SQInv (F : CNF) (x : SProc) : Prop where
  q : QInv F x.p
  w : SWOk x.p.sys.sol x.W

theorem SQInv.materialize {q q' : SProc} (h : SQInv F q) (he : q.materialize = some q') :
    SQInv F q' ∧ PFrame q.p.sys q'.p.sys := by
  obtain ⟨t, h1, h2, h3, h4, h5, h6⟩ := h.q.inv.sMaterialize h.w
  unfold SProc.materialize at he
  rw [h1] at he
  simp at he; subst he
  exact ⟨⟨⟨h2, h.q.ok.ofDB h2.db h5 h6⟩, h4⟩, h3⟩

theorem SQInv.subsume {q q' : SProc} {r : PreRound} (h : SQInv F q) (he : q.subsume r = some q') :
    SQInv F q' ∧ PFrame q.p.sys q'.p.sys := by
  unfold SProc.subsume at he
  obtain ⟨p, hp, rfl⟩ := Option.map_eq_some_iff.1 he
  obtain ⟨a, b⟩ := h.q.subsume hp
  obtain ⟨c, d⟩ := subsume_keep h.q hp
  exact ⟨⟨a, h.w.keep c d⟩, b⟩

theorem SQInv.eliminate {q q' : SProc} {cfg : Config} {r : PreRound} (h : SQInv F q)
    (he : q.eliminate cfg r = some q') : SQInv F q' ∧ PFrame q.p.sys q'.p.sys := by
  unfold SProc.eliminate at he
  obtain ⟨p, hp, rfl⟩ := Option.map_eq_some_iff.1 he
  obtain ⟨a, b⟩ := h.q.eliminate hp
  obtain ⟨c, d⟩ := eliminate_keep h.q hp
  exact ⟨⟨a, h.w.keep c d⟩, b⟩

theorem SQInv.reduce {q q' : SProc} {cfg : Config} {r : PreRound} (h : SQInv F q)
    (hne : q.p.sys.sol.db.hasEmpty = false)
    (he : q.reduce cfg r = some q') : SQInv F q' ∧ PFrame q.p.sys q'.p.sys := by
  unfold SProc.reduce at he
  obtain ⟨x, hs, rfl⟩ := Option.map_eq_some_iff.1 he
  obtain ⟨st, b⟩ := x
  have hl := h.q.inv.l0 hne
  have ha : SAOk F ⟨q.p.sdb, q.W, q.p.sys.sol.trail⟩ := ⟨h.q.ok, hl.core, h.w.w, hl.lim⟩
  obtain ⟨h1, h2, h3, h4⟩ := sAsymAll_spec ha hs
  obtain ⟨_, hx⟩ := h2.sound h.q.ok
  have hv : st.s.db.nVars = q.p.sys.sol.db.nVars := hx.nVars
  have hq : QInv F (Proc.mk
      { q.p.sys with sol := { q.p.sys.sol with db := st.s.db, trail := st.T } }
      st.s.obj st.s.occ) := by
    refine ⟨⟨h1.ok.db, ?_, ?_, ?_⟩, h1.ok⟩
    · simp only; rw [hv]; exact h.q.inv.ve
    · simp only; rw [hv, h3.nVars]; exact h.q.inv.nv
    · intro _
      exact ⟨h1.core, h.w.watchInv _ _, h1.lim, h3.noReason hl.rz⟩
  obtain ⟨m1, m2⟩ := hq.after (ok := b) (clean := r.cleanup2) h4
  refine ⟨⟨m1, ?_⟩, PFrame.trans ?_ m2⟩
  · have hk : LKeep st.s.db (Proc.after (Proc.mk
      { q.p.sys with sol := { q.p.sys.sol with db := st.s.db, trail := st.T } }
      st.s.obj st.s.occ) b r.cleanup2).sys.sol.db := 
      LKeep.after (p := Proc.mk { q.p.sys with sol := { q.p.sys.sol with db := st.s.db, trail := st.T } }
        st.s.obj st.s.occ) ⟨Nat.le_refl _, fun _ _ => rfl⟩ _ _
    exact ⟨(after_watch ..).trans h.w.nw, h1.watch.congr hk.next hk.lits⟩
  · exact ⟨hv, h3.nVars, h3.assumptions, rfl, hx.hasEmpty⟩

theorem SQInv.round {p p' : SProc} {cfg : Config} {r : PreRound} {b : Bool} (h : SQInv F p)
    (he : p.round cfg r = some (p', b)) : SQInv F p' ∧ PFrame p.p.sys p'.p.sys := by
  unfold SProc.round at he
  split at he
  · simp at he
  · rename_i p1 hp1
    obtain ⟨a1, a2⟩ := h.materialize hp1
    split at he
    · simp at he; obtain ⟨rfl, rfl⟩ := he; exact ⟨a1, a2⟩
    · split at he
      · simp at he
      · rename_i p3 hp3
        obtain ⟨p2, hp2, hp3⟩ := Option.bind_eq_some_iff.1 hp3
        obtain ⟨b1, b2⟩ := a1.subsume hp2
        obtain ⟨c1, c2⟩ := b1.materialize hp3
        have f3 := (a2.trans b2).trans c2
        split at he
        · simp at he; obtain ⟨rfl, rfl⟩ := he; exact ⟨c1, f3⟩
        · rename_i hne3
          split at he
          · simp at he
          · rename_i p5 hp5
            obtain ⟨p4, hp4, hp5⟩ := Option.bind_eq_some_iff.1 hp5
            obtain ⟨d1, d2⟩ := c1.reduce (by simpa using hne3) hp4
            obtain ⟨e1, e2⟩ := d1.materialize hp5
            have f5 := (f3.trans d2).trans e2
            split at he
            · simp at he; obtain ⟨rfl, rfl⟩ := he; exact ⟨e1, f5⟩
            · obtain ⟨p6, hp6, hb⟩ := Option.map_eq_some_iff.1 he
              simp at hb; obtain ⟨rfl, rfl⟩ := hb
              obtain ⟨g1, g2⟩ := e1.eliminate hp6
              exact ⟨g1, f5.trans g2⟩

theorem SQInv.rounds {cfg : Config} : ∀ (rs : List PreRound) (p : SProc), SQInv F p → ∀ p',
    SProc.rounds cfg rs p = some p' → SQInv F p' ∧ PFrame p.p.sys p'.p.sys
  | [], p, h, p', he => by simp [SProc.rounds] at he; subst he; exact ⟨h, PFrame.refl _⟩
  | r :: rs, p, h, p', he => by
    rw [SProc.rounds] at he
    split at he
    · simp at he
    · rename_i p1 hp1
      simp at he; subst he
      exact h.round hp1
    · rename_i p1 hp1
      obtain ⟨a, b⟩ := h.round hp1
      obtain ⟨c, d⟩ := SQInv.rounds rs p1 a p' he
      exact ⟨c, b.trans d⟩

theorem PInv.sProcess {cfg : Config} {rs : List PreRound} {s s' : SSys} (h : PInv F s.sys)
    (hw : SWOk s.sys.sol s.W) (he : s.process cfg rs = some s') :
    PInv F s'.sys ∧ PFrame s.sys s'.sys ∧ SWOk s'.sys.sol s'.W := by
  unfold SSys.process at he
  obtain ⟨p, hp, rfl⟩ := Option.map_eq_some_iff.1 he
  have hok : SOk F (SDB.init s.sys.sol.db) := SOk.init h.db
  have hq : QInv F ⟨s.sys, (SDB.init s.sys.sol.db).obj, (SDB.init s.sys.sol.db).occ⟩ := by
    refine ⟨h, ?_⟩
    have e : (SDB.init s.sys.sol.db) = ⟨s.sys.sol.db, (SDB.init s.sys.sol.db).obj,
      (SDB.init s.sys.sol.db).occ⟩ := by
      conv => lhs; rw [show SDB.init s.sys.sol.db = ⟨(SDB.init s.sys.sol.db).db,
        (SDB.init s.sys.sol.db).obj, (SDB.init s.sys.sol.db).occ⟩ from rfl, init_db]
    rw [e] at hok; exact hok
  obtain ⟨a, b⟩ := SQInv.rounds rs _ ⟨hq, hw⟩ p hp
  exact ⟨a.q.inv, b, a.w⟩

theorem PInv.sReduceStep {cfg : Config} {r : Round} {s s' : SSys} (h : PInv F s.sys)
    (hw : SWOk s.sys.sol s.W) (hs : ∀ xs, ∀ x ∈ r.sort xs, x ∈ xs)
    (he : s.reduceStep cfg r = some s') :
    PInv F s'.sys ∧ PFrame s.sys s'.sys ∧ SWOk s'.sys.sol s'.W := by
  unfold SSys.reduceStep at he
  split at he
  · dsimp only at he
    obtain ⟨s1, h1, rfl⟩ := Option.map_eq_some_iff.1 he
    have key : PInv F s1.sys ∧ PFrame s.sys s1.sys ∧ s1.sys.sol.watch = noWatch := by
      split at h1
      · obtain ⟨a, b, c⟩ := h.sProcess hw h1
        exact ⟨a, b, c.nw⟩
      · simp at h1; subst h1
        obtain ⟨a, b, c⟩ := removeFold (reduceVictims cfg.keepMedian s.sys.sol.db
          (r.sort (reduceCandidates cfg.persistentLBD s.sys.sol.db))) s.sys.sol.db h.db (fun c hc =>
            h.db.mem c (List.mem_filter.1 (hs _ _ (mem_reduceVictims hc))).1)
        refine ⟨⟨a, ?_, ?_, ?_⟩, ⟨b.nVars, rfl, rfl, rfl, b.hasEmpty⟩, hw.nw⟩
        · simp only [reduceDB]; rw [b.nVars]; exact h.ve
        · simp only [reduceDB]; rw [b.nVars]; exact h.nv
        · intro hne
          simp only [reduceDB] at hne ⊢
          rw [c] at hne
          exact (h.l0 hne).ofDB a b.next b.nVars b.lits
    obtain ⟨k1, k2, k3⟩ := key
    refine ⟨⟨k1.db.reorganize, k1.ve, k1.nv, ?_⟩, k2.trans ⟨rfl, rfl, rfl, rfl, id⟩,
      SWOk.reset k3 k1.db.reorganize⟩
    intro hne
    have hl := k1.l0 hne
    exact ⟨hl.core.rebase hl.rz k1.db.reorganize rfl, by simp only; rw [k3]; exact ⟨by simp, by simp⟩,
      hl.lim, hl.rz⟩
  · simp at he; subst he; exact ⟨h, PFrame.refl _, hw⟩

/-! ### The loop of `solve` -/

/-- Invariant between the iterations of the loop in `solve`. -/
structure SRoundInv (F : CNF) (s : SSys) : Prop where
  r : RoundInv F s.sys
  w : SWOk s.sys.sol s.W

theorem SRoundInv.reset {s : SSys} (h : SRoundInv F s) :
    PInv F s.resetTrail.sys ∧ SWOk s.resetTrail.sys.sol s.resetTrail.W :=
  ⟨h.r.reset, h.w.nw, h.w.w⟩

/-- The search invariant without a completeness claim. -/
theorem PInv.stinv {sys : Sys} {W : SW} (h : PInv F sys) (hw : SWOk sys.sol W)
    (hne : sys.sol.db.hasEmpty = false)
    (hb : ∀ l ∈ sys.sol.trail.assumptions, l.var < sys.sol.db.nVars) :
    StInv False F (fun _ => False) ⟨sys.sol, W⟩ :=
  ⟨(h.sinv hne hb).weaken (fun _ h => h.1), hw.nw, fun _ h => h.elim, hw.w, fun h => h.elim,
    fun _ h => h.elim⟩

theorem sSolveRound_sound {cfg : Config} {r : Round} {s s' : SSys} {b : Option Bool}
    (h : SRoundInv F s) (hr : r.Valid)
    (hb : ∀ l ∈ s.sys.sol.trail.assumptions, l.var < s.sys.sol.db.nVars)
    (hcf : s.sys.sol.conflict = [])
    (he : s.solveRound cfg r = some (s', b)) :
    SRoundInv F s' ∧ s'.sys.sol.db.nVars = s.sys.sol.db.nVars ∧
    s'.sys.sol.trail.assumptions = s.sys.sol.trail.assumptions ∧
    (b ≠ some false → s'.sys.sol.conflict = []) ∧
    (b = some false → UnsatOk F s.sys.sol.trail.assumptions s'.sys.sol.conflict) := by
  unfold SSys.solveRound at he
  split at he
  · simp at he
  · rename_i s1 h1
    obtain ⟨a1, a2, a3⟩ := h.reset.1.sReduceStep h.reset.2 hr.sort h1
    obtain ⟨t, m1, m2, m3, m4, _, _⟩ := a1.sMaterialize a3
    rw [m1] at he
    simp only at he
    have hf := a2.trans m3
    have hnv : t.sol.db.nVars = s.sys.sol.db.nVars := hf.nVars
    have has : t.sol.trail.assumptions = s.sys.sol.trail.assumptions := hf.assumptions
    have hcs : t.sol.conflict = [] := hf.conflict.trans hcf
    split at he
    · rename_i hE
      simp only [Option.some.injEq, Prod.mk.injEq] at he
      obtain ⟨rfl, rfl⟩ := he
      refine ⟨⟨⟨m2.db, m2.ve, m2.nv, m4.watchInv _ _⟩, m4⟩, hnv, has, by simp, fun _ => ?_⟩
      exact Or.inl ⟨hcs, not_sat_of_entails_nil (m2.db.empt hE)⟩
    · rename_i hE
      have hE : t.sol.db.hasEmpty = false := by simpa using hE
      obtain ⟨x, hx, hxe⟩ := Option.map_eq_some_iff.1 he
      obtain ⟨t', b'⟩ := x
      simp only [Prod.mk.injEq] at hxe
      obtain ⟨rfl, rfl⟩ := hxe
      have hS : StInv False F (fun _ => False) t := m2.stinv m4 hE (by
        intro l hl
        simp only at hl ⊢
        rw [has] at hl; rw [hnv]; exact hb l hl)
      obtain ⟨_, f1, f2, fw, fi, ⟨A', _, _, _, f3⟩, f4, _⟩ := sSearch_spec r.steps r.choice _ t hS
        hr.choice t' b' hx
      have hw' : SWOk t'.sol t'.W := ⟨fw, fi⟩
      refine ⟨⟨⟨f2, ?_, ?_, hw'.watchInv _ _⟩, hw'⟩, f1.nVars.trans hnv, f1.assumptions.trans has,
        ?_, ?_⟩
      · simp only; rw [f1.nVars]; exact m2.ve
      · simp only; rw [f1.tnVars, f1.nVars]; exact m2.nv
      · intro hb'
        exact (f3 hb').1.trans hcs
      · intro hb'
        rcases f4 hb' with ⟨g1, g2⟩ | ⟨core, g1, g2, g3, g4⟩
        · exact Or.inl ⟨g1.trans hcs, g2⟩
        · right
          simp only
          rw [g2, hcs, List.nil_append]
          exact ⟨g1, g3, by rw [← has]; exact g4⟩

theorem sSolveLoop_sound {cfg : Config} : ∀ (rs : List Round) (s : SSys), SRoundInv F s →
    (∀ r ∈ rs, r.Valid) →
    (∀ l ∈ s.sys.sol.trail.assumptions, l.var < s.sys.sol.db.nVars) → s.sys.sol.conflict = [] →
    ∀ s' b, SSys.solveLoop cfg rs s = some (s', b) →
    SRoundInv F s' ∧ s'.sys.sol.db.nVars = s.sys.sol.db.nVars ∧
    s'.sys.sol.trail.assumptions = s.sys.sol.trail.assumptions ∧
    (b ≠ some false → s'.sys.sol.conflict = []) ∧
    (b = some false → UnsatOk F s.sys.sol.trail.assumptions s'.sys.sol.conflict)
  | [], s, h, _, _, hcf, s', b, he => by
    simp only [SSys.solveLoop, Option.some.injEq, Prod.mk.injEq] at he
    obtain ⟨rfl, rfl⟩ := he
    exact ⟨h, rfl, rfl, fun _ => hcf, by simp⟩
  | r :: rs, s, h, hr, hb, hcf, s', b, he => by
    rw [SSys.solveLoop] at he
    split at he
    · simp at he
    · rename_i s1 h1
      obtain ⟨a1, a4, a5, a6, _⟩ := sSolveRound_sound h (hr r (by simp)) hb hcf h1
      obtain ⟨c1, c4, c5, c6, c7⟩ := sSolveLoop_sound rs s1 a1
        (fun q hq => hr q (by simp [hq])) (by rw [a5, a4]; exact hb) (a6 (by simp)) s' b he
      exact ⟨c1, c4.trans a4, c5.trans a5, c6, fun hh => by rw [← a5]; exact c7 hh⟩
    · rename_i s1 b1 h1
      simp only [Option.some.injEq, Prod.mk.injEq] at he
      obtain ⟨rfl, rfl⟩ := he
      exact sSolveRound_sound h (hr r (by simp)) hb hcf h1

/-! ### Start of `solve` -/

theorem sCorrections_sol (w : Lit → List Watcher) : ∀ (cs : List Clause) (t : St) (s : Solver),
    t.sol = { s with watch := w } →
    (cs.foldl SSys.addCorrection t).sol = { cs.foldl addCorrection s with watch := w }
  | [], _, _, h => h
  | c :: cs, t, s, h => by
    rw [List.foldl_cons, List.foldl_cons]
    refine sCorrections_sol w cs _ _ ?_
    rw [addCorrection_eq]
    simp only [SSys.addCorrection, h]

theorem sCorrections_w : ∀ (cs : List Clause) (t : St), DBOk F t.sol.db →
    SWInv t.sol.db.next t.sol.db.store t.W →
    (∀ c ∈ cs, Entails F c ∧ (∀ l ∈ c, l.var < t.sol.db.nVars) ∧ (c.map Lit.var).Nodup) →
    SWInv (cs.foldl SSys.addCorrection t).sol.db.next (cs.foldl SSys.addCorrection t).sol.db.store
      (cs.foldl SSys.addCorrection t).W
  | [], _, _, h, _ => h
  | c :: cs, t, hd, hw, hc => by
    rw [List.foldl_cons]
    obtain ⟨h1, h2, h3⟩ := hc c (by simp)
    refine sCorrections_w cs _ (hd.createClause (lbd := 0) (lem := false) h2 h3 h1) ?_ ?_
    · have hx := DBExt.createClause t.sol.db c 0 false
      have hw' := hw.congr hx.next hx.lits
      simp only [SSys.addCorrection]
      match c with
      | [] => exact hw'
      | [x] => exact hw'
      | [x, y] => exact hw'
      | x :: y :: z :: r =>
        refine hw'.add ?_ ?_ ?_ ?_
        · simp
        · simp
        · simp
        · rintro rfl; simp at h3
    · intro d hd'
      simp only [SSys.addCorrection, createClause_nVars]
      exact hc d (by simp [hd'])

/-- The start of `solve` does the same to everything but the watchers. -/
theorem sSolveStart_sys (s : SSys) : s.solveStart.sys =
    { solveStart s.sys with sol := { (solveStart s.sys).sol with watch := s.sys.sol.watch } } := by
  unfold SSys.solveStart solveStart
  dsimp only
  rw [sCorrections_sol s.sys.sol.watch _ _
    { s.sys.sol with conflict := [], trail := (s.sys.ve.reset s.sys.sol.trail.reset).2.2, watch := resetWatch s.sys.sol.db } rfl]

theorem sSolveStart_sound {s : SSys} (h : SysOk F s.sys) (hnw : s.sys.sol.watch = noWatch) :
    PInv F s.solveStart.sys ∧ SRoundInv F s.solveStart ∧
    s.solveStart.sys.sol.db.nVars = s.sys.sol.db.nVars ∧
    s.solveStart.sys.sol.trail.assumptions = s.sys.sol.trail.assumptions ∧
    s.solveStart.sys.sol.conflict = [] := by
  obtain ⟨p1, p2, p3, p4, p5⟩ := solveStart_spec h
  have hnw' : s.solveStart.sys.sol.watch = noWatch := by rw [sSolveStart_sys]; exact hnw
  have hw : SWOk s.solveStart.sys.sol s.solveStart.W := by
    refine ⟨hnw', ?_⟩
    have h' : VEOk F s.sys.sol.db.nVars { s.sys.ve with frozen := fun _ => false } :=
      ⟨h.ve.ent, h.ve.wf, h.ve.nd⟩
    obtain ⟨r1, r2, r3⟩ := resetLoop_spec s.sys.sol.trail.reset.assumptions
      { s.sys.ve with frozen := fun _ => false } s.sys.sol.trail.reset [] h' (by simp)
    exact sCorrections_w (F := F) _ ⟨{ s.sys.sol with conflict := [], trail := _ }, _⟩ h.db
      (swinv_reset h.db) r2
  refine ⟨?_, ⟨?_, hw⟩, ?_⟩
  · rw [sSolveStart_sys]
    exact ⟨p1.db, p1.ve, p1.nv, fun he => ⟨(p1.l0 he).core, by
      simp only; rw [hnw]; exact ⟨by simp, by simp⟩, (p1.l0 he).lim, (p1.l0 he).rz⟩⟩
  · rw [sSolveStart_sys]
    exact ⟨p2.db, p2.ve, p2.nv, by simp only; rw [hnw]; exact ⟨by simp, by simp⟩⟩
  · rw [sSolveStart_sys]; exact ⟨p3, p4, p5⟩

theorem sSolveEntry_sound {cfg : Config} {pre : List PreRound} {s s' : SSys} (h : SysOk F s.sys)
    (hnw : s.sys.sol.watch = noWatch) (he : s.solveEntry cfg pre = some s') :
    SRoundInv F s' ∧ s'.sys.sol.db.nVars = s.sys.sol.db.nVars ∧
    s'.sys.sol.trail.assumptions = s.sys.sol.trail.assumptions ∧ s'.sys.sol.conflict = [] := by
  obtain ⟨p1, p2, p3, p4, p5⟩ := sSolveStart_sound h hnw
  unfold SSys.solveEntry at he
  dsimp only at he
  split at he
  · obtain ⟨s2, h2, rfl⟩ := Option.map_eq_some_iff.1 he
    obtain ⟨q1, q2, q3⟩ := p1.sProcess p2.w h2
    exact ⟨⟨⟨q1.db, q1.ve, q1.nv, q3.watchInv _ _⟩, ⟨q3.nw, swinv_reset q1.db⟩⟩, q2.nVars.trans p3,
      q2.assumptions.trans p4, q2.conflict.trans p5⟩
  · simp at he; subst he
    exact ⟨p2, p3, p4, p5⟩

/-! ### solve -/

/-- The end of `solve`. -/
theorem solveEnd_sound {as : List Lit} {sys sys' : Sys} {status : Option Bool} {res : Result}
    (b1 : DBOk F sys.sol.db) (b2 : VEOk F sys.sol.db.nVars sys.ve)
    (b3 : sys.sol.trail.nVars = sys.sol.db.nVars)
    (b5 : status ≠ some false → sys.sol.conflict = [])
    (b6 : status = some false → UnsatOk F as sys.sol.conflict)
    (he : solveEnd sys status = some (sys', res)) :
    SysOk F sys' ∧ sys'.sol.db.nVars = sys.sol.db.nVars ∧
    sys'.sol.trail.assumptions = sys.sol.trail.assumptions ∧ sys'.sol.watch = sys.sol.watch ∧
    res.status = status ∧ res.conflict = sys.sol.conflict ∧
    (status = some false → res.conflict = [] → ∃ log, sys'.sol.db.log = log ++ [.empty]) ∧
    (status ≠ some true → ∀ v, res.model v = none) := by
  have hba : (sys.sol.trail.backtrack 0).assumptions = sys.sol.trail.assumptions :=
    Trail.backtrack_assumptions ..
  have hbt : (sys.sol.trail.backtrack 0).nVars = sys.sol.db.nVars := by
    rw [Trail.backtrack_nVars]; exact b3
  unfold solveEnd at he
  split at he
  · simp only [Option.some.injEq, Prod.mk.injEq] at he
    obtain ⟨rfl, rfl⟩ := he
    exact ⟨⟨b1, b2, hbt⟩, rfl, hba, rfl, rfl, rfl, by simp, fun _ _ => rfl⟩
  · simp only [Option.some.injEq, Prod.mk.injEq] at he
    obtain ⟨rfl, rfl⟩ := he
    have hU := b6 rfl
    by_cases hc : sys.sol.conflict = []
    · have hns : ¬ Satisfiable F := by
        rcases hU with hU | hU
        · exact hU.2
        · exact (hU.1 hc).elim
      have hE : Entails F [] := fun a ha => (hns ⟨a, ha⟩).elim
      simp only [hc, List.isEmpty_nil, if_true]
      exact ⟨⟨b1.emptyClause hE, b2, hbt⟩, rfl, hba, by simp, by simp, by simp, fun _ _ => ⟨_, rfl⟩, by simp⟩
    · have : sys.sol.conflict.isEmpty = false := by simpa using hc
      simp only [this]
      exact ⟨⟨b1, b2, hbt⟩, by simp, hba, by simp, by simp, by simp, fun _ hh => (hc hh).elim, by simp⟩
  · split at he
    · simp at he
    · rename_i T hT
      simp only [Option.some.injEq, Prod.mk.injEq] at he
      obtain ⟨rfl, rfl⟩ := he
      refine ⟨⟨b1, b2, ?_⟩, rfl, ?_, rfl, rfl, rfl, by simp, by simp⟩
      · simp only
        rw [Trail.backtrack_nVars, extendModel_nVars _ _ _ hT]; exact b3
      · simp only
        rw [Trail.backtrack_assumptions, extendModel_assumptions _ _ _ hT]

theorem sSolve_sound {cfg : Config} {pre : List PreRound} {rounds : List Round} {s s' : SSys}
    {res : Result} (h : SysOk F s.sys) (hnw : s.sys.sol.watch = noWatch)
    (hr : ∀ r ∈ rounds, r.Valid)
    (hb : ∀ l ∈ s.sys.sol.trail.assumptions, l.var < s.sys.sol.db.nVars)
    (he : s.solve cfg pre rounds = some (s', res)) :
    SysOk F s'.sys ∧ s'.sys.sol.watch = noWatch ∧ s'.sys.sol.db.nVars = s.sys.sol.db.nVars ∧
    s'.sys.sol.trail.assumptions = s.sys.sol.trail.assumptions ∧
    (res.status ≠ some false → res.conflict = []) ∧
    (res.status = some false → UnsatOk F s.sys.sol.trail.assumptions res.conflict ∧
      (res.conflict = [] → ∃ log, s'.sys.sol.db.log = log ++ [.empty])) ∧
    (res.status ≠ some true → ∀ v, res.model v = none) := by
  unfold SSys.solve at he
  split at he
  · simp at he
  · rename_i s1 hs1
    obtain ⟨k1, k2, k3, k4⟩ := sSolveEntry_sound h hnw hs1
    split at he
    · simp at he
    · rename_i s2 status hs2
      have key2 : SRoundInv F s2 ∧ s2.sys.sol.db.nVars = s.sys.sol.db.nVars ∧
          s2.sys.sol.trail.assumptions = s.sys.sol.trail.assumptions ∧
          (status ≠ some false → s2.sys.sol.conflict = []) ∧
          (status = some false → UnsatOk F s.sys.sol.trail.assumptions s2.sys.sol.conflict) := by
        split at hs2
        · rename_i hE
          simp only [Option.some.injEq, Prod.mk.injEq] at hs2
          obtain ⟨rfl, rfl⟩ := hs2
          exact ⟨k1, k2, k3, by simp,
            fun _ => Or.inl ⟨k4, not_sat_of_entails_nil (k1.r.db.empt hE)⟩⟩
        · obtain ⟨a1, a4, a5, a6, a7⟩ := sSolveLoop_sound rounds s1 k1 hr
            (by rw [k3, k2]; exact hb) k4 s2 status hs2
          exact ⟨a1, a4.trans k2, a5.trans k3, a6, fun hh => by rw [← k3]; exact a7 hh⟩
      obtain ⟨b1, b4, b7, b5, b6⟩ := key2
      obtain ⟨x, hx, hxe⟩ := Option.map_eq_some_iff.1 he
      obtain ⟨sys', res'⟩ := x
      simp only [Prod.mk.injEq] at hxe
      obtain ⟨rfl, rfl⟩ := hxe
      obtain ⟨e1, e2, e3, e4, e5, e6, e7, e8⟩ := solveEnd_sound b1.r.db b1.r.ve b1.r.nv b5 b6 hx
      refine ⟨e1, e4.trans b1.w.nw, e2.trans b4, e3.trans b7, ?_, ?_, ?_⟩
      · rw [e5, e6]; exact b5
      · intro hh
        rw [e5] at hh
        exact ⟨by rw [e6]; exact b6 hh, e7 hh⟩
      · rw [e5]; exact e8

/-! ### Histories -/

theorem restoreLits_watch : ∀ (ls : List Lit) (sys : Sys),
    (restoreLits ls sys).sol.watch = sys.sol.watch
  | [], _ => rfl
  | l :: ls, sys => by
    rw [restoreLits]
    split
    · exact restoreLits_watch ls _
    · exact restoreLits_watch ls sys

theorem restoreAll_watch : ∀ (cs : CNF) (sys : Sys), (restoreAll cs sys).sol.watch = sys.sol.watch
  | [], _ => rfl
  | c :: cs, sys => by
    rw [restoreAll]
    split
    · rfl
    · exact (restoreAll_watch cs _).trans (restoreLits_watch c sys)

/-- Adding clauses does the same to everything but the watchers. -/
theorem sInit_sys (s : SSys) (nv : Nat) (G : CNF) (flag : Bool) : (s.init nv G flag).sys =
    { s.sys.init nv G flag with sol := { (s.sys.init nv G flag).sol with watch := s.sys.sol.watch } } := by
  unfold SSys.init Sys.init
  dsimp only
  congr 2
  rw [restoreAll_watch]

/-- Invariant of every history. -/
structure SSHistOk (F : CNF) (as : List Lit) (s : SSys) : Prop extends HistOk F as s.sys where
  nw : s.sys.sol.watch = noWatch

variable {u : Usage} {as : List Lit}

theorem SSHistory.ok {s : SSys} (hu : u.Valid) (h : SSHistory u F as s) : SSHistOk F as s := by
  induction h with
  | new recalc => exact ⟨⟨new_ok recalc, rfl, by simp, by simp⟩, rfl⟩
  | add h nv G flag hf hG ih =>
    obtain ⟨a1, a2, a3⟩ := init_sound ih.ok (lem := flag) hG
    have e := sInit_sys (by assumption) nv G flag
    refine ⟨⟨?_, ?_, ?_, ?_⟩, ?_⟩
    · rw [e]; exact ⟨a1.db, a1.ve, a1.nv⟩
    · rw [e]; exact a3.trans ih.assumptions
    · intro l hl; rw [e]; simp only; rw [a2]; have := ih.bound l hl; omega
    · intro c hc l hl
      rw [e]; simp only; rw [a2]
      rcases List.mem_append.1 hc with hc | hc
      · have := ih.inputWf c hc l hl; omega
      · exact (hG c hc).1 l hl
    · rw [e]; exact ih.nw
  | assume h as' hb ih => exact ⟨⟨ih.ok.assume as', rfl, hb, ih.inputWf⟩, ih.nw⟩
  | solve h cfg pre rounds hc hr he ih =>
    obtain ⟨s1, s0, s2, s3, s4, s5⟩ := sSolve_sound ih.ok ih.nw (fun r hm => hu r (hr r hm))
      (by rw [ih.assumptions]; exact ih.bound) he
    exact ⟨⟨s1, s3.trans ih.assumptions, by rw [s2]; exact ih.bound, by rw [s2]; exact ih.inputWf⟩, s0⟩

/-- Invariant at the head of the main loop of `solve`. -/
structure SSInSolveOk (F : CNF) (as : List Lit) (s : SSys) : Prop where
  inv : SRoundInv F s
  assumptions : s.sys.sol.trail.assumptions = as
  bound : ∀ l ∈ as, l.var < s.sys.sol.db.nVars
  conflict : s.sys.sol.conflict = []

theorem SSInSolve.ok {s : SSys} (hu : u.Valid) (h : SSInSolve u F as s) : SSInSolveOk F as s := by
  induction h with
  | enter h cfg pre hc he =>
    have ih := h.ok hu
    obtain ⟨a1, a2, a3, a4⟩ := sSolveEntry_sound ih.ok ih.nw he
    exact ⟨a1, a3.trans ih.assumptions, by rw [a2]; exact ih.bound, a4⟩
  | round h cfg r hr he ih =>
    obtain ⟨a1, a4, a5, a6, _⟩ := sSolveRound_sound ih.inv (hu r hr)
      (by rw [ih.assumptions]; exact ih.bound) ih.conflict he
    exact ⟨a1, a5.trans ih.assumptions, by rw [a4]; exact ih.bound, a6 (by simp)⟩

theorem SSSearching.ok {t : St} (hu : u.Valid) (h : SSSearching u F as t) :
    StInv False F (fun _ => False) t ∧ t.sol.trail.assumptions = as ∧ t.sol.conflict = [] := by
  induction h with
  | start h cfg r hr h1 h2 h3 =>
    have ih := h.ok hu
    obtain ⟨a1, a2, a3⟩ := ih.inv.reset.1.sReduceStep ih.inv.reset.2 (hu r hr).sort h1
    obtain ⟨t, m1, m2, m3, m4, _, _⟩ := a1.sMaterialize a3
    rw [h2] at m1
    simp at m1; subst m1
    have hf := a2.trans m3
    have has := hf.assumptions.trans ih.assumptions
    have hnv := hf.nVars
    refine ⟨m2.stinv m4 h3 ?_, has, hf.conflict.trans ih.conflict⟩
    intro l hl
    simp only at hl has hnv ⊢
    rw [has] at hl; rw [hnv]; exact ih.bound l hl
  | iter h ch hch he ih =>
    obtain ⟨out, e1, e2⟩ := sSearchIter_spec ih.1 hch
    rw [he] at e1
    simp at e1; subst e1
    obtain ⟨f, c, _, _, _, A', _, hS, _⟩ := e2
    refine ⟨⟨hS.sol.weaken (fun _ h => h.1.elim), hS.nw, fun _ h => h.elim, hS.w, fun h => h.elim,
      fun _ h => h.elim⟩, f.assumptions.trans ih.2.1, c.trans ih.2.2⟩

end Candy
