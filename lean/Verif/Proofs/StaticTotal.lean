import Verif.Proofs.StaticTermination
import Verif.Proofs.StaticSat
import Verif.Proofs.SolveTotal

/-!
# `solve` with the static propagator is defined

As `Proofs/SolveTotal.lean`, for the other propagator.
-/

namespace Candy

variable {F : CNF}

/-! ### Asymmetric variable reduction -/

theorem sAsymScan_cons (v o : Nat) (os : List Nat) (st : SAVS) :
    sAsymScan v (o :: os) st = (sAsymScan v [o] st).bind fun x =>
      if x.2 then sAsymScan v os x.1 else some (x.1, false) := by
  rw [sAsymScan, sAsymScan]
  split
  · rfl
  · simp [sAsymScan]
  · dsimp only
    split
    · simp [sAsymScan]
    · split
      · rfl
      · split
        · simp [sAsymScan]
        · split
          · split
            · rfl
            · split
              · rfl
              · simp [sAsymScan]
          · simp

theorem sAsymOne_total {v o : Nat} {st : SAVS} (h : SAOk F st) (ho : o < st.s.obj.length)
    (hv : ∀ c, st.s.obj[o]? = some (some c) → ∃ l ∈ st.s.db.lits c, l.var = v) :
    ∃ st' b, sAsymScan v [o] st = some (st', b) ∧ st'.s.obj.length = st.s.obj.length ∧
      ∀ x, x ≠ o → st'.s.obj[x]? = st.s.obj[x]? := by
  rw [sAsymScan]
  split
  · rename_i hc
    rw [List.getElem?_eq_none_iff] at hc
    omega
  · exact ⟨st, true, by simp [sAsymScan], rfl, fun _ _ => rfl⟩
  · rename_i c hc
    dsimp only
    split
    · exact ⟨st, true, by simp [sAsymScan], rfl, fun _ _ => rfl⟩
    · have hclt := h.ok.lt hc
      have hsome := asymDecide_some (v := v) (st.s.db.lits c) st.T.newDecisionLevel none (Or.inr (hv c hc))
      generalize hdec : asymDecide v (st.s.db.lits c) st.T.newDecisionLevel none = r at hsome
      obtain ⟨T1, l1⟩ := r
      let D := asymKeep v st.T (st.s.db.lits c)
      have hG : ∀ a, Sat a (F ++ unitsOf (D.map Lit.neg)) → Sat a F := fun a ha => (sat_append.1 ha).1
      have hcore1 := CoreB.newLevel (h.core.toBase h.lim hG 1) h.lim
      have hb1 : st.T.newDecisionLevel.decisionLevel ≤ 1 := by
        simp [Trail.newDecisionLevel, Trail.decisionLevel, h.lim]
      obtain ⟨a1, -⟩ := asymDecide_spec (v := v) (T0 := st.T)
        (ls := st.s.db.lits c) (st.s.db.lits c) st.T.newDecisionLevel none hcore1 hb1
        (h.ok.db.wf c hclt) (h.ok.db.nd c hclt) (fun _ h => h) (fun _ _ => rfl) (by
          intro x hx a ha
          have := sat_unitsOf.1 (sat_append.1 ha).2 x.neg (List.mem_map.2 ⟨x, hx, rfl⟩)
          exact ⟨x.neg, by simp, this⟩) T1 l1 hdec
      obtain ⟨W2, T2, rr, e1, -⟩ := sPropagateLoop_specL (L := False)
        (st.s.db.nVars + 1) st.W T1 a1 h.watch (fun h => h.elim) (by omega)
      simp only
      rw [e1]
      simp only
      cases rr with
      | none =>
        simp only [sAsymScan]
        exact ⟨_, _, rfl, rfl, fun _ _ => rfl⟩
      | some cf =>
        simp only
        split
        · cases l1 with
          | none => exact (hsome rfl).elim
          | some l =>
            simp only
            obtain ⟨s2, k1, -, -, -, k2, k3, -⟩ := strengthen_total (l := l) h.ok (i := o) (c := c) hc
            simp only [k1, sAsymScan]
            exact ⟨_, _, rfl, k2, k3⟩
        · exact ⟨_, false, rfl, rfl, fun _ _ => rfl⟩

theorem sAsymScan_total {v : Nat} : ∀ (os : List Nat) (st : SAVS), SAOk F st → os.Nodup →
    (∀ o ∈ os, o < st.s.obj.length) →
    (∀ o ∈ os, ∀ c, st.s.obj[o]? = some (some c) → ∃ l ∈ st.s.db.lits c, l.var = v) →
    ∃ st' b, sAsymScan v os st = some (st', b)
  | [], st, _, _, _, _ => ⟨st, true, by simp [sAsymScan]⟩
  | o :: os, st, h, hn, hl, hv => by
    have hn' := List.nodup_cons.1 hn
    obtain ⟨st1, b, e1, e2, e3⟩ := sAsymOne_total h (hl o (by simp)) (hv o (by simp))
    obtain ⟨a1, a2, -, -⟩ := sAsymScan_spec [o] st h (by simp) (by
      intro x hx; simp at hx; subst hx; exact hv x (by simp)) st1 b e1
    rw [sAsymScan_cons, e1]
    cases b with
    | false => exact ⟨st1, false, rfl⟩
    | true =>
      obtain ⟨_, hx⟩ := a2.sound h.ok
      exact sAsymScan_total os st1 a1 hn'.2 (by
          intro x hx; rw [e2]; exact hl x (by simp [hx])) (by
          intro x hxm c hc
          have hxo : x ≠ o := fun e => hn'.1 (e ▸ hxm)
          rw [e3 x hxo] at hc
          obtain ⟨l, h1, h2⟩ := hv x (by simp [hxm]) c hc
          exact ⟨l, (hx.lits c (h.ok.lt hc)).mem_iff.2 h1, h2⟩)

theorem sAsymList_total : ∀ (vs : List Nat) (st : SAVS), SAOk F st →
    ∃ st' b, sAsymList vs st = some (st', b)
  | [], st, _ => ⟨st, true, rfl⟩
  | v :: vs, st, h => by
    rw [sAsymList]
    split
    · obtain ⟨st1, b, e⟩ := sAsymScan_total (st.s.occ v) st h (h.ok.occNd v) (h.ok.occLt v) (h.ok.occVar v)
      rw [e]
      cases b with
      | false => exact ⟨st1, false, rfl⟩
      | true =>
        exact sAsymList_total vs st1
          (sAsymScan_spec _ st h (h.ok.occNd v) (h.ok.occVar v) _ _ e).1
    · exact sAsymList_total vs st h

theorem sAsymAll_total {active : Bool} {st : SAVS} (h : SAOk F st) :
    ∃ st' b, sAsymAll active st = some (st', b) := by
  rw [sAsymAll]
  split
  · exact sAsymList_total _ st h
  · exact ⟨st, true, rfl⟩

/-! ### The stages of `solve` -/

theorem SQInv.subsume_total {p : SProc} (r : PreRound) (h : SQInv F p)
    (hne : p.p.sys.sol.db.hasEmpty = false) :
    ∃ N q, (∀ f, N ≤ f → p.subsume (r.withFuel f) = some q) ∧ q.p.sys.ve = p.p.sys.ve := by
  obtain ⟨N, q, e, v⟩ := h.q.subsume_total r hne
  exact ⟨N, ⟨q, p.W⟩, fun f hf => by simp only [SProc.subsume, e f hf, Option.map_some], v⟩

theorem SQInv.reduce_total {p : SProc} (cfg : Config) (r : PreRound) (h : SQInv F p)
    (hne : p.p.sys.sol.db.hasEmpty = false) :
    ∃ q, (∀ f, p.reduce cfg (r.withFuel f) = some q) ∧ q.p.sys.ve = p.p.sys.ve := by
  have hl := h.q.inv.l0 hne
  obtain ⟨st, b, e⟩ := sAsymAll_total (active := cfg.useAsymm)
    (st := ⟨p.p.sdb, p.W, p.p.sys.sol.trail⟩) (F := F) ⟨h.q.ok, hl.core, h.w.w, hl.lim⟩
  refine ⟨_, fun f => by simp only [SProc.reduce, PreRound.withFuel, e, Option.map_some]; rfl, ?_⟩
  rw [Proc.after_ve]

theorem SQInv.eliminate_total {p : SProc} (cfg : Config) (r : PreRound) (h : SQInv F p) :
    ∃ q, (∀ f, p.eliminate cfg (r.withFuel f) = some q) ∧ (VENe p.p.sys.ve → VENe q.p.sys.ve) := by
  obtain ⟨q, e, v⟩ := h.q.eliminate_total cfg r
  exact ⟨⟨q, p.W⟩, fun f => by simp only [SProc.eliminate, e f, Option.map_some], v⟩

theorem SQInv.materialize_total {p : SProc} (h : SQInv F p) :
    ∃ q, p.materialize = some q ∧ q.p.sys.ve = p.p.sys.ve := by
  obtain ⟨t, h1, -⟩ := h.q.inv.sMaterialize h.w
  refine ⟨_, by rw [SProc.materialize, h1]; rfl, ?_⟩
  rfl

theorem SQInv.round_total {p : SProc} (cfg : Config) (r : PreRound) (h : SQInv F p) :
    ∃ N q, (∀ f, N ≤ f → p.round cfg (r.withFuel f) = some q) ∧
      (VENe p.p.sys.ve → VENe q.1.p.sys.ve) := by
  obtain ⟨p1, e1, v1⟩ := h.materialize_total
  obtain ⟨q1, -⟩ := h.materialize e1
  unfold SProc.round
  simp only [e1]
  cases hE1 : p1.p.sys.sol.db.hasEmpty with
  | true => exact ⟨0, (p1, false), fun f _ => by simp, by rw [v1]; exact id⟩
  | false =>
    obtain ⟨N, p2, e2, v2⟩ := q1.subsume_total r hE1
    obtain ⟨q2, -⟩ := q1.subsume (e2 N (Nat.le_refl N))
    obtain ⟨p3, e3, v3⟩ := q2.materialize_total
    obtain ⟨q3, -⟩ := q2.materialize e3
    have key : ∃ q, (∀ f, N ≤ f → (if p3.p.sys.sol.db.hasEmpty then some (p3, false)
          else
            match (p3.reduce cfg (r.withFuel f)).bind SProc.materialize with
            | none => none
            | some p =>
              if p.p.sys.sol.db.hasEmpty then some (p, false)
              else (p.eliminate cfg (r.withFuel f)).map fun p => (p, true)) = some q) ∧
        (VENe p3.p.sys.ve → VENe q.1.p.sys.ve) := by
      cases hE3 : p3.p.sys.sol.db.hasEmpty with
      | true => exact ⟨(p3, false), fun f _ => by simp, id⟩
      | false =>
        obtain ⟨p4, e4, v4⟩ := q3.reduce_total cfg r hE3
        obtain ⟨q4, -⟩ := q3.reduce hE3 (e4 0)
        obtain ⟨p5, e5, v5⟩ := q4.materialize_total
        obtain ⟨q5, -⟩ := q4.materialize e5
        cases hE5 : p5.p.sys.sol.db.hasEmpty with
        | true =>
          refine ⟨(p5, false), fun f _ => ?_, by simp only; rw [v5, v4]; exact id⟩
          simp [e4 f, e5, hE5]
        | false =>
          obtain ⟨p6, e6, v6⟩ := q5.eliminate_total cfg r
          refine ⟨(p6, true), fun f _ => ?_, by simp only; rw [← v4, ← v5]; exact v6⟩
          simp [e4 f, e5, hE5, e6 f]
    obtain ⟨q, k1, k2⟩ := key
    refine ⟨N, q, fun f hf => ?_, by rw [← v1, ← v2, ← v3]; exact k2⟩
    simp only [e2 f hf, Option.bind_some, e3]
    exact k1 f hf

theorem SQInv.rounds_total (cfg : Config) : ∀ (rs : List PreRound) (p : SProc), SQInv F p →
    ∃ N q, (∀ f, N ≤ f → SProc.rounds cfg (rs.map (PreRound.withFuel f)) p = some q) ∧
      (VENe p.p.sys.ve → VENe q.p.sys.ve)
  | [], p, _ => ⟨0, p, fun _ _ => rfl, id⟩
  | r :: rs, p, h => by
    obtain ⟨N, ⟨p1, b⟩, e, v⟩ := h.round_total cfg r
    obtain ⟨h1, -⟩ := h.round (e N (Nat.le_refl N))
    cases b with
    | false =>
      refine ⟨N, p1, fun f hf => ?_, v⟩
      rw [List.map_cons, SProc.rounds, e f hf]
    | true =>
      obtain ⟨N2, q, e2, v2⟩ := SQInv.rounds_total cfg rs p1 h1
      refine ⟨max N N2, q, fun f hf => ?_, fun hh => v2 (v hh)⟩
      rw [List.map_cons, SProc.rounds, e f (by omega)]
      exact e2 f (by omega)

theorem PInv.sProcess_total {s : SSys} (cfg : Config) (rs : List PreRound) (h : PInv F s.sys)
    (hw : SWOk s.sys.sol s.W) :
    ∃ N s', (∀ f, N ≤ f → s.process cfg (rs.map (PreRound.withFuel f)) = some s') ∧
      (VENe s.sys.ve → VENe s'.sys.ve) := by
  obtain ⟨N, q, e, v⟩ := SQInv.rounds_total cfg rs _ (SQInv.start h hw).1
  exact ⟨N, ⟨q.p.sys, q.W⟩, fun f hf => by unfold SSys.process; simp only [e f hf, Option.map_some], v⟩

theorem PInv.sReduceStep_total {s : SSys} (cfg : Config) (r : Round) (h : PInv F s.sys)
    (hw : SWOk s.sys.sol s.W) :
    ∃ N s', (∀ f, N ≤ f → s.reduceStep cfg (r.withFuel f) = some s') ∧
      (VENe s.sys.ve → VENe s'.sys.ve) := by
  unfold SSys.reduceStep Round.withFuel
  dsimp only
  cases r.trigger with
  | false => exact ⟨0, s, fun _ _ => by simp, id⟩
  | true =>
    cases r.inprocess with
    | none =>
      refine ⟨0, _, fun _ _ => by simp only [if_true, Option.map_none, Option.map_some]; rfl, ?_⟩
      exact id
    | some rs =>
      obtain ⟨N, s1, e, v⟩ := h.sProcess_total cfg rs hw
      refine ⟨N, _, fun f hf => by simp only [if_true, Option.map_some, e f hf]; rfl, ?_⟩
      exact v

theorem sSearch_mono : ∀ (f f' : Nat) (o : Nat → Choice) (s : St) (x : St × Option Bool),
    f ≤ f' → sSearch f o s = some x → sSearch f' o s = some x
  | 0, _, _, _, _, _, h => by simp [sSearch] at h
  | f + 1, 0, _, _, _, hf, _ => by omega
  | f + 1, f' + 1, o, s, x, hf, h => by
    rw [sSearch] at h ⊢
    split at h
    · simp at h
    · exact h
    · exact sSearch_mono f f' _ _ x (by omega) h

theorem SRoundInv.round_total {s : SSys} (cfg : Config) {r : Round} (hr : r.Valid) (h : SRoundInv F s)
    (hb : ∀ l ∈ s.sys.sol.trail.assumptions, l.var < s.sys.sol.db.nVars) :
    ∃ N x, (∀ f, N ≤ f → s.solveRound cfg (r.withFuel f) = some x) ∧
      (VENe s.sys.ve → VENe x.1.sys.ve) ∧
      ((∀ i, (r.choice i).restart = false) → x.2 ≠ none) := by
  obtain ⟨N, s1, e, v⟩ := h.reset.1.sReduceStep_total cfg r h.reset.2
  obtain ⟨a1, a2, a3⟩ := h.reset.1.sReduceStep (r := r.withFuel N) h.reset.2 hr.sort (e N (Nat.le_refl N))
  obtain ⟨t, m1, m2, m3, m4, -⟩ := a1.sMaterialize a3
  have hf := a2.trans m3
  have hnv : t.sol.db.nVars = s.sys.sol.db.nVars := hf.nVars
  have has : t.sol.trail.assumptions = s.sys.sol.trail.assumptions := hf.assumptions
  cases hE : t.sol.db.hasEmpty with
  | true =>
    refine ⟨N, (⟨{ s1.sys with sol := t.sol }, t.W⟩, some false), fun f hf => ?_, v, by simp⟩
    unfold SSys.solveRound
    simp only [e f hf, m1, hE, if_true]
  | false =>
    have hS : StInv False F (fun _ => False) t := m2.stinv m4 hE (by
      intro l hl
      simp only at hl ⊢
      rw [has] at hl; rw [hnv]; exact hb l hl)
    obtain ⟨t', b, e2, e3⟩ := sSearch_terminates
      (t.sol.db.nVars * (t.sol.db.nVars + 1) ^ (t.sol.db.nVars + 1) + 1)
      r.choice t _ hS hr.choice (by omega)
    refine ⟨max N (t.sol.db.nVars * (t.sol.db.nVars + 1) ^ (t.sol.db.nVars + 1) + 1),
      (⟨{ s1.sys with sol := t'.sol }, t'.W⟩, b), fun f hf => ?_, v, e3⟩
    unfold SSys.solveRound
    simp only [e f (by omega), m1, hE]
    have := sSearch_mono _ f r.choice t _ (by omega) e2
    simp only [Round.withFuel, this, Option.map_some, Bool.false_eq_true, if_false]

theorem SRoundInv.loop_total (cfg : Config) : ∀ (rs : List Round) (s : SSys), SRoundInv F s →
    (∀ r ∈ rs, r.Valid) → (∀ l ∈ s.sys.sol.trail.assumptions, l.var < s.sys.sol.db.nVars) →
    s.sys.sol.conflict = [] →
    ∃ N x, (∀ f, N ≤ f → SSys.solveLoop cfg (rs.map (Round.withFuel f)) s = some x) ∧
      (VENe s.sys.ve → VENe x.1.sys.ve) ∧
      ((∃ r ∈ rs, ∀ i, (r.choice i).restart = false) → x.2 ≠ none)
  | [], s, _, _, _, _ => ⟨0, (s, none), fun _ _ => rfl, id, by simp⟩
  | r :: rs, s, h, hr, hb, hcf => by
    obtain ⟨N, ⟨s1, b⟩, e, v, w⟩ := h.round_total cfg (hr r (by simp)) hb
    have hrv : (r.withFuel N).Valid := ⟨(hr r (by simp)).choice, (hr r (by simp)).sort⟩
    obtain ⟨a1, a4, a5, a6, _⟩ := sSolveRound_sound h hrv hb hcf (e N (Nat.le_refl N))
    cases b with
    | some b =>
      refine ⟨N, (s1, some b), fun f hf => ?_, v, by simp⟩
      rw [List.map_cons, SSys.solveLoop, e f hf]
    | none =>
      obtain ⟨N2, x, e2, v2, w2⟩ := SRoundInv.loop_total cfg rs s1 a1
        (fun q hq => hr q (by simp [hq])) (by rw [a5, a4]; exact hb) (a6 (by simp))
      refine ⟨max N N2, x, fun f hf => ?_, fun hh => v2 (v hh), ?_⟩
      · rw [List.map_cons, SSys.solveLoop, e f (by omega)]
        exact e2 f (by omega)
      · rintro ⟨q, hq, hqr⟩
        rcases List.mem_cons.1 hq with rfl | hq
        · exact (w hqr rfl).elim
        · exact w2 ⟨q, hq, hqr⟩

theorem VENe.sSolveStart {s : SSys} (h : VENe s.sys.ve) : VENe s.solveStart.sys.ve :=
  VENe.resetLoop _ _ _ _ h

theorem solveEnd_total {sys : Sys} (st : Option Bool) (h : VENe sys.ve) :
    ∃ y, solveEnd sys st = some y ∧ VENe y.1.ve ∧ y.2.status = st := by
  unfold solveEnd
  split
  · exact ⟨_, rfl, h, rfl⟩
  · exact ⟨_, rfl, h, rfl⟩
  · obtain ⟨T, eT⟩ := extendModel_total sys.ve.vars.reverse sys.sol.trail (cls := sys.ve.cls)
      (fun w hw => h w (by simpa using hw))
    rw [eT]
    exact ⟨_, rfl, h, rfl⟩

theorem sSolve_total {s : SSys} (h : SysOk F s.sys) (hnw : s.sys.sol.watch = noWatch)
    (hve : VENe s.sys.ve) (cfg : Config)
    (pre : List PreRound) (rounds : List Round) (hr : ∀ r ∈ rounds, r.Valid)
    (hb : ∀ l ∈ s.sys.sol.trail.assumptions, l.var < s.sys.sol.db.nVars) :
    ∃ N x, (∀ f, N ≤ f → s.solve cfg (pre.map (PreRound.withFuel f)) (rounds.map (Round.withFuel f)) =
        some x) ∧ VENe x.1.sys.ve ∧
      ((∃ r ∈ rounds, ∀ i, (r.choice i).restart = false) → x.2.status ≠ none) := by
  obtain ⟨p1, p2, p3, p4, p5⟩ := sSolveStart_sound h hnw
  have hv0 := hve.sSolveStart
  have key : ∃ N s1, (∀ f, N ≤ f → s.solveEntry cfg (pre.map (PreRound.withFuel f)) = some s1) ∧
      VENe s1.sys.ve := by
    unfold SSys.solveEntry
    dsimp only
    cases cfg.preprocessing with
    | false => exact ⟨0, _, fun _ _ => rfl, hv0⟩
    | true =>
      obtain ⟨N, s1, e, v⟩ := p1.sProcess_total cfg pre p2.w
      refine ⟨N, _, fun f hf => by simp only [if_true, e f hf, Option.map_some]; rfl, ?_⟩
      exact v hv0
  obtain ⟨N, s1, e, v⟩ := key
  obtain ⟨k1, k2, k3, k4⟩ := sSolveEntry_sound h hnw (e N (Nat.le_refl N))
  have key2 : ∃ M x, (∀ f, M ≤ f → (if s1.sys.sol.db.hasEmpty then some (s1, some false)
      else SSys.solveLoop cfg (rounds.map (Round.withFuel f)) s1) = some x) ∧ VENe x.1.sys.ve ∧
      ((∃ r ∈ rounds, ∀ i, (r.choice i).restart = false) → x.2 ≠ none) := by
    cases hE : s1.sys.sol.db.hasEmpty with
    | true => exact ⟨0, (s1, some false), fun _ _ => by simp, v, by simp⟩
    | false =>
      obtain ⟨M, x, e2, v2, w2⟩ := k1.loop_total cfg rounds s1 hr (by rw [k3, k2]; exact hb) k4
      exact ⟨M, x, fun f hf => by simpa using e2 f hf, v2 v, w2⟩
  obtain ⟨M, ⟨s2, st⟩, e2, v2, w2⟩ := key2
  obtain ⟨y, e3, v3, w3⟩ := solveEnd_total st v2
  refine ⟨max N M, (⟨y.1, s2.W⟩, y.2), fun f hf => ?_, v3, fun hh => by simp only; rw [w3]; exact w2 hh⟩
  unfold SSys.solve
  rw [e f (by omega)]
  simp only
  rw [e2 f (by omega)]
  simp only [e3, Option.map_some]

/-! ### Stored clauses exist in every history -/

theorem SQInv.round_ve {p p' : SProc} {cfg : Config} {r : PreRound} {b : Bool} (h : SQInv F p)
    (he : p.round cfg r = some (p', b)) (hv : VENe p.p.sys.ve) : VENe p'.p.sys.ve := by
  unfold SProc.round at he
  split at he
  · simp at he
  · rename_i p1 hp1
    obtain ⟨a1, -⟩ := h.materialize hp1
    have v1 := SProc.materialize_ve hp1
    split at he
    · simp at he; obtain ⟨rfl, rfl⟩ := he; rw [v1]; exact hv
    · split at he
      · simp at he
      · rename_i p3 hp3
        obtain ⟨p2, hp2, hp3⟩ := Option.bind_eq_some_iff.1 hp3
        obtain ⟨b1, -⟩ := a1.subsume hp2
        obtain ⟨c1, -⟩ := b1.materialize hp3
        have v3 := ((SProc.materialize_ve hp3).trans (SProc.subsume_ve hp2)).trans v1
        split at he
        · simp at he; obtain ⟨rfl, rfl⟩ := he; rw [v3]; exact hv
        · rename_i hne3
          split at he
          · simp at he
          · rename_i p5 hp5
            obtain ⟨p4, hp4, hp5⟩ := Option.bind_eq_some_iff.1 hp5
            obtain ⟨d1, -⟩ := c1.reduce (by simpa using hne3) hp4
            obtain ⟨e1, -⟩ := d1.materialize hp5
            have v5 := ((SProc.materialize_ve hp5).trans (SProc.reduce_ve hp4)).trans v3
            split at he
            · simp at he; obtain ⟨rfl, rfl⟩ := he; rw [v5]; exact hv
            · obtain ⟨p6, hp6, hb⟩ := Option.map_eq_some_iff.1 he
              simp at hb; obtain ⟨rfl, rfl⟩ := hb
              obtain ⟨q, k1, k2⟩ := e1.eliminate_total cfg r
              have := k1 r.fuel
              rw [r.withFuel_self, hp6] at this
              simp at this; subst this
              exact k2 (by rw [v5]; exact hv)

theorem SQInv.rounds_ve {cfg : Config} : ∀ (rs : List PreRound) (p : SProc), SQInv F p → ∀ p',
    SProc.rounds cfg rs p = some p' → VENe p.p.sys.ve → VENe p'.p.sys.ve
  | [], p, h, p', he, hv => by simp [SProc.rounds] at he; subst he; exact hv
  | r :: rs, p, h, p', he, hv => by
    rw [SProc.rounds] at he
    split at he
    · simp at he
    · rename_i p1 hp1
      simp at he; subst he
      exact h.round_ve hp1 hv
    · rename_i p1 hp1
      exact SQInv.rounds_ve rs p1 (h.round hp1).1 p' he (h.round_ve hp1 hv)

theorem PInv.sProcess_ve {cfg : Config} {rs : List PreRound} {s s' : SSys} (h : PInv F s.sys)
    (hw : SWOk s.sys.sol s.W) (he : s.process cfg rs = some s') (hv : VENe s.sys.ve) :
    VENe s'.sys.ve := by
  unfold SSys.process at he
  obtain ⟨p, hp, rfl⟩ := Option.map_eq_some_iff.1 he
  exact SQInv.rounds_ve rs _ (SQInv.start h hw).1 p hp hv

theorem sSolveRound_ve {cfg : Config} {r : Round} {s s' : SSys} {b : Option Bool}
    (h : SRoundInv F s) (he : s.solveRound cfg r = some (s', b)) (hv : VENe s.sys.ve) :
    VENe s'.sys.ve := by
  unfold SSys.solveRound at he
  split at he
  · simp at he
  · rename_i s1 h1
    have v1 : VENe s1.sys.ve := by
      unfold SSys.reduceStep at h1
      split at h1
      · dsimp only at h1
        obtain ⟨s2, h2, rfl⟩ := Option.map_eq_some_iff.1 h1
        split at h2
        · have := h.reset.1.sProcess_ve h.reset.2 h2 hv
          exact this
        · simp at h2; subst h2; exact hv
      · simp at h1; subst h1; exact hv
    split at he
    · simp at he
    · split at he
      · simp at he; obtain ⟨rfl, rfl⟩ := he; exact v1
      · obtain ⟨x, -, hx⟩ := Option.map_eq_some_iff.1 he
        simp at hx; obtain ⟨rfl, rfl⟩ := hx; exact v1

theorem sSolveLoop_ve {cfg : Config} : ∀ (rs : List Round) (s : SSys), SRoundInv F s →
    (∀ r ∈ rs, r.Valid) → (∀ l ∈ s.sys.sol.trail.assumptions, l.var < s.sys.sol.db.nVars) →
    s.sys.sol.conflict = [] → VENe s.sys.ve → ∀ s' b, SSys.solveLoop cfg rs s = some (s', b) →
    VENe s'.sys.ve
  | [], s, _, _, _, _, hv, s', b, he => by
    simp [SSys.solveLoop] at he; obtain ⟨rfl, rfl⟩ := he; exact hv
  | r :: rs, s, h, hr, hb, hcf, hv, s', b, he => by
    rw [SSys.solveLoop] at he
    split at he
    · simp at he
    · rename_i s1 h1
      obtain ⟨a1, a4, a5, a6, _⟩ := sSolveRound_sound h (hr r (by simp)) hb hcf h1
      exact sSolveLoop_ve rs s1 a1 (fun q hq => hr q (by simp [hq]))
        (by rw [a5, a4]; exact hb) (a6 (by simp)) (sSolveRound_ve h h1 hv) s' b he
    · rename_i s1 b1 h1
      simp only [Option.some.injEq, Prod.mk.injEq] at he
      obtain ⟨rfl, rfl⟩ := he
      exact sSolveRound_ve h h1 hv

theorem sSolve_ve {cfg : Config} {pre : List PreRound} {rounds : List Round} {s s' : SSys}
    {res : Result} (h : SysOk F s.sys) (hnw : s.sys.sol.watch = noWatch) (hr : ∀ r ∈ rounds, r.Valid)
    (hb : ∀ l ∈ s.sys.sol.trail.assumptions, l.var < s.sys.sol.db.nVars) (hv : VENe s.sys.ve)
    (he : s.solve cfg pre rounds = some (s', res)) : VENe s'.sys.ve := by
  obtain ⟨p1, p2, p3, p4, p5⟩ := sSolveStart_sound h hnw
  unfold SSys.solve at he
  split at he
  · simp at he
  · rename_i s1 h1
    obtain ⟨k1, k2, k3, k4⟩ := sSolveEntry_sound h hnw h1
    have v1 : VENe s1.sys.ve := by
      unfold SSys.solveEntry at h1
      dsimp only at h1
      split at h1
      · obtain ⟨x, hx, rfl⟩ := Option.map_eq_some_iff.1 h1
        have := p1.sProcess_ve p2.w hx hv.sSolveStart
        exact this
      · simp at h1; subst h1; exact hv.sSolveStart
    split at he
    · simp at he
    · rename_i s2 st h2
      have v2 : VENe s2.sys.ve := by
        split at h2
        · simp at h2; obtain ⟨rfl, rfl⟩ := h2; exact v1
        · exact sSolveLoop_ve rounds s1 k1 hr (by rw [k3, k2]; exact hb) k4 v1 s2 st h2
      obtain ⟨y, e3, v3, -⟩ := solveEnd_total st v2
      rw [e3] at he
      simp at he
      obtain ⟨rfl, -⟩ := he
      exact v3

theorem SSHistory.ve {u : Usage} {as : List Lit} {s : SSys} (hu : u.Valid) (h : SSHistory u F as s) :
    VENe s.sys.ve := by
  induction h with
  | new recalc => intro v hv; simp [SSys.new, Sys.new, VE.empty] at hv
  | add h nv G flag hf hG ih => exact VENe.restoreAll G _ ih
  | assume h as' hb ih => exact ih
  | solve h cfg pre rounds hc hr he ih =>
    have ok := h.ok hu
    exact sSolve_ve ok.ok ok.nw (fun r hm => hu r (hr r hm))
      (by rw [ok.assumptions]; exact ok.bound) ih he

end Candy
