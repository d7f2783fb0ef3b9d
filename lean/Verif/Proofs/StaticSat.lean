import Verif.Proofs.StaticSimplify
import Verif.Proofs.Complete
import Verif.Proofs.Clear

/-!
# Completeness of static propagation after preprocessing and SAT answers
-/

namespace Candy

variable {F B G : CNF}

/-! ### Steps of preprocessing -/

theorem SStage.materialize {q q' : SProc} (h : SQInv F q) (he : q.materialize = some q')
    (hne : q'.p.sys.sol.db.hasEmpty = false) : Stage G q.p q'.p ∧ PStage q.p q'.p := by
  have hp : q.p.sys.sol.db.hasEmpty = false := hasEmpty_mono (h.materialize he).2.hasEmpty hne
  obtain ⟨t, h1, hm, _⟩ := sMaterialize_spec (s := ⟨q.p.sys.sol, q.W⟩) h.q.inv.db (h.q.inv.l0 hp) h.w.nw h.w.w
  unfold SProc.materialize at he
  rw [h1] at he
  simp at he; subst he
  exact ⟨Stage.ofMat h.q hp hm, PStage.ofMat h.q hp hm⟩

theorem SStage.subsume {q q' : SProc} {r : PreRound} (h : SQInv F q) (he : q.subsume r = some q')
    (hne : q'.p.sys.sol.db.hasEmpty = false) : Stage G q.p q'.p ∧ PStage q.p q'.p := by
  unfold SProc.subsume at he
  obtain ⟨p, hp, rfl⟩ := Option.map_eq_some_iff.1 he
  exact ⟨Stage.subsume h.q hp hne, PStage.subsume h.q hp hne⟩

theorem SStage.reduce {q q' : SProc} {cfg : Config} {r : PreRound} (h : SQInv F q)
    (hne0 : q.p.sys.sol.db.hasEmpty = false) (he : q.reduce cfg r = some q')
    (hne : q'.p.sys.sol.db.hasEmpty = false) : Stage G q.p q'.p ∧ PStage q.p q'.p := by
  unfold SProc.reduce at he
  obtain ⟨x, hs, rfl⟩ := Option.map_eq_some_iff.1 he
  obtain ⟨st, b⟩ := x
  have hl := h.q.inv.l0 hne0
  have ha : SAOk F ⟨q.p.sdb, q.W, q.p.sys.sol.trail⟩ := ⟨h.q.ok, hl.core, h.w.w, hl.lim⟩
  obtain ⟨h1, h2, h3, h4⟩ := sAsymAll_spec ha hs
  exact ⟨Stage.trans (Stage.ofReduce h.q hne0 h2 h3) (Stage.after hne),
    PStage.trans (PStage.ofReduce h.q hne0 h2 h3) (PStage.after hne)⟩

theorem SStage.eliminate {q q' : SProc} {cfg : Config} {r : PreRound} (h : SQInv F q) (hr : r.Valid)
    (he : q.eliminate cfg r = some q') (hne : q'.p.sys.sol.db.hasEmpty = false) :
    Stage G q.p q'.p ∧ (Body G q.p → q.p.sys.ve.vars = [] → NoElim q'.p.sys) := by
  unfold SProc.eliminate at he
  obtain ⟨p, hp, rfl⟩ := Option.map_eq_some_iff.1 he
  exact Stage.eliminate h.q hr hp hne

theorem SStage.eliminateOff {q q' : SProc} {cfg : Config} {r : PreRound} (hu : cfg.useElim = false)
    (he : q.eliminate cfg r = some q') (hne : q'.p.sys.sol.db.hasEmpty = false) : PStage q.p q'.p := by
  unfold SProc.eliminate at he
  obtain ⟨p, hp, rfl⟩ := Option.map_eq_some_iff.1 he
  exact PStage.eliminate hu hp hne

theorem SProc.materialize_ve {q q' : SProc} (h : q.materialize = some q') : q'.p.sys.ve = q.p.sys.ve := by
  unfold SProc.materialize at h
  obtain ⟨s, _, rfl⟩ := Option.map_eq_some_iff.1 h
  rfl

theorem SProc.subsume_ve {q q' : SProc} {r : PreRound} (h : q.subsume r = some q') :
    q'.p.sys.ve = q.p.sys.ve := by
  unfold SProc.subsume at h
  obtain ⟨s, h1, rfl⟩ := Option.map_eq_some_iff.1 h
  exact Proc.subsume_ve h1

theorem SProc.reduce_ve {q q' : SProc} {cfg : Config} {r : PreRound} (h : q.reduce cfg r = some q') :
    q'.p.sys.ve = q.p.sys.ve := by
  unfold SProc.reduce at h
  obtain ⟨s, _, rfl⟩ := Option.map_eq_some_iff.1 h
  rw [Proc.after_ve]

theorem SStage.round {p p' : SProc} {cfg : Config} {r : PreRound} {b : Bool} (h : SQInv F p)
    (hr : r.Valid) (he : p.round cfg r = some (p', b)) (hne : p'.p.sys.sol.db.hasEmpty = false) :
    Stage G p.p p'.p ∧ (Body G p.p → p.p.sys.ve.vars = [] → NoElim p'.p.sys) := by
  unfold SProc.round at he
  split at he
  · simp at he
  · rename_i p1 hp1
    obtain ⟨a1, _⟩ := h.materialize hp1
    split at he
    · rename_i hE
      simp at he; obtain ⟨rfl, rfl⟩ := he
      rw [hE] at hne; simp at hne
    · split at he
      · simp at he
      · rename_i p3 hp3
        obtain ⟨p2, hp2, hp3⟩ := Option.bind_eq_some_iff.1 hp3
        obtain ⟨b1, _⟩ := a1.subsume hp2
        obtain ⟨c1, _⟩ := b1.materialize hp3
        split at he
        · rename_i hE
          simp at he; obtain ⟨rfl, rfl⟩ := he
          rw [hE] at hne; simp at hne
        · rename_i hne3
          have hne3 : p3.p.sys.sol.db.hasEmpty = false := by simpa using hne3
          split at he
          · simp at he
          · rename_i p5 hp5
            obtain ⟨p4, hp4, hp5⟩ := Option.bind_eq_some_iff.1 hp5
            obtain ⟨d1, _⟩ := c1.reduce hne3 hp4
            obtain ⟨e1, _⟩ := d1.materialize hp5
            split at he
            · rename_i hE
              simp at he; obtain ⟨rfl, rfl⟩ := he
              rw [hE] at hne; simp at hne
            · rename_i hne5
              have hne5 : p5.p.sys.sol.db.hasEmpty = false := by simpa using hne5
              obtain ⟨p6, hp6, hb⟩ := Option.map_eq_some_iff.1 he
              simp at hb; obtain ⟨rfl, rfl⟩ := hb
              obtain ⟨s6, t6⟩ := SStage.eliminate (G := G) e1 hr hp6 hne
              have s5 := (SStage.materialize (G := G) d1 hp5 hne5).1
              have s4 := (SStage.reduce (G := G) c1 hne3 hp4 s5.empty).1
              have s3 := (SStage.materialize (G := G) b1 hp3 hne3).1
              have s2 := (SStage.subsume (G := G) a1 hp2 s3.empty).1
              have s1 := (SStage.materialize (G := G) h hp1 s2.empty).1
              have s15 := (((s1.trans s2).trans s3).trans s4).trans s5
              refine ⟨s15.trans s6, fun hB h0 => ?_⟩
              have hve : p5.p.sys.ve = p.p.sys.ve := by
                rw [SProc.materialize_ve hp5, SProc.reduce_ve hp4, SProc.materialize_ve hp3,
                  SProc.subsume_ve hp2, SProc.materialize_ve hp1]
              have h05 : p5.p.sys.ve.vars = [] := by rw [hve]; exact h0
              refine t6 (s15.body ?_ hB) h05
              intro v hv
              rw [h05] at hv; simp at hv

theorem SStage.rounds {F G : CNF} {cfg : Config} : ∀ (rs : List PreRound) (p : SProc), SQInv F p →
    (∀ r ∈ rs, r.Valid) → ∀ p', SProc.rounds cfg rs p = some p' → p'.p.sys.sol.db.hasEmpty = false →
    Stage G p.p p'.p
  | [], p, h, _, p', he, hne => by
    simp [SProc.rounds] at he; subst he; exact Stage.refl hne
  | r :: rs, p, h, hr, p', he, hne => by
    rw [SProc.rounds] at he
    split at he
    · simp at he
    · rename_i p1 hp1
      simp at he; subst he
      exact (SStage.round h (hr r (by simp)) hp1 hne).1
    · rename_i p1 hp1
      have s2 := SStage.rounds (G := G) rs p1 (h.round hp1).1 (fun q hq => hr q (by simp [hq])) p' he hne
      exact (SStage.round h (hr r (by simp)) hp1 s2.empty).1.trans s2

theorem SPStage.round {p p' : SProc} {cfg : Config} {r : PreRound} {b : Bool} (hu : cfg.useElim = false)
    (h : SQInv F p) (he : p.round cfg r = some (p', b)) (hne : p'.p.sys.sol.db.hasEmpty = false) :
    PStage p.p p'.p := by
  unfold SProc.round at he
  split at he
  · simp at he
  · rename_i p1 hp1
    obtain ⟨a1, _⟩ := h.materialize hp1
    split at he
    · rename_i hE
      simp at he; obtain ⟨rfl, rfl⟩ := he
      rw [hE] at hne; simp at hne
    · split at he
      · simp at he
      · rename_i p3 hp3
        obtain ⟨p2, hp2, hp3⟩ := Option.bind_eq_some_iff.1 hp3
        obtain ⟨b1, _⟩ := a1.subsume hp2
        obtain ⟨c1, _⟩ := b1.materialize hp3
        split at he
        · rename_i hE
          simp at he; obtain ⟨rfl, rfl⟩ := he
          rw [hE] at hne; simp at hne
        · rename_i hne3
          have hne3 : p3.p.sys.sol.db.hasEmpty = false := by simpa using hne3
          split at he
          · simp at he
          · rename_i p5 hp5
            obtain ⟨p4, hp4, hp5⟩ := Option.bind_eq_some_iff.1 hp5
            obtain ⟨d1, _⟩ := c1.reduce hne3 hp4
            split at he
            · rename_i hE
              simp at he; obtain ⟨rfl, rfl⟩ := he
              rw [hE] at hne; simp at hne
            · rename_i hne5
              have hne5 : p5.p.sys.sol.db.hasEmpty = false := by simpa using hne5
              obtain ⟨p6, hp6, hb⟩ := Option.map_eq_some_iff.1 he
              simp at hb; obtain ⟨rfl, rfl⟩ := hb
              have s5 := (SStage.materialize (G := []) d1 hp5 hne5).2
              have s4 := (SStage.reduce (G := []) c1 hne3 hp4 s5.empty).2
              have s3 := (SStage.materialize (G := []) b1 hp3 hne3).2
              have s2 := (SStage.subsume (G := []) a1 hp2 s3.empty).2
              have s1 := (SStage.materialize (G := []) h hp1 s2.empty).2
              exact ((((s1.trans s2).trans s3).trans s4).trans s5).trans (SStage.eliminateOff hu hp6 hne)

theorem SPStage.rounds {cfg : Config} (hu : cfg.useElim = false) : ∀ (rs : List PreRound) (p : SProc),
    SQInv F p → ∀ p', SProc.rounds cfg rs p = some p' → p'.p.sys.sol.db.hasEmpty = false → PStage p.p p'.p
  | [], p, h, p', he, hne => by
    simp [SProc.rounds] at he; subst he; exact PStage.refl hne
  | r :: rs, p, h, p', he, hne => by
    rw [SProc.rounds] at he
    split at he
    · simp at he
    · rename_i p1 hp1
      simp at he; subst he
      exact SPStage.round hu h hp1 hne
    · rename_i p1 hp1
      have s2 := SPStage.rounds hu rs p1 (h.round hp1).1 p' he hne
      exact (SPStage.round hu h hp1 s2.empty).trans s2


/-! ### Preprocessing -/

theorem SQInv.start {s : SSys} (h : PInv F s.sys) (hw : SWOk s.sys.sol s.W) :
    SQInv F ⟨⟨s.sys, (SDB.init s.sys.sol.db).obj, (SDB.init s.sys.sol.db).occ⟩, s.W⟩ ∧
    (SDB.init s.sys.sol.db) = ⟨s.sys.sol.db, (SDB.init s.sys.sol.db).obj,
      (SDB.init s.sys.sol.db).occ⟩ := by
  have hok : SOk F (SDB.init s.sys.sol.db) := SOk.init h.db
  have e : (SDB.init s.sys.sol.db) = ⟨s.sys.sol.db, (SDB.init s.sys.sol.db).obj,
      (SDB.init s.sys.sol.db).occ⟩ := by
    conv => lhs; rw [show SDB.init s.sys.sol.db = ⟨(SDB.init s.sys.sol.db).db,
      (SDB.init s.sys.sol.db).obj, (SDB.init s.sys.sol.db).occ⟩ from rfl, init_db]
  refine ⟨⟨⟨h, ?_⟩, hw⟩, e⟩
  rw [e] at hok
  exact hok

theorem sProcess_recon {cfg : Config} {rs : List PreRound} {s s' : SSys} (h : PInv F s.sys)
    (hw : SWOk s.sys.sol s.W)
    (hp : Pristine s.sys) (hr : ∀ r ∈ rs, r.Valid) (he : s.process cfg rs = some s')
    (hne : s'.sys.sol.db.hasEmpty = false) :
    (NoElim s'.sys → Preprocessed s.sys.sol.db.cnf s'.sys) ∧ (rs.length ≤ 1 → NoElim s'.sys) := by
  unfold SSys.process at he
  obtain ⟨p, hpp, rfl⟩ := Option.map_eq_some_iff.1 he
  obtain ⟨hlv, hdb⟩ := LOk.init (V := Assigned s.sys.sol.trail) h.db.nodup hp.zero
  obtain ⟨hq, e⟩ := SQInv.start h hw
  rw [e] at hlv
  have hb : Body s.sys.sol.db.cnf ⟨s.sys, (SDB.init s.sys.sol.db).obj, (SDB.init s.sys.sol.db).occ⟩ := by
    refine ⟨hlv, ?_, fun v _ => hp.cls v, ?_, ?_, ?_⟩
    · intro c _ l _; simp only; rw [hp.vars]; simp
    · intro v _; simp only; rw [hp.vars, hp.dec]; simp
    · simp only; rw [hp.vars]; exact Recon.refl _ _
    · intro l _; simp only; rw [hp.vars]; simp
  constructor
  · intro hn
    have k := (SStage.rounds (G := s.sys.sol.db.cnf) rs _ hq hr p hpp hne).body hn hb
    exact ⟨k.live.zero, k.clean, k.cls, k.dec, k.recon, k.asm⟩
  · intro hlen
    match rs, hlen with
    | [], _ =>
      simp [SProc.rounds] at hpp; subst hpp
      intro v hv
      simp only at hv
      rw [hp.vars] at hv; simp at hv
    | [r], _ =>
      rw [SProc.rounds] at hpp
      have hr' := hr r (by simp)
      split at hpp
      · simp at hpp
      · rename_i p1 hp1
        simp at hpp; subst hpp
        exact (SStage.round hq hr' hp1 hne).2 hb hp.vars
      · rename_i p1 hp1
        simp [SProc.rounds] at hpp; subst hpp
        exact (SStage.round hq hr' hp1 hne).2 hb hp.vars

/-- Preprocessing without elimination keeps every permanent clause or a subset of it. -/
theorem sProcess_keeps {cfg : Config} (hu : cfg.useElim = false) {rs : List PreRound} {s s' : SSys}
    (h : PInv F s.sys) (hw : SWOk s.sys.sol s.W) (hst : Strict s.sys.sol.db)
    (he : s.process cfg rs = some s') (hne : s'.sys.sol.db.hasEmpty = false) :
    Weak s'.sys.sol.db ∧ Refines s.sys.sol.db.perm s'.sys.sol.db.perm ∧
      s'.sys.sol.trail.decision = s.sys.sol.trail.decision := by
  unfold SSys.process at he
  obtain ⟨p, hpp, rfl⟩ := Option.map_eq_some_iff.1 he
  obtain ⟨hlv, hdb⟩ := POk.init h.db.nodup hst
  obtain ⟨hq, e⟩ := SQInv.start h hw
  rw [e] at hlv
  have k := SPStage.rounds hu rs _ hq p hpp hne
  obtain ⟨k1, k2⟩ := k.body hlv
  exact ⟨k1.weak, k2, k.dec⟩

theorem SProc.rounds_noVE {cfg : Config} (hu : cfg.useElim = false) : ∀ (rs : List PreRound)
    (p p' : SProc), SProc.rounds cfg rs p = some p' → NoVE p.p.sys.ve → NoVE p'.p.sys.ve
  | [], p, p', he, h => by simp [SProc.rounds] at he; subst he; exact h
  | r :: rs, p, p', he, h => by
    have hround : ∀ q b, p.round cfg r = some (q, b) → NoVE q.p.sys.ve := by
      intro q b hq
      unfold SProc.round at hq
      split at hq
      · simp at hq
      · rename_i p1 hp1
        have e1 := SProc.materialize_ve hp1
        split at hq
        · simp at hq; obtain ⟨rfl, _⟩ := hq; rw [e1]; exact h
        · split at hq
          · simp at hq
          · rename_i p3 hp3
            obtain ⟨p2, hp2, hp3⟩ := Option.bind_eq_some_iff.1 hp3
            have e3 := (SProc.materialize_ve hp3).trans (SProc.subsume_ve hp2)
            split at hq
            · simp at hq; obtain ⟨rfl, _⟩ := hq; rw [e3, e1]; exact h
            · split at hq
              · simp at hq
              · rename_i p5 hp5
                obtain ⟨p4, hp4, hp5⟩ := Option.bind_eq_some_iff.1 hp5
                have e5 := (SProc.materialize_ve hp5).trans (SProc.reduce_ve hp4)
                split at hq
                · simp at hq; obtain ⟨rfl, _⟩ := hq; rw [e5, e3, e1]; exact h
                · obtain ⟨p6, hp6, hb⟩ := Option.map_eq_some_iff.1 hq
                  simp at hb; obtain ⟨rfl, _⟩ := hb
                  unfold SProc.eliminate at hp6
                  obtain ⟨p7, hp7, rfl⟩ := Option.map_eq_some_iff.1 hp6
                  exact Proc.eliminate_noVE hu hp7 (by rw [e5, e3, e1]; exact h)
    rw [SProc.rounds] at he
    split at he
    · simp at he
    · rename_i q hq
      simp at he; subst he
      exact hround _ _ hq
    · rename_i q hq
      exact SProc.rounds_noVE hu rs q p' he (hround _ _ hq)

theorem sProcess_noVE {cfg : Config} (hu : cfg.useElim = false) {rs : List PreRound} {s s' : SSys}
    (he : s.process cfg rs = some s') (h : NoVE s.sys.ve) : NoVE s'.sys.ve := by
  unfold SSys.process at he
  obtain ⟨p, hp, rfl⟩ := Option.map_eq_some_iff.1 he
  exact SProc.rounds_noVE hu rs _ p hp h

/-! ### Rounds of the main loop without inprocessing -/

/-- Every long clause of the database is watched. -/
def SCov (db : DB) (W : SW) : Prop :=
  ∀ c ∈ db.clauses, 2 < (db.store c).lits.length → ∃ i < W.cnt, (W.tab i).cref = c

theorem SCov.reset (db : DB) : SCov db (SW.reset db) := fun _ hc hl => attachFold_all hl _ _ hc

theorem sReduceStep_plain {cfg : Config} {r : Round} {s : SSys} (hin : r.inprocess = none) :
    ∃ db W, s.reduceStep cfg r = some ⟨{ s.sys with sol := { s.sys.sol with db := db } }, W⟩ ∧
      (r.trigger = true → db = (reduceDB cfg r.sort s.sys.sol.db).reorganize ∧ W = SW.reset db) ∧
      (r.trigger = false → db = s.sys.sol.db ∧ W = s.W) := by
  unfold SSys.reduceStep
  rw [hin]
  cases r.trigger with
  | true => exact ⟨_, _, rfl, fun _ => ⟨rfl, rfl⟩, by simp⟩
  | false => exact ⟨_, _, rfl, by simp, fun _ => ⟨rfl, rfl⟩⟩

/-- The state in which the search of a round begins. -/
theorem sRound_enter {cfg : Config} {r : Round} {s s1 : SSys} {t : St} (h : SRoundInv F s)
    (hc : SCov s.sys.sol.db s.W) (hin : r.inprocess = none) (hs : ∀ xs, ∀ x ∈ r.sort xs, x ∈ xs)
    (hb : ∀ l ∈ s.sys.sol.trail.assumptions, l.var < s.sys.sol.db.nVars)
    (h1 : s.resetTrail.reduceStep cfg r = some s1)
    (h2 : sMaterialize ⟨s1.sys.sol, s1.W⟩ = some t) (hE : t.sol.db.hasEmpty = false) :
    Mat F s1.sys.sol t.sol ∧ StInv True F (GoodC t.sol) t := by
  obtain ⟨a1, a2, a3⟩ := h.reset.1.sReduceStep h.reset.2 hs h1
  obtain ⟨db, W, e1, e2, e3⟩ := sReduceStep_plain (cfg := cfg) (s := s.resetTrail) hin
  rw [h1] at e1
  simp only [Option.some.injEq] at e1
  subst e1
  have hcov : SCov db W := by
    cases ht : r.trigger with
    | true => obtain ⟨rfl, rfl⟩ := e2 ht; exact SCov.reset _
    | false => obtain ⟨rfl, rfl⟩ := e3 ht; exact hc
  simp only at a1 a2 a3 h2 ⊢
  have hE0 : db.hasEmpty = false := by
    cases hd : db.hasEmpty with
    | false => rfl
    | true =>
      obtain ⟨t', m1, _, _, m4, _⟩ := sMaterialize_empty (s := ⟨{ s.resetTrail.sys.sol with db := db }, W⟩)
        a1.db hd
      rw [h2] at m1
      simp at m1; subst m1
      rw [hE] at m4; cases m4
  obtain ⟨t', m1, hm, hnw, hM⟩ := sMaterialize_spec (s := ⟨{ s.resetTrail.sys.sol with db := db }, W⟩)
    a1.db (a1.l0 hE0) a3.nw a3.w
  rw [h2] at m1
  simp at m1; subst m1
  refine ⟨hm, start_static (s := ⟨{ s.resetTrail.sys.sol with db := db }, W⟩) a1.db hcov rfl hm hnw hM hE ?_⟩
  intro l hl
  rw [hm.grow.assumptions] at hl
  rw [hm.add.nVars]
  have h5 : db.nVars = s.sys.sol.db.nVars := a2.nVars
  simp only
  rw [h5]
  exact hb l hl

/-- What the later rounds of the loop and the end of `solve` rely on. -/
structure SRoundSat (B : CNF) (s : SSys) (b : Option Bool) : Prop where
  cov : SCov s.sys.sol.db s.W
  sat : b = some true → ∀ c ∈ B, (∀ l ∈ c, s.sys.sol.trail.decision l.var = true) →
    ∃ l ∈ c, l ∈ s.sys.sol.trail.stack
  complete : b = some true → Complete s.sys.sol
  tinv : b = some true → s.sys.sol.trail.Inv

theorem sSolveRound_model {cfg : Config} {r : Round} {s s' : SSys} {b : Option Bool}
    (h : SRoundInv F s) (hr : r.Plain)
    (hb : ∀ l ∈ s.sys.sol.trail.assumptions, l.var < s.sys.sol.db.nVars)
    (hc : CarriesDB B s.sys.sol.db) (hcov : SCov s.sys.sol.db s.W)
    (he : s.solveRound cfg r = some (s', b)) :
    s'.sys.ve = s.sys.ve ∧ s'.sys.sol.trail.decision = s.sys.sol.trail.decision ∧
    CarriesDB B s'.sys.sol.db ∧
    (b ≠ some false → SRoundSat B s' b ∧
      ((∀ l ∈ s.sys.sol.trail.assumptions, s.sys.sol.trail.decision l.var = true) →
       (r.trigger = true → DecDB s.sys.sol.trail s.sys.sol.db) →
       (r.trigger = false → DecAll s.sys.sol.trail s.sys.sol.db) → DInv s'.sys.sol)) := by
  obtain ⟨db, W, e1, e2, e3⟩ := sReduceStep_plain (cfg := cfg) (s := s.resetTrail) hr.inprocess
  obtain ⟨a1, a2, a3⟩ := h.reset.1.sReduceStep h.reset.2 hr.sort e1
  have hcar : CarriesDB B db := by
    cases ht : r.trigger with
    | true =>
      obtain ⟨rfl, rfl⟩ := e2 ht
      exact (hc.reduceDB hr.sort).reorganize
    | false =>
      obtain ⟨rfl, rfl⟩ := e3 ht
      exact hc
  unfold SSys.solveRound at he
  rw [e1] at he
  dsimp only at he
  cases hE0 : db.hasEmpty with
  | true =>
    obtain ⟨t, h1, h2, h3, h4, h5, h6, h7, h8, h9⟩ := sMaterialize_empty
      (s := ⟨{ s.resetTrail.sys.sol with db := db }, W⟩) a1.db hE0
    rw [h1] at he
    simp only [h4] at he
    simp only [if_true, Option.some.injEq, Prod.mk.injEq] at he
    obtain ⟨rfl, rfl⟩ := he
    refine ⟨rfl, ?_, ?_, by simp⟩
    · exact h8
    · intro b hb
      obtain ⟨c, k1, k2, k3⟩ := hcar b hb
      refine ⟨c, by rw [h3.clauses]; exact k1, by rw [h3.store]; exact k2, ?_⟩
      unfold DB.lits
      rw [h3.store]; exact k3
  | false =>
    have hl0 := a1.l0 hE0
    obtain ⟨t, h1, hm, hnw, hM⟩ := sMaterialize_spec (s := ⟨{ s.resetTrail.sys.sol with db := db }, W⟩)
      a1.db hl0 a3.nw a3.w
    rw [h1] at he
    dsimp only at he
    have hcs : CarriesDB B t.sol.db := by
      intro b hb
      obtain ⟨c, k1, k2, k3⟩ := hcar b hb
      have hlt := a1.db.mem c k1
      refine ⟨c, hm.add.mem k1, by rw [hm.add.weight c hlt]; exact k2, ?_⟩
      exact (hm.add.lits c hlt).trans k3
    split at he
    · rename_i hE
      simp only [Option.some.injEq, Prod.mk.injEq] at he
      obtain ⟨rfl, rfl⟩ := he
      exact ⟨rfl, hm.grow.decision, hcs, by simp⟩
    · rename_i hE
      have hE : t.sol.db.hasEmpty = false := by simpa using hE
      obtain ⟨x, hx, hxe⟩ := Option.map_eq_some_iff.1 he
      obtain ⟨t', b'⟩ := x
      simp only [Prod.mk.injEq] at hxe
      obtain ⟨rfl, rfl⟩ := hxe
      obtain ⟨_, hS⟩ := sRound_enter h hcov hr.inprocess hr.sort hb e1 h1 hE
      obtain ⟨f0, f1, f2, fw, fi, ⟨A', g1, g4, g5, f3⟩, f4, f5⟩ := sSearch_spec r.steps r.choice _ t hS
        hr.choice t' b' hx
      have key : ∀ b ∈ B, ∃ c ∈ t'.sol.db.clauses, A' c ∧ (t'.sol.db.store c).weight = 0 ∧
          (t'.sol.db.lits c).Perm b := by
        intro b hb
        obtain ⟨c, k1, k2, k3⟩ := hcs b hb
        have hlt := hm.db.mem c k1
        obtain ⟨ext, q1, _⟩ := f1.clauses
        exact ⟨c, by rw [q1]; exact List.mem_append_left _ k1, g1 c ⟨k1, Or.inl k2⟩,
          f1.weight c hlt k2, (f1.perm c hlt).trans k3⟩
      refine ⟨rfl, f1.decision.trans hm.grow.decision, ?_, fun hb' => ⟨⟨?_, ?_, f5, ?_⟩, ?_⟩⟩
      · intro b hb
        obtain ⟨c, k1, _, k2, k3⟩ := key b hb
        exact ⟨c, k1, k2, k3⟩
      · intro c hc' hl
        refine g5 c ?_ hl
        rcases g4 c hc' with h' | h'
        · refine g1 c ⟨h', Or.inr ?_⟩
          have := (f1.perm c (hm.db.mem c h')).length_eq
          unfold DB.lits at this ⊢
          simp only at hl
          omega
        · exact h'
      · intro ht b hb hdec
        obtain ⟨c, k1, k2, k3, k4⟩ := key b hb
        have hI := (f3 hb').2
        obtain ⟨l, l1, l2⟩ := hI.satisfied trivial (f5 ht) k2 (fun l hl => hdec l (k4.mem_iff.1 hl))
        exact ⟨l, k4.mem_iff.1 l1, l2⟩
      · intro ht
        exact (f3 hb').2.sol.core.tinv
      · intro hasm hD1 hD2
        have hbase : ∀ c < db.next, ∀ l ∈ (db.store c).lits,
            s.sys.sol.trail.decision l.var = true := by
          cases ht : r.trigger with
          | false => obtain ⟨rfl, rfl⟩ := e3 ht; exact hD2 ht
          | true =>
            obtain ⟨rfl, rfl⟩ := e2 ht
            intro c hlt l hl
            obtain ⟨d, _, d1, d2, d3⟩ := reorganize_get hlt
            rw [d3] at hl
            rw [reduceDB_clauses] at d1
            have hrd : ∀ (cs : List Nat) (db : DB) (d : Nat),
                ((cs.foldl DB.removeClause db).store d).isDeleted = false →
                (cs.foldl DB.removeClause db).store d = db.store d := by
              intro cs
              induction cs with
              | nil => intro db d _; rfl
              | cons e cs ih =>
                intro db d hdel
                rw [List.foldl_cons] at hdel ⊢
                have h1 := ih _ _ hdel
                rw [h1] at hdel ⊢
                rw [(removeClause_all db e).1] at hdel ⊢
                by_cases hde : d = e
                · subst hde; simp [Cls.isDeleted, Cls.deletedWeight] at hdel
                · exact upd_ne _ _ hde
            have hst := hrd _ _ _ d2
            unfold Candy.reduceDB at hl
            rw [hst] at hl
            unfold Candy.reduceDB at d2
            rw [hst] at d2
            exact hD1 ht d d1 d2 l hl
        refine f0 ⟨?_, ?_, ?_⟩
        · intro c hlt l hl
          rw [hm.grow.decision]
          by_cases hcn : c < db.next
          · exact hbase c hcn l ((hm.add.lits c hcn).mem_iff.1 hl)
          · obtain ⟨m, m1, m2⟩ := hm.add.news c (by simp only; omega) hlt
            have hl' : l ∈ t.sol.db.lits c := hl
            rw [m2] at hl'
            simp at hl'; subst hl'
            exact hm.src (fun v => s.sys.sol.trail.decision v = true) hbase
              (by simp [SSys.resetTrail, Trail.reset]) l m1
        · intro l hl
          rw [hm.grow.decision]
          exact hm.src (fun v => s.sys.sol.trail.decision v = true) (hbase)
            (by simp [SSys.resetTrail, Trail.reset]) l hl
        · intro l hl
          rw [hm.grow.assumptions] at hl
          rw [hm.grow.decision]
          exact hasm l hl

theorem sSolveLoop_model {cfg : Config} : ∀ (rs : List Round) (s : SSys), SRoundInv F s →
    (∀ r ∈ rs, r.Plain) →
    (∀ l ∈ s.sys.sol.trail.assumptions, l.var < s.sys.sol.db.nVars) → s.sys.sol.conflict = [] →
    CarriesDB B s.sys.sol.db → SCov s.sys.sol.db s.W →
    ∀ s' b, SSys.solveLoop cfg rs s = some (s', b) →
    s'.sys.ve = s.sys.ve ∧ s'.sys.sol.trail.decision = s.sys.sol.trail.decision ∧
    CarriesDB B s'.sys.sol.db ∧
    (b = some true → SRoundSat B s' b ∧
      ((∀ l ∈ s.sys.sol.trail.assumptions, s.sys.sol.trail.decision l.var = true) →
       (∀ r, rs.head? = some r → (r.trigger = true → DecDB s.sys.sol.trail s.sys.sol.db) ∧
         (r.trigger = false → DecAll s.sys.sol.trail s.sys.sol.db)) → DInv s'.sys.sol))
  | [], s, h, _, _, hcf, hc, _, s', b, he => by
    simp only [SSys.solveLoop, Option.some.injEq, Prod.mk.injEq] at he
    obtain ⟨rfl, rfl⟩ := he
    exact ⟨rfl, rfl, hc, by simp⟩
  | r :: rs, s, h, hr, hb, hcf, hc, hcov, s', b, he => by
    have hp := hr r (by simp)
    rw [SSys.solveLoop] at he
    split at he
    · simp at he
    · rename_i s1 h1
      obtain ⟨a1, a4, a5, a6, _⟩ := sSolveRound_sound h ⟨hp.choice, hp.sort⟩ hb hcf h1
      obtain ⟨m1, m2, m3, m4⟩ := sSolveRound_model h hp hb hc hcov h1
      obtain ⟨m4, m5⟩ := m4 (by simp)
      obtain ⟨c1, c2, c3, c4⟩ := sSolveLoop_model rs s1 a1
        (fun q hq => hr q (by simp [hq])) (by rw [a5, a4]; exact hb) (a6 (by simp)) m3 m4.cov s' b he
      refine ⟨c1.trans m1, c2.trans m2, c3, fun hb' => ?_⟩
      obtain ⟨d1, d2⟩ := c4 hb'
      refine ⟨d1, fun hasm hd => ?_⟩
      have hD := m5 hasm (hd r rfl).1 (hd r rfl).2
      refine d2 hD.asm (fun r' _ => ⟨fun _ => ?_, fun _ => hD.cls⟩)
      intro c hc' _ l hl
      exact hD.cls c (a1.r.db.mem c hc') l hl
    · rename_i s1 b1 h1
      simp only [Option.some.injEq, Prod.mk.injEq] at he
      obtain ⟨rfl, rfl⟩ := he
      obtain ⟨m1, m2, m3, m4⟩ := sSolveRound_model h hp hb hc hcov h1
      refine ⟨m1, m2, m3, fun hb' => ?_⟩
      obtain ⟨m4, m5⟩ := m4 (by rw [hb']; simp)
      exact ⟨m4, fun hasm hd => m5 hasm (hd r rfl).1 (hd r rfl).2⟩

/-! ### Short clauses stay permanent -/

theorem sLearnStep_strict {s s' : St} {confl : Nat} (h : Strict s.sol.db)
    (he : sLearnStep s confl = some s') : Strict s'.sol.db := by
  unfold sLearnStep at he
  split at he
  · cases he
  · rename_i r hr
    dsimp only at he
    have hdb : Strict (s.sol.db.reestimate s.sol.recalc s.sol.trail r.involved) := by
      intro c hc hl
      rw [(reestimate_frame _ _ _ _).1] at hc
      unfold DB.lits at hl
      rw [reestimate_lits] at hl
      exact (reestimate_weight0 _ _ _ _ c).1 (h c hc hl)
    have h2 := hdb.create (ls := r.learnt) (lbd := r.lbd) (lem := false)
    split at he
    · simp only [Option.some.injEq] at he; subst he
      exact h2
    · cases he

theorem decideStep_db (s : Solver) (ch : Choice) : (decideStep s ch).sol.db = s.db := by
  unfold decideStep
  split
  · rfl
  · split
    · rfl
    · rfl
    · split <;> rfl

def StOut.st : StOut → St
  | .cont s => s
  | .done s _ => s

theorem sSearchIter_strict {s : St} {ch : Choice} {out : StOut} (h : Strict s.sol.db)
    (he : sSearchIter s ch = some out) : Strict out.st.sol.db := by
  unfold sSearchIter at he
  split at he
  · cases he
  · dsimp only at he
    split at he
    · split at he
      · simp only [Option.some.injEq] at he; subst he; exact h
      · obtain ⟨s1, h1, rfl⟩ := Option.map_eq_some_iff.1 he
        refine sLearnStep_strict ?_ h1
        exact h
    · simp only [Option.some.injEq] at he
      subst he
      have key : ∀ W o, (StOut.of W o).st.sol = o.sol := by
        intro W o; cases o <;> rfl
      rw [key, decideStep_db]
      exact h

theorem sSearch_strict : ∀ (fuel : Nat) (o : Nat → Choice) (s : St), Strict s.sol.db →
    ∀ s' r, sSearch fuel o s = some (s', r) → Strict s'.sol.db
  | 0, o, s, _, s', r, he => by simp [sSearch] at he
  | fuel + 1, o, s, h, s', r, he => by
    rw [sSearch] at he
    cases h1 : sSearchIter s (o 0) with
    | none => rw [h1] at he; cases he
    | some out =>
      have h3 := sSearchIter_strict h h1
      rw [h1] at he
      cases out with
      | done s1 r1 =>
        simp only [Option.some.injEq, Prod.mk.injEq] at he
        obtain ⟨rfl, rfl⟩ := he
        exact h3
      | cont s1 => exact sSearch_strict fuel (fun i => o (i + 1)) s1 h3 s' r he

theorem sSolveRound_strict {cfg : Config} {r : Round} {s s' : SSys} {b : Option Bool}
    (h : SRoundInv F s) (hr : r.Plain)
    (hw : Weak s.sys.sol.db) (hst : r.trigger = false → Strict s.sys.sol.db)
    (he : s.solveRound cfg r = some (s', b)) : Strict s'.sys.sol.db := by
  obtain ⟨db, W, e1, e2, e3⟩ := sReduceStep_plain (cfg := cfg) (s := s.resetTrail) hr.inprocess
  obtain ⟨a1, a2, a3⟩ := h.reset.1.sReduceStep h.reset.2 hr.sort e1
  have hstr : Strict db := by
    cases ht : r.trigger with
    | true =>
      obtain ⟨rfl, rfl⟩ := e2 ht
      exact (removeFold_weak _ _ hw).reorganize
    | false =>
      obtain ⟨rfl, rfl⟩ := e3 ht
      exact hst ht
  unfold SSys.solveRound at he
  rw [e1] at he
  dsimp only at he
  cases hE0 : db.hasEmpty with
  | true =>
    obtain ⟨t, h1, h2, h3, h4, h5, h6, h7, h8, h9⟩ := sMaterialize_empty
      (s := ⟨{ s.resetTrail.sys.sol with db := db }, W⟩) a1.db hE0
    rw [h1] at he
    simp only [h4] at he
    simp only [if_true, Option.some.injEq, Prod.mk.injEq] at he
    obtain ⟨rfl, rfl⟩ := he
    intro c hc hl
    simp only at hc hl ⊢
    rw [h3.clauses] at hc
    unfold DB.lits at hl
    rw [h3.store] at hl ⊢
    exact hstr c hc hl
  | false =>
    obtain ⟨t, h1, hm, hnw, hM⟩ := sMaterialize_spec (s := ⟨{ s.resetTrail.sys.sol with db := db }, W⟩)
      a1.db (a1.l0 hE0) a3.nw a3.w
    rw [h1] at he
    dsimp only at he
    have hss : Strict t.sol.db := (mat_weak a1.db hm.add).2.2 hstr
    split at he
    · simp only [Option.some.injEq, Prod.mk.injEq] at he
      obtain ⟨rfl, rfl⟩ := he
      exact hss
    · obtain ⟨x, hx, hxe⟩ := Option.map_eq_some_iff.1 he
      obtain ⟨t', b'⟩ := x
      simp only [Prod.mk.injEq] at hxe
      obtain ⟨rfl, rfl⟩ := hxe
      exact sSearch_strict r.steps r.choice t hss t' b' hx

theorem sSolveLoop_strict {cfg : Config} : ∀ (rs : List Round) (s : SSys), SRoundInv F s →
    (∀ r ∈ rs, r.Plain) →
    (∀ l ∈ s.sys.sol.trail.assumptions, l.var < s.sys.sol.db.nVars) → s.sys.sol.conflict = [] →
    Weak s.sys.sol.db → (Strict s.sys.sol.db ∨ ∃ r, rs.head? = some r ∧ r.trigger = true) →
    ∀ s' b, SSys.solveLoop cfg rs s = some (s', b) → Strict s'.sys.sol.db
  | [], s, h, _, _, hcf, _, hst, s', b, he => by
    simp only [SSys.solveLoop, Option.some.injEq, Prod.mk.injEq] at he
    obtain ⟨rfl, rfl⟩ := he
    rcases hst with hst | ⟨r, hr, _⟩
    · exact hst
    · simp at hr
  | r :: rs, s, h, hr, hb, hcf, hw, hst, s', b, he => by
    have hp := hr r (by simp)
    have hstr : r.trigger = false → Strict s.sys.sol.db := by
      intro ht
      rcases hst with hst | ⟨r', h1, h2⟩
      · exact hst
      · simp at h1; subst h1; rw [ht] at h2; cases h2
    rw [SSys.solveLoop] at he
    split at he
    · simp at he
    · rename_i s1 h1
      obtain ⟨a1, a4, a5, a6, _⟩ := sSolveRound_sound h ⟨hp.choice, hp.sort⟩ hb hcf h1
      have hs1 := sSolveRound_strict h hp hw hstr h1
      exact sSolveLoop_strict rs s1 a1 (fun q hq => hr q (by simp [hq]))
        (by rw [a5, a4]; exact hb) (a6 (by simp)) hs1.weak (Or.inl hs1) s' b he
    · rename_i s1 b1 h1
      simp only [Option.some.injEq, Prod.mk.injEq] at he
      obtain ⟨rfl, rfl⟩ := he
      exact sSolveRound_strict h hp hw hstr h1

/-! ### The start of `solve` -/

theorem SCov.correction {t : St} {c : Clause} (h : SCov t.sol.db t.W) (hm : ∀ d ∈ t.sol.db.clauses, d < t.sol.db.next) :
    SCov (SSys.addCorrection t c).sol.db (SSys.addCorrection t c).W := by
  have hmono : ∀ i < t.W.cnt, i < (SSys.addCorrection t c).W.cnt ∧
      ((SSys.addCorrection t c).W.tab i) = t.W.tab i := by
    intro i hi
    simp only [SSys.addCorrection]
    split
    · exact ⟨by simp only [SW.add]; omega, by simp only [SW.add]; rw [upd_ne _ _ (by omega)]⟩
    · exact ⟨hi, rfl⟩
  intro d hd hl
  simp only [SSys.addCorrection] at hd hl
  rw [createClause_clauses, List.mem_append, List.mem_singleton] at hd
  rw [createClause_store] at hl
  rcases hd with hd | rfl
  · rw [upd_ne _ _ (by have := hm d hd; omega)] at hl
    obtain ⟨i, h1, h2⟩ := h d hd hl
    obtain ⟨k1, k2⟩ := hmono i h1
    exact ⟨i, k1, by rw [k2]; exact h2⟩
  · rw [upd_same] at hl
    match c, hl with
    | x :: y :: z :: r, _ =>
      refine ⟨t.W.cnt, ?_, ?_⟩
      · simp [SSys.addCorrection, SW.add]
      · simp only [SSys.addCorrection, SW.add, upd_same]
        rfl

theorem sCorrections_cov : ∀ (cs : List Clause) (t : St), SCov t.sol.db t.W →
    (∀ d ∈ t.sol.db.clauses, d < t.sol.db.next) →
    SCov (cs.foldl SSys.addCorrection t).sol.db (cs.foldl SSys.addCorrection t).W
  | [], _, h, _ => h
  | c :: cs, t, h, hm => by
    rw [List.foldl_cons]
    refine sCorrections_cov cs _ (h.correction hm) ?_
    intro d hd
    simp only [SSys.addCorrection] at hd ⊢
    rw [createClause_clauses, List.mem_append, List.mem_singleton] at hd
    rw [createClause_next]
    rcases hd with hd | rfl
    · have := hm d hd; omega
    · omega

theorem sSolveStart_cov {s : SSys} (h : DBOk F s.sys.sol.db) :
    SCov s.solveStart.sys.sol.db s.solveStart.W := by
  unfold SSys.solveStart
  exact sCorrections_cov _ ⟨{ s.sys.sol with conflict := [], trail := _ }, _⟩ (SCov.reset _) h.mem

theorem sSolveEntry_cov {cfg : Config} {pre : List PreRound} {s s' : SSys} (h : DBOk F s.sys.sol.db)
    (he : s.solveEntry cfg pre = some s') : SCov s'.sys.sol.db s'.W := by
  unfold SSys.solveEntry at he
  dsimp only at he
  split at he
  · obtain ⟨s2, h2, rfl⟩ := Option.map_eq_some_iff.1 he
    exact SCov.reset _
  · simp at he; subst he
    exact sSolveStart_cov h

theorem sSolveEntry_hasEmpty {cfg : Config} {pre : List PreRound} {s s' : SSys} (h : SysOk F s.sys)
    (hnw : s.sys.sol.watch = noWatch) (he : s.solveEntry cfg pre = some s')
    (hE : s.sys.sol.db.hasEmpty = true) : s'.sys.sol.db.hasEmpty = true := by
  obtain ⟨p1, p2, p3, p4, p5⟩ := sSolveStart_sound h hnw
  have hs : s.solveStart.sys.sol.db.hasEmpty = true := by
    rw [sSolveStart_sys]; exact solveStart_hasEmpty hE
  unfold SSys.solveEntry at he
  dsimp only at he
  split at he
  · obtain ⟨s2, h2, rfl⟩ := Option.map_eq_some_iff.1 he
    exact (p1.sProcess p2.w h2).2.1.hasEmpty hs
  · simp at he; subst he
    exact hs

/-! ### States of the search -/

section
variable {u : Usage} {as : List Lit}

theorem SSInSolve.cov {s : SSys} (hu : u.Valid) (hn : u.NoInpr) (h : SSInSolve u F as s) :
    SCov s.sys.sol.db s.W := by
  induction h with
  | enter h cfg pre hc he => exact sSolveEntry_cov (h.ok hu).ok.db he
  | round h cfg r hr he ih =>
    have ho := h.ok hu
    obtain ⟨_, _, _, m⟩ := sSolveRound_model (B := []) ho.inv ⟨(hu r hr).choice, hn r hr, (hu r hr).sort⟩
      (by rw [ho.assumptions]; exact ho.bound) (by intro b hb; simp at hb) ih he
    exact (m (by simp)).1.cov

/-- Every state of the search satisfies the invariant, for all clauses that have not been removed. -/
theorem SSSearching.inv {t : St} (hu : u.Valid) (hn : u.NoInpr) (h : SSSearching u F as t) :
    StInv True F (GoodC t.sol) t ∧ t.sol.db.hasEmpty = false := by
  induction h with
  | start h cfg r hr h1 h2 h3 =>
    have ho := h.ok hu
    exact ⟨(sRound_enter ho.inv (h.cov hu hn) (hn r hr) (hu r hr).sort
      (by rw [ho.assumptions]; exact ho.bound) h1 h2 h3).2, h3⟩
  | iter h ch hch he ih =>
    obtain ⟨ih, ihE⟩ := ih
    obtain ⟨out, e1, e2⟩ := sSearchIter_spec ih hch
    rw [he] at e1
    simp at e1; subst e1
    obtain ⟨f, _, _, _, _, A', g1, hS, g3⟩ := e2
    have hg := good_step ih.sol.db (nonempty_of ih.sol.db ihE) f g1 g3
    refine ⟨⟨hS.sol.weaken (fun c hc => ⟨hg c hc.1, hc.2⟩), hS.nw, fun c hc => hS.alt c (hg c hc),
      hS.w, hS.sci, fun c hc => hS.cov c (hg c hc)⟩, f.hasEmpty.trans ihE⟩

end

/-! ### Calls without elimination -/

theorem sTidy_solve {cfg : Config} {pre : List PreRound} {rounds : List Round} {s s' : SSys}
    {res : Result} (h : TidyOk F s.sys) (hnw : s.sys.sol.watch = noWatch)
    (hp : cfg.preprocessing = true → cfg.useElim = false)
    (hr : ∀ r ∈ rounds, r.Plain)
    (hb : ∀ l ∈ s.sys.sol.trail.assumptions, l.var < s.sys.sol.db.nVars)
    (he : s.solve cfg pre rounds = some (s', res)) :
    ((cfg.preprocessing = true → ∃ r, rounds.head? = some r ∧ r.trigger = true) → TidyOk F s'.sys) ∧
    (res.status = some true →
      PSat res.model F ∧
      (∀ l ∈ s.sys.sol.trail.assumptions, l.trueIn res.model) ∧
      (∀ v < s.sys.sol.db.nVars, res.model v ≠ none)) := by
  obtain ⟨s1, _, s2, s3, _⟩ := sSolve_sound h.ok hnw (fun r hrm => ⟨(hr r hrm).choice, (hr r hrm).sort⟩) hb he
  obtain ⟨p1, p2, p3, p4, p5⟩ := sSolveStart_sound h.ok hnw
  have q1 := noVE_start h.ve
  have v0 := solveStart_noVE h.ve
  unfold SSys.solve at he
  split at he
  · simp at he
  rename_i t1 h1
  split at he
  · simp at he
  rename_i t2 status h2
  obtain ⟨x, hx, hxe⟩ := Option.map_eq_some_iff.1 he
  obtain ⟨sys', res'⟩ := x
  simp only [Prod.mk.injEq] at hxe
  obtain ⟨rfl, rfl⟩ := hxe
  obtain ⟨g1, g2, g3, g4⟩ := sSolveEntry_sound h.ok hnw h1
  have hcv := sSolveEntry_cov h.ok.db h1
  have hE1 : s.sys.sol.db.hasEmpty = true → t1.sys.sol.db.hasEmpty = true := sSolveEntry_hasEmpty h.ok hnw h1
  -- after preprocessing
  have pre' : NoVE t1.sys.ve ∧ (t1.sys.sol.db.hasEmpty = false →
      Refines F t1.sys.sol.db.perm ∧ Weak t1.sys.sol.db ∧
      (cfg.preprocessing = false → Strict t1.sys.sol.db) ∧
      (∀ v, t1.sys.sol.trail.decision v = true)) := by
    unfold SSys.solveEntry at h1
    dsimp only at h1
    have v0' : NoVE s.solveStart.sys.ve := by rw [sSolveStart_sys]; exact v0
    have hdb : s.solveStart.sys.sol.db = s.sys.sol.db := by rw [sSolveStart_sys, q1]
    have hdec : s.solveStart.sys.sol.trail.decision = s.sys.sol.trail.decision := by
      rw [sSolveStart_sys, q1]; rfl
    split at h1
    · rename_i hpp
      obtain ⟨t0, h0, rfl⟩ := Option.map_eq_some_iff.1 h1
      have v1 : NoVE t0.sys.ve := sProcess_noVE (hp hpp) h0 v0'
      refine ⟨v1, fun hne => ?_⟩
      have hne0 : s.sys.sol.db.hasEmpty = false := hasEmpty_mono hE1 hne
      obtain ⟨b1, b2, b3⟩ := h.body hne0
      obtain ⟨k1, k2, k3⟩ := sProcess_keeps (hp hpp) p1 p2.w (by rw [hdb]; exact b2) h0 hne
      rw [hdb] at k2
      exact ⟨b1.trans k2, k1, (fun e => absurd (hpp.symm.trans e) (by simp)), fun v => by
        simp only; rw [k3, hdec]; exact b3 v⟩
    · simp only [Option.some.injEq] at h1
      subst h1
      refine ⟨v0', fun hne => ?_⟩
      have hne0 : s.sys.sol.db.hasEmpty = false := hasEmpty_mono hE1 hne
      obtain ⟨b1, b2, b3⟩ := h.body hne0
      rw [hdb]
      exact ⟨b1, b2.weak, fun _ => b2, fun v => by rw [hdec]; exact b3 v⟩
  obtain ⟨v1, k⟩ := pre'
  -- after the main loop
  have loop : NoVE t2.sys.ve ∧ (t2.sys.sol.db.hasEmpty = false → Refines F t2.sys.sol.db.perm ∧
        (∀ v, t2.sys.sol.trail.decision v = true) ∧
        ((cfg.preprocessing = true → ∃ r, rounds.head? = some r ∧ r.trigger = true) →
          Strict t2.sys.sol.db)) ∧
      (status = some true → (∀ v, t2.sys.sol.trail.decision v = true) ∧
        ∃ B, Refines F B ∧ SRoundSat B t2 status) := by
    split at h2
    · rename_i hE
      simp only [Option.some.injEq, Prod.mk.injEq] at h2
      obtain ⟨rfl, rfl⟩ := h2
      refine ⟨v1, fun hne => ?_, by simp⟩
      rw [hE] at hne; cases hne
    · rename_i hE
      have hE : t1.sys.sol.db.hasEmpty = false := by simpa using hE
      obtain ⟨k1, k2, k4, k5⟩ := k hE
      have hbd : ∀ l ∈ t1.sys.sol.trail.assumptions, l.var < t1.sys.sol.db.nVars := by
        rw [g3, g2]; exact hb
      obtain ⟨c1, c2, c3, c4⟩ := sSolveLoop_model rounds _ g1 hr hbd g4 (carries_perm _) hcv t2 status h2
      have d2 : ∀ v, t2.sys.sol.trail.decision v = true := by intro v; rw [c2]; exact k5 v
      refine ⟨by rw [c1]; exact v1, fun _ => ⟨k1.trans c3.refines, d2, fun hf => ?_⟩,
        fun hst => ⟨d2, _, k1, (c4 hst).1⟩⟩
      refine sSolveLoop_strict rounds _ g1 hr hbd g4 k2 ?_ t2 status h2
      cases hpp : cfg.preprocessing with
      | false => exact Or.inl (k4 hpp)
      | true => exact Or.inr (hf hpp)
  obtain ⟨l1, l3, l4⟩ := loop
  have fin : (cfg.preprocessing = true → ∃ r, rounds.head? = some r ∧ r.trigger = true) →
      t2.sys.sol.db.hasEmpty = false → Refines F t2.sys.sol.db.perm ∧ Strict t2.sys.sol.db ∧
      ∀ v, t2.sys.sol.trail.decision v = true :=
    fun hf hne => ⟨(l3 hne).1, (l3 hne).2.2 hf, (l3 hne).2.1⟩
  unfold solveEnd at hx
  split at hx
  · simp only [Option.some.injEq, Prod.mk.injEq] at hx
    obtain ⟨rfl, rfl⟩ := hx
    refine ⟨fun hf => ⟨s1, l1, fun hne => ?_⟩, by simp⟩
    simp only [Trail.backtrack_decision]
    exact fin hf hne
  · simp only [Option.some.injEq, Prod.mk.injEq] at hx
    obtain ⟨rfl, rfl⟩ := hx
    refine ⟨fun hf => ⟨s1, l1, ?_⟩, by simp⟩
    simp only [Trail.backtrack_decision]
    split
    · intro hne; simp [DB.emptyClause] at hne
    · exact fin hf
  · rename_i hl
    rw [l1.vars] at hx
    simp only [List.reverse_nil, extendModel, Option.some.injEq, Prod.mk.injEq] at hx
    obtain ⟨rfl, rfl⟩ := hx
    obtain ⟨l2, B, m1, m2⟩ := l4 rfl
    refine ⟨fun hf => ⟨s1, l1, fun hne => ?_⟩, fun _ => ⟨?_, ?_, ?_⟩⟩
    · simp only [Trail.backtrack_decision]
      exact fin hf hne
    · refine m1.psat ?_
      intro c hc
      obtain ⟨l, x1, x2⟩ := m2.sat rfl c hc (fun l _ => l2 _)
      exact ⟨l, x1, modelOf_mem (m2.tinv rfl) x2⟩
    · intro l hl
      refine modelOf_mem (m2.tinv rfl) ((m2.complete rfl).assumptions l ?_)
      have : t2.sys.sol.trail.assumptions = s.sys.sol.trail.assumptions := by
        simpa [Trail.backtrack_assumptions] using s3
      rw [this]; exact hl
    · intro v hv
      simp only
      rw [modelOf_assigns (m2.tinv rfl)]
      refine (m2.complete rfl).decided v ?_ (l2 v)
      have e1 := s1.nv
      simp only [Trail.backtrack_nVars] at e1
      rw [e1]
      simp only at s2
      rw [s2]; exact hv

theorem sTidy_init {s : SSys} (h : TidyOk F s.sys) {nv : Nat} {G : CNF}
    (hG : WfCNF (max s.sys.sol.db.nVars nv) G) : TidyOk (F ++ G) (s.init nv G).sys := by
  obtain ⟨a, b, c⟩ := tidy_init h hG
  rw [sInit_sys]
  exact ⟨⟨a.db, a.ve, a.nv⟩, b, c⟩

/-! ### The first call -/

theorem sFresh_init {s : SSys} (h : FreshOk F s.sys) {nv : Nat} {G : CNF}
    (hG : WfCNF (max s.sys.sol.db.nVars nv) G) : FreshOk (F ++ G) (s.init nv G).sys := by
  obtain ⟨a, b⟩ := h.init hG
  rw [sInit_sys]
  exact ⟨⟨⟨a.ok.db, a.ok.ve, a.ok.nv⟩, a.vars, a.cls, a.dec, a.carries, a.wf⟩, b⟩

theorem sPristine_start {s : SSys} (h : FreshOk F s.sys) : Pristine s.solveStart.sys := by
  obtain ⟨a, b, c, d⟩ := pristine_start h
  rw [sSolveStart_sys]
  exact ⟨a, b, c, d⟩

theorem sFirst_end {cfg : Config} {pre : List PreRound} {rounds : List Round} {s s1 s2 : SSys}
    (h : FreshOk F s.sys) (hnw : s.sys.sol.watch = noWatch) (hpre : ∀ r ∈ pre, r.Valid)
    (hr : ∀ r ∈ rounds, r.Plain) (hfirst : ∀ r, rounds.head? = some r → r.trigger = true)
    (hb : ∀ l ∈ s.sys.sol.trail.assumptions, l.var < s.sys.sol.db.nVars)
    (h1 : s.solveStart.process cfg pre = some s1) (hne : s1.sys.sol.db.hasEmpty = false)
    (hno : NoElim s1.sys)
    (hs2 : SSys.solveLoop cfg rounds ⟨s1.sys, SW.reset s1.sys.sol.db⟩ = some (s2, some true)) :
    EndState F s.sys s1.sys s2.sys := by
  obtain ⟨p1, p2, p3, p4, p5⟩ := sSolveStart_sound h.plain.ok hnw
  have hpr := sPristine_start h
  obtain ⟨q1, q2, q3⟩ := p1.sProcess p2.w h1
  have hpp := (sProcess_recon p1 p2.w hpr hpre h1 hne).1 hno
  have hlive : ∀ c, LiveId s1.sys.sol.db c ↔
      c ∈ s1.sys.sol.db.clauses ∧ (s1.sys.sol.db.store c).weight = 0 := by
    intro c
    constructor
    · rintro ⟨a, b⟩
      rcases hpp.zero c a with e | e
      · exact ⟨a, e⟩
      · exact (b e).elim
    · rintro ⟨a, b⟩; exact ⟨a, by rw [b]; omega⟩
  have hcar : CarriesDB s1.sys.sol.db.cnf s1.sys.sol.db := by
    intro b hb'
    obtain ⟨c, hc, rfl⟩ := mem_cnf.1 hb'
    obtain ⟨a1, a2⟩ := (hlive c).1 hc
    exact ⟨c, a1, a2, List.Perm.refl _⟩
  have hR : SRoundInv F ⟨s1.sys, SW.reset s1.sys.sol.db⟩ :=
    ⟨⟨q1.db, q1.ve, q1.nv, q3.watchInv _ _⟩, ⟨q3.nw, swinv_reset q1.db⟩⟩
  have hnv1 : s1.sys.sol.db.nVars = s.sys.sol.db.nVars := q2.nVars.trans p3
  have has1 : s1.sys.sol.trail.assumptions = s.sys.sol.trail.assumptions := q2.assumptions.trans p4
  have hcf : s1.sys.sol.conflict = [] := q2.conflict.trans p5
  have hb1 : ∀ l ∈ s1.sys.sol.trail.assumptions, l.var < s1.sys.sol.db.nVars := by
    rw [has1, hnv1]; exact hb
  obtain ⟨a1, a4, a5, _⟩ := sSolveLoop_sound rounds _ hR
    (fun r hm => ⟨(hr r hm).choice, (hr r hm).sort⟩) hb1 hcf s2 _ hs2
  obtain ⟨c1, c2, c3, c4⟩ := sSolveLoop_model rounds _ hR hr hb1 hcf hcar (SCov.reset _) s2 _ hs2
  obtain ⟨c4, c5⟩ := c4 rfl
  simp only at a4 a5 c1 c2
  have hdecLit : ∀ c, LiveId s1.sys.sol.db c → ∀ l ∈ s1.sys.sol.db.lits c,
      s1.sys.sol.trail.decision l.var = true := by
    intro c hc l hl
    have hlt := q1.db.wf c (q1.db.mem c hc.1) l hl
    exact (hpp.dec l.var hlt).2 (hpp.clean c hc l hl)
  have hD : DInv s2.sys.sol := by
    refine c5 ?_ ?_
    · intro l hl
      exact (hpp.dec l.var (hb1 l hl)).2 (hpp.asm l hl)
    · intro r hrm
      refine ⟨fun _ => ?_, fun ht => ?_⟩
      · intro c hc hdel l hl
        refine hdecLit c ⟨hc, ?_⟩ l hl
        intro hw
        simp only [Cls.isDeleted, Cls.deletedWeight] at hdel
        simp [hw] at hdel
      · rw [hfirst r hrm] at ht; simp at ht
  have hT := c4.tinv rfl
  have hC := c4.complete rfl
  have hnT : s2.sys.sol.trail.nVars = s1.sys.sol.db.nVars := a1.r.nv.trans a4
  have hun : ∀ v ∈ s1.sys.ve.vars, s2.sys.sol.trail.assigns v = none := by
    intro v hv
    cases hva : s2.sys.sol.trail.assigns v with
    | none => rfl
    | some b =>
      exfalso
      obtain ⟨l, hl, rfl⟩ := (assigned_iff hT).2 (by rw [hva]; simp : s2.sys.sol.trail.assigns v ≠ none)
      have hd := hD.tr l hl
      rw [c2] at hd
      have hlt : l.var < s1.sys.sol.db.nVars := by rw [← hnT]; exact hT.bound l hl
      exact (hpp.dec l.var hlt).1 hd hv
  have hass : ∀ v < s1.sys.sol.db.nVars, v ∉ s1.sys.ve.vars → s2.sys.sol.trail.assigns v ≠ none := by
    intro v hv hvn
    refine hC.decided v (by rw [hnT]; exact hv) ?_
    rw [c2]; exact (hpp.dec v hv).2 hvn
  have hsat : PSat s2.sys.sol.trail.assigns s1.sys.sol.db.cnf := by
    intro c hc
    obtain ⟨d, hd, rfl⟩ := mem_cnf.1 hc
    obtain ⟨l, l1, l2⟩ := c4.sat rfl _ hc (fun l hl => by rw [c2]; exact hdecLit d hd l hl)
    refine ⟨l, l1, ?_⟩
    have := modelOf_mem hT l2
    rw [modelOf_assigns hT] at this
    exact this
  have hq1 : s.solveStart.sys.sol.db = s.sys.sol.db := by
    rw [sSolveStart_sys, (plain_start h.plain).1]
  exact ⟨hT, hC, hnT, hnv1, c1, q1.ve, a5.trans has1, hun, hass, hsat, by rw [hq1] at hpp; exact hpp, has1⟩

theorem sFirst_solve {cfg : Config} {pre : List PreRound} {rounds : List Round} {s s' : SSys} {res : Result}
    (h : FreshOk F s.sys) (hnw : s.sys.sol.watch = noWatch)
    (hp : cfg.preprocessing = true) (hpre : ∀ r ∈ pre, r.Valid)
    (hr : ∀ r ∈ rounds, r.Plain) (hfirst : ∀ r, rounds.head? = some r → r.trigger = true)
    (hb : ∀ l ∈ s.sys.sol.trail.assumptions, l.var < s.sys.sol.db.nVars)
    (hno : ∀ s1, s.solveStart.process cfg pre = some s1 → s1.sys.sol.db.hasEmpty = false →
      NoElim s1.sys)
    (he : s.solve cfg pre rounds = some (s', res)) (hs : res.status = some true) :
    PSat res.model F ∧ (∀ l ∈ s.sys.sol.trail.assumptions, l.trueIn res.model) ∧
      (∀ v < s.sys.sol.db.nVars, res.model v ≠ none) := by
  unfold SSys.solve SSys.solveEntry at he
  rw [hp] at he
  dsimp only at he
  simp only [if_true] at he
  split at he
  · simp at he
  rename_i sys1' hsys1
  obtain ⟨s1, h1, rfl⟩ := Option.map_eq_some_iff.1 hsys1
  split at he
  · simp at he
  rename_i s2 status hs2
  obtain ⟨x, hx, hxe⟩ := Option.map_eq_some_iff.1 he
  obtain ⟨sys', res'⟩ := x
  simp only [Prod.mk.injEq] at hxe
  obtain ⟨rfl, rfl⟩ := hxe
  have hst : status = some true := by
    unfold solveEnd at hx
    split at hx
    · simp only [Option.some.injEq, Prod.mk.injEq] at hx
      obtain ⟨_, rfl⟩ := hx
      simp at hs
    · simp only [Option.some.injEq, Prod.mk.injEq] at hx
      obtain ⟨_, rfl⟩ := hx
      simp at hs
    · rfl
  subst hst
  split at hs2
  · simp at hs2
  rename_i hne
  have hne : s1.sys.sol.db.hasEmpty = false := by simpa using hne
  have hE := sFirst_end h hnw hpre hr hfirst hb h1 hne (hno s1 h1 hne) hs2
  obtain ⟨T', t1, t2, t3, t4, t5⟩ := hE.pre.recon.ext s2.sys.sol.trail hE.unassigned hE.assigned hE.sat
  unfold solveEnd at hx
  dsimp only at hx
  rw [hE.ve, t1] at hx
  simp only [Option.some.injEq, Prod.mk.injEq] at hx
  obtain ⟨_, rfl⟩ := hx
  simp only
  rw [t3 (modelOf_assigns hE.inv)]
  refine ⟨?_, ?_, ?_⟩
  · refine h.psat ?_
    exact t2
  · intro l hl
    have hl1 : l ∈ s1.sys.sol.trail.assumptions := by rw [hE.asm1]; exact hl
    unfold Lit.trueIn
    rw [t4 l.var (hE.pre.asm l hl1), ← modelOf_assigns hE.inv]
    exact modelOf_mem hE.inv (hE.complete.assumptions l (by rw [hE.asm]; exact hl))
  · rw [← hE.nVars']; exact t5

/-! ### Histories -/

section
variable {as : List Lit} {s : SSys}

theorem SSTidyHistory.toHistory (h : SSTidyHistory F as s) : SSHistory .noInprocessing F as s := by
  induction h with
  | new recalc => exact .new recalc
  | add h nv G hG ih => exact ih.add nv G true trivial hG
  | assume h as' hb ih => exact ih.assume as' hb
  | solve h cfg pre rounds hc he ih => exact ih.solve cfg pre rounds trivial hc.rounds he

theorem SSTidyHistory.tidy (h : SSTidyHistory F as s) : TidyOk F s.sys := by
  induction h with
  | new recalc =>
    refine ⟨new_ok recalc, ⟨rfl, fun _ => rfl⟩, fun _ => ⟨by intro K hK; simp at hK, ?_, fun _ => rfl⟩⟩
    intro c hc; simp [SSys.new, Sys.new, DB.new] at hc
  | add h nv G hG ih => exact sTidy_init ih hG
  | assume h as' hb ih => exact ⟨ih.ok.assume as', ih.ve, ih.body⟩
  | solve h cfg pre rounds hc he ih =>
    have ho := h.toHistory.ok Usage.noInprocessing_valid
    refine (sTidy_solve ih ho.nw hc.elim (fun r hm => ?_)
      (by rw [ho.assumptions]; exact ho.bound) he).1 hc.first
    have := hc.rounds r hm
    exact ⟨this.1.choice, this.2, this.1.sort⟩

theorem SSHistory.toAny {u : Usage} (hu : u.Valid) (h : SSHistory u F as s) : SSHistory .any F as s := by
  induction h with
  | new recalc => exact .new recalc
  | add h nv G flag hf hG ih => exact ih.add nv G flag trivial hG
  | assume h as' hb ih => exact ih.assume as' hb
  | solve h cfg pre rounds hc hr he ih => exact ih.solve cfg pre rounds trivial (fun r hm => hu r (hr r hm)) he

end

end Candy
