import Verif.Proofs.Preproc
import Verif.Proofs.History

/-! The first call of `solve` with preprocessing. -/

namespace Candy

variable {F : CNF} {sys sys' : Sys}

/-- Without elimination the elimination state stays empty. -/
theorem Proc.eliminate_off {p p' : Proc} {cfg : Config} {r : PreRound} (hu : cfg.useElim = false)
    (he : p.eliminate cfg r = some p') : p'.sys.ve.vars = p.sys.ve.vars := by
  unfold Proc.eliminate eliminateAll at he
  rw [hu] at he
  simp only [Bool.false_eq_true, if_false, Option.map_some, Option.some.injEq] at he
  subst he
  rw [Proc.after_ve]
  rfl

theorem Proc.rounds_off {cfg : Config} (hu : cfg.useElim = false) : ∀ (rs : List PreRound) (p p' : Proc),
    Proc.rounds cfg rs p = some p' → p'.sys.ve.vars = p.sys.ve.vars
  | [], p, p', he => by simp [Proc.rounds] at he; subst he; rfl
  | r :: rs, p, p', he => by
    have hround : ∀ q b, p.round cfg r = some (q, b) → q.sys.ve.vars = p.sys.ve.vars := by
      intro q b hq
      unfold Proc.round at hq
      split at hq
      · simp at hq
      · rename_i p1 hp1
        have e1 := Proc.materialize_ve hp1
        split at hq
        · simp at hq; obtain ⟨rfl, _⟩ := hq; rw [e1]
        · split at hq
          · simp at hq
          · rename_i p3 hp3
            obtain ⟨p2, hp2, hp3⟩ := Option.bind_eq_some_iff.1 hp3
            have e3 := (Proc.materialize_ve hp3).trans (Proc.subsume_ve hp2)
            split at hq
            · simp at hq; obtain ⟨rfl, _⟩ := hq; rw [e3, e1]
            · split at hq
              · simp at hq
              · rename_i p5 hp5
                obtain ⟨p4, hp4, hp5⟩ := Option.bind_eq_some_iff.1 hp5
                have e5 := (Proc.materialize_ve hp5).trans (Proc.reduce_ve hp4)
                split at hq
                · simp at hq; obtain ⟨rfl, _⟩ := hq; rw [e5, e3, e1]
                · obtain ⟨p6, hp6, hb⟩ := Option.map_eq_some_iff.1 hq
                  simp at hb; obtain ⟨rfl, _⟩ := hb
                  rw [Proc.eliminate_off hu hp6, e5, e3, e1]
    rw [Proc.rounds] at he
    split at he
    · simp at he
    · rename_i q hq
      simp at he; subst he
      exact hround _ _ hq
    · rename_i q hq
      exact (Proc.rounds_off hu rs q p' he).trans (hround _ _ hq)

theorem process_off {cfg : Config} (hu : cfg.useElim = false) {rs : List PreRound}
    (he : process cfg rs sys = some sys') : sys'.ve.vars = sys.ve.vars := by
  unfold process at he
  obtain ⟨p, hp, rfl⟩ := Option.map_eq_some_iff.1 he
  exact Proc.rounds_off hu rs _ p hp

/-- A solver to which clauses were added but that was never asked to solve. -/
structure FreshOk (F : CNF) (sys : Sys) : Prop where
  plain : PlainOk F sys
  zero : ∀ c ∈ sys.sol.db.clauses, (sys.sol.db.store c).weight = 0

theorem createFold_zero {f : Clause → Nat} {lem : Bool} (hf : ∀ c, f c = 0) : ∀ (cs : List Clause)
    (db : DB), (∀ c ∈ db.clauses, c < db.next) → (∀ c ∈ db.clauses, (db.store c).weight = 0) →
    ∀ c ∈ (cs.foldl (fun d c => (d.createClause c (f c) lem).1) db).clauses,
      ((cs.foldl (fun d c => (d.createClause c (f c) lem).1) db).store c).weight = 0
  | [], _, _, h => h
  | c :: cs, db, hlt, h => by
    rw [List.foldl_cons]
    refine createFold_zero hf cs _ ?_ ?_
    · intro d hd
      rw [createClause_clauses] at hd
      rw [createClause_next]
      rcases List.mem_append.1 hd with hd | hd
      · have := hlt d hd; omega
      · simp at hd; omega
    · intro d hd
      rw [createClause_clauses] at hd
      rw [createClause_store]
      rcases List.mem_append.1 hd with hd | hd
      · have := hlt d hd
        rw [upd_ne _ _ (by omega)]; exact h d hd
      · simp at hd; subst hd
        simp [hf]

theorem FreshOk.init (h : FreshOk F sys) {nv : Nat} {G : CNF}
    (hG : WfCNF (max sys.sol.db.nVars nv) G) : FreshOk (F ++ G) (sys.init nv G) := by
  refine ⟨plain_init h.plain hG, ?_⟩
  have e : (sys.init nv G).sol.db = sys.sol.db.init nv G := by
    unfold Sys.init
    dsimp only
    rw [plain_restoreAll _ _ (by exact h.plain.cls)]
  rw [e]
  simp only [DB.init]
  refine createFold_zero (f := fun c => if true = true then 0 else c.length) (by simp) G _ ?_ ?_
  · split <;> exact h.plain.ok.db.mem
  · split <;> exact h.zero

theorem FreshOk.psat {m : PAssign} (h : FreshOk F sys) (hm : PSat m sys.sol.db.cnf) : PSat m F := by
  intro c hc
  obtain ⟨d, h1, h2, h3⟩ := h.plain.carries c hc
  obtain ⟨l, l1, l2⟩ := hm _ (mem_cnf.2 ⟨d, ⟨h1, by omega⟩, rfl⟩)
  exact ⟨l, h3.mem_iff.1 l1, l2⟩

theorem pristine_start (h : FreshOk F sys) : Pristine (solveStart sys) := by
  obtain ⟨q1, q2, q3⟩ := plain_start h.plain
  refine ⟨?_, q2, ?_, ?_⟩
  · rw [q1]; exact h.zero
  · intro v; rw [q3]; exact h.plain.cls v
  · intro v; rw [q1]; exact h.plain.dec v

/-- The state at the end of the loop of `solve`, before values for eliminated variables are found. -/
structure EndState (F : CNF) (sys sys1 sys2 : Sys) : Prop where
  inv : sys2.sol.trail.Inv
  complete : Complete sys2.sol
  nVars : sys2.sol.trail.nVars = sys1.sol.db.nVars
  nVars' : sys1.sol.db.nVars = sys.sol.db.nVars
  ve : sys2.ve = sys1.ve
  veOk : VEOk F sys1.sol.db.nVars sys1.ve
  asm : sys2.sol.trail.assumptions = sys.sol.trail.assumptions
  unassigned : ∀ v ∈ sys1.ve.vars, sys2.sol.trail.assigns v = none
  assigned : ∀ v < sys1.sol.db.nVars, v ∉ sys1.ve.vars → sys2.sol.trail.assigns v ≠ none
  sat : PSat sys2.sol.trail.assigns sys1.sol.db.cnf
  pre : Preprocessed sys.sol.db.cnf sys1
  asm1 : sys1.sol.trail.assumptions = sys.sol.trail.assumptions

theorem first_end {cfg : Config} {pre : List PreRound} {rounds : List Round} {sys1 sys2 : Sys}
    (h : FreshOk F sys) (hpre : ∀ r ∈ pre, r.Valid)
    (hr : ∀ r ∈ rounds, r.Plain) (hfirst : ∀ r, rounds.head? = some r → r.trigger = true)
    (hb : ∀ l ∈ sys.sol.trail.assumptions, l.var < sys.sol.db.nVars)
    (h1 : process cfg pre (solveStart sys) = some sys1) (hne : sys1.sol.db.hasEmpty = false)
    (hno : NoElim sys1)
    (hs2 : solveLoop cfg rounds { sys1 with sol := { sys1.sol with watch := resetWatch sys1.sol.db } } =
      some (sys2, some true)) : EndState F sys sys1 sys2 := by
  obtain ⟨p1, p2, p3, p4, p5⟩ := solveStart_spec h.plain.ok
  have hpr := pristine_start h
  obtain ⟨q1, q2⟩ := p1.process h1
  have hpp := (process_recon p1 hpr hpre h1 hne).1 hno
  have hlive : ∀ c, LiveId sys1.sol.db c ↔
      c ∈ sys1.sol.db.clauses ∧ (sys1.sol.db.store c).weight = 0 := by
    intro c
    constructor
    · rintro ⟨a, b⟩
      rcases hpp.zero c a with e | e
      · exact ⟨a, e⟩
      · exact (b e).elim
    · rintro ⟨a, b⟩; exact ⟨a, by rw [b]; omega⟩
  have hcar : Carries sys1.sol.db.cnf sys1.sol.db (resetWatch sys1.sol.db) := by
    refine CarriesDB.reset ?_
    intro b hb'
    obtain ⟨c, hc, rfl⟩ := mem_cnf.1 hb'
    obtain ⟨a1, a2⟩ := (hlive c).1 hc
    exact ⟨c, a1, a2, List.Perm.refl _⟩
  have hR : RoundInv F { sys1 with sol := { sys1.sol with watch := resetWatch sys1.sol.db } } :=
    ⟨q1.db, q1.ve, q1.nv, resetWatch_inv q1.db⟩
  have hnv1 : sys1.sol.db.nVars = sys.sol.db.nVars := q2.nVars.trans p3
  have has1 : sys1.sol.trail.assumptions = sys.sol.trail.assumptions := q2.assumptions.trans p4
  have hcf : sys1.sol.conflict = [] := q2.conflict.trans p5
  have hb1 : ∀ l ∈ sys1.sol.trail.assumptions, l.var < sys1.sol.db.nVars := by
    rw [has1, hnv1]; exact hb
  obtain ⟨a1, a2, a3, a4, a5, a6, a7⟩ := solveLoop_spec rounds _ hR
    (fun r hm => ⟨(hr r hm).choice, (hr r hm).sort⟩) hb1 hcf sys2 _ hs2
  obtain ⟨c1, c2, c3, c4⟩ := solveLoop_model rounds _ hR hr hb1 hcf hcar sys2 _ hs2
  obtain ⟨c4, c5⟩ := c4 rfl
  simp only at a4 a5 c1 c2
  have hdecLit : ∀ c, LiveId sys1.sol.db c → ∀ l ∈ sys1.sol.db.lits c,
      sys1.sol.trail.decision l.var = true := by
    intro c hc l hl
    have hlt := q1.db.wf c (q1.db.mem c hc.1) l hl
    exact (hpp.dec l.var hlt).2 (hpp.clean c hc l hl)
  have hD : DInv sys2.sol := by
    refine c5 ?_ ?_
    · intro l hl
      exact (hpp.dec l.var (hb1 l hl)).2 (hpp.asm l hl)
    · intro r hrm
      refine ⟨fun _ => ?_, fun ht => ?_⟩
      · intro c hc hdel l hl
        refine hdecLit c ⟨hc, ?_⟩ l hl
        intro hw
        simp only [Cls.isDeleted, Cls.deletedWeight] at hdel
        simp [hw] at hdel
      · rw [hfirst r hrm] at ht; simp at ht
  have hT := c4.tinv rfl
  have hC := c4.complete rfl
  have hnT : sys2.sol.trail.nVars = sys1.sol.db.nVars := a3.trans a4
  have hun : ∀ v ∈ sys1.ve.vars, sys2.sol.trail.assigns v = none := by
    intro v hv
    cases hva : sys2.sol.trail.assigns v with
    | none => rfl
    | some b =>
      exfalso
      obtain ⟨l, hl, rfl⟩ := (assigned_iff hT).2 (by rw [hva]; simp : sys2.sol.trail.assigns v ≠ none)
      have hd := hD.tr l hl
      rw [c2] at hd
      have hlt : l.var < sys1.sol.db.nVars := by rw [← hnT]; exact hT.bound l hl
      exact (hpp.dec l.var hlt).1 hd hv
  have hass : ∀ v < sys1.sol.db.nVars, v ∉ sys1.ve.vars → sys2.sol.trail.assigns v ≠ none := by
    intro v hv hvn
    refine hC.decided v (by rw [hnT]; exact hv) ?_
    rw [c2]; exact (hpp.dec v hv).2 hvn
  have hsat : PSat sys2.sol.trail.assigns sys1.sol.db.cnf := by
    intro c hc
    obtain ⟨d, hd, rfl⟩ := mem_cnf.1 hc
    obtain ⟨l, l1, l2⟩ := c4.sat rfl _ hc (fun l hl => by rw [c2]; exact hdecLit d hd l hl)
    refine ⟨l, l1, ?_⟩
    have := modelOf_mem hT l2
    rw [modelOf_assigns hT] at this
    exact this
  have hq1 := (plain_start h.plain).1
  exact ⟨hT, hC, hnT, hnv1, c1, q1.ve, a5.trans has1, hun, hass, hsat, by rw [hq1] at hpp; exact hpp, has1⟩

theorem first_solve {cfg : Config} {pre : List PreRound} {rounds : List Round} {res : Result}
    (h : FreshOk F sys) (hp : cfg.preprocessing = true) (hpre : ∀ r ∈ pre, r.Valid)
    (hr : ∀ r ∈ rounds, r.Plain) (hfirst : ∀ r, rounds.head? = some r → r.trigger = true)
    (hb : ∀ l ∈ sys.sol.trail.assumptions, l.var < sys.sol.db.nVars)
    (hno : ∀ sys1, process cfg pre (solveStart sys) = some sys1 → sys1.sol.db.hasEmpty = false →
      NoElim sys1)
    (he : solve cfg pre rounds sys = some (sys', res)) (hs : res.status = some true) :
    PSat res.model F ∧ (∀ l ∈ sys.sol.trail.assumptions, l.trueIn res.model) ∧
      (∀ v < sys.sol.db.nVars, res.model v ≠ none) := by
  obtain ⟨p1, p2, p3, p4, p5⟩ := solveStart_spec h.plain.ok
  unfold solve at he
  rw [hp] at he
  dsimp only at he
  simp only [if_true] at he
  split at he
  · simp at he
  rename_i sys1' hsys1
  obtain ⟨sys1, h1, rfl⟩ := Option.map_eq_some_iff.1 hsys1
  split at he
  · simp at he
  rename_i sys2 status hs2
  have hst : status = some true := by
    unfold solveEnd at he
    split at he
    · simp only [Option.some.injEq, Prod.mk.injEq] at he
      obtain ⟨_, rfl⟩ := he
      simp at hs
    · simp only [Option.some.injEq, Prod.mk.injEq] at he
      obtain ⟨_, rfl⟩ := he
      simp at hs
    · rfl
  subst hst
  split at hs2
  · simp at hs2
  rename_i hne
  have hne : sys1.sol.db.hasEmpty = false := by simpa using hne
  have hE := first_end h hpre hr hfirst hb h1 hne (hno sys1 h1 hne) hs2
  obtain ⟨T', t1, t2, t3, t4, t5⟩ := hE.pre.recon.ext sys2.sol.trail hE.unassigned hE.assigned hE.sat
  unfold solveEnd at he
  dsimp only at he
  rw [hE.ve, t1] at he
  simp only [Option.some.injEq, Prod.mk.injEq] at he
  obtain ⟨_, rfl⟩ := he
  simp only
  rw [t3 (modelOf_assigns hE.inv)]
  refine ⟨?_, ?_, ?_⟩
  · refine h.psat ?_
    exact t2
  · intro l hl
    have hl1 : l ∈ sys1.sol.trail.assumptions := by rw [hE.asm1]; exact hl
    unfold Lit.trueIn
    rw [t4 l.var (hE.pre.asm l hl1), ← modelOf_assigns hE.inv]
    exact modelOf_mem hE.inv (hE.complete.assumptions l (by rw [hE.asm]; exact hl))
  · rw [← hE.nVars']; exact t5

end Candy
