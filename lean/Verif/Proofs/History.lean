import Verif.Proofs.SatSide

/-! Invariants of histories. -/

namespace Candy

variable {F : CNF} {as : List Lit} {sys sys' : Sys} {u : Usage}

theorem solveEntry_spec {cfg : Config} {pre : List PreRound} (h : SysOk F sys)
    (he : solveEntry cfg pre sys = some sys') :
    RoundInv F sys' ∧ sys'.sol.db.nVars = sys.sol.db.nVars ∧
    sys'.sol.trail.assumptions = sys.sol.trail.assumptions ∧ sys'.sol.conflict = [] := by
  obtain ⟨p1, p2, p3, p4, p5⟩ := solveStart_spec h
  unfold solveEntry at he
  dsimp only at he
  split at he
  · obtain ⟨sys2, h2, rfl⟩ := Option.map_eq_some_iff.1 he
    obtain ⟨q1, q2⟩ := p1.process h2
    exact ⟨⟨q1.db, q1.ve, q1.nv, resetWatch_inv q1.db⟩, q2.nVars.trans p3,
      q2.assumptions.trans p4, q2.conflict.trans p5⟩
  · simp at he; subst he
    exact ⟨p2, p3, p4, p5⟩

/-- Invariant of every history. -/
structure HistOk (F : CNF) (as : List Lit) (sys : Sys) : Prop where
  ok : SysOk F sys
  assumptions : sys.sol.trail.assumptions = as
  bound : ∀ l ∈ as, l.var < sys.sol.db.nVars
  inputWf : ∀ c ∈ F, ∀ l ∈ c, l.var < sys.sol.db.nVars

/-- Usages that only allow rounds the heuristics and the library may produce. -/
def Usage.Valid (u : Usage) : Prop := ∀ r, u.round r → r.Valid

theorem Usage.any_valid : Usage.any.Valid := fun _ h => h
theorem Usage.plain_valid : Usage.plain.Valid := fun _ h => h.1
theorem Usage.noInprocessing_valid : Usage.noInprocessing.Valid := fun _ h => h.1

theorem History.ok (hu : u.Valid) (h : History u F as sys) : HistOk F as sys := by
  induction h with
  | new recalc => exact ⟨new_ok recalc, rfl, by simp, by simp⟩
  | add h nv G flag hf hG ih =>
    obtain ⟨a1, a2, a3⟩ := init_sound ih.ok (lem := flag) hG
    refine ⟨a1, a3.trans ih.assumptions, ?_, ?_⟩
    · intro l hl; rw [a2]; have := ih.bound l hl; omega
    · intro c hc l hl
      rw [a2]
      rcases List.mem_append.1 hc with hc | hc
      · have := ih.inputWf c hc l hl; omega
      · exact (hG c hc).1 l hl
  | assume h as' hb ih => exact ⟨ih.ok.assume as', rfl, hb, ih.inputWf⟩
  | solve h cfg pre rounds hc hr he ih =>
    obtain ⟨s1, s2, s3, s4, s5⟩ := solve_sound ih.ok (fun r hm => hu r (hr r hm))
      (by rw [ih.assumptions]; exact ih.bound) he
    exact ⟨s1, s3.trans ih.assumptions, by rw [s2]; exact ih.bound, by rw [s2]; exact ih.inputWf⟩

theorem History.toAny (hu : u.Valid) (h : History u F as sys) : History .any F as sys := by
  induction h with
  | new recalc => exact .new recalc
  | add h nv G flag hf hG ih => exact ih.add nv G flag trivial hG
  | assume h as' hb ih => exact ih.assume as' hb
  | solve h cfg pre rounds hc hr he ih =>
    exact ih.solve cfg pre rounds trivial (fun r hm => hu r (hr r hm)) he

/-- Invariant at the head of the main loop of `solve`. -/
structure InSolveOk (F : CNF) (as : List Lit) (sys : Sys) : Prop where
  inv : RoundInv F sys
  assumptions : sys.sol.trail.assumptions = as
  bound : ∀ l ∈ as, l.var < sys.sol.db.nVars
  conflict : sys.sol.conflict = []

theorem InSolve.ok (hu : u.Valid) (h : InSolve u F as sys) : InSolveOk F as sys := by
  induction h with
  | enter h cfg pre hc he =>
    have ih := h.ok hu
    obtain ⟨a1, a2, a3, a4⟩ := solveEntry_spec ih.ok he
    exact ⟨a1, a3.trans ih.assumptions, by rw [a2]; exact ih.bound, a4⟩
  | round h cfg r hr he ih =>
    obtain ⟨a1, a2, a3, a4, a5, a6, _⟩ := solveRound_spec ih.inv (hu r hr)
      (by rw [ih.assumptions]; exact ih.bound) ih.conflict he
    obtain ⟨a6, a7⟩ := a6 (by simp)
    exact ⟨⟨a1, a2, a3, a7⟩, a5.trans ih.assumptions, by rw [a4]; exact ih.bound, a6⟩

/-- Invariant of the search loop. -/
structure SearchOk (F : CNF) (as : List Lit) (s : Solver) : Prop where
  inv : SInv F (fun _ => False) s
  assumptions : s.trail.assumptions = as
  conflict : s.conflict = []

theorem SInv.weaken {A A' : Nat → Prop} {s : Solver} (h : SInv F A s) (hA : ∀ c, A' c → A c) :
    SInv F A' s where
  db := h.db
  core := h.core
  watch := h.watch
  limq := h.limq
  cinv := ⟨fun c hc => h.cinv.w1 c (hA c hc), fun c hc => h.cinv.b1 c (hA c hc),
    fun c hc => h.cinv.w4 c (hA c hc)⟩
  alt c hc := h.alt c (hA c hc)
  units c hc := h.units c (hA c hc)
  nonempty c hc := h.nonempty c (hA c hc)
  asmBound := h.asmBound
  asm := h.asm
  asmTrue := h.asmTrue

theorem Searching.ok {s : Solver} (hu : u.Valid) (h : Searching u F as s) : SearchOk F as s := by
  induction h with
  | start h cfg r hr h1 h2 h3 =>
    have ih := h.ok hu
    obtain ⟨a1, a2⟩ := ih.inv.reset.reduceStep (hu r hr).sort h1
    obtain ⟨s, m1, m2, m3, _, _⟩ := a1.materialize
    rw [h2] at m1
    simp at m1; subst m1
    have hf := a2.trans m3
    have has := hf.assumptions.trans ih.assumptions
    have hnv := hf.nVars
    refine ⟨m2.sinv h3 ?_, has, hf.conflict.trans ih.conflict⟩
    intro l hl
    simp only at hl has hnv ⊢
    rw [has] at hl; rw [hnv]; exact ih.bound l hl
  | iter h ch hch he ih =>
    obtain ⟨out, e1, e2⟩ := searchIter_spec ih.inv hch
    rw [he] at e1
    simp at e1; subst e1
    obtain ⟨f, c, _, A', _, hS, _⟩ := e2
    exact ⟨hS.weaken (by simp), f.assumptions.trans ih.assumptions, c.trans ih.conflict⟩

/-! ### A derived empty clause is final -/

theorem addCorrection_hasEmpty (s : Solver) (c : Clause) (h : s.db.hasEmpty = true) :
    (addCorrection s c).db.hasEmpty = true := by
  unfold addCorrection
  dsimp only
  rw [createClause_hasEmpty]; simp [h]

theorem solveStart_hasEmpty (h : sys.sol.db.hasEmpty = true) :
    (solveStart sys).sol.db.hasEmpty = true := by
  have : ∀ (cs : List Clause) (s : Solver), s.db.hasEmpty = true →
      (cs.foldl addCorrection s).db.hasEmpty = true := by
    intro cs
    induction cs with
    | nil => intro s h; exact h
    | cons c cs ih => intro s h; exact ih _ (addCorrection_hasEmpty s c h)
  unfold solveStart
  exact this _ _ h

theorem solveEntry_hasEmpty {cfg : Config} {pre : List PreRound} (h : SysOk F sys)
    (he : solveEntry cfg pre sys = some sys') (hE : sys.sol.db.hasEmpty = true) :
    sys'.sol.db.hasEmpty = true := by
  obtain ⟨p1, p2, p3, p4, p5⟩ := solveStart_spec h
  have hs := solveStart_hasEmpty hE
  unfold solveEntry at he
  dsimp only at he
  split at he
  · obtain ⟨sys2, h2, rfl⟩ := Option.map_eq_some_iff.1 he
    exact (p1.process h2).2.hasEmpty hs
  · simp at he; subst he; exact hs

theorem solve_hasEmpty {cfg : Config} {pre : List PreRound} {rounds : List Round} {res : Result}
    (h : SysOk F sys) (hE : sys.sol.db.hasEmpty = true)
    (he : solve cfg pre rounds sys = some (sys', res)) :
    res.status = some false ∧ res.conflict = [] ∧ sys'.sol.db.hasEmpty = true := by
  rw [solve_eq] at he
  obtain ⟨sys1, h1, he⟩ := Option.bind_eq_some_iff.1 he
  have hE1 := solveEntry_hasEmpty h h1 hE
  obtain ⟨_, _, _, hc⟩ := solveEntry_spec h h1
  simp only [hE1, if_true, Option.bind_some, solveEnd, Option.some.injEq, Prod.mk.injEq] at he
  obtain ⟨rfl, rfl⟩ := he
  refine ⟨rfl, hc, ?_⟩
  simp only
  split
  · rfl
  · exact hE1

theorem createFold_hasEmpty {f : Clause → Nat} {lem : Bool} : ∀ (cs : List Clause) (db : DB),
    db.hasEmpty = true →
    (cs.foldl (fun d c => (d.createClause c (f c) lem).1) db).hasEmpty = true
  | [], _, h => h
  | c :: cs, db, h => by
    rw [List.foldl_cons]
    exact createFold_hasEmpty cs _ (by rw [createClause_hasEmpty]; simp [h])

theorem restoreLits_hasEmpty : ∀ (ls : List Lit) (sys : Sys), sys.sol.db.hasEmpty = true →
    (restoreLits ls sys).sol.db.hasEmpty = true
  | [], _, h => h
  | l :: ls, sys, h => by
    rw [restoreLits]
    split
    · exact restoreLits_hasEmpty ls _ (createFold_hasEmpty (f := fun _ => 0) (lem := false) _ _ h)
    · exact restoreLits_hasEmpty ls sys h

theorem restoreAll_hasEmpty : ∀ (cs : CNF) (sys : Sys), sys.sol.db.hasEmpty = true →
    (restoreAll cs sys).sol.db.hasEmpty = true
  | [], _, h => h
  | c :: cs, sys, h => by
    rw [restoreAll]
    split
    · exact h
    · exact restoreAll_hasEmpty cs _ (restoreLits_hasEmpty c sys h)

theorem init_hasEmpty {nv : Nat} {G : CNF} {flag : Bool} (h : sys.sol.db.hasEmpty = true) :
    (sys.init nv G flag).sol.db.hasEmpty = true := by
  unfold Sys.init
  refine restoreAll_hasEmpty G _ ?_
  simp only [DB.init]
  refine createFold_hasEmpty (f := fun c => if flag then 0 else c.length) G _ ?_
  split <;> exact h

end Candy
