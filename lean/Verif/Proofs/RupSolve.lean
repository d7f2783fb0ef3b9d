import Verif.Proofs.RupRun

/-! The certificate of `solve` without simplification. -/

namespace Candy

variable {F R : CNF} {ids : List Nat} {db : DB}

/-- Every listed clause is present. -/
structure CertDB (F R : CNF) (ids : List Nat) (db : DB) : Prop extends Cert F R ids db where
  cl : ∀ c ∈ db.clauses, c ∈ ids

theorem CertDB.ofPerm {db' : DB} (h : CertDB F R ids db) (hn : db'.next = db.next) (hl : db'.log = db.log)
    (he : db'.hasEmpty = db.hasEmpty) (hp : ∀ c, (db'.lits c).Perm (db.lits c)) (hc : db'.clauses = db.clauses) :
    CertDB F R ids db' :=
  ⟨h.toCert.ofPerm hn hl he hp, by rw [hc]; exact h.cl⟩

theorem CertDB.create (h : CertDB F R ids db) {ls : List Lit} (hr : RUP (present F db.log) ls) (lbd : Nat) :
    CertDB F R (ids ++ [db.next]) (db.createClause ls lbd false).1 := by
  refine ⟨h.toCert.create hr lbd, ?_⟩
  rw [createClause_clauses]
  intro c hc
  rcases List.mem_append.1 hc with hc | hc
  · exact List.mem_append_left _ (h.cl c hc)
  · exact List.mem_append_right _ hc

theorem CertDB.give {ls : List Lit} (h : CertDB F (ls :: R) ids db) (lbd : Nat) (lem : Bool) :
    CertDB F R (ids ++ [db.next]) (db.createClause ls lbd lem).1 := by
  refine ⟨h.toCert.give lbd lem, ?_⟩
  rw [createClause_clauses]
  intro c hc
  rcases List.mem_append.1 hc with hc | hc
  · exact List.mem_append_left _ (h.cl c hc)
  · exact List.mem_append_right _ hc

theorem CertDB.empty (h : CertDB F R ids db) (hu : UPConflict (present F db.log)) : CertDB F R ids db.emptyClause :=
  ⟨h.toCert.empty hu, h.cl⟩

theorem present_emptyClause (F : CNF) (db : DB) : present F db.emptyClause.log = present F db.log ++ [[]] :=
  present_empty F db.log

theorem Derives.clash {S : CNF} {l : Lit} (h : Derives S l) (h' : Derives S l.neg) : UPConflict S := by
  cases h with
  | unit c hc _ hl ha =>
    refine ⟨c, hc, fun m hm => ?_⟩
    by_cases e : m = l
    · rw [e]; exact h'
    · exact ha m hm e

/-- Every literal of the trail is derived. -/
def AllDer (S : CNF) (T : Trail) : Prop := ∀ l ∈ T.stack, Derives S l ∨ UPConflict S

theorem AllDer.facts {S : CNF} {T : Trail} (h : AllDer S T) : Facts S T := fun l hl _ _ => h l hl

theorem AllDer.mono {S S' : CNF} {T : Trail} (h : AllDer S T) (hs : Subsumed S S') : AllDer S' T := by
  intro l hl
  rcases h l hl with h | h
  · exact h.mono hs
  · exact .inr (h.mono hs)

/-! ### Unit clauses -/

theorem factStep_eq (T : Trail) (db : DB) (l : Lit) :
    factStep (T, db) l = ((T.fact l).1, if (T.fact l).2 then db else db.emptyClause) := by
  unfold factStep
  dsimp only
  rcases h : T.fact l with ⟨T', b⟩
  cases b <;> rfl

theorem factFold_certU : ∀ (ls : List Lit) (T : Trail) (db : DB), CertDB F R ids db → UPConflict (present F db.log) →
    CertDB F R ids (ls.foldl factStep (T, db)).2 ∧ UPConflict (present F (ls.foldl factStep (T, db)).2.log)
  | [], _, _, h, hu => ⟨h, hu⟩
  | l :: ls, T, db, h, hu => by
    rw [List.foldl_cons, factStep_eq]
    split
    · exact factFold_certU ls _ _ h hu
    · refine factFold_certU ls _ _ (h.empty hu) ?_
      rw [present_emptyClause]
      exact hu.add _

theorem fact_src (T : Trail) (p : Lit) : ∀ l ∈ (T.fact p).1.stack, l ∈ T.stack ∨ l = p := by
  intro l h
  unfold Trail.fact at h
  split at h
  · exact .inl h
  · dsimp only at h
    split at h
    · exact .inl h
    · simp only [Trail.setValue] at h
      rcases List.mem_append.1 h with h | h
      · exact .inl h
      · exact .inr (List.mem_singleton.1 h)

theorem fact_falsified (T : Trail) (p : Lit) (h : (T.fact p).2 = false) : T.value p = some false := by
  unfold Trail.fact at h
  split at h
  · rename_i hf
    simpa [Trail.falsifies] using hf
  · dsimp only at h
    split at h <;> cases h

theorem factFold_cert : ∀ (ls : List Lit) (T : Trail) (db : DB),
    Core F db.nVars db.next db.bin db.store T → T.lim = [] → (∀ l ∈ ls, l.var < db.nVars ∧ Entails F [l]) →
    CertDB F R ids db → AllDer (present F db.log) T →
    (∀ l ∈ ls, Derives (present F db.log) l ∨ UPConflict (present F db.log)) →
    CertDB F R ids (ls.foldl factStep (T, db)).2 ∧
      AllDer (present F (ls.foldl factStep (T, db)).2.log) (ls.foldl factStep (T, db)).1
  | [], _, _, _, _, _, h, ha, _ => ⟨h, ha⟩
  | l :: ls, T, db, hc, hl, hb, h, ha, hd => by
    rw [List.foldl_cons, factStep_eq]
    obtain ⟨k1, k2, _⟩ := fact_spec hc hl (hb l (by simp)).2 (hb l (by simp)).1
    have ha' : AllDer (present F db.log) (T.fact l).1 := by
      intro q hq
      rcases fact_src T l q hq with hq | rfl
      · exact ha q hq
      · exact hd q (by simp)
    cases hf : (T.fact l).2 with
    | true =>
      rw [if_pos rfl]
      exact factFold_cert ls _ db k1 (by rw [k2.lim, hl]) (fun q hq => hb q (by simp [hq])) h ha'
        (fun q hq => hd q (by simp [hq]))
    | false =>
      rw [if_neg (by simp)]
      have hn : l.neg ∈ T.stack := (hc.tinv.valFalse l).1 (fact_falsified T l hf)
      have hu : UPConflict (present F db.log) := by
        rcases hd l (by simp) with h1 | h1
        · rcases ha _ hn with h2 | h2
          · exact h1.clash h2
          · exact h2
        · exact h1
      obtain ⟨e1, e2⟩ := factFold_certU ls (T.fact l).1 db.emptyClause (h.empty hu)
        (by rw [present_emptyClause]; exact hu.add _)
      exact ⟨e1, fun _ _ => .inr e2⟩

theorem unitFold_cert : ∀ (ls : List Lit) (T : Trail) (db : DB) (ids : List Nat) (S : List Lit), CertDB F R ids db →
    (∀ l ∈ S, Derives (present F db.log) l ∨ UPConflict (present F db.log)) → (∀ l ∈ ls, l ∈ S) →
    ∃ ids', CertDB F R ids' (ls.foldl unitStep (T, db)).2 ∧
      ∀ l ∈ S, Derives (present F (ls.foldl unitStep (T, db)).2.log) l ∨
        UPConflict (present F (ls.foldl unitStep (T, db)).2.log)
  | [], _, _, ids, _, h, ha, _ => ⟨ids, h, ha⟩
  | l :: ls, T, db, ids, S, h, ha, hm => by
    rw [List.foldl_cons]
    refine unitFold_cert ls _ _ _ S (h.create (.ofDerives (ha l (hm l (by simp)))) 0) ?_ fun q hq => hm q (by simp [hq])
    intro q hq
    rw [createClause_log, if_neg (by simp), present_add]
    rcases ha q hq with h1 | h1
    · exact h1.mono (.ofSubset fun _ hd => List.mem_append_left _ hd)
    · exact .inr (h1.add _)

theorem unitLits_derived (h : CertDB F R ids db) : ∀ l ∈ db.unitLits, Derives (present F db.log) l := by
  intro l hl
  unfold DB.unitLits at hl
  obtain ⟨c, hc, hh⟩ := List.mem_filterMap.1 hl
  obtain ⟨h1, h2⟩ := List.mem_filter.1 hc
  obtain ⟨d, hd, hp⟩ := h.mem (h.cl c h1)
  match hL : db.lits c, hh, h2 with
  | [x], hh, _ =>
    simp at hh; subst hh
    rw [hL] at hp
    rw [hp.eq_singleton] at hd
    refine .unit [x] hd x (by simp) ?_
    intro m hm hne
    exact (hne (List.mem_singleton.1 hm)).elim
  | [], hh, _ => simp at hh
  | x :: y :: r, _, h2 => simp at h2

/-- `propagateAndMaterializeUnitClauses` keeps the certificate. -/
theorem materialize_cert {s s' : Solver} (hd : DBOk F s.db) (h : s.db.hasEmpty = false → L0 F s)
    (hc : CertDB F R ids s.db) (ha : AllDer (present F s.db.log) s.trail) (he : materialize s = some s') :
    ∃ ids', CertDB F R ids' s'.db ∧ (s'.db.hasEmpty = false → AllDer (present F s'.db.log) s'.trail) := by
  unfold materialize at he
  dsimp only at he
  cases hE : s.db.hasEmpty with
  | true =>
    obtain ⟨e1, _⟩ := factFold_certU s.db.unitLits s.trail s.db hc (hc.emp hE)
    obtain ⟨_, _, e3, _⟩ := factFold_empty s.db.unitLits s.trail s.db hd hE
    rw [if_pos e3] at he
    simp only [Option.some.injEq] at he
    subst he
    refine ⟨ids, e1, fun h => ?_⟩
    rw [e3] at h; cases h
  | false =>
    have h := h hE
    obtain ⟨f1, f2, f3, f4, f5, f6, f7⟩ := factFold_spec s.db.unitLits s.trail s.db h.core h.lim hd
      (unitLits_spec hd)
    obtain ⟨g1, g2⟩ := factFold_cert s.db.unitLits s.trail s.db h.core h.lim (unitLits_spec hd) hc ha
      (fun l hl => .inl (unitLits_derived hc l hl))
    generalize s.db.unitLits.foldl factStep (s.trail, s.db) = x at *
    obtain ⟨T1, db1⟩ := x
    dsimp only at *
    have hlim1 : T1.lim = [] := by rw [f2.lim, h.lim]
    split at he
    · rename_i hE'
      simp only [Option.some.injEq] at he
      subst he
      exact ⟨ids, g1, fun h => by simp only at h; rw [hE'] at h; cases h⟩
    · rename_i hE'
      have hc1 : Core F db1.nVars db1.next db1.bin db1.store T1 := by
        rw [f6.nVars, f6.next, f6.bin, f6.store]; exact f1
      have hw1 : WatchInv db1.next db1.store s.watch := by
        rw [f6.next, f6.store]; exact h.watch
      have hq : LimQ T1 := by intro k hk; rw [hlim1] at hk; simp at hk
      obtain ⟨ps, r, e1, e2, e3, e4, e5, e6, e7, e8, _⟩ := propagateLoop_spec (A := fun _ => False)
        (db1.nVars + 1) ⟨db1.store, s.watch, T1⟩ hc1 hw1 hq (by omega)
      dsimp only at e2 e3 e4 e5 e6 e7 e8
      rw [e1] at he
      have hlim2 : ps.T.lim = [] := by rw [e4.lim, hlim1]
      have g3 : CertDB F R ids { db1 with store := ps.store } := g1.ofPerm rfl rfl rfl (fun c => (e5 c).1) rfl
      have hs : ∀ c < db1.next, ∃ d ∈ present F db1.log, d ⊆ (ps.store c).lits := g3.subs
      have hF : Facts (present F db1.log) ps.T := g2.facts.ext e4
      cases r with
      | some confl =>
        simp only [Option.some.injEq] at he
        subst he
        have hu := upConflict_level0 e2 hlim2 hs hF (e7 confl rfl)
        exact ⟨ids, g3.empty hu, fun h => by cases h⟩
      | none =>
        simp only [Option.some.injEq] at he
        have hA : AllDer (present F db1.log) ps.T := hF.all e2 hlim2 hs
        obtain ⟨ids', k1, k2⟩ := unitFold_cert (ps.T.stack.drop T1.stack.length) ps.T { db1 with store := ps.store } ids
          ps.T.stack g3 hA (fun l hl => List.mem_of_mem_drop hl)
        subst he
        refine ⟨ids', k1, fun _ => ?_⟩
        have hd2 : DBOk F { db1 with store := ps.store } := f5.perm e5
        obtain ⟨_, _, _, _, _, m3, _⟩ := unitFold_spec (ps.T.stack.drop T1.stack.length) ps.T { db1 with store := ps.store }
          e2 hlim2 hd2 (fun l hl => List.mem_of_mem_drop hl)
        intro l hl
        dsimp only at hl
        rw [m3] at hl
        exact k2 l hl

/-! ### Search -/

/-- The certificate of a searching solver. -/
structure SCert (F R : CNF) (ids : List Nat) (s : Solver) : Prop where
  cert : CertDB F R ids s.db
  facts : Facts (present F s.db.log) s.trail

theorem learnStep_cert {s s' : Solver} {confl : Nat} (h : SCert F R ids s)
    (hc : Core F s.db.nVars s.db.next s.db.bin s.db.store s.trail) (hdl : 0 < s.trail.decisionLevel)
    (hk : Conflict s.db.next s.db.store s.trail confl) (he : learnStep s confl = some s') :
    ∃ ids', SCert F R ids' s' := by
  unfold learnStep at he
  split at he
  · cases he
  · rename_i r hr
    have hrup := handleConflict_rup hc hdl hk h.cert.subs h.facts hr
    obtain ⟨q1, q2, q3, q4, q5, q6⟩ := reestimate_fields s.db s.recalc s.trail r.involved
    have h1 : CertDB F R ids (s.db.reestimate s.recalc s.trail r.involved) :=
      h.cert.ofPerm q1 q6 q5 (fun c => by
        have := reestimate_lits s.db s.recalc s.trail r.involved c
        unfold DB.lits; rw [this]) q4
    have h2 := h1.create (ls := r.learnt) (by rw [q6]; exact hrup) r.lbd
    dsimp only at he
    split at he
    · rename_i w first rest _ hf
      simp only [Option.some.injEq] at he
      subst he
      refine ⟨_, h2, ?_⟩
      have hm : Facts (present F ((s.db.reestimate s.recalc s.trail r.involved).createClause r.learnt r.lbd).1.log) s.trail := by
        rw [createClause_log, if_neg (by simp), present_add, q6]
        exact h.facts.mono (.ofSubset fun _ hd => List.mem_append_left _ hd)
      exact (hm.backtrack _).propagate _ _
    · cases he

theorem finalFold_ne (store : Nat → Cls) (T : Trail) : ∀ (ls : List Lit) (x : (Nat → Bool) × List Lit), x.2 ≠ [] →
    (ls.foldl (finalStep store T) x).2 ≠ []
  | [], _, h => h
  | l :: ls, x, h => by
    rw [List.foldl_cons]
    refine finalFold_ne store T ls _ ?_
    unfold finalStep
    split
    · split
      · simp
      · exact h
    · exact h

theorem analyzeFinal_ne (store : Nat → Cls) (T : Trail) (p : Lit) : analyzeFinal store T p ≠ [] := by
  unfold analyzeFinal
  split
  · simp
  · exact finalFold_ne store T _ _ (by simp)

/-- One iteration of the search loop. -/
theorem searchIter_cert {s : Solver} {A : Nat → Prop} (h : SInv F A s) (hc : SCert F R ids s) {ch : Choice} {out : IterOut}
    (he : searchIter s ch = some out) :
    match out with
    | .cont s' => ∃ ids', SCert F R ids' s'
    | .done s' r => ∃ ids', SCert F R ids' s' ∧
        (r = some false → UPConflict (present F s'.db.log) ∨ s'.conflict ≠ []) := by
  obtain ⟨ps, r, e1, e2, e3, e4, e5, e6, e7, e8, e9⟩ := propagateLoop_spec (A := A)
    (s.db.nVars + 1) ⟨s.db.store, s.watch, s.trail⟩ h.core h.watch h.limq (by omega)
  unfold searchIter at he
  rw [e1] at he
  dsimp only at he e2 e3 e4 e5 e6 e7 e8 e9
  have hdb : CertDB F R ids { s.db with store := ps.store } := hc.cert.ofPerm rfl rfl rfl (fun c => (e5 c).1) rfl
  have hF : Facts (present F s.db.log) ps.T := hc.facts.ext e4
  cases r with
  | some confl =>
    dsimp only at he
    by_cases hdl : ps.T.decisionLevel = 0
    · rw [if_pos hdl] at he
      cases he
      refine ⟨ids, ⟨hdb, hF⟩, fun _ => .inl ?_⟩
      exact upConflict_level0 e2 (List.length_eq_zero_iff.1 hdl) hdb.subs hF (e7 confl rfl)
    · rw [if_neg hdl] at he
      obtain ⟨s', h1, rfl⟩ := Option.map_eq_some_iff.1 he
      exact learnStep_cert (s := { s with db := { s.db with store := ps.store }, watch := ps.watch, trail := ps.T })
        ⟨hdb, hF⟩ e2 (by simp only; omega) (e7 confl rfl) h1
  | none =>
    dsimp only at he
    have hq : ps.T.qhead = ps.T.stack.length := e6 rfl
    split at he
    · cases he
      exact ⟨ids, ⟨hdb, hF⟩, by simp⟩
    · generalize hout : assumeLoop ps.T (ps.T.assumptions.drop ps.T.decisionLevel) = o at he
      obtain ⟨T', o⟩ := o
      have hF' := assumeLoop_facts _ _ _ _ hF hout
      cases o with
      | failed p =>
        dsimp only at he
        cases he
        refine ⟨ids, ⟨hdb, hF'⟩, fun _ => .inr ?_⟩
        exact fun h => analyzeFinal_ne _ _ _ (List.append_eq_nil_iff.1 h).2
      | next p =>
        dsimp only at he
        cases he
        exact ⟨ids, hdb, hF'.newLevel.decide p (by simp [Trail.decisionLevel, Trail.newDecisionLevel])⟩
      | allSet =>
        dsimp only at he
        split at he
        · cases he
          exact ⟨ids, ⟨hdb, hF'⟩, by simp⟩
        · cases he
          exact ⟨ids, hdb, hF'.newLevel.decide _ (by simp [Trail.decisionLevel, Trail.newDecisionLevel])⟩

theorem search_cert : ∀ (fuel : Nat) (o : Nat → Choice) (A : Nat → Prop) (s : Solver) (ids : List Nat), SInv F A s →
    (∀ i, (o i).Valid) → SCert F R ids s → ∀ s' r, search fuel o s = some (s', r) →
    ∃ ids', SCert F R ids' s' ∧ (r = some false → UPConflict (present F s'.db.log) ∨ s'.conflict ≠ [])
  | 0, o, A, s, ids, _, _, _, s', r, he => by simp [search] at he
  | fuel + 1, o, A, s, ids, h, ho, hc, s', r, he => by
    rw [search] at he
    obtain ⟨out, h1, h2⟩ := searchIter_spec h (ho 0)
    have h3 := searchIter_cert h hc h1
    rw [h1] at he
    cases out with
    | done s1 r1 =>
      simp only [Option.some.injEq, Prod.mk.injEq] at he
      obtain ⟨rfl, rfl⟩ := he
      exact h3
    | cont s1 =>
      simp only at he
      obtain ⟨_, _, _, A1, _, c, _⟩ := h2
      obtain ⟨ids1, h3⟩ := h3
      exact search_cert fuel _ A1 s1 ids1 c (fun i => ho (i + 1)) h3 s' r he

/-! ### The loop of `solve` -/

/-- Rounds without inprocessing; sorting permutes the clauses. -/
structure Round.Tame (r : Round) : Prop where
  valid : r.Valid
  inprocess : r.inprocess = none
  sort : ∀ xs, (r.sort xs).Perm xs

theorem reduceVictims_nodup {km : Bool} {xs : List Nat} (h : xs.Nodup) : (reduceVictims km db xs).Nodup := by
  unfold reduceVictims
  split
  · dsimp only
    split
    · split
      · exact List.nodup_nil
      · exact (List.dropWhile_sublist _).nodup ((List.drop_sublist _ _).nodup h)
    · exact (List.drop_sublist _ _).nodup h
  · exact List.nodup_nil

theorem reduceDB_cert {cfg : Config} {sort : List Nat → List Nat} (hd : DBOk F db) (hs : ∀ xs, (sort xs).Perm xs)
    (hc : CertDB F R ids db) (he : db.hasEmpty = false) :
    CertDB F R (List.range (reduceDB cfg sort db).reorganize.next) (reduceDB cfg sort db).reorganize := by
  have hx : (reduceCandidates cfg.persistentLBD db).Nodup := List.filter_sublist.nodup hd.nodup
  have hn : (reduceVictims cfg.keepMedian db (sort (reduceCandidates cfg.persistentLBD db))).Nodup :=
    reduceVictims_nodup ((hs _).nodup_iff.2 hx)
  have hm : ∀ c ∈ reduceVictims cfg.keepMedian db (sort (reduceCandidates cfg.persistentLBD db)), c ∈ db.clauses :=
    fun c h => (List.mem_filter.1 ((hs _).mem_iff.1 (mem_reduceVictims h))).1
  unfold reduceDB
  generalize reduceVictims cfg.keepMedian db (sort (reduceCandidates cfg.persistentLBD db)) = vs at *
  have h0 := Cert0.removeFold vs ids db hc.toCert0 (fun c h => hc.cl c (hm c h)) hn
  obtain ⟨a, b, c⟩ := Candy.removeFold vs db hd (fun c h => hd.mem c (hm c h))
  have hcl : ∀ (vs : List Nat) (db : DB), (vs.foldl DB.removeClause db).clauses = db.clauses := by
    intro vs
    induction vs with
    | nil => intro _; rfl
    | cons v vs ih => intro db; rw [List.foldl_cons, ih, removeClause_clauses]
  have h1 := h0.reorganize a.nodup (by
    intro d hd
    obtain ⟨k1, k2⟩ := mem_collect.1 hd
    rw [hcl] at k1
    refine (mem_eraseFold vs ids hc.nd d).2 ⟨hc.cl d k1, fun hv => ?_⟩
    rw [removeFold_deleted vs db d (.inl hv)] at k2
    cases k2) (by rw [c, he])
  refine ⟨h1, ?_⟩
  intro d hd
  rw [reorganize_clauses] at hd
  exact hd

theorem solveRound_cert {cfg : Config} {r : Round} {sys sys' : Sys} {b : Option Bool} (h : RoundInv F sys) (hr : r.Tame)
    (hb : ∀ l ∈ sys.sol.trail.assumptions, l.var < sys.sol.db.nVars) (hE : sys.sol.db.hasEmpty = false)
    (hc : CertDB F R ids sys.sol.db) (he : solveRound cfg r sys = some (sys', b)) :
    ∃ ids', CertDB F R ids' sys'.sol.db ∧ (b ≠ some false → sys'.sol.db.hasEmpty = false) ∧
      (b = some false → UPConflict (present F sys'.sol.db.log) ∨ sys'.sol.conflict ≠ []) := by
  unfold solveRound at he
  dsimp only at he
  split at he
  · cases he
  · rename_i sys1 h1
    obtain ⟨a1, a2⟩ := h.reset.reduceStep hr.valid.sort h1
    obtain ⟨s, m1, m2, m3, _, _⟩ := a1.materialize
    have key : ∃ ids1, CertDB F R ids1 sys1.sol.db ∧ sys1.sol.trail.stack = [] := by
      unfold reduceStep at h1
      split at h1
      · rw [hr.inprocess] at h1
        simp only [Option.map_some, Option.some.injEq] at h1
        subst h1
        exact ⟨_, reduceDB_cert h.db hr.sort hc hE, rfl⟩
      · simp only [Option.some.injEq] at h1
        subst h1
        exact ⟨ids, hc, rfl⟩
    obtain ⟨ids1, c1, c2⟩ := key
    obtain ⟨ids2, c3, c4⟩ := materialize_cert a1.db a1.l0 c1 (by intro l hl; rw [c2] at hl; cases hl) m1
    rw [m1] at he
    simp only at he
    split at he
    · rename_i hE'
      simp only [Option.some.injEq, Prod.mk.injEq] at he
      obtain ⟨rfl, rfl⟩ := he
      exact ⟨ids2, c3, by simp, fun _ => .inl (c3.emp hE')⟩
    · rename_i hE'
      have hE' : s.db.hasEmpty = false := by simpa using hE'
      obtain ⟨x, hx, hxe⟩ := Option.map_eq_some_iff.1 he
      obtain ⟨s', b'⟩ := x
      simp only [Prod.mk.injEq] at hxe
      obtain ⟨rfl, rfl⟩ := hxe
      have hf := a2.trans m3
      have hS : SInv F (fun _ => False) s := m2.sinv hE' (by
        intro l hl
        have hnv : s.db.nVars = sys.sol.db.nVars := hf.nVars
        have has : s.trail.assumptions = sys.sol.trail.assumptions := hf.assumptions
        simp only at hl ⊢
        rw [has] at hl; rw [hnv]; exact hb l hl)
      obtain ⟨ids3, k1, k2⟩ := search_cert r.steps r.choice _ s ids2 hS hr.valid.choice ⟨c3, (c4 hE').facts⟩ s' b' hx
      obtain ⟨_, f1, _⟩ := search_spec r.steps r.choice _ s hS hr.valid.choice s' b' hx
      exact ⟨ids3, k1.cert, fun _ => f1.hasEmpty.trans hE', k2⟩

theorem solveLoop_cert {cfg : Config} : ∀ (rs : List Round) (sys : Sys) (ids : List Nat), RoundInv F sys →
    (∀ r ∈ rs, r.Tame) → (∀ l ∈ sys.sol.trail.assumptions, l.var < sys.sol.db.nVars) → sys.sol.conflict = [] →
    sys.sol.db.hasEmpty = false → CertDB F R ids sys.sol.db → ∀ sys' b, solveLoop cfg rs sys = some (sys', b) →
    ∃ ids', CertDB F R ids' sys'.sol.db ∧
      (b = some false → UPConflict (present F sys'.sol.db.log) ∨ sys'.sol.conflict ≠ [])
  | [], sys, ids, _, _, _, _, _, hc, sys', b, he => by
    simp only [solveLoop, Option.some.injEq, Prod.mk.injEq] at he
    obtain ⟨rfl, rfl⟩ := he
    exact ⟨ids, hc, by simp⟩
  | r :: rs, sys, ids, h, hr, hb, hcf, hE, hc, sys', b, he => by
    rw [solveLoop] at he
    split at he
    · simp at he
    · rename_i sys1 h1
      obtain ⟨a1, a2, a3, a4, a5, a6, _⟩ := solveRound_spec h (hr r (by simp)).valid hb hcf h1
      obtain ⟨a6, a7⟩ := a6 (by simp)
      obtain ⟨ids1, k1, k2, _⟩ := solveRound_cert h (hr r (by simp)) hb hE hc h1
      exact solveLoop_cert rs sys1 ids1 ⟨a1, a2, a3, a7⟩ (fun q hq => hr q (by simp [hq])) (by rw [a5, a4]; exact hb) a6
        (k2 (by simp)) k1 sys' b he
    · rename_i sys1 b1 h1
      simp only [Option.some.injEq, Prod.mk.injEq] at he
      obtain ⟨rfl, rfl⟩ := he
      obtain ⟨ids1, k1, _, k3⟩ := solveRound_cert h (hr r (by simp)) hb hE hc h1
      exact ⟨ids1, k1, k3⟩

/-- Invariant between API calls when nothing is ever simplified. -/
structure TameOk (F : CNF) (sys : Sys) : Prop where
  ok : SysOk F sys
  vars : sys.ve.vars = []
  cls : ∀ v, sys.ve.cls v = []
  cert : ∃ ids, CertDB F [] ids sys.sol.db

theorem tame_start {sys : Sys} (hv : sys.ve.vars = []) (hc : ∀ v, sys.ve.cls v = []) :
    (solveStart sys).sol = { sys.sol with conflict := [], trail := sys.sol.trail.reset,
                                          watch := resetWatch sys.sol.db } ∧
    (solveStart sys).ve.vars = [] ∧ (solveStart sys).ve.cls = sys.ve.cls := by
  obtain ⟨a, b, c, d⟩ := plain_resetLoop sys.sol.trail.reset.assumptions
    { sys.ve with frozen := fun _ => false } sys.sol.trail.reset hc
  unfold solveStart
  dsimp only
  unfold VE.reset
  rw [a, b, c, d]
  exact ⟨rfl, hv, rfl⟩

theorem tame_loop_ve {cfg : Config} : ∀ (rs : List Round) (sys : Sys), (∀ r ∈ rs, r.inprocess = none) →
    ∀ sys' b, solveLoop cfg rs sys = some (sys', b) → sys'.ve = sys.ve
  | [], sys, _, sys', b, he => by
    simp only [solveLoop, Option.some.injEq, Prod.mk.injEq] at he
    obtain ⟨rfl, rfl⟩ := he
    rfl
  | r :: rs, sys, hr, sys', b, he => by
    have hround : ∀ sys1 b1, solveRound cfg r sys = some (sys1, b1) → sys1.ve = sys.ve := by
      intro sys1 b1 h1
      unfold solveRound at h1
      dsimp only at h1
      split at h1
      · cases h1
      · rename_i sys2 h2
        have h3 : sys2.ve = sys.ve := by
          unfold reduceStep at h2
          split at h2
          · rw [hr r (by simp)] at h2
            simp only [Option.map_some, Option.some.injEq] at h2
            subst h2; rfl
          · simp only [Option.some.injEq] at h2
            subst h2; rfl
        split at h1
        · cases h1
        · split at h1
          · simp only [Option.some.injEq, Prod.mk.injEq] at h1
            obtain ⟨rfl, _⟩ := h1
            exact h3
          · obtain ⟨x, hx, hxe⟩ := Option.map_eq_some_iff.1 h1
            simp only [Prod.mk.injEq] at hxe
            obtain ⟨rfl, _⟩ := hxe
            exact h3
    rw [solveLoop] at he
    split at he
    · cases he
    · rename_i sys1 h1
      exact (tame_loop_ve rs sys1 (fun q hq => hr q (by simp [hq])) sys' b he).trans (hround _ _ h1)
    · rename_i sys1 b1 h1
      simp only [Option.some.injEq, Prod.mk.injEq] at he
      obtain ⟨rfl, rfl⟩ := he
      exact hround _ _ h1

theorem tame_solve {cfg : Config} {pre : List PreRound} {rounds : List Round} {sys sys' : Sys} {res : Result}
    (h : TameOk F sys) (hp : cfg.preprocessing = false) (hr : ∀ r ∈ rounds, r.Tame)
    (hb : ∀ l ∈ sys.sol.trail.assumptions, l.var < sys.sol.db.nVars)
    (he : solve cfg pre rounds sys = some (sys', res)) : TameOk F sys' := by
  obtain ⟨s1, s2, s3, s4⟩ := solve_sound h.ok (fun r hrm => (hr r hrm).valid) hb he
  obtain ⟨p1, p2, p3, p4, p5⟩ := solveStart_spec h.ok
  obtain ⟨q1, q2, q3⟩ := tame_start h.vars h.cls
  obtain ⟨ids, hc⟩ := h.cert
  unfold solve at he
  rw [hp] at he
  dsimp only at he
  simp only [Bool.false_eq_true, if_false] at he
  have hc1 : CertDB F [] ids (solveStart sys).sol.db := by rw [q1]; exact hc
  split at he
  · simp at he
  · rename_i sys2 status hs2
    have key : sys2.ve = (solveStart sys).ve ∧ ∃ ids2, CertDB F [] ids2 sys2.sol.db ∧
        (status = some false → UPConflict (present F sys2.sol.db.log) ∨ sys2.sol.conflict ≠ []) := by
      split at hs2
      · rename_i hE
        simp only [Option.some.injEq, Prod.mk.injEq] at hs2
        obtain ⟨rfl, rfl⟩ := hs2
        exact ⟨rfl, ids, hc1, fun _ => .inl (hc1.emp hE)⟩
      · rename_i hE
        exact ⟨tame_loop_ve rounds _ (fun r hrm => (hr r hrm).inprocess) _ _ hs2,
          solveLoop_cert rounds _ ids p2 hr (by rw [p4, p3]; exact hb) p5 (by simpa using hE) hc1 sys2 status hs2⟩
    obtain ⟨k1, ids2, k2, k3⟩ := key
    have kv : sys2.ve.vars = [] := by rw [k1]; exact q2
    have kc : ∀ v, sys2.ve.cls v = [] := by intro v; rw [k1, q3]; exact h.cls v
    unfold solveEnd at he
    split at he
    · simp only [Option.some.injEq, Prod.mk.injEq] at he
      obtain ⟨rfl, rfl⟩ := he
      exact ⟨s1, kv, kc, ids2, k2⟩
    · simp only [Option.some.injEq, Prod.mk.injEq] at he
      obtain ⟨rfl, rfl⟩ := he
      refine ⟨s1, kv, kc, ids2, ?_⟩
      dsimp only
      split
      · rename_i hcf
        refine k2.empty ((k3 rfl).resolve_right fun hn => hn ?_)
        simpa using hcf
      · exact k2
    · rw [kv] at he
      simp only [List.reverse_nil, extendModel, Option.some.injEq, Prod.mk.injEq] at he
      obtain ⟨rfl, rfl⟩ := he
      exact ⟨s1, kv, kc, ids2, k2⟩

/-! ### Adding clauses -/

theorem CertDB.grow {G : CNF} (h : CertDB F [] ids db) : CertDB (F ++ G) G ids db := by
  obtain ⟨h1, h2⟩ := h.checks.grow (CLe.refl (F ++ G))
  exact {
    checks := h1
    nd := h.nd
    lt := h.lt
    cnt := by
      refine CLe.trans ?_ h2
      have := h.cnt
      rw [List.append_nil] at this
      exact this.append (.refl G)
    sub := h.sub
    emp := fun he => (h.emp he).mono ((CLe.left _ G).trans h2).subsumed
    cl := h.cl }

theorem createFold_cert {lem : Bool} : ∀ (G : CNF) (db : DB) (ids : List Nat), CertDB F G ids db →
    ∃ ids', CertDB F [] ids' (G.foldl (fun d c => (d.createClause c (if lem then 0 else c.length) lem).1) db)
  | [], _, ids, h => ⟨ids, h⟩
  | c :: G, db, ids, h => by
    rw [List.foldl_cons]
    exact createFold_cert G _ _ (h.give _ lem)

theorem dbInit_cert {nv : Nat} {G : CNF} {lem : Bool} (h : CertDB F [] ids db) :
    ∃ ids', CertDB (F ++ G) [] ids' (db.init nv G lem) := by
  unfold DB.init
  dsimp only
  refine createFold_cert G _ ids ?_
  split
  · exact h.grow.ofPerm rfl rfl rfl (fun _ => .refl _) rfl
  · exact h.grow

theorem tame_init {sys : Sys} (h : TameOk F sys) {nv : Nat} {G : CNF} {lem : Bool}
    (hG : WfCNF (max sys.sol.db.nVars nv) G) : TameOk (F ++ G) (sys.init nv G lem) := by
  obtain ⟨a1, a2, _⟩ := init_sound h.ok (lem := lem) hG
  have e : sys.init nv G lem = { sys with sol := { sys.sol with
      db := sys.sol.db.init nv G lem, trail := sys.sol.trail.init (sys.sol.db.init nv G lem).nVars,
      watch := attachAll (sys.sol.db.init nv G lem).store sys.sol.watch (sys.sol.db.init nv G lem).clauses } } := by
    unfold Sys.init
    dsimp only
    rw [plain_restoreAll _ _ (by exact h.cls)]
  obtain ⟨ids, hc⟩ := h.cert
  refine ⟨a1, ?_, ?_, ?_⟩
  · rw [e]; exact h.vars
  · rw [e]; exact h.cls
  · rw [e]; exact dbInit_cert hc

theorem tame_new (recalc : Bool) : TameOk [] (Sys.new recalc) where
  ok := new_ok recalc
  vars := rfl
  cls _ := rfl
  cert := ⟨[], ⟨⟨⟨trivial, List.nodup_nil, by simp, .refl _⟩, fun c hc => absurd hc (Nat.not_lt_zero _),
    fun h => by cases h⟩, fun c hc => by cases hc⟩⟩

end Candy
