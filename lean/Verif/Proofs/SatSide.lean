import Verif.Proofs.Solve

/-! The models reported by `solve`. -/

namespace Candy

variable {F G B : CNF} {nV next : Nat} {bin : Lit → List Watcher} {store : Nat → Cls} {T : Trail}
variable {watch : Lit → List Watcher} {A : Nat → Prop}

/-- A long clause is in the watch lists of its first two literals. -/
def Attached (store : Nat → Cls) (watch : Lit → List Watcher) (c : Nat) : Prop :=
  ∀ x y r, (store c).lits = x :: y :: r → r ≠ [] →
    (∃ w ∈ watch x.neg, w.cref = c) ∧ (∃ w ∈ watch y.neg, w.cref = c)

/-- Every clause of `B` is stored as a permanent clause. -/
def CarriesDB (B : CNF) (db : DB) : Prop :=
  ∀ b ∈ B, ∃ c ∈ db.clauses, (db.store c).weight = 0 ∧ (db.lits c).Perm b

/-- Every clause of `B` is stored as a permanent clause and watched. -/
def Carries (B : CNF) (db : DB) (watch : Lit → List Watcher) : Prop :=
  ∀ b ∈ B, ∃ c ∈ db.clauses, (db.store c).weight = 0 ∧ (db.lits c).Perm b ∧
    Attached db.store watch c

theorem Carries.toDB {db : DB} (h : Carries B db watch) : CarriesDB B db := by
  intro b hb
  obtain ⟨c, h1, h2, h3, _⟩ := h b hb
  exact ⟨c, h1, h2, h3⟩

theorem attached_resetWatch {db : DB} {c : Nat} (h : c ∈ db.clauses) :
    Attached db.store (resetWatch db) c := by
  intro x y r hl hr
  obtain ⟨a, b⟩ := attachAll_all (watch := fun _ => []) db.clauses h hl hr
  exact ⟨⟨_, a, rfl⟩, ⟨_, b, rfl⟩⟩

theorem CarriesDB.reset {db : DB} (h : CarriesDB B db) : Carries B db (resetWatch db) := by
  intro b hb
  obtain ⟨c, h1, h2, h3⟩ := h b hb
  exact ⟨c, h1, h2, h3, attached_resetWatch h1⟩

theorem not_deleted_of_zero {db : DB} {c : Nat} (h : (db.store c).weight = 0) :
    (db.store c).isDeleted = false := by
  simp [Cls.isDeleted, h, Cls.deletedWeight]

theorem removeClause_all (db : DB) (c : Nat) :
    (db.removeClause c).store = upd db.store c ⟨db.lits c, Cls.deletedWeight⟩ ∧
    (db.removeClause c).clauses = db.clauses ∧ (db.removeClause c).next = db.next := by
  unfold DB.removeClause
  dsimp only
  split <;> exact ⟨rfl, rfl, rfl⟩

theorem removeFold_keep : ∀ (cs : List Nat) (db : DB) (c : Nat), c ∉ cs →
    (cs.foldl DB.removeClause db).store c = db.store c ∧
    (cs.foldl DB.removeClause db).clauses = db.clauses
  | [], db, c, _ => ⟨rfl, rfl⟩
  | d :: cs, db, c, h => by
    rw [List.foldl_cons]
    obtain ⟨h1, h2⟩ := removeFold_keep cs (db.removeClause d) c (fun hh => h (by simp [hh]))
    obtain ⟨h3, h4, _⟩ := removeClause_all db d
    rw [h1, h2, h3, h4]
    exact ⟨upd_ne _ _ (fun hh => h (by simp [hh])), rfl⟩

/-- Reduction never touches a permanent clause. -/
theorem reduceDB_keep {cfg : Config} {sort : List Nat → List Nat} {db : DB} {c : Nat}
    (hs : ∀ xs, ∀ x ∈ sort xs, x ∈ xs) (hc : (db.store c).weight = 0) :
    (reduceDB cfg sort db).store c = db.store c := by
  refine (removeFold_keep _ db c ?_).1
  intro hm
  have := hs _ _ (mem_reduceVictims hm)
  unfold reduceCandidates at this
  have := (List.mem_filter.1 this).2
  simp [hc] at this

theorem reduceDB_clauses (cfg : Config) (sort : List Nat → List Nat) (db : DB) :
    (reduceDB cfg sort db).clauses = db.clauses := by
  unfold reduceDB
  generalize reduceVictims cfg.keepMedian db (sort (reduceCandidates cfg.persistentLBD db)) = cs
  induction cs generalizing db with
  | nil => rfl
  | cons d cs ih => rw [List.foldl_cons, ih, (removeClause_all db d).2.1]

theorem CarriesDB.reduceDB {cfg : Config} {sort : List Nat → List Nat} {db : DB}
    (hs : ∀ xs, ∀ x ∈ sort xs, x ∈ xs) (h : CarriesDB B db) : CarriesDB B (reduceDB cfg sort db) := by
  intro b hb
  obtain ⟨c, h1, h2, h3⟩ := h b hb
  refine ⟨c, by rw [reduceDB_clauses]; exact h1, ?_, ?_⟩
  · rw [reduceDB_keep hs h2]; exact h2
  · show List.Perm ((Candy.reduceDB cfg sort db).store c).lits b
    rw [reduceDB_keep hs h2]; exact h3

theorem CarriesDB.reorganize {db : DB} (h : CarriesDB B db) : CarriesDB B db.reorganize := by
  intro b hb
  obtain ⟨c, h1, h2, h3⟩ := h b hb
  have hm := mem_collect.2 ⟨h1, not_deleted_of_zero h2⟩
  obtain ⟨i, hi, he⟩ := List.getElem_of_mem hm
  have hg : db.collect[i]? = some c := by rw [List.getElem?_eq_getElem hi, he]
  refine ⟨i, ?_, ?_, ?_⟩
  · rw [reorganize_clauses]; simpa using hi
  · rw [reorganize_store hg]; exact h2
  · show List.Perm (db.reorganize.store i).lits b
    rw [reorganize_store hg]; exact h3

/-- The permanent watched clauses at the start of a search round. -/
def PermA (db : DB) (watch : Lit → List Watcher) (c : Nat) : Prop :=
  c ∈ db.clauses ∧ (db.store c).weight = 0 ∧ Attached db.store watch c

/-- The search invariant after materialisation with an empty trail at the start. -/
theorem start_sinv {s s' : Solver} (hd : DBOk F s.db) (hs : s.trail.stack = [])
    (hm : Mat F s s') (hne : s'.db.hasEmpty = false)
    (hb : ∀ l ∈ s'.trail.assumptions, l.var < s'.db.nVars) :
    SInv F (PermA s.db s.watch) s' := by
  have hl' := hm.l0 hne
  have hlt : ∀ c, PermA s.db s.watch c → c < s.db.next := fun c hc => hd.mem c hc.1
  refine {
    db := hm.db
    core := hl'.core
    watch := hl'.watch
    limq := by intro k hk; rw [hl'.lim] at hk; simp at hk
    cinv := hm.cinv hne _ hlt ?_
    alt := fun c hc => Nat.lt_of_lt_of_le (hlt c hc) hm.add.next
    units := ?_
    nonempty := ?_
    asmBound := hb
    asm := by
      intro p hp _ h0
      rw [level_zero hl'.core.tinv hl'.lim hp] at h0; omega
    asmTrue := by
      intro i p _ hi
      simp [Trail.decisionLevel, hl'.lim] at hi }
  · refine ⟨fun c hc => hc.2.2, fun c hc x y hxy => ?_, fun c _ x y r _ w _ => Or.inr ?_⟩
    · exact hd.binAll c hc.1 hc.2.1 x y hxy
    · intro hw; rw [hs] at hw; simp at hw
  · intro c hc l hcl
    have hp := hm.add.lits c (hlt c hc)
    unfold DB.lits at hp
    rw [hcl] at hp
    have := hm.units hne c hc.1 (not_deleted_of_zero hc.2.1) l (List.perm_singleton.1 hp.symm)
    exact ⟨this, level_zero hl'.core.tinv hl'.lim this⟩
  · intro c hc he
    have := hm.db.emptAll c (hm.add.mem hc.1) he
    rw [this] at hne; simp at hne

/-- What the later rounds of the loop and the end of `solve` rely on. -/
structure RoundSat (B : CNF) (sys' : Sys) (b : Option Bool) : Prop where
  carries : Carries B sys'.sol.db sys'.sol.watch
  sat : b = some true → ∀ c ∈ B, (∀ l ∈ c, sys'.sol.trail.decision l.var = true) →
    ∃ l ∈ c, l ∈ sys'.sol.trail.stack
  complete : b = some true → Complete sys'.sol
  tinv : b = some true → sys'.sol.trail.Inv

theorem reduceStep_plain {cfg : Config} {r : Round} {sys : Sys} (hin : r.inprocess = none) :
    ∃ db w, reduceStep cfg r sys = some { sys with sol := { sys.sol with db := db, watch := w } } ∧
      (r.trigger = true → db = (reduceDB cfg r.sort sys.sol.db).reorganize ∧ w = resetWatch db) ∧
      (r.trigger = false → db = sys.sol.db ∧ w = sys.sol.watch) := by
  unfold reduceStep
  rw [hin]
  cases r.trigger with
  | true => exact ⟨_, _, rfl, fun _ => ⟨rfl, rfl⟩, by simp⟩
  | false => exact ⟨_, _, rfl, by simp, fun _ => ⟨rfl, rfl⟩⟩

/-- Clauses that may still be used mention decision variables only. -/
def DecDB (T : Trail) (db : DB) : Prop :=
  ∀ c ∈ db.clauses, (db.store c).isDeleted = false → ∀ l ∈ db.lits c, T.decision l.var = true

theorem solveRound_model {cfg : Config} {r : Round} {sys sys' : Sys} {b : Option Bool}
    (h : RoundInv F sys) (hr : ∀ i, (r.choice i).Valid) (hin : r.inprocess = none)
    (hs : ∀ xs, ∀ x ∈ r.sort xs, x ∈ xs)
    (hb : ∀ l ∈ sys.sol.trail.assumptions, l.var < sys.sol.db.nVars)
    (hc : Carries B sys.sol.db sys.sol.watch)
    (he : solveRound cfg r sys = some (sys', b)) :
    sys'.ve = sys.ve ∧ sys'.sol.trail.decision = sys.sol.trail.decision ∧
    CarriesDB B sys'.sol.db ∧
    (b ≠ some false → RoundSat B sys' b ∧
      ((∀ l ∈ sys.sol.trail.assumptions, sys.sol.trail.decision l.var = true) →
       (r.trigger = true → DecDB sys.sol.trail sys.sol.db) →
       (r.trigger = false → ∀ c < sys.sol.db.next, ∀ l ∈ sys.sol.db.lits c,
          sys.sol.trail.decision l.var = true) → DInv sys'.sol)) := by
  obtain ⟨db, w, e1, e2, e3⟩ := reduceStep_plain (cfg := cfg)
    (sys := { sys with sol := { sys.sol with trail := sys.sol.trail.reset } }) hin
  obtain ⟨a1, a2⟩ := h.reset.reduceStep hs e1
  have hcar : Carries B db w := by
    cases ht : r.trigger with
    | true =>
      obtain ⟨rfl, rfl⟩ := e2 ht
      exact (hc.toDB.reduceDB hs).reorganize.reset
    | false =>
      obtain ⟨rfl, rfl⟩ := e3 ht
      exact hc
  unfold solveRound at he
  dsimp only at he e1
  rw [e1] at he
  dsimp only at he
  cases hE0 : db.hasEmpty with
  | true =>
    obtain ⟨s, h1, h2, h3, h4, h5, h6, h7, h8⟩ := materialize_empty (s :=
      { sys.sol with trail := sys.sol.trail.reset, db := db, watch := w }) a1.db hE0
    rw [h1] at he
    simp only [h4] at he
    simp only [if_true, Option.some.injEq, Prod.mk.injEq] at he
    obtain ⟨rfl, rfl⟩ := he
    refine ⟨rfl, ?_, ?_, by simp⟩
    · exact h8
    · intro b hb
      obtain ⟨c, k1, k2, k3, _⟩ := hcar b hb
      refine ⟨c, by rw [h3.clauses]; exact k1, by rw [h3.store]; exact k2, ?_⟩
      unfold DB.lits
      rw [h3.store]; exact k3
  | false =>
    have hl0 := a1.l0 hE0
    obtain ⟨s, h1, hm⟩ := materialize_spec a1.db hl0
    rw [h1] at he
    dsimp only at he
    have hcs : CarriesDB B s.db := by
      intro b hb
      obtain ⟨c, k1, k2, k3, _⟩ := hcar b hb
      have hlt := a1.db.mem c k1
      refine ⟨c, hm.add.mem k1, by rw [hm.add.weight c hlt]; exact k2, ?_⟩
      exact (hm.add.lits c hlt).trans k3
    split at he
    · rename_i hE
      simp only [Option.some.injEq, Prod.mk.injEq] at he
      obtain ⟨rfl, rfl⟩ := he
      exact ⟨rfl, hm.grow.decision, hcs, by simp⟩
    · rename_i hE
      have hE : s.db.hasEmpty = false := by simpa using hE
      obtain ⟨x, hx, hxe⟩ := Option.map_eq_some_iff.1 he
      obtain ⟨s', b'⟩ := x
      simp only [Prod.mk.injEq] at hxe
      obtain ⟨rfl, rfl⟩ := hxe
      have hS := start_sinv a1.db rfl hm hE (by
        intro l hl
        rw [hm.grow.assumptions] at hl
        rw [hm.add.nVars]
        have h5 : db.nVars = sys.sol.db.nVars := a2.nVars
        simp only
        rw [h5]
        exact hb l hl)
      obtain ⟨f0, f1, f2, f3, f4, f5⟩ := search_spec r.steps r.choice _ s hS hr s' b' hx
      have hcs' : CarriesDB B s'.db := by
        intro b hb
        obtain ⟨c, k1, k2, k3⟩ := hcs b hb
        have hlt := hm.db.mem c k1
        obtain ⟨ext, g1, _⟩ := f1.clauses
        refine ⟨c, by rw [g1]; exact List.mem_append_left _ k1, f1.weight c hlt k2, ?_⟩
        exact (f1.perm c hlt).trans k3
      refine ⟨rfl, f1.decision.trans hm.grow.decision, hcs', fun hb' => ⟨?_, ?_⟩⟩
      · obtain ⟨_, A', g1, g2, g3⟩ := f3 hb'
        have key : ∀ b ∈ B, ∃ c, A' c ∧ c ∈ s'.db.clauses ∧ (s'.db.store c).weight = 0 ∧
            (s'.db.lits c).Perm b := by
          intro b hb
          obtain ⟨c, k1, k2, k3, k4⟩ := hcar b hb
          have hlt := a1.db.mem c k1
          have hlt' : c < s.db.next := Nat.lt_of_lt_of_le hlt hm.add.next
          obtain ⟨ext, q1, _⟩ := f1.clauses
          refine ⟨c, g1 c ⟨k1, k2, k4⟩, by rw [q1]; exact List.mem_append_left _ (hm.add.mem k1), ?_, ?_⟩
          · exact f1.weight c hlt' (by rw [hm.add.weight c hlt]; exact k2)
          · exact (f1.perm c hlt').trans ((hm.add.lits c hlt).trans k3)
        refine ⟨?_, ?_, f5, fun _ => g2.core.tinv⟩
        · intro b hb
          obtain ⟨c, k1, k2, k3, k4⟩ := key b hb
          exact ⟨c, k2, k3, k4, g2.cinv.w1 c k1⟩
        · intro ht b hb hdec
          obtain ⟨c, k1, k2, k3, k4⟩ := key b hb
          obtain ⟨l, l1, l2⟩ := g2.satisfied (f5 ht) k1 (fun l hl => hdec l (k4.mem_iff.1 hl))
          exact ⟨l, k4.mem_iff.1 l1, l2⟩
      · intro hasm hD1 hD2
        have hbase : ∀ c < db.next, ∀ l ∈ (db.store c).lits,
            sys.sol.trail.decision l.var = true := by
          cases ht : r.trigger with
          | false => obtain ⟨rfl, rfl⟩ := e3 ht; exact hD2 ht
          | true =>
            obtain ⟨rfl, rfl⟩ := e2 ht
            intro c hlt l hl
            obtain ⟨d, _, d1, d2, d3⟩ := reorganize_get hlt
            rw [d3] at hl
            simp only at d1 d2 hl
            rw [reduceDB_clauses] at d1
            have hrd : ∀ (cs : List Nat) (db : DB) (d : Nat),
                ((cs.foldl DB.removeClause db).store d).isDeleted = false →
                (cs.foldl DB.removeClause db).store d = db.store d := by
              intro cs
              induction cs with
              | nil => intro db d _; rfl
              | cons e cs ih =>
                intro db d hdel
                rw [List.foldl_cons] at hdel ⊢
                have h1 := ih _ _ hdel
                rw [h1] at hdel ⊢
                rw [(removeClause_all db e).1] at hdel ⊢
                by_cases hde : d = e
                · subst hde; simp [Cls.isDeleted, Cls.deletedWeight] at hdel
                · exact upd_ne _ _ hde
            have hst := hrd _ _ _ d2
            unfold Candy.reduceDB at hl
            rw [hst] at hl
            unfold Candy.reduceDB at d2
            rw [hst] at d2
            exact hD1 ht d d1 d2 l hl
        refine f0 ⟨?_, ?_, ?_⟩
        · intro c hlt l hl
          rw [hm.grow.decision]
          by_cases hcn : c < db.next
          · exact hbase c hcn l ((hm.add.lits c hcn).mem_iff.1 hl)
          · obtain ⟨m, m1, m2⟩ := hm.add.news c (by simp only; omega) hlt
            have hl' : l ∈ s.db.lits c := hl
            rw [m2] at hl'
            simp at hl'; subst hl'
            exact hm.src (fun v => sys.sol.trail.decision v = true) hbase
              (by simp [Trail.reset]) l m1
        · intro l hl
          rw [hm.grow.decision]
          exact hm.src (fun v => sys.sol.trail.decision v = true) (hbase) (by simp [Trail.reset]) l hl
        · intro l hl
          rw [hm.grow.assumptions] at hl
          rw [hm.grow.decision]
          exact hasm l hl

/-- All stored clauses mention decision variables only. -/
def DecAll (T : Trail) (db : DB) : Prop :=
  ∀ c < db.next, ∀ l ∈ db.lits c, T.decision l.var = true

/-- A round as used without inprocessing. -/
structure Round.Plain (r : Round) : Prop where
  choice : ∀ i, (r.choice i).Valid
  inprocess : r.inprocess = none
  sort : ∀ xs, ∀ x ∈ r.sort xs, x ∈ xs

theorem solveLoop_model {cfg : Config} : ∀ (rs : List Round) (sys : Sys), RoundInv F sys →
    (∀ r ∈ rs, r.Plain) →
    (∀ l ∈ sys.sol.trail.assumptions, l.var < sys.sol.db.nVars) → sys.sol.conflict = [] →
    Carries B sys.sol.db sys.sol.watch →
    ∀ sys' b, solveLoop cfg rs sys = some (sys', b) →
    sys'.ve = sys.ve ∧ sys'.sol.trail.decision = sys.sol.trail.decision ∧
    CarriesDB B sys'.sol.db ∧
    (b = some true → RoundSat B sys' b ∧
      ((∀ l ∈ sys.sol.trail.assumptions, sys.sol.trail.decision l.var = true) →
       (∀ r, rs.head? = some r → (r.trigger = true → DecDB sys.sol.trail sys.sol.db) ∧
         (r.trigger = false → DecAll sys.sol.trail sys.sol.db)) → DInv sys'.sol))
  | [], sys, h, _, _, hcf, hc, sys', b, he => by
    simp only [solveLoop, Option.some.injEq, Prod.mk.injEq] at he
    obtain ⟨rfl, rfl⟩ := he
    exact ⟨rfl, rfl, hc.toDB, by simp⟩
  | r :: rs, sys, h, hr, hb, hcf, hc, sys', b, he => by
    have hp := hr r (by simp)
    rw [solveLoop] at he
    split at he
    · simp at he
    · rename_i sys1 h1
      obtain ⟨a1, a2, a3, a4, a5, a6, _⟩ := solveRound_spec h ⟨hp.choice, hp.sort⟩ hb hcf h1
      obtain ⟨m1, m2, m3, m4⟩ := solveRound_model h hp.choice hp.inprocess hp.sort hb hc h1
      obtain ⟨m4, m5⟩ := m4 (by simp)
      obtain ⟨a6, a7⟩ := a6 (by simp)
      obtain ⟨c1, c2, c3, c4⟩ := solveLoop_model rs sys1 ⟨a1, a2, a3, a7⟩
        (fun q hq => hr q (by simp [hq])) (by rw [a5, a4]; exact hb) a6 m4.carries sys' b he
      refine ⟨c1.trans m1, c2.trans m2, c3, fun hb' => ?_⟩
      obtain ⟨d1, d2⟩ := c4 hb'
      refine ⟨d1, fun hasm hd => ?_⟩
      have hD := m5 hasm (hd r rfl).1 (hd r rfl).2
      refine d2 hD.asm (fun r' _ => ⟨fun _ => ?_, fun _ => hD.cls⟩)
      intro c hc' _ l hl
      exact hD.cls c (a1.mem c hc') l hl
    · rename_i sys1 b1 h1
      simp only [Option.some.injEq, Prod.mk.injEq] at he
      obtain ⟨rfl, rfl⟩ := he
      obtain ⟨m1, m2, m3, m4⟩ := solveRound_model h hp.choice hp.inprocess hp.sort hb hc h1
      refine ⟨m1, m2, m3, fun hb' => ?_⟩
      obtain ⟨m4, m5⟩ := m4 (by rw [hb']; simp)
      exact ⟨m4, fun hasm hd => m5 hasm (hd r rfl).1 (hd r rfl).2⟩

/-! ### Reading off the model -/

theorem modelOf_setValue (T : Trail) (p : Lit) :
    modelOf (T.setValue p) = upd (modelOf T) p.var (some (!p.sign)) := by
  simp [modelOf, Trail.setValue]

theorem modelFold : ∀ (ls : List Lit) (m : Nat → Option Bool), (ls.map Lit.var).Nodup →
    (∀ l ∈ ls, (ls.foldl (fun m l => upd m l.var (some (!l.sign))) m) l.var = some (!l.sign)) ∧
    (∀ v, v ∉ ls.map Lit.var → (ls.foldl (fun m l => upd m l.var (some (!l.sign))) m) v = m v)
  | [], m, _ => ⟨by simp, by simp⟩
  | p :: ls, m, h => by
    rw [List.map_cons, List.nodup_cons] at h
    obtain ⟨h1, h2⟩ := modelFold ls (upd m p.var (some (!p.sign))) h.2
    rw [List.foldl_cons]
    refine ⟨fun l hl => ?_, fun v hv => ?_⟩
    · rcases List.mem_cons.1 hl with rfl | hl
      · rw [h2 _ h.1]; simp
      · exact h1 l hl
    · simp only [List.map_cons, List.mem_cons, not_or] at hv
      rw [h2 v hv.2]; exact upd_ne _ _ hv.1

theorem stack_vars_nodup {T : Trail} (h : T.Inv) : (T.stack.map Lit.var).Nodup := by
  have key : ∀ ls : List Lit, ls.Nodup → (∀ l ∈ ls, ∀ m ∈ ls, l.var = m.var → l = m) →
      (ls.map Lit.var).Nodup := by
    intro ls
    induction ls with
    | nil => simp
    | cons p ls ih =>
      intro hn hi
      have hn' := List.nodup_cons.1 hn
      rw [List.map_cons, List.nodup_cons]
      refine ⟨fun hm => ?_, ih hn'.2 (fun l hl m hm => hi l (by simp [hl]) m (by simp [hm]))⟩
      obtain ⟨q, hq, he⟩ := List.mem_map.1 hm
      have := hi q (by simp [hq]) p (by simp) he
      subst this; exact hn'.1 hq
  exact key _ h.nodup (fun l hl m hm => h.varInj hl hm)

theorem modelOf_assigns {T : Trail} (h : T.Inv) : modelOf T = T.assigns := by
  obtain ⟨h1, h2⟩ := modelFold T.stack (fun _ => none) (stack_vars_nodup h)
  funext v
  by_cases hv : v ∈ T.stack.map Lit.var
  · obtain ⟨l, hl, rfl⟩ := List.mem_map.1 hv
    rw [show modelOf T l.var = some (!l.sign) from h1 l hl]
    have := (h.val l).2 hl
    unfold Trail.value at this
    cases ha : T.assigns l.var with
    | none => rw [ha] at this; simp at this
    | some b =>
      rw [ha] at this
      simp only [Option.some.injEq] at this
      congr 1
      revert this
      cases b <;> cases l.sign <;> simp
  · rw [show modelOf T v = none from h2 v hv]
    cases ha : T.assigns v with
    | none => rfl
    | some b =>
      exfalso
      have : T.value ⟨v, !b⟩ = some true := by
        unfold Trail.value; simp only; rw [ha]; cases b <;> rfl
      exact hv (List.mem_map.2 ⟨_, (h.val _).1 this, rfl⟩)

theorem modelOf_mem {T : Trail} (h : T.Inv) {l : Lit} (hl : l ∈ T.stack) :
    modelOf T l.var = some (!l.sign) :=
  (modelFold T.stack (fun _ => none) (stack_vars_nodup h)).1 l hl

/-! ### Histories without elimination -/

/-- Invariant between API calls when nothing is ever eliminated. -/
structure PlainOk (F : CNF) (sys : Sys) : Prop where
  ok : SysOk F sys
  vars : sys.ve.vars = []
  cls : ∀ v, sys.ve.cls v = []
  dec : ∀ v, sys.sol.trail.decision v = true
  carries : CarriesDB F sys.sol.db
  wf : ∀ c ∈ F, ∀ l ∈ c, l.var < sys.sol.db.nVars

theorem plain_resetLoop : ∀ (ls : List Lit) (ve : VE) (T : Trail), (∀ v, ve.cls v = []) →
    (VE.resetLoop ls ve T []).1 = [] ∧ (VE.resetLoop ls ve T []).2.2 = T ∧
    (VE.resetLoop ls ve T []).2.1.vars = ve.vars ∧ (VE.resetLoop ls ve T []).2.1.cls = ve.cls
  | [], ve, T, _ => ⟨rfl, rfl, rfl, rfl⟩
  | l :: ls, ve, T, h => by
    rw [VE.resetLoop]
    have : ({ ve with frozen := upd ve.frozen l.var true } : VE).isEliminated l.var = false := by
      simp [VE.isEliminated, h]
    simp only [this]
    exact plain_resetLoop ls { ve with frozen := upd ve.frozen l.var true } T h

theorem plain_start {sys : Sys} (h : PlainOk F sys) :
    (solveStart sys).sol = { sys.sol with conflict := [], trail := sys.sol.trail.reset,
                                          watch := resetWatch sys.sol.db } ∧
    (solveStart sys).ve.vars = [] ∧ (solveStart sys).ve.cls = sys.ve.cls := by
  obtain ⟨a, b, c, d⟩ := plain_resetLoop sys.sol.trail.reset.assumptions
    { sys.ve with frozen := fun _ => false } sys.sol.trail.reset h.cls
  unfold solveStart
  dsimp only
  unfold VE.reset
  rw [a, b, c, d]
  exact ⟨rfl, h.vars, rfl⟩

theorem plain_solve {cfg : Config} {pre : List PreRound} {rounds : List Round} {sys sys' : Sys}
    {res : Result} (h : PlainOk F sys) (hp : cfg.preprocessing = false)
    (hr : ∀ r ∈ rounds, r.Plain)
    (hb : ∀ l ∈ sys.sol.trail.assumptions, l.var < sys.sol.db.nVars)
    (he : solve cfg pre rounds sys = some (sys', res)) :
    PlainOk F sys' ∧ (res.status = some true →
      (∀ c ∈ F, ∃ l ∈ c, res.model l.var = some (!l.sign)) ∧
      (∀ l ∈ sys.sol.trail.assumptions, res.model l.var = some (!l.sign)) ∧
      (∀ v < sys.sol.db.nVars, res.model v ≠ none)) := by
  obtain ⟨s1, s2, s3, s4⟩ := solve_sound h.ok (fun r hrm => ⟨(hr r hrm).choice, (hr r hrm).sort⟩) hb he
  obtain ⟨p1, p2, p3, p4, p5⟩ := solveStart_spec h.ok
  obtain ⟨q1, q2, q3⟩ := plain_start h
  unfold solve at he
  rw [hp] at he
  dsimp only at he
  simp only [Bool.false_eq_true, if_false] at he
  have hcar : Carries F (solveStart sys).sol.db (solveStart sys).sol.watch := by
    rw [q1]; exact h.carries.reset
  have hdec : (solveStart sys).sol.trail.decision = sys.sol.trail.decision := by rw [q1]; rfl
  split at he
  · simp at he
  · rename_i sys2 status hs2
    have key : sys2.ve = (solveStart sys).ve ∧ sys2.sol.trail.decision = sys.sol.trail.decision ∧
        CarriesDB F sys2.sol.db ∧ (status = some true → RoundSat F sys2 status) := by
      split at hs2
      · simp only [Option.some.injEq, Prod.mk.injEq] at hs2
        obtain ⟨rfl, rfl⟩ := hs2
        exact ⟨rfl, hdec, hcar.toDB, by simp⟩
      · obtain ⟨c1, c2, c3, c4⟩ := solveLoop_model rounds _ p2 hr (by rw [p4, p3]; exact hb) p5 hcar
          sys2 status hs2
        exact ⟨c1, c2.trans hdec, c3, fun hb' => (c4 hb').1⟩
    obtain ⟨k1, k2, k3, k4⟩ := key
    have kv : sys2.ve.vars = [] := by rw [k1]; exact q2
    have kc : ∀ v, sys2.ve.cls v = [] := by intro v; rw [k1, q3]; exact h.cls v
    unfold solveEnd at he
    split at he
    · simp only [Option.some.injEq, Prod.mk.injEq] at he
      obtain ⟨rfl, rfl⟩ := he
      refine ⟨⟨s1, kv, kc, ?_, k3, ?_⟩, by simp⟩
      · intro v; simp only [Trail.backtrack_decision]; rw [k2]; exact h.dec v
      · rw [s2]; exact h.wf
    · simp only [Option.some.injEq, Prod.mk.injEq] at he
      obtain ⟨rfl, rfl⟩ := he
      refine ⟨⟨s1, kv, kc, ?_, ?_, ?_⟩, by simp⟩
      · intro v; simp only [Trail.backtrack_decision]; rw [k2]; exact h.dec v
      · simp only
        split
        · exact k3
        · exact k3
      · rw [s2]; exact h.wf
    · rw [kv] at he
      simp only [List.reverse_nil, extendModel, Option.some.injEq, Prod.mk.injEq] at he
      obtain ⟨rfl, rfl⟩ := he
      have hk := k4 rfl
      refine ⟨⟨s1, kv, kc, ?_, k3, ?_⟩, fun _ => ⟨?_, ?_, ?_⟩⟩
      · intro v; simp only [Trail.backtrack_decision]; rw [k2]; exact h.dec v
      · rw [s2]; exact h.wf
      · intro c hc
        obtain ⟨l, l1, l2⟩ := hk.sat rfl c hc (fun l _ => by rw [k2]; exact h.dec _)
        exact ⟨l, l1, modelOf_mem (hk.tinv rfl) l2⟩
      · intro l hl
        refine modelOf_mem (hk.tinv rfl) ((hk.complete rfl).assumptions l ?_)
        have : sys2.sol.trail.assumptions = sys.sol.trail.assumptions := by
          simpa [Trail.backtrack_assumptions] using s3
        rw [this]; exact hl
      · intro v hv
        simp only
        rw [modelOf_assigns (hk.tinv rfl)]
        refine (hk.complete rfl).decided v ?_ (by rw [k2]; exact h.dec v)
        have e1 := s1.nv
        simp only [Trail.backtrack_nVars] at e1
        rw [e1]
        simp only at s2
        rw [s2]; exact hv

theorem createFold_carries {f : Clause → Nat} {lem : Bool} (hf : ∀ c, f c = 0) :
    ∀ (cs : List Clause) (B : CNF) (db : DB), (∀ c ∈ db.clauses, c < db.next) → CarriesDB B db →
    CarriesDB (B ++ cs) (cs.foldl (fun d c => (d.createClause c (f c) lem).1) db)
  | [], B, db, _, h => by simpa using h
  | c :: cs, B, db, hlt, h => by
    rw [List.foldl_cons]
    have := createFold_carries hf cs (B ++ [c]) (lem := lem) (db.createClause c (f c) lem).1
      (by
        intro d hd
        rw [createClause_clauses] at hd
        rw [createClause_next]
        rcases List.mem_append.1 hd with hd | hd
        · have := hlt d hd; omega
        · simp at hd; omega)
      (by
        intro b hb
        rcases List.mem_append.1 hb with hb | hb
        · obtain ⟨d, h1, h2, h3⟩ := h b hb
          have hne : d ≠ db.next := by have := hlt d h1; omega
          refine ⟨d, by rw [createClause_clauses]; exact List.mem_append_left _ h1, ?_, ?_⟩
          · rw [createClause_store, upd_ne _ _ hne]; exact h2
          · unfold DB.lits; rw [createClause_store, upd_ne _ _ hne]; exact h3
        · simp at hb; subst hb
          refine ⟨db.next, by rw [createClause_clauses]; simp, ?_, ?_⟩
          · rw [createClause_store]; simp [hf]
          · unfold DB.lits; rw [createClause_store]; simp)
    simpa using this

theorem plain_restoreLits : ∀ (ls : List Lit) (sys : Sys), (∀ v, sys.ve.cls v = []) →
    restoreLits ls sys = sys
  | [], sys, _ => rfl
  | l :: ls, sys, h => by
    rw [restoreLits]
    have : sys.ve.isEliminated l.var = false := by simp [VE.isEliminated, h]
    simp only [this]
    exact plain_restoreLits ls sys h

theorem plain_restoreAll : ∀ (cs : CNF) (sys : Sys), (∀ v, sys.ve.cls v = []) →
    restoreAll cs sys = sys
  | [], sys, _ => rfl
  | c :: cs, sys, h => by
    rw [restoreAll, plain_restoreLits c sys h]
    split
    · rfl
    · exact plain_restoreAll cs sys h

theorem plain_init {sys : Sys} (h : PlainOk F sys) {nv : Nat} {G : CNF}
    (hG : WfCNF (max sys.sol.db.nVars nv) G) : PlainOk (F ++ G) (sys.init nv G) := by
  obtain ⟨a1, a2, _⟩ := init_sound h.ok (lem := true) hG
  have e : sys.init nv G = { sys with sol := { sys.sol with
      db := sys.sol.db.init nv G, trail := sys.sol.trail.init (sys.sol.db.init nv G).nVars,
      watch := attachAll (sys.sol.db.init nv G).store sys.sol.watch (sys.sol.db.init nv G).clauses } } := by
    unfold Sys.init
    dsimp only
    rw [plain_restoreAll _ _ (by exact h.cls)]
  refine ⟨a1, ?_, ?_, ?_, ?_, ?_⟩
  · rw [e]; exact h.vars
  · rw [e]; exact h.cls
  · rw [e]; intro v
    simp only [Trail.init]
    split <;> exact h.dec v
  · rw [e]
    simp only [DB.init]
    refine createFold_carries (f := fun c => if true = true then 0 else c.length) (by simp) G F _ ?_ ?_
    · split <;> exact h.ok.db.mem
    · split <;> exact h.carries
  · rw [a2]
    intro c hc l hl
    rcases List.mem_append.1 hc with hc | hc
    · have := h.wf c hc l hl; omega
    · exact (hG c hc).1 l hl

theorem plain_new (recalc : Bool) : PlainOk [] (Sys.new recalc) where
  ok := new_ok recalc
  vars := rfl
  cls _ := rfl
  dec _ := rfl
  carries := by intro b hb; simp at hb
  wf := by simp

theorem PlainOk.assume {sys : Sys} (h : PlainOk F sys) (as : List Lit) :
    PlainOk F { sys with sol := { sys.sol with trail := sys.sol.trail.setAssumptions as } } :=
  ⟨h.ok.assume as, h.vars, h.cls, h.dec, h.carries, h.wf⟩

end Candy
