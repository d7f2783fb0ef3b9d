import Verif.Proofs.Complete
import Verif.Props.Search

/-! At a conflict there are more variables than decision levels (without inprocessing, for distinct
assumption variables). -/

namespace Candy

variable {F : CNF} {as : List Lit} {sys sys' : Sys} {u : Usage}

/-! ### Where watchers and conflict clauses come from -/

theorem propBinary_src {P : Nat → Prop} : ∀ (ws : List Watcher) (T T' : Trail) (r : Option Nat),
    propBinary T ws = (T', r) → (∀ w ∈ ws, P w.cref) → ∀ c, r = some c → P c
  | [], T, T', r, he, hw, c, hc => by
    simp only [propBinary, Prod.mk.injEq] at he
    rw [← he.2] at hc; simp at hc
  | w :: ws, T, T', r, he, hw, c, hc => by
    rw [propBinary] at he
    split at he
    · simp only [Prod.mk.injEq] at he
      rw [← he.2] at hc
      simp only [Option.some.injEq] at hc
      exact hc ▸ hw w (by simp)
    · exact propBinary_src ws _ _ _ he (fun w hw' => hw w (by simp [hw'])) c hc
    · exact propBinary_src ws _ _ _ he (fun w hw' => hw w (by simp [hw'])) c hc

theorem propWatched_src {P : Nat → Prop} {p : Lit} : ∀ (ws kept : List Watcher) (s s' : PS)
    (r : Option Nat), propWatched p ws kept s = some (s', r) →
    (∀ q, ∀ w ∈ s.watch q, P w.cref) → (∀ w ∈ ws, P w.cref) → (∀ w ∈ kept, P w.cref) →
    (∀ q, ∀ w ∈ s'.watch q, P w.cref) ∧ ∀ c, r = some c → P c
  | [], kept, s, s', r, he, h, _, hk => by
    simp only [propWatched, Option.some.injEq, Prod.mk.injEq] at he
    obtain ⟨rfl, rfl⟩ := he
    refine ⟨?_, by simp⟩
    intro q w hw
    simp only [upd_apply] at hw
    split at hw
    · exact hk w hw
    · exact h q w hw
  | w :: ws, kept, s, s', r, he, h, hw, hk => by
    have hw0 := hw w (by simp)
    have hws : ∀ v ∈ ws, P v.cref := fun v hv => hw v (by simp [hv])
    rw [propWatched] at he
    split at he
    · refine propWatched_src ws _ _ _ _ he h hws ?_
      intro v hv
      simp only [List.mem_append, List.mem_singleton] at hv
      rcases hv with hv | rfl
      · exact hk v hv
      · exact hw0
    · dsimp only at he
      split at he
      · rename_i first sec rest hls
        have hk' : ∀ v ∈ kept ++ [(⟨w.cref, first⟩ : Watcher)], P v.cref := by
          intro v hv
          simp only [List.mem_append, List.mem_singleton] at hv
          rcases hv with hv | rfl
          · exact hk v hv
          · exact hw0
        split at he
        · exact propWatched_src ws _ _ _ _ he h hws hk'
        · split at he
          · split at he
            · simp at he
            · refine propWatched_src ws _ _ _ _ he ?_ hws hk
              intro q v hv
              simp only [upd_apply] at hv
              split at hv
              · simp only [List.mem_append, List.mem_singleton] at hv
                rcases hv with hv | rfl
                · exact h _ v hv
                · exact hw0
              · exact h q v hv
          · split at he
            · simp only [Option.some.injEq, Prod.mk.injEq] at he
              obtain ⟨rfl, rfl⟩ := he
              refine ⟨?_, fun c hc => by simp only [Option.some.injEq] at hc; exact hc ▸ hw0⟩
              intro q v hv
              simp only [upd_apply] at hv
              split at hv
              · simp only [List.mem_append, List.mem_cons] at hv
                rcases hv with hv | rfl | hv
                · exact hk v hv
                · exact hw0
                · exact hws v hv
              · exact h q v hv
            · exact propWatched_src ws _ _ _ _ he h hws hk'
      · simp at he

theorem propagateLoop_src {P : Nat → Prop} {bin : Lit → List Watcher} : ∀ (fuel : Nat) (s s' : PS)
    (r : Option Nat), propagateLoop bin fuel s = some (s', r) →
    (∀ q, ∀ w ∈ s.watch q, P w.cref) →
    (∀ q, ∀ w ∈ s'.watch q, P w.cref) ∧
      ∀ c, r = some c → P c ∨ ∃ p, ∃ w ∈ bin p, w.cref = c
  | 0, _, _, _, he, _ => by simp [propagateLoop] at he
  | fuel + 1, s, s', r, he, h => by
    rw [propagateLoop] at he
    split at he
    · simp only [Option.some.injEq, Prod.mk.injEq] at he
      obtain ⟨rfl, rfl⟩ := he
      exact ⟨h, by simp⟩
    · rename_i p hp
      dsimp only at he
      split at he
      · rename_i T c hb
        simp only [Option.some.injEq, Prod.mk.injEq] at he
        obtain ⟨rfl, rfl⟩ := he
        refine ⟨h, fun c' hc => Or.inr ?_⟩
        exact propBinary_src (P := fun c => ∃ p, ∃ w ∈ bin p, w.cref = c) _ _ _ _ hb
          (fun w hw => ⟨p, w, hw, rfl⟩) c' hc
      · split at he
        · simp at he
        · rename_i s1 c hw
          simp only [Option.some.injEq, Prod.mk.injEq] at he
          obtain ⟨rfl, rfl⟩ := he
          obtain ⟨a, b⟩ := propWatched_src _ _ _ _ _ hw h (h p) (by simp)
          exact ⟨a, fun c' hc => Or.inl (b c' hc)⟩
        · rename_i s1 hw
          obtain ⟨a, _⟩ := propWatched_src _ _ _ _ _ hw h (h p) (by simp)
          exact propagateLoop_src fuel _ _ _ he a

/-- Every watcher belongs to a clause of the database. -/
def WSub (s : Solver) : Prop := ∀ p, ∀ w ∈ s.watch p, w.cref ∈ s.db.clauses

/-- Clauses in the binary watch lists. -/
def BinC (s : Solver) (c : Nat) : Prop := ∃ p, ∃ w ∈ s.db.bin p, w.cref = c

theorem attachAll_src {store : Nat → Cls} {P : Nat → Prop} : ∀ (cs : List Nat)
    (watch : Lit → List Watcher), (∀ p, ∀ w ∈ watch p, P w.cref) → (∀ c ∈ cs, P c) →
    ∀ p, ∀ w ∈ attachAll store watch cs p, P w.cref
  | [], watch, h, _ => h
  | c :: cs, watch, h, hc => by
    rw [attachAll_cons]
    refine attachAll_src cs _ ?_ (fun d hd => hc d (by simp [hd]))
    intro p w hw
    rcases attOne_cases store watch c with he | ⟨x, y, z, r, _, he⟩
    · rw [he] at hw; exact h p w hw
    · rw [he] at hw
      rcases mem_addBin_imp hw with hw | ⟨_, rfl⟩ | ⟨_, rfl⟩
      · exact h p w hw
      · exact hc c (by simp)
      · exact hc c (by simp)

theorem wsub_reset {db : DB} : ∀ p, ∀ w ∈ resetWatch db p, w.cref ∈ db.clauses :=
  attachAll_src _ _ (by simp) (fun _ h => h)

theorem wsub_correction {s : Solver} (h : WSub s) (c : Clause) : WSub (addCorrection s c) := by
  rw [addCorrection_eq]
  intro p w hw
  simp only [createClause_clauses, List.mem_append, List.mem_singleton]
  simp only at hw
  split at hw
  · rcases mem_addBin_imp hw with hw | ⟨_, rfl⟩ | ⟨_, rfl⟩
    · exact Or.inl (h p w hw)
    · exact Or.inr rfl
    · exact Or.inr rfl
  · exact Or.inl (h p w hw)

theorem wsub_corrections : ∀ (cs : List Clause) (s : Solver), WSub s →
    WSub (cs.foldl addCorrection s)
  | [], _, h => h
  | c :: cs, s, h => wsub_corrections cs _ (wsub_correction h c)

theorem wsub_start : WSub (solveStart sys).sol := by
  unfold solveStart
  dsimp only
  exact wsub_corrections _ _ wsub_reset

theorem wsub_entry {cfg : Config} {pre : List PreRound}
    (he : solveEntry cfg pre sys = some sys') : WSub sys'.sol := by
  unfold solveEntry at he
  dsimp only at he
  split at he
  · obtain ⟨sys2, h2, rfl⟩ := Option.map_eq_some_iff.1 he
    exact wsub_reset
  · simp at he; subst he
    exact wsub_start

theorem wsub_reduceStep {cfg : Config} {r : Round} (h : WSub sys.sol)
    (he : reduceStep cfg r { sys with sol := { sys.sol with trail := sys.sol.trail.reset } }
      = some sys') : WSub sys'.sol := by
  unfold reduceStep at he
  split at he
  · dsimp only at he
    obtain ⟨sys1, h1, rfl⟩ := Option.map_eq_some_iff.1 he
    exact wsub_reset
  · simp only [Option.some.injEq] at he
    subst he
    exact h

theorem factStep_bin (x : Trail × DB) (l : Lit) :
    (factStep x l).2.bin = x.2.bin ∧ (factStep x l).2.clauses = x.2.clauses := by
  unfold factStep
  split <;> exact ⟨rfl, rfl⟩

theorem factFold_bin : ∀ (ls : List Lit) (x : Trail × DB),
    (ls.foldl factStep x).2.bin = x.2.bin ∧ (ls.foldl factStep x).2.clauses = x.2.clauses
  | [], _ => ⟨rfl, rfl⟩
  | l :: ls, x => by
    rw [List.foldl_cons]
    obtain ⟨a, b⟩ := factFold_bin ls (factStep x l)
    obtain ⟨c, d⟩ := factStep_bin x l
    exact ⟨a.trans c, b.trans d⟩

theorem unitFold_bin : ∀ (ls : List Lit) (x : Trail × DB),
    (ls.foldl unitStep x).2.bin = x.2.bin ∧
      ∀ c ∈ x.2.clauses, c ∈ (ls.foldl unitStep x).2.clauses
  | [], _ => ⟨rfl, fun _ h => h⟩
  | l :: ls, x => by
    rw [List.foldl_cons]
    obtain ⟨a, b⟩ := unitFold_bin ls (unitStep x l)
    refine ⟨a.trans ?_, fun c hc => b c ?_⟩
    · unfold unitStep; simp only [createClause_bin]
    · unfold unitStep; simp [hc]

theorem materialize_src {s s' : Solver} (h : WSub s) (he : materialize s = some s') :
    WSub s' ∧ s'.db.bin = s.db.bin := by
  unfold materialize at he
  dsimp only at he
  obtain ⟨f1, f2⟩ := factFold_bin s.db.unitLits (s.trail, s.db)
  generalize s.db.unitLits.foldl factStep (s.trail, s.db) = x at he f1 f2
  dsimp only at f1 f2
  split at he
  · simp only [Option.some.injEq] at he
    subst he
    refine ⟨?_, f1⟩
    intro p w hw
    simp only [f2]
    exact h p w hw
  · split at he
    · simp at he
    · rename_i ps c hp
      simp only [Option.some.injEq] at he
      subst he
      refine ⟨?_, f1⟩
      intro p w hw
      show w.cref ∈ x.2.clauses
      rw [f2]
      exact (propagateLoop_src (P := (· ∈ s.db.clauses)) _ _ _ _ hp h).1 p w hw
    · rename_i ps hp
      simp only [Option.some.injEq] at he
      subst he
      obtain ⟨u1, u2⟩ := unitFold_bin (ps.T.stack.drop x.1.stack.length)
        (ps.T, { x.2 with store := ps.store })
      refine ⟨?_, u1.trans f1⟩
      intro p w hw
      refine u2 _ ?_
      show w.cref ∈ x.2.clauses
      rw [f2]
      exact (propagateLoop_src (P := (· ∈ s.db.clauses)) _ _ _ _ hp h).1 p w hw

/-! ### Levels above the assumptions are not empty -/

/-- Every level above those of the assumptions has a literal. -/
def LvlNe (T : Trail) : Prop := ∀ j, T.assumptions.length < j → j ≤ T.decisionLevel →
  ∃ q ∈ T.stack, T.level q.var = j

theorem LvlNe.ext {T T' : Trail} (h : LvlNe T) (he : TExt T T') : LvlNe T' := by
  intro j h1 h2
  rw [he.assumptions] at h1
  obtain ⟨q, hq, hl⟩ := h j h1 (by unfold Trail.decisionLevel at *; rwa [he.lim] at h2)
  exact ⟨q, he.mem hq, by rw [he.level q hq, hl]⟩

theorem LvlNe.zero {T : Trail} (h : T.lim = []) : LvlNe T := by
  intro j h1 h2
  simp [Trail.decisionLevel, h] at h2
  omega

theorem LvlNe.newLevel {T : Trail} (hd : T.decisionLevel < T.assumptions.length) :
    LvlNe T.newDecisionLevel := by
  intro j h1 h2
  simp only [Trail.newDecisionLevel, Trail.decisionLevel, List.length_append,
    List.length_singleton] at h1 h2 hd
  omega

theorem LvlNe.decide {T : Trail} (h : LvlNe T) (ht : T.Inv) {p : Lit} (hv : T.value p = none) :
    LvlNe (T.newDecisionLevel.decide p) := by
  intro j h1 h2
  rw [Trail.decide_eq_push] at *
  have hdl : (T.newDecisionLevel.push p none).decisionLevel = T.decisionLevel + 1 := by
    simp [Trail.push, Trail.decisionLevel, Trail.newDecisionLevel, Trail.setValue]
  rw [hdl] at h2
  by_cases hj : j = T.decisionLevel + 1
  · refine ⟨p, by simp [Trail.push, Trail.setValue], ?_⟩
    simp only [Trail.push, upd_same]
    rw [hj]
    simp [Trail.decisionLevel, Trail.newDecisionLevel]
  · obtain ⟨q, hq, hl⟩ := h j h1 (by omega)
    refine ⟨q, by simp [Trail.push, Trail.setValue, Trail.newDecisionLevel, hq], ?_⟩
    simp only [Trail.push, upd_ne _ _ (ne_var_of_mem ht hv hq)]
    exact hl

theorem LvlNe.assumeLoop : ∀ (ls : List Lit) (T : Trail), LvlNe T →
    ls = T.assumptions.drop T.decisionLevel → LvlNe (Candy.assumeLoop T ls).1
  | [], T, h, _ => h
  | p :: ls, T, h, hl => by
    have hlt : T.decisionLevel < T.assumptions.length := by
      have := congrArg List.length hl
      simp at this; omega
    rw [Candy.assumeLoop]
    split
    · refine LvlNe.assumeLoop ls _ (LvlNe.newLevel hlt) ?_
      have h2 : T.newDecisionLevel.decisionLevel = T.decisionLevel + 1 := by
        simp [Trail.newDecisionLevel, Trail.decisionLevel]
      rw [h2]
      show ls = T.assumptions.drop (T.decisionLevel + 1)
      rw [List.drop_eq_getElem_cons hlt] at hl
      simp only [List.cons.injEq] at hl
      exact hl.2
    · exact h
    · exact h

theorem LvlNe.learn {T : Trail} (h : LvlNe T) (ht : T.Inv) {b : Nat} (hb : b < T.decisionLevel)
    {first : Lit} {r : Option Nat} (hv : (T.backtrack b).value first = none) :
    LvlNe ((T.backtrack b).push first r) := by
  have hk : T.lim[b]? = some T.lim[b] := List.getElem?_eq_getElem hb
  have ht' : (T.backtrack b).Inv := Trail.backtrack_inv ht
  intro j h1 h2
  have hdl : ((T.backtrack b).push first r).decisionLevel = b := by
    show (T.backtrack b).lim.length = b
    rw [Trail.backtrack_lim hk]
    unfold Trail.decisionLevel at hb
    simp; omega
  rw [hdl] at h2
  have h1' : T.assumptions.length < j := by
    simpa [Trail.push, Trail.setValue, Trail.backtrack_assumptions] using h1
  obtain ⟨q, hq, hl⟩ := h j h1' (by omega)
  have hqb : q ∈ (T.backtrack b).stack := (Trail.backtrack_mem ht hk).2 ⟨hq, by omega⟩
  refine ⟨q, by simp [Trail.push, Trail.setValue, hqb], ?_⟩
  simp only [Trail.push, upd_ne _ _ (ne_var_of_mem ht' hv hqb), Trail.backtrack_level]
  exact hl

theorem reestimate_frame (db : DB) (b : Bool) (T : Trail) (ls : List Nat) :
    (db.reestimate b T ls).clauses = db.clauses ∧ (db.reestimate b T ls).bin = db.bin ∧
      (db.reestimate b T ls).next = db.next := by
  unfold DB.reestimate
  split <;> exact ⟨rfl, rfl, rfl⟩

theorem createClause_bin_src {db : DB} {ls : List Lit} {lbd : Nat} {lem : Bool} {p : Lit}
    {w : Watcher} (hw : w ∈ (db.createClause ls lbd lem).1.bin p) :
    w ∈ db.bin p ∨ w.cref = db.next := by
  rw [createClause_bin] at hw
  split at hw
  · rcases mem_addBin_imp hw with hw | ⟨_, rfl⟩ | ⟨_, rfl⟩
    · exact Or.inl hw
    · exact Or.inr rfl
    · exact Or.inr rfl
  · exact Or.inl hw

theorem learnStep_src {s s' : Solver} {c : Nat} (h : WSub s) (he : learnStep s c = some s') :
    WSub s' ∧ ∀ p, ∀ w ∈ s'.db.bin p, w ∈ s.db.bin p ∨ w.cref = s.db.next := by
  unfold learnStep at he
  split at he
  · simp at he
  · rename_i r hr
    dsimp only at he
    obtain ⟨f1, f2, f3⟩ := reestimate_frame s.db s.recalc s.trail r.involved
    generalize s.db.reestimate s.recalc s.trail r.involved = db at he f1 f2 f3
    have hid : (db.createClause r.learnt r.lbd).2 = s.db.next := by rw [createClause_id, f3]
    have hcl : (db.createClause r.learnt r.lbd).1.clauses = s.db.clauses ++ [s.db.next] := by
      rw [createClause_clauses, f1, f3]
    have hbin : ∀ p, ∀ w ∈ (db.createClause r.learnt r.lbd).1.bin p,
        w ∈ s.db.bin p ∨ w.cref = s.db.next := by
      intro p w hw
      rcases createClause_bin_src hw with hw | hw
      · left; rw [f2] at hw; exact hw
      · right; exact hw.trans f3
    generalize db.createClause r.learnt r.lbd = x at he hid hcl hbin
    split at he
    · rename_i watch first rest hw hl
      simp only [Option.some.injEq] at he
      subst he
      refine ⟨?_, hbin⟩
      intro p w hwm
      show w.cref ∈ x.1.clauses
      rw [hcl]
      simp only at hwm
      by_cases hlen : r.learnt.length > 2
      · rw [if_pos hlen] at hw
        unfold attachClause at hw
        split at hw
        · simp only [Option.some.injEq] at hw
          rw [← hw] at hwm
          rcases mem_addBin_imp hwm with hwm | ⟨_, rfl⟩ | ⟨_, rfl⟩
          · simp [h p w hwm]
          · simp [hid]
          · simp [hid]
        · simp at hw
      · rw [if_neg hlen] at hw
        simp only [Option.some.injEq] at hw
        rw [← hw] at hwm
        simp [h p w hwm]
    · simp at he

theorem searchIter_src {s s' : Solver} {ch : Choice} {A : Nat → Prop} (hi : SInv F A s)
    (hch : ch.Valid) (h : WSub s) (hl : LvlNe s.trail) (he : searchIter s ch = some (.cont s')) :
    WSub s' ∧ LvlNe s'.trail ∧
      ∀ p, ∀ w ∈ s'.db.bin p, w ∈ s.db.bin p ∨
        (w.cref = s.db.next ∧ s'.db.clauses = s.db.clauses ++ [s.db.next]) := by
  obtain ⟨ps, r, e1, e2, e3, e4, e5, e6, e7, e8, e9⟩ := propagateLoop_spec (A := A)
    (s.db.nVars + 1) ⟨s.db.store, s.watch, s.trail⟩ hi.core hi.watch hi.limq (by omega)
  obtain ⟨w1, -⟩ := propagateLoop_src (P := (· ∈ s.db.clauses)) _ _ _ _ e1 h
  unfold searchIter at he
  rw [e1] at he
  simp only at e2 e3 e4 e5 e6 e7 e8 e9 he w1
  have hl1 : LvlNe ps.T := hl.ext e4
  have hdb : DBOk F { s.db with store := ps.store } := hi.db.perm e5
  have hasm : ∀ p ∈ ps.T.stack, ps.T.reason p.var = none → 0 < ps.T.level p.var →
      ps.T.level p.var ≤ ps.T.assumptions.length →
      ps.T.assumptions[ps.T.level p.var - 1]? = some p := by
    intro p hp hr h0 hle
    by_cases hm : p ∈ s.trail.stack
    · rw [e4.level p hm] at h0 hle ⊢
      rw [e4.reason p hm] at hr
      rw [e4.assumptions] at hle ⊢
      exact hi.asm p hm hr h0 hle
    · exact (e4.new p hp hm hr).elim
  have hasmT : ∀ i p, ps.T.assumptions[i]? = some p → i < ps.T.decisionLevel →
      p ∈ ps.T.stack ∧ ps.T.level p.var ≤ i + 1 := by
    intro i p hip hi'
    rw [e4.assumptions] at hip
    rw [e4.decisionLevel] at hi'
    obtain ⟨a, b⟩ := hi.asmTrue i p hip hi'
    exact ⟨e4.mem a, by rw [e4.level p a]; exact b⟩
  have hab : ∀ l ∈ ps.T.assumptions, l.var < s.db.nVars := by
    rw [e4.assumptions]; exact hi.asmBound
  cases r with
  | some confl =>
    simp only at he
    have hconf := e7 confl rfl
    by_cases hdl : ps.T.decisionLevel = 0
    · rw [if_pos hdl] at he; simp at he
    · rw [if_neg hdl] at he
      obtain ⟨s1, k1, k2⟩ := Option.map_eq_some_iff.1 he
      simp only [IterOut.cont.injEq] at k2
      subst k2
      obtain ⟨s', rr, l1, l2, l3, l4, l5, l6, l7, lw, lwr, l8, l9, l10, l11, l12, l13, l14, first, l15, l16, l17⟩ :=
        learnStep_spec (F := F) (A := fun _ => False) (confl := confl)
        (s := { s with db := { s.db with store := ps.store }, watch := ps.watch, trail := ps.T })
        hdb e2 e3 e8 ⟨by simp, by simp, by simp⟩ (by simp) (by simp) (by simp) hab hasm hasmT
          (by simp only; omega) hconf
      rw [k1] at l3
      simp only [Option.some.injEq] at l3
      subst l3
      obtain ⟨m1, m2⟩ := learnStep_src (s := { s with db := { s.db with store := ps.store }, watch := ps.watch, trail := ps.T }) (by exact w1) k1
      refine ⟨m1, ?_, ?_⟩
      · rw [l16]
        exact hl1.learn e2.tinv l2.bt l17
      · intro p w hw
        rcases m2 p w hw with hw | hw
        · exact Or.inl hw
        · exact Or.inr ⟨hw, l11⟩
  | none =>
    simp only at he
    split at he
    · simp at he
    · have hS : SInv F (fun _ => False)
          { s with db := { s.db with store := ps.store }, watch := ps.watch, trail := ps.T } :=
        ⟨hdb, e2, e3, e8, ⟨by simp, by simp, by simp⟩, by simp, by simp, by simp, hab, hasm, hasmT⟩
      have hL := LvlNe.assumeLoop (ps.T.assumptions.drop ps.T.decisionLevel) ps.T hl1 rfl
      split at he
      · simp at he
      · rename_i T p hal
        simp only [Option.some.injEq, IterOut.cont.injEq] at he
        subst he
        obtain ⟨a1, a2, a3, a4, a5, a6, a7⟩ := assumeLoop_spec _ _ hS (e6 rfl) rfl T _ hal
        rw [hal] at hL
        refine ⟨w1, LvlNe.decide hL a1.core.tinv a7.1, fun p w hw => Or.inl hw⟩
      · rename_i T hal
        obtain ⟨a1, a2, a3, a4, a5, a6, a7⟩ := assumeLoop_spec _ _ hS (e6 rfl) rfl T _ hal
        rw [hal] at hL
        split at he
        · simp at he
        · rename_i p hpk
          simp only [Option.some.injEq, IterOut.cont.injEq] at he
          subst he
          have hv := hch T
          rw [hpk] at hv
          refine ⟨w1, LvlNe.decide hL a1.core.tinv ?_, fun p w hw => Or.inl hw⟩
          simp [Trail.value, hv.2.1]

/-! ### In every reachable state -/

theorem search_wsub : ∀ (fuel : Nat) (o : Nat → Choice) (s s' : Solver) (r : Option Bool)
    {A : Nat → Prop}, SInv F A s → (∀ i, (o i).Valid) → WSub s →
    search fuel o s = some (s', r) → WSub s'
  | 0, _, _, _, _, _, _, _, _, he => by simp [search] at he
  | fuel + 1, o, s, s', r, A, hi, hch, h, he => by
    rw [search] at he
    obtain ⟨out, q1, q2⟩ := searchIter_spec hi (hch 0)
    rw [q1] at he
    cases out with
    | done s1 r1 =>
      simp only [Option.some.injEq, Prod.mk.injEq] at he
      obtain ⟨rfl, rfl⟩ := he
      unfold searchIter at q1
      split at q1
      · simp at q1
      · rename_i ps confl hp
        obtain ⟨w1, -⟩ := propagateLoop_src (P := (· ∈ s.db.clauses)) _ _ _ _ hp h
        dsimp only at q1
        split at q1
        · split at q1
          · simp only [Option.some.injEq, IterOut.done.injEq] at q1
            rw [← q1.1]; exact w1
          · obtain ⟨_, _, k⟩ := Option.map_eq_some_iff.1 q1
            simp at k
        · split at q1
          · simp only [Option.some.injEq, IterOut.done.injEq] at q1
            rw [← q1.1]; exact w1
          · split at q1
            · simp only [Option.some.injEq, IterOut.done.injEq] at q1
              rw [← q1.1]; exact w1
            · simp at q1
            · split at q1
              · simp only [Option.some.injEq, IterOut.done.injEq] at q1
                rw [← q1.1]; exact w1
              · simp at q1
    | cont s1 =>
      obtain ⟨_, _, _, A', _, hS, _⟩ := q2
      have hw : WSub s1 := by
        unfold searchIter at q1
        split at q1
        · simp at q1
        · rename_i ps confl hp
          obtain ⟨w1, -⟩ := propagateLoop_src (P := (· ∈ s.db.clauses)) _ _ _ _ hp h
          dsimp only at q1
          split at q1
          · split at q1
            · simp at q1
            · obtain ⟨s2, k1, k2⟩ := Option.map_eq_some_iff.1 q1
              simp only [IterOut.cont.injEq] at k2
              subst k2
              exact (learnStep_src (by exact w1) k1).1
          · split at q1
            · simp at q1
            · split at q1
              · simp at q1
              · simp only [Option.some.injEq, IterOut.cont.injEq] at q1
                rw [← q1]; exact w1
              · split at q1
                · simp at q1
                · simp only [Option.some.injEq, IterOut.cont.injEq] at q1
                  rw [← q1]; exact w1
      exact search_wsub fuel _ s1 s' r hS (fun i => hch _) hw he

theorem InSolve.wsub (hu : u.Valid) (h : InSolve u F as sys) : WSub sys.sol := by
  induction h with
  | enter h cfg pre hc he => exact wsub_entry he
  | round h cfg r hr he ih =>
    rename_i sys1 sys2
    have hok := h.ok hu
    unfold solveRound at he
    dsimp only at he
    cases h1 : reduceStep cfg r
        { sys1 with sol := { sys1.sol with trail := sys1.sol.trail.reset } } with
    | none => rw [h1] at he; simp at he
    | some sysr =>
      rw [h1] at he
      dsimp only at he
      obtain ⟨a1, a2⟩ := hok.inv.reset.reduceStep (hu r hr).sort h1
      obtain ⟨s, m1, m2, m3, _, _⟩ := a1.materialize
      have hw := (materialize_src (wsub_reduceStep ih h1) m1).1
      rw [m1] at he
      dsimp only at he
      split at he
      · simp at he
      · rename_i hE
        have hE : s.db.hasEmpty = false := by simpa using hE
        have hf := a2.trans m3
        have has := hf.assumptions.trans hok.assumptions
        have hnv := hf.nVars
        have hS := m2.sinv hE (by
          intro l hl
          simp only at hl has hnv ⊢
          rw [has] at hl; rw [hnv]; exact hok.bound l hl)
        obtain ⟨x, hx, hxe⟩ := Option.map_eq_some_iff.1 he
        obtain ⟨s', b'⟩ := x
        simp only [Prod.mk.injEq] at hxe
        obtain ⟨rfl, rfl⟩ := hxe
        exact search_wsub _ _ _ _ _ hS (hu r hr).choice hw hx

theorem SInv.union {A B : Nat → Prop} {s : Solver} (h : SInv F A s) (h' : SInv F B s) :
    SInv F (fun c => A c ∨ B c) s where
  db := h.db
  core := h.core
  watch := h.watch
  limq := h.limq
  cinv := ⟨fun c hc => hc.elim (h.cinv.w1 c) (h'.cinv.w1 c),
    fun c hc => hc.elim (h.cinv.b1 c) (h'.cinv.b1 c),
    fun c hc => hc.elim (h.cinv.w4 c) (h'.cinv.w4 c)⟩
  alt c hc := hc.elim (h.alt c) (h'.alt c)
  units c hc := hc.elim (h.units c) (h'.units c)
  nonempty c hc := hc.elim (h.nonempty c) (h'.nonempty c)
  asmBound := h.asmBound
  asm := h.asm
  asmTrue := h.asmTrue

theorem BinC.shape {s : Solver} (hd : DBOk F s.db) {c : Nat} (h : BinC s c) :
    c < s.db.next ∧ ∃ x y, (s.db.store c).lits = [x, y] := by
  obtain ⟨p, w, hw, rfl⟩ := h
  obtain ⟨a, b⟩ := hd.binInv p w hw
  rcases b with b | b
  · exact ⟨a, _, _, b⟩
  · exact ⟨a, _, _, b⟩

theorem start_bin {s s' : Solver} (hd : DBOk F s.db) (hs : s.trail.stack = [])
    (hm : Mat F s s') (hb : s'.db.bin = s.db.bin) (hne : s'.db.hasEmpty = false)
    (hS : SInv F (fun _ => False) s') : SInv F (BinC s') s' := by
  have hB : ∀ c, BinC s' c ↔ BinC s c := by
    intro c; unfold BinC; rw [hb]
  have hc0 : CInv (BinC s) s.db.store s.watch s.db.bin s.trail (fun _ _ => False) := by
    refine ⟨fun c hc x y r hl hr => ?_, fun c hc x y hxy => ?_, fun c _ x y r _ w _ => Or.inr ?_⟩
    · obtain ⟨_, a, b, h⟩ := hc.shape hd
      rw [hl] at h
      simp only [List.cons.injEq] at h
      exact (hr h.2.2).elim
    · obtain ⟨p, w, hw, rfl⟩ := hc
      have hsym := hd.binSym p w hw
      obtain ⟨_, h⟩ := hd.binInv p w hw
      have key : (⟨w.cref, w.blocker⟩ : Watcher) ∈ s.db.bin p.neg.neg := by simpa using hw
      rcases h with h | h
      · rw [hxy] at h
        simp only [List.cons.injEq, and_true] at h
        obtain ⟨rfl, rfl⟩ := h
        exact ⟨key, hsym⟩
      · rw [hxy] at h
        simp only [List.cons.injEq, and_true] at h
        obtain ⟨rfl, rfl⟩ := h
        exact ⟨hsym, key⟩
    · intro hw; rw [hs] at hw; simp at hw
  have hc1 := hm.cinv hne _ (fun c hc => (hc.shape hd).1) hc0
  exact {
    db := hS.db
    core := hS.core
    watch := hS.watch
    limq := hS.limq
    cinv := ⟨fun c hc => hc1.w1 c ((hB c).1 hc), fun c hc => hc1.b1 c ((hB c).1 hc),
      fun c hc => hc1.w4 c ((hB c).1 hc)⟩
    alt := fun c hc => (hc.shape hS.db).1
    units := fun c hc l hl => by
      obtain ⟨_, a, b, h⟩ := hc.shape hS.db
      rw [hl] at h; simp at h
    nonempty := fun c hc hl => by
      obtain ⟨_, a, b, h⟩ := hc.shape hS.db
      rw [hl] at h; simp at h
    asmBound := hS.asmBound
    asm := hS.asm
    asmTrue := hS.asmTrue }

/-- The invariants used for the bound on levels. -/
structure LvOk (F : CNF) (s : Solver) : Prop where
  inv : SInv F (fun c => GoodC s c ∨ BinC s c) s
  wsub : WSub s
  lvl : LvlNe s.trail
  nonempty : s.db.hasEmpty = false

theorem Searching.lvOk {s : Solver} (hu : u.Valid) (hn : u.NoInpr) (h : Searching u F as s) :
    LvOk F s := by
  induction h with
  | start h cfg r hr h1 h2 h3 =>
    rename_i sys1 sysr s0
    have hS0 := Searching.good hu hn (.start h cfg r hr h1 h2 h3)
    have hok := h.ok hu
    obtain ⟨a1, a2⟩ := hok.inv.reset.reduceStep (hu r hr).sort h1
    obtain ⟨t1, t2⟩ := attAll_reduce (hn r hr) (h.attAll hu hn) h1
    obtain ⟨s, m1, m2, m3, _, _⟩ := a1.materialize
    rw [h2] at m1
    simp at m1; subst m1
    have hE0 : sysr.sol.db.hasEmpty = false := by
      cases hh : sysr.sol.db.hasEmpty with
      | false => rfl
      | true => have := m3.hasEmpty hh; simp only at this; rw [h3] at this; simp at this
    obtain ⟨s1, n1, hm⟩ := materialize_spec a1.db (a1.l0 hE0)
    rw [h2] at n1
    simp at n1; subst n1
    obtain ⟨w1, w2⟩ := materialize_src (wsub_reduceStep (h.wsub hu) h1) h2
    exact ⟨hS0.1.union (start_bin a1.db t2 hm w2 h3 (hS0.1.weaken (by simp))), w1,
      LvlNe.zero (hm.l0 h3).lim, h3⟩
  | iter h ch hch he ih =>
    obtain ⟨i1, i2, i3, i4⟩ := ih
    rename_i s s'
    obtain ⟨out, e1, e2⟩ := searchIter_spec i1 hch
    rw [he] at e1
    simp at e1; subst e1
    obtain ⟨f, c, _, A', g1, hS, g3⟩ := e2
    obtain ⟨j1, j2, j3⟩ := searchIter_src i1 hch i2 i3 he
    refine ⟨hS.weaken ?_, j1, j2, f.hasEmpty.trans i4⟩
    intro c hc
    rcases hc with hc | hc
    · exact good_step i1.db (nonempty_of i1.db i4) f (fun c hc => g1 c (Or.inl hc)) g3 c hc
    · obtain ⟨p, w, hw, rfl⟩ := hc
      rcases j3 p w hw with hw | ⟨hw, hcl⟩
      · exact g1 _ (Or.inr ⟨p, w, hw, rfl⟩)
      · have hmem : w.cref ∈ s'.db.clauses := by rw [hcl, hw]; simp
        rcases g3 _ hmem with h5 | h5
        · have := i1.db.mem _ h5; omega
        · exact h5

/-- For every level one literal of the trail, all with different variables. -/
theorem levelWitness {T : Trail} (hl : LvlNe T)
    (hasmT : ∀ i p, T.assumptions[i]? = some p → i < T.decisionLevel →
      p ∈ T.stack ∧ T.level p.var ≤ i + 1)
    (hd : (T.assumptions.map Lit.var).Nodup) :
    ∃ f : Nat → Lit, (∀ i < T.decisionLevel, f i ∈ T.stack) ∧
      (∀ i < T.decisionLevel, T.level (f i).var ≤ i + 1) ∧
      (∀ i < T.decisionLevel, ∀ j < T.decisionLevel, i < j → (f i).var ≠ (f j).var) := by
  have key : ∀ i, ∃ q : Lit, i < T.decisionLevel → q ∈ T.stack ∧ T.level q.var ≤ i + 1 ∧
      (∀ p, T.assumptions[i]? = some p → q = p) ∧
      (T.assumptions.length ≤ i → T.level q.var = i + 1) := by
    intro i
    by_cases hi : i < T.decisionLevel
    · by_cases ha : i < T.assumptions.length
      · obtain ⟨a, b⟩ := hasmT i _ (List.getElem?_eq_getElem ha) hi
        refine ⟨T.assumptions[i], fun _ => ⟨a, b, ?_, fun h => by omega⟩⟩
        intro p hp
        rw [List.getElem?_eq_getElem ha] at hp
        simpa using hp
      · obtain ⟨q, a, b⟩ := hl (i + 1) (by omega) (by omega)
        refine ⟨q, fun _ => ⟨a, by omega, ?_, fun _ => b⟩⟩
        intro p hp
        rw [List.getElem?_eq_none (by omega)] at hp
        simp at hp
    · exact ⟨⟨0, false⟩, fun h => (hi h).elim⟩
  obtain ⟨f, hf⟩ := Classical.axiomOfChoice key
  refine ⟨f, fun i hi => (hf i hi).1, fun i hi => (hf i hi).2.1, ?_⟩
  intro i hi j hj hij he
  obtain ⟨a1, a2, a3, a4⟩ := hf i hi
  obtain ⟨b1, b2, b3, b4⟩ := hf j hj
  by_cases hja : j < T.assumptions.length
  · have e1 := a3 _ (List.getElem?_eq_getElem (by omega : i < T.assumptions.length))
    have e2 := b3 _ (List.getElem?_eq_getElem hja)
    rw [e1, e2] at he
    have hp := List.pairwise_iff_getElem.1 hd i j (by simp; omega) (by simpa using hja) hij
    simp only [List.getElem_map] at hp
    exact hp he
  · have h1 := b4 (by omega)
    rw [he] at a2
    omega

/-- At a conflict above level 0 there are more variables than decision levels. -/
theorem LvOk.level_lt {s : Solver} (hlv : LvOk F s) (hd : (s.trail.assumptions.map Lit.var).Nodup) {ps : PS}
    {c : Nat} (hp : runPropagate s = some (ps, some c)) (h0 : 0 < ps.T.decisionLevel) :
    ps.T.decisionLevel < s.db.nVars := by
  obtain ⟨i1, i2, i3, i4⟩ := hlv
  unfold runPropagate at hp
  obtain ⟨ps', r, e1, e2, e3, e4, e5, e6, e7, e8, e9⟩ := propagateLoop_spec
    (A := fun c => GoodC s c ∨ BinC s c)
    (s.db.nVars + 1) ⟨s.db.store, s.watch, s.trail⟩ i1.core i1.watch i1.limq (by omega)
  obtain ⟨-, w2⟩ := propagateLoop_src (P := (· ∈ s.db.clauses)) _ _ _ _ e1 i2
  rw [hp] at e1
  simp only [Option.some.injEq, Prod.mk.injEq] at e1
  obtain ⟨rfl, rfl⟩ := e1
  have e9 := e9 i1.cinv
  have hconf := e7 c rfl
  simp only at e2 e3 e4 e5 e8 e9 hconf w2
  have hti := e2.tinv
  -- the conflict clause is one of the clauses propagation is complete for
  have hA : (GoodC s c ∨ BinC s c) ∧ 2 ≤ (ps.store c).lits.length := by
    have hlen : (ps.store c).lits.length = (s.db.store c).lits.length := ((e5 c).1).length_eq
    rcases w2 c rfl with hcl | hb
    · by_cases hb : BinC s c
      · obtain ⟨_, x, y, hxy⟩ := hb.shape i1.db
        refine ⟨Or.inr hb, ?_⟩
        rw [hlen, hxy]; simp
      · -- found in a watch list, hence long
        obtain ⟨-, w3⟩ := propagateLoop_src
          (P := fun c => 3 ≤ (s.db.store c).lits.length) _ _ _ _ hp (by
            intro q w hw
            obtain ⟨_, _, x, y, r, hl, hr, _⟩ := i1.watch.wmem q w hw
            rw [hl]
            have := List.length_pos_iff.2 hr
            simp only [List.length_cons]; omega)
        have h3 := (w3 c rfl).resolve_right hb
        exact ⟨Or.inl ⟨hcl, Or.inr h3⟩, by omega⟩
    · obtain ⟨_, x, y, hxy⟩ := BinC.shape i1.db (c := c) hb
      refine ⟨Or.inr hb, ?_⟩
      rw [hlen, hxy]; simp
  obtain ⟨hA, hlen⟩ := hA
  -- one literal for every level
  obtain ⟨f, f1, f2, f3⟩ := levelWitness (T := ps.T) (i3.ext e4)
    (by
      intro i p hip hi
      rw [e4.assumptions] at hip
      rw [e4.decisionLevel] at hi
      obtain ⟨a, b⟩ := i1.asmTrue i p hip hi
      exact ⟨e4.mem a, by rw [e4.level p a]; exact b⟩)
    (by rw [e4.assumptions]; exact hd)
  have hnd : ((List.range ps.T.decisionLevel).map fun i => (f i).var).Nodup := by
    rw [List.nodup_iff_pairwise_ne, List.pairwise_map]
    refine List.pairwise_lt_range.imp_of_mem ?_
    intro i j hi hj hij
    exact f3 i (List.mem_range.1 hi) j (List.mem_range.1 hj) hij
  by_cases hall : ∀ q ∈ ps.T.stack, ∃ i < ps.T.decisionLevel, f i = q
  · -- every literal of the trail is one of these, so the last level has only one literal
    exfalso
    have uniq : ∀ q ∈ ps.T.stack, ps.T.level q.var = ps.T.decisionLevel →
        q = f (ps.T.decisionLevel - 1) := by
      intro q hq hlq
      obtain ⟨i, hi, rfl⟩ := hall q hq
      have := f2 i hi
      rw [show i = ps.T.decisionLevel - 1 by omega]
    obtain ⟨x, y, rest, hxy⟩ : ∃ x y rest, (ps.store c).lits = x :: y :: rest := by
      match hl : (ps.store c).lits, hlen with
      | x :: y :: rest, _ => exact ⟨x, y, rest, rfl⟩
    have hxf := hconf.allFalse x (by rw [hxy]; simp)
    have hyf := hconf.allFalse y (by rw [hxy]; simp)
    have hne : x ≠ y := by
      have := e2.nd c hconf.lt
      rw [hxy] at this
      rintro rfl
      simp at this
    obtain ⟨w, hw, hwf, hlt⟩ : ∃ w, (w = x ∨ w = y) ∧ w.neg ∈ ps.T.stack ∧
        ps.T.level w.var ≠ ps.T.decisionLevel := by
      by_cases hx : ps.T.level x.var = ps.T.decisionLevel
      · refine ⟨y, Or.inr rfl, hyf, fun hy => hne ?_⟩
        exact Lit.neg_inj.1 ((uniq _ hxf (by simpa using hx)).trans
          (uniq _ hyf (by simpa using hy)).symm)
      · exact ⟨x, Or.inl rfl, hxf, hx⟩
    rcases e9.w4 c hA x y rest hxy w hw with ⟨_, h1⟩ | h1
    · exact hlt h1
    · have hle := hti.level_le hwf
      have hlt' : ps.T.level w.neg.var ≤ ps.T.decisionLevel - 1 := by
        have h2 : w.neg.var = w.var := by simp
        rw [h2] at hle ⊢; omega
      have hk : ps.T.lim[ps.T.decisionLevel - 1]? =
          some (ps.T.lim[ps.T.decisionLevel - 1]'(by unfold Trail.decisionLevel at *; omega)) :=
        List.getElem?_eq_getElem _
      have hmem := (Trail.backtrack_mem hti hk).2 ⟨hwf, hlt'⟩
      rw [Trail.backtrack_stack hk] at hmem
      have hkq := e8 _ (List.mem_of_getElem? hk)
      obtain ⟨l, hl, hls, _⟩ := h1 (List.take_subset_take_left _ hkq hmem)
      exact hti.notBoth hls (hconf.allFalse l hl)
  · -- some literal is none of them
    obtain ⟨q, hq⟩ := Classical.not_forall.1 hall
    obtain ⟨hqs, hq⟩ := Classical.not_imp.1 hq
    have hnd2 : (q.var :: (List.range ps.T.decisionLevel).map fun i => (f i).var).Nodup := by
      refine List.nodup_cons.2 ⟨?_, hnd⟩
      intro hm
      obtain ⟨i, hi, he⟩ := List.mem_map.1 hm
      have hi := List.mem_range.1 hi
      exact hq ⟨i, hi, hti.varInj (f1 i hi) hqs he⟩
    have hsub := hnd2.length_le_of_subset (l₂ := List.range s.db.nVars) (by
      intro v hv
      rw [List.mem_range, ← e2.nv]
      rcases List.mem_cons.1 hv with rfl | hv
      · exact hti.bound q hqs
      · obtain ⟨i, hi, rfl⟩ := List.mem_map.1 hv
        exact hti.bound _ (f1 i (List.mem_range.1 hi)))
    simp at hsub
    omega

theorem AtConflict.level_lt {s : Solver} (hu : u.Valid) (hn : u.NoInpr)
    (hd : (as.map Lit.var).Nodup) {ps : PS} {c : Nat} (h : AtConflict u F as s ps c) :
    ps.T.decisionLevel < s.db.nVars := by
  obtain ⟨hs, hp, h0⟩ := h
  exact (hs.lvOk hu hn).level_lt (by rw [(hs.ok hu).assumptions]; exact hd) hp h0

end Candy
