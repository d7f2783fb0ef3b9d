import Verif.Proofs.ArraySolve
import Verif.Proofs.SatSide

/-! One iteration of the loop of `solve` on arrays. -/

namespace Candy

variable {F : CNF} {u : Usage} {as : List Lit}

theorem aFilter_sim {next : Nat} {st : List Cls} {S : Nat → Cls} (hs : RepS next st S) (p : Cls → Bool) :
    ∀ cs : List Nat, (∀ c ∈ cs, c < next) → aFilter st p cs = some (cs.filter fun c => p (S c))
  | [], _ => rfl
  | c :: cs, h => by
    rw [aFilter, hs.get c (h c (by simp))]
    simp only [aFilter_sim hs p cs (fun d hd => h d (by simp [hd])), Option.map_some, List.filter_cons]

theorem aSkip_sim {next : Nat} {st : List Cls} {S : Nat → Cls} (hs : RepS next st S) (w : Nat) :
    ∀ cs : List Nat, (∀ c ∈ cs, c < next) →
    aSkip st w cs = some (cs.dropWhile fun c => (S c).weight == w)
  | [], _ => rfl
  | c :: cs, h => by
    rw [aSkip, hs.get c (h c (by simp)), List.dropWhile_cons]
    dsimp only
    split
    · exact aSkip_sim hs w cs (fun d hd => h d (by simp [hd]))
    · rfl

theorem aVictims_sim {db : DB} {st : List Cls} (hs : RepS db.next st db.store) (km : Bool) {xs : List Nat}
    (h : ∀ c ∈ xs, c < db.next) : aVictims km st xs = some (reduceVictims km db xs) := by
  unfold aVictims reduceVictims
  split
  · rename_i hl
    dsimp only
    split
    · have hne : xs.drop (xs.length / 2) ≠ [] := by
        intro e
        have := congrArg List.length e
        simp at this; omega
      have hm : ∀ c ∈ xs.drop (xs.length / 2), c < db.next := fun c hc => h c (List.mem_of_mem_drop hc)
      generalize xs.drop (xs.length / 2) = tl at hne hm
      cases tl with
      | nil => exact (hne rfl).elim
      | cons m ms =>
        dsimp only
        rw [hs.get m (hm m (by simp))]
        exact aSkip_sim hs _ _ hm
    · rfl
  · rfl

theorem aRemoveClause_sim {db : DB} {x : List Cls × List (List Watcher)}
    (hs : RepS db.next x.1 db.store) (hb : RepWt db.nVars x.2 db.bin) {c : Nat} (hc : c < db.next)
    (hl : ∀ l ∈ (db.store c).lits, l.var < db.nVars) :
    ∃ y, aRemoveClause x c = some y ∧ RepS (db.removeClause c).next y.1 (db.removeClause c).store ∧
      RepWt (db.removeClause c).nVars y.2 (db.removeClause c).bin := by
  have hst := hs.set c ⟨(db.store c).lits, Cls.deletedWeight⟩
  unfold aRemoveClause DB.removeClause
  rw [hs.get c hc]
  dsimp only [DB.lits]
  match hls : (db.store c).lits with
  | [] => exact ⟨_, rfl, by rw [hls] at hst; exact hst, hb⟩
  | [a] => exact ⟨_, rfl, by rw [hls] at hst; exact hst, hb⟩
  | _ :: _ :: _ :: _ => exact ⟨_, rfl, by rw [hls] at hst; exact hst, hb⟩
  | [a, b] =>
    rw [hls] at hst hl
    have ha : a.neg.var < db.nVars := by simpa using hl a (by simp)
    have hb' : b.neg.var < db.nVars := by simpa using hl b (by simp)
    dsimp only
    rw [hb.get _ ha]
    dsimp only
    obtain ⟨w1, e1, r1⟩ := hb.setList ha ((db.bin a.neg).filter fun w => w.cref != c)
    rw [e1]
    dsimp only
    rw [r1.get _ hb']
    dsimp only
    obtain ⟨w2, e2, r2⟩ := r1.setList hb' ((upd db.bin a.neg ((db.bin a.neg).filter fun w => w.cref != c)
      b.neg).filter fun w => w.cref != c)
    rw [e2]
    refine ⟨_, rfl, hst, ?_⟩
    refine ⟨r2.size, fun p hp => ?_⟩
    rw [r2.get p hp]
    simp only [upd]
    by_cases h1 : p = b.neg
    · subst h1
      by_cases h2 : b.neg = a.neg
      · simp [h2]
      · simp [h2]
    · by_cases h2 : p = a.neg
      · subst h2; simp [h1]
      · simp [h1, h2]

theorem aRemoveAll_sim : ∀ (cs : List Nat) {db : DB} {x : List Cls × List (List Watcher)}, DBOk F db →
    RepS db.next x.1 db.store → RepWt db.nVars x.2 db.bin → (∀ c ∈ cs, c < db.next) →
    ∃ y, aRemoveAll cs x = some y ∧
      RepS (cs.foldl DB.removeClause db).next y.1 (cs.foldl DB.removeClause db).store ∧
      RepWt (cs.foldl DB.removeClause db).nVars y.2 (cs.foldl DB.removeClause db).bin
  | [], db, x, _, hs, hb, _ => ⟨x, rfl, hs, hb⟩
  | c :: cs, db, x, hd, hs, hb, hc => by
    have hc' := hc c (by simp)
    obtain ⟨y, e, r1, r2⟩ := aRemoveClause_sim hs hb hc' (hd.wf c hc')
    rw [aRemoveAll, e, List.foldl_cons]
    exact aRemoveAll_sim cs (hd.removeClause hc') r1 r2
      (fun d hd => by rw [removeClause_next]; exact hc d (by simp [hd]))

theorem aReduceDB_sim {cfg : Config} {sort : List Nat → List Nat} (hsort : ∀ xs, ∀ x ∈ sort xs, x ∈ xs)
    {db : DB} {x : List Cls × List (List Watcher)} (hd : DBOk F db)
    (hs : RepS db.next x.1 db.store) (hb : RepWt db.nVars x.2 db.bin) :
    ∃ y, aReduceDB cfg sort db.clauses x = some y ∧
      RepS (reduceDB cfg sort db).next y.1 (reduceDB cfg sort db).store ∧
      RepWt (reduceDB cfg sort db).nVars y.2 (reduceDB cfg sort db).bin := by
  have hm : ∀ c ∈ sort (reduceCandidates cfg.persistentLBD db), c < db.next := fun c hc =>
    hd.mem c (List.mem_filter.1 (hsort _ _ hc)).1
  unfold aReduceDB
  rw [aFilter_sim hs _ db.clauses hd.mem]
  change ∃ y, (match aVictims cfg.keepMedian x.1 (sort (reduceCandidates cfg.persistentLBD db)) with
    | none => none
    | some victims => aRemoveAll victims x) = some y ∧ _
  rw [aVictims_sim hs _ hm]
  exact aRemoveAll_sim _ hd hs hb (fun c hc => hm c (mem_reduceVictims hc))

theorem aRead_sim {next : Nat} {st : List Cls} {S : Nat → Cls} (hs : RepS next st S) :
    ∀ cs : List Nat, (∀ c ∈ cs, c < next) → aRead st cs = some (cs.map S)
  | [], _ => rfl
  | c :: cs, h => by
    rw [aRead, hs.get c (h c (by simp))]
    simp only [aRead_sim hs cs (fun d hd => h d (by simp [hd])), Option.map_some, List.map_cons]

theorem aAttachBins_sim {n next : Nat} {st : List Cls} {S : Nat → Cls} (hs : RepS next st S) :
    ∀ (cs : List Nat) {ws : List (List Watcher)} {W : Lit → List Watcher}, RepWt n ws W →
    (∀ c ∈ cs, c < next ∧ ∀ l ∈ (S c).lits, l.var < n) →
    ∃ ws', aAttachBins st cs ws = some ws' ∧
      RepWt n ws' (cs.foldl (fun b c => match (S c).lits with
        | [x, y] => DB.addBin b c x y
        | _ => b) W)
  | [], ws, W, h, _ => ⟨ws, rfl, h⟩
  | c :: cs, ws, W, h, hc => by
    obtain ⟨h1, h2⟩ := hc c (by simp)
    have hc' : ∀ d ∈ cs, d < next ∧ ∀ l ∈ (S d).lits, l.var < n := fun d hd => hc d (by simp [hd])
    rw [aAttachBins, hs.get c h1, List.foldl_cons]
    dsimp only
    match hl : (S c).lits with
    | [] => exact aAttachBins_sim hs cs h hc'
    | [_] => exact aAttachBins_sim hs cs h hc'
    | _ :: _ :: _ :: _ => exact aAttachBins_sim hs cs h hc'
    | [x, y] =>
      rw [hl] at h2
      obtain ⟨w1, e1, r1⟩ := h.attach (x := x) (y := y) (h2 x (by simp)) (h2 y (by simp)) c
      simp only [e1, Option.bind_some]
      exact aAttachBins_sim hs cs r1 hc'

theorem aReorganize_sim {db : DB} {st : List Cls} (hd : DBOk F db) (hs : RepS db.next st db.store) :
    ∃ y, aReorganize db.nVars st db.clauses = some y ∧
      RepS db.reorganize.next y.1 db.reorganize.store ∧ RepWt db.reorganize.nVars y.2 db.reorganize.bin := by
  have hk : ∀ c ∈ db.collect, c < db.next := by
    intro c hc
    unfold DB.collect at hc
    rcases List.mem_append.1 hc with hc | hc <;> exact hd.mem c (List.mem_filter.1 hc).1
  unfold aReorganize
  rw [aFilter_sim hs _ db.clauses hd.mem]
  dsimp only
  rw [aFilter_sim hs _ db.clauses hd.mem]
  change ∃ y, (match aRead st db.collect with
    | none => none
    | some st => (aReinitBin db.nVars st (List.range db.collect.length)).map fun bin => (st, bin)) =
      some y ∧ _
  rw [aRead_sim hs _ hk]
  dsimp only
  have hst : RepS db.reorganize.next (db.collect.map db.store) db.reorganize.store := by
    refine ⟨by simp [DB.reorganize, DB.reinitBin], fun i hi => ?_⟩
    have hi : i < db.collect.length := hi
    simp only [DB.reorganize, DB.reinitBin, List.getElem?_map, List.getElem?_eq_getElem hi, Option.map_some]
  obtain ⟨ws, e1, e2⟩ := aAttachBins_sim (n := db.nVars) hst (List.range db.collect.length)
    (RepWt.replicate (k := 2 * db.nVars + 2) (by omega)) (by
      intro c hc
      have hc : c < db.reorganize.next := List.mem_range.1 hc
      exact ⟨hc, hd.reorganize.wf c hc⟩)
  unfold aReinitBin
  rw [e1]
  exact ⟨_, rfl, hst, e2⟩

theorem aReduceStep_sim {cfg : Config} {r : Round} (hsort : ∀ xs, ∀ x ∈ r.sort xs, x ∈ xs)
    (hin : r.inprocess = none) {sys sys' : Sys} {m : AMach} (hd : DBOk F sys.sol.db) (hm : RepM m sys.sol)
    (he : reduceStep cfg r { sys with sol := { sys.sol with trail := sys.sol.trail.reset } } = some sys') :
    ∃ m', aReduceStep cfg r.trigger r.sort sys.sol.db.nVars sys.sol.db.clauses m =
      some (m', sys'.sol.db.clauses) ∧ RepM m' sys'.sol := by
  unfold reduceStep at he
  rw [hin] at he
  unfold aReduceStep
  dsimp only at he ⊢
  cases ht : r.trigger with
  | false =>
    rw [ht] at he
    simp only [Bool.false_eq_true, if_false, Option.some.injEq] at he ⊢
    subst he
    exact ⟨_, rfl, hm.trail.reset, hm.store, hm.bin, hm.watch, hm.stamp, hm.lbd⟩
  | true =>
    rw [ht] at he
    simp only [if_true, Option.map_some, Option.some.injEq] at he ⊢
    subst he
    obtain ⟨x, e1, r1, r2⟩ := aReduceDB_sim (cfg := cfg) hsort (x := (m.store, m.bin)) hd hm.store hm.bin
    have hd' : DBOk F (reduceDB cfg r.sort sys.sol.db) := (removeFold _ sys.sol.db hd (fun c hc =>
      hd.mem c (List.mem_filter.1 (hsort _ _ (mem_reduceVictims hc))).1)).1
    have hn : (reduceDB cfg r.sort sys.sol.db).nVars = sys.sol.db.nVars := (removeFold _ sys.sol.db hd
      (fun c hc => hd.mem c (List.mem_filter.1 (hsort _ _ (mem_reduceVictims hc))).1)).2.1.nVars
    rw [e1]
    dsimp only
    obtain ⟨y, f1, f2, f3⟩ := aReorganize_sim hd' r1
    rw [reduceDB_clauses, hn] at f1
    rw [f1]
    dsimp only
    obtain ⟨w, g1, g2⟩ := aResetWatch_sim hd'.reorganize f2
    have hcl : (reduceDB cfg r.sort sys.sol.db).reorganize.clauses = List.range y.1.length := by
      rw [f2.size]; rfl
    have hn' : (reduceDB cfg r.sort sys.sol.db).reorganize.nVars = sys.sol.db.nVars := hn
    rw [hcl, hn'] at g1
    rw [g1]
    refine ⟨{ m with T := m.T.reset, store := y.1, bin := y.2, watch := w }, ?_, ?_⟩
    · rw [hcl]; rfl
    · refine ⟨hm.trail.reset, f2, f3, g2, ?_, ?_⟩
      · show ∃ f, RepSt (reduceDB cfg r.sort sys.sol.db).reorganize.nVars _ _
        rw [hn']; exact hm.stamp
      · show ∃ f, RepSt (reduceDB cfg r.sort sys.sol.db).reorganize.nVars _ _
        rw [hn']; exact hm.lbd

/-- One round on arrays and the round of the model of `solve` it corresponds to. -/
def RoundSim (cfg : Config) (r : Round) (rs : Nat → Bool) (sys : Sys) : ASearchOut → Prop
  | .ub => False
  | .more => ∃ o : Nat → Choice, (∀ i, (o i).Valid) ∧ (∀ i, (o i).restart = rs i) ∧
      solveRound cfg { r with choice := o } sys = none
  | .done m res c => ∃ (o : Nat → Choice) (sys' : Sys), (∀ i, (o i).Valid) ∧ (∀ i, (o i).restart = rs i) ∧
      solveRound cfg { r with choice := o } sys = some (sys', res) ∧ RepM m sys'.sol ∧
      sys'.sol.conflict = c

theorem aSolveRound_sim (hu : u.Valid) (hn : u.NoInpr ∨ as = []) (hd : (as.map Lit.var).Nodup) {sys : Sys}
    (h : InSolve u F as sys) (hne : sys.sol.db.hasEmpty = false) {m : AMach} (hm : RepM m sys.sol)
    (cfg : Config) {r : Round} (hr : u.round r) (hri : r.inprocess = none) {o : Nat → AChoice}
    (ho : ∀ i, (o i).Valid) :
    RoundSim cfg r (fun i => (o i).restart) sys
      (aSolveRound cfg r o sys.sol.recalc sys.sol.db.nVars sys.sol.db.clauses sys.sol.db.hasEmpty m) := by
  have hok := h.ok hu
  have hrec : ∀ sys', reduceStep cfg r { sys with sol := { sys.sol with trail := sys.sol.trail.reset } } =
      some sys' → sys'.sol.recalc = sys.sol.recalc ∧ sys'.sol.db.hasEmpty = false := by
    intro sys' he
    unfold reduceStep at he
    rw [hri] at he
    split at he
    · simp only [Option.map_some, Option.some.injEq] at he
      subst he
      refine ⟨rfl, ?_⟩
      have := (removeFold (reduceVictims cfg.keepMedian sys.sol.db
          (r.sort (reduceCandidates cfg.persistentLBD sys.sol.db))) sys.sol.db hok.inv.db (fun c hc =>
            hok.inv.db.mem c (List.mem_filter.1 ((hu r hr).sort _ _ (mem_reduceVictims hc))).1)).2.2
      exact this.trans hne
    · simp only [Option.some.injEq] at he
      subst he
      exact ⟨rfl, hne⟩
  obtain ⟨db, w, h1, -, -⟩ := reduceStep_plain (cfg := cfg)
    (sys := { sys with sol := { sys.sol with trail := sys.sol.trail.reset } }) hri
  generalize { sys with sol := { sys.sol with trail := sys.sol.trail.reset, db := db, watch := w } } = sysr
    at h1
  obtain ⟨m1, e1, r1⟩ := aReduceStep_sim (hu r hr).sort hri hok.inv.db hm h1
  obtain ⟨q1, q2⟩ := hrec sysr h1
  obtain ⟨a1, a2⟩ := hok.inv.reset.reduceStep (hu r hr).sort h1
  obtain ⟨s, b1, b2, b3, -, -⟩ := a1.materialize
  obtain ⟨m2, e2, r2⟩ := aMaterialize_sim a1.db (a1.l0 q2) r1 b1
  have hfil := aFilter_sim r1.store (fun cl => !cl.isDeleted && cl.lits.length == 1) sysr.sol.db.clauses
    a1.db.mem
  have hrec2 : s.recalc = sys.sol.recalc := by
    obtain ⟨s', g1, g2⟩ := materialize_spec a1.db (a1.l0 q2)
    rw [b1] at g1
    simp only [Option.some.injEq] at g1
    subst g1
    exact g2.recalc.trans q1
  unfold aSolveRound
  rw [e1]
  dsimp only
  rw [hfil]
  rw [q2] at e2
  rw [hne]
  change RoundSim cfg r _ sys (match aMaterialize sysr.sol.db.unitClauses false m1 with
      | none => .ub
      | some (m, true) => .done m (some false) []
      | some (m, false) => aSearch sys.sol.recalc r.steps o m)
  rw [e2]
  have hround : ∀ o' : Nat → Choice, solveRound cfg { r with choice := o' } sys =
      if s.db.hasEmpty then some ({ sysr with sol := s }, some false)
      else (search r.steps o' s).map fun x => ({ sysr with sol := x.1 }, x.2) := by
    intro o'
    have h1' : reduceStep cfg { r with choice := o' }
        { sys with sol := { sys.sol with trail := sys.sol.trail.reset } } = some sysr := h1
    unfold solveRound
    dsimp only
    rw [h1']
    dsimp only
    rw [b1]
  have hcf : s.conflict = [] := by
    have := b3.conflict.trans a2.conflict
    exact this.trans hok.conflict
  cases hE : s.db.hasEmpty with
  | true =>
    refine ⟨fun i => ⟨(o i).restart, firstFree⟩, { sysr with sol := s }, fun _ => firstFree_valid _,
      fun _ => rfl, ?_, r2, hcf⟩
    rw [hround, if_pos hE]
  | false =>
    have hsr : Searching u F as s := .start h cfg r hr h1 b1 hE
    have hsim := aSearch_sim hu hn hd r.steps hsr r2 ho
    rw [hrec2] at hsim
    dsimp only
    generalize aSearch sys.sol.recalc r.steps o m2 = x at hsim
    cases x with
    | ub => exact hsim
    | more =>
      obtain ⟨o', k1, k2, k3⟩ := hsim
      refine ⟨o', k1, k2, ?_⟩
      rw [hround, if_neg (by simp [hE]), k3]; rfl
    | done m3 res c =>
      obtain ⟨o', s', k1, k2, k3, k4, k5⟩ := hsim
      refine ⟨o', { sysr with sol := s' }, k1, k2, ?_, k4, ?_⟩
      · rw [hround, if_neg (by simp [hE]), k3]; rfl
      · rw [k5, hcf]; rfl

end Candy
