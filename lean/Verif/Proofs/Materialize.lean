import Verif.Proofs.Asym
import Verif.Model.Solve

/-! Unit propagation on level 0. -/

namespace Candy

variable {F : CNF} {nV next : Nat} {bin : Lit → List Watcher} {store : Nat → Cls} {T : Trail}
variable {watch : Lit → List Watcher} {A : Nat → Prop}

/-- Trails on level 0 where `T'` extends `T`. -/
structure TGrow (T T' : Trail) : Prop where
  nVars : T'.nVars = T.nVars
  lim : T'.lim = T.lim
  assumptions : T'.assumptions = T.assumptions
  decision : T'.decision = T.decision
  stack : ∃ suf, T'.stack = T.stack ++ suf

theorem TGrow.refl (T : Trail) : TGrow T T := ⟨rfl, rfl, rfl, rfl, [], by simp⟩
theorem TGrow.trans {a b c : Trail} (h : TGrow a b) (h' : TGrow b c) : TGrow a c := by
  refine ⟨h'.1.trans h.1, h'.2.trans h.2, h'.3.trans h.3, h'.4.trans h.4, ?_⟩
  obtain ⟨x, hx⟩ := h.stack
  obtain ⟨y, hy⟩ := h'.stack
  exact ⟨x ++ y, by rw [hy, hx]; simp⟩
theorem TGrow.mem {T T' : Trail} (h : TGrow T T') {l : Lit} (hl : l ∈ T.stack) : l ∈ T'.stack := by
  obtain ⟨x, hx⟩ := h.stack
  rw [hx]; exact List.mem_append_left _ hl
theorem TExt.toGrow {T T' : Trail} (h : TExt T T') : TGrow T T' :=
  ⟨h.nVars, h.lim, h.assumptions, h.decision, h.stack⟩

/-- No literal on the stack has a reason clause. -/
def NoReason (T : Trail) : Prop := ∀ l ∈ T.stack, T.reason l.var = none

theorem TEq.noReason {T T' : Trail} (h : TEq T T') (hn : NoReason T) : NoReason T' := by
  intro l hl
  rw [h.stack] at hl
  rw [h.reason l hl]; exact hn l hl

theorem level_zero (ht : T.Inv) (hl : T.lim = []) {l : Lit} (h : l ∈ T.stack) :
    T.level l.var = 0 := by
  have := ht.level_le h
  simpa [Trail.decisionLevel, hl] using this

theorem fact_false (h : Core F nV next bin store T) (hl : T.lim = []) {p : Lit}
    (he : Entails F [p]) (hf : (T.fact p).2 = false) : Entails F [] := by
  unfold Trail.fact at hf
  split at hf
  · rename_i hfal
    have hp : p.neg ∈ T.stack := by
      rw [← h.tinv.valFalse]; simpa [Trail.falsifies] using hfal
    have := CoreB.entailed h (by simp [Trail.decisionLevel, hl]) hp
    intro a ha
    rw [Entails.unit] at he this
    exact (Lit.holds_neg.1 (this a ha) (he a ha)).elim
  · dsimp only at hf
    split at hf <;> simp at hf

/-- Clearing the reason of an assigned literal. -/
theorem fact_sat_core (h : Core F nV next bin store T) (hl : T.lim = []) (p : Lit) :
    Core F nV next bin store
      { T with reason := upd T.reason p.var none, level := upd T.level p.var 0 } where
  tinv := {
    val := h.tinv.val
    nodup := h.tinv.nodup
    bound := h.tinv.bound
    limSorted := h.tinv.limSorted
    limLe := h.tinv.limLe
    lev := by
      intro pre q post hs
      simp only [upd_apply, hl]
      split
      · simp
      · have := h.tinv.lev pre q post hs
        rw [hl] at this; exact this
    qle := h.tinv.qle }
  nv := h.nv
  wf := h.wf
  nd := h.nd
  ent := h.ent
  rsome pre q post c hs hr := by
    simp only [upd_apply] at hr
    split at hr
    · simp at hr
    · exact h.rsome pre q post c hs hr
  rnone pre q post hs hr := by
    left
    have hq : q ∈ T.stack := by simp only at hs; rw [hs]; simp
    refine ⟨?_, CoreB.entailed h (by simp [Trail.decisionLevel, hl]) hq⟩
    simp only [upd_apply]
    split
    · omega
    · rw [level_zero h.tinv hl hq]; omega
  binInv := h.binInv

theorem fact_spec (h : Core F nV next bin store T) (hl : T.lim = []) {p : Lit}
    (he : Entails F [p]) (hv : p.var < nV) :
    Core F nV next bin store (T.fact p).1 ∧ TGrow T (T.fact p).1 ∧ (T.fact p).1.qhead = T.qhead ∧
    (NoReason T → NoReason (T.fact p).1) ∧
    ((T.fact p).2 = true → p ∈ (T.fact p).1.stack ∧ (T.fact p).1.reason p.var = none) ∧
    (∀ q : Lit, T.reason q.var = none → (T.fact p).1.reason q.var = none) ∧
    (p ∈ T.stack → (T.fact p).1.stack = T.stack) := by
  unfold Trail.fact
  split
  · rename_i hf
    exact ⟨h, TGrow.refl _, rfl, id, by simp, fun _ h => h, fun _ => rfl⟩
  · rename_i hf
    dsimp only
    split
    · rename_i hs
      have hp : p ∈ T.stack := by
        rw [← h.tinv.val]
        simpa [Trail.satisfies, Trail.value] using hs
      refine ⟨fact_sat_core h hl p, ⟨rfl, rfl, rfl, rfl, [], by simp⟩, rfl, ?_, ?_, ?_, fun _ => rfl⟩
      · intro hn q hq
        simp only [upd_apply]
        split
        · rfl
        · exact hn q hq
      · intro _
        exact ⟨hp, by simp⟩
      · intro q hq
        simp only [upd_apply]
        split
        · rfl
        · exact hq
    · rename_i hs
      have hval : T.value p = none := by
        cases hv : T.value p with
        | none => rfl
        | some b =>
          cases b with
          | true => exact (hs (by
              simp only [Trail.satisfies, Trail.value] at hv ⊢
              rw [hv]; rfl)).elim
          | false => exact (hf (by simp only [Trail.falsifies]; rw [hv]; rfl)).elim
      have hd : (({ T with reason := upd T.reason p.var none, level := upd T.level p.var 0 } :
          Trail).setValue p) = T.decide p := by
        simp [Trail.setValue, Trail.decide, Trail.decisionLevel, hl]
      rw [hd]
      refine ⟨CoreB.decide h (by simp [Trail.decisionLevel, hl]) hval hv he,
        ⟨rfl, rfl, rfl, rfl, [p], rfl⟩, rfl, ?_, ?_, ?_, ?_⟩
      · intro hn q hq
        simp only [Trail.decide, Trail.setValue, upd_apply] at hq ⊢
        split
        · rfl
        · rename_i hqv
          rcases List.mem_append.1 hq with hq | hq
          · exact hn q hq
          · simp at hq; subst hq; exact (hqv rfl).elim
      · intro _
        exact ⟨by simp [Trail.decide, Trail.setValue], by simp [Trail.decide]⟩
      · intro q hq
        simp only [Trail.decide, upd_apply]
        split
        · rfl
        · exact hq
      · intro hp
        rw [← h.tinv.val, hval] at hp
        simp at hp

/-- Databases that differ only in the conflict flag and the certificate. -/
structure DBSame (db db' : DB) : Prop where
  nVars : db'.nVars = db.nVars
  store : db'.store = db.store
  next : db'.next = db.next
  clauses : db'.clauses = db.clauses
  bin : db'.bin = db.bin

theorem factFold_spec : ∀ (ls : List Lit) (T : Trail) (db : DB),
    Core F db.nVars db.next db.bin db.store T → T.lim = [] → DBOk F db →
    (∀ l ∈ ls, l.var < db.nVars ∧ Entails F [l]) →
    Core F db.nVars db.next db.bin db.store (ls.foldl factStep (T, db)).1 ∧
    TGrow T (ls.foldl factStep (T, db)).1 ∧ (ls.foldl factStep (T, db)).1.qhead = T.qhead ∧
    (NoReason T → NoReason (ls.foldl factStep (T, db)).1) ∧
    DBOk F (ls.foldl factStep (T, db)).2 ∧ DBSame db (ls.foldl factStep (T, db)).2 ∧
    ((ls.foldl factStep (T, db)).2.hasEmpty = false → db.hasEmpty = false ∧
      ∀ l ∈ ls, l ∈ (ls.foldl factStep (T, db)).1.stack)
  | [], T, db, hc, hl, hd, _ => by
    exact ⟨hc, TGrow.refl _, rfl, id, hd, ⟨rfl, rfl, rfl, rfl, rfl⟩, fun h => ⟨h, by simp⟩⟩
  | l :: ls, T, db, hc, hl, hd, hls => by
    rw [List.foldl_cons]
    obtain ⟨h1, h2, h3, h4, h5, _, _⟩ := fact_spec hc hl (hls l (by simp)).2 (hls l (by simp)).1
    have hlim : (T.fact l).1.lim = [] := by rw [h2.lim, hl]
    cases hf : (T.fact l).2 with
    | true =>
      have he : factStep (T, db) l = ((T.fact l).1, db) := by
        simp only [factStep]
        split
        · rename_i T1 h; simp [h]
        · rename_i T1 h; rw [h] at hf; simp at hf
      rw [he]
      obtain ⟨k1, k2, k3, k4, k5, k6, k7⟩ := factFold_spec ls _ db h1 hlim hd
        (fun x hx => hls x (by simp [hx]))
      refine ⟨k1, h2.trans k2, k3.trans h3, fun h => k4 (h4 h), k5, k6, fun h => ?_⟩
      obtain ⟨m1, m2⟩ := k7 h
      refine ⟨m1, fun x hx => ?_⟩
      rcases List.mem_cons.1 hx with rfl | hx
      · exact k2.mem (h5 hf).1
      · exact m2 x hx
    | false =>
      have he : factStep (T, db) l = ((T.fact l).1, db.emptyClause) := by
        simp only [factStep]
        split
        · rename_i T1 h; rw [h] at hf; simp at hf
        · rename_i T1 h; simp [h]
      rw [he]
      have hE := fact_false hc hl (hls l (by simp)).2 hf
      obtain ⟨k1, k2, k3, k4, k5, k6, k7⟩ := factFold_spec ls (T.fact l).1 db.emptyClause h1 hlim
        (hd.emptyClause hE) (fun x hx => hls x (by simp [hx]))
      refine ⟨k1, h2.trans k2, k3.trans h3, fun h => k4 (h4 h), k5,
        ⟨k6.nVars, k6.store, k6.next, k6.clauses, k6.bin⟩, fun h => ?_⟩
      have := (k7 h).1
      simp [DB.emptyClause] at this

/-- Extension of a database by unit clauses, up to literal order in the old clauses. -/
structure AddsUnits (db db' : DB) (T : Trail) : Prop where
  nVars : db'.nVars = db.nVars
  next : db.next ≤ db'.next
  lits : ∀ c < db.next, (db'.lits c).Perm (db.lits c)
  weight : ∀ c < db.next, (db'.store c).weight = (db.store c).weight
  clauses : ∃ ext, db'.clauses = db.clauses ++ ext ∧ ∀ c ∈ ext, db.next ≤ c ∧ c < db'.next ∧
    (db'.store c).weight = 0 ∧ ∃ l ∈ T.stack, db'.lits c = [l]
  news : ∀ c, db.next ≤ c → c < db'.next → ∃ l ∈ T.stack, db'.lits c = [l]

theorem unitFold_spec : ∀ (ls : List Lit) (T : Trail) (db : DB),
    Core F db.nVars db.next db.bin db.store T → T.lim = [] → DBOk F db →
    (∀ l ∈ ls, l ∈ T.stack) →
    ∃ db', ls.foldl unitStep (T, db) = ((ls.foldl unitStep (T, db)).1, db') ∧
      db' = (ls.foldl unitStep (T, db)).2 ∧
      Core F db'.nVars db'.next db'.bin db'.store (ls.foldl unitStep (T, db)).1 ∧
      TGrow T (ls.foldl unitStep (T, db)).1 ∧
      (ls.foldl unitStep (T, db)).1.stack = T.stack ∧
      (ls.foldl unitStep (T, db)).1.qhead = T.qhead ∧
      (ls.foldl unitStep (T, db)).1.level = (ls.foldl unitStep (T, db)).1.level ∧
      (∀ q : Lit, q ∈ ls ∨ T.reason q.var = none →
        (ls.foldl unitStep (T, db)).1.reason q.var = none) ∧
      DBOk F db' ∧ DBExt db db' ∧ AddsUnits db db' T ∧ db'.hasEmpty = db.hasEmpty ∧
      (∀ p w, w ∈ db.bin p → w ∈ db'.bin p)
  | [], T, db, hc, hl, hd, _ => by
    refine ⟨db, rfl, rfl, hc, TGrow.refl _, rfl, rfl, rfl, ?_, hd, DBExt.refl _,
      ⟨rfl, Nat.le_refl _, fun _ _ => List.Perm.refl _, fun _ _ => rfl,
        ⟨[], by simp⟩, fun c h1 h2 => by omega⟩, rfl, fun _ _ h => h⟩
    intro q hq
    simpa using hq
  | l :: ls, T, db, hc, hl, hd, hls => by
    rw [List.foldl_cons]
    have hlm := hls l (by simp)
    have hent := CoreB.entailed hc (by simp [Trail.decisionLevel, hl]) hlm
    have hv : l.var < db.nVars := by rw [← hc.nv]; exact hc.tinv.bound l hlm
    obtain ⟨h1, h2, h3, h4, h5, h6, h7⟩ := fact_spec hc hl hent hv
    have hlim : (T.fact l).1.lim = [] := by rw [h2.lim, hl]
    have hd1 : DBOk F (db.createClause [l]).1 :=
      hd.createClause (by simpa using hv) (by simp) hent
    have hx1 : DBExt db (db.createClause [l]).1 := DBExt.createClause ..
    have hc1 : Core F (db.createClause [l]).1.nVars (db.createClause [l]).1.next
        (db.createClause [l]).1.bin (db.createClause [l]).1.store (T.fact l).1 :=
      Core.ofDB hd1 h1 hx1.next hx1.nVars.symm hx1.lits
    have hstk := h7 hlm
    obtain ⟨db', k1, k0, k2, k3, k4, k5, _, k7, k8, k9, k10, k11, k12⟩ := unitFold_spec ls (T.fact l).1
      (db.createClause [l]).1 hc1 hlim hd1 (fun x hx => by rw [hstk]; exact hls x (by simp [hx]))
    refine ⟨db', k1, k0, k2, h2.trans k3, k4.trans hstk, k5.trans h3, rfl, ?_, k8, hx1.trans k9, ?_,
      ?_, ?_⟩
    · intro q hq
      refine k7 q ?_
      rcases hq with hq | hq
      · rcases List.mem_cons.1 hq with rfl | hq
        · right
          refine (h5 ?_).2
          cases hf : (T.fact q).2 with
          | true => rfl
          | false =>
            unfold Trail.fact at hf
            split at hf
            · rename_i hfal
              exfalso
              have := (hc.tinv.val q).2 hlm
              simp [Trail.falsifies, this] at hfal
            · dsimp only at hf
              split at hf <;> simp at hf
        · exact Or.inl hq
      · exact Or.inr (h6 q hq)
    · have hn : (db.createClause [l]).1.next = db.next + 1 := createClause_next ..
      have hnx := k10.next
      refine ⟨k10.nVars.trans hx1.nVars, by omega, ?_, ?_, ?_, ?_⟩
      · intro c hc
        rw [k9.lits c (by omega), hx1.lits c hc]
      · intro c hc
        rw [k10.weight c (by omega), createClause_store, upd_ne _ _ (by omega)]
      · obtain ⟨ext, e1, e2⟩ := k10.clauses
        refine ⟨db.next :: ext, by rw [e1, createClause_clauses]; simp, ?_⟩
        intro c hcm
        rcases List.mem_cons.1 hcm with rfl | hcm
        · refine ⟨Nat.le_refl _, by omega, ?_, l, hlm, ?_⟩
          · rw [k10.weight db.next (by omega), createClause_store]; simp
          · rw [k9.lits db.next (by omega), createClause_lits]; simp
        · obtain ⟨f1, f2, f3, m, f4, f5⟩ := e2 c hcm
          exact ⟨by omega, f2, f3, m, by rw [← hstk]; exact f4, f5⟩
      · intro c hc1 hc2
        by_cases hcn : c = db.next
        · subst hcn
          exact ⟨l, hlm, by rw [k9.lits db.next (by omega), createClause_lits]; simp⟩
        · obtain ⟨m, f4, f5⟩ := k10.news c (by omega) hc2
          exact ⟨m, by rw [← hstk]; exact f4, f5⟩
    · rw [k11, createClause_hasEmpty]; simp
    · intro p w hw
      exact k12 p w (createClause_bin_mono hw)

/-! ### materialize -/

/-- State on level 0 ready for unit propagation. -/
structure L0 (F : CNF) (s : Solver) : Prop where
  core : Core F s.db.nVars s.db.next s.db.bin s.db.store s.trail
  watch : WatchInv s.db.next s.db.store s.watch
  lim : s.trail.lim = []
  rz : NoReason s.trail

theorem L0.sameTrail {s : Solver} (h : L0 F s) {T' : Trail} (ht : TSame s.trail T') :
    L0 F { s with trail := T' } where
  core := {
    tinv := ht.inv h.core.tinv
    nv := ht.nVars.trans h.core.nv
    wf := h.core.wf
    nd := h.core.nd
    ent := h.core.ent
    rsome := by
      intro pre p post c hs hr
      simp only at hs hr
      rw [ht.stack] at hs; rw [ht.reason] at hr
      exact h.core.rsome pre p post c hs hr
    rnone := by
      intro pre p post hs hr
      simp only at hs hr
      rw [ht.stack] at hs; rw [ht.reason] at hr
      simp only
      rw [ht.level, ht.lim]
      exact h.core.rnone pre p post hs hr
    binInv := h.core.binInv }
  watch := h.watch
  lim := by simp only; rw [ht.lim]; exact h.lim
  rz := by
    intro l hl
    simp only at hl ⊢
    rw [ht.stack] at hl; rw [ht.reason]; exact h.rz l hl

/-- What `propagateAndMaterializeUnitClauses` guarantees. -/
structure Mat (F : CNF) (s s' : Solver) : Prop where
  db : DBOk F s'.db
  add : AddsUnits s.db s'.db s'.trail
  grow : TGrow s.trail s'.trail
  conflict : s'.conflict = s.conflict
  recalc : s'.recalc = s.recalc
  sent : s'.sent = s.sent
  hasEmpty : s.db.hasEmpty = true → s'.db.hasEmpty = true
  l0 : s'.db.hasEmpty = false → L0 F s'
  qhead : s'.db.hasEmpty = false → s'.trail.qhead = s'.trail.stack.length
  units : s'.db.hasEmpty = false → ∀ c ∈ s.db.clauses, (s.db.store c).isDeleted = false →
    ∀ l, s.db.lits c = [l] → l ∈ s'.trail.stack
  cinv : s'.db.hasEmpty = false → ∀ A : Nat → Prop, (∀ c, A c → c < s.db.next) →
    CInv A s.db.store s.watch s.db.bin s.trail (fun _ _ => False) →
    CInv A s'.db.store s'.watch s'.db.bin s'.trail (fun _ _ => False)
  src : ∀ P : Nat → Prop, (∀ c < s.db.next, ∀ l ∈ s.db.lits c, P l.var) →
    (∀ l ∈ s.trail.stack, P l.var) → ∀ l ∈ s'.trail.stack, P l.var

theorem factFold_src : ∀ (ls : List Lit) (T : Trail) (db : DB),
    ∀ l ∈ (ls.foldl factStep (T, db)).1.stack, l ∈ T.stack ∨ l ∈ ls
  | [], T, db, l, h => Or.inl h
  | p :: ls, T, db, l, h => by
    rw [List.foldl_cons] at h
    have e : factStep (T, db) p = ((T.fact p).1, (factStep (T, db) p).2) := by
      simp only [factStep]
      split <;> (rename_i T1 h; simp [h])
    rw [e] at h
    rcases factFold_src ls _ _ l h with h | h
    · unfold Trail.fact at h
      split at h
      · exact Or.inl h
      · dsimp only at h
        split at h
        · exact Or.inl h
        · simp only [Trail.setValue] at h
          rcases List.mem_append.1 h with h | h
          · exact Or.inl h
          · simp at h; subst h; exact Or.inr (by simp)
    · exact Or.inr (by simp [h])

theorem unitLits_mem {db : DB} (h : ∀ c ∈ db.clauses, c < db.next) {l : Lit} (hl : l ∈ db.unitLits) :
    ∃ c < db.next, l ∈ db.lits c := by
  unfold DB.unitLits at hl
  obtain ⟨c, hc, hh⟩ := List.mem_filterMap.1 hl
  obtain ⟨h1, h2⟩ := List.mem_filter.1 hc
  exact ⟨c, h c h1, List.mem_of_mem_head? hh⟩

theorem unitLits_spec {db : DB} (h : DBOk F db) : ∀ l ∈ db.unitLits,
    l.var < db.nVars ∧ Entails F [l] := by
  intro l hl
  unfold DB.unitLits at hl
  obtain ⟨c, hc, hh⟩ := List.mem_filterMap.1 hl
  obtain ⟨h1, h2⟩ := List.mem_filter.1 hc
  have hlt := h.mem c h1
  match hL : db.lits c, hh, h2 with
  | [x], hh, _ =>
    simp at hh; subst hh
    refine ⟨h.wf c hlt x (by rw [show (db.store c).lits = [x] from hL]; simp), ?_⟩
    rw [← hL]; exact h.ent c hlt
  | [], hh, _ => simp at hh
  | x :: y :: r, _, h2 => simp at h2

theorem mem_unitLits {db : DB} {c : Nat} {l : Lit} (h1 : c ∈ db.clauses)
    (h2 : (db.store c).isDeleted = false) (h3 : db.lits c = [l]) : l ∈ db.unitLits := by
  unfold DB.unitLits
  refine List.mem_filterMap.2 ⟨c, ?_, by rw [h3]; rfl⟩
  exact List.mem_filter.2 ⟨h1, by simp [h2, h3]⟩

theorem CInv.growLevel0 {T T' : Trail} (h : CInv A store watch bin T (fun _ _ => False))
    (ht : T.Inv) (ht' : T'.Inv) (hl : T.lim = []) (hg : TGrow T T') (hq : T'.qhead = T.qhead) :
    CInv A store watch bin T' (fun _ _ => False) where
  w1 := h.w1
  b1 := h.b1
  w4 c hc x y r hls w hw := by
    rcases h.w4 c hc x y r hls w hw with h1 | h1
    · exact h1.elim
    · right
      intro hm
      obtain ⟨suf, hs⟩ := hg.stack
      rw [hs, hq, List.take_append_of_le_length ht.qle] at hm
      obtain ⟨l, k1, k2, k3⟩ := h1 hm
      refine ⟨l, k1, hg.mem k2, ?_⟩
      rw [level_zero ht' (by rw [hg.lim, hl]) (hg.mem k2)]
      exact Nat.zero_le _

/-- With a contradiction in the database, nothing is propagated. -/
theorem factFold_empty : ∀ (ls : List Lit) (T : Trail) (db : DB), DBOk F db → db.hasEmpty = true →
    DBOk F (ls.foldl factStep (T, db)).2 ∧ DBSame db (ls.foldl factStep (T, db)).2 ∧
    (ls.foldl factStep (T, db)).2.hasEmpty = true ∧
    (ls.foldl factStep (T, db)).1.nVars = T.nVars ∧
    (ls.foldl factStep (T, db)).1.assumptions = T.assumptions ∧
    (ls.foldl factStep (T, db)).1.decision = T.decision
  | [], T, db, hd, he => ⟨hd, ⟨rfl, rfl, rfl, rfl, rfl⟩, he, rfl, rfl, rfl⟩
  | l :: ls, T, db, hd, he => by
    rw [List.foldl_cons]
    have hfx : (T.fact l).1.nVars = T.nVars ∧ (T.fact l).1.assumptions = T.assumptions ∧
        (T.fact l).1.decision = T.decision := by
      unfold Trail.fact
      split
      · exact ⟨rfl, rfl, rfl⟩
      · dsimp only
        split <;> exact ⟨rfl, rfl, rfl⟩
    obtain ⟨g1, g2, g3⟩ := hfx
    cases hf : (T.fact l).2 with
    | true =>
      have he' : factStep (T, db) l = ((T.fact l).1, db) := by
        simp only [factStep]
        split
        · rename_i T1 h; simp [h]
        · rename_i T1 h; rw [h] at hf; simp at hf
      rw [he']
      obtain ⟨a, b, c, d, e, f⟩ := factFold_empty ls (T.fact l).1 db hd he
      exact ⟨a, b, c, d.trans g1, e.trans g2, f.trans g3⟩
    | false =>
      have he' : factStep (T, db) l = ((T.fact l).1, db.emptyClause) := by
        simp only [factStep]
        split
        · rename_i T1 h; rw [h] at hf; simp at hf
        · rename_i T1 h; simp [h]
      rw [he']
      obtain ⟨a, b, c, d, e, f⟩ := factFold_empty ls (T.fact l).1 db.emptyClause
        (hd.emptyClause (hd.empt he)) rfl
      exact ⟨a, ⟨b.1, b.2, b.3, b.4, b.5⟩, c, d.trans g1, e.trans g2, f.trans g3⟩

/-- `materialize` on a database with a contradiction. -/
theorem materialize_empty {s : Solver} (hd : DBOk F s.db) (he : s.db.hasEmpty = true) :
    ∃ s', materialize s = some s' ∧ DBOk F s'.db ∧ DBSame s.db s'.db ∧ s'.db.hasEmpty = true ∧
      s'.trail.nVars = s.trail.nVars ∧ s'.trail.assumptions = s.trail.assumptions ∧
      s'.conflict = s.conflict ∧ s'.trail.decision = s.trail.decision := by
  obtain ⟨a, b, c, d, e, f⟩ := factFold_empty s.db.unitLits s.trail s.db hd he
  refine ⟨{ s with trail := (s.db.unitLits.foldl factStep (s.trail, s.db)).1,
                   db := (s.db.unitLits.foldl factStep (s.trail, s.db)).2 }, ?_, a, b, c, d, e, rfl, f⟩
  unfold materialize
  simp only
  rw [if_pos c]

theorem materialize_spec {s : Solver} (hd : DBOk F s.db) (h : L0 F s) :
    ∃ s', materialize s = some s' ∧ Mat F s s' := by
  obtain ⟨f1, f2, f3, f4, f5, f6, f7⟩ := factFold_spec s.db.unitLits s.trail s.db h.core h.lim hd
    (unitLits_spec hd)
  have f4 := f4 h.rz
  have fsrc := factFold_src s.db.unitLits s.trail s.db
  have hadd0 : AddsUnits s.db (s.db.unitLits.foldl factStep (s.trail, s.db)).2
      (s.db.unitLits.foldl factStep (s.trail, s.db)).1 := by
    refine ⟨f6.nVars, by rw [f6.next]; exact Nat.le_refl _, ?_, ?_, ⟨[], ?_, by simp⟩,
      fun c h1 h2 => by rw [f6.next] at h2; omega⟩
    · intro c _; unfold DB.lits; rw [f6.store]
    · intro c _; rw [f6.store]
    · rw [f6.clauses]; simp
  unfold materialize
  generalize s.db.unitLits.foldl factStep (s.trail, s.db) = x at *
  obtain ⟨T1, db1⟩ := x
  simp only at *
  have hlim1 : T1.lim = [] := by rw [f2.lim, h.lim]
  have hsrc1 : ∀ P : Nat → Prop, (∀ c < s.db.next, ∀ l ∈ s.db.lits c, P l.var) →
      (∀ l ∈ s.trail.stack, P l.var) → ∀ l ∈ T1.stack, P l.var := by
    intro P h1 h2 l hl
    rcases fsrc l hl with h3 | h3
    · exact h2 l h3
    · obtain ⟨c, h4, h5⟩ := unitLits_mem hd.mem h3
      exact h1 c h4 l h5
  split
  · rename_i he
    refine ⟨_, rfl, ?_⟩
    exact {
      db := f5
      add := hadd0
      grow := f2
      conflict := rfl
      recalc := rfl
      sent := rfl
      hasEmpty := fun _ => he
      l0 := by simp only [he]; simp
      qhead := by simp only [he]; simp
      units := by simp only [he]; simp
      cinv := by simp only [he]; simp
      src := hsrc1 }
  · rename_i he
    have he : db1.hasEmpty = false := by simpa using he
    obtain ⟨f7a, f7b⟩ := f7 he
    have hc1 : Core F db1.nVars db1.next db1.bin db1.store T1 := by
      rw [f6.nVars, f6.next, f6.bin, f6.store]; exact f1
    have hw1 : WatchInv db1.next db1.store s.watch := by
      rw [f6.next, f6.store]; exact h.watch
    have hq : LimQ T1 := by intro k hk; rw [hlim1] at hk; simp at hk
    obtain ⟨ps, r, e1, e2, e3, e4, e5, e6, e7, e8, _⟩ := propagateLoop_spec (A := fun _ => False)
      (db1.nVars + 1) ⟨db1.store, s.watch, T1⟩ hc1 hw1 hq (by omega)
    have hce : ∀ A : Nat → Prop, CInv A s.db.store s.watch s.db.bin s.trail (fun _ _ => False) →
        r = none → CInv A ps.store ps.watch db1.bin ps.T (fun _ _ => False) := by
      intro A hA hr
      obtain ⟨ps', r', e1', _, _, _, _, _, _, _, e9⟩ := propagateLoop_spec (A := A)
        (db1.nVars + 1) ⟨db1.store, s.watch, T1⟩ hc1 hw1 hq (by omega)
      rw [e1] at e1'
      simp only [Option.some.injEq, Prod.mk.injEq] at e1'
      obtain ⟨rfl, rfl⟩ := e1'
      have h0 : CInv A db1.store s.watch db1.bin T1 (fun _ _ => False) := by
        rw [f6.store, f6.bin]
        exact hA.growLevel0 h.core.tinv f1.tinv h.lim f2 f3
      have := e9 h0
      refine ⟨this.w1, this.b1, ?_⟩
      intro c hc x y r hl w hw
      rcases this.w4 c hc x y r hl w hw with h1 | h1
      · exact (h1.1 hr).elim
      · exact Or.inr h1
    have hsrc2 : ∀ P : Nat → Prop, (∀ c < s.db.next, ∀ l ∈ s.db.lits c, P l.var) →
        (∀ l ∈ s.trail.stack, P l.var) → ∀ l ∈ ps.T.stack, P l.var := by
      intro P h1 h2 l hl
      by_cases hm : l ∈ T1.stack
      · exact hsrc1 P h1 h2 l hm
      · obtain ⟨pre, post, hpp⟩ := List.append_of_mem hl
        obtain ⟨c, hc⟩ := Option.ne_none_iff_exists'.1 (e4.new l hl hm)
        obtain ⟨k1, k2, _⟩ := e2.rsome pre l post c hpp hc
        rw [(e5 c).1.mem_iff, f6.store] at k2
        rw [f6.next] at k1
        exact h1 c k1 l k2
    rw [e1]
    simp only at e4 e5
    have hdb2 : DBOk F { db1 with store := ps.store } := f5.perm e5
    have hlim2 : ps.T.lim = [] := by rw [e4.lim, hlim1]
    cases r with
    | some c =>
      simp only
      refine ⟨_, rfl, ?_⟩
      have hE : Entails F [] :=
        ConflictL.refutes e2 (by simp [Trail.decisionLevel, hlim2]) (e7 c rfl)
      exact {
        db := hdb2.emptyClause hE
        add := by
          refine ⟨f6.nVars, by simp only [DB.emptyClause]; rw [f6.next]; exact Nat.le_refl _,
            ?_, ?_, ⟨[], ?_, by simp⟩, fun c h1 h2 => by
              simp only [DB.emptyClause] at h2; rw [f6.next] at h2; omega⟩
          · intro d _
            have := (e5 d).1
            rw [f6.store] at this; exact this
          · intro d _
            have := (e5 d).2
            rw [f6.store] at this; exact this
          · simp only [DB.emptyClause]; rw [f6.clauses]; simp
        grow := f2.trans e4.toGrow
        conflict := rfl
        recalc := rfl
        sent := rfl
        hasEmpty := fun _ => rfl
        l0 := by simp [DB.emptyClause]
        qhead := by simp [DB.emptyClause]
        units := by simp [DB.emptyClause]
        cinv := by simp [DB.emptyClause]
        src := hsrc2 }
    | none =>
      simp only
      obtain ⟨suf, hsuf⟩ := e4.stack
      have hdrop : ps.T.stack.drop T1.stack.length = suf := by rw [hsuf]; simp
      rw [hdrop]
      obtain ⟨db', k1, k0, k2, k3, k4, k5, _, k7, k8, k9, k10, k11, k12⟩ := unitFold_spec suf ps.T
        { db1 with store := ps.store } e2 hlim2 hdb2
        (fun x hx => by rw [hsuf]; exact List.mem_append_right _ hx)
      generalize suf.foldl unitStep (ps.T, { db1 with store := ps.store }) = y at *
      obtain ⟨T2, db2⟩ := y
      simp only at *
      subst k0
      refine ⟨_, rfl, ?_⟩
      have hgrow := (f2.trans e4.toGrow).trans k3
      exact {
        db := k8
        add := by
          obtain ⟨ext, x1, x2⟩ := k10.clauses
          refine ⟨k10.nVars.trans f6.nVars, ?_, ?_, ?_, ⟨ext, ?_, ?_⟩, ?_⟩
          · have := k10.next; simp only at this; rw [f6.next] at this; exact this
          · intro c hc
            have := k9.lits c (by simp only; rw [f6.next]; exact hc)
            rw [this]
            have h5 := (e5 c).1
            rw [f6.store] at h5; exact h5
          · intro c hc
            rw [k10.weight c (by simp only; rw [f6.next]; exact hc)]
            have h5 := (e5 c).2
            rw [f6.store] at h5; exact h5
          · rw [x1]; simp only; rw [f6.clauses]
          · intro c hc
            obtain ⟨a, b, d, l, e, g⟩ := x2 c hc
            simp only at a
            rw [f6.next] at a
            exact ⟨a, b, d, l, by simp only; rw [k4]; exact e, g⟩
          · intro c h1 h2
            obtain ⟨l, e, g⟩ := k10.news c (by simp only; rw [f6.next]; exact h1) h2
            exact ⟨l, by simp only; rw [k4]; exact e, g⟩
        grow := hgrow
        conflict := rfl
        recalc := rfl
        sent := rfl
        hasEmpty := fun hh => by rw [f7a] at hh; simp at hh
        l0 := fun _ => {
          core := k2
          watch := e3.congr k9.next k9.lits
          lim := by simp only; rw [k3.lim, hlim2]
          rz := by
            intro l hl
            simp only at hl ⊢
            refine k7 l ?_
            rw [k4, hsuf] at hl
            rcases List.mem_append.1 hl with hl | hl
            · right
              rw [e4.reason l hl]; exact f4 l hl
            · exact Or.inl hl }
        qhead := fun _ => by simp only; rw [k5, k4]; exact e6 trivial
        units := fun _ c hc hdel l hl =>
          ((e4.toGrow).trans k3).mem (f7b l (mem_unitLits hc hdel hl))
        cinv := fun _ A hA hC => by
          have h1 := hce A hC trivial
          have h2 := h1.congr (store' := db'.store) (watch' := ps.watch) (bin' := db'.bin)
            (fun c hc => k9.lits c (by simp only; rw [f6.next]; exact hA c hc))
            (fun _ _ h => h) k12
          exact h2.growLevel0 e2.tinv k2.tinv hlim2 k3 k5
        src := fun P h1 h2 l hl => by
          simp only at hl
          rw [k4] at hl
          exact hsrc2 P h1 h2 l hl }

end Candy
