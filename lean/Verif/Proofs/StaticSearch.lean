import Verif.Proofs.Static
import Verif.Proofs.History

/-! Search with the static propagator. -/

namespace Candy

variable {F : CNF} {nV next : Nat} {bin : Lit → List Watcher} {store : Nat → Cls} {T : Trail}
variable {A : Nat → Prop}

/-! ### Attaching clauses -/

theorem SWInv.congr {W : SW} {next' : Nat} {store' : Nat → Cls} (h : SWInv next store W)
    (hn : next ≤ next') (hs : ∀ c < next, (store' c).lits = (store c).lits) :
    SWInv next' store' W where
  ref i hi := by
    obtain ⟨a, b, c, d⟩ := h.ref i hi
    rw [hs _ a]
    exact ⟨Nat.lt_of_lt_of_le a hn, b, c, d⟩
  mem := h.mem
  nd := h.nd

theorem SWInv.add {W : SW} (h : SWInv next store W) {c : Nat} {x y : Lit} (hc : c < next)
    (hx : x ∈ (store c).lits) (hy : y ∈ (store c).lits) (hxy : x ≠ y) :
    SWInv next store (W.add c x y) := by
  have hlt : ∀ p i, i ∈ W.lists p → i < W.cnt := fun p i hi => ((h.mem p i).1 hi).1
  refine ⟨?_, ?_, ?_⟩
  · intro i hi
    simp only [SW.add] at hi ⊢
    by_cases hic : i = W.cnt
    · subst hic; rw [upd_same]; exact ⟨hc, hx, hy, hxy⟩
    · rw [upd_ne _ _ hic]; exact h.ref i (by omega)
  · intro p i
    simp only [SW.add, List.mem_append]
    by_cases hic : i = W.cnt
    · subst hic
      rw [upd_same]
      simp only
      constructor
      · rintro (h1 | h1 | h1)
        · exact (Nat.lt_irrefl _ (hlt _ _ h1)).elim
        · split at h1
          · rename_i e; exact ⟨by omega, Or.inl (by rw [e, Lit.neg_neg])⟩
          · simp at h1
        · split at h1
          · rename_i e; exact ⟨by omega, Or.inr (by rw [e, Lit.neg_neg])⟩
          · simp at h1
      · rintro ⟨_, e | e⟩
        · right; left; rw [if_pos (by rw [e, Lit.neg_neg])]; simp
        · right; right; rw [if_pos (by rw [e, Lit.neg_neg])]; simp
    · rw [upd_ne _ _ hic]
      have : ∀ q : Lit, i ∉ (if p = q.neg then [W.cnt] else []) := by
        intro q hq
        split at hq
        · simp at hq; exact hic hq
        · simp at hq
      rw [h.mem p i]
      constructor
      · rintro (h1 | h1 | h1)
        · exact ⟨by omega, h1.2⟩
        · exact (this _ h1).elim
        · exact (this _ h1).elim
      · rintro ⟨h1, h2⟩
        exact Or.inl ⟨by omega, h2⟩
  · intro p
    simp only [SW.add]
    refine List.nodup_append.2 ⟨h.nd p, ?_, ?_⟩
    · by_cases h1 : p = x.neg
      · by_cases h2 : p = y.neg
        · exact (hxy (neg_inj (h1.symm.trans h2))).elim
        · rw [if_pos h1, if_neg h2]; simp
      · rw [if_neg h1]
        split <;> simp
    · intro a ha b hb e
      subst e
      have := hlt p a ha
      rcases List.mem_append.1 hb with hb | hb
      · split at hb
        · simp at hb; omega
        · simp at hb
      · split at hb
        · simp at hb; omega
        · simp at hb

theorem SWInv.attachLong {W : SW} (h : SWInv next store W) {c : Nat} (hc : c < next)
    (hnd : ((store c).lits.map Lit.var).Nodup) : SWInv next store (SW.attachLong store W c) := by
  unfold SW.attachLong
  split
  · rename_i x y z r hl
    refine h.add hc (by rw [hl]; simp) (by rw [hl]; simp) ?_
    rw [hl] at hnd
    rintro rfl
    simp at hnd
  · exact h

theorem attachFold_inv : ∀ (cs : List Nat) (W : SW), SWInv next store W → (∀ c ∈ cs, c < next) →
    (∀ c ∈ cs, ((store c).lits.map Lit.var).Nodup) →
    SWInv next store (cs.foldl (SW.attachLong store) W)
  | [], _, h, _, _ => h
  | c :: cs, W, h, h1, h2 => by
    rw [List.foldl_cons]
    exact attachFold_inv cs _ (h.attachLong (h1 c (by simp)) (h2 c (by simp)))
      (fun d hd => h1 d (by simp [hd])) (fun d hd => h2 d (by simp [hd]))

theorem attachLong_mono (W : SW) (c : Nat) : W.cnt ≤ (SW.attachLong store W c).cnt ∧
    ∀ i < W.cnt, ((SW.attachLong store W c).tab i) = W.tab i := by
  unfold SW.attachLong
  split
  · refine ⟨by simp [SW.add], fun i hi => ?_⟩
    simp only [SW.add, upd_ne _ _ (Nat.ne_of_lt hi)]
  · exact ⟨Nat.le_refl _, fun _ _ => rfl⟩

theorem attachFold_mono : ∀ (cs : List Nat) (W : SW),
    W.cnt ≤ (cs.foldl (SW.attachLong store) W).cnt ∧
      ∀ i < W.cnt, ((cs.foldl (SW.attachLong store) W).tab i) = W.tab i
  | [], _ => ⟨Nat.le_refl _, fun _ _ => rfl⟩
  | c :: cs, W => by
    rw [List.foldl_cons]
    obtain ⟨a, b⟩ := attachLong_mono (store := store) W c
    obtain ⟨a', b'⟩ := attachFold_mono cs (SW.attachLong store W c)
    exact ⟨Nat.le_trans a a', fun i hi => (b' i (by omega)).trans (b i hi)⟩

theorem attachFold_all {c : Nat} (hl : 2 < (store c).lits.length) : ∀ (cs : List Nat) (W : SW),
    c ∈ cs → ∃ i < (cs.foldl (SW.attachLong store) W).cnt,
      ((cs.foldl (SW.attachLong store) W).tab i).cref = c
  | d :: cs, W, hc => by
    rw [List.foldl_cons]
    rcases List.mem_cons.1 hc with rfl | hc
    · obtain ⟨a', b'⟩ := attachFold_mono (store := store) cs (SW.attachLong store W c)
      have : ∃ i < (SW.attachLong store W c).cnt, ((SW.attachLong store W c).tab i).cref = c := by
        unfold SW.attachLong
        split
        · exact ⟨W.cnt, by simp [SW.add], by simp [SW.add, upd_same]⟩
        · rename_i hn
          match hs : (store c).lits, hl with
          | x :: y :: z :: r, _ => exact (hn x y z r hs).elim
      obtain ⟨i, h1, h2⟩ := this
      exact ⟨i, by omega, by rw [b' i h1]; exact h2⟩
    · exact attachFold_all hl cs _ hc

theorem swinv_empty : SWInv next store SW.empty where
  ref i hi := by simp [SW.empty] at hi
  mem p i := by simp [SW.empty]
  nd p := by simp [SW.empty]

theorem swinv_reset {db : DB} (h : DBOk F db) : SWInv db.next db.store (SW.reset db) :=
  attachFold_inv _ _ swinv_empty h.mem (fun c hc => h.nd c (h.mem c hc))

theorem swinv_init {db : DB} (h : DBOk F db) {W : SW} (hw : SWInv db.next db.store W) :
    SWInv db.next db.store (W.init db) :=
  attachFold_inv _ _ hw h.mem (fun c hc => h.nd c (h.mem c hc))

/-! ### The invariant -/

/-- Invariant of the search loop. `A` is the set of clauses for which propagation is complete, provided
that `L`. -/
structure StInv (L : Prop) (F : CNF) (A : Nat → Prop) (s : St) : Prop where
  sol : SInv F (fun c => A c ∧ (s.sol.db.store c).lits.length ≤ 2) s.sol
  nw : s.sol.watch = noWatch
  alt : ∀ c, A c → c < s.sol.db.next
  w : SWInv s.sol.db.next s.sol.db.store s.W
  sci : L → SCI s.sol.db.store s.W s.sol.trail (fun _ _ => False)
  cov : ∀ c, A c → 2 < (s.sol.db.store c).lits.length →
    ∃ i < s.W.cnt, (s.W.tab i).cref = c

theorem SInv.dropWatch {s : Solver} (h : SInv F A s) (hA : ∀ c, A c → (s.db.store c).lits.length ≤ 2) :
    SInv F A { s with watch := noWatch } where
  db := h.db
  core := h.core
  watch := ⟨by simp, by simp⟩
  limq := h.limq
  cinv := {
    w1 := fun c hc x y r hl hr => by
      have := hA c hc
      rw [hl] at this
      cases r with
      | nil => exact (hr rfl).elim
      | cons => simp at this
    b1 := h.cinv.b1
    w4 := h.cinv.w4 }
  alt := h.alt
  units := h.units
  nonempty := h.nonempty
  asmBound := h.asmBound
  asm := h.asm
  asmTrue := h.asmTrue

theorem assumeLoop_same : ∀ (ps : List Lit) (T : Trail),
    (assumeLoop T ps).1.stack = T.stack ∧ (assumeLoop T ps).1.qhead = T.qhead ∧
      (assumeLoop T ps).1.level = T.level ∧ (assumeLoop T ps).1.assigns = T.assigns ∧
      (∀ p, (assumeLoop T ps).2 = .next p → T.value p = none)
  | [], T => ⟨rfl, rfl, rfl, rfl, by simp [assumeLoop]⟩
  | p :: ps, T => by
    rw [assumeLoop]
    split
    · obtain ⟨a, b, c, d, e⟩ := assumeLoop_same ps T.newDecisionLevel
      exact ⟨a, b, c, d, e⟩
    · exact ⟨rfl, rfl, rfl, rfl, by simp⟩
    · rename_i hv
      exact ⟨rfl, rfl, rfl, rfl, by simp [hv]⟩

/-- The branch without conflict is that of the other propagator when nothing is left to propagate. -/
theorem searchIter_decide {s : Solver} (hq : s.trail.qhead = s.trail.stack.length) (ch : Choice) :
    searchIter s ch = some (decideStep s ch) := by
  have hp : s.trail.stack[s.trail.qhead]? = none := by rw [hq]; simp
  unfold searchIter
  rw [propagateLoop]
  simp only [hp]
  unfold decideStep
  split
  · rfl
  · split
    · rename_i h; simp only [h]
    · rename_i h; simp only [h]
    · rename_i h
      simp only [h]
      split <;> (rename_i h; simp only [h])

/-- The solver of an outcome. -/
def IterOut.after : IterOut → Solver
  | .cont s => s
  | .done s _ => s

/-- What the branch without conflict keeps. -/
theorem decideStep_sci {s : Solver} {W : SW} (ch : Choice) (ht : s.trail.Inv)
    (hch : ch.Valid) :
    (decideStep s ch).after.db = s.db ∧ (decideStep s ch).after.watch = s.watch ∧
      (SCI s.db.store W s.trail (fun _ _ => False) → SCI s.db.store W (decideStep s ch).after.trail (fun _ _ => False)) := by
  have hsame : ∀ {T' : Trail}, T'.stack = s.trail.stack → T'.qhead = s.trail.qhead →
      T'.level = s.trail.level → SCI s.db.store W s.trail (fun _ _ => False) →
      SCI s.db.store W T' (fun _ _ => False) := by
    intro T' h1 h2 h3 h i hi w hw
    rcases h i hi w hw with h' | h'
    · exact h'.elim
    · right; unfold SatW at h' ⊢; rw [h1, h2, h3]; exact h'
  have hdec : ∀ {T' : Trail} {p : Lit}, T'.stack = s.trail.stack → T'.qhead = s.trail.qhead →
      T'.level = s.trail.level → p.var ∉ s.trail.stack.map Lit.var →
      SCI s.db.store W s.trail (fun _ _ => False) →
      SCI s.db.store W (T'.newDecisionLevel.decide p) (fun _ _ => False) := by
    intro T' p h1 h2 h3 hp h i hi w hw
    rcases h i hi w hw with h' | h'
    · exact h'.elim
    · right
      intro hin
      simp only [Trail.decide, Trail.setValue, Trail.newDecisionLevel] at hin ⊢
      rw [h1, h2, List.take_append_of_le_length ht.qle] at hin
      obtain ⟨l, k1, k2, k3⟩ := h' hin
      refine ⟨l, k1, by rw [h1]; simp [k2], ?_⟩
      have hl : l.var ≠ p.var := fun e => hp (by rw [← e]; exact List.mem_map.2 ⟨l, k2, rfl⟩)
      have hwv : w.var ≠ p.var := fun e => hp (by
        rw [← e]; exact List.mem_map.2 ⟨w.neg, List.mem_of_mem_take hin, by simp⟩)
      rw [upd_ne _ _ hl, upd_ne _ _ hwv, h3]
      exact k3
  obtain ⟨a1, a2, a3, a4, a5⟩ := assumeLoop_same (s.trail.assumptions.drop s.trail.decisionLevel) s.trail
  have hfree : ∀ {p : Lit}, s.trail.assigns p.var = none → p.var ∉ s.trail.stack.map Lit.var := by
    intro p hp hm
    obtain ⟨l, hl, e⟩ := List.mem_map.1 hm
    exact (ht.assigned_iff p.var).2 ⟨l, hl, e⟩ hp
  unfold decideStep
  split
  · exact ⟨rfl, rfl, id⟩
  · generalize hout : assumeLoop s.trail (s.trail.assumptions.drop s.trail.decisionLevel) = out at *
    obtain ⟨T', o⟩ := out
    simp only at a1 a2 a3 a4 a5
    cases o with
    | failed p => exact ⟨rfl, rfl, hsame a1 a2 a3⟩
    | next p =>
      refine ⟨rfl, rfl, hdec a1 a2 a3 (hfree ?_)⟩
      exact (Trail.value_none_iff _ _).1 (a5 p rfl)
    | allSet =>
      dsimp only
      have hp := hch T'
      cases hpk : ch.pick T' with
      | none => exact ⟨rfl, rfl, hsame a1 a2 a3⟩
      | some p =>
        rw [hpk] at hp
        refine ⟨rfl, rfl, hdec a1 a2 a3 (hfree ?_)⟩
        rw [← a4]; exact hp.2.1

/-- Guarantees of one iteration. -/
def StOK (L : Prop) (F : CNF) (A : Nat → Prop) (s : St) : StOut → Prop
  | .cont s' => Frame F s.sol s'.sol ∧ s'.sol.conflict = s.sol.conflict ∧
      (DInv s.sol → DInv s'.sol) ∧ s'.sol.watch = noWatch ∧
      (∀ c < s.sol.db.next, (s'.sol.db.store c).lits = (s.sol.db.store c).lits) ∧
      ∃ A', (∀ c, A c → A' c) ∧ StInv L F A' s' ∧
        (∀ c ∈ s'.sol.db.clauses, c ∈ s.sol.db.clauses ∨ A' c)
  | .done s' r => (DInv s.sol → DInv s'.sol) ∧ s'.sol.db = s.sol.db ∧ s'.sol.watch = noWatch ∧
      Frame F s.sol s'.sol ∧ SWInv s'.sol.db.next s'.sol.db.store s'.W ∧
      (∀ c, A c → 2 < (s'.sol.db.store c).lits.length → ∃ i < s'.W.cnt, (s'.W.tab i).cref = c) ∧
      (r ≠ some false → StInv L F A s' ∧ s'.sol.conflict = s.sol.conflict) ∧
      (r = some false → Refuted F s.sol s'.sol) ∧ (r = some true → Complete s'.sol)

/-- Learning a clause, in terms of the step with the other propagator. -/
theorem sLearnStep_eq {s : Solver} {W : SW} {confl : Nat} {s' : Solver} {r : AnalysisResult}
    (hr : handleConflict s.db.store s.db.bin s.trail confl = some r)
    (hl : learnStep s confl = some s') (hst : (s'.db.store s.db.next).lits = r.learnt)
    (hw : s.watch = noWatch) :
    ∃ W', sLearnStep ⟨s, W⟩ confl = some ⟨{ s' with watch := noWatch }, W'⟩ ∧
      ((r.learnt.length ≤ 2 ∧ W' = W) ∨
        ∃ x y z rr, r.learnt = x :: y :: z :: rr ∧ W' = W.add s.db.next x y) := by
  unfold learnStep at hl
  unfold sLearnStep
  rw [hr] at hl
  dsimp only at hl ⊢
  rw [hr]
  dsimp only
  have hid : ((s.db.reestimate s.recalc s.trail r.involved).createClause r.learnt r.lbd).2 =
      s.db.next := by rw [createClause_id, (reestimate_fields _ _ _ _).1]
  generalize (s.db.reestimate s.recalc s.trail r.involved).createClause r.learnt r.lbd = d at *
  obtain ⟨db, id⟩ := d
  dsimp only at hl hid ⊢
  subst hid
  by_cases hlen : r.learnt.length > 2
  · rw [if_pos hlen] at hl ⊢
    match hrl : r.learnt, hlen with
    | x :: y :: z :: rr, _ =>
      rw [hrl] at hl hst
      cases ha : attachClause db.store s.watch s.db.next with
      | none => rw [ha] at hl; simp at hl
      | some watch =>
        rw [ha] at hl
        simp only [Option.some.injEq] at hl
        subst hl
        simp only at hst
        have : W.attach db.store s.db.next = some (W.add s.db.next x y) := by
          unfold SW.attach; rw [hst]
        rw [this]
        refine ⟨_, ?_, Or.inr ⟨x, y, z, rr, rfl, rfl⟩⟩
        simp only [hw]
  · rw [if_neg hlen] at hl ⊢
    match hrl : r.learnt with
    | [] => rw [hrl] at hl; simp at hl
    | x :: rr =>
      rw [hrl] at hl hlen
      simp only [Option.some.injEq] at hl
      subst hl
      refine ⟨W, ?_, Or.inl ⟨by omega, rfl⟩⟩
      simp only [hw]

theorem sSearchIter_spec {L : Prop} {s : St} (h : StInv L F A s) {ch : Choice} (hch : ch.Valid) :
    ∃ out, sSearchIter s ch = some out ∧ StOK L F A s out := by
  obtain ⟨W, T, r, e1, e2, e3, e4, e6, e7, e8, e9, e10, e11, e12⟩ := sPropagateLoop_spec
    (s.sol.db.nVars + 1) s.W s.sol.trail h.sol.core h.w h.sol.limq (by omega)
  unfold sSearchIter
  rw [e1]
  simp only
  have e9 := fun hL : L => e9 (h.sci hL)
  have hc0 : CInv (fun c => A c ∧ (s.sol.db.store c).lits.length ≤ 2) s.sol.db.store noWatch
      s.sol.db.bin s.sol.trail (fun _ _ => False) := by
    rw [← h.nw]; exact h.sol.cinv
  have e10 := e10 _ hc0
  have hcov : ∀ c, A c → 2 < (s.sol.db.store c).lits.length → ∃ i < W.cnt, (W.tab i).cref = c := by
    intro c hA hl
    obtain ⟨i, h1, h2⟩ := h.cov c hA hl
    exact ⟨i, by rw [e11]; exact h1, by rw [e12]; exact h2⟩
  have hframe : Frame F s.sol { s.sol with trail := T } := {
    nVars := rfl
    tnVars := e4.nVars
    assumptions := e4.assumptions
    decision := e4.decision
    recalc := rfl
    next := Nat.le_refl _
    perm := fun c _ => List.Perm.refl _
    weight := fun c _ hw => hw
    weightRev := fun c _ _ _ hw => hw
    clauses := ⟨[], by simp⟩
    hasEmpty := rfl
    news := ⟨[], by simp⟩ }
  have hD : DInv s.sol → DInv { s.sol with trail := T } := by
    intro hd
    refine ⟨?_, ?_, ?_⟩
    · intro c hc l hl
      simp only; rw [e4.decision]; exact hd.cls c hc l hl
    · intro l hl
      simp only at hl ⊢
      rw [e4.decision]
      by_cases hm : l ∈ s.sol.trail.stack
      · exact hd.tr l hm
      · obtain ⟨pre, post, hpp⟩ := List.append_of_mem hl
        obtain ⟨c, hc⟩ := Option.ne_none_iff_exists'.1 (e4.new l hl hm)
        obtain ⟨g1, g2, _⟩ := e2.rsome pre l post c hpp hc
        exact hd.cls c g1 l g2
    · intro l hl
      simp only at hl ⊢
      rw [e4.assumptions] at hl
      rw [e4.decision]; exact hd.asm l hl
  have hunits : ∀ c, (A c ∧ (s.sol.db.store c).lits.length ≤ 2) → ∀ l,
      (s.sol.db.store c).lits = [l] → l ∈ T.stack ∧ T.level l.var = 0 := by
    intro c hA l hl
    obtain ⟨a, b⟩ := h.sol.units c hA l hl
    exact ⟨e4.mem a, (e4.level l a).trans b⟩
  have hab : ∀ l ∈ T.assumptions, l.var < s.sol.db.nVars := by
    rw [e4.assumptions]; exact h.sol.asmBound
  have hasm : ∀ p ∈ T.stack, T.reason p.var = none → 0 < T.level p.var →
      T.level p.var ≤ T.assumptions.length → T.assumptions[T.level p.var - 1]? = some p := by
    intro p hp hr h0 hle
    by_cases hm : p ∈ s.sol.trail.stack
    · rw [e4.level p hm] at h0 hle ⊢
      rw [e4.reason p hm] at hr
      rw [e4.assumptions] at hle ⊢
      exact h.sol.asm p hm hr h0 hle
    · exact (e4.new p hp hm hr).elim
  have hasmT : ∀ i p, T.assumptions[i]? = some p → i < T.decisionLevel →
      p ∈ T.stack ∧ T.level p.var ≤ i + 1 := by
    intro i p hip hi
    rw [e4.assumptions] at hip
    rw [e4.decisionLevel] at hi
    obtain ⟨a, b⟩ := h.sol.asmTrue i p hip hi
    exact ⟨e4.mem a, by rw [e4.level p a]; exact b⟩
  have hwi : WatchInv s.sol.db.next s.sol.db.store s.sol.watch := h.sol.watch
  cases r with
  | some confl =>
    simp only
    have hconf := e7 confl rfl
    by_cases hdl : T.decisionLevel = 0
    · rw [if_pos hdl]
      refine ⟨_, rfl, hD, rfl, h.nw, hframe, e3, hcov, by simp, fun _ => Or.inl ⟨rfl, ?_⟩, by simp⟩
      rintro ⟨x, hx⟩
      obtain ⟨l, hl, hh⟩ := e2.ent confl hconf.lt x hx
      have hln := hconf.allFalse l hl
      have hlev := e2.tinv.level_le hln
      have := Core.level0 e2 hln (by omega)
      rw [Entails.unit] at this
      exact Lit.holds_neg.1 (this x hx) hh
    · rw [if_neg hdl]
      obtain ⟨s', rr, l1, l2, l3, l4, l5, l6, l7, lw, lwr, l8, l9, l10, l11, l12, l13, l14, first,
          l15, l16, l17⟩ :=
        learnStep_spec (F := F) (A := fun c => A c ∧ (s.sol.db.store c).lits.length ≤ 2)
        (confl := confl) (s := { s.sol with trail := T })
        h.sol.db e2 hwi e8 (by
          simp only
          rw [h.nw]
          exact e10.weaken (by
            intro c _ x y rr _ w _ hw
            exact Or.inl hw.2)) h.sol.alt hunits h.sol.nonempty hab hasm hasmT (by simp only; omega)
          hconf
      simp only at l1 l2 l3 l4 l5 l6 l7 lw lwr l8 l9 l10 l11 l12 l13 l14 l15 l16 l17
      obtain ⟨W', m1, m2⟩ := sLearnStep_eq (W := W) l1 l3 l7 h.nw
      rw [m1]
      simp only [Option.map_some]
      obtain ⟨fst, rest, hsh, hf1, hf2, hrest, hb0, hbs⟩ := l2.shape
      have hfst : fst = first := by rw [hsh] at l15; simpa using l15
      subst hfst
      have hbt := l2.bt
      obtain ⟨k, hk⟩ : ∃ k, T.lim[rr.btlevel]? = some k := by
        unfold Trail.decisionLevel at hbt
        exact ⟨_, List.getElem?_eq_getElem hbt⟩
      have hcoreB := e2.backtrack rr.btlevel
      have hw' : SWInv s'.db.next s'.db.store W := e3.congr (by rw [l5]; omega) l6
      -- watchers of the old clauses
      have hsci' : L → SCI s'.db.store W s'.trail (fun _ _ => False) := by
        intro hL i hi w hwi
        right
        rw [l16, l6 _ (e3.ref i hi).1]
        refine SatW.push hcoreB.tinv l17 ?_
        rcases e9 hL i hi w hwi with h1 | h1
        · intro hwm
          have := ((Trail.backtrack_mem e2.tinv hk).1 (List.mem_of_mem_take hwm)).2
          have := h1.2
          simp only [Lit.var_neg] at *
          omega
        · exact h1.backtrack e2.tinv e8 hk
      have hlens : ∀ c, A c → (s'.db.store c).lits = (s.sol.db.store c).lits := fun c hA =>
        l6 c (h.alt c hA)
      refine ⟨_, rfl, ?_, l9, ?_, rfl, l6, fun c => A c ∨ c = s.sol.db.next, fun c hc => Or.inl hc, ?_, ?_⟩
      · exact hframe.trans {
          nVars := l8
          tnVars := by
            simp only
            rw [l16]
            simp only [Trail.push, Trail.setValue, Trail.backtrack_nVars]
          assumptions := by
            simp only
            rw [l16]
            simp only [Trail.push, Trail.setValue, Trail.backtrack_assumptions]
          decision := by
            simp only
            rw [l16]
            simp only [Trail.push, Trail.setValue, Trail.backtrack_decision]
          recalc := l10
          next := by simp only; omega
          perm := fun c hc => by rw [l6 c hc]
          weight := lw
          weightRev := lwr
          clauses := ⟨_, l11, by intro c hc; simp at hc; simp only; omega⟩
          hasEmpty := l12
          news := ⟨[rr.learnt], by simpa using l13, l14, by simp; exact l2.ent⟩ }
      · intro hd
        have hd := hD hd
        have hdec : s'.trail.decision = T.decision := by
          rw [l16]; simp [Trail.push, Trail.setValue, Trail.backtrack_decision]
        have hlearn : ∀ l ∈ rr.learnt, T.decision l.var = true := by
          intro l hl
          rw [hsh] at hl
          rcases List.mem_cons.1 hl with rfl | hl
          · have := hd.tr _ hf1; simpa using this
          · have := hd.tr _ (hrest l hl).1; simpa using this
        refine ⟨?_, ?_, ?_⟩
        · intro c hc l hl
          simp only at hc hl ⊢
          rw [hdec]
          by_cases hcn : c < s.sol.db.next
          · rw [l6 c hcn] at hl; exact hd.cls c hcn l hl
          · have : c = s.sol.db.next := by omega
            subst this
            rw [l7] at hl; exact hlearn l hl
        · intro l hl
          simp only at hl ⊢
          rw [hdec]
          rw [l16] at hl
          simp only [Trail.push, Trail.setValue, List.mem_append, List.mem_singleton] at hl
          rcases hl with hl | rfl
          · exact hd.tr l (Trail.backtrack_subset _ hl)
          · exact hlearn _ (List.mem_of_mem_head? (by rw [l15]; rfl))
        · intro l hl
          simp only at hl ⊢
          rw [hdec]
          rw [l16] at hl
          simp only [Trail.push, Trail.setValue, Trail.backtrack_assumptions] at hl
          exact hd.asm l hl
      · refine {
          sol := (l4.weaken ?_).dropWatch (fun c hc => hc.2)
          nw := rfl
          alt := ?_
          w := ?_
          sci := ?_
          cov := ?_ }
        · rintro c ⟨hA | hA, hl⟩
          · rw [hlens c hA] at hl; exact Or.inl ⟨hA, hl⟩
          · exact Or.inr hA
        · rintro c (hA | hA)
          · have := h.alt c hA; simp only; omega
          · simp only; omega
        · rcases m2 with ⟨_, rfl⟩ | ⟨x, y, z, tl, hx, rfl⟩
          · exact hw'
          · refine hw'.add (show s.sol.db.next < s'.db.next by omega) (by rw [l7, hx]; simp) (by rw [l7, hx]; simp) ?_
            have := l2.nodup
            rw [hx] at this
            rintro rfl
            simp at this
        · rcases m2 with ⟨_, rfl⟩ | ⟨x, y, z, tl, hx, rfl⟩
          · exact hsci'
          · intro hL i hi w hwi
            simp only [SW.add] at hi hwi ⊢
            by_cases hic : i = W.cnt
            · subst hic
              rw [upd_same] at hwi ⊢
              simp only at hwi ⊢
              right
              intro hwm
              rw [hx] at hsh
              simp only [List.cons.injEq] at hsh
              obtain ⟨rfl, hrest'⟩ := hsh
              refine ⟨x, by rw [l7, hx]; simp, by rw [l16]; simp [Trail.push, Trail.setValue], ?_⟩
              rcases hwi with rfl | rfl
              · exact Nat.le_refl _
              · have hyb := (hbs w (z :: tl) hrest'.symm).1
                have hymem : w ∈ rest := by rw [← hrest']; simp
                have hyB : w.neg ∈ (T.backtrack rr.btlevel).stack :=
                  (Trail.backtrack_mem e2.tinv hk).2 ⟨(hrest w hymem).1, by
                    simpa using (hrest w hymem).2.2⟩
                have hdlB : (T.backtrack rr.btlevel).decisionLevel = rr.btlevel := by
                  unfold Trail.decisionLevel
                  rw [Trail.backtrack_lim hk]
                  unfold Trail.decisionLevel at hbt
                  simp; omega
                have hne := ne_var_of_mem hcoreB.tinv l17 hyB
                rw [l16]
                simp only [Trail.push, upd_same, hdlB]
                rw [upd_ne _ _ (by simpa using hne), Trail.backtrack_level]
                omega
            · rw [upd_ne _ _ hic] at hwi ⊢
              exact hsci' hL i (by omega) w hwi
        · rintro c (hA | rfl) hl
          · simp only at hl ⊢
            rw [hlens c hA] at hl
            obtain ⟨i, h1, h2⟩ := hcov c hA hl
            rcases m2 with ⟨_, rfl⟩ | ⟨x, y, z, tl, hx, rfl⟩
            · exact ⟨i, h1, h2⟩
            · exact ⟨i, by simp [SW.add]; omega, by
                simp only [SW.add]; rw [upd_ne _ _ (Nat.ne_of_lt h1)]; exact h2⟩
          · simp only at hl ⊢
            rw [l7] at hl
            rcases m2 with ⟨hh, rfl⟩ | ⟨x, y, z, tl, hx, rfl⟩
            · omega
            · exact ⟨W.cnt, by simp [SW.add], by simp only [SW.add, upd_same]⟩
      · intro c hc
        simp only at hc
        rw [l11] at hc
        rcases List.mem_append.1 hc with hc | hc
        · exact Or.inl hc
        · right; right; simpa using hc
  | none =>
    simp only
    have hq : T.qhead = T.stack.length := e6 rfl
    have hS : SInv F (fun c => A c ∧ (s.sol.db.store c).lits.length ≤ 2)
        { s.sol with trail := T } :=
      ⟨h.sol.db, e2, hwi, e8, by
        simp only
        rw [h.nw]
        exact e10.weaken (by intro c _ x y rr _ w _ hw; exact (hw.1 rfl).elim), h.sol.alt,
        hunits, h.sol.nonempty, hab, hasm, hasmT⟩
    have hsci : L → SCI s.sol.db.store W T (fun _ _ => False) := fun hL => (e9 hL).weaken (by simp)
    obtain ⟨out, o1, o2⟩ := searchIter_spec hS hch
    rw [searchIter_decide hq] at o1
    simp only [Option.some.injEq] at o1
    obtain ⟨d1, d2, d3⟩ := decideStep_sci (s := { s.sol with trail := T }) (W := W) ch e2.tinv
      hch
    rw [o1] at d1 d2 d3 ⊢
    simp only at d1 d2 d3
    refine ⟨_, rfl, ?_⟩
    cases out with
    | cont s' =>
      simp only [IterOut.after] at d1 d2 d3
      obtain ⟨f1, f2, f3, A', f4, f5, f6⟩ := o2
      refine ⟨hframe.trans f1, f2, fun hd => f3 (hD hd), by rw [d2]; exact h.nw, ?_, A, fun c hc => hc, ?_, ?_⟩
      · intro c _; simp only; rw [d1]
      · refine ⟨f5.weaken ?_, by simp only; rw [d2]; exact h.nw, ?_, ?_, ?_, ?_⟩
        · intro c hc; simp only at hc; rw [d1] at hc; exact f4 c hc
        · intro c hc; simp only; rw [d1]; exact h.alt c hc
        · simp only; rw [d1]; exact e3
        · intro hL; simp only; rw [d1]; exact d3 (hsci hL)
        · intro c hc hl; simp only at hl ⊢; rw [d1] at hl; exact hcov c hc hl
      · intro c hc; simp only at hc; rw [d1] at hc; exact Or.inl hc
    | done s' r =>
      simp only [IterOut.after] at d1 d2 d3
      obtain ⟨f1, f2, f3, f4, f5, f6, f7⟩ := o2
      refine ⟨fun hd => f1 (hD hd), d1, by simp only; rw [d2]; exact h.nw, hframe.trans f3, ?_, ?_, fun hr => ?_, fun hr => ?_, f7⟩
      · simp only; rw [d1]; exact e3
      · intro c hc hl; simp only at hl ⊢; rw [d1] at hl; exact hcov c hc hl
      · obtain ⟨g1, g2⟩ := f5 hr
        refine ⟨⟨g1.weaken ?_, by simp only; rw [d2]; exact h.nw, ?_, ?_, ?_, ?_⟩, g2⟩
        · intro c hc; simp only at hc; rw [d1] at hc; exact hc
        · intro c hc; simp only; rw [d1]; exact h.alt c hc
        · simp only; rw [d1]; exact e3
        · intro hL; simp only; rw [d1]; exact d3 (hsci hL)
        · intro c hc hl; simp only at hl ⊢; rw [d1] at hl; exact hcov c hc hl
      · rcases f6 hr with g | ⟨core, g1, g2, g3, g4⟩
        · exact Or.inl g
        · exact Or.inr ⟨core, g1, g2, g3, by
            simp only at g4; rw [e4.assumptions] at g4; exact g4⟩

/-- Everything the whole search guarantees. -/
theorem sSearch_spec {L : Prop} : ∀ (fuel : Nat) (o : Nat → Choice) (A : Nat → Prop) (s : St), StInv L F A s →
    (∀ i, (o i).Valid) → ∀ s' r, sSearch fuel o s = some (s', r) →
    (DInv s.sol → DInv s'.sol) ∧ Frame F s.sol s'.sol ∧ DBOk F s'.sol.db ∧
      s'.sol.watch = noWatch ∧ SWInv s'.sol.db.next s'.sol.db.store s'.W ∧
      (∃ A', (∀ c, A c → A' c) ∧ (∀ c ∈ s'.sol.db.clauses, c ∈ s.sol.db.clauses ∨ A' c) ∧
        (∀ c, A' c → 2 < (s'.sol.db.store c).lits.length → ∃ i < s'.W.cnt, (s'.W.tab i).cref = c) ∧
        (r ≠ some false → s'.sol.conflict = s.sol.conflict ∧ StInv L F A' s')) ∧
      (r = some false → Refuted F s.sol s'.sol) ∧ (r = some true → Complete s'.sol)
  | 0, o, A, s, _, _, s', r, he => by simp [sSearch] at he
  | fuel + 1, o, A, s, h, ho, s', r, he => by
    rw [sSearch] at he
    obtain ⟨out, h1, h2⟩ := sSearchIter_spec h (ho 0)
    rw [h1] at he
    cases out with
    | done s1 r1 =>
      simp only [Option.some.injEq, Prod.mk.injEq] at he
      obtain ⟨rfl, rfl⟩ := he
      obtain ⟨z, y, x, a, b, c, d, e, f⟩ := h2
      refine ⟨z, a, by rw [y]; exact h.sol.db, x, b, ⟨A, fun _ h => h, ?_, c, fun hr => ?_⟩, e, f⟩
      · intro k hk; rw [y] at hk; exact Or.inl hk
      · exact ⟨(d hr).2, (d hr).1⟩
    | cont s1 =>
      simp only at he
      obtain ⟨a, hcf, z, _, _, A1, b, c, y⟩ := h2
      obtain ⟨f0, f1, f2, fw, fi, ⟨A', g2, g4, g5, f3⟩, f4, f5⟩ := sSearch_spec fuel
        (fun i => o (i + 1)) A1 s1 c (fun i => ho (i + 1)) s' r he
      refine ⟨fun hd => f0 (z hd), a.trans f1, f2, fw, fi, ⟨A', fun c hc => g2 c (b c hc), ?_, g5,
        fun hr => ?_⟩, fun hr => ?_, f5⟩
      · intro k hk
        rcases g4 k hk with h | h
        · rcases y k h with h | h
          · exact Or.inl h
          · exact Or.inr (g2 k h)
        · exact Or.inr h
      · obtain ⟨g1, g3⟩ := f3 hr
        exact ⟨g1.trans hcf, g3⟩
      · rcases f4 hr with ⟨g1, g2⟩ | ⟨core, g1, g2, g3, g4⟩
        · exact Or.inl ⟨g1.trans hcf, g2⟩
        · exact Or.inr ⟨core, g1, by rw [g2, hcf], g3, by rw [← a.assumptions]; exact g4⟩

/-- In a complete state every clause in `A` is satisfied. -/
theorem StInv.satisfied {L : Prop} {s : St} (h : StInv L F A s) (hL : L) (hc : Complete s.sol) {c : Nat} (hA : A c)
    (hv : ∀ l ∈ (s.sol.db.store c).lits, s.sol.trail.decision l.var = true) :
    ∃ l ∈ (s.sol.db.store c).lits, l ∈ s.sol.trail.stack := by
  by_cases hl : (s.sol.db.store c).lits.length ≤ 2
  · exact h.sol.satisfied hc ⟨hA, hl⟩ hv
  · obtain ⟨i, h1, h2⟩ := h.cov c hA (by omega)
    have hr := h.w.ref i h1
    have hs := h.sci hL i h1 _ (Or.inl rfl)
    rw [h2] at hr hs
    have hs := hs.resolve_left id
    generalize (s.W.tab i).w0 = x at hr hs
    by_cases hx : x ∈ s.sol.trail.stack
    · exact ⟨x, hr.2.1, hx⟩
    · have : x.neg ∈ s.sol.trail.stack := by
        by_cases hn : x.neg ∈ s.sol.trail.stack
        · exact hn
        · have := (h.sol.core.tinv.valNone x).2 ⟨hx, hn⟩
          rw [Trail.value_none_iff] at this
          exact (hc.decided x.var (by
            rw [h.sol.core.nv]; exact h.sol.core.wf c (h.alt c hA) x hr.2.1) (hv x hr.2.1) this).elim
      obtain ⟨l, hlm, hls, _⟩ := hs (by rw [hc.qhead, List.take_length]; exact this)
      exact ⟨l, hlm, hls⟩

end Candy
