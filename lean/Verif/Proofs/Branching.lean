import Verif.Model.Branching
import Verif.Proofs.Rsil
import Verif.Proofs.Heap
import Verif.Proofs.History
import Verif.Proofs.Examples

/-! The heap of the branching heuristic always contains the unassigned decision variables. -/

namespace Candy

/-! ### What happens to the trail, without any invariant -/

/-- Same variables, no new decision variables. -/
structure Shrinks (T T' : Trail) : Prop where
  nVars : T'.nVars = T.nVars
  decision : ∀ v, T'.decision v = true → T.decision v = true

/-- Same variables, and assigned variables stay assigned. -/
structure Grows (T T' : Trail) : Prop where
  nVars : T'.nVars = T.nVars
  decision : T'.decision = T.decision
  assigned : ∀ v, T'.assigns v = none → T.assigns v = none

theorem Shrinks.refl (T : Trail) : Shrinks T T := ⟨rfl, fun _ => id⟩
theorem Shrinks.trans {T T' T'' : Trail} (h : Shrinks T T') (h' : Shrinks T' T'') : Shrinks T T'' :=
  ⟨h'.nVars.trans h.nVars, fun v hv => h.decision v (h'.decision v hv)⟩
theorem Grows.refl (T : Trail) : Grows T T := ⟨rfl, rfl, fun _ => id⟩
theorem Grows.trans {T T' T'' : Trail} (h : Grows T T') (h' : Grows T' T'') : Grows T T'' :=
  ⟨h'.nVars.trans h.nVars, h'.decision.trans h.decision, fun v hv => h.assigned v (h'.assigned v hv)⟩
theorem Grows.shrinks {T T' : Trail} (h : Grows T T') : Shrinks T T' :=
  ⟨h.nVars, fun v hv => by rw [h.decision] at hv; exact hv⟩

theorem setValue_grows (T : Trail) (p : Lit) : Grows T (T.setValue p) := by
  refine ⟨rfl, rfl, fun v hv => ?_⟩
  simp only [Trail.setValue, upd] at hv
  split at hv
  · cases hv
  · exact hv

theorem decide_grows (T : Trail) (p : Lit) : Grows T (T.decide p) :=
  ⟨rfl, rfl, (setValue_grows T p).assigned⟩

theorem newLevel_grows (T : Trail) : Grows T T.newDecisionLevel := ⟨rfl, rfl, fun _ => id⟩

theorem propagate_grows (T : Trail) (p : Lit) (c : Nat) : Grows T (T.propagate p c) := by
  unfold Trail.propagate
  split
  · exact .refl T
  · exact ⟨rfl, rfl, (setValue_grows T p).assigned⟩

theorem fact_grows (T : Trail) (p : Lit) : Grows T (T.fact p).1 := by
  unfold Trail.fact
  split
  · exact .refl T
  · dsimp only
    split
    · exact ⟨rfl, rfl, fun _ => id⟩
    · exact ⟨rfl, rfl, fun v => (setValue_grows _ p).assigned v⟩

theorem propBinary_grows : ∀ (ws : List Watcher) (T : Trail), Grows T (propBinary T ws).1 := by
  intro ws
  induction ws with
  | nil => intro T; exact .refl T
  | cons w ws ih =>
    intro T
    unfold propBinary
    split
    · exact .refl T
    · exact (propagate_grows T _ _).trans (ih _)
    · exact ih _

theorem propWatched_grows (p : Lit) : ∀ (ws kept : List Watcher) (s s' : PS) (r : Option Nat),
    propWatched p ws kept s = some (s', r) → Grows s.T s'.T := by
  intro ws
  induction ws with
  | nil =>
    intro kept s s' r h
    simp only [propWatched, Option.some.injEq, Prod.mk.injEq] at h
    obtain ⟨rfl, -⟩ := h
    exact .refl _
  | cons w ws ih =>
    intro kept s s' r h
    simp only [propWatched] at h
    split at h
    · exact ih _ _ _ _ h
    · split at h
      · split at h
        · exact show Grows s.T s'.T from (ih _ _ _ _ h :)
        · split at h
          · split at h
            · cases h
            · exact show Grows s.T s'.T from (ih _ _ _ _ h :)
          · split at h
            · simp only [Option.some.injEq, Prod.mk.injEq] at h
              obtain ⟨rfl, -⟩ := h
              exact .refl _
            · exact (propagate_grows s.T _ _).trans (ih _ _ _ _ h)
      · cases h

theorem propagateLoop_grows (bin : Lit → List Watcher) : ∀ (n : Nat) (s s' : PS) (r : Option Nat),
    propagateLoop bin n s = some (s', r) → Grows s.T s'.T := by
  intro n
  induction n with
  | zero => intro s s' r h; cases h
  | succ n ih =>
    intro s s' r h
    simp only [propagateLoop] at h
    split at h
    · simp only [Option.some.injEq, Prod.mk.injEq] at h
      obtain ⟨rfl, -⟩ := h
      exact .refl _
    · next p _ =>
      have hb := propBinary_grows (bin p) { s.T with qhead := s.T.qhead + 1 }
      have h0 : Grows s.T { s.T with qhead := s.T.qhead + 1 } := ⟨rfl, rfl, fun _ => id⟩
      split at h
      · next T c hT =>
        simp only [Option.some.injEq, Prod.mk.injEq] at h
        obtain ⟨rfl, -⟩ := h
        rw [hT] at hb
        exact h0.trans hb
      · next T hT =>
        rw [hT] at hb
        split at h
        · cases h
        · next s1 c hw =>
          simp only [Option.some.injEq, Prod.mk.injEq] at h
          obtain ⟨rfl, -⟩ := h
          exact (h0.trans hb).trans (propWatched_grows p _ _ _ _ _ hw)
        · next s1 hw =>
          exact ((h0.trans hb).trans (propWatched_grows p _ _ _ _ _ hw)).trans (ih _ _ _ h)

theorem foldl_factStep_grows : ∀ (ls : List Lit) (x : Trail × DB),
    Grows x.1 (ls.foldl factStep x).1 := by
  intro ls
  induction ls with
  | nil => intro x; exact .refl _
  | cons l ls ih =>
    intro x
    refine Grows.trans ?_ (ih _)
    have := fact_grows x.1 l
    unfold factStep
    split <;> simp_all

theorem foldl_unitStep_grows : ∀ (ls : List Lit) (x : Trail × DB),
    Grows x.1 (ls.foldl unitStep x).1 := by
  intro ls
  induction ls with
  | nil => intro x; exact .refl _
  | cons l ls ih =>
    intro x
    exact (fact_grows x.1 l).trans (ih (unitStep x l))

theorem materialize_grows {s s' : Solver} (h : materialize s = some s') :
    Grows s.trail s'.trail := by
  have h0 := foldl_factStep_grows s.db.unitLits (s.trail, s.db)
  simp only [materialize] at h
  split at h
  · cases h; exact h0
  · split at h
    · cases h
    · next ps c hp => cases h; exact h0.trans (propagateLoop_grows _ _ _ _ _ hp)
    · next ps hp =>
      cases h
      exact (h0.trans (propagateLoop_grows _ _ _ _ _ hp)).trans (foldl_unitStep_grows _ (ps.T, _))

theorem backtrack_shrinks (T : Trail) (n : Nat) : Shrinks T (T.backtrack n) :=
  ⟨Trail.backtrack_nVars, fun v hv => by rwa [Trail.backtrack_decision] at hv⟩

theorem asymDecide_shrinks (v : Nat) : ∀ (ls : List Lit) (T : Trail) (l : Option Lit),
    Shrinks T (asymDecide v ls T l).1 := by
  intro ls
  induction ls with
  | nil => intro T l; exact .refl T
  | cons x xs ih =>
    intro T l
    unfold asymDecide
    split
    · exact (decide_grows T _).shrinks.trans (ih _ _)
    · exact ih _ _

theorem asymScan_shrinks (v : Nat) : ∀ (os : List Nat) (st st' : AVS) (b : Bool),
    asymScan v os st = some (st', b) → Shrinks st.T st'.T := by
  intro os
  induction os with
  | nil =>
    intro st st' b h
    simp only [asymScan, Option.some.injEq, Prod.mk.injEq] at h
    obtain ⟨rfl, -⟩ := h
    exact .refl _
  | cons o os ih =>
    intro st st' b h
    simp only [asymScan] at h
    split at h
    · cases h
    · exact ih _ _ _ h
    · split at h
      · exact ih _ _ _ h
      · split at h
        · cases h
        · next ps confl hp =>
          have h1 : Shrinks st.T (ps.T.backtrack 0) :=
            (((newLevel_grows st.T).shrinks.trans (asymDecide_shrinks v _ _ _)).trans
              (propagateLoop_grows _ _ _ _ _ hp).shrinks).trans (backtrack_shrinks _ _)
          split at h
          · exact h1.trans (ih _ _ _ h)
          · split at h
            · split at h
              · cases h
              · split at h
                · cases h
                · exact h1.trans (ih _ _ _ h)
            · simp only [Option.some.injEq, Prod.mk.injEq] at h
              obtain ⟨rfl, -⟩ := h
              exact h1

theorem asymList_shrinks : ∀ (vs : List Nat) (st st' : AVS) (b : Bool),
    asymList vs st = some (st', b) → Shrinks st.T st'.T := by
  intro vs
  induction vs with
  | nil =>
    intro st st' b h
    simp only [asymList, Option.some.injEq, Prod.mk.injEq] at h
    obtain ⟨rfl, -⟩ := h
    exact .refl _
  | cons v vs ih =>
    intro st st' b h
    simp only [asymList] at h
    split at h
    · split at h
      · cases h
      · next st1 hs =>
        simp only [Option.some.injEq, Prod.mk.injEq] at h
        obtain ⟨rfl, -⟩ := h
        exact asymScan_shrinks v _ _ _ _ hs
      · next st1 hs => exact (asymScan_shrinks v _ _ _ _ hs).trans (ih _ _ _ h)
    · exact ih _ _ _ h

theorem setDecisionVar_shrinks (T : Trail) (v : Nat) : Shrinks T (T.setDecisionVar v false) := by
  refine ⟨rfl, fun w hw => ?_⟩
  simp only [Trail.setDecisionVar, upd] at hw
  split at hw
  · cases hw
  · exact hw

theorem eliminateVar_shrinks {lim v : Nat} {st st' : VES} {pos neg : List (Nat × Nat)} {b : Bool}
    (h : eliminateVar lim st v pos neg = some (st', b)) : Shrinks st.T st'.T := by
  simp only [eliminateVar] at h
  split at h
  · cases h; exact .refl _
  · split at h
    · cases h; exact .refl _
    · cases h; exact .refl _
    · split at h
      · cases h
      · cases h; exact setDecisionVar_shrinks _ _

theorem eliminateStep_shrinks {lim v : Nat} {st st' : VES} {b : Bool}
    (h : eliminateStep lim st v = some (st', b)) : Shrinks st.T st'.T := by
  simp only [eliminateStep] at h
  split at h
  · split at h
    · cases h
    · exact eliminateVar_shrinks h
  · cases h; exact .refl _

theorem eliminateList_shrinks {lim : Nat} : ∀ (vs : List Nat) (st st' : VES) (b : Bool),
    eliminateList lim vs st = some (st', b) → Shrinks st.T st'.T := by
  intro vs
  induction vs with
  | nil => intro st st' b h; cases h; exact .refl _
  | cons v vs ih =>
    intro st st' b h
    simp only [eliminateList] at h
    split at h
    · cases h
    · next st1 hs => cases h; exact eliminateStep_shrinks hs
    · next st1 hs => exact (eliminateStep_shrinks hs).trans (ih _ _ _ h)

/-- The trail of a solver during simplification. -/
abbrev Proc.trail (p : Proc) : Trail := p.sys.sol.trail

theorem Proc.after_trail (p : Proc) (ok clean : Bool) : (p.after ok clean).trail = p.trail := by
  cases ok <;> cases clean <;> rfl

theorem Proc.materialize_shrinks {p p' : Proc} (h : p.materialize = some p') :
    Shrinks p.trail p'.trail := by
  simp only [Proc.materialize, Option.map_eq_some_iff] at h
  obtain ⟨s, hs, rfl⟩ := h
  exact (materialize_grows hs).shrinks

theorem Proc.subsume_trail {p p' : Proc} {r : PreRound} (h : p.subsume r = some p') :
    p'.trail = p.trail := by
  simp only [Proc.subsume, Option.map_eq_some_iff] at h
  obtain ⟨x, _, rfl⟩ := h
  rw [Proc.after_trail]; rfl

theorem Proc.reduce_shrinks {p p' : Proc} {cfg : Config} {r : PreRound}
    (h : p.reduce cfg r = some p') : Shrinks p.trail p'.trail := by
  simp only [Proc.reduce, Option.map_eq_some_iff] at h
  obtain ⟨x, hx, rfl⟩ := h
  rw [Proc.after_trail]
  simp only [asymAll] at hx
  split at hx
  · exact asymList_shrinks _ _ _ x.2 hx
  · cases hx; exact .refl _

theorem Proc.eliminate_shrinks {p p' : Proc} {cfg : Config} {r : PreRound}
    (h : p.eliminate cfg r = some p') : Shrinks p.trail p'.trail := by
  simp only [Proc.eliminate, Option.map_eq_some_iff] at h
  obtain ⟨x, hx, rfl⟩ := h
  rw [Proc.after_trail]
  simp only [eliminateAll] at hx
  split at hx
  · exact eliminateList_shrinks _ _ _ x.2 hx
  · cases hx; exact .refl _

theorem Proc.round_shrinks {p p' : Proc} {cfg : Config} {r : PreRound} {b : Bool}
    (h : p.round cfg r = some (p', b)) : Shrinks p.trail p'.trail := by
  simp only [Proc.round] at h
  split at h
  · cases h
  next p1 h1 =>
  have k1 := Proc.materialize_shrinks h1
  split at h
  · cases h; exact k1
  split at h
  · cases h
  next p2 h2 =>
  obtain ⟨q, hq, h2⟩ := Option.bind_eq_some_iff.1 h2
  have k2 : Shrinks p1.trail p2.trail := by
    have := Proc.materialize_shrinks h2
    rwa [Proc.subsume_trail hq] at this
  split at h
  · cases h; exact k1.trans k2
  split at h
  · cases h
  next p3 h3 =>
  obtain ⟨q, hq, h3⟩ := Option.bind_eq_some_iff.1 h3
  have k3 := (Proc.reduce_shrinks hq).trans (Proc.materialize_shrinks h3)
  split at h
  · cases h; exact (k1.trans k2).trans k3
  · obtain ⟨q, hq, he⟩ := Option.map_eq_some_iff.1 h
    cases he
    exact ((k1.trans k2).trans k3).trans (Proc.eliminate_shrinks hq)

theorem Proc.rounds_shrinks {cfg : Config} : ∀ (rs : List PreRound) (p p' : Proc),
    Proc.rounds cfg rs p = some p' → Shrinks p.trail p'.trail := by
  intro rs
  induction rs with
  | nil => intro p p' h; cases h; exact .refl _
  | cons r rs ih =>
    intro p p' h
    simp only [Proc.rounds] at h
    split at h
    · cases h
    · next q hq => cases h; exact Proc.round_shrinks hq
    · next q hq => exact (Proc.round_shrinks hq).trans (ih _ _ h)

theorem process_shrinks {cfg : Config} {rs : List PreRound} {sys sys' : Sys}
    (h : process cfg rs sys = some sys') : Shrinks sys.sol.trail sys'.sol.trail := by
  simp only [process, Option.map_eq_some_iff] at h
  obtain ⟨p, hp, rfl⟩ := h
  exact Proc.rounds_shrinks rs _ _ hp

theorem reduceStep_shrinks {cfg : Config} {r : Round} {sys sys' : Sys}
    (h : reduceStep cfg r sys = some sys') : Shrinks sys.sol.trail sys'.sol.trail := by
  simp only [reduceStep] at h
  split at h
  · simp only [Option.map_eq_some_iff] at h
    obtain ⟨q, hq, rfl⟩ := h
    split at hq
    · exact (process_shrinks hq :)
    · cases hq; exact .refl _
  · cases h; exact .refl _

/-! ### The heap -/

/-- The branching heap is consistent, holds known variables only, and all unassigned decision
variables. -/
structure BInv (T : Trail) (b : Branch) : Prop where
  wf : b.heap.WF
  bound : ∀ v, (b.heap.idx v).isSome = true → v < T.nVars
  room : T.nVars ≤ b.heap.isize
  has : ∀ v < T.nVars, T.decision v = true → T.assigns v = none → (b.heap.idx v).isSome = true
  rsil : ∀ r, b.rsil = some r → r.InSolver T.nVars

theorem BInv.grows {T T' : Trail} {b : Branch} (h : BInv T b) (hg : Grows T T') : BInv T' b :=
  ⟨h.wf, by rw [hg.nVars]; exact h.bound, by rw [hg.nVars]; exact h.room, fun v h1 h2 h3 =>
    h.has v (hg.nVars ▸ h1) (by rw [← hg.decision]; exact h2) (hg.assigned v h3), by rw [hg.nVars]; exact h.rsil⟩

open VHeap in
theorem reset_inv {lt} {b b' : Branch} {T : Trail} (hw : b.heap.WF) (hr : T.nVars ≤ b.heap.isize)
    (h : b.reset lt T = some b') : b'.heap.WF ∧ T.nVars ≤ b'.heap.isize ∧
      ∀ v, (b'.heap.idx v).isSome = decide (v < T.nVars ∧ T.decision v = true) := by
  simp only [Branch.reset, Option.map_eq_some_iff] at h
  obtain ⟨h', hb, rfl⟩ := h
  have hd : (Branch.candidates T).Nodup := (List.filter_sublist (p := _)).nodup List.nodup_range
  obtain ⟨h1, h2, h3, h4, -⟩ := build_spec hw hd hb
  refine ⟨h1, by rw [h2]; exact hr, fun v => ?_⟩
  rw [h4]
  simp [Branch.candidates]

theorem reset_defined {lt} {b : Branch} {T : Trail} (hr : T.nVars ≤ b.heap.isize) :
    ∃ b', b.reset lt T = some b' := by
  have : (Branch.candidates T).all (fun n => n < b.heap.isize) = true := by
    simp [Branch.candidates]
    intro v hv
    right
    omega
  simp only [Branch.reset, VHeap.build, this, if_true, Option.map_some]
  exact ⟨_, rfl⟩

theorem reset_rsil {lt} {b b' : Branch} {T : Trail} (h : b.reset lt T = some b') : b'.rsil = b.rsil := by
  simp only [Branch.reset, Option.map_eq_some_iff] at h
  obtain ⟨h', -, rfl⟩ := h
  rfl

theorem reset_start {lt} {b b' : Branch} {T T' : Trail} (hw : b.heap.WF)
    (hr : T.nVars ≤ b.heap.isize) (hq : ∀ r, b.rsil = some r → r.InSolver T.nVars) (h : b.reset lt T = some b')
    (hs : Shrinks T T') : BInv T' b' := by
  obtain ⟨h1, h2, h3⟩ := reset_inv hw hr h
  refine ⟨h1, fun v hv => ?_, by rw [hs.nVars]; exact h2, fun v hv hd _ => ?_, by rw [hs.nVars, reset_rsil h]; exact hq⟩
  · rw [h3] at hv
    rw [hs.nVars]
    exact (of_decide_eq_true hv).1
  · rw [h3]
    exact decide_eq_true ⟨hs.nVars ▸ hv, hs.decision v hd⟩

theorem processReduce_inv {recalc rtl : Bool} {lt} {b b' : Branch} {nv : Nat} {cs : List Clause} {T : Trail}
    (hi : BInv T b) (h : b.processReduce recalc rtl lt nv cs T = some b') : BInv T b' := by
  unfold Branch.processReduce at h
  split at h
  · cases h; exact hi
  · next c hc =>
    split at h
    · obtain ⟨g, -, h⟩ := Option.bind_eq_some_iff.1 h
      split at h
      · exact reset_start (b := { b with cent := some (c.update nv g) }) hi.wf hi.room hi.rsil h ⟨rfl, fun _ => id⟩
      · cases h; exact ⟨hi.wf, hi.bound, hi.room, hi.has, hi.rsil⟩
    · cases h; exact hi

open VHeap in
theorem bump_same {lt} {h h' : VHeap} {v : Nat} (hw : h.WF) (hb : Branch.bump lt h v = some h') :
    Same h h' := by
  simp only [Branch.bump] at hb
  split at hb
  · simp only [VHeap.decrease] at hb
    split at hb
    · obtain ⟨i, hi, rfl⟩ := Option.map_eq_some_iff.1 hb
      exact percolateUp_same lt hw (hw.heap_idx v i hi).1
    · cases hb
  · cases hb; exact .refl hw

theorem bump_defined {lt} {h : VHeap} {v : Nat} : ∃ h', Branch.bump lt h v = some h' := by
  simp only [Branch.bump]
  split
  · next hi =>
    simp only [VHeap.inHeap, Bool.and_eq_true, decide_eq_true_iff] at hi
    obtain ⟨i, he⟩ := Option.isSome_iff_exists.1 hi.2
    exact ⟨_, by simp only [VHeap.decrease, hi.1, if_true, he, Option.map_some]; rfl⟩
  · exact ⟨h, rfl⟩

open VHeap in
theorem bumpAll_same {ord : Orders} : ∀ (vs : List Nat) (k : Nat) (h h' : VHeap), h.WF →
    Branch.bumpAll ord k vs h = some h' → Same h h' := by
  intro vs
  induction vs with
  | nil => intro k h h' hw hb; cases hb; exact .refl hw
  | cons v vs ih =>
    intro k h h' hw hb
    simp only [Branch.bumpAll, Option.bind_eq_some_iff] at hb
    obtain ⟨h1, hb1, hb2⟩ := hb
    have hs := bump_same hw hb1
    exact hs.trans (ih _ _ _ hs.wf hb2)

theorem bumpAll_defined {ord : Orders} : ∀ (vs : List Nat) (k : Nat) (h : VHeap),
    ∃ h', Branch.bumpAll ord k vs h = some h' := by
  intro vs
  induction vs with
  | nil => intro k h; exact ⟨h, rfl⟩
  | cons v vs ih =>
    intro k h
    obtain ⟨h1, hb⟩ := @bump_defined (ord k) h v
    simpa [Branch.bumpAll, hb] using ih (k + 1) h1

open VHeap in
theorem reinsert_spec {ord : Orders} {dec : Nat → Bool} : ∀ (ls : List Lit) (k : Nat)
    (b b' : Branch), b.heap.WF → Branch.reinsert ord dec k ls b = some b' →
    b'.heap.WF ∧ b'.heap.isize = b.heap.isize ∧ b'.rsil = b.rsil ∧
    ∀ v, (b'.heap.idx v).isSome = true ↔
      (b.heap.idx v).isSome = true ∨ (dec v = true ∧ ∃ l ∈ ls, l.var = v) := by
  intro ls
  induction ls with
  | nil => intro k b b' hw h; cases h; exact ⟨hw, rfl, rfl, fun v => by simp⟩
  | cons l ls ih =>
    intro k b b' hw h
    simp only [Branch.reinsert] at h
    split at h
    · next hc =>
      simp only [Option.bind_eq_some_iff] at h
      obtain ⟨h1, hi, h⟩ := h
      cases hn : b.heap.idx l.var with
      | none =>
        obtain ⟨hb, hpw, -, hsame⟩ := insert_spec hw hn hi
        obtain ⟨r1, r2, r4, r3⟩ := ih _ _ _ hsame.wf h
        refine ⟨r1, r2.trans hsame.isize, r4, fun v => ?_⟩
        rw [r3, hsame.mem, push_mem, Bool.or_eq_true, decide_eq_true_iff]
        constructor
        · rintro ((rfl | h') | ⟨h1, m, hm, hv⟩)
          · exact .inr ⟨hc.2, l, by simp, rfl⟩
          · exact .inl h'
          · exact .inr ⟨h1, m, by simp [hm], hv⟩
        · rintro (h' | ⟨h1, m, hm, hv⟩)
          · exact .inl (.inr h')
          · rcases List.mem_cons.1 hm with rfl | hm
            · exact .inl (.inl hv.symm)
            · exact .inr ⟨h1, m, hm, hv⟩
      | some i =>
        have := (hw.heap_idx _ _ hn).2.2
        simp [inHeap, hn, this] at hc
    · next hc =>
      obtain ⟨r1, r2, r4, r3⟩ := ih _ { b with polarity := upd b.polarity l.var l.sign } _ hw h
      refine ⟨r1, r2, r4, fun v => ?_⟩
      rw [r3]
      constructor
      · rintro (h' | ⟨h1, m, hm, hv⟩)
        · exact .inl h'
        · exact .inr ⟨h1, m, by simp [hm], hv⟩
      · rintro (h' | ⟨h1, m, hm, hv⟩)
        · exact .inl h'
        · rcases List.mem_cons.1 hm with rfl | hm
          · left
            subst hv
            simp only [h1, and_true, Bool.not_eq_false, inHeap, Bool.and_eq_true] at hc
            exact hc.2
          · exact .inr ⟨h1, m, hm, hv⟩

open VHeap in
theorem reinsert_defined {ord : Orders} {dec : Nat → Bool} : ∀ (ls : List Lit) (k : Nat)
    (b : Branch), b.heap.WF → (∀ l ∈ ls, l.var < b.heap.isize) →
    ∃ b', Branch.reinsert ord dec k ls b = some b' := by
  intro ls
  induction ls with
  | nil => intro k b _ _; exact ⟨b, rfl⟩
  | cons l ls ih =>
    intro k b hw hb
    simp only [Branch.reinsert]
    split
    · next hc =>
      have hl := hb l (by simp)
      have hn : b.heap.idx l.var = none := by
        have h' : b.heap.inHeap l.var = false := hc.1
        simpa [inHeap, hl] using h'
      obtain ⟨h1, hi⟩ : ∃ h1, b.heap.insert (ord k) l.var = some h1 :=
        ⟨_, by simp only [VHeap.insert, if_pos hl]; rfl⟩
      obtain ⟨-, -, -, hsame⟩ := insert_spec hw hn hi
      have hsz : h1.isize = b.heap.isize := hsame.isize
      simp only [hi, Option.bind_some]
      exact ih _ _ hsame.wf (fun m hm => by rw [hsz]; exact hb m (by simp [hm]))
    · exact ih _ _ hw (fun m hm => hb m (by simp [hm]))

/-- Look-ups of centralities change nothing else. -/
theorem lookups_same {kind : Branch.Kind} {vs : List Nat} {b b' : Branch} (h : b.lookups kind vs = some b') :
    b'.heap = b.heap ∧ b'.polarity = b.polarity ∧ b'.rsil = b.rsil := by
  unfold Branch.lookups at h
  split at h
  · cases h; exact ⟨rfl, rfl, rfl⟩
  · split at h
    · obtain ⟨c, -, rfl⟩ := Option.map_eq_some_iff.1 h; exact ⟨rfl, rfl, rfl⟩
    · cases h; exact ⟨rfl, rfl, rfl⟩

theorem BInv.lookups {kind : Branch.Kind} {vs : List Nat} {b b' : Branch} {T : Trail} (hi : BInv T b)
    (h : b.lookups kind vs = some b') : BInv T b' := by
  obtain ⟨e1, -, e3⟩ := lookups_same h
  exact ⟨e1 ▸ hi.wf, e1 ▸ hi.bound, e1 ▸ hi.room, e1 ▸ hi.has, e3 ▸ hi.rsil⟩

theorem processConflict_inv {kind : Branch.Kind} {ord : Orders} {b b' : Branch} {T : Trail}
    {inv : List Lit} {lvl : Nat} (hi : BInv T b) (hst : ∀ l ∈ T.stack, l.var < T.nVars)
    (h : b.processConflict kind ord T inv lvl = some b') : BInv (T.backtrack lvl) b' := by
  simp only [Branch.processConflict] at h
  split at h
  · cases h
  simp only [Option.bind_eq_some_iff] at h
  obtain ⟨b0, hlk, h1, hb, h⟩ := h
  replace hi := hi.lookups hlk
  clear hlk b
  revert b0
  intro b hb h hi
  have hs := bumpAll_same _ _ _ _ hi.wf hb
  split at h
  · cases h
  next k hk =>
  obtain ⟨r1, r2, r4, r3⟩ := reinsert_spec _ _ { b with heap := h1 } _ hs.wf h
  refine ⟨r1, fun v hv => ?_, ?_, fun v hv hd ha => ?_, by rw [Trail.backtrack_nVars, r4]; exact hi.rsil⟩
  · rw [Trail.backtrack_nVars]
    rcases (r3 v).1 hv with h' | ⟨-, l, hl, rfl⟩
    · exact hi.bound v (by rw [← hs.mem v]; exact h')
    · exact hst l (List.mem_of_mem_drop hl)
  · rw [Trail.backtrack_nVars, r2, show ({ b with heap := h1 } : Branch).heap.isize = b.heap.isize from hs.isize]
    exact hi.room
  · rw [Trail.backtrack_nVars] at hv
    rw [Trail.backtrack_decision] at hd
    rw [r3]
    simp only [Trail.backtrack, hk] at ha
    split at ha
    · next hany =>
      right
      obtain ⟨l, hl, he⟩ := List.any_eq_true.1 hany
      exact ⟨hd, l, hl, by simpa using he⟩
    · left
      show (h1.idx v).isSome = true
      rw [hs.mem v]
      exact hi.has v hv hd ha

theorem processConflict_defined {kind : Branch.Kind} {ord : Orders} {b : Branch} {T : Trail}
    {inv : List Lit} {lvl : Nat} (hk : kind.extraBump = false) (hi : BInv T b)
    (hst : ∀ l ∈ T.stack, l.var < T.nVars) (hl : lvl < T.decisionLevel)
    (hc : ∃ b', b.lookups kind (if kind.vsids = true then Branch.bumpVars [] inv else []) = some b') :
    ∃ b', b.processConflict kind ord T inv lvl = some b' := by
  simp only [Branch.processConflict, hk]
  simp only [Bool.false_eq_true, and_false, if_false]
  obtain ⟨b0, hlk⟩ := hc
  rw [hlk]
  simp only [Option.bind_some]
  replace hi := hi.lookups hlk
  clear hlk b
  revert b0
  intro b hi
  obtain ⟨h1, hb⟩ := bumpAll_defined (ord := ord)
    (if kind.vsids = true then Branch.bumpVars [] inv else []) 0 b.heap
  have hs := bumpAll_same _ _ _ _ hi.wf hb
  rw [hb]
  simp only [Option.bind_some]
  rw [List.getElem?_eq_getElem hl]
  refine reinsert_defined _ _ _ hs.wf (fun l hm => ?_)
  show l.var < h1.isize
  rw [hs.isize]
  exact Nat.lt_of_lt_of_le (hst l (List.mem_of_mem_drop hm)) hi.room

/-- What picking does: either everything left is assigned, or the variable found is unassigned; the
heap loses only variables that are assigned, are no decision variables, or were picked. -/
theorem pickLoop_spec {ord : Orders} {T : Trail} : ∀ (n k : Nat) (h : VHeap), h.WF → h.size ≤ n →
    (∀ v, (h.idx v).isSome = true → v < T.nVars) →
    ∃ h' r, Branch.pickLoop ord T n k h = some (h', r) ∧ h'.WF ∧ h'.isize = h.isize ∧
      (∀ v, (h'.idx v).isSome = true → (h.idx v).isSome = true) ∧
      (∀ v, (h.idx v).isSome = true → T.assigns v = none → T.decision v = true → r ≠ some v →
        (h'.idx v).isSome = true) ∧
      (r = none → h'.size = 0) ∧
      (∀ v, r = some v → (h.idx v).isSome = true ∧ T.assigns v = none ∧ T.decision v = true) := by
  intro n
  induction n with
  | zero =>
    intro k h hw hn hb
    exact ⟨h, none, rfl, hw, rfl, fun _ => id, fun _ h' _ _ _ => h', fun _ => by omega, by simp⟩
  | succ n ih =>
    intro k h hw hn hb
    simp only [Branch.pickLoop]
    by_cases h0 : h.size = 0
    · rw [if_pos h0]
      exact ⟨h, none, rfl, hw, rfl, fun _ => id, fun _ h' _ _ _ => h', fun _ => h0, by simp⟩
    · rw [if_neg h0]
      obtain ⟨h1, x, hr⟩ : ∃ h1 x, h.removeMin (ord k) = some (h1, x) :=
        ⟨_, _, by simp only [VHeap.removeMin, if_neg h0]; rfl⟩
      obtain ⟨hpos, hx, hxi, hsame, -⟩ := VHeap.removeMin_spec hw hr
      have hmem : ∀ v, (h1.idx v).isSome = true ↔ v ≠ x ∧ (h.idx v).isSome = true := fun v => by
        rw [hsame.mem, VHeap.cut_mem hw hpos, Bool.and_eq_true, decide_eq_true_iff, ← hx]
      have hxv : x < T.nVars := hb x (by rw [hxi]; rfl)
      have hsz : h1.size = h.size - 1 := hsame.size
      rw [hr]
      simp only
      rw [if_neg (by omega)]
      by_cases hc : T.assigns x = none ∧ T.decision x = true
      · rw [if_pos hc]
        refine ⟨h1, some x, rfl, hsame.wf, hsame.isize, fun v hv => ((hmem v).1 hv).2,
          fun v hv _ _ hne => (hmem v).2 ⟨fun e => hne (by rw [e]), hv⟩, by simp, ?_⟩
        rintro v hv
        cases hv
        exact ⟨by rw [hxi]; rfl, hc⟩
      · rw [if_neg hc]
        obtain ⟨h', r, e1, e2, e3, e4, e5, e6, e7⟩ := ih (k + 1) h1 hsame.wf (by omega)
          (fun v hv => hb v ((hmem v).1 hv).2)
        refine ⟨h', r, e1, e2, e3.trans hsame.isize, fun v hv => ((hmem v).1 (e4 v hv)).2, ?_, e6, ?_⟩
        · intro v hv ha hd hne
          refine e5 v ((hmem v).2 ⟨fun e => ?_, hv⟩) ha hd hne
          subst e
          exact hc ⟨ha, hd⟩
        · intro v hv
          obtain ⟨a, b⟩ := e7 v hv
          exact ⟨((hmem v).1 a).2, b⟩

/-- The contract of `pickBranchLit`. -/
def PickOk (T : Trail) : Option Lit → Prop
  | none => ∀ v < T.nVars, T.decision v = true → T.assigns v ≠ none
  | some p => p.var < T.nVars ∧ T.assigns p.var = none ∧ T.decision p.var = true

theorem pickHeap_spec {ord : Orders} {T : Trail} {b : Branch} (hi : BInv T b) :
    ∃ b' r, b.pickHeap ord T = some (b', r) ∧ PickOk T r ∧ b'.rsil = b.rsil ∧
      (r = none → BInv T b') ∧ ∀ p, r = some p → ∀ q : Lit, q.var = p.var → BInv (T.newDecisionLevel.decide q) b' := by
  obtain ⟨h', r, e1, e2, e3, e4, e5, e6, e7⟩ := pickLoop_spec (ord := ord) (T := T) b.heap.size 0
    b.heap hi.wf (Nat.le_refl _) hi.bound
  refine ⟨⟨h', b.polarity, b.rsil, b.cent⟩, r.map fun v => ⟨v, b.polarity v⟩, ?_, ?_, rfl, ?_, ?_⟩
  · simp only [Branch.pickHeap, e1, Option.map_some]
  · cases r with
    | none =>
      intro v hv hd ha
      have := e5 v (hi.has v hv hd ha) ha hd (by simp)
      obtain ⟨i, hi'⟩ := Option.isSome_iff_exists.1 this
      have h1 := (e2.heap_idx v i hi').1
      have h2 := e6 rfl
      omega
    | some v =>
      obtain ⟨a, b, c⟩ := e7 v rfl
      exact ⟨hi.bound v a, b, c⟩
  · intro hr
    have hr : r = none := by cases r <;> simp_all
    exact ⟨e2, fun v hv => hi.bound v (e4 v hv), by rw [e3]; exact hi.room,
      fun v hv hd ha => e5 v (hi.has v hv hd ha) ha hd (by rw [hr]; simp), hi.rsil⟩
  · intro p hp q hq
    cases r with
    | none => simp at hp
    | some w =>
      simp only [Option.map_some, Option.some.injEq] at hp
      subst hp
      refine ⟨e2, fun v hv => hi.bound v (e4 v hv), by rw [e3]; exact hi.room, fun v hv hd ha => ?_, hi.rsil⟩
      have ha' : v ≠ w ∧ T.assigns v = none := by
        simp only [Trail.decide, Trail.setValue, Trail.newDecisionLevel, upd] at ha
        split at ha
        · cases ha
        · next hne => exact ⟨fun e => hne (by rw [hq]; exact e), ha⟩
      refine e5 v (hi.has v hv hd ha'.2) ha'.2 hd ?_
      intro e
      exact ha'.1 (Option.some.inj e).symm

theorem BInv.setRsil {T : Trail} {b : Branch} {r : Rsil} (h : BInv T b) (hr : r.InSolver T.nVars) :
    BInv T { b with rsil := some r } :=
  ⟨h.wf, h.bound, h.room, h.has, by rintro _ ⟨⟩; exact hr⟩

theorem pick_spec {ord : Orders} {T : Trail} {b : Branch} (hi : BInv T b) :
    ∃ b' r, b.pick ord T = some (b', r) ∧ PickOk T r ∧
      (r = none → BInv T b') ∧ ∀ p, r = some p → BInv (T.newDecisionLevel.decide p) b' := by
  obtain ⟨b', o, e1, e2, e3, e4, e5⟩ := pickHeap_spec (ord := ord) hi
  have hbase : ∃ b' r, b.pickHeap ord T = some (b', r) ∧ PickOk T r ∧
      (r = none → BInv T b') ∧ ∀ p, r = some p → BInv (T.newDecisionLevel.decide p) b' :=
    ⟨b', o, e1, e2, e4, fun p hp => e5 p hp p rfl⟩
  unfold Branch.pick
  split
  · exact hbase
  · next r hr =>
    split
    · next hd =>
      have hin := hi.rsil r hr
      obtain ⟨r1, o1, f1, f2, f3, f4⟩ := Rsil.pickFirst_spec (T := T) hin.bound
      have hreach : ∃ conj, Rsil.Reach conj r ∧ r.size ≤ T.nVars := by
        rcases hin with ⟨opt, rfl⟩ | h
        · cases hd
        · exact h
      obtain ⟨conj, hreach, hsz⟩ := hreach
      have hr1 := hreach.first T f1
      have hr1' : r1.size ≤ T.nVars := by rw [f2.size]; exact hsz
      unfold Branch.pickRsil
      rw [f1]
      cases o1 with
      | some p =>
        obtain ⟨-, g⟩ := f4 p rfl
        refine ⟨_, _, rfl, ⟨g.bound, g.free, g.decision⟩, by simp, ?_⟩
        rintro _ ⟨⟩
        refine (hi.setRsil (.inr ⟨conj, hr1, hr1'⟩)).grows ⟨rfl, rfl, fun v hv => ?_⟩
        simp only [Trail.decide, Trail.setValue, Trail.newDecisionLevel, upd] at hv
        split at hv
        · cases hv
        · exact hv
      | none =>
        dsimp only
        rw [e1]
        cases o with
        | none => exact ⟨_, _, rfl, e2, fun _ => (e4 rfl).setRsil (.inr ⟨conj, hr1, hr1'⟩), by simp⟩
        | some p =>
          have hv := Rsil.pickSign_var hr1.ok p
          refine ⟨_, _, rfl, ?_, by simp, ?_⟩
          · simp only [PickOk, hv]; exact e2
          · rintro _ ⟨⟩
            refine (e5 p rfl _ hv).setRsil (.inr ⟨conj, hr1.sign p, ?_⟩)
            rw [(Rsil.pickSign_same r1 p).size]; exact hr1'
    · exact hbase

end Candy
