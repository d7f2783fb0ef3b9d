import Verif.Proofs.SatSide

/-!
# The assignment stack (C10) and the literal-block distance (C17)
-/

namespace Candy

/-- The operations the solver performs on the trail, with the conditions under which it performs
them: only unassigned literals are decided, only literals that are not already true are
propagated (a false literal is rejected), facts are added on level 0. -/
inductive TrailOp : Trail → Trail → Prop
  | openLevel (T : Trail) : TrailOp T T.newDecisionLevel
  | decide (T : Trail) (p : Lit) (h : T.value p = none) (hb : p.var < T.nVars) :
      TrailOp T (T.decide p)
  | propagate (T : Trail) (p : Lit) (c : Nat) (h : T.value p ≠ some true) (hb : p.var < T.nVars) :
      TrailOp T (T.propagate p c)
  | fact (T : Trail) (p : Lit) (h : T.decisionLevel = 0) (hb : p.var < T.nVars) :
      TrailOp T (T.fact p).1
  | backtrack (T : Trail) (level : Nat) : TrailOp T (T.backtrack level)
  | advance (T : Trail) (h : T.qhead < T.stack.length) : TrailOp T { T with qhead := T.qhead + 1 }
  | reset (T : Trail) : TrailOp T T.reset
  | grow (T : Trail) (n : Nat) : TrailOp T (T.init n)

/-- Trails reachable by any sequence of operations. -/
inductive TrailReach : Trail → Prop
  | empty (n : Nat) : TrailReach (Trail.empty n)
  | step {T T' : Trail} (h : TrailReach T) (op : TrailOp T T') : TrailReach T'

/-- Any sequence of operations that stays above level `k`. -/
inductive StaysAbove (k : Nat) : Trail → Trail → Prop
  | refl (T : Trail) (h : k < T.decisionLevel) : StaysAbove k T T
  | step {T T1 T2 : Trail} (h : StaysAbove k T T1) (op : TrailOp T1 T2)
      (hk : k < T2.decisionLevel) : StaysAbove k T T2

theorem factInv {T : Trail} {p : Lit} (h : T.Inv) (h0 : T.decisionLevel = 0) (hb : p.var < T.nVars) :
    (T.fact p).1.Inv := by
  have hlim : T.lim = [] := List.length_eq_zero_iff.1 h0
  unfold Trail.fact
  split
  · exact h
  · rename_i hf
    have h1 : Trail.Inv { T with reason := upd T.reason p.var none, level := upd T.level p.var 0 } := by
      refine ⟨h.val, h.nodup, h.bound, h.limSorted, h.limLe, ?_, h.qle⟩
      intro pre q post hs
      have := h.lev pre q post hs
      simp only [hlim, List.countP_nil] at this ⊢
      rw [upd_apply]; split
      · rfl
      · exact this
    simp only
    split
    · exact h1
    · rename_i hs
      have hv : T.value p = none := by
        cases hv : T.value p with
        | none => rfl
        | some b =>
          cases b
          · simp [Trail.falsifies, hv] at hf
          · have : ({ T with reason := upd T.reason p.var none, level := upd T.level p.var 0 } : Trail).satisfies p
              = true := by
              show (T.value p == some true) = true
              rw [hv]; rfl
            exact (hs this).elim
      have := Trail.push_inv h (r := none) hv hb
      refine ⟨this.val, this.nodup, this.bound, this.limSorted, this.limLe, ?_, this.qle⟩
      intro pre q post hs
      have h2 := this.lev pre q post hs
      simp only [Trail.setValue, Trail.push, hlim, List.countP_nil] at h2 ⊢
      rw [upd_apply] at h2 ⊢
      split at h2
      · simp [*]
      · simp [*]

theorem TrailOp.inv {T T' : Trail} (op : TrailOp T T') (h : T.Inv) : T'.Inv := by
  cases op with
  | openLevel => exact Trail.newDecisionLevel_inv h
  | decide p hp hb => rw [Trail.decide_eq_push]; exact Trail.push_inv h hp hb
  | propagate p c hp hb =>
    cases hv : T.value p with
    | none => rw [Trail.propagate_eq_push T p c hv]; exact Trail.push_inv h hv hb
    | some b =>
      cases b
      · unfold Trail.propagate
        rw [if_pos (by simp [Trail.falsifies, hv])]; exact h
      · exact (hp hv).elim
  | fact p h0 hb => exact factInv h h0 hb
  | backtrack level => exact Trail.backtrack_inv h
  | advance hq => exact ⟨h.val, h.nodup, h.bound, h.limSorted, h.limLe, h.lev, hq⟩
  | reset => exact Trail.reset_inv T
  | grow n =>
    unfold Trail.init
    split
    · exact ⟨h.val, h.nodup, fun l hl => Nat.lt_of_lt_of_le (h.bound l hl) (by simp; omega),
        h.limSorted, h.limLe, h.lev, h.qle⟩
    · exact h

theorem TrailReach.inv {T : Trail} (h : TrailReach T) : T.Inv := by
  induction h with
  | empty n => exact Trail.empty_inv n
  | step _ op ih => exact op.inv ih

/-- C10. In every reachable state: a variable has a value iff one of its literals is on the stack,
the literals on the stack are exactly the true literals, no variable is on the stack twice, levels
do not decrease along the stack and do not exceed the current level, and the stack fits into its
storage of `nVars` entries. -/
theorem C10_stack (T : Trail) (h : TrailReach T) :
    (∀ v, T.assigns v ≠ none ↔ ∃ l ∈ T.stack, l.var = v) ∧
    (∀ l, T.value l = some true ↔ l ∈ T.stack) ∧
    (T.stack.map Lit.var).Nodup ∧
    T.stack.Pairwise (fun a b => T.level a.var ≤ T.level b.var) ∧
    (∀ l ∈ T.stack, T.level l.var ≤ T.decisionLevel) ∧
    T.stack.length ≤ T.nVars := by
  have hi := h.inv
  refine ⟨hi.assigned_iff, hi.val, hi.varNodup, ?_, fun l hl => hi.level_le hl, hi.length_le⟩
  rw [List.pairwise_iff_getElem]
  intro i j hi' hj' hij
  have hs : T.stack = T.stack.take j ++ T.stack[j] :: T.stack.drop (j + 1) := by simp
  have hm : T.stack[i] ∈ T.stack.take j := by
    rw [List.mem_take_iff_getElem]
    exact ⟨i, by omega, rfl⟩
  exact hi.level_mono hs hm

/-- What the operations above level `k` leave alone. -/
structure Kept (k : Nat) (T T1 : Trail) : Prop where
  lim : T1.lim.take k = T.lim
  start : T1.lim[k]? = some T.stack.length
  stack : T1.stack.take T.stack.length = T.stack
  len : T.stack.length ≤ T1.stack.length
  level : ∀ l ∈ T.stack, T1.level l.var = T.level l.var
  reason : ∀ l ∈ T.stack, T1.reason l.var = T.reason l.var

theorem Kept.push {k : Nat} {T T1 : Trail} (h : Kept k T T1) (hi : T1.Inv) {p : Lit}
    {r : Option Nat} (hp : T1.value p = none) : Kept k T (T1.push p r) := by
  have hne : ∀ l ∈ T.stack, l.var ≠ p.var := by
    intro l hl
    refine ne_var_of_mem hi hp ?_
    rw [← h.stack] at hl
    exact List.mem_of_mem_take hl
  refine ⟨h.lim, h.start, ?_, ?_, ?_, ?_⟩
  · simp only [Trail.push, Trail.setValue]
    rw [List.take_append_of_le_length h.len]; exact h.stack
  · simp only [Trail.push, Trail.setValue, List.length_append, List.length_singleton]
    have := h.len; omega
  · intro l hl
    simp only [Trail.push]
    rw [upd_ne _ _ (hne l hl)]; exact h.level l hl
  · intro l hl
    simp only [Trail.push]
    rw [upd_ne _ _ (hne l hl)]; exact h.reason l hl

theorem Kept.step {k : Nat} {T T1 T2 : Trail} (h : Kept k T T1) (hi : T1.Inv) (op : TrailOp T1 T2)
    (hk : k < T2.decisionLevel) : Kept k T T2 := by
  have hlen : k < T1.lim.length := by
    have := h.start
    exact (List.getElem?_eq_some_iff.1 this).1
  cases op with
  | openLevel =>
    refine ⟨?_, ?_, h.stack, h.len, h.level, h.reason⟩
    · simp only [Trail.newDecisionLevel]
      rw [List.take_append_of_le_length (by omega)]; exact h.lim
    · simp only [Trail.newDecisionLevel]
      rw [List.getElem?_append_left hlen]; exact h.start
  | decide p hp hb => rw [Trail.decide_eq_push]; exact h.push hi hp
  | propagate p c hp hb =>
    cases hv : T1.value p with
    | none => rw [Trail.propagate_eq_push T1 p c hv]; exact h.push hi hv
    | some b =>
      cases b
      · unfold Trail.propagate
        rw [if_pos (by simp [Trail.falsifies, hv])]; exact h
      · exact (hp hv).elim
  | fact p h0 hb =>
    simp only [Trail.decisionLevel] at h0
    omega
  | backtrack level =>
    cases hl : T1.lim[level]? with
    | none => rw [Trail.backtrack_none hl]; exact h
    | some n =>
      have hlv : k < level := by
        simp only [Trail.decisionLevel, Trail.backtrack_lim hl, List.length_take] at hk
        omega
      have hkn : T.stack.length ≤ n := by
        obtain ⟨a, b⟩ := List.getElem?_eq_some_iff.1 hl
        obtain ⟨c, d⟩ := List.getElem?_eq_some_iff.1 h.start
        have := (List.pairwise_iff_getElem.1 hi.limSorted) k level c a hlv
        omega
      have hn : n ≤ T1.stack.length := hi.limLe n (List.mem_of_getElem? hl)
      refine ⟨?_, ?_, ?_, ?_, ?_, ?_⟩
      · rw [Trail.backtrack_lim hl, List.take_take, Nat.min_eq_left (by omega)]; exact h.lim
      · rw [Trail.backtrack_lim hl, List.getElem?_take_of_lt hlv]; exact h.start
      · rw [Trail.backtrack_stack hl, List.take_take, Nat.min_eq_left hkn]; exact h.stack
      · rw [Trail.backtrack_stack hl, List.length_take]; omega
      · simp only [Trail.backtrack_level]; exact h.level
      · simp only [Trail.backtrack_reason]; exact h.reason
  | advance hq => exact ⟨h.lim, h.start, h.stack, h.len, h.level, h.reason⟩
  | reset => simp [Trail.decisionLevel, Trail.reset] at hk
  | grow n =>
    unfold Trail.init
    split
    · exact ⟨h.lim, h.start, h.stack, h.len, h.level, h.reason⟩
    · exact h

theorem StaysAbove.kept {k : Nat} {T T' : Trail} (hr : TrailReach T) (hk : k = T.decisionLevel)
    (h : StaysAbove k T.newDecisionLevel T') : T'.Inv ∧ Kept k T T' := by
  have hi := hr.inv
  generalize hT : T.newDecisionLevel = T0 at h
  induction h with
  | refl =>
    subst hT hk
    refine ⟨Trail.newDecisionLevel_inv hi, ?_, ?_, ?_, ?_, fun _ _ => rfl, fun _ _ => rfl⟩
    · simp [Trail.newDecisionLevel, Trail.decisionLevel]
    · simp [Trail.newDecisionLevel, Trail.decisionLevel]
    · simp [Trail.newDecisionLevel]
    · simp [Trail.newDecisionLevel]
  | step h op hk' ih =>
    obtain ⟨a, b⟩ := ih
    exact ⟨op.inv a, b.step a op hk'⟩

/-- C10. Backtracking restores exactly the state that held when the next level was opened: open a
level on top of level `k`, perform any operations above level `k`, backtrack to `k`. The
assignment, the stack, the levels below and the level and reason of every assigned literal are as
before. -/
theorem C10_backtrack_restores {T T' : Trail} {k : Nat} (h : TrailReach T)
    (hk : k = T.decisionLevel) (ops : StaysAbove k T.newDecisionLevel T') :
    (T'.backtrack k).assigns = T.assigns ∧ (T'.backtrack k).stack = T.stack ∧
    (T'.backtrack k).lim = T.lim ∧
    ∀ l ∈ T.stack, (T'.backtrack k).level l.var = T.level l.var ∧
      (T'.backtrack k).reason l.var = T.reason l.var := by
  obtain ⟨hi, hkept⟩ := ops.kept h hk
  have hst : (T'.backtrack k).stack = T.stack := by
    rw [Trail.backtrack_stack hkept.start]; exact hkept.stack
  have hb := Trail.backtrack_inv (lvl := k) hi
  refine ⟨?_, hst, ?_, ?_⟩
  · rw [← modelOf_assigns hb, ← modelOf_assigns h.inv]
    unfold modelOf
    rw [hst]
  · rw [Trail.backtrack_lim hkept.start]; exact hkept.lim
  · intro l hl
    simp only [Trail.backtrack_level, Trail.backtrack_reason]
    exact ⟨hkept.level l hl, hkept.reason l hl⟩

/-- Non-vacuity: three levels with a decision and a propagation each, then back to level 1. -/
def exTrail : Trail :=
  ((((Trail.empty 4).newDecisionLevel.decide (pos 0)).propagate (neg 1) 7).newDecisionLevel.decide
    (pos 3))

example : TrailReach exTrail :=
  (((((TrailReach.empty 4).step (.openLevel _)).step (.decide _ (pos 0) (by decide) (by decide))).step
    (.propagate _ (neg 1) 7 (by decide) (by decide))).step (.openLevel _)).step
    (.decide _ (pos 3) (by decide) (by decide))

example : exTrail.stack = [pos 0, neg 1, pos 3] ∧ (exTrail.backtrack 1).stack = [pos 0, neg 1] ∧
    (exTrail.backtrack 0).stack = [] := by decide

/-! ## C17 -/

/-- C17 (partial). The literal-block distance is the number of distinct decision levels among the
literals of the clause: it is the size of a duplicate-free list of exactly these levels. The
part about the bounds of the stamp array is in `Props/Lbd.lean`. -/
theorem C17_lbd_counts_levels (T : Trail) (c : Clause) :
    ∃ levels : List Nat, levels.Nodup ∧ (∀ k, k ∈ levels ↔ ∃ l ∈ c, T.level l.var = k) ∧
      T.computeLBD c = levels.length :=
  computeLBD_spec T c

example : exTrail.computeLBD [neg 0, pos 1, neg 3] = 2 := by decide

end Candy
