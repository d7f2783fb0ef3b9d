import Verif.Model.Lbd
import Verif.Props.Stamp
import Verif.Props.Search
import Verif.Props.Trail

/-!
# C17: the literal-block distance on the stamp array, and its use for learnt clauses
-/

namespace Candy

/-- States of a stamp after any history of calls. -/
def Stamp.Reached (max : Nat) (s : Stamp) : Prop :=
  ∃ ops, Stamp.run max (Stamp.new max) ops = some s

theorem Stamp.Reached.inv {max : Nat} (h1 : 1 ≤ max) {s : Stamp} (h : s.Reached max) :
    ∃ M, s.Inv max M := by
  obtain ⟨ops, h⟩ := h
  exact ⟨_, Stamp.inv_run h1 _ (Stamp.inv_new h1) _ ops rfl s h⟩

theorem Stamp.Reached.apply {max : Nat} {s s' : Stamp} (h : s.Reached max) {op : StampOp}
    (he : op.apply max s = some s') : s'.Reached max := by
  obtain ⟨ops, h⟩ := h
  exact ⟨ops ++ [op], by rw [Stamp.run_snoc, h]; exact he⟩

/-- The body of the loop in `Trail.computeLBD`. -/
def lbdStep (T : Trail) (acc : List Nat × Nat) (l : Lit) : List Nat × Nat :=
  if acc.1.contains (T.level l.var) then acc else (T.level l.var :: acc.1, acc.2 + 1)

theorem lbdLoop_spec {max : Nat} {T : Trail} : ∀ (ls : List Lit) (s : Stamp) (acc : List Nat) (n : Nat),
    s.Reached max → s.Inv max (· ∈ acc) →
    ((∀ l ∈ ls, T.level l.var < s.stamped.length) →
      ∃ s', lbdLoop T ls s n = some ((ls.foldl (lbdStep T) (acc, n)).2, s') ∧ s'.Reached max ∧
        s'.stamped.length = s.stamped.length) ∧
    ((∃ l ∈ ls, s.stamped.length ≤ T.level l.var) → lbdLoop T ls s n = none)
  | [], s, acc, n, hr, _ => ⟨fun _ => ⟨s, rfl, hr, rfl⟩, by simp⟩
  | l :: ls, s, acc, n, hr, hi => by
    by_cases hl : T.level l.var < s.stamped.length
    · have hst : s.isStamped (T.level l.var) = some (acc.contains (T.level l.var)) := by
        simp only [Stamp.isStamped, List.getElem?_eq_getElem hl, Option.map_some, Option.some.injEq]
        have := hi.iff _ _ (List.getElem?_eq_getElem hl)
        rw [Bool.eq_iff_iff]
        simpa using this
      have hrest : ∀ l' : Lit, s.stamped.length ≤ T.level l'.var → l' ≠ l := by
        rintro l' h rfl; omega
      unfold lbdLoop
      rw [hst]
      cases hc : acc.contains (T.level l.var) with
      | true =>
        obtain ⟨k1, k2⟩ := lbdLoop_spec (T := T) ls s acc n hr hi
        have e : lbdStep T (acc, n) l = (acc, n) := if_pos hc
        refine ⟨fun h => ?_, fun ⟨l', h1, h2⟩ => ?_⟩
        · rw [List.foldl_cons, e]
          exact k1 (fun x hx => h x (by simp [hx]))
        · rcases List.mem_cons.1 h1 with rfl | h1
          · exact absurd rfl (hrest _ h2)
          · exact k2 ⟨l', h1, h2⟩
      | false =>
        have hset : s.set (T.level l.var) = some { s with stamped := s.stamped.set (T.level l.var) s.stamp } :=
          if_pos hl
        simp only [hset]
        have hi' : Stamp.Inv max { s with stamped := s.stamped.set (T.level l.var) s.stamp }
            (· ∈ T.level l.var :: acc) := by
          refine (hi.write hl (Nat.le_refl _)).congr fun i => ?_
          by_cases hi : i = T.level l.var
          · simp [hi]
          · simp [hi]
        have hr' := hr.apply (op := .set (T.level l.var)) hset
        obtain ⟨k1, k2⟩ := lbdLoop_spec (T := T) ls _ _ (n + 1) hr' hi'
        have e : lbdStep T (acc, n) l = (T.level l.var :: acc, n + 1) := if_neg (by rw [hc]; simp)
        refine ⟨fun h => ?_, fun ⟨l', h1, h2⟩ => ?_⟩
        · rw [List.foldl_cons, e]
          obtain ⟨s', g1, g2, g3⟩ := k1 (fun x hx => by simpa using h x (by simp [hx]))
          exact ⟨s', g1, g2, by simpa using g3⟩
        · rcases List.mem_cons.1 h1 with rfl | h1
          · exact absurd rfl (hrest _ h2)
          · exact k2 ⟨l', h1, by simpa using h2⟩
    · refine ⟨fun h => absurd (h l (by simp)) hl, fun _ => ?_⟩
      unfold lbdLoop
      have : s.isStamped (T.level l.var) = none := by
        simp only [Stamp.isStamped]
        rw [List.getElem?_eq_none (by omega)]; rfl
      rw [this]

/-- **C17 (stamp array).** For every history of the stamp array — any number of earlier calls, including
overflow of the counter — `computeLBD` returns the number of distinct levels when all levels are below
the size of the array, and accesses memory outside the array otherwise. -/
theorem C17_stamp_array {max : Nat} (h1 : 1 ≤ max) {s : Stamp} (hs : s.Reached max) (T : Trail) (c : Clause) :
    ((∀ l ∈ c, T.level l.var < s.stamped.length) →
      ∃ (levels : List Nat) (s' : Stamp), levels.Nodup ∧ (∀ k, k ∈ levels ↔ ∃ l ∈ c, T.level l.var = k) ∧
        lbdStamped max T c s = some (levels.length, s') ∧ s'.Reached max ∧
        s'.stamped.length = s.stamped.length) ∧
    ((∃ l ∈ c, s.stamped.length ≤ T.level l.var) → lbdStamped max T c s = none) := by
  obtain ⟨M, hM⟩ := hs.inv h1
  have hc := hM.clear h1
  have hr : (s.clear max).Reached max := hs.apply (op := .clear) rfl
  have hlen : (s.clear max).stamped.length = s.stamped.length := by
    unfold Stamp.clear; split <;> simp
  obtain ⟨k1, k2⟩ := lbdLoop_spec (T := T) c (s.clear max) [] 0 hr (hc.congr (by simp))
  rw [hlen] at k1 k2
  refine ⟨fun h => ?_, k2⟩
  obtain ⟨s', g1, g2, g3⟩ := k1 h
  obtain ⟨levels, e1, e2, e3⟩ := C17_lbd_counts_levels T c
  have e : (c.foldl (lbdStep T) ([], 0)).2 = T.computeLBD c := rfl
  exact ⟨levels, s', e1, e2, by rw [lbdStamped, g1, e, e3], g2, g3⟩

/-- A stamp of size 4 after some use. -/
example : Stamp.Reached 3 ⟨[1, 0, 1, 0], 2⟩ ∧
    (∀ l ∈ [neg 0, pos 1, neg 3], exTrail.level l.var < 4) ∧
    (lbdStamped 3 exTrail [neg 0, pos 1, neg 3] ⟨[1, 0, 1, 0], 2⟩).map (·.1) = some 2 :=
  ⟨⟨[.grow 4, .set 0, .set 2, .clear], by decide⟩, by decide, by decide⟩

/-! ## The weight of learnt clauses -/

theorem handleConflict_lbd {store : Nat → Cls} {bin : Lit → List Watcher} {T : Trail} {confl : Nat}
    {r : AnalysisResult} (h : handleConflict store bin T confl = some r) :
    ∃ ls : Clause, ls.Perm r.learnt ∧ r.lbd = T.computeLBD ls := by
  unfold handleConflict at h
  split at h
  · simp at h
  · rename_i first rest involved _
    dsimp only at h
    split at h
    · simp only [Option.some.injEq] at h
      subst h
      exact ⟨[first], .refl _, rfl⟩
    · rename_i s rs _
      obtain ⟨p1, _, _⟩ := pickSecond_spec T rs s
      simp only [Option.some.injEq] at h
      subst h
      exact ⟨first :: s :: rs, (p1.symm).cons _, rfl⟩

/-- **C17 (learnt clauses).** The clause learnt from a conflict is stored with the number of distinct
decision levels of its literals at the time of the conflict as weight (modulo `2^16`, the width of the
field); clauses of at most two literals get weight 0. -/
theorem C17_learnt_weight {s s' : Solver} {confl : Nat} {r : AnalysisResult}
    (hr : handleConflict s.db.store s.db.bin s.trail confl = some r)
    (hs : learnStep s confl = some s') :
    (s'.db.store s.db.next).lits = r.learnt ∧
    ∃ levels : List Nat, levels.Nodup ∧ (∀ k, k ∈ levels ↔ ∃ l ∈ r.learnt, s.trail.level l.var = k) ∧
      (s'.db.store s.db.next).weight = if r.learnt.length < 3 then 0 else levels.length % 65536 := by
  obtain ⟨ls, hp, hl⟩ := handleConflict_lbd hr
  obtain ⟨levels, e1, e2, e3⟩ := C17_lbd_counts_levels s.trail ls
  unfold learnStep at hs
  rw [hr] at hs
  dsimp only at hs
  have hn : (s.db.reestimate s.recalc s.trail r.involved).next = s.db.next := by
    unfold DB.reestimate; split <;> rfl
  split at hs
  · simp only [Option.some.injEq] at hs
    subst hs
    simp only [createClause_store, hn, upd_same]
    refine ⟨trivial, levels, e1, fun k => ?_, by rw [hl, e3]⟩
    rw [e2]
    exact ⟨fun ⟨l, a, b⟩ => ⟨l, hp.mem_iff.1 a, b⟩, fun ⟨l, a, b⟩ => ⟨l, hp.mem_iff.2 a, b⟩⟩
  · simp at hs

/-- A conflict on level 3 with a learnt clause of three literals and weight 3. -/
example : ((exState 4 (cnf [[1, 2, 3, 4], [1, 2, 3, -4]]) [] 3).bind fun s => (runPropagate s).bind fun x =>
    x.2.bind fun c =>
    (learnStep ⟨{ s.db with store := x.1.store }, x.1.watch, x.1.T, s.conflict, s.recalc, s.sent⟩ c).map fun s' => ((s'.db.store s.db.next).lits.length, (s'.db.store s.db.next).weight)) =
    some (3, 3) := by decide

/-! ## Levels beyond the stamp array -/

/-- The stamp array of a trail with `n` variables (`Trail::init`, Trail.h:92-101). -/
theorem stamp_grown (max n : Nat) : (StampOp.grow n).apply max (Stamp.new max) =
    some ((Stamp.new max).grow n) := rfl

/-- **C17 fails (bounds).** Three variables, the clauses (2 ∨ 3) and (2 ∨ ¬3) and the assumptions 1, 1, 1:
a reachable state of the search in which propagation finds a conflict, the learnt clause has a literal of
level 4, and `computeLBD` accesses the stamp array, of size 3, out of bounds. -/
theorem C17_bounds_fail : ∃ s ps c r,
    AtConflict .noInprocessing (cnf [[2, 3], [2, -3]]) [pos 0, pos 0, pos 0] s ps c ∧ s.trail.nVars = 3 ∧
    handleConflict ps.store s.db.bin ps.T c = some r ∧
    lbdStamped 4294967295 ps.T r.learnt ((Stamp.new 4294967295).grow 3) = none := by
  have h : (match exState 3 (cnf [[2, 3], [2, -3]]) [pos 0, pos 0, pos 0] 2 with
      | none => false
      | some s => match runPropagate s with
        | some (ps, some c) => match handleConflict ps.store s.db.bin ps.T c with
          | none => false
          | some r => decide (0 < ps.T.decisionLevel) && decide (s.trail.nVars = 3) &&
              (lbdStamped 4294967295 ps.T r.learnt ((Stamp.new 4294967295).grow 3)).isNone
        | _ => false) = true := by decide
  split at h
  · simp at h
  · rename_i s hs
    split at h
    · rename_i ps c hp
      split at h
      · simp at h
      · rename_i r hr
        simp only [Bool.and_eq_true, decide_eq_true_eq, Option.isNone_iff_eq_none] at h
        exact ⟨s, ps, c, r, ⟨exState_searching (u := .noInprocessing) ⟨exRound_valid, rfl⟩ trivial trivial (by decide) (by decide) 2 s hs,
          hp, h.1.1⟩, h.1.2, hr, h.2⟩
    · simp at h

end Candy
