import Verif.Proofs.ArrayElim

/-! Lemmas for C49: asymmetric variable reduction on arrays. -/

namespace Candy

theorem aAsymDecide_sim {v : Nat} : ∀ (ls : List Lit) {A : ATrail} {T : Trail} (l : Option Lit), RepT A T → T.Inv →
    (∀ x ∈ ls, x.var < T.nVars) → (∀ x, l = some x → x.var < T.nVars) →
    ∃ A', aAsymDecide v ls A l = some (A', (asymDecide v ls T l).2) ∧ RepT A' (asymDecide v ls T l).1 ∧
      (asymDecide v ls T l).1.Inv ∧ (asymDecide v ls T l).1.nVars = T.nVars ∧
      (∀ x, (asymDecide v ls T l).2 = some x → x.var < T.nVars) ∧
      (asymDecide v ls T l).1.assumptions = T.assumptions
  | [], A, T, l, h, hi, _, hl => ⟨A, rfl, h, hi, rfl, hl, rfl⟩
  | x :: xs, A, T, l, h, hi, hx, hl => by
    have hv := hx x (by simp)
    have hx' : ∀ y ∈ xs, y.var < T.nVars := fun y hy => hx y (by simp [hy])
    rw [aAsymDecide, asymDecide]
    by_cases e : x.var = v
    · rw [if_pos e, if_neg (by simp [e])]
      exact aAsymDecide_sim xs (some x) h hi hx' (fun y hy => by cases hy; exact hv)
    · rw [if_neg e, h.assigns _ hv]
      cases ha : T.assigns x.var with
      | some b =>
        rw [if_neg (by simp)]
        exact aAsymDecide_sim xs (some x) h hi hx' (fun y hy => by cases hy; exact hv)
      | none =>
        rw [if_pos ⟨e, rfl⟩]
        have hval : T.value x.neg = none := by
          simp only [Trail.value, show x.neg.var = x.var from rfl, ha]
        obtain ⟨A1, e1, r1⟩ := h.decide (p := x.neg) hv (hi.length_lt hval hv)
        dsimp only
        rw [e1]
        have hi1 : (T.decide x.neg).Inv := Trail.push_inv hi hval hv
        exact aAsymDecide_sim xs l r1 hi1 hx' hl

/-- Everything asymmetric variable reduction uses is represented and in range. -/
structure RepY (a : AAVS) (st : AVS) : Prop where
  s : RepO a.s st.s
  watch : RepWt st.s.db.nVars a.watch st.watch
  T : RepT a.T st.T
  inv : st.T.Inv
  nv : st.T.nVars = st.s.db.nVars
  wr : ∀ p w, w ∈ st.watch p → w.cref < st.s.db.next ∧ w.blocker.var < st.s.db.nVars
  lim : st.T.lim = []

theorem backtrack_zero_lim (T : Trail) : (T.backtrack 0).lim = [] := by
  cases hl : T.lim[0]? with
  | none =>
    rw [Trail.backtrack_none hl]
    cases h : T.lim with
    | nil => rfl
    | cons x xs => rw [h] at hl; simp at hl
  | some k => rw [Trail.backtrack_lim hl]; rfl

theorem SDB.strengthen_next {s s' : SDB} {i : Nat} {l : Lit} (h : s.strengthen i l = some s') :
    s.db.next ≤ s'.db.next := by
  unfold SDB.strengthen at h
  split at h
  · simp only [Option.some.injEq] at h
    subst h
    show s.db.next ≤ (s.db.strengthenClause _ l).1.next
    unfold DB.strengthenClause
    dsimp only
    have e : ∀ (db : DB) c, (db.removeClause c).next = db.next := by
      intro db c; unfold DB.removeClause; dsimp only; split <;> rfl
    rw [e]
    simp
  · simp at h

theorem aAsymScan_sim {v : Nat} : ∀ (os : List Nat) {a : AAVS} {st : AVS}, RepY a st →
    ∀ {st' : AVS} {b : Bool}, asymScan v os st = some (st', b) →
    ∃ a', aAsymScan v os a = some (a', b) ∧ RepY a' st' ∧ st'.s.db.nVars = st.s.db.nVars
  | [], a, st, h, st', b, he => by
    simp only [asymScan, Option.some.injEq, Prod.mk.injEq] at he
    obtain ⟨rfl, rfl⟩ := he
    exact ⟨a, rfl, h, rfl⟩
  | o :: os, a, st, h, st', b, he => by
    rw [asymScan] at he
    rw [aAsymScan, h.s.obj]
    cases ho : st.s.obj[o]? with
    | none => rw [ho] at he; simp at he
    | some x =>
      rw [ho] at he
      cases x with
      | none => exact aAsymScan_sim os h he
      | some c =>
        have hc := h.s.objLt o c ho
        have hlv : ∀ l ∈ (st.s.db.store c).lits, l.var < st.T.nVars := by
          intro l hl; rw [h.nv]; exact h.s.lits c hc l hl
        dsimp only at he ⊢
        rw [h.s.store.get c hc]
        dsimp only
        rw [h.T.satisfies hlv]
        have elits : st.s.db.lits c = (st.s.db.store c).lits := rfl
        rw [elits] at he
        cases hsat : (st.s.db.store c).lits.any fun l => st.T.satisfies l with
        | true =>
          rw [if_pos hsat] at he
          exact aAsymScan_sim os h he
        | false =>
          rw [if_neg (by rw [hsat]; simp)] at he
          dsimp only
          obtain ⟨A1, d1, d2, d3, d4, d5, _⟩ := aAsymDecide_sim (v := v) (st.s.db.store c).lits none
            h.T.newDecisionLevel (Trail.newDecisionLevel_inv h.inv) hlv (by simp)
          rw [d1]
          dsimp only
          generalize asymDecide v (st.s.db.store c).lits st.T.newDecisionLevel none = R at *
          obtain ⟨T1, l⟩ := R
          simp only at *
          have hTn : T1.nVars = st.s.db.nVars := d4.trans h.nv
          cases hp : propagateLoop st.s.db.bin (st.s.db.nVars + 1) ⟨st.s.db.store, st.watch, T1⟩ with
          | none => rw [hp] at he; simp at he
          | some y =>
            obtain ⟨ps, confl⟩ := y
            rw [hp] at he
            obtain ⟨a1, k1, k2, k3, k4⟩ := aPropagateLoop_sim (next := st.s.db.next) h.s.bin h.s.binLt
              (st.s.db.nVars + 1) (a := ⟨A1, a.s.store, a.watch⟩) (s := ⟨st.s.db.store, st.watch, T1⟩)
              ⟨d2, h.s.store, by show RepWt T1.nVars _ _; rw [hTn]; exact h.watch⟩
              ⟨d3, by show ∀ c < st.s.db.next, ∀ l ∈ (st.s.db.store c).lits, l.var < T1.nVars
                      rw [hTn]; exact h.s.lits,
                by show ∀ p w, w ∈ st.watch p → w.cref < st.s.db.next ∧ w.blocker.var < T1.nVars
                   rw [hTn]; exact h.wr⟩ hTn hp
            rw [d2.vars, hTn, k1]
            obtain ⟨A2, b1, b2⟩ := k2.T.backtrack (lvl := 0) k3.inv
            dsimp only at he ⊢
            rw [b1]
            dsimp only
            have hlits : ∀ c < st.s.db.next, ∀ l ∈ (ps.store c).lits, l.var < st.s.db.nVars := by
              intro c hc l hl; rw [← k4]; exact k3.lits c hc l hl
            have hY : RepY ⟨{ a.s with store := a1.store }, a1.watch, A2⟩
                ⟨{ st.s with db := { st.s.db with store := ps.store } }, ps.watch, ps.T.backtrack 0⟩ := {
              s := h.s.ofD (a' := { a.s with store := a1.store }) (db := { st.s.db with store := ps.store })
                ⟨k2.store, h.s.bin, h.s.clauses, h.s.e, hlits, h.s.binLt, h.s.mem⟩ rfl rfl rfl (Nat.le_refl _)
              watch := by show RepWt st.s.db.nVars _ _; rw [← k4]; exact k2.watch
              T := b2
              inv := Trail.backtrack_inv k3.inv
              nv := by rw [Trail.backtrack_nVars]; exact k4
              wr := by
                intro p w hw
                obtain ⟨g1, g2⟩ := k3.watch p w hw
                exact ⟨g1, by rw [← k4]; exact g2⟩
              lim := backtrack_zero_lim _ }
            cases confl with
            | none => exact aAsymScan_sim os hY he
            | some cc =>
              dsimp only at he ⊢
              by_cases hlen : 1 < (st.s.db.store c).lits.length
              · rw [if_pos hlen] at he ⊢
                cases l with
                | none => simp at he
                | some l =>
                  have hl : l.var < st.s.db.nVars := by rw [← h.nv]; exact d5 l rfl
                  dsimp only at he ⊢
                  cases hs : SDB.strengthen { st.s with db := { st.s.db with store := ps.store } } o l with
                  | none => rw [hs] at he; simp at he
                  | some s1 =>
                    rw [hs] at he
                    obtain ⟨a2, f1, f2⟩ := hY.s.strengthen hl hs
                    rw [f1]
                    have hn := SDB.strengthen_nVars hs
                    have hx := SDB.strengthen_next hs
                    obtain ⟨a3, g1, g2, g3⟩ := aAsymScan_sim os
                      (a := ⟨a2, a1.watch, A2⟩) (st := ⟨s1, ps.watch, ps.T.backtrack 0⟩)
                      ⟨f2, by show RepWt s1.db.nVars _ _; rw [hn]; exact hY.watch, b2, hY.inv, hY.nv.trans hn.symm,
                        fun p w hw => by
                          obtain ⟨q1, q2⟩ := hY.wr p w hw
                          exact ⟨Nat.lt_of_lt_of_le q1 hx, by show _ < s1.db.nVars; rw [hn]; exact q2⟩,
                        hY.lim⟩ he
                    exact ⟨a3, g1, g2, g3.trans hn⟩
              · rw [if_neg hlen] at he ⊢
                simp only [Option.some.injEq, Prod.mk.injEq] at he
                obtain ⟨rfl, rfl⟩ := he
                exact ⟨_, rfl, hY, rfl⟩

theorem aAsymList_sim : ∀ (vs : List Nat) {a : AAVS} {st : AVS}, RepY a st → (∀ v ∈ vs, v < st.s.db.nVars) →
    ∀ {st' : AVS} {b : Bool}, asymList vs st = some (st', b) →
    ∃ a', aAsymList vs a = some (a', b) ∧ RepY a' st' ∧ st'.s.db.nVars = st.s.db.nVars
  | [], a, st, h, _, st', b, he => by
    simp only [asymList, Option.some.injEq, Prod.mk.injEq] at he
    obtain ⟨rfl, rfl⟩ := he
    exact ⟨a, rfl, h, rfl⟩
  | v :: vs, a, st, h, hv, st', b, he => by
    have hv0 := hv v (by simp)
    have hv' : ∀ w ∈ vs, w < st.s.db.nVars := fun w hw => hv w (by simp [hw])
    rw [asymList] at he
    rw [aAsymList, h.T.assigns v (by rw [h.nv]; exact hv0)]
    cases hA : st.T.assigns v with
    | some c =>
      rw [if_neg (by rw [hA]; simp)] at he
      exact aAsymList_sim vs h hv' he
    | none =>
      rw [if_pos hA] at he
      dsimp only
      rw [h.s.occ v hv0]
      dsimp only
      split at he
      · simp at he
      · next s1 h1 =>
        obtain ⟨a1, e1, r1, n1⟩ := aAsymScan_sim _ h h1
        rw [e1]
        simp only [Option.some.injEq, Prod.mk.injEq] at he
        obtain ⟨rfl, rfl⟩ := he
        exact ⟨a1, rfl, r1, n1⟩
      · next s1 h1 =>
        obtain ⟨a1, e1, r1, n1⟩ := aAsymScan_sim _ h h1
        rw [e1]
        obtain ⟨a2, e2, r2, n2⟩ := aAsymList_sim vs r1 (fun w hw => by rw [n1]; exact hv' w hw) he
        exact ⟨a2, e2, r2, n2.trans n1⟩

theorem aAsymAll_sim {active : Bool} {a : AAVS} {st : AVS} (h : RepY a st) {st' : AVS} {b : Bool}
    (he : asymAll active st = some (st', b)) :
    ∃ a', aAsymAll active a = some (a', b) ∧ RepY a' st' ∧ st'.s.db.nVars = st.s.db.nVars := by
  unfold asymAll at he
  unfold aAsymAll
  cases active with
  | true =>
    rw [if_pos rfl] at he ⊢
    rw [h.T.vars]
    exact aAsymList_sim _ h (fun v hv => by rw [← h.nv]; exact List.mem_range.1 hv) he
  | false =>
    simp only [Bool.false_eq_true, if_false, Option.some.injEq, Prod.mk.injEq] at he ⊢
    obtain ⟨rfl, rfl⟩ := he
    exact ⟨a, ⟨rfl, rfl⟩, h, rfl⟩

end Candy
