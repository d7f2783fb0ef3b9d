import Verif.Proofs.History

/-!
# Search terminates: the measure

Every literal on the trail weighs `(n + 1) ^ (n + 1 - b)`, where `b` is the first position of the
trail that lies inside its decision level (0 for level 0). A backjump to level `b` replaces literals of higher levels, at
most `n` of them, by one literal of a level that starts strictly earlier, so the total weight grows.
-/

namespace Candy

variable {F : CNF} {A : Nat → Prop} {as : List Lit} {u : Usage}

namespace Trail

/-- One more than the position of the decision of level `j`; 0 for level 0. -/
def start (T : Trail) : Nat → Nat
  | 0 => 0
  | j + 1 => T.lim.getD j 0 + 1

def unitWeight (n : Nat) (T : Trail) (l : Lit) : Nat := (n + 1) ^ (n + 1 - T.start (T.level l.var))

def weight (n : Nat) (T : Trail) : Nat := (T.stack.map (unitWeight n T)).sum

end Trail

theorem sum_le_mul {α : Type} (f : α → Nat) (k : Nat) : ∀ (l : List α), (∀ x ∈ l, f x ≤ k) →
    (l.map f).sum ≤ l.length * k
  | [], _ => by simp
  | x :: l, h => by
    have := sum_le_mul f k l (fun y hy => h y (by simp [hy]))
    have := h x (by simp)
    simp only [List.map_cons, List.sum_cons, List.length_cons, Nat.add_mul]
    omega

theorem unitWeight_pos (n : Nat) (T : Trail) (l : Lit) : 0 < T.unitWeight n l :=
  Nat.pow_pos (by omega)

theorem weight_le {T : Trail} {n : Nat} (h : T.stack.length ≤ n) :
    T.weight n ≤ n * (n + 1) ^ (n + 1) := by
  refine Nat.le_trans (sum_le_mul _ ((n + 1) ^ (n + 1)) _ ?_) (Nat.mul_le_mul_right _ h)
  intro l _
  exact Nat.pow_le_pow_right (by omega) (by omega)

/-- Literals appended to the stack, and levels appended to `lim`, leave the old weights alone. -/
theorem weight_ext {T T' : Trail} {n : Nat} (h : T.Inv) {suf : List Lit} {ks : List Nat}
    (hs : T'.stack = T.stack ++ suf) (hl : T'.lim = T.lim ++ ks)
    (hlev : ∀ l ∈ T.stack, T'.level l.var = T.level l.var) :
    T'.weight n = T.weight n + (suf.map (T'.unitWeight n)).sum := by
  unfold Trail.weight
  rw [hs, List.map_append, List.sum_append]
  congr 2
  refine List.map_congr_left ?_
  intro l hm
  unfold Trail.unitWeight
  rw [hlev l hm]
  have hle := h.level_le hm
  unfold Trail.decisionLevel at hle
  cases hj : T.level l.var with
  | zero => rfl
  | succ j =>
    rw [hj] at hle
    unfold Trail.start
    rw [hl]
    simp only [List.getD_eq_getElem?_getD]
    rw [List.getElem?_append_left (by omega)]

theorem assumeLoop_lim : ∀ (ps : List Lit) (T T' : Trail) (out : AssumeOut),
    assumeLoop T ps = (T', out) → (∃ ks, T'.lim = T.lim ++ ks) ∧ T'.level = T.level
  | [], T, T', out, h => by
    simp only [assumeLoop, Prod.mk.injEq] at h
    obtain ⟨rfl, _⟩ := h
    exact ⟨⟨[], by simp⟩, rfl⟩
  | p :: ps, T, T', out, h => by
    rw [assumeLoop] at h
    cases hv : T.value p with
    | none =>
      rw [hv] at h
      simp only [Prod.mk.injEq] at h
      obtain ⟨rfl, _⟩ := h
      exact ⟨⟨[], by simp⟩, rfl⟩
    | some b =>
      cases b with
      | false =>
        rw [hv] at h
        simp only [Prod.mk.injEq] at h
        obtain ⟨rfl, _⟩ := h
        exact ⟨⟨[], by simp⟩, rfl⟩
      | true =>
        rw [hv] at h
        obtain ⟨⟨ks, h1⟩, h2⟩ := assumeLoop_lim ps _ T' out h
        exact ⟨⟨T.stack.length :: ks, by rw [h1]; simp [Trail.newDecisionLevel]⟩, h2⟩

/-- A conflict followed by a backjump and the asserted literal makes the trail heavier. -/
theorem weight_learn {T : Trail} {n : Nat} (h : T.Inv) (hn : T.stack.length ≤ n) {ls : List Lit} {bt : Nat}
    (hL : LearntOK F T ls bt) {first : Lit} (_hf : ls.head? = some first) (c : Option Nat)
    (hv : (T.backtrack bt).value first = none) :
    T.weight n < (Trail.weight n ((T.backtrack bt).push first c)) := by
  obtain ⟨k, hk⟩ : ∃ k, T.lim[bt]? = some k := by
    have := hL.bt
    unfold Trail.decisionLevel at this
    exact ⟨_, List.getElem?_eq_getElem this⟩
  have hkl : k ≤ T.stack.length := h.limLe k (List.mem_of_getElem? hk)
  have hbt : bt < T.lim.length := (List.getElem?_eq_some_iff.1 hk).1
  -- the level jumped to starts before position `k`
  have hstart : T.start bt ≤ k := by
    obtain ⟨f0, rest, hls, _, _, hrest, hb0, hbs⟩ := hL.shape
    cases hbt0 : bt with
    | zero => exact Nat.zero_le _
    | succ j =>
      cases hr : rest with
      | nil => have := hb0 hr; omega
      | cons s r =>
        have hs := hbs s r hr
        have hm := (hrest s (by simp [hr])).1
        obtain ⟨pre, post, hpp⟩ := List.append_of_mem hm
        have hj : T.lim[j]? = some (T.lim.getD j 0) := by
          rw [List.getElem?_eq_getElem (by omega), List.getD_eq_getElem?_getD,
            List.getElem?_eq_getElem (by omega)]; rfl
        have h1 := (h.level_gt_iff hpp hj).1 (by simp only [Lit.var_neg]; omega)
        have h2 := (not_congr (h.level_gt_iff hpp hk)).1 (by simp only [Lit.var_neg]; omega)
        show T.lim.getD j 0 + 1 ≤ k
        omega
  have hinv := h
  -- split the old stack at `k`
  have hsplit : T.weight n = ((T.stack.take k).map (T.unitWeight n)).sum +
      ((T.stack.drop k).map (T.unitWeight n)).sum := by
    unfold Trail.weight
    rw [← List.sum_append, ← List.map_append, List.take_append_drop]
  have hdrop : ((T.stack.drop k).map (T.unitWeight n)).sum ≤ n * (n + 1) ^ (n - k) := by
    refine Nat.le_trans (sum_le_mul _ ((n + 1) ^ (n - k)) _ ?_)
      (Nat.mul_le_mul_right _ (by rw [List.length_drop]; omega))
    intro l hl
    obtain ⟨i, hi, rfl⟩ := List.getElem_of_mem hl
    have hi' : k + i < T.stack.length := by rw [List.length_drop] at hi; omega
    have hpp : T.stack = T.stack.take (k + i) ++ (T.stack.drop k)[i] :: T.stack.drop (k + i + 1) := by
      rw [List.getElem_drop, List.getElem_cons_drop, List.take_append_drop]
    have hlv := (h.level_gt_iff hpp hk).2 (by rw [List.length_take]; omega)
    have hle := h.level_le (l := (T.stack.drop k)[i]) (List.mem_of_mem_drop hl)
    unfold Trail.decisionLevel at hle
    unfold Trail.unitWeight
    refine Nat.pow_le_pow_right (by omega) ?_
    cases hj : T.level (T.stack.drop k)[i].var with
    | zero => omega
    | succ j =>
      rw [hj] at hlv hle
      have : k ≤ T.lim.getD j 0 := by
        obtain ⟨hb, hbe⟩ := List.getElem?_eq_some_iff.1 hk
        rw [List.getD_eq_getElem?_getD, List.getElem?_eq_getElem (by omega)]
        simp only [Option.getD_some]
        refine Nat.le_trans (Nat.le_of_eq hbe.symm) ?_
        rcases Nat.lt_or_ge bt j with hlt | hge
        · exact List.pairwise_iff_getElem.1 h.limSorted bt j hb (by omega) hlt
        · have : bt = j := by omega
          subst this; exact Nat.le_refl _
      show n + 1 - (T.lim.getD j 0 + 1) ≤ n - k
      omega
  -- the new stack
  have hnew : Trail.weight n ((T.backtrack bt).push first c) =
      ((T.stack.take k).map (T.unitWeight n)).sum + (n + 1) ^ (n + 1 - T.start bt) := by
    have hst : ((T.backtrack bt).push first c).stack = T.stack.take k ++ [first] := by
      simp [Trail.push, Trail.setValue, Trail.backtrack_stack hk]
    have hlm : ((T.backtrack bt).push first c).lim = T.lim.take bt := by
      simp [Trail.push, Trail.setValue, Trail.backtrack_lim hk]
    have hlv : ((T.backtrack bt).push first c).level = upd T.level first.var bt := by
      simp [Trail.push, Trail.setValue, Trail.decisionLevel, Trail.backtrack_lim hk,
        Nat.min_eq_left (Nat.le_of_lt hbt)]
    have hstt : ∀ j ≤ bt, Trail.start ((T.backtrack bt).push first c) j = T.start j := by
      intro j hj
      cases j with
      | zero => rfl
      | succ j =>
        unfold Trail.start
        rw [hlm]
        simp only [List.getD_eq_getElem?_getD]
        rw [List.getElem?_take_of_lt (by omega)]
    unfold Trail.weight
    rw [hst, List.map_append, List.sum_append]
    congr 1
    · congr 1
      refine List.map_congr_left ?_
      intro l hm
      have hmT := List.mem_of_mem_take hm
      have hvar : l.var ≠ first.var := by
        intro e
        have hbi := Trail.backtrack_inv (lvl := bt) h
        have hmb : l ∈ (T.backtrack bt).stack := by rw [Trail.backtrack_stack hk]; exact hm
        obtain ⟨n1, n2⟩ := (hbi.valNone first).1 hv
        rcases Lit.eq_or_neg_of_var e with e | e
        · exact n1 (e ▸ hmb)
        · exact n2 (e ▸ hmb)
      unfold Trail.unitWeight
      rw [hlv]
      have : upd T.level first.var bt l.var = T.level l.var := by simp [upd, hvar]
      rw [this, hstt]
      obtain ⟨i, hi, hie⟩ := List.getElem_of_mem hm
      have hi' : i < T.stack.length ∧ i < k := by rw [List.length_take] at hi; omega
      have hpp : T.stack = T.stack.take i ++ l :: T.stack.drop (i + 1) := by
        rw [← hie, List.getElem_take, List.getElem_cons_drop, List.take_append_drop]
      have := (not_congr (h.level_gt_iff hpp hk)).2 (by rw [List.length_take]; omega)
      omega
    · simp only [List.map_cons, List.map_nil, List.sum_cons, List.sum_nil, Nat.add_zero]
      unfold Trail.unitWeight
      rw [hlv]
      have : upd T.level first.var bt first.var = bt := by simp [upd]
      rw [this, hstt bt (Nat.le_refl _)]
  rw [hsplit, hnew]
  have h1 : (n + 1) ^ (n + 1 - k) ≤ (n + 1) ^ (n + 1 - T.start bt) :=
    Nat.pow_le_pow_right (by omega) (by omega)
  have h2 : n * (n + 1) ^ (n - k) < (n + 1) ^ (n + 1 - k) := by
    have : n + 1 - k = (n - k) + 1 := by omega
    rw [this, Nat.pow_succ, Nat.mul_comm]
    exact Nat.mul_lt_mul_of_pos_left (by omega) (Nat.pow_pos (by omega))
  omega

theorem weight_decide {T T' : Trail} {n : Nat} (h : T.Inv) {ks : List Nat} (hl : T'.lim = T.lim ++ ks)
    (hs : T'.stack = T.stack) (hlev : T'.level = T.level) {p : Lit} (hv : T'.value p = none)
    (h' : T'.Inv) : T.weight n < Trail.weight n (T'.newDecisionLevel.decide p) := by
  have := weight_ext (T := T) (T' := T'.newDecisionLevel.decide p) (n := n) h (suf := [p])
    (ks := ks ++ [T'.stack.length])
    (by simp [Trail.decide, Trail.setValue, Trail.newDecisionLevel, hs])
    (by simp [Trail.decide, Trail.setValue, Trail.newDecisionLevel, hl])
    (by
      intro l hm
      have hvar : l.var ≠ p.var := by
        intro e
        obtain ⟨n1, n2⟩ := (h'.valNone p).1 hv
        rw [hs] at n1 n2
        rcases Lit.eq_or_neg_of_var e with e | e
        · exact n1 (e ▸ hm)
        · exact n2 (e ▸ hm)
      simp [Trail.decide, Trail.setValue, Trail.newDecisionLevel, upd, hvar, hlev])
  rw [this]
  have := unitWeight_pos n (T'.newDecisionLevel.decide p) p
  simp only [List.map_cons, List.map_nil, List.sum_cons, List.sum_nil, Nat.add_zero]
  omega

/-- Every completed iteration of the search loop makes the trail heavier, and an iteration ends the search without an
answer only if a restart was triggered. -/
theorem searchIter_weight {s : Solver} (h : SInv F A s) {ch : Choice} (hch : ch.Valid) {out : IterOut}
    (he : searchIter s ch = some out) :
    match out with
    | .cont s' => s.trail.weight s.db.nVars < s'.trail.weight s.db.nVars
    | .done _ r => ch.restart = false → r ≠ none := by
  obtain ⟨ps, r, e1, e2, e3, e4, e5, e6, e7, e8, e9⟩ := propagateLoop_spec (A := A)
    (s.db.nVars + 1) ⟨s.db.store, s.watch, s.trail⟩ h.core h.watch h.limq (by omega)
  unfold searchIter at he
  rw [e1] at he
  simp only at e2 e3 e4 e5 e6 e7 e8 e9 he
  replace e9 := e9 h.cinv
  have hdb : DBOk F { s.db with store := ps.store } := h.db.perm e5
  have hunits : ∀ c, A c → ∀ l, (ps.store c).lits = [l] → l ∈ ps.T.stack ∧ ps.T.level l.var = 0 := by
    intro c hA l hl
    have hp := (e5 c).1
    rw [hl] at hp
    obtain ⟨a, b⟩ := h.units c hA l hp.symm.eq_singleton
    exact ⟨e4.mem a, (e4.level l a).trans b⟩
  have hnonempty : ∀ c, A c → (ps.store c).lits ≠ [] := by
    intro c hA hl
    have hp := (e5 c).1
    rw [hl] at hp
    exact h.nonempty c hA hp.symm.eq_nil
  have hab : ∀ l ∈ ps.T.assumptions, l.var < s.db.nVars := by
    rw [e4.assumptions]; exact h.asmBound
  have hasm : ∀ p ∈ ps.T.stack, ps.T.reason p.var = none → 0 < ps.T.level p.var →
      ps.T.level p.var ≤ ps.T.assumptions.length →
      ps.T.assumptions[ps.T.level p.var - 1]? = some p := by
    intro p hp hr h0 hle
    by_cases hm : p ∈ s.trail.stack
    · rw [e4.level p hm] at h0 hle ⊢
      rw [e4.reason p hm] at hr
      rw [e4.assumptions] at hle ⊢
      exact h.asm p hm hr h0 hle
    · exact (e4.new p hp hm hr).elim
  have hasmT : ∀ i p, ps.T.assumptions[i]? = some p → i < ps.T.decisionLevel →
      p ∈ ps.T.stack ∧ ps.T.level p.var ≤ i + 1 := by
    intro i p hip hi
    rw [e4.assumptions] at hip
    rw [e4.decisionLevel] at hi
    obtain ⟨a, b⟩ := h.asmTrue i p hip hi
    exact ⟨e4.mem a, by rw [e4.level p a]; exact b⟩
  -- propagation
  have hprop : s.trail.weight s.db.nVars ≤ ps.T.weight s.db.nVars := by
    obtain ⟨suf, hsuf⟩ := e4.stack
    rw [weight_ext h.core.tinv hsuf (ks := []) (by simpa using e4.lim) e4.level]
    exact Nat.le_add_right _ _
  have hlen : ps.T.stack.length ≤ s.db.nVars := by
    have := e2.tinv.length_le
    rw [e2.nv] at this; exact this
  cases r with
  | some confl =>
    simp only at he
    have hconf := e7 confl rfl
    by_cases hdl : ps.T.decisionLevel = 0
    · rw [if_pos hdl] at he
      simp only [Option.some.injEq] at he
      subst he
      simp
    · rw [if_neg hdl] at he
      obtain ⟨s', rr, l1, l2, l3, l4, l5, l6, l7, lw, lwr, l8, l9, l10, l11, l12, l13, l14, first, l15, l16, l17⟩ :=
        learnStep_spec (F := F) (A := A) (confl := confl)
        (s := { s with db := { s.db with store := ps.store }, watch := ps.watch, trail := ps.T })
        hdb e2 e3 e8 (e9.weaken (by
          intro c _ x y rr _ w _ hw
          exact Or.inl hw.2)) h.alt hunits hnonempty hab hasm hasmT (by simp only; omega) hconf
      rw [l3] at he
      simp only [Option.map_some, Option.some.injEq] at he
      subst he
      simp only at l2 l15 l16 l17 ⊢
      rw [l16]
      exact Nat.lt_of_le_of_lt hprop (weight_learn e2.tinv hlen l2 l15 _ l17)
  | none =>
    simp only at he
    have hq : ps.T.qhead = ps.T.stack.length := e6 rfl
    have hS : SInv F A { s with db := { s.db with store := ps.store }, watch := ps.watch,
                                trail := ps.T } :=
      ⟨hdb, e2, e3, e8, e9.weaken (by intro c _ x y rr _ w _ hw; exact (hw.1 rfl).elim), h.alt,
        hunits, hnonempty, hab, hasm, hasmT⟩
    by_cases hres : ch.restart = true
    · rw [if_pos hres] at he
      simp only [Option.some.injEq] at he
      subst he
      simp [hres]
    · rw [if_neg hres] at he
      generalize hout : assumeLoop ps.T (ps.T.assumptions.drop ps.T.decisionLevel) = out' at he
      obtain ⟨T', o⟩ := out'
      obtain ⟨a1, a2, a3, a4, a5, a6, a7⟩ := assumeLoop_spec _ _ hS hq rfl T' o hout
      obtain ⟨⟨ks, b1⟩, b2⟩ := assumeLoop_lim _ _ _ _ hout
      have hdec : ∀ p, T'.value p = none →
          s.trail.weight s.db.nVars < Trail.weight s.db.nVars (T'.newDecisionLevel.decide p) :=
        fun p hp => Nat.lt_of_le_of_lt hprop (weight_decide e2.tinv b1 a6 b2 hp a1.core.tinv)
      cases o with
      | failed p =>
        simp only [Option.some.injEq] at he
        subst he
        simp
      | next p =>
        simp only [Option.some.injEq] at he a7
        subst he
        exact hdec p a7.1
      | allSet =>
        simp only at he
        have hpick := hch T'
        cases hpk : ch.pick T' with
        | none =>
          rw [hpk] at he
          simp only [Option.some.injEq] at he
          subst he
          simp
        | some p =>
          rw [hpk] at he hpick
          simp only [Option.some.injEq] at he hpick
          subst he
          exact hdec p ((Trail.value_none_iff _ _).2 hpick.2.1)

theorem search_terminates : ∀ (fuel : Nat) (o : Nat → Choice) (s : Solver) (A : Nat → Prop), SInv F A s →
    (∀ i, (o i).Valid) →
    s.db.nVars * (s.db.nVars + 1) ^ (s.db.nVars + 1) < fuel + s.trail.weight s.db.nVars →
    ∃ s' r, search fuel o s = some (s', r) ∧ ((∀ i, (o i).restart = false) → r ≠ none)
  | 0, o, s, A, h, hv, hf => by
    have hl := h.core.tinv.length_le
    have hn := h.core.nv
    have := weight_le (T := s.trail) (n := s.db.nVars) (by omega)
    omega
  | fuel + 1, o, s, A, h, hv, hf => by
    obtain ⟨out, e1, e2⟩ := searchIter_spec h (hv 0)
    have hw := searchIter_weight h (hv 0) e1
    rw [search, e1]
    cases out with
    | done s' r =>
      exact ⟨s', r, rfl, fun hr => hw (hr 0)⟩
    | cont s' =>
      obtain ⟨f, _, _, A', _, hS, _⟩ := e2
      simp only at hw ⊢
      have hnv := f.nVars
      obtain ⟨s'', r, g1, g2⟩ := search_terminates fuel (fun i => o (i + 1)) s' A' hS
        (fun i => hv (i + 1)) (by rw [hnv]; omega)
      exact ⟨s'', r, g1, fun hr => g2 (fun i => hr (i + 1))⟩

end Candy
