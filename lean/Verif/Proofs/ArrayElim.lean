import Verif.Proofs.ArraySubsume
import Verif.Proofs.Elim

/-! Lemmas for C49: variable elimination on arrays. -/

namespace Candy

/-- The vectors of `VariableElimination` represent its state for `n` variables. -/
structure RepVE (n : Nat) (a : AVE) (ve : VE) : Prop where
  vars : a.vars = ve.vars
  clsLen : a.cls.length = n
  frLen : a.frozen.length = n
  cls : ∀ v < n, a.cls[v]? = some (ve.cls v)
  frozen : ∀ v < n, a.frozen[v]? = some (ve.frozen v)

theorem RepT.setDecisionVar {A : ATrail} {T : Trail} (h : RepT A T) {v : Nat} (hv : v < T.nVars) (b : Bool) :
    ∃ A', A.setDecisionVar v b = some A' ∧ RepT A' (T.setDecisionVar v b) := by
  refine ⟨_, if_pos (by rw [h.ld]; exact hv), ⟨h.vars, h.la, h.lv, h.lt, by simp only [List.length_set]; exact h.ld,
    h.assigns, h.data, ?_, h.size, h.stack, h.lim, h.qhead, h.asm⟩⟩
  intro w hw
  simp only [Trail.setDecisionVar, upd]
  by_cases e : w = v
  · subst e; simp [h.ld, hv]
  · rw [if_neg e, List.getElem?_set_ne (fun x => e x.symm)]; exact h.decision w hw

theorem mergeQ_mem {ps : List Lit} {v : Nat} : ∀ {qs r : List Lit}, mergeQ ps v qs = some r → ∀ l ∈ r, l ∈ qs
  | [], r, h, l, hl => by simp [mergeQ] at h; subst h; simp at hl
  | q :: qs, r, h, l, hl => by
    rw [mergeQ] at h
    split at h
    · exact List.mem_cons_of_mem _ (mergeQ_mem h l hl)
    · split at h
      · obtain ⟨r', h1, rfl⟩ := Option.map_eq_some_iff.1 h
        rcases List.mem_cons.1 hl with rfl | hl
        · simp
        · exact List.mem_cons_of_mem _ (mergeQ_mem h1 l hl)
      · split at h
        · simp at h
        · exact List.mem_cons_of_mem _ (mergeQ_mem h l hl)

theorem merge_mem {P Q r : List Lit} {v : Nat} (h : merge P Q v = some r) : ∀ l ∈ r, l ∈ P ∨ l ∈ Q := by
  unfold merge at h
  obtain ⟨r', h1, rfl⟩ := Option.map_eq_some_iff.1 h
  intro l hl
  rcases List.mem_append.1 hl with hl | hl
  · have := mergeQ_mem h1 l hl
    split at this <;> simp [this]
  · have := (List.mem_filter.1 hl).1
    split at this <;> simp [this]

theorem aSplit_sim {a : ASDB} {s : SDB} (h : RepO a s) (v : Nat) : ∀ (is : List Nat) {os : List (Nat × Nat)},
    liveOcc s is = some os →
    aSplit a v is = some (os.filter (fun x => decide ((⟨v, false⟩ : Lit) ∈ s.db.lits x.2)),
      os.filter (fun x => !decide ((⟨v, false⟩ : Lit) ∈ s.db.lits x.2))) ∧ ∀ x ∈ os, x.2 < s.db.next
  | [], os, he => by simp [liveOcc] at he; subst he; exact ⟨rfl, by simp⟩
  | i :: is, os, he => by
    rw [liveOcc] at he
    rw [aSplit, h.obj]
    cases hi : s.obj[i]? with
    | none => rw [hi] at he; simp at he
    | some x =>
      rw [hi] at he
      cases hr : liveOcc s is with
      | none => rw [hr] at he; cases x <;> simp at he
      | some r =>
        rw [hr] at he
        obtain ⟨h1, h2⟩ := aSplit_sim h v is hr
        cases x with
        | none => simp at he; subst he; exact ⟨h1, h2⟩
        | some c =>
          simp at he; subst he
          have hc := h.objLt _ _ hi
          dsimp only
          rw [h.store.get c hc, h1]
          refine ⟨?_, ?_⟩
          · simp only [List.filter_cons, Option.some.injEq]
            by_cases hm : (⟨v, false⟩ : Lit) ∈ s.db.lits c
            · simp [hm]
            · simp [hm]
          · intro x hx
            rcases List.mem_cons.1 hx with rfl | hx
            · exact hc
            · exact h2 x hx

theorem aCreateResolvents_sim {v : Nat} : ∀ (ps : List (Nat × Nat)) {a : ASDB} {s : SDB}, RepO a s →
    (∀ x ∈ ps, x.1 < s.db.next ∧ x.2 < s.db.next) →
    ∃ a', aCreateResolvents v ps a = some a' ∧ RepO a' (createResolvents v ps s) ∧
      (createResolvents v ps s).db.nVars = s.db.nVars
  | [], a, s, h, _ => ⟨a, rfl, h, rfl⟩
  | (p, n) :: ps, a, s, h, hp => by
    obtain ⟨p1, p2⟩ := hp (p, n) (by simp)
    rw [aCreateResolvents, h.store.get p p1, h.store.get n p2, createResolvents]
    dsimp only
    cases hm : merge (s.db.lits p) (s.db.lits n) v with
    | none => exact aCreateResolvents_sim ps h (fun x hx => hp x (by simp [hx]))
    | some r =>
      dsimp only
      obtain ⟨a1, e1, r1⟩ := h.create (ls := r)
        (lbd := min (min (s.db.store p).weight (s.db.store n).weight) ((r.length - 1) % 65536)) (by
        intro l hl
        rcases merge_mem hm l hl with hl | hl
        · exact h.lits p p1 l hl
        · exact h.lits n p2 l hl)
      rw [e1]
      have hx : ∀ lbd, (s.create r lbd).db.next = s.db.next + 1 := by
        intro lbd
        show (s.db.createClause r lbd).1.next = _
        simp
      obtain ⟨a2, e2, r2, n2⟩ := aCreateResolvents_sim ps r1 (fun x hx' => by
        obtain ⟨q1, q2⟩ := hp x (by simp [hx'])
        rw [hx]; omega)
      exact ⟨a2, e2, r2, n2.trans (SDB.create_nVars _ _ _)⟩

theorem aRemoveObjs_sim : ∀ (is : List Nat) {a : ASDB} {s : SDB}, RepO a s → ∀ {s' : SDB},
    removeAll is s = some s' → ∃ a', aRemoveObjs is a = some a' ∧ RepO a' s' ∧ s'.db.nVars = s.db.nVars
  | [], a, s, h, s', he => by
    simp only [removeAll, Option.some.injEq] at he
    subst he
    exact ⟨a, rfl, h, rfl⟩
  | i :: is, a, s, h, s', he => by
    rw [removeAll] at he
    rw [aRemoveObjs]
    split at he
    · simp at he
    · next s1 h1 =>
      obtain ⟨a1, e1, r1⟩ := h.remove h1
      rw [e1]
      obtain ⟨a2, e2, r2, n2⟩ := aRemoveObjs_sim is r1 he
      exact ⟨a2, e2, r2, n2.trans (SDB.remove_nVars h1)⟩

/-- Everything variable elimination uses is represented. -/
structure RepE (a : AVES) (st : VES) : Prop where
  s : RepO a.s st.s
  ve : RepVE st.s.db.nVars a.ve st.ve
  T : RepT a.T st.T
  nv : st.T.nVars = st.s.db.nVars

theorem RepVE.keep {n : Nat} {a : AVE} {ve : VE} (h : RepVE n a ve) {v : Nat} (hv : v < n) (xs ys : List Clause) :
    ∃ a', a.keep v (xs ++ ys) = some a' ∧
      RepVE n a' { ve with vars := ve.vars ++ [v], cls := upd ve.cls v (ve.cls v ++ xs ++ ys) } := by
  unfold AVE.keep
  rw [h.cls v hv]
  refine ⟨_, rfl, ⟨by simp [h.vars], by simpa using h.clsLen, h.frLen, ?_, h.frozen⟩⟩
  intro w hw
  simp only [upd]
  by_cases e : w = v
  · subst e; simp [h.clsLen, hv]
  · rw [if_neg e, List.getElem?_set_ne (fun x => e x.symm)]; exact h.cls w hw

theorem aEliminateVar_sim {lim : Nat} {a : AVES} {st : VES} (h : RepE a st) {v : Nat} (hv : v < st.s.db.nVars)
    {pos neg : List (Nat × Nat)} (hp : ∀ x ∈ pos, x.2 < st.s.db.next) (hn : ∀ x ∈ neg, x.2 < st.s.db.next)
    {st' : VES} {b : Bool} (he : eliminateVar lim st v pos neg = some (st', b)) :
    ∃ a', aEliminateVar lim a v pos neg = some (a', b) ∧ RepE a' st' ∧ st'.s.db.nVars = st.s.db.nVars ∧
      st'.T.stack = st.T.stack ∧ st'.T.lim = st.T.lim ∧ (st.T.Inv → st'.T.Inv) := by
  unfold eliminateVar at he
  unfold aEliminateVar
  split at he
  · next h0 =>
    rw [if_pos h0]
    simp only [Option.some.injEq, Prod.mk.injEq] at he
    obtain ⟨rfl, rfl⟩ := he
    exact ⟨a, rfl, h, rfl, rfl, rfl, id⟩
  · next h0 =>
    rw [if_neg h0, aRead_sim h.s.store _ (fun c hc => by obtain ⟨x, hx, rfl⟩ := List.mem_map.1 hc; exact hp x hx), aRead_sim h.s.store _ (fun c hc => by obtain ⟨x, hx, rfl⟩ := List.mem_map.1 hc; exact hn x hx)]
    have e1 : ∀ xs : List (Nat × Nat), ((xs.map Prod.snd).map st.s.db.store).map Cls.lits =
        xs.map (fun x => st.s.db.lits x.2) := by
      intro xs; simp [Function.comp_def]
    dsimp only at he ⊢
    rw [e1, e1]
    split at he
    · next hc =>
      simp only [hc]
      simp only [Option.some.injEq, Prod.mk.injEq] at he
      obtain ⟨rfl, rfl⟩ := he
      exact ⟨a, rfl, h, rfl, rfl, rfl, id⟩
    · next hc =>
      simp only [hc]
      simp only [Option.some.injEq, Prod.mk.injEq] at he
      obtain ⟨rfl, rfl⟩ := he
      exact ⟨a, rfl, h, rfl, rfl, rfl, id⟩
    · next hc =>
      simp only [hc]
      obtain ⟨ve', k1, k2⟩ := h.ve.keep hv (neg.map fun x => st.s.db.lits x.2) (pos.map fun x => st.s.db.lits x.2)
      rw [k1]
      dsimp only
      obtain ⟨a1, c1, c2, c3⟩ := aCreateResolvents_sim (v := v) (pairs (pos.map Prod.snd) (neg.map Prod.snd)) h.s (by
        intro x hx
        obtain ⟨m1, m2⟩ := mem_pairs.1 hx
        obtain ⟨y, hy, e⟩ := List.mem_map.1 m1
        obtain ⟨z, hz, e'⟩ := List.mem_map.1 m2
        rw [← e, ← e']
        exact ⟨hp y hy, hn z hz⟩)
      rw [c1]
      dsimp only
      split at he
      · simp at he
      · next s2 h2 =>
        obtain ⟨a2, d1, d2, d3⟩ := aRemoveObjs_sim _ c2 h2
        rw [d1]
        dsimp only
        obtain ⟨A', t1, t2⟩ := h.T.setDecisionVar (v := v) (by rw [h.nv]; exact hv) false
        rw [t1]
        simp only [Option.some.injEq, Prod.mk.injEq] at he
        obtain ⟨rfl, rfl⟩ := he
        have hnn := d3.trans c3
        refine ⟨_, rfl, ⟨d2, ?_, t2, ?_⟩, hnn, rfl, rfl, fun hi => ?_⟩
        · dsimp only; rw [hnn]; exact k2
        · exact h.nv.trans hnn.symm
        · exact ⟨hi.val, hi.nodup, hi.bound, hi.limSorted, hi.limLe, hi.lev, hi.qle⟩

theorem aEliminateStep_sim {lim : Nat} {a : AVES} {st : VES} (h : RepE a st) {v : Nat} (hv : v < st.s.db.nVars)
    {st' : VES} {b : Bool} (he : eliminateStep lim st v = some (st', b)) :
    ∃ a', aEliminateStep lim a v = some (a', b) ∧ RepE a' st' ∧ st'.s.db.nVars = st.s.db.nVars ∧
      st'.T.stack = st.T.stack ∧ st'.T.lim = st.T.lim ∧ (st.T.Inv → st'.T.Inv) := by
  unfold eliminateStep at he
  unfold aEliminateStep
  rw [h.T.assigns v (by rw [h.nv]; exact hv)]
  cases hA : st.T.assigns v with
  | none =>
    rw [if_pos hA] at he
    dsimp only
    rw [h.s.occ v hv]
    dsimp only
    split at he
    · simp at he
    · next os hos =>
      obtain ⟨s1, s2⟩ := aSplit_sim h.s v _ hos
      rw [s1]
      exact aEliminateVar_sim h hv (fun x hx => s2 x (List.mem_filter.1 hx).1)
        (fun x hx => s2 x (List.mem_filter.1 hx).1) he
  | some c =>
    rw [if_neg (by rw [hA]; simp)] at he
    simp only [Option.some.injEq, Prod.mk.injEq] at he
    obtain ⟨rfl, rfl⟩ := he
    exact ⟨a, rfl, h, rfl, rfl, rfl, id⟩

theorem aEliminateList_sim {lim : Nat} : ∀ (vs : List Nat) {a : AVES} {st : VES}, RepE a st →
    (∀ v ∈ vs, v < st.s.db.nVars) → ∀ {st' : VES} {b : Bool}, eliminateList lim vs st = some (st', b) →
    ∃ a', aEliminateList lim vs a = some (a', b) ∧ RepE a' st' ∧ st'.s.db.nVars = st.s.db.nVars ∧
      st'.T.stack = st.T.stack ∧ st'.T.lim = st.T.lim ∧ (st.T.Inv → st'.T.Inv)
  | [], a, st, h, _, st', b, he => by
    simp only [eliminateList, Option.some.injEq, Prod.mk.injEq] at he
    obtain ⟨rfl, rfl⟩ := he
    exact ⟨a, rfl, h, rfl, rfl, rfl, id⟩
  | v :: vs, a, st, h, hv, st', b, he => by
    rw [eliminateList] at he
    rw [aEliminateList]
    split at he
    · simp at he
    · next s1 h1 =>
      obtain ⟨a1, e1, r1, rest⟩ := aEliminateStep_sim h (hv v (by simp)) h1
      rw [e1]
      simp only [Option.some.injEq, Prod.mk.injEq] at he
      obtain ⟨rfl, rfl⟩ := he
      exact ⟨a1, rfl, r1, rest⟩
    · next s1 h1 =>
      obtain ⟨a1, e1, r1, n1, k1, l1, i1⟩ := aEliminateStep_sim h (hv v (by simp)) h1
      rw [e1]
      obtain ⟨a2, e2, r2, n2, k2, l2, i2⟩ := aEliminateList_sim vs r1
        (fun w hw => by rw [n1]; exact hv w (by simp [hw])) he
      exact ⟨a2, e2, r2, n2.trans n1, k2.trans k1, l2.trans l1, fun hi => i2 (i1 hi)⟩

theorem aFreeze_sim {n : Nat} : ∀ (ls : List Lit) {f : List Bool} {g : Nat → Bool}, f.length = n →
    (∀ v < n, f[v]? = some (g v)) → (∀ l ∈ ls, l.var < n) →
    ∃ f', aFreeze ls f = some f' ∧ f'.length = n ∧
      ∀ v < n, f'[v]? = some (ls.foldl (fun f l => upd f l.var true) g v)
  | [], f, g, hn, hf, _ => ⟨f, rfl, hn, hf⟩
  | l :: ls, f, g, hn, hf, hl => by
    have hv := hl l (by simp)
    rw [aFreeze, if_pos (by rw [hn]; exact hv)]
    exact aFreeze_sim ls (g := upd g l.var true) (by simpa using hn) (by
      intro w hw
      simp only [upd]
      by_cases e : w = l.var
      · subst e; simp [hn, hv]
      · rw [if_neg e, List.getElem?_set_ne (fun x => e x.symm)]; exact hf w hw) (fun x hx => hl x (by simp [hx]))

theorem AVE.grow_id {ve : AVE} {n : Nat} (h : ve.frozen.length = n) : ve.grow n = ve := by
  unfold AVE.grow
  rw [if_neg (by omega)]

theorem RepVE.freeze {a : AVE} {ve : VE} {A : ATrail} {T : Trail} (h : RepVE T.nVars a ve) (hT : RepT A T)
    (hl : ∀ l ∈ T.assumptions, l.var < T.nVars) :
    ∃ a', a.freeze A = some a' ∧ RepVE T.nVars a' (ve.freeze T) := by
  unfold AVE.freeze
  rw [hT.vars, AVE.grow_id h.frLen, hT.asm]
  obtain ⟨f', e1, e2, e3⟩ := aFreeze_sim T.assumptions h.frLen h.frozen hl
  rw [e1]
  exact ⟨_, rfl, ⟨h.vars, h.clsLen, e2, h.cls, e3⟩⟩

theorem RepVE.candidates {n : Nat} {a : AVE} {ve : VE} (h : RepVE n a ve) : ∀ (k v : Nat), v + k ≤ n →
    a.candidates v k = some ((List.range' v k).filter fun w => !ve.frozen w && !ve.isEliminated w)
  | 0, v, _ => rfl
  | k + 1, v, hk => by
    have ih := RepVE.candidates h k (v + 1) (by omega)
    rw [AVE.candidates, h.frozen v (by omega), List.range'_succ, List.filter_cons]
    cases hf : ve.frozen v with
    | true => simp [ih]
    | false =>
      dsimp only
      rw [h.cls v (by omega), ih]
      unfold VE.isEliminated
      cases hc : (ve.cls v).isEmpty <;> simp [hc]

theorem aEliminateAll_sim {active : Bool} {lim : Nat} {order : (Nat → Nat) → List Nat → List Nat}
    (ho : ∀ f xs, ∀ x ∈ order f xs, x ∈ xs) {a : AVES} {st : VES} (h : RepE a st)
    (hl : ∀ l ∈ st.T.assumptions, l.var < st.T.nVars)
    {st' : VES} {b : Bool} (he : eliminateAll active lim order st = some (st', b)) :
    ∃ a', aEliminateAll active lim order a = some (a', b) ∧ RepE a' st' ∧ st'.s.db.nVars = st.s.db.nVars ∧
      st'.T.stack = st.T.stack ∧ st'.T.lim = st.T.lim ∧ (st.T.Inv → st'.T.Inv) := by
  unfold eliminateAll at he
  unfold aEliminateAll
  obtain ⟨ve', f1, f2⟩ := RepVE.freeze (by rw [h.nv]; exact h.ve) h.T hl
  rw [f1]
  dsimp only at he ⊢
  have hr : RepE { a with ve := ve' } { st with ve := st.ve.freeze st.T } :=
    ⟨h.s, by show RepVE st.s.db.nVars ve' (st.ve.freeze st.T); rw [← h.nv]; exact f2, h.T, h.nv⟩
  split at he
  · next ha =>
    rw [if_pos ha, f2.frLen, f2.candidates st.T.nVars 0 (by omega), ← List.range_eq_range']
    have hc : (List.range st.T.nVars).filter (fun w => !(st.ve.freeze st.T).frozen w &&
        !(st.ve.freeze st.T).isEliminated w) = (st.ve.freeze st.T).candidates st.T := rfl
    rw [hc]
    have hb : ∀ v ∈ (st.ve.freeze st.T).candidates st.T, v < st.T.nVars := by
      intro v hv
      have := (List.mem_filter.1 hv).1
      simpa using this
    have hocc : (fun v => (a.s.occ.getD v []).length) = fun v => (st.s.occ v).length := by
      funext v
      rw [List.getD_eq_getElem?_getD]
      by_cases hv : v < st.s.db.nVars
      · rw [h.s.occ v hv]; rfl
      · rw [List.getElem?_eq_none (by rw [h.s.occLen]; omega), h.s.occOut v (by omega)]; rfl
    dsimp only
    unfold aSort
    rw [if_pos (by
      rw [List.all_eq_true]
      intro v hv
      have := hb v hv
      rw [h.nv] at this
      simp only [h.s.occLen, this, decide_true])]
    dsimp only
    rw [hocc]
    exact aEliminateList_sim _ hr (fun v hv => by
      have := hb v (ho _ _ v hv)
      rw [h.nv] at this; exact this) he
  · next ha =>
    rw [if_neg ha]
    simp only [Option.some.injEq, Prod.mk.injEq] at he
    obtain ⟨rfl, rfl⟩ := he
    exact ⟨_, rfl, hr, rfl, rfl, rfl, id⟩

/-! ### reset -/

theorem RepVE.undo {n : Nat} {a : AVE} {ve : VE} (h : RepVE n a ve) {A : ATrail} {T : Trail} (hT : RepT A T)
    (hn : T.nVars = n) {v : Nat} (hv : v < n) :
    ∃ a' A', a.undo A v = some ((ve.undo T v).1, a', A') ∧ RepVE n a' (ve.undo T v).2.1 ∧
      RepT A' (ve.undo T v).2.2 := by
  obtain ⟨A', t1, t2⟩ := hT.setDecisionVar (v := v) (by rw [hn]; exact hv) true
  unfold AVE.undo
  rw [h.cls v hv, t1]
  refine ⟨_, _, rfl, ⟨by simp [h.vars, VE.undo], by simpa using h.clsLen, h.frLen, ?_, h.frozen⟩, t2⟩
  intro w hw
  simp only [VE.undo, upd]
  by_cases e : w = v
  · subst e; simp [h.clsLen, hv]
  · rw [if_neg e, List.getElem?_set_ne (fun x => e x.symm)]; exact h.cls w hw

theorem RepVE.setFrozen {n : Nat} {a : AVE} {ve : VE} (h : RepVE n a ve) {v : Nat} (hv : v < n) :
    RepVE n { a with frozen := a.frozen.set v true } { ve with frozen := upd ve.frozen v true } := by
  refine ⟨h.vars, h.clsLen, by simpa using h.frLen, h.cls, ?_⟩
  intro w hw
  simp only [upd]
  by_cases e : w = v
  · subst e; simp [h.frLen, hv]
  · rw [if_neg e, List.getElem?_set_ne (fun x => e x.symm)]; exact h.frozen w hw

theorem RepVE.resetLoop {n : Nat} : ∀ (ls : List Lit) {a : AVE} {ve : VE} {A : ATrail} {T : Trail} (acc : List Clause),
    RepVE n a ve → RepT A T → T.nVars = n → (∀ l ∈ ls, l.var < n) →
    ∃ a' A', AVE.resetLoop ls a A acc = some ((VE.resetLoop ls ve T acc).1, a', A') ∧
      RepVE n a' (VE.resetLoop ls ve T acc).2.1 ∧ RepT A' (VE.resetLoop ls ve T acc).2.2
  | [], a, ve, A, T, acc, h, hT, _, _ => ⟨a, A, rfl, h, hT⟩
  | l :: ls, a, ve, A, T, acc, h, hT, hn, hl => by
    have hv := hl l (by simp)
    have hl' : ∀ x ∈ ls, x.var < n := fun x hx => hl x (by simp [hx])
    have h1 := h.setFrozen hv
    rw [AVE.resetLoop, if_pos (by rw [h.frLen]; exact hv), h.cls _ hv, VE.resetLoop]
    dsimp only
    have hE : VE.isEliminated { ve with frozen := upd ve.frozen l.var true } l.var = !(ve.cls l.var).isEmpty := rfl
    rw [hE]
    cases hc : ve.cls l.var with
    | nil =>
      simp only [List.isEmpty_nil, Bool.not_true, Bool.false_eq_true, if_false]
      exact RepVE.resetLoop ls acc h1 hT hn hl'
    | cons c cs =>
      simp only [List.isEmpty_cons, Bool.not_false, if_true]
      obtain ⟨a2, A2, u1, u2, u3⟩ := h1.undo hT hn hv
      rw [u1]
      exact RepVE.resetLoop ls _ u2 u3 hn hl'

/-- Before `reset` the vectors may be shorter than the number of variables; nothing is eliminated there. -/
structure RepVE0 (n : Nat) (a : AVE) (ve : VE) : Prop where
  vars : a.vars = ve.vars
  len : a.cls.length = a.frozen.length
  le : a.frozen.length ≤ n
  cls : ∀ v < a.frozen.length, a.cls[v]? = some (ve.cls v)
  out : ∀ v ≥ a.frozen.length, ve.cls v = []

theorem RepVE0.reset {a : AVE} {ve : VE} {A : ATrail} {T : Trail} (h : RepVE0 T.nVars a ve) (hT : RepT A T)
    (hl : ∀ l ∈ T.assumptions, l.var < T.nVars) :
    ∃ a' A', a.reset A = some ((ve.reset T).1, a', A') ∧ RepVE T.nVars a' (ve.reset T).2.1 ∧
      RepT A' (ve.reset T).2.2 := by
  unfold AVE.reset VE.reset
  rw [hT.asm, hT.vars]
  refine RepVE.resetLoop T.assumptions [] ?_ hT rfl hl
  have hlen : (a.frozen.map fun _ => false).length = a.frozen.length := by simp
  by_cases hg : T.nVars > a.frozen.length
  · have e : AVE.grow { a with frozen := a.frozen.map fun _ => false } T.nVars =
        ⟨a.vars, ATrail.grow a.cls T.nVars [], ATrail.grow (a.frozen.map fun _ => false) T.nVars false⟩ := by
      unfold AVE.grow
      rw [if_pos (by rw [hlen]; exact hg)]
    rw [e]
    refine ⟨h.vars, by simp [ATrail.grow, h.len]; omega, by simp [ATrail.grow]; omega, ?_, ?_⟩
    · intro v hv
      simp only [ATrail.grow]
      rw [List.getElem?_append]
      by_cases e : v < a.cls.length
      · rw [if_pos e]; exact h.cls v (by rw [← h.len]; exact e)
      · rw [if_neg e, List.getElem?_replicate, if_pos (by omega), h.out v (by rw [← h.len]; omega)]
    · intro v hv
      simp only [ATrail.grow]
      rw [List.getElem?_append]
      by_cases e : v < (a.frozen.map fun _ => false).length
      · rw [if_pos e]; rw [hlen] at e; simp [e]
      · rw [if_neg e, List.getElem?_replicate, if_pos (by omega)]
  · have e : AVE.grow { a with frozen := a.frozen.map fun _ => false } T.nVars =
        { a with frozen := a.frozen.map fun _ => false } := by
      unfold AVE.grow
      rw [if_neg (by rw [hlen]; exact hg)]
    rw [e]
    have hle := h.le
    have hx : a.frozen.length = T.nVars := by omega
    refine ⟨h.vars, by rw [← hx]; exact h.len, by rw [← hx]; exact hlen, ?_, ?_⟩
    · intro v hv; exact h.cls v (by rw [hx]; exact hv)
    · intro v hv
      have : v < a.frozen.length := by omega
      simp [this]

end Candy
